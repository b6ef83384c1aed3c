{
 "claims": [
  {
   "property": "C01",
   "status": "proved",
   "theorems": [
    "Gel.Cbuf.C01_single_element_fifo",
    "Gel.Cbuf.C01_init_refused"
   ],
   "note": "every n >= 1, every history; init with size 0 is refused"
  },
  {
   "property": "C02",
   "status": "partial",
   "theorems": [
    "Gel.Cbuf.C02_C03_history_partial",
    "Gel.Cbuf.C02_puts_partial",
    "Gel.Cbuf.C02_puts_overflow",
    "Gel.Cbuf.C02_overflow_history"
   ],
   "note": "true unless exactly one element more than fits is offered and the last free segment ends at the tail; there the code reports one element too many and leaves the buffer empty, which is proved (C02_puts_overflow, C02_overflow_history)"
  },
  {
   "property": "C03",
   "status": "partial",
   "theorems": [
    "Gel.Cbuf.C02_C03_history_partial",
    "Gel.Cbuf.C03_bulk_read_partial",
    "Gel.Cbuf.C03_gets_full_buffer",
    "Gel.Cbuf.C03_full_history"
   ],
   "note": "true unless a full buffer is asked for more than it holds; there bufsize elements including a stale one are returned and the buffer stays full, which is proved"
  },
  {
   "property": "C04",
   "status": "partial",
   "theorems": [
    "Gel.Cbuf.C04_size_partial",
    "Gel.Cbuf.C04_size_full"
   ],
   "note": "exact in every reachable state that is not full; when full it reports one element too many, above the capacity, which is proved for every buffer size"
  },
  {
   "property": "C05",
   "status": "proved",
   "theorems": [
    "Gel.Cbuf.C05_memory_safe",
    "Gel.Cbuf.C05_read_frame"
   ],
   "note": ""
  },
  {
   "property": "C06",
   "status": "proved",
   "theorems": [
    "Gel.Cbuf.Conc.C06_spsc_fifo",
    "Gel.Cbuf.Conc.C06_refusals",
    "Gel.Cbuf.Conc.C06_race_free"
   ],
   "note": "sequentially consistent interleavings of individual accesses"
  },
  {
   "property": "C07",
   "status": "partial",
   "theorems": [
    "Gel.Cbuf.Conc.C07_puts_livelock",
    "Gel.Cbuf.Conc.C07_puts_returns_partial",
    "Gel.Cbuf.Conc.C07_sequential_partial"
   ],
   "note": "false in general: a puts overtaken by getc loops for ever (livelock proved for every n >= 2); returns when it fits at its snapshot"
  },
  {
   "property": "C87",
   "status": "proved",
   "theorems": [
    "Gel.Cbuf.Conc.C87_bulk_spsc"
   ],
   "note": ""
  },
  {
   "property": "C08",
   "status": "proved",
   "theorems": [
    "Gel.Queue.C08_fifo"
   ],
   "note": ""
  },
  {
   "property": "C09",
   "status": "partial",
   "theorems": [
    "Gel.Queue.C09_count_exact",
    "Gel.Queue.C09_count_partial",
    "Gel.Queue.C09_count_wrong"
   ],
   "note": "true only while both 16-bit indices have wrapped equally often; the exact returned value is proved for every reachable state, and that it is wrong in the others"
  },
  {
   "property": "C10",
   "status": "partial",
   "theorems": [
    "Gel.Queue.C10_power_of_two_partial",
    "Gel.Queue.C10_other_capacities_wrong",
    "Gel.Queue.C10_exact"
   ],
   "note": "true for powers of two up to 32768 only; every other capacity is proved to lose data"
  },
  {
   "property": "C11",
   "status": "proved",
   "theorems": [
    "Gel.Stack.C11_stack"
   ],
   "note": ""
  },
  {
   "property": "C12",
   "status": "partial",
   "theorems": [
    "Gel.Stack.C12_peek_partial",
    "Gel.Stack.C12_peek_wrong",
    "Gel.Stack.C12_peek_full"
   ],
   "note": "false: peek reads the slot above the top; on a full stack it reads out of bounds"
  },
  {
   "property": "C13",
   "status": "proved",
   "theorems": [
    "Gel.Listx.C13_history",
    "Gel.Listx.C13_calls"
   ],
   "note": ""
  },
  {
   "property": "C14",
   "status": "proved",
   "theorems": [
    "Gel.Listx.C14_iteration",
    "Gel.Listx.C14_queries"
   ],
   "note": ""
  },
  {
   "property": "C15",
   "status": "proved",
   "theorems": [
    "Gel.Listx.C15_delete_while_iterating"
   ],
   "note": ""
  },
  {
   "property": "C16",
   "status": "proved",
   "theorems": [
    "Gel.Crc.C16_remainder"
   ],
   "note": ""
  },
  {
   "property": "C17",
   "status": "proved",
   "theorems": [
    "Gel.Crc.C17_remainder"
   ],
   "note": ""
  },
  {
   "property": "C18",
   "status": "proved",
   "theorems": [
    "Gel.Crc.C18_segments"
   ],
   "note": ""
  },
  {
   "property": "C19",
   "status": "proved",
   "theorems": [
    "Gel.Crc.C19_burst"
   ],
   "note": ""
  },
  {
   "property": "C20",
   "status": "proved",
   "theorems": [
    "Gel.Crc.C20_residue"
   ],
   "note": ""
  },
  {
   "property": "C21",
   "status": "proved",
   "theorems": [
    "Gel.Crc.C21_odd_and_double"
   ],
   "note": ""
  },
  {
   "property": "C88",
   "status": "proved",
   "theorems": [
    "Gel.Crc.C88_double"
   ],
   "note": ""
  },
  {
   "property": "C22",
   "status": "proved",
   "theorems": [
    "Gel.Serial.C22_unsigned",
    "Gel.Serial.C22_out_of_bounds"
   ],
   "note": ""
  },
  {
   "property": "C23",
   "status": "partial",
   "theorems": [
    "Gel.Serial.C23_signed_partial",
    "Gel.Serial.C23_negative",
    "Gel.Serial.C23_gnu",
    "Gel.Serial.C23_exact"
   ],
   "note": "negative 32 and 64 bit values shift into the sign bit, undefined in standard C, which is proved; with GCC's definition of the shift the property holds in full (C23_gnu)"
  },
  {
   "property": "C24",
   "status": "proved",
   "theorems": [
    "Gel.Serial.C24_packet"
   ],
   "note": ""
  },
  {
   "property": "C89",
   "status": "proved",
   "theorems": [
    "Gel.Serial.C89_pack"
   ],
   "note": ""
  },
  {
   "property": "C25",
   "status": "proved",
   "theorems": [
    "Gel.Debounce.C25_rule"
   ],
   "note": ""
  },
  {
   "property": "C26",
   "status": "proved",
   "theorems": [
    "Gel.Debounce.C26_reports",
    "Gel.Debounce.C26_independent"
   ],
   "note": ""
  },
  {
   "property": "C27",
   "status": "partial",
   "theorems": [
    "Gel.Debounce.C27_set_partial",
    "Gel.Debounce.C27_set_wrong",
    "Gel.Debounce.C140_exact"
   ],
   "note": "false: the set leaves the counters of pending changes running; proved when nothing is pending, and the failure proved for every debounce value > 0"
  },
  {
   "property": "C90",
   "status": "proved",
   "theorems": [
    "Gel.Debounce.C90_varying"
   ],
   "note": ""
  },
  {
   "property": "C91",
   "status": "partial",
   "theorems": [
    "Gel.Debounce.C91_strict_partial",
    "Gel.Pulse.C91_pulse_partial"
   ],
   "note": "false: 1 << 31 on int (1 << (w-1) with int of w bits); proved that exactly the calls that change the last input are undefined, all others agree"
  },
  {
   "property": "C28",
   "status": "proved",
   "theorems": [
    "Gel.Pulse.C28_counts",
    "Gel.Pulse.C28_out_of_range"
   ],
   "note": ""
  },
  {
   "property": "C29",
   "status": "partial",
   "theorems": [
    "Gel.Pulse.C29_init_partial",
    "Gel.Pulse.C29_init_wrong"
   ],
   "note": "false: the debounce counters are not initialised; everything else is, and the failure is proved"
  },
  {
   "property": "C30",
   "status": "proved",
   "theorems": [
    "Gel.Keypad.C30_life_cycle",
    "Gel.Keypad.C30_next"
   ],
   "note": ""
  },
  {
   "property": "C31",
   "status": "partial",
   "theorems": [
    "Gel.Keypad.C31_partial",
    "Gel.Keypad.C31_press_again"
   ],
   "note": "false: no RELEASE when a key is pressed again within the click time after CLICK; proved that PRESS is never directly followed by PRESS, and the failure for every key and threshold"
  },
  {
   "property": "C32",
   "status": "proved",
   "theorems": [
    "Gel.Keypad.C32_times"
   ],
   "note": ""
  },
  {
   "property": "C33",
   "status": "partial",
   "theorems": [
    "Gel.Keypad.C33_state_partial",
    "Gel.Keypad.C33_state_wrong",
    "Gel.Keypad.C120_exact"
   ],
   "note": "false for tables with several keys, which is proved; proved for tables of one key; exact for all tables with distinct bitmaps (C120)"
  },
  {
   "property": "C34",
   "status": "proved",
   "theorems": [
    "Gel.Keypad.C34_press"
   ],
   "note": ""
  },
  {
   "property": "C53",
   "status": "proved",
   "theorems": [
    "Gel.Time.C53_expired",
    "Gel.Time.C53_bound"
   ],
   "note": ""
  },
  {
   "property": "C54",
   "status": "proved",
   "theorems": [
    "Gel.Time.C54_interval"
   ],
   "note": ""
  },
  {
   "property": "C55",
   "status": "partial",
   "theorems": [
    "Gel.Time.C55_wide_partial",
    "Gel.Time.C55_narrow",
    "Gel.Time.C55_between",
    "Gel.Time.C55_time_after"
   ],
   "note": "false for types narrower than long: proved that the checks never fire there after a wrap; wide types are correct within half of long's range"
  },
  {
   "property": "C56",
   "status": "proved",
   "theorems": [
    "Gel.Stopwatch.C56_elapsed",
    "Gel.Stopwatch.C56_time"
   ],
   "note": ""
  },
  {
   "property": "C57",
   "status": "proved",
   "theorems": [
    "Gel.Stopwatch.C57_reached",
    "Gel.Stopwatch.C57_long_period"
   ],
   "note": ""
  },
  {
   "property": "C58",
   "status": "proved",
   "theorems": [
    "Gel.Stopwatch.C58_transitions"
   ],
   "note": ""
  },
  {
   "property": "C59",
   "status": "proved",
   "theorems": [
    "Gel.Timer.C59_one_shot",
    "Gel.Timer.C59_stop"
   ],
   "note": ""
  },
  {
   "property": "C60",
   "status": "proved",
   "theorems": [
    "Gel.Timer.C60_autoreload",
    "Gel.Timer.C60_set_autoreload"
   ],
   "note": ""
  },
  {
   "property": "C61",
   "status": "proved",
   "theorems": [
    "Gel.Timer.C61_pause_reset_change"
   ],
   "note": ""
  },
  {
   "property": "C92",
   "status": "partial",
   "theorems": [
    "Gel.Timer.C92_paused_partial",
    "Gel.Timer.C92_exact",
    "Gel.Timer.C92_paused_wrong"
   ],
   "note": "false when the period was already over when the timer was paused, which is proved; proved otherwise"
  },
  {
   "property": "C35",
   "status": "proved",
   "theorems": [
    "Gel.Param.C35_limits",
    "Gel.Param.C35_null",
    "Gel.Param.C35_which_limits"
   ],
   "note": ""
  },
  {
   "property": "C36",
   "status": "partial",
   "theorems": [
    "Gel.Param.C36_partial",
    "Gel.Param.C36_exact",
    "Gel.Param.C36_value_exact",
    "Gel.Param.C36_defined_exact",
    "Gel.Param.C36_wrong",
    "Gel.Param.C36_undefined"
   ],
   "note": "false when the exact sum is no value of the type and wraps back into the limits (proved); undefined for int32_t and int64_t (proved); proved whenever no type overflows"
  },
  {
   "property": "C37",
   "status": "proved",
   "theorems": [
    "Gel.Param.C37_repair",
    "Gel.Param.outside_int"
   ],
   "note": "the handles are taken as their own runtime callbacks leave them"
  },
  {
   "property": "C38",
   "status": "proved",
   "theorems": [
    "Gel.Param.C38_defaults"
   ],
   "note": ""
  },
  {
   "property": "C39",
   "status": "partial",
   "theorems": [
    "Gel.Param.C39_partial",
    "Gel.Param.C39_exact",
    "Gel.Param.C39_wrong"
   ],
   "note": "false for handles with access level 0 (lookup finds them, counting does not) and for num >= length (assertion fails); both proved"
  },
  {
   "property": "C40",
   "status": "partial",
   "theorems": [
    "Gel.Param.C40_partial",
    "Gel.Param.C40_wrong",
    "Gel.Param.C40_exact"
   ],
   "note": "false for every negative int8_t value, which is proved"
  },
  {
   "property": "C41",
   "status": "partial",
   "theorems": [
    "Gel.Param.C41_partial",
    "Gel.Param.C41_exact",
    "Gel.Param.C41_value_exact",
    "Gel.Param.C41_small",
    "Gel.Param.C41_wrong"
   ],
   "note": "false for the full range of uint32_t and undefined for large ranges of int32_t and int64_t, which is proved"
  },
  {
   "property": "C42",
   "status": "proved",
   "theorems": [
    "Gel.Param.C42_copies"
   ],
   "note": ""
  },
  {
   "property": "C93",
   "status": "partial",
   "theorems": [
    "Gel.Param.C93_macro_partial",
    "Gel.Param.C93_macro_wrong",
    "Gel.Param.C93_exact"
   ],
   "note": "false for 64-bit types: every value outside 0..2^32-1 loses its upper half, which is proved"
  },
  {
   "property": "C94",
   "status": "partial",
   "theorems": [
    "Gel.Param.C94_bool_partial",
    "Gel.Param.C94_bool_wrong",
    "Gel.Param.C94_bool_exact"
   ],
   "note": "false for 64-bit parameters on a platform with 32-bit size_t, which is proved; exact condition for every width proved"
  },
  {
   "property": "C43",
   "status": "proved",
   "theorems": [
    "Gel.Wear.C43_read"
   ],
   "note": ""
  },
  {
   "property": "C44",
   "status": "partial",
   "theorems": [
    "Gel.Wear.C44_partial",
    "Gel.Wear.C44_lost"
   ],
   "note": "false: a restart while the last of several blocks is active brings back block 0, which is proved (and that a further write and restart are lost too); proved for all other restarts"
  },
  {
   "property": "C45",
   "status": "proved",
   "theorems": [
    "Gel.Wear.C45_one",
    "Gel.Wear.C45_even"
   ],
   "note": ""
  },
  {
   "property": "C46",
   "status": "partial",
   "theorems": [
    "Gel.Wear.C46_partial",
    "Gel.Wear.C46_wrong",
    "Gel.Wear.C46_exact"
   ],
   "note": "false for several blocks when the device refuses the write: reads then come from the next block, which is proved; proved for a failing read and for one block"
  },
  {
   "property": "C47",
   "status": "partial",
   "theorems": [
    "Gel.Wear.C47_partial",
    "Gel.Wear.C47_reached",
    "Gel.Wear.C47_wrong",
    "Gel.Wear.C47_exact"
   ],
   "note": "false when the last of several blocks is active, which is proved; proved otherwise; what is read after the restart is characterised exactly for both crash points (C47_exact)"
  },
  {
   "property": "C48",
   "status": "partial",
   "theorems": [
    "Gel.Wear.C48_partial",
    "Gel.Wear.C48_exact",
    "Gel.Wear.C48_wrong"
   ],
   "note": "false: the error code becomes the block index, which is proved for every code; only codes between 1 and n-1 give a valid index"
  },
  {
   "property": "C49",
   "status": "partial",
   "theorems": [
    "Gel.Wear.C49_partial",
    "Gel.Wear.C49_exact",
    "Gel.Wear.C49_wrong"
   ],
   "note": "false when the next block holds a different rest, which is proved exactly; proved otherwise"
  },
  {
   "property": "C50",
   "status": "proved",
   "theorems": [
    "Gel.EventLog.C50_load",
    "Gel.EventLog.C50_window"
   ],
   "note": "max_events below 2^31, as the result is an int"
  },
  {
   "property": "C51",
   "status": "proved",
   "theorems": [
    "Gel.EventLog.C51_refused",
    "Gel.EventLog.C51_history"
   ],
   "note": ""
  },
  {
   "property": "C52",
   "status": "partial",
   "theorems": [
    "Gel.EventLog.C52_partial",
    "Gel.EventLog.C52_wrong"
   ],
   "note": "false: an error of the second call is added to the count of the first, which is proved; proved for the first or only call"
  },
  {
   "property": "C95",
   "status": "partial",
   "theorems": [
    "Gel.EventLog.C95_all_partial",
    "Gel.EventLog.C95_wrong",
    "Gel.EventLog.C146_overflow"
   ],
   "note": "false when jump+number overflows: the storage is asked for number events, which is proved; proved without overflow"
  },
  {
   "property": "C62",
   "status": "proved",
   "theorems": [
    "Gel.Watcher.C62_fresh",
    "Gel.Watcher.C62_immediate",
    "Gel.Watcher.C62_moved"
   ],
   "note": ""
  },
  {
   "property": "C63",
   "status": "proved",
   "theorems": [
    "Gel.Watcher.C63_delayed",
    "Gel.Watcher.C63_alone"
   ],
   "note": ""
  },
  {
   "property": "C64",
   "status": "partial",
   "theorems": [
    "Gel.Watcher.C64_partial",
    "Gel.Watcher.C64_exact",
    "Gel.Watcher.C64_wrong"
   ],
   "note": "false: a pending notification of a delayed watcher is not cancelled when its bytes did not change again, which is proved; proved otherwise"
  },
  {
   "property": "C96",
   "status": "partial",
   "theorems": [
    "Gel.Watcher.C96_packed_partial",
    "Gel.Watcher.C96_wrong",
    "Gel.Watcher.C96_exact"
   ],
   "note": "false from 256 bytes or a delay of 65536 on, which is proved"
  },
  {
   "property": "C97",
   "status": "partial",
   "theorems": [
    "Gel.Watcher.C97_own_partial",
    "Gel.Watcher.C97_others_partial",
    "Gel.Watcher.C97_list_partial",
    "Gel.Watcher.C97_noticed_partial",
    "Gel.Watcher.C97_wrong"
   ],
   "note": "false for the own bytes of a watcher without delay, which is proved"
  },
  {
   "property": "C98",
   "status": "proved",
   "theorems": [
    "Gel.Watcher.C98_trigger"
   ],
   "note": ""
  },
  {
   "property": "C65",
   "status": "proved",
   "theorems": [
    "Gel.Maybe.C65_observations",
    "Gel.Maybe.C65_option",
    "Gel.Maybe.C65_laws"
   ],
   "note": ""
  },
  {
   "property": "C66",
   "status": "proved",
   "theorems": [
    "Gel.StructUpdate.C66_create",
    "Gel.StructUpdate.C66_keep",
    "Gel.StructUpdate.C66_apply",
    "Gel.StructUpdate.C66_algebra",
    "Gel.StructUpdate.C66_free"
   ],
   "note": ""
  },
  {
   "property": "C99",
   "status": "partial",
   "theorems": [
    "Gel.StructUpdate.C99_array_partial",
    "Gel.StructUpdate.C99_wrong",
    "Gel.StructUpdate.C99_exact"
   ],
   "note": "false for sums of elements of several bytes, as the macro does not parenthesise its argument, which is proved"
  },
  {
   "property": "C67",
   "status": "proved",
   "theorems": [
    "Gel.StateMachine.C67_step",
    "Gel.StateMachine.C67_run",
    "Gel.StateMachine.C67_outside"
   ],
   "note": ""
  },
  {
   "property": "C68",
   "status": "partial",
   "theorems": [
    "Gel.Pages.C68_back",
    "Gel.Pages.C68_bottom",
    "Gel.Pages.C68_stack_partial"
   ],
   "note": "back after change and back on the bottom page are proved as stated; the stack discipline for all histories in which swap, rebase and reset are not called without a page (C70, C71), with assertions enabled (C73)"
  },
  {
   "property": "C69",
   "status": "partial",
   "theorems": [
    "Gel.Pages.C69_life_partial",
    "Gel.Pages.C71_again_wrong"
   ],
   "note": "proved for the histories in which swap, rebase and reset are not called without a page; false after a failed reset, which is proved"
  },
  {
   "property": "C70",
   "status": "partial",
   "theorems": [
    "Gel.Pages.C70_shown_partial",
    "Gel.Pages.C70_fresh_wrong",
    "Gel.Pages.C70_zeroed_wrong"
   ],
   "note": "false: current_page is indeterminate, or, in zeroed memory, the manager is not marked as initialized, both proved; the page is shown in the latter case"
  },
  {
   "property": "C71",
   "status": "partial",
   "theorems": [
    "Gel.Pages.C71_failed_partial",
    "Gel.Pages.C71_again_wrong"
   ],
   "note": "false: swap, rebase and reset close and destroy the destroyed page again, which is proved; change_page is proved correct"
  },
  {
   "property": "C72",
   "status": "proved",
   "theorems": [
    "Gel.Pages.C72_found",
    "Gel.Pages.C72_not_found"
   ],
   "note": ""
  },
  {
   "property": "C73",
   "status": "partial",
   "theorems": [
    "Gel.Pages.C73_ndebug_partial",
    "Gel.Pages.C73_push_wrong"
   ],
   "note": "false: the push is within the assertion, which is proved; proved for all calls but a change from one page to another"
  },
  {
   "property": "C74",
   "status": "proved",
   "theorems": [
    "Gel.Pid.C74_general",
    "Gel.Pid.C74_derivative",
    "Gel.Pid.C74_threshold"
   ],
   "note": "exact addition and subtraction, arbitrary functions as gains"
  },
  {
   "property": "C75",
   "status": "partial",
   "theorems": [
    "Gel.Pid.C75_exact",
    "Gel.Pid.C75_integral_partial",
    "Gel.Pid.C75_zero_wrong"
   ],
   "note": "false when an error is zero: the value in its place stays, which is proved; C75_exact says what the integral is in all cases"
  },
  {
   "property": "C76",
   "status": "partial",
   "theorems": [
    "Gel.Pid.C76_integral_partial",
    "Gel.Pid.C75_exact",
    "Gel.Pid.C75_zero_wrong"
   ],
   "note": "proved when no error after the first N of the window is zero; C75_exact covers all cases"
  },
  {
   "property": "C77",
   "status": "proved",
   "theorems": [
    "Gel.Pid.C77_in_range"
   ],
   "note": ""
  },
  {
   "property": "C78",
   "status": "proved",
   "theorems": [
    "Gel.Scheduler.C78_active",
    "Gel.Scheduler.C78_value",
    "Gel.Scheduler.C78_spans"
   ],
   "note": "weekly spans fit in unsigned long: always with 64 bits, with 32 bits for entries of at most two days; ties have values from 0 to 255"
  },
  {
   "property": "C79",
   "status": "partial",
   "theorems": [
    "Gel.Scheduler.C79_partial",
    "Gel.Scheduler.C79_wrong",
    "Gel.Scheduler.C79_example",
    "Gel.Scheduler.C136_active"
   ],
   "note": "false for ties with values outside 0..255, which is proved; proved without ties, and by C78_active with ties in that range; which entry is taken is exact for all tables in C136_active"
  },
  {
   "property": "C80",
   "status": "proved",
   "theorems": [
    "Gel.Scheduler.C80_active"
   ],
   "note": ""
  },
  {
   "property": "C81",
   "status": "partial",
   "theorems": [
    "Gel.Scheduler.C81_exact",
    "Gel.Scheduler.C81_partial",
    "Gel.Scheduler.C81_wrong"
   ],
   "note": "false: the day before midnight is not looked at; exactly when it is right is proved"
  },
  {
   "property": "C82",
   "status": "partial",
   "theorems": [
    "Gel.Scheduler.C82_partial",
    "Gel.Scheduler.C82_wrong",
    "Gel.Scheduler.C82_exact"
   ],
   "note": "false in the morning for entries that end on the next day; proved for the others; exact value for all (C82_exact)"
  },
  {
   "property": "C83",
   "status": "partial",
   "theorems": [
    "Gel.Scheduler.C83_exact"
   ],
   "note": "the round trip is proved exact for values 0..255 and shown wrong for all others"
  },
  {
   "property": "C84",
   "status": "partial",
   "theorems": [
    "Gel.Scheduler.C84_partial",
    "Gel.Scheduler.C84_wrong",
    "Gel.Scheduler.C84_together",
    "Gel.Scheduler.C138_overlap"
   ],
   "note": "false for entries that end on the next day, which is proved; for all entries, when two are active together (C84_together) and when an overlap is reported (C138_overlap)"
  },
  {
   "property": "C85",
   "status": "partial",
   "theorems": [
    "Gel.Scheduler.C85_outside",
    "Gel.Scheduler.C85_inside",
    "Gel.Scheduler.C85_search",
    "Gel.Scheduler.C85_enabled_wrong"
   ],
   "note": "all but is_schedule_entry_enabled, which reports 255 outside the table"
  },
  {
   "property": "C86",
   "status": "partial",
   "theorems": [
    "Gel.Scheduler.C86_exact",
    "Gel.Scheduler.C86_partial",
    "Gel.Scheduler.C86_wrong"
   ],
   "note": "false for disabled entries in their time, which is proved"
  },
  {
   "property": "C100",
   "status": "proved",
   "theorems": [
    "Gel.Listx.C100_entries"
   ],
   "note": "addresses are bit vectors of any width"
  },
  {
   "property": "C101",
   "status": "partial",
   "theorems": [
    "Gel.Listx.C101_exact"
   ],
   "note": "false: proved that the loop never ends as soon as an element is moved, and that it is fine if none is"
  },
  {
   "property": "C102",
   "status": "partial",
   "theorems": [
    "Gel.Listx.C102_twice_partial",
    "Gel.Listx.C102_later_wrong",
    "Gel.Listx.C193_exact"
   ],
   "note": "exact effect of a second deletion in all cases: C193_exact; true directly after the first deletion; false if the successor was deleted in between, which is proved"
  },
  {
   "property": "C103",
   "status": "proved",
   "theorems": [
    "Gel.Listx.C103_delete_backward"
   ],
   "note": ""
  },
  {
   "property": "C104",
   "status": "partial",
   "theorems": [
    "Gel.Queue.Conc.C104_partial",
    "Gel.Queue.Conc.C104_stale_wrong",
    "Gel.Queue.Conc.C104_overwritten_wrong",
    "Gel.Queue.Conc.C104_each"
   ],
   "note": "false: both indices are advanced before the item is stored or read; two failing interleavings proved for every capacity, all interleavings without such an overlap proved correct; in every interleaving each item delivered is the right one or its neighbour in the same place one round earlier or later, and the counts stay right (C104_each)"
  },
  {
   "property": "C105",
   "status": "partial",
   "theorems": [
    "Gel.Pid.C105_history",
    "Gel.Pid.C105_compute",
    "Gel.Pid.C105_error_wrong",
    "Gel.Pid.C105_sum_wrong"
   ],
   "note": "false for values near the limits of the type (a single error, or the sum of the stored errors); exact under stated bounds on setpoint, inputs and gains"
  },
  {
   "property": "C106",
   "status": "partial",
   "theorems": [
    "Gel.Timer.C106_exact_polls_partial",
    "Gel.Timer.C106_drift"
   ],
   "note": "false: the next period counts from the poll, not from the deadline; the accumulated delay is proved exactly for polls at a constant rate; true if there is a poll exactly at each deadline"
  },
  {
   "property": "C107",
   "status": "partial",
   "theorems": [
    "Gel.EventLog.C107_partial",
    "Gel.EventLog.C107_wrong"
   ],
   "note": "false if the first of two loads is short, which is proved; true otherwise"
  },
  {
   "property": "C108",
   "status": "proved",
   "theorems": [
    "Gel.Cbuf.Conc.C108_gets_amount",
    "Gel.Cbuf.Conc.C108_gets_wait_free"
   ],
   "note": "sequentially consistent interleavings of individual accesses"
  },
  {
   "property": "C109",
   "status": "partial",
   "theorems": [
    "Gel.Scheduler.C109_overlap",
    "Gel.Scheduler.C138_overlap",
    "Gel.Scheduler.C109_count_partial",
    "Gel.Scheduler.C109_wrong",
    "Gel.Scheduler.C109_self"
   ],
   "note": "false: consecutive entries, one beginning in the second in which the other ends, are counted although never active together; exact characterisation proved; an entry already in the table overlaps with itself"
  },
  {
   "property": "C110",
   "status": "partial",
   "theorems": [
    "Gel.Scheduler.C110_map",
    "Gel.Scheduler.C110_wrong"
   ],
   "note": "undefined from 33 entries on (32 if the last is active), and entries behind the sixteenth are dropped; exact for every table size"
  },
  {
   "property": "C111",
   "status": "partial",
   "theorems": [
    "Gel.Scheduler.C111_duration",
    "Gel.Scheduler.C111_other_days",
    "Gel.Scheduler.C111_week_partial",
    "Gel.Scheduler.C111_wrong"
   ],
   "note": "true exactly for entries that do not end before they begin and last at most a day (necessary and sufficient); entries that end before they begin are never active but have a positive duration"
  },
  {
   "property": "C112",
   "status": "proved",
   "theorems": [
    "Gel.Cbuf.Tso.C112_tso",
    "Gel.Cbuf.Tso.C112_refusals",
    "Gel.Cbuf.Tso.C112_drain"
   ],
   "note": "store buffers with forwarding, one per thread; single-element operations"
  },
  {
   "property": "C113",
   "status": "partial",
   "theorems": [
    "Gel.Cbuf.Tso.C113_partial",
    "Gel.Cbuf.Tso.C113_reorders",
    "Gel.Cbuf.Tso.C113_stores_wrong",
    "Gel.Cbuf.Tso.C113_loads_wrong"
   ],
   "note": "false: with reordered stores, and independently with reordered loads, the consumer can get what was in the memory before instead of the element put (proved for every buffer size and content); true whenever no store to head overtakes an earlier store to the buffer and loads are in order, whatever else is reordered"
  },
  {
   "property": "C114",
   "status": "partial",
   "theorems": [
    "Gel.Pages.C114_quiet",
    "Gel.Pages.C114_after_partial",
    "Gel.Pages.C114_history_partial",
    "Gel.Pages.C114_close_wrong",
    "Gel.Pages.C114_create_wrong",
    "Gel.Pages.C114_open",
    "Gel.Pages.C114_close_change_wrong",
    "Gel.Pages.C114_close_swap_wrong",
    "Gel.Pages.C114_back_wrong",
    "Gel.Pages.C114_destroy_wrong",
    "Gel.Pages.C114_rebase_wrong",
    "Gel.Pages.C114_reset_wrong"
   ],
   "note": "true if only the last callbacks (update, or open in the configuration without update, and process_event) navigate, for every nesting; false for create (the new page gets the old page's data and is opened twice), close (never returns if it always navigates, otherwise closed twice and the other page never) and destroy (the destroyed page stays on the stack or is destroyed twice, the other is leaked); callbacks are arbitrary functions of everything that has happened"
  },
  {
   "property": "C115",
   "status": "proved",
   "theorems": [
    "Gel.Cbuf.Conc.C115_putc",
    "Gel.Cbuf.Conc.C115_getc",
    "Gel.Cbuf.Tso.C115_putc",
    "Gel.Cbuf.Tso.C115_getc"
   ],
   "note": "step counts of the small-step models; steps are accesses to shared variables"
  },
  {
   "property": "C116",
   "status": "proved",
   "theorems": [
    "Gel.Crc.C116_window",
    "Gel.Crc.C116_distance",
    "Gel.Crc.C116_frame",
    "Gel.Crc.C116_tight"
   ],
   "note": "the residues of the powers of X are compared by kernel computation"
  },
  {
   "property": "C117",
   "status": "proved",
   "theorems": [
    "Gel.Keypad.C117_repeat"
   ],
   "note": ""
  },
  {
   "property": "C118",
   "status": "proved",
   "theorems": [
    "Gel.Keypad.C118_exact"
   ],
   "note": "refinement of an automaton on true times; thresholds may change from call to call"
  },
  {
   "property": "C119",
   "status": "proved",
   "theorems": [
    "Gel.Pid.C119_compute"
   ],
   "note": "exact arithmetic in the control type; gains are arbitrary functions"
  },
  {
   "property": "C120",
   "status": "proved",
   "theorems": [
    "Gel.Keypad.C120_exact"
   ],
   "note": "refinement of an automaton with one active key"
  },
  {
   "property": "C121",
   "status": "proved",
   "theorems": [
    "Gel.Keypad.C121_one_at_a_time"
   ],
   "note": ""
  },
  {
   "property": "C122",
   "status": "proved",
   "theorems": [
    "Gel.Keypad.C122_released"
   ],
   "note": ""
  },
  {
   "property": "C123",
   "status": "proved",
   "theorems": [
    "Gel.Keypad.C123_pressed"
   ],
   "note": ""
  },
  {
   "property": "C124",
   "status": "proved",
   "theorems": [
    "Gel.Watcher.C124_static"
   ],
   "note": "malloc is assumed to succeed"
  },
  {
   "property": "C125",
   "status": "proved",
   "theorems": [
    "Gel.Pid.C125_exact",
    "Gel.Pid.C125_binary",
    "Gel.Pid.C125_error",
    "Gel.Pid.C125_shape",
    "Gel.Pid.C125_one_wrong"
   ],
   "note": "rounding to nearest, ties to even, unbounded exponent (makes no difference for integers of up to 64 bits); finite gains"
  },
  {
   "property": "C126",
   "status": "proved",
   "theorems": [
    "Gel.Pid.C126_output"
   ],
   "note": "same floating-point model"
  },
  {
   "property": "C127",
   "status": "proved",
   "theorems": [
    "Gel.Param.C127_between",
    "Gel.Param.C127_exact",
    "Gel.Param.C127_limits",
    "Gel.Param.C127_check",
    "Gel.Param.C127_nan_step",
    "Gel.Param.C127_nan_check"
   ],
   "note": "IEEE 754 binary32 and binary64 evaluated in the type of the parameter, rounding to nearest, ties to even"
  },
  {
   "property": "C128",
   "status": "proved",
   "theorems": [
    "Gel.Param.C128_exact",
    "Gel.Param.C128_error",
    "Gel.Param.C128_stuck",
    "Gel.Param.isVal_int"
   ],
   "note": "same floating-point model"
  },
  {
   "property": "C129",
   "status": "proved",
   "theorems": [
    "Gel.Param.C129_exact",
    "Gel.Param.C129_error",
    "Gel.Param.C129_rounded",
    "Gel.Param.C129_undefined"
   ],
   "note": "same floating-point model"
  },
  {
   "property": "C130",
   "status": "partial",
   "theorems": [
    "Gel.Param.C130_partial",
    "Gel.Param.C130_exact",
    "Gel.Param.C130_wrong"
   ],
   "note": "false: the result is 0 for every float and double, which is proved; right for values between -1 and 1"
  },
  {
   "property": "C131",
   "status": "proved",
   "theorems": [
    "Gel.Param.C131_null"
   ],
   "note": ""
  },
  {
   "property": "C132",
   "status": "proved",
   "theorems": [
    "Gel.Param.C132_overlap"
   ],
   "note": "memcpy on overlapping objects is undefined by C11 7.24.2.1"
  },
  {
   "property": "C133",
   "status": "proved",
   "theorems": [
    "Gel.Scheduler.C133_init"
   ],
   "note": ""
  },
  {
   "property": "C134",
   "status": "partial",
   "theorems": [
    "Gel.Cbuf.C134_widths_partial",
    "Gel.Cbuf.C134_size_wrong",
    "Gel.Cbuf.C134_read_wrong"
   ],
   "note": "proved for buffers of at most INT_MAX elements; for larger ones it is false: size counts bufsize too many and bulk reads are undefined"
  },
  {
   "property": "C135",
   "status": "proved",
   "theorems": [
    "Gel.Cbuf.C135_exact"
   ],
   "note": "covers the regions in which C02, C03 and C04 are false"
  },
  {
   "property": "C136",
   "status": "proved",
   "theorems": [
    "Gel.Scheduler.C136_active"
   ],
   "note": "covers the ties for which C79 is false"
  },
  {
   "property": "C137",
   "status": "proved",
   "theorems": [
    "Gel.Scheduler.C137_remaining"
   ],
   "note": ""
  },
  {
   "property": "C138",
   "status": "proved",
   "theorems": [
    "Gel.Scheduler.C138_overlap",
    "Gel.Scheduler.C138_count"
   ],
   "note": ""
  },
  {
   "property": "C139",
   "status": "proved",
   "theorems": [
    "Gel.Scheduler.C139_layout",
    "Gel.Scheduler.C139_canonical"
   ],
   "note": ""
  },
  {
   "property": "C140",
   "status": "proved",
   "theorems": [
    "Gel.Debounce.C140_exact"
   ],
   "note": "covers the histories for which C27 is false"
  },
  {
   "property": "C141",
   "status": "proved",
   "theorems": [
    "Gel.Pulse.C141_exact"
   ],
   "note": "covers the memory contents for which C29 is false"
  },
  {
   "property": "C142",
   "status": "proved",
   "theorems": [
    "Gel.Wear.C142_init"
   ],
   "note": ""
  },
  {
   "property": "C143",
   "status": "proved",
   "theorems": [
    "Gel.Wear.C143_integrity"
   ],
   "note": "a block write is done or not done, never torn; a read that fails may leave anything in the buffer"
  },
  {
   "property": "C144",
   "status": "proved",
   "theorems": [
    "Gel.Wear.C144_success"
   ],
   "note": "same device"
  },
  {
   "property": "C145",
   "status": "proved",
   "theorems": [
    "Gel.Timer.C145_exact"
   ],
   "note": "covers the paused timers for which C92 is false and the drift of C106"
  },
  {
   "property": "C146",
   "status": "proved",
   "theorems": [
    "Gel.EventLog.C146_overflow"
   ],
   "note": "size_t of 64 bits; covers the requests for which C95 is false"
  },
  {
   "property": "C147",
   "status": "proved",
   "theorems": [
    "Gel.Watcher.C147_exact",
    "Gel.Watcher.C147_since",
    "Gel.Watcher.C147_regular"
   ],
   "note": "callbacks that leave the watched memory alone; covers the histories for which C64 is false"
  },
  {
   "property": "C148",
   "status": "partial",
   "theorems": [
    "Gel.StateMachine.C148_silent",
    "Gel.StateMachine.C148_kept_partial",
    "Gel.StateMachine.C148_lost_wrong",
    "Gel.StateMachine.C148_loop_wrong",
    "Gel.StateMachine.C148_safe"
   ],
   "note": "false if the manager returns a state: the state that the nested events led to is then lost; a manager that sends itself events for ever never returns"
  },
  {
   "property": "C149",
   "status": "partial",
   "theorems": [
    "Gel.Watcher.C149_once_partial",
    "Gel.Watcher.C149_loop_wrong"
   ],
   "note": "false for undelayed watchers whose callbacks process changes: the call never returns; proved if only callbacks of delayed watchers process changes"
  },
  {
   "property": "C150",
   "status": "proved",
   "theorems": [
    "Gel.StructUpdate.C150_exact",
    "Gel.StructUpdate.C150_blocks",
    "Gel.StructUpdate.C150_malloc_wrong"
   ],
   "note": "malloc(0) is taken to return a pointer"
  },
  {
   "property": "C151",
   "status": "partial",
   "theorems": [
    "Gel.Serial.C151_unsigned",
    "Gel.Serial.C151_signed_partial",
    "Gel.Serial.C151_wrong"
   ],
   "note": "false for negative int16_t values if int has 16 bits and the compiler does not define the shift into the sign bit, which is proved"
  },
  {
   "property": "C152",
   "status": "partial",
   "theorems": [
    "Gel.Serial.C152_unpack_partial",
    "Gel.Serial.C152_pack_partial",
    "Gel.Serial.C152_struct_partial",
    "Gel.Serial.C152_unpack_size_wrong",
    "Gel.Serial.C152_unpack_tmp_wrong",
    "Gel.Serial.C152_offset_wrong",
    "Gel.Serial.C152_pack_wrong"
   ],
   "note": "false for the names tmp, size and _value (e.g. UNPACK_UINT8(x, &buffer[size]) is undefined), which is proved; proved for all others"
  },
  {
   "property": "C153",
   "status": "proved",
   "theorems": [
    "Gel.Param.C153_exact"
   ],
   "note": "covers the steps for which C36 is false or undefined"
  },
  {
   "property": "C154",
   "status": "partial",
   "theorems": [
    "Gel.Param.C154_cycle",
    "Gel.Param.C154_cycle_down",
    "Gel.Param.C154_total",
    "Gel.Param.C154_below_wrong"
   ],
   "note": "proved if the limits leave room for one more step in the type; false for unsigned types when a step below 0 wraps into the limits, which is proved"
  },
  {
   "property": "C155",
   "status": "partial",
   "theorems": [
    "Gel.Param.C155_partial",
    "Gel.Param.C155_wrong"
   ],
   "note": "false: a variable that is too large is treated as its lowest byte, which is proved; proved for the others"
  },
  {
   "property": "C156",
   "status": "partial",
   "theorems": [
    "Gel.Param.C156_partial",
    "Gel.Param.C156_wrong"
   ],
   "note": "false: PARAMETER(array + 1, ...) with 8 or 16 bit elements makes an int32_t parameter, whose writes clear the elements behind it, which is proved"
  },
  {
   "property": "C157",
   "status": "proved",
   "theorems": [
    "Gel.Cbuf.Bytes.C157_bytes",
    "Gel.Cbuf.Bytes.C157_safe"
   ],
   "note": ""
  },
  {
   "property": "C158",
   "status": "partial",
   "theorems": [
    "Gel.Cbuf.Bytes.C158_partial",
    "Gel.Cbuf.Bytes.C158_wrong"
   ],
   "note": "false for elements larger than a byte: the put after the first n elements writes outside the buffer, which is proved; proved for elements of one byte"
  },
  {
   "property": "C159",
   "status": "partial",
   "theorems": [
    "Gel.Wear.C159_exact",
    "Gel.Wear.C159_partial",
    "Gel.Wear.C159_marker_wrong",
    "Gel.Wear.C159_last_wrong",
    "Gel.Wear.torn_write"
   ],
   "note": "exact result for every content of the damaged block; the claim is false if the damaged block already has the new marker and if the last block was active, which is proved; proved otherwise"
  },
  {
   "property": "C160",
   "status": "proved",
   "theorems": [
    "Gel.Crc.C160_window",
    "Gel.Crc.C160_frame",
    "Gel.Crc.C160_tight"
   ],
   "note": ""
  },
  {
   "property": "C161",
   "status": "proved",
   "theorems": [
    "Gel.Param.C161",
    "Gel.Param.C161_exact",
    "Gel.Param.C161_value",
    "Gel.Param.C161_null",
    "Gel.Param.C161_plain"
   ],
   "note": "for the modelled part of sprintf"
  },
  {
   "property": "C162",
   "status": "proved",
   "theorems": [
    "Gel.Param.C162",
    "Gel.Param.C162_tight"
   ],
   "note": ""
  },
  {
   "property": "C163",
   "status": "proved",
   "theorems": [
    "Gel.Param.C163",
    "Gel.Param.C163_size",
    "Gel.Param.C163_undefined"
   ],
   "note": "for the modelled part of sprintf"
  },
  {
   "property": "C164",
   "status": "partial",
   "theorems": [
    "Gel.Pages.C164_partial",
    "Gel.Pages.C164_back_wrong",
    "Gel.Pages.C164_not_found",
    "Gel.Pages.stepView_step"
   ],
   "note": "false for pman_back on the bottom page, which returns the null view while the page stays shown, which is proved; proved for all other calls"
  },
  {
   "property": "C165",
   "status": "partial",
   "theorems": [
    "Gel.Timer.C165_exact",
    "Gel.Timer.C165_settings_partial",
    "Gel.Timer.C165_init_wrong",
    "Gel.Timer.C165_oneshot_wrong",
    "Gel.Timer.C165_auto_wrong"
   ],
   "note": "false: after the callback the timer is stopped (without autoreload, even if the callback started it again) or restarted (with autoreload, even if the callback stopped it), which is proved; period, callback and autoreload are kept"
  },
  {
   "property": "C166",
   "status": "partial",
   "theorems": [
    "Gel.Timer.C166_once_partial",
    "Gel.Timer.C166_stop_partial",
    "Gel.Timer.C166_loop_wrong"
   ],
   "note": "false: a callback that polls its timer while it is due never returns, which is proved; proved if it is not due when polled"
  },
  {
   "property": "C167",
   "status": "partial",
   "theorems": [
    "Gel.Stopwatch.C167_safe_partial",
    "Gel.Stopwatch.C167_reached_wrong",
    "Gel.Stopwatch.C167_change_wrong",
    "Gel.Stopwatch.C167_pause_wrong",
    "Gel.Stopwatch.C167_timer_wrong",
    "Gel.Stopwatch.seen_all"
   ],
   "note": "false for stop, restart, change and pause of a counting stopwatch (a period is reported as reached too early, or the running time is missing), which is proved; proved for start, set and set_elapsed, and for stop and pause of one that does not count"
  },
  {
   "property": "C168",
   "status": "partial",
   "theorems": [
    "Gel.Pulse.C168_exact",
    "Gel.Pulse.C168_lost",
    "Gel.Pulse.C168_sum_partial",
    "Gel.Pulse.C168_sum_wrong",
    "Gel.Pulse.C168_clear_wrong"
   ],
   "note": "false: pulses that end between pulse_count and pulse_clear are lost, which is proved, with their number; proved if there are none"
  },
  {
   "property": "C169",
   "status": "partial",
   "theorems": [
    "Gel.Debounce.C169_exact",
    "Gel.Debounce.C169_read_partial",
    "Gel.Debounce.C169_value_wrong"
   ],
   "note": "false for debounce_value if several inputs change in one call: a mixture is seen, which is proved; proved for debounce_read"
  },
  {
   "property": "C170",
   "status": "partial",
   "theorems": [
    "Gel.Stopwatch.C170_if_partial",
    "Gel.Stopwatch.C170_if_wrong",
    "Gel.Stopwatch.C170_arg_partial",
    "Gel.Stopwatch.C170_arg_wrong"
   ],
   "note": "false: the macro is two statements and evaluates its first argument twice, so a stopwatch is started although the condition does not hold, which is proved"
  },
  {
   "property": "C171",
   "status": "partial",
   "theorems": [
    "Gel.Param.C171_partial",
    "Gel.Param.C171_wrong"
   ],
   "note": "false if destination and source are the same handle: the value is read through the changed pointer, so the new variable keeps what it had, which is proved; proved for two handles"
  },
  {
   "property": "C172",
   "status": "partial",
   "theorems": [
    "Gel.Param.C172_partial",
    "Gel.Param.C172_wrong",
    "Gel.Param.C172_exact"
   ],
   "note": "false if the address of the buffer is no multiple of the size of the type, which is proved; types are taken to be aligned to their size"
  },
  {
   "property": "C173",
   "status": "proved",
   "theorems": [
    "Gel.Param.C173_calls",
    "Gel.Param.counting_local"
   ],
   "note": "callbacks that change their own handle"
  },
  {
   "property": "C174",
   "status": "proved",
   "theorems": [
    "Gel.Watcher.C174_list",
    "Gel.Watcher.C174_null",
    "Gel.Watcher.C174_endless",
    "Gel.Watcher.C174_trigger"
   ],
   "note": ""
  },
  {
   "property": "C175",
   "status": "partial",
   "theorems": [
    "Gel.Watcher.C175_once_partial",
    "Gel.Watcher.C175_leak_wrong",
    "Gel.Watcher.C175_fail_wrong",
    "Gel.Watcher.C175_room_exact",
    "Gel.Watcher.C175_room_wrong"
   ],
   "note": "false: every further call allocates all blocks again without freeing any, and the result of malloc is not checked, which is proved; proved for one call with enough memory; C175_room_exact: with a heap of a given size and the best allocator, exactly as many calls are defined as the heap has room for copies"
  },
  {
   "property": "C176",
   "status": "proved",
   "theorems": [
    "Gel.Queue.C176_int16",
    "Gel.Queue.runW_32"
   ],
   "note": ""
  },
  {
   "property": "C177",
   "status": "proved",
   "theorems": [
    "Gel.Queue.C177_any",
    "Gel.Queue.C177_results",
    "Gel.Queue.C177_large"
   ],
   "note": ""
  },
  {
   "property": "C178",
   "status": "proved",
   "theorems": [
    "Gel.Stack.C178_peek",
    "Gel.Stack.C178_after",
    "Gel.Stack.C178_large"
   ],
   "note": "what the code does; C12 says what it should do"
  },
  {
   "property": "C179",
   "status": "partial",
   "theorems": [
    "Gel.Pid.C179_history_partial",
    "Gel.Pid.C179_sum",
    "Gel.Pid.C179_compute_partial",
    "Gel.Pid.C179_error_wrong"
   ],
   "note": "false if setpoint and input differ by half the range of the type or more: the error changes its sign, which is proved; proved for smaller values"
  },
  {
   "property": "C180",
   "status": "partial",
   "theorems": [
    "Gel.Pid.C180_threshold_partial",
    "Gel.Pid.C180_large_wrong",
    "Gel.Pid.C180_bits",
    "Gel.Pid.C180_exact"
   ],
   "note": "false exactly for the thresholds from 2^(w-1) on, of which the lowest w bits count (from 2^(w-1) to 2^w - 1 no error counts), which is proved; proved for thresholds the output type can represent"
  },
  {
   "property": "C181",
   "status": "partial",
   "theorems": [
    "Gel.Param.C181_same_partial",
    "Gel.Param.C181_small",
    "Gel.Param.C181_wrong",
    "Gel.Param.C181_exact"
   ],
   "note": "false for uint8_t, int8_t and int16_t if an intermediate value does not fit in 16 bits, where the step is undefined, which is proved, with the exact condition; proved otherwise"
  },
  {
   "property": "C182",
   "status": "partial",
   "theorems": [
    "Gel.Param.C182_same_partial",
    "Gel.Param.C182_wrong",
    "Gel.Param.C182_exact"
   ],
   "note": "false for the full range of uint16_t (0 values) and for int16_t with 32768 values or more (undefined), which is proved; proved otherwise"
  },
  {
   "property": "C183",
   "status": "partial",
   "theorems": [
    "Gel.Param.C183_chain_partial",
    "Gel.Param.C183_wrong"
   ],
   "note": "false if a limit is a parameter further back in the list, which is proved; proved if limits are parameters before it"
  },
  {
   "property": "C184",
   "status": "proved",
   "theorems": [
    "Gel.Scheduler.C184_table"
   ],
   "note": ""
  },
  {
   "property": "C185",
   "status": "partial",
   "theorems": [
    "Gel.Scheduler.C185_map_partial",
    "Gel.Scheduler.C185_wrong"
   ],
   "note": "false for 16 entries of which the last is active, and for more entries: undefined, which is proved; proved otherwise"
  },
  {
   "property": "C186",
   "status": "partial",
   "theorems": [
    "Gel.Cbuf.Conc.C186_slots_partial",
    "Gel.Cbuf.Conc.C186_head_wrong",
    "Gel.Cbuf.Conc.C186_tail_wrong",
    "Gel.Cbuf.Conc.C186_slots_wrong"
   ],
   "note": "false: head and tail are plain variables that one thread writes while the other reads them, which is proved; proved for the elements of the buffer if bulk puts ask for no more than fits and bulk gets for no more than the capacity, and false for a bulk put one too long"
  },
  {
   "property": "C187",
   "status": "proved",
   "theorems": [
    "Gel.Pid.Fp.C187_finite"
   ],
   "note": "arithmetic in the type itself; no minus zero"
  },
  {
   "property": "C188",
   "status": "partial",
   "theorems": [
    "Gel.Pid.Fp.C188_history",
    "Gel.Pid.Fp.C188_nan",
    "Gel.Pid.Fp.C188_any_partial",
    "Gel.Pid.Fp.C188_inf_wrong",
    "Gel.Pid.Fp.C188_zero_gain_wrong"
   ],
   "note": "false for an infinite input if inputs equal to the setpoint follow: they leave its entry in the integral history, and the output is infinite or NaN for ever, which is proved; proved for NaN, and for any value if no later input is equal to the setpoint"
  },
  {
   "property": "C189",
   "status": "proved",
   "theorems": [
    "Gel.Pid.Fp.C189_exact",
    "Gel.Pid.Fp.C189_bits"
   ],
   "note": ""
  },
  {
   "property": "C190",
   "status": "proved",
   "theorems": [
    "Gel.Combined.C190_held",
    "Gel.Combined.C190_noise",
    "Gel.Combined.C190_press"
   ],
   "note": ""
  },
  {
   "property": "C191",
   "status": "proved",
   "theorems": [
    "Gel.Combined.C191_telegram",
    "Gel.Combined.C191_tso",
    "Gel.Combined.C191_damaged"
   ],
   "note": ""
  },
  {
   "property": "C192",
   "status": "proved",
   "theorems": [
    "Gel.Combined.C192_record",
    "Gel.Combined.C192_history",
    "Gel.Combined.C192_activity"
   ],
   "note": "beginning with a save to a memory whose blocks have equal markers"
  },
  {
   "property": "C193",
   "status": "proved",
   "theorems": [
    "Gel.Listx.C193_exact"
   ],
   "note": ""
  },
  {
   "property": "C194",
   "status": "proved",
   "theorems": [
    "Gel.Pid.C194_steady",
    "Gel.Pid.C194_loop"
   ],
   "note": "exact arithmetic"
  },
  {
   "property": "C195",
   "status": "proved",
   "theorems": [
    "Gel.Combined.C195_autosave"
   ],
   "note": "beginning with a memory whose blocks have equal markers"
  },
  {
   "property": "C196",
   "status": "proved",
   "theorems": [
    "Gel.Param.C196_parse",
    "Gel.Param.C196_int",
    "Gel.Param.C196_float",
    "Gel.Param.C196_text",
    "Gel.Param.C196_many",
    "Gel.Param.C196_null"
   ],
   "note": "for the modelled part of sprintf: no space and # flags, no *, the letters d, i, u, o, x, X and f"
  },
  {
   "property": "C197",
   "status": "proved",
   "theorems": [
    "Gel.Cbuf.TsoBulk.C197_bulk_tso",
    "Gel.Cbuf.TsoBulk.C197_all",
    "Gel.Cbuf.TsoBulk.C197_argument",
    "Gel.Cbuf.TsoBulk.C197_inside",
    "Gel.Cbuf.TsoBulk.C197_settled",
    "Gel.Cbuf.TsoBulk.C197_drain",
    "Gel.Cbuf.TsoBulk.C197_puts_returns",
    "Gel.Cbuf.TsoBulk.C197_gets_returns",
    "Gel.Cbuf.TsoBulk.C197_includes"
   ],
   "note": "store buffers with forwarding, one per thread; one element is one store"
  },
  {
   "property": "C198",
   "status": "partial",
   "theorems": [
    "Gel.Timer.C198_quiet",
    "Gel.Timer.C198_early",
    "Gel.Timer.C198_oneshot_partial",
    "Gel.Timer.C198_call_wrong",
    "Gel.Timer.C198_check_wrong",
    "Gel.Timer.C198_lost_wrong",
    "Gel.Timer.C198_origin_wrong",
    "Gel.Timer.C198_start_wrong"
   ],
   "note": "false: stopped between the check and the call the callback is called afterwards; stopped within the check it is called although not due; with autoreload a stop before the last store is lost, and one just before it makes the timer count from the clock's zero; a new start is lost without autoreload; all proved. Proved: a stop before the poll reads the state works, and without autoreload stops at any points leave a stopped timer after at most one call"
  },
  {
   "property": "C199",
   "status": "partial",
   "theorems": [
    "Gel.Watcher.C199_quiet",
    "Gel.Watcher.C199_exact",
    "Gel.Watcher.C199_lost_wrong",
    "Gel.Watcher.C199_delayed_partial",
    "Gel.Watcher.C199_back_wrong"
   ],
   "note": "false without delay: a change between the callback's reading and the copy is lost for ever; when exactly is proved. With a delay proved if the memory changes at most once within two successive polls, false if it changes back at once, which is proved"
  },
  {
   "property": "C200",
   "status": "partial",
   "theorems": [
    "Gel.Listx.C200_stores",
    "Gel.Listx.C200_forward",
    "Gel.Listx.C200_backward_partial",
    "Gel.Listx.C200_backward_wrong"
   ],
   "note": "proved forwards; backwards proved except after the first and the second of the four stores of list_add and list_add_tail, where a traversal of an element whose links point to itself never ends, which is proved"
  },
  {
   "property": "C201",
   "status": "partial",
   "theorems": [
    "Gel.Listx.C201_apart_partial",
    "Gel.Listx.C201_separate_partial",
    "Gel.Listx.C201_lost_wrong",
    "Gel.Listx.C201_del_wrong"
   ],
   "note": "false for neighbours in the same list: of two elements added at the head one is lost, of two neighbours deleted one stays, in one direction or in both, which is proved; proved if the second call uses nothing that the first stores to, so for different lists"
  },
  {
   "property": "C202",
   "status": "proved",
   "theorems": [
    "Gel.Listx.C202_begin",
    "Gel.Listx.C202_once",
    "Gel.Listx.C202_ends",
    "Gel.Listx.C202_deleted_wrong",
    "Gel.Listx.C202_front_wrong"
   ],
   "note": "both restrictions are necessary: a body that deletes the current element and then the next visits the deleted one, a body that moves the current element to the front makes the loop endless, which is proved"
  },
  {
   "property": "C203",
   "status": "partial",
   "theorems": [
    "Gel.EventLog.C203_quiet",
    "Gel.EventLog.C203_both_partial",
    "Gel.EventLog.C203_lost_wrong",
    "Gel.EventLog.C203_outside_wrong"
   ],
   "note": "false: before the increment is stored one event overwrites the other, and the log may count an event that was never saved; at the end of the storage the position passed to the callback is max_events; both proved. Proved for the points left"
  },
  {
   "property": "C204",
   "status": "partial",
   "theorems": [
    "Gel.EventLog.C204_exact",
    "Gel.EventLog.C204_partial",
    "Gel.EventLog.C204_oldest_wrong",
    "Gel.EventLog.C204_empty_wrong"
   ],
   "note": "false: in a full log the new event appears as the oldest one until the position is incremented, and when the log becomes full it appears empty for a moment; what is read is proved exactly for every point; storage that refuses nothing"
  },
  {
   "property": "C205",
   "status": "partial",
   "theorems": [
    "Gel.Stack.C205_quiet",
    "Gel.Stack.C205_calls",
    "Gel.Stack.C205_handler",
    "Gel.Stack.C205_push",
    "Gel.Stack.C205_pop",
    "Gel.Stack.C205_dequeue",
    "Gel.Stack.C205_order_wrong",
    "Gel.Stack.C205_lost_wrong",
    "Gel.Stack.C205_stale_wrong"
   ],
   "note": "proved for pop, for dequeue and, if the compiled push stores the incremented index first, for push; false if it stores the element first (items[idx++] = *p_new_item leaves the order open): a handler that pushes and pops replaces the element, which is proved. Handlers have to leave the stack as they found it: examples of lost and stale elements are proved"
  },
  {
   "property": "C206",
   "status": "partial",
   "theorems": [
    "Gel.Pid.C206_safe",
    "Gel.Pid.C206_calls",
    "Gel.Pid.C206_reach",
    "Gel.Pid.C206_exact",
    "Gel.Pid.C206_derivative_wrong",
    "Gel.Pid.C206_clear_wrong"
   ],
   "note": "accesses proved for any handlers; the output is false: the terms may belong to different inputs, the derivative may be taken from the present error (and be zero), and with automatic clearing the integral may be that of a part of the history; what is returned without automatic clearing is proved exactly for every point"
  },
  {
   "property": "C207",
   "status": "partial",
   "theorems": [
    "Gel.Pid.C207_quiet",
    "Gel.Pid.C207_safe",
    "Gel.Pid.C207_size_wrong",
    "Gel.Pid.C207_stuck_wrong"
   ],
   "note": "accesses proved for any handlers; false for the size: an input added between its check and its increment makes it too large by one, and the derivative is then taken from the first element of the array for ever, both proved"
  },
  {
   "property": "C208",
   "status": "partial",
   "theorems": [
    "Gel.Param.C208_quiet",
    "Gel.Param.C208_partial",
    "Gel.Param.C208_both_wrong",
    "Gel.Param.C208_lost_wrong"
   ],
   "note": "proved for handlers that change one of the limits (and any other variables); false for handlers that change both between the loads of the check, which is proved, and that a value stored by the handler after the variable was loaded is lost; values are loaded and stored in one step"
  },
  {
   "property": "C209",
   "status": "partial",
   "theorems": [
    "Gel.Wear.C209_quiet",
    "Gel.Wear.C209_exact",
    "Gel.Wear.C209_same",
    "Gel.Wear.C209_partial",
    "Gel.Wear.C209_stale_wrong"
   ],
   "note": "false with several blocks: between the store of last_active_block and the end of write_block the record read is the one replaced n - 1 changes before (n blocks), which is proved together with what is read at every other moment; proved for one block. Callbacks run to their end"
  },
  {
   "property": "C210",
   "status": "partial",
   "theorems": [
    "Gel.Wear.C210_running",
    "Gel.Wear.C210_exact",
    "Gel.Wear.C210_partial",
    "Gel.Wear.C210_one",
    "Gel.Wear.C210_lost_wrong"
   ],
   "note": "the running program's part is proved for every moment; the restart is proved for one block and for the handler before the marker is computed or after the arguments of write_block are loaded; false for the moments between: after the restart both records are lost, or the one written last, which is proved"
  },
  {
   "property": "C211",
   "status": "partial",
   "theorems": [
    "Gel.Keypad.C211_quiet",
    "Gel.Keypad.C211_exact",
    "Gel.Keypad.C211_end",
    "Gel.Keypad.C211_partial",
    "Gel.Keypad.C211_stuck_wrong",
    "Gel.Keypad.C211_click_wrong"
   ],
   "note": "proved unless the handler finds the key pressed that is being reset, at its last three stores; false there: the handler reports PRESS and then, before the store of oldvalue (key up before), no event of any key is reported until that key is pressed again, later no CLICK follows; both proved"
  },
  {
   "property": "C212",
   "status": "partial",
   "theorems": [
    "Gel.Keypad.C212_quiet",
    "Gel.Keypad.C212_exact",
    "Gel.Keypad.C212_loop_partial",
    "Gel.Keypad.C212_rest_partial",
    "Gel.Keypad.C212_change_partial",
    "Gel.Keypad.C212_stuck_wrong",
    "Gel.Keypad.C212_click_wrong",
    "Gel.Keypad.C212_lost_wrong",
    "Gel.Keypad.C212_release_wrong"
   ],
   "note": "proved for a reset in the loop, at the first loads after it and while a key that was let go is handled; false at single points: before KEY_PRESS or KEY_CLICK is stored no event of any other key is reported afterwards, before oldvalue is stored the press is lost, and while a held key is handled RELEASE may be reported; all proved"
  },
  {
   "property": "C213",
   "status": "partial",
   "theorems": [
    "Gel.Stopwatch.C213_quiet",
    "Gel.Stopwatch.C213_calm_partial",
    "Gel.Stopwatch.C213_pause_wrong",
    "Gel.Stopwatch.C213_stop_wrong",
    "Gel.Stopwatch.C213_again_partial",
    "Gel.Stopwatch.C213_change_wrong",
    "Gel.Stopwatch.C213_set_wrong"
   ],
   "note": "proved for start, set_elapsed, restart without earlier elapsed time, set to at least the elapsed time, and stop and pause of a stopwatch that does not count; false for pause (the run counts twice), stop (counts from the time 0 and is reached at once) and for change and set (get_remaining loads the period twice and wraps around), all proved"
  },
  {
   "property": "C214",
   "status": "partial",
   "theorems": [
    "Gel.Stopwatch.C214_quiet",
    "Gel.Stopwatch.C214_harmless_partial",
    "Gel.Stopwatch.C214_start_wrong",
    "Gel.Stopwatch.C214_pause_wrong",
    "Gel.Stopwatch.C214_stop_wrong",
    "Gel.Stopwatch.C214_lost_wrong",
    "Gel.Stopwatch.C214_set_wrong",
    "Gel.Stopwatch.C214_change_wrong"
   ],
   "note": "proved for the pairs of calls in Harmless; false for start interrupted by stop (counts from the time 0), pause by pause (the run counts twice), stop by pause (stopped with the time of the clock elapsed), pause by start (the run is lost) set or set_elapsed by change, change by set, and restart or change by start, all proved"
  },
  {
   "property": "C215",
   "status": "partial",
   "theorems": [
    "Gel.Debounce.C215_quiet",
    "Gel.Debounce.C215_exact",
    "Gel.Debounce.C215_partial",
    "Gel.Debounce.C215_stuck_wrong",
    "Gel.Debounce.C215_twice_wrong"
   ],
   "note": "what becomes of every input is proved for any handlers that leave the sampled input alone; proved equal to one call after the other except at two points; false there: the change of the other input is lost in the reported levels, so that debounce_read returns the old level until the input goes back, or in the stored levels, so that the same change is reported twice; both proved"
  },
  {
   "property": "C216",
   "status": "partial",
   "theorems": [
    "Gel.Scheduler.C216_quiet",
    "Gel.Scheduler.C216_partial",
    "Gel.Scheduler.C216_disable",
    "Gel.Scheduler.C216_set_partial",
    "Gel.Scheduler.C216_torn_wrong",
    "Gel.Scheduler.C216_value_wrong",
    "Gel.Scheduler.C216_left_wrong",
    "Gel.Scheduler.C216_twice_wrong"
   ],
   "note": "proved for one call of scheduler_disable_schedule_entry and for one of scheduler_set_entry on an entry that is disabled; false for scheduler_set_entry of an enabled entry (active when neither entry is; the value of an entry that is not active; a remaining time that wraps around) and for two handlers that disable one entry each; all proved"
  },
  {
   "property": "C217",
   "status": "partial",
   "theorems": [
    "Gel.Scheduler.C217_exact",
    "Gel.Scheduler.C217_partial",
    "Gel.Scheduler.C217_wrong",
    "Gel.Scheduler.C217_first_wrong",
    "Gel.Scheduler.C217_careful",
    "Gel.Scheduler.C217_map_wrong"
   ],
   "note": "proved if the entry was disabled and enabled is stored last, or the new one is disabled and enabled is stored first; false for enabled entries whatever the order of the stores; proved for all entries that are disabled first and enabled last, except for the functions that do not look at enabled, for which it is false"
  },
  {
   "property": "C218",
   "status": "proved",
   "theorems": [
    "Gel.Pages.C218_app"
   ],
   "note": "assertions enabled, pages that all have process_event, callbacks that do not navigate themselves"
  },
  {
   "property": "C219",
   "status": "proved",
   "theorems": [
    "Gel.Combined.C219_machine",
    "Gel.Combined.C219_idle",
    "Gel.Combined.C219_tso",
    "Gel.Combined.C219_tso_idle",
    "Gel.Combined.C219_pages"
   ],
   "note": "one producer and one consumer that use circular_buf_putc and circular_buf_getc; tables whose managers answer only states of the table; pages as in C218; with store buffers 'finds nothing' needs the producer's store buffer to be empty"
  },
  {
   "property": "C220",
   "status": "partial",
   "theorems": [
    "Gel.Cbuf.C220_quiet",
    "Gel.Cbuf.C220_put_exact",
    "Gel.Cbuf.C220_put_seen",
    "Gel.Cbuf.C220_put_partial",
    "Gel.Cbuf.C220_lost_wrong",
    "Gel.Cbuf.C220_junk_wrong",
    "Gel.Cbuf.C220_empty_wrong",
    "Gel.Cbuf.C220_refused_wrong",
    "Gel.Cbuf.C220_get_exact",
    "Gel.Cbuf.C220_get_seen",
    "Gel.Cbuf.C220_get_partial",
    "Gel.Cbuf.C220_same_wrong",
    "Gel.Cbuf.C220_skip_wrong",
    "Gel.Cbuf.C220_crossed_wrong"
   ],
   "note": "what becomes of both calls is proved for every point; the property holds before the check, and before the index is loaded with room for two (or two elements), and for a full (or empty) buffer; false at all other points: elements are lost or delivered twice, old contents delivered, a full buffer becomes empty or an empty one full, all proved"
  },
  {
   "property": "C221",
   "status": "partial",
   "theorems": [
    "Gel.Queue.C221_quiet",
    "Gel.Queue.C221_enqueue_exact",
    "Gel.Queue.C221_enqueue_seen",
    "Gel.Queue.C221_enqueue_partial",
    "Gel.Queue.C221_lost_wrong",
    "Gel.Queue.C221_overfull_wrong",
    "Gel.Queue.C221_dequeue_exact",
    "Gel.Queue.C221_dequeue_seen",
    "Gel.Queue.C221_dequeue_partial",
    "Gel.Queue.C221_same_wrong",
    "Gel.Queue.C221_endless_wrong"
   ],
   "note": "what becomes of both calls is proved for every point; the property holds before the check and after the increment, and in between with room for two (or two items) until the index is loaded; false otherwise: an item is lost or delivered twice, the queue holds one item too many, or delivers 65535 items when it should be empty; all proved"
  },
  {
   "property": "C222",
   "status": "proved",
   "theorems": [
    "Gel.Combined.Control.C222_exact",
    "Gel.Combined.Control.C222_regular",
    "Gel.Combined.Control.C222_deadbeat"
   ],
   "note": "exact arithmetic in the controller; the callback does not use its timer; period plus D at most half the range of the timestamps"
  },
  {
   "property": "C223",
   "status": "partial",
   "theorems": [
    "Gel.StateMachine.C223_quiet",
    "Gel.StateMachine.C223_early",
    "Gel.StateMachine.C223_exact",
    "Gel.StateMachine.C223_last_partial",
    "Gel.StateMachine.C223_ignored_partial",
    "Gel.StateMachine.C223_lost_wrong",
    "Gel.StateMachine.C223_state_wrong"
   ],
   "note": "what becomes of both events is proved for every point; the property holds before the state is loaded, before it is stored if the main program's event leads to no state, and for events that are ignored; false otherwise: the state the handler's event led to is lost, and the machine is in a state that neither order leads to; both proved"
  },
  {
   "property": "C224",
   "status": "partial",
   "theorems": [
    "Gel.Pages.C224_quiet",
    "Gel.Pages.C224_exact",
    "Gel.Pages.C224_outside_partial",
    "Gel.Pages.C224_during_wrong",
    "Gel.Pages.C224_first_wrong",
    "Gel.Pages.C224_null_wrong"
   ],
   "note": "that navigation is not disturbed, and which page in which part of its life the handlers' events reach at every step, is proved (assertions enabled, pages with process_event, a page copied in one step); it is the open page only before the close and after the open callback; false in between: the event reaches a closed, destroyed or not yet created page with other data, or the program ends; all proved"
  },
  {
   "property": "C225",
   "status": "partial",
   "theorems": [
    "Gel.Pid.C225_stays",
    "Gel.Pid.C225_hold_partial",
    "Gel.Pid.C225_offset_wrong",
    "Gel.Pid.C225_settled_wrong"
   ],
   "note": "false, since only the last errors are summed: unless it is exactly zero, the error never stays below a bound proportional to the load, and there is a place away from the setpoint at which the process stays; both proved for all gains and loads; with an error of exactly zero the integral is kept, and the process stays at the setpoint if it is what the load needs (proved); exact arithmetic"
  },
  {
   "property": "C226",
   "status": "partial",
   "theorems": [
    "Gel.Param.C226_quiet",
    "Gel.Param.C226_exact",
    "Gel.Param.C226_ascending",
    "Gel.Param.C226_partial",
    "Gel.Param.C226_byte_partial",
    "Gel.Param.C226_mixed_wrong",
    "Gel.Param.C226_limits_wrong"
   ],
   "note": "which bytes the handler finds is proved for every order; the property holds if at most one byte changes, so for the 8-bit types; false whenever two bytes change, in every order: a value that is neither; and a step from 255 to 256 with those limits passes over 0 or 511, outside the limits; both proved"
  },
  {
   "property": "C227",
   "status": "proved",
   "theorems": [
    "Gel.Combined.C227_exact",
    "Gel.Combined.C227_saved",
    "Gel.Combined.C227_spared",
    "Gel.Combined.C227_after"
   ],
   "note": "callbacks that do nothing but write the record; polls at most half the range of the timestamps apart; power is not lost while the last of several blocks is in use (C44)"
  },
  {
   "property": "C228",
   "status": "partial",
   "theorems": [
    "Gel.Scheduler.C228_partial",
    "Gel.Scheduler.C228_over",
    "Gel.Scheduler.C228_wrong"
   ],
   "note": "proved if no enabled entry begins in between and the current one began on this day (values 0 to 255 if spans tie, C79); false if an entry with a smaller weekly span begins in between: it is current from then on although the remaining time is not over (proved)"
  },
  {
   "property": "C229",
   "status": "partial",
   "theorems": [
    "Gel.Cbuf.Conc.C229_stored",
    "Gel.Cbuf.Conc.C229_consumer_partial",
    "Gel.Cbuf.Conc.C229_producer_partial",
    "Gel.Cbuf.Conc.C229_empty_wrong",
    "Gel.Cbuf.Conc.C229_full_wrong",
    "Gel.Cbuf.Conc.C229_size_wrong"
   ],
   "note": "holds for the queries of the consumer's and of the producer's own thread, except that the size is the buffer size if the buffer is full (C04); false for any other thread: it can be told that a buffer never empty during the call is empty, that one never holding more than one element is full, and sizes as wrong as possible, whichever order the loads have; proved for all sizes of at least 3"
  },
  {
   "property": "C230",
   "status": "partial",
   "theorems": [
    "Gel.Combined.Journal.C230_exact",
    "Gel.Combined.Journal.C230_history",
    "Gel.Combined.Journal.C230_partial",
    "Gel.Combined.Journal.C230_wrong"
   ],
   "note": "what is loaded after every history is proved; it is right if power is not lost between the two writes, or the log is not full, and in any case for all but the oldest event; false otherwise: the event being saved is shown as the oldest one, in its place, until another is logged (proved); an event is saved in one step, and power is not lost within wearleveling_write (C142) nor while the last of several blocks is in use (C44)"
  },
  {
   "property": "C231",
   "status": "proved",
   "theorems": [
    "Gel.Combined.C231_once",
    "Gel.Combined.C231_when",
    "Gel.Combined.C231_long_wrong"
   ],
   "note": ""
  },
  {
   "property": "C232",
   "status": "proved",
   "theorems": [
    "Gel.Combined.Setting.C232_steps",
    "Gel.Combined.Setting.C232_value",
    "Gel.Combined.Setting.C232_long_wrong"
   ],
   "note": ""
  },
  {
   "property": "C233",
   "status": "partial",
   "theorems": [
    "Gel.Queue.Conc.C233_consumer_partial",
    "Gel.Queue.Conc.C233_producer_partial",
    "Gel.Queue.Conc.C233_empty_wrong",
    "Gel.Queue.Conc.C233_full_wrong",
    "Gel.Queue.Conc.C233_count_wrong"
   ],
   "note": "holds for the queries of the two contexts themselves, except that the count is wrong after the index has wrapped (C09, exact value proved); false for any other context: it can be told that a queue never empty during the call is empty, that one never holding more than one element is full, and a count of 2^64 - 1 of a queue never holding more than one; proved for all capacities (at least 2 for the first)"
  },
  {
   "property": "C234",
   "status": "partial",
   "theorems": [
    "Gel.Watcher.Copy.C234_copy",
    "Gel.Watcher.Copy.C234_still",
    "Gel.Watcher.Copy.C234_reason_partial",
    "Gel.Watcher.Copy.C234_needless_wrong"
   ],
   "note": "the copies are right; a callback without delay is only called if the copy differs; one with a delay is called if some poll since the last callback found memory different from the copy, also if it has come back since then: false, proved (the last item of the README's list of things to do)"
  },
  {
   "property": "C235",
   "status": "partial",
   "theorems": [
    "Gel.Cbuf.C235_put_exact",
    "Gel.Cbuf.C235_get_exact",
    "Gel.Cbuf.C235_begin_partial",
    "Gel.Cbuf.C235_get_wrong",
    "Gel.Cbuf.C235_put_wrong"
   ],
   "note": "the result at every point is proved; right at the beginning of both calls, and after the check of circular_buf_putc; false otherwise: the emptied buffer is full after circular_buf_getc, and after circular_buf_putc it holds old elements instead of or before the new one (proved; the source says NEVER THREAD SAFE)"
  },
  {
   "property": "C236",
   "status": "proved",
   "theorems": [
    "Gel.Combined.Pulses.C236_once",
    "Gel.Combined.Pulses.C236_between",
    "Gel.Combined.Pulses.C236_long_wrong"
   ],
   "note": "pulse_count is this number as an int of w bits"
  },
  {
   "property": "C237",
   "status": "proved",
   "theorems": [
    "Gel.Listx.C237_moved",
    "Gel.Listx.C237_add_wrong",
    "Gel.Listx.C237_addTail_wrong",
    "Gel.Listx.C237_other_wrong"
   ],
   "note": ""
  },
  {
   "property": "C238",
   "status": "partial",
   "theorems": [
    "Gel.Debounce.C238_exact",
    "Gel.Debounce.C238_partial",
    "Gel.Debounce.C238_stuck_wrong",
    "Gel.Debounce.C238_own_wrong",
    "Gel.Debounce.C238_twice_wrong",
    "Gel.Debounce.C238_set_quiet",
    "Gel.Debounce.C238_set_exact",
    "Gel.Debounce.C238_set_wrong"
   ],
   "note": "what becomes of every input is proved for every point; right except from the load of the reported levels to the store of the stored ones in a call that changes a level; false there and between the two stores of debounce_filter_set: debounce_read does not return the level set, or not the level whose change is reported, for any number of later samples, or a level that was set is reported as a change; all proved"
  },
  {
   "property": "C239",
   "status": "proved",
   "theorems": [
    "Gel.Wear.C239_exact",
    "Gel.Wear.C239_keeps",
    "Gel.Wear.C239_settled",
    "Gel.Wear.C239_heals",
    "Gel.Wear.C239_forever_wrong"
   ],
   "note": "the histories after a loss, which C44_partial leaves out; C239_forever_wrong: after one such loss a program with the same number of changing writes (less than the blocks) in every run loses all of them, for ever"
  },
  {
   "property": "C240",
   "status": "partial",
   "theorems": [
    "Gel.Wear.C240_exact",
    "Gel.Wear.C240_even_partial",
    "Gel.Wear.C240_device_partial",
    "Gel.Wear.C240_wrong",
    "Gel.Wear.C240_new_wrong"
   ],
   "note": "which blocks are written is proved for every history; even if every restart keeps the active block (C239_keeps says which do); false otherwise: after one restart that brings back block 0 a program with m changing writes per run (m less than the blocks) writes the blocks 1 to m once in every run and the others never"
  },
  {
   "property": "C241",
   "status": "proved",
   "theorems": [
    "Gel.Combined.C241_exact",
    "Gel.Combined.C241_lost_wrong"
   ],
   "note": "C195 without its condition on the power losses; the lossy memory is that of C239, of which C239_keeps says which power-ups find the active block; C241_lost_wrong: changes one less than the blocks and then a power loss bring back the settings of the first start"
  },
  {
   "property": "C242",
   "status": "partial",
   "theorems": [
    "Gel.Wear.C242_one_partial",
    "Gel.Wear.C242_lost_wrong",
    "Gel.Wear.C242_first_wrong"
   ],
   "note": "proved for one block, with any faults but a failing marker read; false for several blocks: the block skipped by the refused write stops the search, so a restart brings back the record from before the refusal (that of block 0, if the last block was active), whatever was written successfully since, until the writes come to the end of the device; what becomes of it after that is not stated"
  },
  {
   "property": "C243",
   "status": "proved",
   "theorems": [
    "Gel.Combined.C243_exact",
    "Gel.Combined.C243_lost_wrong"
   ],
   "note": "C192 without its condition on the power losses and without a first save; the lossy memory is that of C239; C243_lost_wrong: different tables saved in the first run, one less than the blocks, and then a power loss bring back the table of the first start"
  },
  {
   "property": "C244",
   "status": "partial",
   "theorems": [
    "Gel.Combined.Journal.C244_partial",
    "Gel.Combined.Journal.C244_exact",
    "Gel.Combined.Journal.C244_dead_wrong",
    "Gel.Combined.Journal.C244_back_wrong"
   ],
   "note": "proved if power is not lost while the last of several blocks is in use, from any memory with equal markers; the log after the first power loss is proved for every number of events; false otherwise: the first power loss after as many events as blocks but two leaves the position 2^32-1, so that no event is saved any more, and a later one shows the newest events as the oldest; logs of at least two events for what fails"
  },
  {
   "property": "C245",
   "status": "proved",
   "theorems": [
    "Gel.Combined.C245_exact",
    "Gel.Combined.C245_saved",
    "Gel.Combined.C245_lost_wrong"
   ],
   "note": "C227 without its condition on the power losses; the lossy memory is that of C239; polls at most half the range of the timestamps apart; C245_lost_wrong: new settings saved after their delays, one less than the blocks, and then a power loss bring back the settings of the first start"
  },
  {
   "property": "C246",
   "status": "partial",
   "theorems": [
    "Gel.Debounce.C246_partial",
    "Gel.Debounce.C246_wrong",
    "Gel.Debounce.C246_exact"
   ],
   "note": "proved for debounce_read and for indices of inputs; false for debounce_filter_single with any other index: undefined, whatever the filter and the sample; which calls are defined is exact, with GCC's shifts and with those of strict C"
  },
  {
   "property": "C247",
   "status": "partial",
   "theorems": [
    "Gel.Cbuf.C247_quiet",
    "Gel.Cbuf.C247_before",
    "Gel.Cbuf.C247_seen",
    "Gel.Cbuf.C247_partial",
    "Gel.Cbuf.C247_exact",
    "Gel.Cbuf.C247_handler_wrong",
    "Gel.Cbuf.C247_first_wrong",
    "Gel.Cbuf.C247_short_wrong",
    "Gel.Cbuf.C247_empty_wrong"
   ],
   "note": "proved for a handler before the first access or after head was stored; false in between: the handler's element, or the first of the bulk put, is lost, and an old content of the array is delivered, though both calls report success; the contents are exact for each of the twelve points when the data fit before the end of the array; C247_empty_wrong: with room for the elements of the bulk put only, the buffer is empty afterwards and all is lost; one interruption; missing: data copied in two pieces, and a bulk put cut short for lack of room"
  },
  {
   "property": "C248",
   "status": "partial",
   "theorems": [
    "Gel.Cbuf.C248_quiet",
    "Gel.Cbuf.C248_before",
    "Gel.Cbuf.C248_seen",
    "Gel.Cbuf.C248_partial",
    "Gel.Cbuf.C248_early_partial",
    "Gel.Cbuf.C248_exact",
    "Gel.Cbuf.C248_skip_wrong",
    "Gel.Cbuf.C248_twice_wrong",
    "Gel.Cbuf.C248_all_wrong"
   ],
   "note": "proved for a handler before tail is loaded for the copy or after it is stored; false in between: one element is got by both calls, and at all points but one another is got by neither; what is got and left is exact for each of the ten points when the elements lie before the end of the array; C248_all_wrong: a call that asks for all is told of one element too many, an old content of the array, and leaves a buffer that seems full, if the handler runs between the computation of the size and the load of tail; one interruption; missing: a handler at the later points with elements copied in two pieces or too few for both, and a full buffer"
  },
  {
   "property": "C249",
   "status": "partial",
   "theorems": [
    "Gel.Cbuf.C249_quiet",
    "Gel.Cbuf.C249_before",
    "Gel.Cbuf.C249_partial",
    "Gel.Cbuf.C249_exact",
    "Gel.Cbuf.C249_wrong"
   ],
   "note": "proved if fewer elements are asked for than there are, or the handler runs after tail was loaded for the copy; false for a peek at all elements with the handler between the computation of the size and the load of tail: it reports one element too many, an old content of the array; what is reported is exact for every point and number; one interruption; missing: a full buffer, and a handler between the two copies"
  },
  {
   "property": "C250",
   "status": "partial",
   "theorems": [
    "Gel.Keypad.C250_quiet",
    "Gel.Keypad.C250_exact",
    "Gel.Keypad.C250_partial",
    "Gel.Keypad.C250_loop_partial",
    "Gel.Keypad.C250_twice_wrong"
   ],
   "note": "proved for a handler up to the comparison of value with oldvalue or after the store of oldvalue; false in between (three points): both calls report the press; what each call reports is exact for each of the eleven points after the loop and for all points in it; one interruption; missing: events other than the press"
  },
  {
   "property": "C251",
   "status": "partial",
   "theorems": [
    "Gel.Keypad.C250_quiet",
    "Gel.Keypad.C251_exact",
    "Gel.Keypad.C251_partial",
    "Gel.Keypad.C251_loop_partial",
    "Gel.Keypad.C251_wrong"
   ],
   "note": "proved for a handler up to the store of oldvalue, and afterwards if the handler's timestamp is not later than that of the call by more than click and longclick (at one point: if LONGCLICK is not due before RELEASE); false otherwise: just before KEY_RELEASE is stored both calls report the release if the handler's timestamp is later by more than click (C251_wrong); what each call reports is exact for each of the twelve points after the loop and for all points in it; one interruption"
  }
 ]
}