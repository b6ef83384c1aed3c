{"id": "C01", "title": "Circular buffer: single-element operations are a bounded FIFO", "statement": "From circular_buf_init with a buffer of size n (1<=n), every history of circular_buf_putc, circular_buf_getc, circular_buf_reset and the empty/full/capacity queries returns exactly what a FIFO queue of capacity n-1 returns: putc succeeds iff fewer than n-1 elements are stored, getc returns the oldest element not yet read, and a refused call changes nothing.", "quantifier": "every buffer size, element type, initial buffer content and finite history of calls", "why_tests_cant": "The number of histories and of head/tail positions at which the ring wraps is unbounded; tests sample a few.", "anchors": ["gel/collections/circular_buffer.c:circular_buf_putc", "gel/collections/circular_buffer.c:circular_buf_getc", "gel/collections/circular_buffer.c:circular_buf_reset", "gel/collections/circular_buffer.c:is_circular_buf_full", "gel/collections/circular_buffer.c:is_circular_buf_empty", "gel/collections/circular_buffer.c:circular_buf_init"]}
{"id": "C02", "title": "Circular buffer: bulk put appends exactly what fits", "statement": "circular_buf_puts(data,len) appends the first min(len, free) elements of data to the queue, in order, leaves the already stored elements alone, and returns that number.", "quantifier": "every reachable buffer state (size, head, tail, content), every data and len", "why_tests_cant": "Correctness depends on the relation between len and the wrapped free space for every head/tail pair; the failing case is one value of len per state.", "anchors": ["gel/collections/circular_buffer.c:circular_buf_puts", "gel/collections/circular_buffer.c:advance_pointer"]}
{"id": "C03", "title": "Circular buffer: bulk get/peek/drop return exactly the oldest elements", "statement": "circular_buf_gets(len), circular_buf_peek(len) and circular_buf_drop(len) with len>=0 process exactly min(len, stored) of the oldest elements in order and return that number; gets and drop remove them, peek removes nothing.", "quantifier": "every reachable buffer state and every len", "why_tests_cant": "Same: depends on every head/tail/len combination, in particular the full buffer with len>=size.", "anchors": ["gel/collections/circular_buffer.c:_circular_buf_get", "gel/collections/circular_buffer.c:circular_buf_gets", "gel/collections/circular_buffer.c:circular_buf_peek", "gel/collections/circular_buffer.c:circular_buf_drop", "gel/collections/circular_buffer.c:retreat_pointer"]}
{"id": "C04", "title": "Circular buffer: the size query reports the number of stored elements", "statement": "circular_buf_size returns the number of elements that can be read, in every reachable state; it never exceeds circular_buf_capacity.", "quantifier": "every reachable buffer state", "why_tests_cant": "Needs every head/tail pair for every buffer size.", "anchors": ["gel/collections/circular_buffer.c:circular_buf_size", "gel/collections/circular_buffer.c:circular_buf_capacity"]}
{"id": "C05", "title": "Circular buffer: no call accesses memory outside the buffer", "statement": "In every history of calls on an initialized circular buffer (all operations, any len, including the cases where FIFO semantics break) head and tail stay below the buffer size and every element read or written lies inside the supplied buffer; a bulk call with non-negative len never touches more than len elements of the caller's array.", "quantifier": "every history of calls with every length", "why_tests_cant": "Memory safety must hold for every state; a test only sees the states it drives.", "anchors": ["gel/collections/circular_buffer.c"]}
{"id": "C06", "title": "Circular buffer: one producer and one consumer thread need no lock (single elements)", "statement": "With one thread calling circular_buf_putc and another calling circular_buf_getc, under every interleaving of their individual memory accesses (sequentially consistent), the values got by the consumer are a prefix of the values successfully put, in order, without loss or duplication; at most n-1 are in flight; the producer never writes the slot the consumer is reading.", "quantifier": "every schedule, every buffer size, every pair of call sequences", "why_tests_cant": "Thread schedules cannot be enumerated by tests.", "anchors": ["gel/collections/circular_buffer.c:circular_buf_putc", "gel/collections/circular_buffer.c:circular_buf_getc", "gel/collections/circular_buffer.c:advance_pointer", "gel/collections/circular_buffer.c:retreat_pointer"]}
{"id": "C07", "title": "Circular buffer: bulk put always returns while the consumer runs", "statement": "A call to circular_buf_puts in the producer thread terminates, whatever the consumer thread does with getc concurrently.", "quantifier": "every schedule of producer and consumer steps", "why_tests_cant": "A livelock needs one particular preemption point; tests practically never hit it.", "anchors": ["gel/collections/circular_buffer.c:circular_buf_puts"]}
{"id": "C08", "title": "Macro queue: FIFO across index wrap-around", "statement": "For a queue declared with a power-of-two NUM_ITEMS up to 32768, every history of enqueue/dequeue/drop/is_empty/is_full from init returns exactly what a FIFO of capacity NUM_ITEMS returns, no matter how many elements have passed through (the 16-bit indices wrap any number of times).", "quantifier": "every power-of-two capacity <= 32768, item type, and history", "why_tests_cant": "Histories longer than 65536 operations at every phase are needed; tests run one.", "anchors": ["gel/collections/queue.h:QUEUE_DEFINITION"]}
{"id": "C09", "title": "Macro queue: count reports the number of queued elements", "statement": "NAME_count returns the number of elements enqueued and not yet dequeued, in every reachable state.", "quantifier": "every history of calls", "why_tests_cant": "Fails only in the states where the write index has wrapped and the read index has not.", "anchors": ["gel/collections/queue.h:NAME##_count"]}
{"id": "C10", "title": "Macro queue: every declared capacity works", "statement": "For any NUM_ITEMS from 1 to 32768 a queue declared with it behaves as a FIFO of that capacity.", "quantifier": "every declared capacity", "why_tests_cant": "Tests use two capacities, both powers of two.", "anchors": ["gel/collections/queue.h:NAME##_enqueue", "gel/collections/queue.h:NAME##_dequeue"]}
{"id": "C11", "title": "Macro stack: LIFO with bottom removal", "statement": "For any capacity from 1 to 65535, every history of push/pop/dequeue/is_empty/is_full from init returns exactly what a bounded stack returns: push succeeds iff fewer than capacity elements are stored, pop returns the most recently pushed element still stored, dequeue removes the oldest one, refused calls change nothing, and no access leaves the item array.", "quantifier": "every capacity, item type and history", "why_tests_cant": "Unbounded histories.", "anchors": ["gel/collections/stack.h:STACK_DEFINITION"]}
{"id": "C12", "title": "Macro stack: peek returns the top element without removing it", "statement": "NAME_peek on a non-empty stack yields the element the next pop would yield and leaves the stack unchanged.", "quantifier": "every reachable stack state", "why_tests_cant": "Must hold in every state, including a full stack.", "anchors": ["gel/collections/stack.h:NAME##_peek"]}
{"id": "C13", "title": "Intrusive list: add, add_tail and del act on the sequence of elements", "statement": "If head links the distinct elements l, then after list_add(x) (x not in the list) it links x::l, after list_add_tail(x) it links l++[x], after list_del(e) it links l without e; elements of other, disjoint lists are unaffected; hence every history of these calls from INIT_LIST_HEAD keeps a well-formed circular doubly-linked list whose forward and backward traversals are mirror images.", "quantifier": "every list length, every memory layout, every history of calls", "why_tests_cant": "Pointer structures of unbounded size and arbitrary aliasing with other lists.", "anchors": ["gel/collections/listx.h:INIT_LIST_HEAD", "gel/collections/listx.h:__list_add", "gel/collections/listx.h:list_add", "gel/collections/listx.h:list_add_tail", "gel/collections/listx.h:__list_del", "gel/collections/listx.h:list_del"]}
{"id": "C14", "title": "Intrusive list: iteration visits every element exactly once, in order, and terminates", "statement": "list_for_each visits exactly the list's elements in order and list_for_each_prev in reverse order, both terminate; list_empty, list_is_last, list_next, list_prev agree with the sequence.", "quantifier": "every well-formed list", "why_tests_cant": "Unbounded length.", "anchors": ["gel/collections/listx.h:list_for_each", "gel/collections/listx.h:list_for_each_prev", "gel/collections/listx.h:list_is_last", "gel/collections/listx.h:list_empty", "gel/collections/listx.h:list_next", "gel/collections/listx.h:list_prev"]}
{"id": "C15", "title": "Intrusive list: the current element may be deleted during iteration", "statement": "A list_for_each whose body list_del's an arbitrary subset of the elements it is visiting (the current element only) still visits every original element exactly once in order, and leaves exactly the elements not deleted.", "quantifier": "every list and every choice of deleted elements", "why_tests_cant": "Relies on list_del leaving the removed node's links intact; must hold for every subset of every list.", "anchors": ["gel/collections/listx.h:list_for_each", "gel/collections/listx.h:list_del"]}
{"id": "C16", "title": "CRC16: the table-driven checksum is the CCITT polynomial remainder", "statement": "crc16_ccitt(block,len,crc) equals the remainder of (crc * x^(8*len) + M(x) * x^16) modulo x^16+x^12+x^5+1 over GF(2), where M is the message polynomial, most significant bit first; the table index is always in range.", "quantifier": "every block of every length and every initial value", "why_tests_cant": "Unbounded messages.", "anchors": ["gel/crc/crc16-ccitt.c:crc16_ccitt", "gel/crc/crc16-ccitt.c:crc16_ccitt_table"]}
{"id": "C17", "title": "CRC32: the table-driven checksum is the polynomial remainder", "statement": "crc32(buf,len,init) equals the remainder of (init * x^(8*len) + M(x) * x^32) modulo the polynomial 0x104C11DB7 over GF(2).", "quantifier": "every buffer of every length and every initial value", "why_tests_cant": "Unbounded messages.", "anchors": ["gel/crc/crc32.c:crc32", "gel/crc/crc32.c:crc32_table"]}
{"id": "C18", "title": "CRC: computing in segments equals computing in one go", "statement": "For both checksums, feeding the result for a first segment as the initial value of the second yields the checksum of the concatenation.", "quantifier": "every split of every message, every initial value", "why_tests_cant": "All splits of all messages.", "anchors": ["gel/crc/crc16-ccitt.c:crc16_ccitt", "gel/crc/crc32.c:crc32"]}
{"id": "C19", "title": "CRC: every error burst no longer than the checksum is detected", "statement": "Two messages of equal length that differ only within a window of at most 16 (crc16_ccitt) or 32 (crc32) consecutive bits have different checksums, for the same initial value.", "quantifier": "every message length, position and burst pattern", "why_tests_cant": "Number of (message, burst) pairs is unbounded.", "anchors": ["gel/crc/crc16-ccitt.c:crc16_ccitt", "gel/crc/crc32.c:crc32"]}
{"id": "C20", "title": "CRC: a frame followed by its own checksum checks to zero, and only then", "statement": "Appending the big-endian checksum to a message makes the checksum of the whole frame zero, and any other trailer makes it non-zero.", "quantifier": "every message and initial value", "why_tests_cant": "Unbounded messages.", "anchors": ["gel/crc/crc16-ccitt.c:crc16_ccitt", "gel/crc/crc32.c:crc32"]}
{"id": "C21", "title": "CRC16: odd-weight and two-bit errors are detected", "statement": "Two equal-length messages that differ in an odd number of bits, or in exactly two bits less than 32767 bit positions apart, have different crc16_ccitt.", "quantifier": "every message length and error position", "why_tests_cant": "All error patterns over unbounded lengths.", "anchors": ["gel/crc/crc16-ccitt.c:crc16_ccitt"]}
{"id": "C22", "title": "Serializer: unsigned round trip and exact byte layout", "statement": "serialize_uintN_{le,be} write exactly N/8 bytes, in the stated byte order (byte k of the little-endian image is floor(val/256^k) mod 256, the big-endian image is its reverse), leave all other bytes alone and return N/8; deserialize_uintN of the same order recovers the value, and re-serializing any N/8 bytes that were deserialized reproduces them.", "quantifier": "every value, every N in {8,16,32,64}, every buffer content and offset", "why_tests_cant": "2^64 values; tests draw a few at random.", "anchors": ["gel/serializer/serializer.h"]}
{"id": "C23", "title": "Serializer: signed values survive the round trip", "statement": "Writing the two's-complement image of a signed N-bit value with the unsigned serializer and reading it with deserialize_intN_{le,be} returns the same signed value, without undefined behaviour.", "quantifier": "every signed value of 8, 16, 32 and 64 bits", "why_tests_cant": "2^64 values; undefined behaviour is invisible to a test that happens to pass.", "anchors": ["gel/serializer/serializer.h:deserialize_int8", "gel/serializer/serializer.h:deserialize_int16_le", "gel/serializer/serializer.h:deserialize_int32_le", "gel/serializer/serializer.h:deserialize_int64_le", "gel/serializer/serializer.h:deserialize_int16_be", "gel/serializer/serializer.h:deserialize_int32_be", "gel/serializer/serializer.h:deserialize_int64_be"]}
{"id": "C24", "title": "Serializer: a packet of consecutive fields is recovered field by field", "statement": "Serializing any sequence of fields one after the other, advancing by the returned sizes, and deserializing with the same sequence of types and orders returns the same values and consumes the same number of bytes; no field overwrites another.", "quantifier": "every sequence of field types and values, every buffer large enough", "why_tests_cant": "Unbounded field sequences.", "anchors": ["gel/serializer/serializer.h"]}
{"id": "C25", "title": "Debounce: an input changes exactly after debounce+1 consecutive differing samples", "statement": "For each of the inputs (as many as unsigned int has bits, whatever that number is) independently, with a fixed debounce d>=0, starting from debounce_filter_init and with left shifts of signed values as GCC and Clang define them, the stored level flips at a call iff that call is the (d+1)-th consecutive one whose sample differs from the stored level; otherwise it keeps its value.", "quantifier": "every d, every sequence of input bitmaps", "why_tests_cant": "All input sequences.", "anchors": ["gel/debounce/debounce.c:debounce_filter", "gel/debounce/debounce.c:debounce_filter_single", "gel/debounce/debounce.c:debounce_filter_init"]}
{"id": "C26", "title": "Debounce: the return value is the bitmap of inputs that changed", "statement": "debounce_filter returns exactly the set of inputs whose stored level changed during the call, debounce_value/debounce_read report the stored levels, and debounce_read rejects an out-of-range index with -1; the behaviour of one input does not depend on the other inputs.", "quantifier": "every reachable filter state and input", "why_tests_cant": "All states and inputs.", "anchors": ["gel/debounce/debounce.c:debounce_filter", "gel/debounce/debounce.h:debounce_read", "gel/debounce/debounce.h:debounce_value"]}
{"id": "C27", "title": "Debounce: after debounce_filter_set a change again needs debounce+1 samples", "statement": "After debounce_filter_set(v) the stored levels are v, and no input changes before debounce+1 consecutive samples differing from v have been seen after the set.", "quantifier": "every history before the set", "why_tests_cant": "Depends on leftover counters from every possible history.", "anchors": ["gel/debounce/debounce.c:debounce_filter_set"]}
{"id": "C28", "title": "Pulse counter: the count is the number of debounced pulses", "statement": "With a fixed debounce d, starting from an initialized (zero-filled counters) filter, pulse_count(i) equals, modulo 2^w (w the number of bits of int, any number) and reinterpreted as int, the number of complete debounced pulses of the selected polarity seen on input i since the last pulse_clear(i), where the debounced level follows the same d+1 rule; pulse_filter returns 1 iff some count was incremented in that call; pulse_level is the debounced level.", "quantifier": "every input sequence, polarity and d", "why_tests_cant": "All input sequences, and wrap-around of the count.", "anchors": ["gel/debounce/pulsecounter.c:pulse_filter", "gel/debounce/pulsecounter.c:pulse_level", "gel/debounce/pulsecounter.h:pulse_count", "gel/debounce/pulsecounter.h:pulse_clear"]}
{"id": "C29", "title": "Pulse counter: initialization makes the filter independent of previous memory content", "statement": "After pulse_filter_init the behaviour of the filter depends only on its arguments and later inputs, not on what the struct contained before.", "quantifier": "every previous content of the struct", "why_tests_cant": "Uninitialized memory content is arbitrary.", "anchors": ["gel/debounce/pulsecounter.c:pulse_filter_init"]}
{"id": "C30", "title": "Keypad: the events of each key follow the documented life cycle", "statement": "For keys with distinct codes, in every history of keypad_routine calls after keypad_reset_keys, the events reported for a key obey: PRESS only when the key is not already pressed; CLICK at most once per PRESS and only after it; PRESSING only after CLICK; LONGCLICK at most once per PRESS and only after PRESS or CLICK; LONGPRESS only after LONGCLICK; RELEASE at most once per PRESS and only after PRESS, CLICK or LONGCLICK.", "quantifier": "every key table, every sequence of (timestamp, bitmap, thresholds)", "why_tests_cant": "Unbounded interleavings of several keys and times.", "anchors": ["gel/keypad/keypad.c:keypad_routine", "gel/keypad/keypad.c:keypad_reset_keys"]}
{"id": "C31", "title": "Keypad: a second PRESS of a key is preceded by a RELEASE", "statement": "Between two PRESS events of the same key there is a RELEASE event of that key.", "quantifier": "every call history", "why_tests_cant": "Fails only when the key bounces during the release delay.", "anchors": ["gel/keypad/keypad.c:keypad_routine"]}
{"id": "C32", "title": "Keypad: CLICK and LONGCLICK respect their times", "statement": "CLICK is reported only for a key whose bitmap is the current one and strictly more than `click` after that key's last PRESS; with click<=longclick, LONGCLICK likewise strictly more than `longclick` after its last PRESS (times within half the timestamp range, wrap-around included).", "quantifier": "every call history", "why_tests_cant": "All timings, including wrap-around of the timestamp.", "anchors": ["gel/keypad/keypad.c:keypad_routine", "gel/timer/timecheck.h:is_strictly_expired"]}
{"id": "C33", "title": "Keypad: key state query reports whether the key is held", "statement": "After each keypad_routine call keypad_get_key_state(key) is 1 iff the bitmap passed to that call is the key's bitmap.", "quantifier": "every call history", "why_tests_cant": "Fails only for particular interleavings of several keys.", "anchors": ["gel/keypad/keypad.c:keypad_get_key_state"]}
{"id": "C34", "title": "Keypad: a press from idle is reported immediately, one key at a time", "statement": "If all keys are idle (after reset or after their RELEASE) and have distinct non-zero bitmaps, a call whose bitmap is a key's bitmap reports PRESS with that key's code; a call whose bitmap is no key's bitmap reports nothing; every call reports at most one event and it belongs to one of the keys.", "quantifier": "every idle key table and bitmap", "why_tests_cant": "All tables, all idle histories.", "anchors": ["gel/keypad/keypad.c:keypad_routine"]}
{"id": "C35", "title": "Parameter: stepping keeps the value within its limits", "statement": "After parameter_operator with mod != 0 that executes without undefined behaviour, the value lies between the (static or dynamic) minimum and maximum, whenever minimum <= maximum, whatever the value was before; only the parameter's own variable changes.", "quantifier": "every integer type, value, limits, step, mod", "why_tests_cant": "All values of all types.", "anchors": ["gel/parameter/parameter.c:parameter_operator", "gel/parameter/parameter.c:APPLY_OPERATOR"]}
{"id": "C36", "title": "Parameter: stepping adds step*mod or wraps to the opposite limit", "statement": "parameter_operator sets the value to value+step*mod if that (exact) sum is within the limits, otherwise to the minimum when mod>0 and to the maximum when mod<0.", "quantifier": "every integer type, value, limits, step, mod", "why_tests_cant": "Fails only where the exact sum leaves the C type.", "anchors": ["gel/parameter/parameter.c:parameter_operator", "gel/parameter/parameter.c:APPLY_OPERATOR"]}
{"id": "C37", "title": "Parameter: range check repairs exactly the out-of-range parameters", "statement": "parameter_check_ranges returns the number of parameters whose value was outside its limits, sets exactly those to their default and leaves the others alone; if defaults are within limits a second call returns 0.", "quantifier": "every list of parameters with separate variables, dynamic limits stored outside these variables, any values", "why_tests_cant": "All lists and values.", "anchors": ["gel/parameter/parameter.c:parameter_check_ranges", "gel/parameter/parameter.c:CHECK_RANGE"]}
{"id": "C38", "title": "Parameter: reset sets every parameter to its default", "statement": "parameter_reset_to_defaults sets every parameter of the list to its default value, whatever its access level.", "quantifier": "every list of parameters", "why_tests_cant": "All lists and access levels.", "anchors": ["gel/parameter/parameter.c:parameter_reset_to_defaults", "gel/parameter/parameter.c:parameter_get_handle"]}
{"id": "C39", "title": "Parameter: access levels select the same parameters for counting and for lookup", "statement": "parameter_get_count(al) returns the number of parameters accessible at level al, and parameter_get_handle(num, al) returns the num-th accessible one in list order, NULL when num is at least that count.", "quantifier": "every list, access level and index", "why_tests_cant": "All lists and levels; disagreement only for access level 0 entries.", "anchors": ["gel/parameter/parameter.c:parameter_get_count", "gel/parameter/parameter.c:parameter_get_handle"]}
{"id": "C40", "title": "Parameter: conversion to long preserves the value", "statement": "parameter_to_long returns the numeric value of every integer-typed parameter that fits in long.", "quantifier": "every integer type and value", "why_tests_cant": "All values; fails only for negative 8-bit ones.", "anchors": ["gel/parameter/parameter.c:parameter_to_long"]}
{"id": "C41", "title": "Parameter: number of values in the range", "statement": "parameter_get_total_values returns max-min+1 for every integer-typed parameter with min<=max whose result fits.", "quantifier": "every integer type and limits", "why_tests_cant": "All limits.", "anchors": ["gel/parameter/parameter.c:parameter_get_total_values", "gel/parameter/parameter.c:GET_RANGE"]}
{"id": "C42", "title": "Parameter: clones are independent copies", "statement": "parameter_clone, parameter_clone_with_buffer and parameter_copy_value give the destination variable the source's value and change nothing else; copy_value between different types is refused with -1 and changes nothing; later changes of one do not affect the other.", "quantifier": "every type, value and memory layout with disjoint variables", "why_tests_cant": "All memories.", "anchors": ["gel/parameter/parameter.c:parameter_clone", "gel/parameter/parameter.c:parameter_clone_with_buffer", "gel/parameter/parameter.c:parameter_copy_value"]}
{"id": "C43", "title": "Wear leveling: a read returns the last successful write", "statement": "Within one session with a working device and a fixed record length, wearleveling_read returns the data of the most recent wearleveling_write, after every history of writes.", "quantifier": "every number of blocks 1..255, every history of writes, every initial device content", "why_tests_cant": "Unbounded histories.", "anchors": ["gel/wearleveling/wearleveling.c:wearleveling_read", "gel/wearleveling/wearleveling.c:wearleveling_write"]}
{"id": "C44", "title": "Wear leveling: the data survives a restart", "statement": "On a device whose markers were initially all equal, after any history of writes and restarts (wearleveling_init), a read returns the last data written before the restart.", "quantifier": "every number of blocks 1..255, every history of writes and restarts", "why_tests_cant": "Unbounded histories; fails only at particular write counts.", "anchors": ["gel/wearleveling/wearleveling.c:wearleveling_init", "gel/wearleveling/wearleveling.c:search_last"]}
{"id": "C45", "title": "Wear leveling: writes are spread evenly and identical data is not rewritten", "statement": "Writing data equal to the stored data performs no device write; otherwise exactly one block, the next one cyclically, is written; hence over any history the write counts of two blocks differ by at most one.", "quantifier": "every history of writes", "why_tests_cant": "Unbounded histories.", "anchors": ["gel/wearleveling/wearleveling.c:wearleveling_write"]}
{"id": "C46", "title": "Wear leveling: a failed write leaves the old data readable", "statement": "If the device refuses a write (write_block returns non-zero and changes nothing), wearleveling_write returns that error and a following read still returns the previously stored data.", "quantifier": "every state and every failing write", "why_tests_cant": "Fault injection at every write of every history.", "anchors": ["gel/wearleveling/wearleveling.c:wearleveling_write"]}
{"id": "C47", "title": "Wear leveling: a crash during a write leaves either the old or the new data", "statement": "If power is lost during wearleveling_write on a device whose block write is atomic, then after restart a read returns either the data before or the data after that write.", "quantifier": "every crash point of every history", "why_tests_cant": "All crash points.", "anchors": ["gel/wearleveling/wearleveling.c:wearleveling_write", "gel/wearleveling/wearleveling.c:wearleveling_init"]}
{"id": "C48", "title": "Wear leveling: a device error during initialization does not select an arbitrary block", "statement": "If reading a marker fails during wearleveling_init, the active block index used afterwards is still a block of the page.", "quantifier": "every error code and failing position", "why_tests_cant": "All error codes.", "anchors": ["gel/wearleveling/wearleveling.c:search_last"]}
{"id": "C49", "title": "Wear leveling: a shorter write only changes the bytes written", "statement": "Writing len bytes changes the first len bytes of the stored record and preserves the remaining bytes of the block-sized storage section.", "quantifier": "every state, every shorter record length", "why_tests_cant": "All lengths and contents.", "anchors": ["gel/wearleveling/wearleveling.c:wearleveling_write"]}
{"id": "C50", "title": "Event log: the last events are returned in order", "statement": "After any history of successful circular_event_log_new_event calls on a log of max_events>=1, circular_event_log_total_events is min(number of events, max_events), and load_last_events(number, jump) with jump+number not overflowing returns, oldest first, the min(number, total-jump) events preceding the jump most recent ones (0 if jump exceeds total), written contiguously in the caller's array.", "quantifier": "every capacity, event size, history, number and jump", "why_tests_cant": "Unbounded histories and windows across the wrap point.", "anchors": ["gel/circular_event_log/circular_event_log.c"]}
{"id": "C51", "title": "Event log: a refused save changes nothing", "statement": "If save_new_event fails, new_event returns its error and the log's total and the results of subsequent loads are as before.", "quantifier": "every history with failures at arbitrary points", "why_tests_cant": "Failures at every point.", "anchors": ["gel/circular_event_log/circular_event_log.c:circular_event_log_new_event"]}
{"id": "C52", "title": "Event log: a load error is reported to the caller", "statement": "If load_events fails (negative result) during load_last_events, load_last_events returns a negative result.", "quantifier": "every state and failing call", "why_tests_cant": "Only the second of two loads across the wrap point is affected.", "anchors": ["gel/circular_event_log/circular_event_log.c:circular_event_log_load_last_events"]}
{"id": "C53", "title": "Time checks are correct across timestamp wrap-around", "statement": "For true times whose distance to the deadline is below half the timestamp range, is_expired/is_loosely_expired(start,now,delay) is true iff now >= start+delay and is_strictly_expired iff now > start+delay, on the wrapped timestamps; time_after/time_before order true times less than half the range apart.", "quantifier": "every word width, start, now, delay", "why_tests_cant": "2^192 argument combinations; wrap-around.", "anchors": ["gel/timer/timecheck.h:time_after", "gel/timer/timecheck.h:is_loosely_expired", "gel/timer/timecheck.h:is_strictly_expired"]}
{"id": "C54", "title": "time_interval is the distance between two timestamps", "statement": "time_interval(a,b) is the absolute difference of the true times, for times at most half the range apart, and is symmetric for all stamps.", "quantifier": "every pair of stamps, any width", "why_tests_cant": "All pairs.", "anchors": ["gel/timer/timecheck.h:time_interval"]}
{"id": "C55", "title": "Time checks work for a custom timestamp type", "statement": "With GEL_CUSTOM_TIMESTAMP_TYPE set to an unsigned type of another width the comparisons remain correct across wrap-around.", "quantifier": "every pair of widths", "why_tests_cant": "All stamps for every platform.", "anchors": ["gel/timer/timecheck.h:GEL_CUSTOM_TIMESTAMP_TYPE", "gel/timer/timecheck.h:time_after"]}
{"id": "C56", "title": "Stopwatch: elapsed time is the total running time", "statement": "After every history of start/stop/pause/restart/set/change/set_elapsed with non-decreasing true times, get_elapsed equals (modulo the timestamp range) the preset elapsed time plus the sum of the intervals during which the stopwatch was running since it was last stopped, if each running interval is at most half the range.", "quantifier": "every history and all times, including timestamp wrap-around", "why_tests_cant": "Unbounded histories.", "anchors": ["gel/timer/stopwatch.c"]}
{"id": "C57", "title": "Stopwatch: reached, remaining and elapsed agree", "statement": "For a running or paused stopwatch is_timer_reached is true iff the elapsed time is at least the set period, get_remaining is the period minus the elapsed time or 0, and reached holds iff remaining is 0 (times within half the range); a stopped stopwatch is never reached.", "quantifier": "every reachable state and time", "why_tests_cant": "All states and times.", "anchors": ["gel/timer/stopwatch.c:stopwatch_is_timer_reached", "gel/timer/stopwatch.c:stopwatch_get_remaining"]}
{"id": "C58", "title": "Stopwatch: state transitions and refusals", "statement": "start is refused (-1, no change) iff running; pause iff not running; set and set_elapsed iff not stopped; restart and change always leave it running from zero; refused operations change nothing.", "quantifier": "every state", "why_tests_cant": "Every state and argument.", "anchors": ["gel/timer/stopwatch.c"]}
{"id": "C59", "title": "Timer: a one-shot timer fires exactly once, not before its period", "statement": "A timer without autoreload, polled by gel_timer_manage_callback at non-decreasing times, calls its callback exactly once, at the first poll at or after start+period, and never again until resumed; stop prevents firing.", "quantifier": "every sequence of polls", "why_tests_cant": "Unbounded poll sequences.", "anchors": ["gel/timer/timer.c:gel_timer_manage_callback", "gel/timer/timer.c:gel_timer_init", "gel/timer/timer.c:gel_timer_stop"]}
{"id": "C60", "title": "Timer: autoreload firings are at least a period apart", "statement": "A timer with autoreload fires at the first poll at or after its deadline and the next deadline is a period after that poll; so consecutive firings are at least one period apart.", "quantifier": "every sequence of polls", "why_tests_cant": "Unbounded poll sequences.", "anchors": ["gel/timer/timer.c:gel_timer_manage_callback", "gel/timer/timer.c:gel_timer_set_autoreload"]}
{"id": "C61", "title": "Timer: pause, resume, reset and change_period", "statement": "pause freezes the remaining time and resume continues from it; reset restores the full period keeping running/paused state; change_period installs the new period keeping running/paused state; reset and change_period do nothing on a stopped timer.", "quantifier": "every state and time", "why_tests_cant": "All states and times.", "anchors": ["gel/timer/timer.c"]}
{"id": "C62", "title": "Watcher: an immediate watcher fires once per observed change", "statement": "process_changes calls the callback of a non-delayed watcher iff the watched bytes differ from those at the previous process/clear/init, exactly once, in list order, and returns 1 iff some watched memory had changed; check_for_changes reports the same without side effects.", "quantifier": "every list of watchers with callbacks that do not modify watched memory, every memory history", "why_tests_cant": "All memory contents and histories.", "anchors": ["gel/data_structures/watcher.c:watcher_process_changes", "gel/data_structures/watcher.c:watcher_check_for_changes", "gel/data_structures/watcher.c:watcher_list_init"]}
{"id": "C63", "title": "Watcher: a delayed watcher fires once, a full quiet delay after the last change", "statement": "A watcher with delay fires at the first process_changes call that finds the memory unchanged and is at least delay after the last call that found a change, exactly once per burst of changes, and never earlier.", "quantifier": "every sequence of memory changes and process calls within half the timestamp range", "why_tests_cant": "Unbounded sequences.", "anchors": ["gel/data_structures/watcher.c:watcher_process_changes"]}
{"id": "C64", "title": "Watcher: clear_changes cancels pending notifications", "statement": "After watcher_clear_changes no callback fires until the memory changes again.", "quantifier": "every history", "why_tests_cant": "Depends on delayed notifications pending from earlier history.", "anchors": ["gel/data_structures/watcher.c:watcher_clear_changes"]}
{"id": "C65", "title": "Maybe: the nullable type obeys the functor and monad laws", "statement": "Up to the observations is_just and with_default: map preserves identity and composition; return/bind satisfy the monad laws; with_default returns the default exactly for nothing.", "quantifier": "every value, every function", "why_tests_cant": "All functions.", "anchors": ["gel/data_structures/maybe.h:MAYBE_DEFINITION"]}
{"id": "C66", "title": "Struct update: applying an update changes exactly the addressed bytes", "statement": "struct_update_apply writes the bytes captured at creation time at the given offset and leaves all other memory alone, no matter how the source changed in between; it is idempotent; updates to disjoint fields commute; the last of two updates to the same field wins.", "quantifier": "every memory, offset, size and data", "why_tests_cant": "All memories.", "anchors": ["gel/data_structures/struct_update.c:struct_update_from_data", "gel/data_structures/struct_update.c:struct_update_apply", "gel/data_structures/struct_update.c:struct_update_free"]}
{"id": "C67", "title": "State machine: events drive exactly the table's transitions", "statement": "send_event calls the manager of the current state exactly once, moves to the returned state and reports 1 iff the result is non-negative, otherwise stays and reports 0; if managers only return states of the table, no event history indexes outside the table.", "quantifier": "every table and event history", "why_tests_cant": "Unbounded histories.", "anchors": ["gel/state_machine/state_machine.h:DEFINE_STATE_MACHINE"]}
{"id": "C68", "title": "Page manager: back returns to the previous page", "statement": "After change_page from page A to B (within the navigation depth), pman_back closes and destroys B, makes A current again with the data A was created with, and opens it; more generally navigation behaves as a stack of pages, and back on the bottom page does nothing.", "quantifier": "every navigation history", "why_tests_cant": "Unbounded histories.", "anchors": ["gel/pagemanager/page_manager.c:pman_change_page_extra", "gel/pagemanager/page_manager.c:pman_back"]}
{"id": "C69", "title": "Page manager: page life cycle", "statement": "In every navigation history starting with change_page on an initialized manager, each page instance is created once, opened and closed alternately starting with open, closed before being destroyed unless never opened, destroyed at most once and not used afterwards; the instances created and not destroyed are exactly the current page and those on the stack.", "quantifier": "every history of change/swap/rebase/back/reset with assertions enabled", "why_tests_cant": "Unbounded histories with unbounded many pages.", "anchors": ["gel/pagemanager/page_manager.c"]}
{"id": "C70", "title": "Page manager: rebase and swap on a fresh manager", "statement": "pman_rebase_page or pman_swap_page may be the first navigation after pman_init: it shows the page and the manager is usable afterwards.", "quantifier": "every page", "why_tests_cant": "Depends on uninitialized memory.", "anchors": ["gel/pagemanager/page_manager.c:pman_rebase_page_extra", "gel/pagemanager/page_manager.c:pman_swap_page_extra", "gel/pagemanager/page_manager.c:pman_init"]}
{"id": "C71", "title": "Page manager: a failed reset leaves a usable manager", "statement": "After pman_reset_to_page with found=0 every page has been destroyed exactly once, and any later navigation does not use a destroyed page.", "quantifier": "every history", "why_tests_cant": "Needs a failed search followed by further navigation.", "anchors": ["gel/pagemanager/page_manager.c:pman_reset_to_page"]}
{"id": "C72", "title": "Page manager: reset_to_page unwinds to the topmost page with the id", "statement": "pman_reset_to_page closes and destroys the current page, destroys the stacked pages above the topmost one with the given id, makes that one current with its own data and opens it, reporting found=1; with no such page it destroys them all and reports found=0.", "quantifier": "every stack and id", "why_tests_cant": "All stacks.", "anchors": ["gel/pagemanager/page_manager.c:pman_reset_to_page"]}
{"id": "C73", "title": "Page manager: behaviour does not depend on NDEBUG", "statement": "With assertions compiled out (and no assertion would have failed) the page manager behaves the same.", "quantifier": "every navigation history", "why_tests_cant": "Tests are built with assertions enabled.", "anchors": ["gel/pagemanager/page_manager.c:pman_change_page_extra"]}
{"id": "C74", "title": "PID: derivative uses the error DELTA samples ago", "statement": "With a constant setpoint, after at least two inputs pid_compute_d is (thresholds off) Kd times the difference between the current error and the error min(DELTA, number of inputs-1) inputs ago; 0 after fewer than two inputs.", "quantifier": "every input sequence, every delta size, any gain arithmetic", "why_tests_cant": "Unbounded input sequences.", "anchors": ["gel/pid/pid.c:pid_compute_d", "gel/pid/pid.c:pid_add_input"]}
{"id": "C75", "title": "PID: the integral is the sum of the last N errors", "statement": "With thresholds and auto-clear off, pid_compute_i is Ki times the sum of the errors of the last N inputs (all of them while fewer).", "quantifier": "every input sequence", "why_tests_cant": "Fails only when an error is exactly zero after a full window.", "anchors": ["gel/pid/pid.c:pid_compute_i", "gel/pid/pid.c:pid_add_input"]}
{"id": "C76", "title": "PID: integral thresholds and auto clear", "statement": "Errors at or beyond the enabled threshold of their sign contribute 0 to the integral; with auto-clear, when the error changes sign the integral contains only errors from that input on.", "quantifier": "every input sequence and threshold setting", "why_tests_cant": "Unbounded sequences.", "anchors": ["gel/pid/pid.c:pid_add_input", "gel/pid/pid.c:pid_clear_integral_history"]}
{"id": "C77", "title": "PID: compute is the sum of its terms and has no side effects; indices stay in range", "statement": "pid_compute returns P+I+D computed from the current state, does not change it, and in every history the history indices stay inside their arrays.", "quantifier": "every history", "why_tests_cant": "Unbounded histories.", "anchors": ["gel/pid/pid.c:pid_compute", "gel/pid/pid.c:pid_add_input"]}
{"id": "C78", "title": "Scheduler: the active entry is the one with the smallest weekly span, ties by value", "statement": "scheduler_get_active_entry_number returns -1 iff no enabled entry is active at that time, otherwise the index of an enabled active entry such that no other enabled active entry has a smaller weekly timespan, and among equal timespans none has a greater value (values 0..255), the first one in order; current_value reports its value.", "quantifier": "every entry table and time", "why_tests_cant": "All tables.", "anchors": ["gel/scheduler/scheduler.c:scheduler_get_active_entry_number", "gel/scheduler/scheduler.c:scheduler_current_value", "gel/scheduler/scheduler.c:scheduler_is_active", "gel/scheduler/scheduler.c:total_week_timespan"]}
{"id": "C79", "title": "Scheduler: tie-breaking by value works for every int value", "statement": "The same with arbitrary int values.", "quantifier": "every entry table and time", "why_tests_cant": "Only tables with equal spans and values outside 0..255.", "anchors": ["gel/scheduler/scheduler.c:scheduler_get_active_entry_number"]}
{"id": "C80", "title": "Scheduler: an entry is active exactly during its daily interval on its days", "statement": "For entries ending within the day, is_entry_active holds iff the weekday is selected and start <= now < end (seconds of day).", "quantifier": "every entry and time of day", "why_tests_cant": "All entries and times.", "anchors": ["gel/scheduler/scheduler.c:is_entry_active", "gel/scheduler/scheduler.c:is_day_included", "gel/scheduler/scheduler.c:to_seconds"]}
{"id": "C81", "title": "Scheduler: an entry that ends after midnight continues on the following day", "statement": "An entry with end beyond 24h selected for a day is active from start on that day until end-24h on the next day, and not at other times.", "quantifier": "every overnight entry and time", "why_tests_cant": "All entries and times.", "anchors": ["gel/scheduler/scheduler.c:is_entry_active"]}
{"id": "C82", "title": "Scheduler: remaining duration is the time until the active entry ends", "statement": "For an active entry scheduler_get_schedule_remaining_duration returns the number of seconds until it stops being active, 0 for an inactive or non-existing one.", "quantifier": "every entry and time", "why_tests_cant": "All entries and times.", "anchors": ["gel/scheduler/scheduler.c:scheduler_get_schedule_remaining_duration", "gel/scheduler/scheduler.c:scheduler_get_current_remaining_duration"]}
{"id": "C83", "title": "Scheduler: entry serialization round trip", "statement": "Serializing an entry yields 11 bytes from which deserialization recovers the same entry.", "quantifier": "every entry", "why_tests_cant": "2^112 entries.", "anchors": ["gel/scheduler/scheduler.c:scheduler_entry_serialize", "gel/scheduler/scheduler.c:scheduler_entry_deserialize"]}
{"id": "C84", "title": "Scheduler: no reported overlap means never active together", "statement": "If are_there_overlapping_entries returns 0 for an entry, then at no time are that entry and an enabled entry of the table both active.", "quantifier": "every table, entry and time", "why_tests_cant": "All tables and times.", "anchors": ["gel/scheduler/scheduler.c:scheduler_are_there_overlapping_entries"]}
{"id": "C85", "title": "Scheduler: out-of-range indices are refused", "statement": "get_entry returns NULL, set_entry and disable return -1 without change, and is_schedule_entry_enabled does not report an enabled entry, for every index outside the table; in-range set/get/disable act on exactly that entry; next_enabled/first_available return the first matching index or -1.", "quantifier": "every index and table", "why_tests_cant": "All indices.", "anchors": ["gel/scheduler/scheduler.c:scheduler_set_entry", "gel/scheduler/scheduler.c:scheduler_get_entry", "gel/scheduler/scheduler.c:scheduler_is_schedule_entry_enabled", "gel/scheduler/scheduler.c:scheduler_disable_schedule_entry", "gel/scheduler/scheduler.c:scheduler_get_next_enabled_entry", "gel/scheduler/scheduler.c:scheduler_get_first_available_entry"]}
{"id": "C86", "title": "Scheduler: the active map lists exactly the enabled active entries", "statement": "Bit i of scheduler_get_active_entries_map is set iff entry i is enabled and active, for tables of up to 16 entries.", "quantifier": "every table and time", "why_tests_cant": "All tables.", "anchors": ["gel/scheduler/scheduler.c:scheduler_get_active_entries_map"]}
{"id": "C87", "title": "Circular buffer: bulk operations between one producer and one consumer thread", "statement": "With one thread calling circular_buf_putc/puts and another calling getc/gets, where no puts is started with more elements than fit at that moment and no gets asks for more than the capacity, under every interleaving of their memory accesses the consumer receives exactly a prefix of what was put, in order, without loss or duplication.", "quantifier": "every interleaving and every number of calls", "why_tests_cant": "Unbounded interleavings of two threads.", "anchors": ["gel/collections/circular_buffer.c:circular_buf_puts", "gel/collections/circular_buffer.c:circular_buf_gets"]}
{"id": "C88", "title": "CRC32: two-bit errors are detected", "statement": "Two equal-length messages that differ in exactly two bits less than 4294967295 bit positions apart have different crc32, for the same initial value.", "quantifier": "every message length up to 512 MiB and beyond, every pair of positions", "why_tests_cant": "The number of position pairs is astronomically large; needs the multiplicative order of x modulo the generator.", "anchors": ["gel/crc/crc32.c:crc32"]}
{"id": "C89", "title": "Serializer: PACK and UNPACK macros", "statement": "PACK_UINT16_BE/PACK_UINT8 of a variable followed by UNPACK_UINT16_BE/UNPACK_UINT8 into a variable of the same unsigned type gives the value back exactly if it fits in 16 (8) bits, and both report 2 (1) bytes; only those bytes are written.", "quantifier": "every variable width and value", "why_tests_cant": "All values of all widths.", "anchors": ["gel/serializer/serializer.h:PACK_UINT16_BE", "gel/serializer/serializer.h:PACK_UINT8", "gel/serializer/serializer.h:UNPACK_UINT16_BE", "gel/serializer/serializer.h:UNPACK_UINT8"]}
{"id": "C90", "title": "Debounce: changing debounce values", "statement": "When every call of debounce_filter may pass a different debounce value, a call changes an input exactly if it is call s+d(s), where s is the first call of the current run of consecutive samples differing from the level and d(s) is the value passed in that first call: the values of the later calls do not matter.", "quantifier": "every sequence of input bitmaps and debounce values", "why_tests_cant": "All sequences of two unbounded arguments.", "anchors": ["gel/debounce/debounce.c:debounce_filter"]}
{"id": "C91", "title": "Debounce and pulse counter: no undefined behaviour in strictly conforming C", "statement": "With left shifts of signed values as in the C standard (undefined when the result is not representable), debounce_filter and pulse_filter are defined for every state and input and behave as with GCC's shifts.", "quantifier": "every reachable state and input", "why_tests_cant": "Undefined behaviour is not observable by running a test.", "anchors": ["gel/debounce/debounce.c:debounce_filter", "gel/debounce/pulsecounter.c:pulse_filter"]}
{"id": "C92", "title": "Timer: a paused timer never fires", "statement": "While a timer is paused, polls of gel_timer_manage_callback do not call its callback, at any time, until it is resumed.", "quantifier": "every timer, every pause time and every sequence of polls", "why_tests_cant": "Unbounded sequences of polls and all times.", "anchors": ["gel/timer/timer.c:gel_timer_pause", "gel/timer/timer.c:gel_timer_manage_callback"]}
{"id": "C93", "title": "Parameter: the macros store their arguments unchanged", "statement": "PARAMETER, PARAMETER_STEP, PARAMETER_DLIMITS and PARAMETER_FULL store the given minimum, maximum, default and step unchanged in the handle whenever they are values of the variable's integer type.", "quantifier": "every integer type and every value of it", "why_tests_cant": "All values of 64-bit types.", "anchors": ["gel/parameter/parameter.h:_PARAMETER_LIMIT_VALUE_OPTION", "gel/parameter/parameter.h:CAST64"]}
{"id": "C94", "title": "Parameter: conversion to bool", "statement": "parameter_to_bool of an integer-typed parameter is 1 iff its value is not zero.", "quantifier": "every integer type and value, every width of size_t", "why_tests_cant": "All values of 64-bit types on all platforms.", "anchors": ["gel/parameter/parameter.c:parameter_to_bool", "gel/parameter/parameter.c:parameter_to_index"]}
{"id": "C95", "title": "Event log: asking for more events than there are returns all of them", "statement": "circular_event_log_load_last_events with number at least max_events (for example SIZE_MAX, meaning everything) and jump at most the number of stored events returns all total-jump events that precede the jump most recent ones.", "quantifier": "every log state, every number and jump of type size_t", "why_tests_cant": "The interesting arguments are at the end of a 64-bit range, combined with every log position.", "anchors": ["gel/circular_event_log/circular_event_log.c:circular_event_log_load_last_events"]}
{"id": "C96", "title": "Watcher: the packed configuration watches what was declared", "statement": "With GEL_WATCHER_REDUCE_RAM_FOOTPRINT a watcher declared for n bytes with delay d behaves as without it: every one of the n bytes is watched, and d is the delay.", "quantifier": "every declared size and delay", "why_tests_cant": "Sizes and delays are not bounded by the declaration macros.", "anchors": ["gel/data_structures/watcher.h:WATCHER_DELAYED_ARRAY", "gel/data_structures/watcher.h:watcher_t"]}
{"id": "C97", "title": "Watcher: a change made by a callback is noticed", "statement": "If a callback called by watcher_process_changes modifies watched memory, that change is noticed like any other: by the same call for watchers later in the list, and by the next one for the others, including the watcher whose callback it is.", "quantifier": "every list, memory and callback behaviour", "why_tests_cant": "Depends on the order of callback, comparison and copy for arbitrary callbacks.", "anchors": ["gel/data_structures/watcher.c:watcher_process_changes"]}
{"id": "C98", "title": "Watcher: trigger_all calls every callback once, in order", "statement": "watcher_trigger_all and watcher_trigger_all_cb call the callback of every watcher exactly once, in list order, whether or not the memory changed, and leave the watchers unchanged.", "quantifier": "every list and memory", "why_tests_cant": "Lists of every length.", "anchors": ["gel/data_structures/watcher.c:watcher_trigger_all", "gel/data_structures/watcher.c:watcher_trigger_all_cb", "gel/data_structures/watcher.c:watcher_trigger_cb"]}
{"id": "C99", "title": "Struct update: STRUCT_UPDATE_ARRAY captures length elements", "statement": "STRUCT_UPDATE_ARRAY(object, field, array, length) captures exactly the first length elements of array, for every expression given as length.", "quantifier": "every element size and every length expression", "why_tests_cant": "The macro argument is an expression; tests use literals.", "anchors": ["gel/data_structures/struct_update.h:STRUCT_UPDATE_ARRAY"]}
{"id": "C100", "title": "Intrusive list: iteration over the containing structures", "statement": "list_for_each_entry and list_for_each_entry_reverse visit the structure containing each element of the list exactly once, in order and in reverse order, and end.", "quantifier": "every well-formed list, every member offset, every address width", "why_tests_cant": "Addresses and offsets are arbitrary; the head itself has no containing structure, so the loop condition uses an address outside every object.", "anchors": ["gel/collections/listx.h:list_for_each_entry", "gel/collections/listx.h:list_for_each_entry_reverse", "gel/collections/listx.h:container_of"]}
{"id": "C101", "title": "Intrusive list: the current element may be moved to another list during iteration", "statement": "A list_for_each whose body takes the current element out with list_del and adds it to another list with list_add_tail visits every original element exactly once and ends.", "quantifier": "every pair of disjoint lists and every choice of moved elements", "why_tests_cant": "The failure is a loop that never ends.", "anchors": ["gel/collections/listx.h:list_for_each", "gel/collections/listx.h:list_del", "gel/collections/listx.h:list_add_tail"]}
{"id": "C102", "title": "Intrusive list: deleting an element that is not in the list any more changes nothing", "statement": "list_del of an element that was already deleted leaves all lists as they are.", "quantifier": "every list, every element and every sequence of calls in between", "why_tests_cant": "Depends on what happened to the neighbours in between.", "anchors": ["gel/collections/listx.h:list_del"]}
{"id": "C103", "title": "Intrusive list: the current element may be deleted during backward iteration", "statement": "A list_for_each_prev whose body deletes an arbitrary subset of the elements it is visiting visits every original element exactly once in reverse order, ends, and leaves exactly the elements not deleted.", "quantifier": "every list and every choice of deleted elements", "why_tests_cant": "All subsets of lists of every length.", "anchors": ["gel/collections/listx.h:list_for_each_prev", "gel/collections/listx.h:list_del"]}
{"id": "C104", "title": "Macro queue: one producer and one consumer need no lock", "statement": "If one context (say an interrupt) only enqueues and another only dequeues, then under every interleaving of their accesses to the queue the items delivered are the items accepted, in order, and nothing is lost.", "quantifier": "every capacity that is a power of two up to 2^15, every item type, every interleaving of the individual accesses", "why_tests_cant": "The failing interleavings are two instructions wide.", "anchors": ["gel/collections/queue.h:QUEUE_DEFINITION"]}
{"id": "C105", "title": "PID: no overflow with the integer types of the configuration template", "statement": "With pid_control_type_t and pid_output_type_t being int, as in gel_conf_template.h, no sequence of settings and inputs makes pid_add_input or pid_compute overflow, and the results are those of exact arithmetic.", "quantifier": "every width of the integer type, every history sizes, every history of settings and inputs", "why_tests_cant": "Overflow needs values near the limits of the type, and it is undefined behaviour rather than a visible failure.", "anchors": ["gel/pid/pid.c:pid_add_input", "gel/pid/pid.c:pid_compute", "gel/pid/pid.c:pid_compute_i"]}
{"id": "C106", "title": "Timer: an autoreloading timer keeps its phase", "statement": "A timer with autoreload and period P started at T calls its callback for the n-th time at the first poll at or after T+n*P.", "quantifier": "every sequence of polls", "why_tests_cant": "The deviation is a few ticks per call and grows without bound only in long runs.", "anchors": ["gel/timer/timer.c:gel_timer_manage_callback"]}
{"id": "C107", "title": "Event log: the events returned are contiguous even if a load is short", "statement": "If load_events returns fewer events than it was asked for, circular_event_log_load_last_events returns a number n such that the first n events in the caller's array are loaded events.", "quantifier": "every log state, every storage that may load fewer events than asked", "why_tests_cant": "Needs a short load in the first of two segments.", "anchors": ["gel/circular_event_log/circular_event_log.c:circular_event_log_load_last_events"]}
{"id": "C108", "title": "Circular buffer: a bulk get in the consumer thread is wait-free and returns what is there", "statement": "With one producer and one consumer thread, where no puts is started with more elements than fit at that moment and no gets asks for more than the capacity, circular_buf_gets(len) returns after a number of its own steps bounded in len, whatever the producer does, and returns at least min(len, number of elements available when it was called) and at most len elements.", "quantifier": "every interleaving of individual memory accesses, every buffer size, every number of calls", "why_tests_cant": "The producer can change the size between any two accesses of the consumer.", "anchors": ["gel/collections/circular_buffer.c:circular_buf_gets", "gel/collections/circular_buffer.c:circular_buf_size"]}
{"id": "C109", "title": "Scheduler: a reported overlap is real", "statement": "scheduler_are_there_overlapping_entries returns the number of enabled entries of the table that are at some time active together with the given entry.", "quantifier": "every table and entry of non-empty intervals within a day", "why_tests_cant": "The boundary cases need one entry to begin in exactly the second in which another ends.", "anchors": ["gel/scheduler/scheduler.c:scheduler_are_there_overlapping_entries"]}
{"id": "C110", "title": "Scheduler: the active map works for every table size", "statement": "For every GEL_SCHEDULER_MAX_ENTRIES scheduler_get_active_entries_map has no undefined behaviour and entry i is active iff bit i of the result is set.", "quantifier": "every table length, table and time", "why_tests_cant": "The table length is fixed at compile time; tests run with the default of 7.", "anchors": ["gel/scheduler/scheduler.c:scheduler_get_active_entries_map", "gel/scheduler/scheduler.h:GEL_SCHEDULER_MAX_ENTRIES"]}
{"id": "C111", "title": "Scheduler: the duration of an entry is the time it is active", "statement": "scheduler_get_entry_duration is the number of seconds of each selected day in which is_entry_active holds, and the weekly time span by which entries are compared is the number of seconds of the week in which it holds.", "quantifier": "every entry that begins within the day, every second of every day", "why_tests_cant": "Counting needs all 604800 seconds of a week for each entry.", "anchors": ["gel/scheduler/scheduler.c:scheduler_get_entry_duration", "gel/scheduler/scheduler.c:total_week_timespan", "gel/scheduler/scheduler.c:is_entry_active"]}
{"id": "C112", "title": "Circular buffer: one producer and one consumer need no barrier on machines with total store order", "statement": "One thread calling only circular_buf_putc and another on a different core calling only circular_buf_getc, on a machine whose stores are buffered and reach the memory in program order: the elements got are a prefix, in order, of those accepted, differing by at most the capacity; putc is refused only if the buffer is full but for removals whose stores have not arrived, getc only if it is empty but for elements whose stores have not arrived.", "quantifier": "every interleaving of the steps of both threads and of the arrival of buffered stores, every buffer size and number of calls", "why_tests_cant": "Store buffers are invisible in single-core tests and their delays cannot be controlled.", "anchors": ["gel/collections/circular_buffer.c:circular_buf_putc", "gel/collections/circular_buffer.c:circular_buf_getc", "gel/collections/circular_buffer.c:advance_pointer", "gel/collections/circular_buffer.c:retreat_pointer"]}
{"id": "C113", "title": "Circular buffer: one producer and one consumer need no barrier on any machine", "statement": "The same on machines (or with compilers) that may reorder stores to different variables, or loads.", "quantifier": "every interleaving, every reordering, every buffer size", "why_tests_cant": "Needs particular hardware and timing; the source has no barrier, atomic or volatile access.", "anchors": ["gel/collections/circular_buffer.c:circular_buf_putc", "gel/collections/circular_buffer.c:circular_buf_getc", "gel/collections/circular_buffer.h:circular_buf_t"]}
{"id": "C114", "title": "Page manager: page callbacks may navigate", "statement": "A callback of a page may itself call pman_change_page, pman_swap_page, pman_rebase_page, pman_back, pman_reset_to_page or pman_page_update: the effect is that of the same call made after the interrupted call has returned; every page gets create, open, close and destroy in this order and with its own data.", "quantifier": "every page, every callback, every nesting of calls, any navigation stack", "why_tests_cant": "The number of combinations of callback and nested call is unbounded; wrong combinations show up as use of another page's data or as stack overflow on the target.", "anchors": ["gel/pagemanager/page_manager.c:pman_change_page_extra", "gel/pagemanager/page_manager.c:pman_swap_page_extra", "gel/pagemanager/page_manager.c:pman_rebase_page_extra", "gel/pagemanager/page_manager.c:pman_back", "gel/pagemanager/page_manager.c:pman_reset_to_page", "gel/pagemanager/page_manager.c:pman_page_update", "gel/pagemanager/page_manager.c:pman_process_page_event"]}
{"id": "C115", "title": "Circular buffer: single-element calls are wait-free", "statement": "With one producer and one consumer thread, circular_buf_putc returns after at most four of its own steps and circular_buf_getc after at most three, whatever the other thread does and however long stores take to reach the memory.", "quantifier": "every reachable state, every interleaving, sequentially consistent memory, store buffers and reordering machines", "why_tests_cant": "A call that waits for the other side only hangs under particular schedules.", "anchors": ["gel/collections/circular_buffer.c:circular_buf_putc", "gel/collections/circular_buffer.c:circular_buf_getc", "gel/collections/circular_buffer.c:advance_pointer", "gel/collections/circular_buffer.c:retreat_pointer"]}
{"id": "C116", "title": "CRC32: Hamming distance", "statement": "A message followed by its crc32 (most significant byte first) of which at least one bit, anywhere in message or trailer, is changed fails the check if at most three bits are changed and the message has up to 11450 bytes, at most four and up to 371 bytes, or at most five and up to 33 bytes. Two different messages of any equal length that differ in at most three (four, five) bits within a window of 91639 (3006, 300) bits have different crc32. One bit more and there are patterns that are never noticed.", "quantifier": "every message content and length, every initial value, every choice of the changed bits", "why_tests_cant": "There are more than 1e14 triples of positions in a frame of 11454 bytes, before contents are counted.", "anchors": ["gel/crc/crc32.c:crc32"]}
{"id": "C117", "title": "Keypad: PRESSING and LONGPRESS respect the period", "statement": "PRESSING (LONGPRESS) of a key is reported only in a call with the key's bitmap, and the event reported for that key before it is CLICK or PRESSING (LONGCLICK or LONGPRESS), strictly more than press_period ago (wrap-around included).", "quantifier": "every key table with distinct codes, every call history, times within half the timestamp range", "why_tests_cant": "Repetition depends on when each call happens and on all earlier events of the key, across timestamp wrap-around.", "anchors": ["gel/keypad/keypad.c:keypad_routine", "gel/keypad/keypad.c:keypad_reset_keys"]}
{"id": "C118", "title": "Keypad: the events of a key are exactly those due", "statement": "While no call has the bitmap of another key and click<=longclick: the first call with the key's bitmap reports PRESS; while it stays, CLICK comes at the first call more than click after PRESS, then LONGCLICK at the first call more than longclick after PRESS, until then PRESSING and after that LONGPRESS at every call more than press_period after the last event; when it is gone, RELEASE comes at once if CLICK had not been reported and otherwise at the first call more than click later, unless the bitmap comes back before, which reports PRESS; no other events are reported.", "quantifier": "every table, every key in it, every call history, times within half the timestamp range", "why_tests_cant": "Every combination of call times and thresholds gives another sequence of events; missing events are only visible against an exact specification.", "anchors": ["gel/keypad/keypad.c:keypad_routine", "gel/keypad/keypad.c:keypad_reset_keys"]}
{"id": "C119", "title": "PID: result after every history of calls", "statement": "After pid_init and any calls of pid_ctrl_tune, pid_set_sp, pid_add_input, the threshold settings and pid_clear_integral_history in any order, with exact arithmetic: the gains, setpoint and thresholds in effect are the last ones set (0 and disabled before); the P term is Kp times the current error; the I term is Ki times the sum of the last GEL_PID_INTEGRAL_HISTORY_SIZE values since the last clearing, each the error at its input (0 at or above an enabled threshold of its sign, with the settings at that input; an error of 0 leaves the value that many inputs before); the D term is Kd times the current error less the error before the input at most GEL_PID_DERIVATIVE_DELTA inputs ago, 0 before the second input and when the threshold is enabled and exceeded; pid_compute is their sum.", "quantifier": "every sequence of calls, all history sizes>0, every ordered group as control type, all gains", "why_tests_cant": "Settings can change between any two inputs and each call depends on all earlier ones.", "anchors": ["gel/pid/pid.c:pid_init", "gel/pid/pid.c:pid_ctrl_tune", "gel/pid/pid.c:pid_add_input", "gel/pid/pid.c:pid_compute", "gel/pid/pid.c:pid_clear_integral_history"]}
{"id": "C120", "title": "Keypad: the exact events of several keys", "statement": "In a table of keys with distinct bitmaps, click<=longclick: when no key is being reported on, a call with the bitmap of a key reports PRESS for it; from then on until its RELEASE only that key is looked at, and its events are exactly those of a single key (as when no other key existed), other bitmaps counting as not pressed. keypad_get_key_state of the key reported on tells whether the last call had its bitmap; of another key it is 1 iff since the last report on it a call had its bitmap at a time when no earlier key of the table was being reported on.", "quantifier": "every table with distinct bitmaps, every call history, times within half the timestamp range", "why_tests_cant": "The keys interact through the order of the scan; the possible interleavings of key presses are unbounded.", "anchors": ["gel/keypad/keypad.c:keypad_routine", "gel/keypad/keypad.c:keypad_get_key_state", "gel/keypad/keypad.c:keypad_reset_keys"]}
{"id": "C121", "title": "Keypad: reports on different keys do not interleave", "statement": "For keys with distinct bitmaps and codes: after PRESS of a key no event of another key is reported before its RELEASE; and PRESS is only reported by a call with the bitmap of the key.", "quantifier": "every table with distinct bitmaps and codes, every call history, times within half the timestamp range", "why_tests_cant": "It depends on all earlier presses of all keys.", "anchors": ["gel/keypad/keypad.c:keypad_routine"]}
{"id": "C122", "title": "Keypad: every RELEASE comes", "statement": "After PRESS of a key, two consecutive calls without its bitmap, the second more than click after the first, are enough for its RELEASE to be reported, whatever other keys are pressed.", "quantifier": "every table with distinct bitmaps and codes, every call history, times within half the timestamp range", "why_tests_cant": "A lost RELEASE needs a particular interleaving with other keys.", "anchors": ["gel/keypad/keypad.c:keypad_routine"]}
{"id": "C123", "title": "Keypad: every held key is reported", "statement": "If three consecutive calls have the bitmap of a key, the second more than click after the first, then by the third PRESS has been reported for it and no RELEASE since, whatever happened to other keys before.", "quantifier": "every table with distinct bitmaps and codes, every call history, times within half the timestamp range", "why_tests_cant": "Starvation by other keys would need a particular history.", "anchors": ["gel/keypad/keypad.c:keypad_routine"]}
{"id": "C124", "title": "Watcher: initialization with and without malloc", "statement": "watcher_list_init stores the present value of every watched block. Without malloc it does so iff every block has at most GEL_STATIC_BLOCK_SIZE bytes; otherwise its assertion fails (with NDEBUG the call is undefined).", "quantifier": "every list, memory content and block size", "why_tests_cant": "The limit concerns every element of the list, and the NDEBUG case is undefined behaviour that a test may not show.", "anchors": ["gel/data_structures/watcher.c:watcher_list_init", "gel/data_structures/watcher.h:watcher_t"]}
{"id": "C125", "title": "PID: products with float gains", "statement": "With integer types, (int)(gain*x) is the exact product truncated toward zero whenever x and the product have at most 24 significant bits (the float precision); for a gain m/2^s with |x| and |m*x| at most 2^24 it is the C division m*x/2^s. In general it differs from the exact product by less than 1 + |product|*2^-24 if |x|<=2^24, and otherwise by less than 1 + |product|*(2^-23 + 2^-48). It is 0 for x=0, odd in x and in the gain, and monotone in x for gains >= 0. Beyond 24 bits precision is lost: with gain 1 every odd x with |x|>2^24 is changed.", "quantifier": "all finite gains, all integers, every floating-point precision (24 for float)", "why_tests_cant": "The results depend on rounding for each of 2^32 gains and 2^32 values; a test samples a few.", "anchors": ["gel/pid/pid.c:pid_compute_p", "gel/pid/pid.c:pid_compute_i", "gel/pid/pid.c:pid_compute_d"]}
{"id": "C126", "title": "PID: output with integer types and float gains", "statement": "With integer types, setpoints and inputs at most b in magnitude, 4b and GEL_PID_INTEGRAL_HISTORY_SIZE*2b representable in the integer type and at most 2^24, and gains such that each term is at most g in magnitude with 3g representable and g<=2^24: no call overflows after any history of calls, and pid_compute returns the sum of the three truncated products with the error, the sum of the integral history and the change of the error, which differs from the ideal output Kp*e+Ki*S+Kd*D by less than 3 + (|Kp*e|+|Ki*S|+|Kd*D|)*2^-24.", "quantifier": "every history of calls, all integer widths, all history sizes>0, all gains within the bound", "why_tests_cant": "Overflow and rounding depend on the whole history of inputs and settings and on the gains.", "anchors": ["gel/pid/pid.c:pid_compute", "gel/pid/pid.c:pid_add_input", "gel/pid/pid.c:pid_ctrl_tune"]}
{"id": "C127", "title": "Parameter: float values stay within limits", "statement": "For float and double parameters with ordered limits that are numbers: parameter_operator with mod != 0 leaves the value within the limits whenever the value and the step are finite, and in general iff value + step*mod is a number. parameter_check_ranges brings every value that is a number within its limits if the default is, and leaves values within their limits alone. A NaN is never repaired: parameter_operator keeps it, parameter_check_ranges neither counts nor replaces it.", "quantifier": "all bit patterns of value, step, limits and default, every mod, every list of parameters", "why_tests_cant": "NaN and infinities compare unlike other numbers; 2^32 or 2^64 patterns for each of four operands.", "anchors": ["gel/parameter/parameter.c:parameter_operator", "gel/parameter/parameter.c:parameter_check_ranges"]}
{"id": "C128", "title": "Parameter: float steps are exact up to rounding", "statement": "For float and double parameters whose mod is a value of the type (|mod| <= 2^24 suffices for float, any int for double): if step*mod and value+step*mod are values of the type, parameter_operator gives value+step*mod, or the opposite limit if that is outside. In general a result within the limits differs from value+step*mod by at most one rounding of the product and one of the sum (relative 2^-24 or 2^-53 each). If the rounded product is less than a quarter of the last place of the value, the value never changes, however often parameter_operator is called.", "quantifier": "all finite values, steps and limits, every mod, any number of calls", "why_tests_cant": "Accumulated rounding depends on all operands; 0.1 added ten times to a float wraps before it reaches the limit 1.", "anchors": ["gel/parameter/parameter.c:parameter_operator"]}
{"id": "C129", "title": "Parameter: number of values of a float parameter", "statement": "parameter_get_total_values of a float or double parameter returns max-min+1 truncated if max-min and max-min+1 are values of the type, up to one rounding each otherwise, and max-min without the 1 if values of that size are 8 or more apart. It is undefined behaviour if the result does not fit size_t, or a limit is infinite or NaN.", "quantifier": "all bit patterns of the limits, every width of size_t", "why_tests_cant": "The conversion is undefined outside the range of size_t; rounding depends on both limits.", "anchors": ["gel/parameter/parameter.c:parameter_get_total_values"]}
{"id": "C130", "title": "Parameter: conversion of float parameters to integers", "statement": "parameter_to_long and parameter_to_index of a float or double parameter give the integral part of its value, and parameter_to_bool whether it is not 0.", "quantifier": "all bit patterns of the value, every width of long and size_t", "why_tests_cant": "There is no test on float parameters.", "anchors": ["gel/parameter/parameter.c:parameter_to_long", "gel/parameter/parameter.c:parameter_to_index", "gel/parameter/parameter.c:parameter_to_bool"]}
{"id": "C131", "title": "Parameter: NULL handles", "statement": "Every function given a NULL handle where it checks for one returns its neutral result (-1, 0 or false) and changes no memory; parameter_clone does nothing if any of its pointers is NULL.", "quantifier": "every memory content and other arguments", "why_tests_cant": "That no byte changes cannot be seen by testing.", "anchors": ["gel/parameter/parameter.c:parameter_operator", "gel/parameter/parameter.c:parameter_get_total_values", "gel/parameter/parameter.c:parameter_to_long", "gel/parameter/parameter.c:parameter_to_index", "gel/parameter/parameter.c:parameter_copy_value", "gel/parameter/parameter.c:parameter_clone"]}
{"id": "C132", "title": "Parameter: copies between overlapping variables", "statement": "parameter_copy_value between parameters of the same type is defined behaviour iff their variables have no byte in common; copying a parameter to itself is undefined. The same holds for parameter_clone_with_buffer and the buffer.", "quantifier": "every memory content, all addresses and types", "why_tests_cant": "Undefined behaviour of memcpy that mostly does no visible harm.", "anchors": ["gel/parameter/parameter.c:parameter_copy_value", "gel/parameter/parameter.c:parameter_clone_with_buffer"]}
{"id": "C133", "title": "Scheduler: state after initialization", "statement": "After scheduler_init every entry has all members 0, no entry is active at any time (entry number -1, no value, remaining time 0, empty map), scheduler_get_next_enabled_entry returns -1 from every index, scheduler_get_first_available_entry returns 0, and no entry to be added overlaps.", "quantifier": "every table size (map: up to 16), every time, every entry", "why_tests_cant": "All times and all entries cannot be enumerated.", "anchors": ["gel/scheduler/scheduler.c:scheduler_init"]}
{"id": "C134", "title": "Circular buffer: integer widths", "statement": "No history of calls depends on the widths of int and size_t: positions kept in int variables, int step arguments and int return values never wrap or overflow, whatever the widths (size_t at least as wide as int) and the buffer size.", "quantifier": "all widths, all buffer sizes, all histories of calls", "why_tests_cant": "Needs a platform with a 16-bit int and a buffer of more than 32767 elements, or more than 2^31-1 elements.", "anchors": ["gel/collections/circular_buffer.c:circular_buf_size", "gel/collections/circular_buffer.c:_circular_buf_get", "gel/collections/circular_buffer.c:circular_buf_puts"]}
{"id": "C135", "title": "Circular buffer: result of every history of calls", "statement": "Every history of calls whose arrays are large enough returns what a ring of n cells with a count would: a put stores behind the stored elements if count+1 < n; a bulk put takes min(len, n-1-count) elements, except that it takes n-count, after which the count is 0, if len = n-count, the buffer is not full and the stored elements reach the end of the array or begin at its third cell or later; reads take min(len, reported) cells (all reported if len < 0) and the count drops by as many, except that it stays if all n cells are read; the reported size is the count, or n if the count is n-1.", "quantifier": "all buffer sizes up to INT_MAX, all initial contents, all histories of calls of any length", "why_tests_cant": "Combines all positions, counts and lengths over unbounded histories, in the failing regions too.", "anchors": ["gel/collections/circular_buffer.c"]}
{"id": "C136", "title": "Scheduler: the exact choice of the active entry", "statement": "scheduler_get_active_entry_number returns -1 if no enabled entry is active; otherwise, of the enabled active entries whose weekly span modulo 2^(bits of unsigned long) is smallest, taken in table order, it returns the one that remains when each takes the place of the one before exactly if its value (an int) exceeds the remainder of the other's value by 256.", "quantifier": "every table of any size, all values, all times, every width of unsigned long", "why_tests_cant": "All values of int and all numbers of ties in one statement.", "anchors": ["gel/scheduler/scheduler.c:scheduler_get_active_entry_number"]}
{"id": "C137", "title": "Scheduler: the remaining time of the schedule", "statement": "scheduler_get_current_remaining_duration returns 0 exactly if no enabled entry is active; otherwise it returns end_second of the entry given by scheduler_get_active_entry_number minus the second of the day, which is positive.", "quantifier": "every table of any size and every valid time", "why_tests_cant": "All tables and times.", "anchors": ["gel/scheduler/scheduler.c:scheduler_get_current_remaining_duration"]}
{"id": "C138", "title": "Scheduler: overlaps of all entries", "statement": "scheduler_are_there_overlapping_entries counts the enabled entries that share a bit of days with the given entry and such that: a second lies within both (ends included) if both begin no later than they end; the beginning or the end of the one that ends before it begins lies within the other, if only one does so; never if both end before they begin.", "quantifier": "every table and entry, entries that end before they begin and undefined days included", "why_tests_cant": "Inverted and degenerate entries are rarely tried, all combinations never.", "anchors": ["gel/scheduler/scheduler.c:scheduler_are_there_overlapping_entries"]}
{"id": "C139", "title": "Scheduler: layout of a serialized entry", "statement": "scheduler_entry_serialize writes enabled, days, the four bytes of start_second and of end_second with the least significant first, and the lowest byte of value, and nothing else; every 11 bytes are read as an entry that serializes to the same 11 bytes.", "quantifier": "every entry, every 11 bytes", "why_tests_cant": "Stored schedules have to be read by other versions; a round trip test does not see fields swapped in both functions.", "anchors": ["gel/scheduler/scheduler.c:scheduler_entry_serialize", "gel/scheduler/scheduler.c:scheduler_entry_deserialize"]}
{"id": "C140", "title": "Debounce: the result of every history of calls", "statement": "For every history of debounce_filter, debounce_filter_single (index below the number of inputs) and debounce_filter_set calls after debounce_filter_init, each input behaves as its own machine: a sample equal to the level ends a run of differing samples; the (d+1)-th sample of a run whose first sample came with debounce value d changes the level, reports the change and ends the run; debounce_filter_set changes the level, reports nothing and does not end the run.", "quantifier": "every memory content before initialization, all histories of calls of any length, every width of unsigned int", "why_tests_cant": "Mixed histories of the three functions with changing debounce values, in which the pending counters survive a set.", "anchors": ["gel/debounce/debounce.c"]}
{"id": "C141", "title": "Pulse counter: the result of every history of calls", "statement": "For every history of pulse_filter, pulse_clear, pulse_count and pulse_level calls after pulse_filter_init, all return values are those of: per input the machine of the debounce filter, started with the given level and, if the debounce counter in memory before was c > 0, with a run of one sample and debounce value c; a count of the changes away from the selected level since the last clear, reported as an int modulo 2^w; pulse_filter returns 1 iff a count was incremented; -1 for indices that do not exist.", "quantifier": "every memory content before initialization, all histories of calls of any length, every width of unsigned int", "why_tests_cant": "Covers what the uninitialised debounce counters do, for all their values.", "anchors": ["gel/debounce/pulsecounter.c"]}
{"id": "C142", "title": "Wear leveling: the active block found on any content", "statement": "After wearleveling_init on a working device the active block is block 0 if the markers of all blocks are consecutive modulo 256, otherwise the last block of the longest sequence of consecutive markers that begins with block 0; the marker kept is that of the last block of the sequence.", "quantifier": "every number of blocks 1..255 and every content of the device", "why_tests_cant": "All contents, also those never written by the module (new, foreign or damaged devices).", "anchors": ["gel/wearleveling/wearleveling.c:search_last", "gel/wearleveling/wearleveling.c:wearleveling_init"]}
{"id": "C143", "title": "Wear leveling: a successful read never returns a mixture", "statement": "On a device whose block write is atomic, a wearleveling_read that returns 0 gives a record exactly as it was passed to one of the writes, or as a block held it at the beginning, whatever errors the callbacks returned before, whether or not failed writes were done, and whenever the memory was initialized again.", "quantifier": "every number of blocks 1..255, every initial content, every history of writes (of one record length) and restarts with any faults", "why_tests_cant": "Combinations of faults over unbounded histories.", "anchors": ["gel/wearleveling/wearleveling.c"]}
{"id": "C144", "title": "Wear leveling: a successful write is read back whatever failed before", "statement": "If wearleveling_write returns 0, the next read on the working device returns the written record, whatever faults happened before, failed initializations included.", "quantifier": "every number of blocks 1..255, every initial content, every history of writes and restarts with any faults", "why_tests_cant": "Recovery from every combination of earlier faults.", "anchors": ["gel/wearleveling/wearleveling.c:wearleveling_write", "gel/wearleveling/wearleveling.c:wearleveling_read"]}
{"id": "C145", "title": "Timer: the result of every history of calls", "statement": "After gel_timer_init every history of gel_timer calls returns what an ideal timer returns: the callback is called by a poll iff the timer is running or paused and its running time since the (re)start has reached the period; it then restarts (autoreload, as left by the callback) or stops; reset and change_period give the whole period and leave it running or paused; the remaining time is the period minus the running time, or 0.", "quantifier": "all periods, all histories of all calls at non-decreasing times, callbacks making any of the calls; every uninterrupted run at most half the timestamp range long, polls less than half the range before the end", "why_tests_cant": "Interleavings of pauses, resets, period changes and calls from within callbacks across timestamp wrap-around.", "anchors": ["gel/timer/timer.c", "gel/timer/stopwatch.c"]}
{"id": "C146", "title": "Event log: requests whose sum overflows", "statement": "circular_event_log_load_last_events with jump at most the number of stored events and jump+number = 2^64+k: if the log has wrapped and k <= next_position < jump, the caller's array receives the last k events followed by the oldest max-next_position events and the result is one less than their number (undefined if the array has no room for them); otherwise the result is -1 and the array is unchanged.", "quantifier": "every history of events with refused saves, every number and jump whose sum overflows size_t", "why_tests_cant": "Values near SIZE_MAX combined with all log states.", "anchors": ["gel/circular_event_log/circular_event_log.c:circular_event_log_load_last_events"]}
{"id": "C147", "title": "Watcher: the result of every history of calls", "statement": "After watcher_list_init, every history of watcher_process_changes, watcher_clear_changes, watcher_check_for_changes and watcher_trigger_all returns and calls exactly this: a call finds a change of a watcher iff its bytes differ from those at the last process or clear call (or initialization); process_changes returns 1 iff some watcher changed and calls, in list order, the undelayed watchers that changed and the delayed ones that did not, whose last found change was found by a process_changes at least delay ago with no process_changes at or after that deadline in between. In particular clear_changes cancels a pending notification iff the bytes changed again.", "quantifier": "every list of sizes and delays, every history of calls and memory contents; delays less than half the timestamp range and process_changes called at least once every half range", "why_tests_cant": "Histories combining clears, changes and delays for several watchers.", "anchors": ["gel/data_structures/watcher.c"]}
{"id": "C148", "title": "State machine: managers that send events to their own machine", "statement": "An event sent by a manager to its own machine is handled before the manager goes on, in the state the machine was in, and the state it leads to is kept unless the manager's own event leads to another one; the machine never leaves a closed table.", "quantifier": "every table of managers that may send any events at any point, every model and event", "why_tests_cant": "Requires managers that re-enter the machine, at any depth.", "anchors": ["gel/state_machine/state_machine.h"]}
{"id": "C149", "title": "Watcher: callbacks that process changes of their own list", "statement": "watcher_process_changes called from within callbacks, at the same time: the outermost call returns, the list is left as without the nested calls, and every callback that is due is called exactly once, all calls together.", "quantifier": "every list of watchers, every set of callbacks that call watcher_check_for_changes and watcher_process_changes any number of times", "why_tests_cant": "Requires callbacks that re-enter the list, at any depth.", "anchors": ["gel/data_structures/watcher.c:watcher_process_changes"]}
{"id": "C150", "title": "Struct update: every history of calls", "statement": "Any number of updates created, applied and freed in any order, with the structures written in between: the history is free of undefined behaviour exactly if every malloc succeeds, every access is within its structure and no update is applied or freed after it was freed; then every structure holds exactly the last bytes written or applied, an update always applies the bytes of the time it was created, and the blocks still allocated are those of the updates not freed.", "quantifier": "every set of structures, every history of writes, creations, applications and frees, every outcome of malloc", "why_tests_cant": "Aliasing and lifetime errors depend on the order of calls; exhausting memory cannot be staged.", "anchors": ["gel/data_structures/struct_update.c"]}
{"id": "C151", "title": "Serializer: the width of int", "statement": "Deserializing 16-bit values gives the same result whatever the width of int (16 bits or more).", "quantifier": "every width of int from 16 bits on, every buffer and offset", "why_tests_cant": "Tests run on one platform, usually with 32-bit int.", "anchors": ["gel/serializer/serializer.h:deserialize_int16_le", "gel/serializer/serializer.h:deserialize_uint16_le"]}
{"id": "C152", "title": "Serializer and struct update: the macros work for all variable names", "statement": "UNPACK_UINT16_BE, UNPACK_UINT32_BE, UNPACK_UINT8, PACK_UINT16_BE, PACK_UINT8 and STRUCT_UPDATE evaluate their arguments in the scope of the caller: the buffer expression, the value and the variable assigned mean what they mean outside the macro.", "quantifier": "every expression and variable name, every buffer and values of the variables", "why_tests_cant": "Depends on the names that the caller uses.", "anchors": ["gel/serializer/serializer.h:UNPACK_UINT16_BE", "gel/serializer/serializer.h:PACK_UINT16_BE", "gel/data_structures/struct_update.h:STRUCT_UPDATE"]}
{"id": "C153", "title": "Parameter: every history of steps", "statement": "Any history of parameter_operator calls on an integer parameter whose limits are not stored in its own variable is undefined exactly if some step*mod or value+step*mod overflows the signed type in which it is computed; otherwise each call replaces the value by the low bits of the exact sum if these are within the limits, by the minimum if not and mod>0, by the maximum if not and mod<0; no other byte changes.", "quantifier": "every integer type, limits, step, initial value and history of mods", "why_tests_cant": "All values of all types and all histories.", "anchors": ["gel/parameter/parameter.c:parameter_operator"]}
{"id": "C154", "title": "Parameter: stepping cycles through the range", "statement": "Repeated parameter_operator(handle, 1) from the minimum gives minimum + step*(n mod (floor((max-min)/step)+1)) after n calls, and repeated -1 from the maximum the mirror image; with step 1 it is back at the minimum exactly after multiples of parameter_get_total_values calls.", "quantifier": "every integer type and positive step, every number of calls", "why_tests_cant": "Unbounded number of calls, all limits and steps.", "anchors": ["gel/parameter/parameter.c:parameter_operator", "gel/parameter/parameter.c:parameter_get_total_values"]}
{"id": "C155", "title": "Parameter: variables larger than GEL_PARAMETER_MAX_SIZE", "statement": "A handle made by PARAMETER or PARAMETER_STEP has the type of the variable, whatever GEL_PARAMETER_MAX_SIZE is, or is refused.", "quantifier": "every configuration, type, value and limits", "why_tests_cant": "Tests are compiled with one configuration.", "anchors": ["gel/parameter/parameter.h:_PARAMETER_VALUE_TYPE"]}
{"id": "C156", "title": "Parameter: the pointer argument of the macros may be any expression", "statement": "PARAMETER(ptr, ...) makes a handle of the type of *(ptr), for every pointer expression ptr.", "quantifier": "every integer type, default and limits; primary expressions and sums", "why_tests_cant": "Depends on how the argument is written, with memory corruption in the neighbouring variables.", "anchors": ["gel/parameter/parameter.h:PARAMETER_FULL"]}
{"id": "C157", "title": "Circular buffer: elements of several bytes", "statement": "With an element type of k bytes every history of calls does to the k*n bytes of the buffer, and to the bytes of the caller's arrays, exactly what it does with elements taken as units; no byte outside the buffer is accessed.", "quantifier": "every element size k>=1, buffer size, contents and history of calls", "why_tests_cant": "All element sizes, contents and histories; an access outside may go unnoticed.", "anchors": ["gel/collections/circular_buffer.c:circular_buf_puts", "gel/collections/circular_buffer.c:_circular_buf_get", "gel/collections/circular_buffer.c:circular_buf_putc", "gel/collections/circular_buffer.c:circular_buf_getc"]}
{"id": "C158", "title": "Circular buffer: the size given to circular_buf_init is in bytes, as documented", "statement": "With circular_buf_init(cb, buffer, size of the buffer in bytes), as the documentation of the parameter says, every history of calls stays within the buffer.", "quantifier": "every element size, buffer and history of calls", "why_tests_cant": "The write outside only occurs once enough elements were put.", "anchors": ["gel/collections/circular_buffer.h:circular_buf_init"]}
{"id": "C159", "title": "Wear leveling: power lost in the middle of a block write", "statement": "If power is lost while a changed record is being written, so that the block being written holds any marker and any data, a read after the next initialization returns the old record.", "quantifier": "every page of up to 255 blocks, history of writes and restarts, and content of the damaged block", "why_tests_cant": "Needs power failures at every point of a write, for every position in the page.", "anchors": ["gel/wearleveling/wearleveling.c:wearleveling_init", "gel/wearleveling/wearleveling.c:wearleveling_write"]}
{"id": "C160", "title": "CRC16: Hamming distance", "statement": "A message of up to 4093 bytes followed by its crc16_ccitt (most significant byte first) of which one to three bits, anywhere in message or trailer, are changed fails the check. Two different messages of any equal length that differ in at most three bits within a window of 32767 bits have different checksums. Two bits exactly 32767 apart, and four bits at distances 4, 11 and 16 from the first, are never noticed.", "quantifier": "every message content and length, every initial value, every choice of the changed bits", "why_tests_cant": "There are 5e12 triples of positions in the longest frame, before contents are counted.", "anchors": ["gel/crc/crc16-ccitt.c:crc16_ccitt"]}
{"id": "C161", "title": "Parameter: the string of an integer parameter reads as its value", "statement": "parameter_to_string_format with a format of text around one integer conversion of the parameter's own type writes at result the text with a numeral that reads as the value of the variable, at least as wide as the field width, and a terminator, and changes no other byte. With any other integer conversion the call is undefined unless the conversion expects the promoted type (up to signedness, for a value of both types), and otherwise writes the value cut to the type the conversion names; no single conversion suits all types. Without a handle nothing is written.", "quantifier": "every integer type, value, text, flags, width, precision other than 0, length modifier and size of long", "why_tests_cant": "All values of up to 64 bits times all formats; undefined calls often look right.", "anchors": ["gel/parameter/parameter.c:parameter_to_string_format"]}
{"id": "C162", "title": "Parameter: the buffer that a formatted integer needs", "statement": "With the plain decimal conversion of its own type parameter_to_string_format writes at most 4, 5, 6, 7, 11, 12, 21 and 21 bytes (terminator included) for uint8_t, int8_t, uint16_t, int16_t, uint32_t, int32_t, uint64_t and int64_t; each bound is reached.", "quantifier": "every value of every integer type", "why_tests_cant": "The longest value must be among those tried, and an overflow by one byte may go unnoticed.", "anchors": ["gel/parameter/parameter.c:parameter_to_string_format"]}
{"id": "C163", "title": "Parameter: the string of a floating point parameter", "statement": "parameter_to_string_format with one conversion %f of any flags, width and precision p writes for every finite float or double a decimal fraction with p places that differs from the value by at most half a unit of the last place. With %.pf it writes at most 41 + p + 1 bytes for a float and 311 + p + 1 for a double (one less for p = 0), also for infinities and NaN. An integer conversion is undefined for them, and so is %f for an integer parameter.", "quantifier": "every bit pattern of both types, every text, flags, width and precision", "why_tests_cant": "All bit patterns times all precisions.", "anchors": ["gel/parameter/parameter.c:parameter_to_string_format"]}
{"id": "C164", "title": "Page manager: every navigation returns the view of the page shown", "statement": "With GEL_PAGEMANAGER_UPDATE_CALLBACK every call of pman_change_page, pman_swap_page, pman_rebase_page, pman_back, pman_page_update and of pman_reset_to_page that finds a page returns what the update callback of the page that is current after the call returned, called in the course of the call and after all other callbacks; the null view if the page has no such callback.", "quantifier": "every state of the manager, every page, every result of the update callbacks", "why_tests_cant": "Every navigation function with every combination of callbacks; the bottom page is easily left out.", "anchors": ["gel/pagemanager/page_manager.c:pman_back", "gel/pagemanager/page_manager.c:pman_change_page_extra", "gel/pagemanager/page_manager.c:pman_reset_to_page", "gel/pagemanager/page_manager.c:pman_page_update"]}
{"id": "C165", "title": "Timer: a callback may control its own timer", "statement": "What the callback of a gel_timer does to its timer (gel_timer_init, stop, pause, resume, reset, change_period, set_autoreload) is in effect after the poll that called it.", "quantifier": "every timer, every sequence of calls made by the callback, at any times", "why_tests_cant": "Every combination of calls in callbacks.", "anchors": ["gel/timer/timer.c:gel_timer_manage_callback"]}
{"id": "C166", "title": "Timer: a callback may poll its own timer", "statement": "gel_timer_manage_callback called by the callback for its own timer returns and the callback is called once.", "quantifier": "every timer, every sequence of calls made by the callback", "why_tests_cant": "Depends on what the callback calls before.", "anchors": ["gel/timer/timer.c:gel_timer_manage_callback"]}
{"id": "C167", "title": "Stopwatch: queries from an interrupt handler", "statement": "A query (state, total time, elapsed, remaining, reached) made by an interrupt handler in the midst of a call of another stopwatch function returns what it would return before or after that call.", "quantifier": "every stopwatch, every call, every point between two stores, every time", "why_tests_cant": "The interrupt must hit between two instructions.", "anchors": ["gel/timer/stopwatch.c:stopwatch_stop", "gel/timer/stopwatch.c:stopwatch_pause", "gel/timer/stopwatch.c:stopwatch_change", "gel/timer/stopwatch.c:stopwatch_is_timer_reached"]}
{"id": "C168", "title": "Pulse counter: counting in an interrupt handler loses nothing", "statement": "With pulse_filter in an interrupt handler and a main program that repeatedly takes pulse_count and then calls pulse_clear, the sum of the counts taken is the number of pulses.", "quantifier": "every sequence of samples, every number of calls of the handler between any two calls of the main program", "why_tests_cant": "The interrupt must hit between the two calls.", "anchors": ["gel/debounce/pulsecounter.h:pulse_count", "gel/debounce/pulsecounter.h:pulse_clear", "gel/debounce/pulsecounter.c:pulse_filter"]}
{"id": "C169", "title": "Debounce: reading from an interrupt handler", "statement": "debounce_read and debounce_value called by an interrupt handler in the midst of debounce_filter return what they return before or after that call.", "quantifier": "every filter, input and debounce value, every point in the loop", "why_tests_cant": "The interrupt must hit in the loop.", "anchors": ["gel/debounce/debounce.c:debounce_filter", "gel/debounce/debounce.h:debounce_value", "gel/debounce/debounce.h:debounce_read"]}
{"id": "C170", "title": "Stopwatch: stopwatch_setngo is a single statement", "statement": "stopwatch_setngo as the body of an if acts only if the condition holds, and it evaluates its arguments once.", "quantifier": "every stopwatch, period, time and pointer expression", "why_tests_cant": "Every state of the stopwatch; the stray start is silent.", "anchors": ["gel/timer/stopwatch.h:stopwatch_setngo"]}
{"id": "C171", "title": "Parameter: a handle moved to another variable", "statement": "parameter_clone gives the destination the source's settings with the new variable, which gets the source's value, and changes nothing else, also if destination and source are the same handle.", "quantifier": "every list of handles, every pair of its handles, every type, value and address", "why_tests_cant": "Needs the aliasing case; no test passes the same handle twice.", "anchors": ["gel/parameter/parameter.c:parameter_clone"]}
{"id": "C172", "title": "Parameter: clones in byte buffers can be used", "statement": "After parameter_clone_with_buffer the clone can be read, stepped and checked like any other parameter, wherever the byte buffer is.", "quantifier": "every handle, memory and address of the buffer", "why_tests_cant": "Machines that tolerate misaligned accesses hide the fault.", "anchors": ["gel/parameter/parameter.c:parameter_clone_with_buffer", "gel/parameter/parameter.c:parameter_operator", "gel/parameter/parameter.c:parameter_to_long"]}
{"id": "C173", "title": "Parameter: how often the runtime callbacks run", "statement": "parameter_get_count runs the runtime callback of every handle once; parameter_get_handle runs those up to the handle it returns once; parameter_reset_to_defaults and parameter_check_ranges run the one of handle j of n exactly n - j times.", "quantifier": "every list, every callback that changes its own handle, every access level and index", "why_tests_cant": "Any length of list and any callback.", "anchors": ["gel/parameter/parameter.c:parameter_get_handle", "gel/parameter/parameter.c:parameter_get_count", "gel/parameter/parameter.c:parameter_reset_to_defaults", "gel/parameter/parameter.c:parameter_check_ranges"]}
{"id": "C174", "title": "Watcher: lists end at the first watcher without memory", "statement": "Every function of the watcher module deals with exactly the elements before the first one whose memory is NULL, and leaves all others alone; without such an element it runs out of the array. watcher_trigger_cb calls the callback of the element with the given index, and is undefined for a negative index, one beyond the array, or an element without callback.", "quantifier": "every array of watchers with NULL memory anywhere, every memory, time and index", "why_tests_cant": "Arrays of any length with terminators anywhere.", "anchors": ["gel/data_structures/watcher.c:watcher_list_init", "gel/data_structures/watcher.c:watcher_check_for_changes", "gel/data_structures/watcher.c:watcher_process_changes", "gel/data_structures/watcher.c:watcher_trigger_cb"]}
{"id": "C175", "title": "Watcher: memory taken from the heap", "statement": "watcher_list_init holds one block per watcher, of the size of the watched memory, however often it is called; it copes with a malloc that fails.", "quantifier": "every list, every number of calls, every pattern of failing allocations", "why_tests_cant": "Leaks and failing allocations do not show in tests.", "anchors": ["gel/data_structures/watcher.c:watcher_list_init"]}
{"id": "C176", "title": "Macro queue: the count with an int of 16 bits", "statement": "On a machine whose int has 16 bits every call on a queue whose capacity is a power of two up to 32768, including NAME_count, returns what a FIFO of that capacity returns.", "quantifier": "every history of calls, every such capacity, every width of size_t from 16 bits on", "why_tests_cant": "The result of the same source depends on the machine; tests run on the one with 32 bits.", "anchors": ["gel/collections/queue.h:QUEUE_DEFINITION"]}
{"id": "C177", "title": "Macro queue: capacities that are no power of two", "statement": "For every capacity from 1 to 65535 success and failure of every call and the answers of NAME_is_empty and NAME_is_full are those of a FIFO of that capacity; the value delivered by NAME_dequeue is the youngest accepted element stored in the slot of the oldest. With 65536 or more the queue calls itself empty after 65536 elements.", "quantifier": "every capacity, item type and history", "why_tests_cant": "Every capacity and every order of calls, beyond the wrap of the indices.", "anchors": ["gel/collections/queue.h:QUEUE_DEFINITION"]}
{"id": "C178", "title": "Macro stack: what peek shows", "statement": "NAME_peek on a non-empty stack shows the nearest remains above the top: the element popped last there, the top element right after a NAME_dequeue, or the initial content of the array; on a full stack it reads outside the array. With 65536 items or more the push number 65536 empties the stack.", "quantifier": "every capacity, item type and history with NAME_peek anywhere", "why_tests_cant": "Every order of calls and every initial content of the array.", "anchors": ["gel/collections/stack.h:STACK_DEFINITION"]}
{"id": "C179", "title": "PID: control and output types narrower than int", "statement": "With integer types narrower than int the stored errors and the output are those of exact arithmetic; intermediate overflow of the sum of the errors does no harm.", "quantifier": "every history of calls, every width below that of int, every number of samples and derivative period", "why_tests_cant": "Needs values at the limits of the type and every history.", "anchors": ["gel/pid/pid.c:pid_add_input", "gel/pid/pid.c:pid_compute", "gel/pid/pid.h:pid_control_type_t"]}
{"id": "C180", "title": "PID: thresholds are given as size_t", "statement": "After pid_set_integral_low_threshold or pid_set_integral_high_threshold with t, and with that threshold enabled, errors of its sign count for the integral exactly if their magnitude is below t.", "quantifier": "every threshold, error and width of the output type", "why_tests_cant": "The threshold is converted to the signed output type; tests use small ones.", "anchors": ["gel/pid/pid.c:pid_set_integral_low_threshold", "gel/pid/pid.c:pid_set_integral_high_threshold", "gel/pid/pid.c:pid_add_input"]}
{"id": "C181", "title": "Parameter: steps with an int of 16 bits", "statement": "parameter_operator does the same on a machine whose int has 16 bits as on one with 32 bits.", "quantifier": "every parameter type, value, limits, step and modifier that fits in 16 bits", "why_tests_cant": "The result of the same source depends on the machine; tests run on the one with 32 bits.", "anchors": ["gel/parameter/parameter.c:parameter_operator"]}
{"id": "C182", "title": "Parameter: number of values with an int of 16 bits", "statement": "parameter_get_total_values is the same on a machine whose int has 16 bits as on one with 32 bits.", "quantifier": "every parameter type and limits", "why_tests_cant": "The result of the same source depends on the machine; tests run on the one with 32 bits.", "anchors": ["gel/parameter/parameter.c:parameter_get_total_values"]}
{"id": "C183", "title": "Parameter: limits that are other parameters", "statement": "After one parameter_check_ranges every parameter is within its limits even if the limits are variables of other parameters that it corrects, and a second one finds nothing, provided that the defaults are within the final limits.", "quantifier": "every list, every way the limits refer to other parameters, every memory", "why_tests_cant": "Any length of chain and any order of the list.", "anchors": ["gel/parameter/parameter.c:parameter_check_ranges"]}
{"id": "C184", "title": "Scheduler: the table after every history of calls", "statement": "After scheduler_init and any sequence of scheduler_set_entry, scheduler_disable_schedule_entry and writes through the pointer of scheduler_get_entry_mut, every entry is what the calls with its index made of it, starting with a zero entry; a call succeeds exactly if its index is inside the table.", "quantifier": "every size of the table and every history", "why_tests_cant": "Every order of calls of any length.", "anchors": ["gel/scheduler/scheduler.c:scheduler_set_entry", "gel/scheduler/scheduler.c:scheduler_disable_schedule_entry", "gel/scheduler/scheduler.c:scheduler_get_entry_mut", "gel/scheduler/scheduler.c:scheduler_init"]}
{"id": "C185", "title": "Scheduler: map of active entries with an int of 16 bits", "statement": "scheduler_get_active_entries_map is defined for 16 entries, as many as its uint16_t result has bits, and bit i says whether entry i is active, also if int has 16 bits.", "quantifier": "every table and time", "why_tests_cant": "The result of the same source depends on the machine; tests run on the one with 32 bits.", "anchors": ["gel/scheduler/scheduler.c:scheduler_get_active_entries_map"]}
{"id": "C186", "title": "Circular buffer: no data race", "statement": "If one thread only puts and another only gets, with any mix of single-element and bulk calls, they never access the same object at the same time with one of them writing.", "quantifier": "every capacity, every interleaving of any number of calls", "why_tests_cant": "A race needs a particular interleaving, and shows no failure when it happens in a test.", "anchors": ["gel/collections/circular_buffer.c:circular_buf_putc", "gel/collections/circular_buffer.c:circular_buf_getc", "gel/collections/circular_buffer.c:circular_buf_puts", "gel/collections/circular_buffer.c:circular_buf_gets"]}
{"id": "C187", "title": "PID with floating point types: outputs are finite and bounded", "statement": "With input and output type float or double, setpoints and inputs of magnitude at most 2^a and gains of at most 2^c, every history of calls gives a finite output of magnitude at most (samples + 3) * 2^(a+1+c), if that is within the range of the type.", "quantifier": "every format, number of samples, and history of inputs and settings", "why_tests_cant": "Every history of any length and every rounding.", "anchors": ["gel/pid/pid.c:pid_add_input", "gel/pid/pid.c:pid_compute"]}
{"id": "C188", "title": "PID with floating point types: recovery from a bad reading", "statement": "After one input that is NaN or infinite, the outputs are finite and bounded again as soon as that input has left the derivative and integral histories, that is after max(samples, derivative samples + 1) further inputs.", "quantifier": "every format, every number of samples, every state before and every inputs and settings after", "why_tests_cant": "Every state and every continuation; NaN spreads through every comparison.", "anchors": ["gel/pid/pid.c:pid_add_input", "gel/pid/pid.c:pid_compute"]}
{"id": "C189", "title": "PID with floating point types: exact for multiples of a unit", "statement": "If setpoints and inputs are multiples of a power of two, gains multiples of another, and the sums fit into the bits of the type, every history of calls gives exactly the output that exact arithmetic gives.", "quantifier": "every format, number of samples, units, and history of inputs and settings", "why_tests_cant": "Every history; a rounding error shows only for some values.", "anchors": ["gel/pid/pid.c:pid_add_input", "gel/pid/pid.c:pid_compute"]}
{"id": "C190", "title": "Keypad behind a debounce filter", "statement": "In a loop that gives the filtered inputs to the keypad in every cycle, a key gives an event only if each of its inputs has been 1 in debounce + 1 raw samples in a row, with no debounce + 1 zeros in a row since then; a key of which an input is never 1 so long gives no event; and if all inputs are at rest and the keys idle, a key is reported pressed in exactly the cycle in which its inputs have been 1 for the (debounce + 1)-th time.", "quantifier": "every key table, every sequence of raw inputs, of times and of intervals, every debounce count and number of inputs", "why_tests_cant": "Every sequence of raw inputs and times of any length.", "anchors": ["gel/debounce/debounce.c:debounce_filter", "gel/keypad/keypad.c:keypad_routine"]}
{"id": "C191", "title": "Telegram through a circular buffer", "statement": "Fields written with the serializer and followed by their CRC16 in big-endian order, sent byte by byte through a circular buffer by one thread and got by another, arrive: in every interleaving, and on a machine with total store order, the bytes at the place of the telegram have the CRC16 0 and deserialize to the fields that were sent. A telegram with bits changed within a window of 16 bits has another CRC16.", "quantifier": "every list of fields, initial value, capacity, interleaving, and bytes before and after; every changed telegram", "why_tests_cant": "Every interleaving of two threads and every content.", "anchors": ["gel/serializer/serializer.h:serialize_uint16_be", "gel/crc/crc16-ccitt.c:crc16_ccitt", "gel/collections/circular_buffer.c:circular_buf_putc", "gel/collections/circular_buffer.c:circular_buf_getc"]}
{"id": "C192", "title": "Schedule kept in a wear leveled memory", "statement": "The entries of a scheduler, serialized one behind the other and written to a wear leveled memory, are read back after every history of saves and power losses in which power is not lost while the last of several blocks is in use: the table shown is the one saved last, with values reduced to 8 bits. It is the same table just when the values are from 0 to 255; whether the scheduler is active, which entries are, and what overlaps, is the same in any case.", "quantifier": "every number of entries and blocks, every tables, every history, every time", "why_tests_cant": "Every history of saves and power losses, of any length.", "anchors": ["gel/scheduler/scheduler.c:scheduler_entry_serialize", "gel/scheduler/scheduler.c:scheduler_entry_deserialize", "gel/wearleveling/wearleveling.c:wearleveling_write"]}
{"id": "C193", "title": "List element deleted again later", "statement": "An element between u and v is deleted, the lists are used on in any valid way without adding it again, and then it is deleted once more: all lists stay intact exactly if v follows u at that time, or if neither u nor v is in a list any more.", "quantifier": "every number of lists, every contents, every sequence of operations in between", "why_tests_cant": "Every sequence of operations between the two calls; a broken list shows only when walked in the other direction.", "anchors": ["gel/collections/listx.h:list_del", "gel/collections/listx.h:list_add"]}
{"id": "C194", "title": "PID output after constant inputs", "statement": "After any history, once the same input has been given as often as there are samples and once more often than there are derivative samples, the output no longer depends on how often; if the error is not zero it depends on the settings only, with the integral being the number of samples times the contribution of the error and the difference in the derivative 0; if it is zero the integral stays what it was. A proportional controller with gain g of an integrating plant multiplies the error by 1 - g in each cycle.", "quantifier": "every history of inputs and settings, number of samples, and input; every gain, setpoint, first value and number of cycles", "why_tests_cant": "Every history before and every number of repetitions.", "anchors": ["gel/pid/pid.c:pid_add_input", "gel/pid/pid.c:pid_compute"]}
{"id": "C195", "title": "Settings saved by watchers", "statement": "Settings in RAM, every byte of which is covered by a watcher without delay whose callback writes all of them to the wear leveled memory: after every history of changes that are processed and of power losses, the settings in RAM, also those read at power-up, are the ones processed last, and the memory holds them. Power is not lost while the last of several blocks is in use.", "quantifier": "every number and position of watchers, every number of blocks, every history of changes and power losses", "why_tests_cant": "Every history of changes and power losses, of any length.", "anchors": ["gel/data_structures/watcher.c:watcher_process_changes", "gel/wearleveling/wearleveling.c:wearleveling_write"]}
{"id": "C196", "title": "Parameter: format strings", "statement": "A format string of text, with every percent sign doubled, around one conversion specification (flags in any order and number, width, precision, length modifier, letter) makes parameter_to_string_format write the text with the number as C161 and C163 say. A string without a specification is written as the text it stands for, whatever the parameter is; one with several specifications is undefined for every parameter.", "quantifier": "every text, flags, width, precision, length modifier and letter, every parameter and value", "why_tests_cant": "Every format string of any length and every value.", "anchors": ["gel/parameter/parameter.c:parameter_to_string_format"]}
{"id": "C197", "title": "Circular buffer: bulk operations with store buffers", "statement": "One thread calling circular_buf_putc and circular_buf_puts, another on a different core calling circular_buf_getc and circular_buf_gets, on a machine whose stores are buffered and reach the memory in program order; no bulk put is given more than fits when it reads the tail, no bulk get asks for more than the capacity. The elements got are a prefix, in order, of those accepted followed by those of the bulk put in progress, differing by at most the capacity; every bulk put writes all it is given, every bulk call returns after a bounded number of its own steps, and no element is accessed outside the buffer. When all stores have arrived, the memory holds the elements put and not got. Every execution without store buffers is possible with them.", "quantifier": "every interleaving of the steps of both threads and of the arrival of buffered stores, every buffer size, number of calls and length", "why_tests_cant": "Stores arrive at any time; the number of interleavings is unbounded.", "anchors": ["gel/collections/circular_buffer.c:circular_buf_puts", "gel/collections/circular_buffer.c:circular_buf_gets", "gel/collections/circular_buffer.c:circular_buf_putc", "gel/collections/circular_buffer.c:circular_buf_getc"]}
{"id": "C198", "title": "Timer: control from an interrupt handler", "statement": "An interrupt handler that calls gel_timer_stop in the midst of gel_timer_manage_callback stops the timer: the callback is not called after gel_timer_stop has returned, and the timer is stopped after the poll. A handler that calls gel_timer_init then leaves a running timer.", "quantifier": "every timer, callback and time, a handler before any access of the poll to the timer, any number of handlers for the part about timers without autoreload", "why_tests_cant": "An interrupt between two particular accesses cannot be produced by a test at will.", "anchors": ["gel/timer/timer.c:gel_timer_manage_callback", "gel/timer/timer.c:gel_timer_stop", "gel/timer/stopwatch.c:stopwatch_is_timer_reached", "gel/timer/stopwatch.c:stopwatch_restart"]}
{"id": "C199", "title": "Watcher: memory changed by an interrupt handler", "statement": "If an interrupt handler changes the watched memory while watcher_process_changes runs, no change is lost: when the memory no longer changes and the delay (if any) is over, the callback has seen the value that is there.", "quantifier": "every content and size of the memory, every time at which it changes, between any two accesses to its bytes", "why_tests_cant": "The change has to come between two particular accesses to bytes.", "anchors": ["gel/data_structures/watcher.c:watcher_process_changes"]}
{"id": "C200", "title": "Intrusive list: traversed by an interrupt handler", "statement": "An interrupt handler that traverses the lists, without changing them, while the main program is in the midst of INIT_LIST_HEAD (of a new list), list_add, list_add_tail or list_del, sees every list as it is before the call or as it is after it, forwards and backwards.", "quantifier": "every set of lists, every call, between any two stores of the call", "why_tests_cant": "The handler has to come between two particular stores.", "anchors": ["gel/collections/listx.h:__list_add", "gel/collections/listx.h:__list_del", "gel/collections/listx.h:list_for_each", "gel/collections/listx.h:list_for_each_prev"]}
{"id": "C201", "title": "Intrusive list: changed by an interrupt handler", "statement": "If an interrupt handler adds or deletes an element while the main program is in the midst of list_add, list_add_tail or list_del, the lists are afterwards as if the calls had been made one after the other.", "quantifier": "every two calls, between any two stores of the first", "why_tests_cant": "The handler has to come between two particular stores.", "anchors": ["gel/collections/listx.h:__list_add", "gel/collections/listx.h:__list_del"]}
{"id": "C202", "title": "Intrusive list: lists changed at will during an iteration", "statement": "The body of a list_for_each may add and delete elements of this and other lists, and delete the current element last: every element to come that the body names in no call is visited exactly once, the ones passed are not visited again, the loop ends if the body adds finitely many elements, after at most as many visits as elements to come and added, and the lists are then what the calls make of them. The current element must be deleted last and not be added again.", "quantifier": "every set of lists, every behaviour of the body, every number of visits", "why_tests_cant": "Every sequence of calls in every visit.", "anchors": ["gel/collections/listx.h:list_for_each", "gel/collections/listx.h:list_add", "gel/collections/listx.h:list_add_tail", "gel/collections/listx.h:list_del"]}
{"id": "C203", "title": "Event log: an event logged by an interrupt handler", "statement": "If an interrupt handler calls circular_event_log_new_event while the main program is in the midst of it, both events are in the log afterwards, and save_new_event is called with positions below max_events only.", "quantifier": "every log and history, the handler between any two accesses to the log", "why_tests_cant": "The handler has to come between two particular accesses.", "anchors": ["gel/circular_event_log/circular_event_log.c:circular_event_log_new_event"]}
{"id": "C204", "title": "Event log: read by an interrupt handler", "statement": "If an interrupt handler calls circular_event_log_load_last_events while the main program is in the midst of circular_event_log_new_event, it gets the events of the log as it is before the call or as it is after it.", "quantifier": "every log and history, the handler between any two accesses to the log, every number and jump whose sum does not overflow", "why_tests_cant": "The handler has to come between two particular accesses.", "anchors": ["gel/circular_event_log/circular_event_log.c:circular_event_log_new_event", "gel/circular_event_log/circular_event_log.c:circular_event_log_load_last_events"]}
{"id": "C205", "title": "Macro stack: used by interrupt handlers", "statement": "Interrupt handlers that use the stack while the main program is in the midst of push, pop or dequeue, and leave it as they found it, do not disturb the main program: its call returns and does what it would without them.", "quantifier": "every capacity up to 65535, every content, every number of such handlers between any accesses of the call, both orders in which a compiler may store the element and the index in push", "why_tests_cant": "The handler has to come between two particular stores, of one of two compilations.", "anchors": ["gel/collections/stack.h:STACK_DEFINITION"]}
{"id": "C206", "title": "PID: an input added by an interrupt handler during pid_compute", "statement": "If an interrupt handler calls pid_add_input while the main program is in the midst of pid_compute, pid_compute accesses nothing outside of the histories and returns the output before or the output after the input.", "quantifier": "all sizes of the histories, all controllers, settings and inputs, the handler between any two accesses to the controller", "why_tests_cant": "The handler has to come between two particular accesses.", "anchors": ["gel/pid/pid.c:pid_compute", "gel/pid/pid.c:pid_compute_i", "gel/pid/pid.c:pid_compute_d", "gel/pid/pid.c:pid_add_input"]}
{"id": "C207", "title": "PID: pid_add_input interrupted", "statement": "If interrupt handlers call functions of the library for a controller while the main program is in the midst of pid_add_input for it, nothing outside of the histories is accessed, and the size of the derivative history stays at most GEL_PID_DERIVATIVE_DELTA, so that the derivative is taken from its oldest error.", "quantifier": "all sizes of the histories, all controllers, settings and inputs, any handlers between any accesses to the controller", "why_tests_cant": "The handler has to come between the check and the increment, at the last input before the history is full.", "anchors": ["gel/pid/pid.c:pid_add_input", "gel/pid/pid.c:pid_compute_d"]}
{"id": "C208", "title": "Parameter: limits changed by an interrupt handler during parameter_operator", "statement": "If an interrupt handler changes the variables that limit a parameter while the main program is in the midst of parameter_operator, with mod other than 0, the value stored is within the limits before or within the limits after the handler.", "quantifier": "every integer type, value, step and mod, all variables, limits in order before and after, the handler between any two accesses to the variables", "why_tests_cant": "The handler has to come between two particular loads.", "anchors": ["gel/parameter/parameter.c:parameter_operator", "gel/parameter/parameter.c:APPLY_OPERATOR", "gel/parameter/parameter.c:CHECK_RANGE_AGAINST"]}
{"id": "C209", "title": "Wear leveling: read by an interrupt handler during a write", "statement": "A handler that calls wearleveling_read at any moment of a wearleveling_write of the main program reads the record from before the write or the one being written.", "quantifier": "every number of blocks below 256, record length, contents, earlier writes and moment", "why_tests_cant": "The handler has to come between two particular instructions, and the block must hold a recognisable old record.", "anchors": ["gel/wearleveling/wearleveling.c:wearleveling_write", "gel/wearleveling/wearleveling.c:wearleveling_read"]}
{"id": "C210", "title": "Wear leveling: written by an interrupt handler during a write", "statement": "A handler that calls wearleveling_write at any moment of a wearleveling_write of the main program: both return 0, reading then returns one of the two records, and after a restart (in a moment in which restarts find the record, C44) reading returns it as well.", "quantifier": "every number of blocks below 256, record length, both records, earlier writes and moment", "why_tests_cant": "The handler has to come between two particular instructions, and the loss shows only after a restart.", "anchors": ["gel/wearleveling/wearleveling.c:wearleveling_write", "gel/wearleveling/wearleveling.c:wearleveling_init"]}
{"id": "C211", "title": "Keypad: keypad_routine called by an interrupt handler during keypad_reset_keys", "statement": "If an interrupt handler calls keypad_routine while the main program is in the midst of keypad_reset_keys, the calls afterwards report what is due (C120) with no key down, or with the one down that the handler's call reported PRESS for.", "quantifier": "every table with distinct bitmaps and a terminator, any state of the keys before, the handler before any store to any key or after the last, every bitmap and time", "why_tests_cant": "The handler has to come between two particular stores to the key that is pressed, and the damage shows only in later calls.", "anchors": ["gel/keypad/keypad.c:keypad_reset_keys", "gel/keypad/keypad.c:keypad_routine"]}
{"id": "C212", "title": "Keypad: keypad_reset_keys called by an interrupt handler during keypad_routine", "statement": "If an interrupt handler calls keypad_reset_keys while the main program is in the midst of keypad_routine, that call reports nothing or what it would if it came before or after the reset, and the calls afterwards report what is due (C120) with no key down, or with the one down that this call reported PRESS for.", "quantifier": "every table with distinct bitmaps and a terminator, any state of the keys, the handler before any access to the keys or after the last, every bitmap and time", "why_tests_cant": "The handler has to come between two particular accesses, and the damage shows only in later calls.", "anchors": ["gel/keypad/keypad.c:keypad_routine", "gel/keypad/keypad.c:keypad_reset_keys"]}
{"id": "C213", "title": "Stopwatch: queries interrupted by an operation", "statement": "If an interrupt handler makes a call for a stopwatch (start, stop, pause, restart, change, set, set_elapsed) while the main program is in the midst of a query of it (state, total time, elapsed, remaining, reached), the query returns what it would return before or after that call.", "quantifier": "every stopwatch, query, call and times, the handler before any access of the query", "why_tests_cant": "The handler has to come between two particular loads.", "anchors": ["gel/timer/stopwatch.c:stopwatch_get_elapsed", "gel/timer/stopwatch.c:stopwatch_get_remaining", "gel/timer/stopwatch.c:stopwatch_is_timer_reached"]}
{"id": "C214", "title": "Stopwatch: operations interrupted by an operation", "statement": "If an interrupt handler makes a call for a stopwatch (start, stop, pause, restart, change, set, set_elapsed) while the main program is in the midst of another such call for it, the stopwatch is afterwards, as far as any later call can tell, as after the two calls one after the other, in one of the two orders.", "quantifier": "every stopwatch, both calls and times, the handler before any access of the interrupted call", "why_tests_cant": "The handler has to come between two particular accesses, and the damage shows only in later calls.", "anchors": ["gel/timer/stopwatch.c:stopwatch_start", "gel/timer/stopwatch.c:stopwatch_stop", "gel/timer/stopwatch.c:stopwatch_pause", "gel/timer/stopwatch.c:stopwatch_set", "gel/timer/stopwatch.c:stopwatch_set_elapsed"]}
{"id": "C215", "title": "Debounce: inputs of one filter sampled by the main program and by an interrupt handler", "statement": "If an interrupt handler calls debounce_filter_single for an input of a filter while the main program is in the midst of debounce_filter_single for another input of the same filter, both calls return what they would one after the other, and so do all later calls of debounce_read and debounce_filter_single.", "quantifier": "every filter, both inputs, samples and debounce values, the handler before any access to the filter, every width of unsigned int", "why_tests_cant": "The handler has to come between the load and the store of one word, with both inputs changing in the same call.", "anchors": ["gel/debounce/debounce.c:debounce_filter_single", "gel/debounce/debounce.c:SET_NTH", "gel/debounce/debounce.h:debounce_read"]}
{"id": "C216", "title": "Scheduler: the table changed by an interrupt handler during a query", "statement": "If an interrupt handler calls scheduler_disable_schedule_entry or scheduler_set_entry while the main program is in the midst of a query (active entry number, is_active, current_value, current remaining duration, overlapping entries, next enabled, first available), the query answers what it would answer for the table before or after the change.", "quantifier": "every table of any size, query, time, entry and index, the handler before any load of the query, every width of unsigned long", "why_tests_cant": "The handler has to come between two particular loads of one entry.", "anchors": ["gel/scheduler/scheduler.c:scheduler_get_active_entry_number", "gel/scheduler/scheduler.c:scheduler_current_value", "gel/scheduler/scheduler.c:scheduler_get_current_remaining_duration", "gel/scheduler/scheduler.c:scheduler_are_there_overlapping_entries", "gel/scheduler/scheduler.c:scheduler_set_entry"]}
{"id": "C217", "title": "Scheduler: an entry that is being set, asked for by an interrupt handler", "statement": "If an interrupt handler makes a query while the main program is in the midst of scheduler_set_entry, the query answers what it would answer for the table before or after the call.", "quantifier": "every table, entry, query and time, every order in which the compiler stores the members of the entry, the handler between any two of the stores", "why_tests_cant": "The order of the stores is the compiler's choice and the handler has to come between two of them.", "anchors": ["gel/scheduler/scheduler.c:scheduler_set_entry", "gel/scheduler/scheduler.c:scheduler_get_entry_mut", "gel/scheduler/scheduler.c:scheduler_get_active_entries_map"]}
{"id": "C218", "title": "Page manager: an application of pages", "statement": "A program that opens a first page, gives every event to the page shown with pman_process_page_event and then makes the navigation the page answers (new page, swap, back, rebase, back to an id), behaves as a stack of pages: every event is received by the page on top, every page is created once, opened and closed in turns, closed when it is not on top, and destroyed once. It stops at an assertion exactly if a page is opened for which there is no room, or an event comes after a navigation back to an id that is not there; it is never undefined.", "quantifier": "every configuration, every first page, every sequence of events, every rule by which pages answer, any data", "why_tests_cant": "The sequences of navigations are unbounded, and what a page does depends on all of them.", "anchors": ["gel/pagemanager/page_manager.c:pman_process_page_event", "gel/pagemanager/page_manager.c:pman_change_page", "gel/pagemanager/page_manager.c:pman_back", "gel/pagemanager/page_manager.c:pman_rebase_page", "gel/pagemanager/page_manager.c:pman_reset_to_page"]}
{"id": "C219", "title": "Events from another thread through a circular buffer to a state machine or to pages", "statement": "If one thread puts events with circular_buf_putc and another gets them with circular_buf_getc and gives each to state_machine_send_event, or to the page shown, then at every moment the machine (or the stack of pages) is where it would be had the events got so far been sent directly, in their order; these are the first of the accepted ones, all but at most the capacity; and when circular_buf_getc finds nothing, all that were accepted have been handled.", "quantifier": "every interleaving of the two threads' accesses, also with store buffers, every table of states, every event sequence, every capacity", "why_tests_cant": "Depends on the interleaving of the two threads and on the order of every event.", "anchors": ["gel/collections/circular_buffer.c:circular_buf_putc", "gel/collections/circular_buffer.c:circular_buf_getc", "gel/state_machine/state_machine.h:DEFINE_STATE_MACHINE", "gel/pagemanager/page_manager.c:pman_process_page_event"]}
{"id": "C220", "title": "Circular buffer: two producers or two consumers, one of them an interrupt handler", "statement": "If an interrupt handler calls circular_buf_putc while the main program is in the midst of circular_buf_putc for the same buffer (or circular_buf_getc during circular_buf_getc), the results of both calls and the contents afterwards are those of the two calls one after the other.", "quantifier": "every buffer and contents, both elements, the handler before any access to the buffer, either order of the loads in a comparison", "why_tests_cant": "The handler has to come between two particular accesses, and with a particular number of elements in the buffer.", "anchors": ["gel/collections/circular_buffer.c:circular_buf_putc", "gel/collections/circular_buffer.c:circular_buf_getc", "gel/collections/circular_buffer.c:advance_pointer", "gel/collections/circular_buffer.c:retreat_pointer"]}
{"id": "C221", "title": "Macro queue: two that enqueue or two that dequeue, one of them an interrupt handler", "statement": "If an interrupt handler calls NAME_enqueue while the main program is in the midst of NAME_enqueue for the same queue (or NAME_dequeue during NAME_dequeue), the results of both calls and the contents afterwards are those of the two calls one after the other.", "quantifier": "every queue whose capacity is a power of two up to 2^15, any contents and indices, the handler before any access to the queue, either order of the loads in the difference", "why_tests_cant": "The handler has to come between two particular accesses, and with a particular number of items in the queue.", "anchors": ["gel/collections/queue.h:QUEUE_DEFINITION"]}
{"id": "C222", "title": "A PID controller run by a timer", "statement": "A program whose autoreloading gel_timer has a callback that measures, calls pid_add_input and pid_compute and drives what is controlled with the result: it is driven at exactly the polls at which the timer is due, each time with the sum of the three terms for the settings and measured values up to then. If the timer is polled at least every D ms, two of these are at least a period and less than the period plus D apart, and the first comes that long after the start. With gains 1, 0, 0 a quantity to which the output is added reaches the setpoint with the first output and stays there.", "quantifier": "everything that can be controlled (any change in time, any effect of the outputs), every history of polls and of changed settings of controller and timer, all periods and history sizes; the timestamps' limits of C145", "why_tests_cant": "The measured values depend on all earlier outputs, and the outputs on the times of the polls and the wrapping clock.", "anchors": ["gel/timer/timer.c:gel_timer_manage_callback", "gel/pid/pid.c:pid_add_input", "gel/pid/pid.c:pid_compute"]}
{"id": "C223", "title": "State machine: an event sent by an interrupt handler", "statement": "If an interrupt handler sends an event to a state machine while the main program is in the midst of sending one to the same machine, the model, the state and the answers afterwards are those of the two events one after the other.", "quantifier": "every table of managers, every model and events, the handler before any access of send_event to the state or at any step of the manager", "why_tests_cant": "The handler has to come between the load and the store of the state, that is while the manager runs.", "anchors": ["gel/state_machine/state_machine.h:DEFINE_STATE_MACHINE"]}
{"id": "C224", "title": "Page manager: an event given to the page shown by an interrupt handler", "statement": "If an interrupt handler calls pman_process_page_event while the main program is in the midst of a navigation function, the navigation is not disturbed, and the event reaches a page that has been created, is open and not destroyed, with the data its create callback returned.", "quantifier": "every usable history of calls before, every navigation function and page given to it, any number of handlers before any call of a callback or store to the manager", "why_tests_cant": "The handler has to come between two particular steps of the navigation; pages whose callbacks tolerate it hide it.", "anchors": ["gel/pagemanager/page_manager.c:pman_process_page_event", "gel/pagemanager/page_manager.c:pman_swap_page_extra", "gel/pagemanager/page_manager.c:pman_change_page_extra", "gel/pagemanager/page_manager.c:pman_rebase_page_extra", "gel/pagemanager/page_manager.c:pman_back", "gel/pagemanager/page_manager.c:pman_reset_to_page"]}
{"id": "C225", "title": "PID: the integral removes the error that a constant load causes", "statement": "In a loop of pid_add_input and pid_compute with an integral gain, and a process that each output and, besides, a constant load moves, the error becomes and stays smaller than any given bound.", "quantifier": "every ordered field as control type, all gains, thresholds, history sizes, loads, earlier histories and numbers of cycles", "why_tests_cant": "The outputs depend on all earlier errors; a test sees an error that seems to decay.", "anchors": ["gel/pid/pid.c:pid_add_input", "gel/pid/pid.c:pid_compute", "gel/pid/pid.c:pid_compute_i"]}
{"id": "C226", "title": "Parameters: an interrupt handler between the bytes of a store", "statement": "On a machine that stores one byte at a time, an interrupt handler that reads a parameter's variable while parameter_operator changes it reads the value before the call or the one afterwards.", "quantifier": "every handle, type and value, every order in which the bytes are stored, the handler between any two of them", "why_tests_cant": "The handler has to come between two particular byte stores of a value of which two bytes change.", "anchors": ["gel/parameter/parameter.c:parameter_operator", "gel/parameter/parameter.c:APPLY_OPERATOR"]}
{"id": "C227", "title": "Settings saved by watchers with delays", "statement": "Settings in RAM with watchers, any of them with a delay, whose callbacks write all of them to the wear leveled memory: in every history of polls and power losses the record is written at exactly the polls that find bytes of an undelayed watcher changed, or bytes of a delayed one unchanged for the delay after a change. Settings that stop changing are saved when the delays are over; power lost before gives back those saved last, also after any further history; and with one watcher two writes are at least the delay apart, however fast the settings change.", "quantifier": "any number and placement of watchers, all delays below half the range of the timestamps, all histories of settings, poll times and power losses (not while the last of several blocks is in use), all block counts and sizes", "why_tests_cant": "The moment of each write depends on the times of all changes and polls and on the wrapping clock, and what a power loss gives back on all writes.", "anchors": ["gel/data_structures/watcher.c:watcher_process_changes", "gel/data_structures/watcher.c:watcher_list_init", "gel/wearleveling/wearleveling.c:wearleveling_write", "gel/wearleveling/wearleveling.c:wearleveling_init", "gel/wearleveling/wearleveling.c:wearleveling_read"]}
{"id": "C228", "title": "Scheduler: the current value holds for the remaining time", "statement": "If scheduler_get_current_remaining_duration returns r > 0, then during the next r seconds scheduler_get_active_entry_number and scheduler_current_value return what they return now, and afterwards that entry is not active.", "quantifier": "every table and value, all times and later times on the same day, every width of unsigned long of at least 32", "why_tests_cant": "Depends on the beginnings of all other entries within the remaining time and on how their weekly spans compare.", "anchors": ["gel/scheduler/scheduler.c:scheduler_get_current_remaining_duration", "gel/scheduler/scheduler.c:scheduler_get_active_entry_number", "gel/scheduler/scheduler.c:scheduler_current_value"]}
{"id": "C229", "title": "Circular buffer: the queries while the threads run", "statement": "The functions marked ALWAYS THREAD SAFE, is_circular_buf_empty, is_circular_buf_full and circular_buf_size, give an answer that was right at some moment of the call, whatever the producer and the consumer do between their loads of head and tail.", "quantifier": "every buffer size and contents, all interleavings of the calls of one producer and one consumer with the loads, queries of those two threads and of others", "why_tests_cant": "The answer is made from loads at up to four different moments, between which any number of elements may pass.", "anchors": ["gel/collections/circular_buffer.c:is_circular_buf_empty", "gel/collections/circular_buffer.c:is_circular_buf_full", "gel/collections/circular_buffer.c:circular_buf_size"]}
{"id": "C230", "title": "An event log that survives power losses", "statement": "A program whose save_new_event writes to a memory that keeps its contents, and which writes next_position and full_circle to the wear leveled memory after every event and reads them at power-up: after every history of events, refusals and power losses, circular_event_log_load_last_events gives the events accepted, the last max_events of them, in their order; power lost between the saving of an event and that of the position makes no other event wrong.", "quantifier": "all histories of events, refusals and power losses (not while the last of several blocks is in use), all log sizes below 2^31, event sizes, block counts and sizes, every initial content, every number and jump", "why_tests_cant": "The power has to be lost between the two writes, and only a log that has wrapped is affected.", "anchors": ["gel/circular_event_log/circular_event_log.c:circular_event_log_new_event", "gel/circular_event_log/circular_event_log.c:circular_event_log_load_last_events", "gel/wearleveling/wearleveling.c:wearleveling_write", "gel/wearleveling/wearleveling.c:wearleveling_init", "gel/serializer/serializer.h:serialize_uint32_le"]}
{"id": "C231", "title": "Bouncing contact behind debounce filter and keypad", "statement": "One of several keys, its bitmap one input, in a loop that gives the debounced inputs to the keypad in every cycle. The contact's samples are arbitrary for B cycles after each press and release of the finger, with B at most 2 * debounce + 1, and otherwise show the finger; the other inputs stay 0; between two moves of the finger lie more than B + debounce cycles. Then every press of the finger gives exactly one KEY_PRESS, which comes debounce to B + debounce cycles after it: at every moment there have been as many KEY_PRESS as presses or one less, and as many if the finger has not moved for B + debounce cycles. The bound is sharp: for every debounce count a contact that bounces for 2 * debounce + 2 cycles can give two KEY_PRESS for one press.", "quantifier": "every debounce count, key table, number of inputs, times and intervals, every bouncing, every sequence of presses", "why_tests_cant": "the number of ways a contact can bounce is exponential in the bouncing time, and the claim is about all sequences of presses", "anchors": ["gel/debounce/debounce.c:debounce_filter", "gel/keypad/keypad.c:keypad_routine"]}
{"id": "C232", "title": "A setting stepped with a bouncing key", "statement": "A program that gives the debounced inputs to the keypad in every cycle and calls parameter_operator(handle, 1) at each KEY_PRESS of one key, the contact bouncing for at most 2 * debounce + 1 cycles: whenever the finger has been at rest for the bouncing time and debounce cycles, the memory is that after exactly as many steps as the finger has pressed; an integer setting that was at its minimum is minimum + step * (presses mod (floor((max - min) / step) + 1)).", "quantifier": "every debounce count, key table, number of inputs, times and intervals, every bouncing, every sequence of presses, every integer type, limits and positive step that leave room for one more step", "why_tests_cant": "a press counted twice or not at all shows only for certain patterns of bouncing", "anchors": ["gel/debounce/debounce.c:debounce_filter", "gel/keypad/keypad.c:keypad_routine", "gel/parameter/parameter.c:parameter_operator"]}
{"id": "C233", "title": "Macro queue: the queries while both sides run", "statement": "NAME_is_empty, NAME_is_full and NAME_count give an answer that was right at some moment of the call, whatever the context that enqueues and the one that dequeues do between the loads of the two indices; in the context that dequeues as many dequeues succeed as elements were waiting, in the one that enqueues as many enqueues as there were places.", "quantifier": "every capacity that is a power of two up to 2^15, every item type, every interleaving of the accesses and every number of steps between the loads, queries of the two contexts and of others", "why_tests_cant": "a wrong answer needs an element to pass between two adjacent loads", "anchors": ["gel/collections/queue.h:NAME##_is_empty", "gel/collections/queue.h:NAME##_is_full", "gel/collections/queue.h:NAME##_count"]}
{"id": "C234", "title": "Watcher: copies kept by the callbacks", "statement": "If the callback of each watcher copies (saves, sends) the watched memory, and the program polls with watcher_process_changes: once a poll at least the delay after the last one that found a change has been made, the copy is equal to the memory; a callback is only called if the copy differs from the memory.", "quantifier": "every number of watchers, sizes, delays, widths of long, every sequence of contents of the memory and of times at the polls", "why_tests_cant": "The last callback of a burst has to be the one that sees the final contents, for every pattern of changes and times.", "anchors": ["gel/data_structures/watcher.c:watcher_process_changes", "gel/data_structures/watcher.c:watcher_list_init"]}
{"id": "C235", "title": "Circular buffer: emptied by an interrupt handler", "statement": "If an interrupt handler calls circular_buf_reset while circular_buf_putc or circular_buf_getc is running, at any point, the effect is that of the reset before or after the call: afterwards the buffer is empty or holds just the element being put.", "quantifier": "every buffer size of at least 2, state, element and element type, every point of the calls, both orders in which head and tail may be loaded", "why_tests_cant": "The handler has to come between two particular accesses to head and tail.", "anchors": ["gel/collections/circular_buffer.c:circular_buf_reset", "gel/collections/circular_buffer.c:circular_buf_putc", "gel/collections/circular_buffer.c:circular_buf_getc"]}
{"id": "C236", "title": "Bouncing contacts at a pulse counter", "statement": "Contacts at all inputs of a pulse counter with zeroed counters, each with its level at rest and its own times, touched and let go any number of times, bouncing for at most 2 * debounce + 1 cycles and then at rest for at least debounce cycles: at every moment pulse_count is the number of pulses that have really ended, or one less, and exactly that number if the contact has not been moved for the bouncing time and debounce cycles; after a pulse_clear at rest it is the number of pulses since then. A pulse ends when the contact is touched if the counted level is that at rest, otherwise when it is let go. A contact that bounces for 2 * debounce + 2 cycles can be counted twice.", "quantifier": "every number of inputs, debounce value, kind of pulse, levels at rest, every bouncing, every sequence of uses and of clears", "why_tests_cant": "the number of ways a contact can bounce is exponential in the bouncing time, and the claim is about all sequences of uses", "anchors": ["gel/debounce/pulsecounter.c:pulse_filter", "gel/debounce/pulsecounter.c:pulse_filter_init", "gel/debounce/pulsecounter.h:pulse_count", "gel/debounce/pulsecounter.h:pulse_clear"]}
{"id": "C237", "title": "Intrusive list: an element added while it is in a list", "statement": "list_del followed by list_add or list_add_tail moves an element within its list or to another list, with all other elements in their order. Without the list_del: after list_add of an element that is in the same list list_for_each does not end, and list_for_each_prev visits only it and the elements behind it; after list_add_tail list_for_each_prev does not end, and list_for_each visits only the elements up to it, or does not end either if it was the last; after an add to another list that other list is right, but list_for_each and list_for_each_prev of the first do not end.", "quantifier": "every list and element, every other list without common elements", "why_tests_cant": "that a loop does not end shows in no test of finite length, and the state depends on the place of the element", "anchors": ["gel/collections/listx.h:list_add", "gel/collections/listx.h:list_add_tail", "gel/collections/listx.h:list_del", "gel/collections/listx.h:list_for_each"]}
{"id": "C238", "title": "Debounce: levels set by an interrupt handler", "statement": "If an interrupt handler calls debounce_filter_set in the midst of debounce_filter_single, or debounce_filter_single in the midst of debounce_filter_set, the two calls have the effect and the results that they have one after the other, in one of both orders.", "quantifier": "every filter, input, sample, debounce value and levels set, the handler before any access to the filter, every width of unsigned int", "why_tests_cant": "The handler has to come between two particular accesses of the call that changes a level; the damage shows only in later calls.", "anchors": ["gel/debounce/debounce.c:debounce_filter_set", "gel/debounce/debounce.c:debounce_filter_single", "gel/debounce/debounce.h:debounce_read"]}
{"id": "C239", "title": "Wear leveling: every history of restarts", "statement": "On a device whose markers were initially all equal, after any history of writes and restarts, also one in which data was lost, a read returns the last record written, unless a later restart was one that does not keep the active block; such a restart brings back the record that block 0 holds, and another restart directly after it changes nothing. Whatever was lost before, after as many changing writes without a restart as there are blocks, or more, a restart keeps the record unless the last block is the active one.", "quantifier": "every number of blocks from 1 to 255, block size, record length, contents, and every history of writes and restarts", "why_tests_cant": "which block is found after a restart depends on the markers left by all earlier runs", "anchors": ["gel/wearleveling/wearleveling.c:wearleveling_init", "gel/wearleveling/wearleveling.c:wearleveling_write", "gel/wearleveling/wearleveling.c:wearleveling_read"]}
{"id": "C240", "title": "Wear leveling: writes are spread evenly over restarts", "statement": "On a device whose markers were initially all equal, over any history of writes and restarts the numbers of times two blocks are written differ by at most one.", "quantifier": "every number of blocks from 1 to 255, block size, record length, contents, and every history of writes and restarts", "why_tests_cant": "uneven wear is not visible in any value read; it needs counts of the device writes over many restarts, and shows as a failure only after the lifetime of a block", "anchors": ["gel/wearleveling/wearleveling.c:wearleveling_init", "gel/wearleveling/wearleveling.c:wearleveling_write"]}
{"id": "C241", "title": "Settings saved by watchers, with any power losses", "statement": "Settings in RAM, every byte of which is covered by a watcher without delay whose callback writes all of them to the wear leveled memory: after every history of changes that are processed and of power losses at any time between two polls, also while the last of several blocks is in use, the settings in RAM and the record are the ones processed last, unless a later power-up did not find the active block again; such a power-up gives the settings that block 0 holds.", "quantifier": "every number and position of watchers, every number of blocks from 1 to 255, every history of changes and power losses", "why_tests_cant": "which power losses lose settings depends on the number of changes in all earlier runs", "anchors": ["gel/data_structures/watcher.c:watcher_process_changes", "gel/data_structures/watcher.c:watcher_list_init", "gel/wearleveling/wearleveling.c:wearleveling_init", "gel/wearleveling/wearleveling.c:wearleveling_write"]}
{"id": "C242", "title": "Wear leveling: a successful write survives a restart although an earlier one was refused", "statement": "If the device refused a write (write_block returned non-zero and changed nothing) and a later wearleveling_write returns 0, a restart of the working device does not change what a read returns.", "quantifier": "every number of blocks from 1 to 255, every history of writes before, every refused record and error code, every sequence of later writes that does not come to the end of the device", "why_tests_cant": "it takes a device that fails once, a later success, and a restart; before the restart everything is read back as written", "anchors": ["gel/wearleveling/wearleveling.c:wearleveling_write", "gel/wearleveling/wearleveling.c:search_last", "gel/wearleveling/wearleveling.c:wearleveling_init"]}
{"id": "C243", "title": "Schedule kept in a wear leveled memory, with any power losses", "statement": "The entries of a scheduler, serialized one behind the other and written to a wear leveled memory: whatever the memory held at first, the first power-up gives some table with values from 0 to 255; after every history of saves and of power losses between two saves, also while the last of several blocks is in use, the table loaded is the one saved last with values reduced to 8 bits, unless a later power-up did not find the active block again; such a power-up gives the table that block 0 holds.", "quantifier": "every number of entries, every number of blocks from 1 to 255 with equal markers, every initial content, every history of saves and power losses", "why_tests_cant": "which power-ups lose the table depends on all tables saved since the memory was new", "anchors": ["gel/scheduler/scheduler.c:scheduler_entry_serialize", "gel/scheduler/scheduler.c:scheduler_entry_deserialize", "gel/wearleveling/wearleveling.c:wearleveling_write", "gel/wearleveling/wearleveling.c:wearleveling_init"]}
{"id": "C244", "title": "An event log in a new memory goes on after power losses", "statement": "A program as in C230, which keeps next_position and full_circle of a circular event log in the wear leveled memory and is started with an erased memory: after every history of events and power losses, circular_event_log_new_event passes a position below max_events to save_new_event, and the events are loaded in their order.", "quantifier": "all log sizes from 2 to below 2^31, all block counts and sizes, every number of events, every history after that", "why_tests_cant": "whether a power loss matters depends on the number of events logged since the memory was new", "anchors": ["gel/circular_event_log/circular_event_log.c:circular_event_log_new_event", "gel/circular_event_log/circular_event_log.c:circular_event_log_load_last_events", "gel/wearleveling/wearleveling.c:wearleveling_write", "gel/wearleveling/wearleveling.c:wearleveling_init"]}
{"id": "C245", "title": "Settings saved by watchers with delays, with any power losses", "statement": "Settings in RAM with watchers, any of them with a delay, whose callbacks write all of them to the wear leveled memory: after every history of polls and of power losses between two polls, also while the last of several blocks is in use, the record is the one written at the last poll that was to save (bytes of an undelayed watcher changed, or bytes of a delayed one unchanged for the delay after a change), unless a later power-up did not find the active block again; such a power-up gives the settings that block 0 holds. Settings that stop changing are saved when the delays are over, whatever power losses were before.", "quantifier": "every number and placement of watchers, all delays below half the range of the timestamps, every number of blocks from 1 to 255 with equal markers, every history of settings, poll times and power losses", "why_tests_cant": "which power losses lose settings depends on the number of saves in all earlier runs, and these on the times of the changes", "anchors": ["gel/data_structures/watcher.c:watcher_process_changes", "gel/data_structures/watcher.c:watcher_list_init", "gel/wearleveling/wearleveling.c:wearleveling_init", "gel/wearleveling/wearleveling.c:wearleveling_write"]}
{"id": "C246", "title": "Debounce: an index that is not that of an input is refused", "statement": "debounce_filter_single, like debounce_read, has no undefined behaviour for any size_t index: an index of NUM_INPUTS or more changes nothing; any other changes nothing that is read of the other inputs.", "quantifier": "every filter, index, sample and debounce value, every width of int", "why_tests_cant": "an index out of range writes to memory behind the filter, which a test does not see unless it looks there", "anchors": ["gel/debounce/debounce.c:debounce_filter_single", "gel/debounce/debounce.h:debounce_read"]}
{"id": "C247", "title": "Circular buffer: a bulk put interrupted by a put of a handler", "statement": "circular_buf_puts in the main program and circular_buf_putc in an interrupt handler, on the same buffer: wherever the handler runs, the elements that the two calls report as written are in the buffer afterwards, and nothing else is added.", "quantifier": "every buffer state, element type and data that fit before the end of the array, every point between two accesses of the call, both orders of evaluation of the comparison", "why_tests_cant": "the handler has to run between two particular accesses of the call", "anchors": ["gel/collections/circular_buffer.c:circular_buf_puts", "gel/collections/circular_buffer.c:circular_buf_putc", "gel/collections/circular_buffer.c:advance_pointer"]}
{"id": "C248", "title": "Circular buffer: a bulk get interrupted by a get of a handler", "statement": "circular_buf_gets in the main program and circular_buf_getc in an interrupt handler, on the same buffer: wherever the handler runs, every element is got by exactly one of the two calls or is left in the buffer, and nothing else is got.", "quantifier": "every buffer state and element type, every number of elements asked for, every point between two accesses of the call, both orders of evaluation of the comparison", "why_tests_cant": "the handler has to run between two particular accesses of the call", "anchors": ["gel/collections/circular_buffer.c:circular_buf_gets", "gel/collections/circular_buffer.c:_circular_buf_get", "gel/collections/circular_buffer.c:circular_buf_getc", "gel/collections/circular_buffer.c:retreat_pointer"]}
{"id": "C249", "title": "Circular buffer: a peek interrupted by a get of a handler", "statement": "circular_buf_peek in the main program and circular_buf_getc in an interrupt handler, on the same buffer: wherever the handler runs, peek reports the elements that are in the buffer before the handler or after it, and no others.", "quantifier": "every buffer state that is not full, every element type, number of elements asked for and position in the array, every point between two accesses up to the first copy, both orders of evaluation of the comparison", "why_tests_cant": "the handler has to run between two particular accesses of the call", "anchors": ["gel/collections/circular_buffer.c:circular_buf_peek", "gel/collections/circular_buffer.c:_circular_buf_get", "gel/collections/circular_buffer.c:circular_buf_size", "gel/collections/circular_buffer.c:circular_buf_getc"]}
{"id": "C250", "title": "Keypad: a press seen by a call and by a handler that interrupts it", "statement": "keypad_routine in the main program and in an interrupt handler, on the same keys and with the bitmap of a key that has just been pressed: wherever the handler runs, exactly one of the two calls reports KEY_PRESS.", "quantifier": "every key table and state with the other keys in rest, all times and timestamps, every point between two accesses", "why_tests_cant": "the handler has to run between two particular accesses of the call", "anchors": ["gel/keypad/keypad.c:keypad_routine"]}
{"id": "C251", "title": "Keypad: a release seen by a call and by a handler that interrupts it", "statement": "keypad_routine in the main program and in an interrupt handler, on the same keys and with the bitmap of no key, when a key whose last event was KEY_PRESS has just been let go: wherever the handler runs, exactly one of the two calls reports KEY_RELEASE and the other nothing.", "quantifier": "every key table and state with the other keys in rest, all times and timestamps, every point between two accesses", "why_tests_cant": "the handler has to run between two particular accesses of the call, at particular times", "anchors": ["gel/keypad/keypad.c:keypad_routine"]}
