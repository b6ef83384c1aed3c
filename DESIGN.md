# Verification of generic_embedded_libs (gel)

Source: `/repo` (C, read as text only). Model and proofs: Lean 4.33, Mathlib, in `lean/Verif`.

## Layout

- `Verif/C.lean` – outcome type for C executions and integer conversions.
- `Verif/<Module>/Model.lean` – transcription of the C code, one definition per function, each citing file and lines.
- `Verif/<Module>/Spec.lean` – specification, written without the model's definitions.
- `Verif/<Module>/Lemmas.lean` – helper lemmas (not claims).
- `Verif/Combined` – programs that use several modules; only the loop around the modelled functions is new.
- `Verif/<Module>/Props.lean` – the property theorems (names start with the property id) and a concrete
  non-trivial instance (`example`) beside each.

## Conventions

- **Undefined behaviour** is an outcome of its own (`Res.ub`); a failed `assert` is `Res.abort`. A theorem that says a
  call returns a value therefore also says it has no undefined behaviour, as far as it is modelled: out-of-range array
  accesses, reading uninitialised data, signed overflow and signed shifts, division by zero.
- **Integers** are `BitVec w`, or `Nat`/`Int` with explicit wrap functions where C wraps, always at the width the C
  type has. Platform assumption unless stated otherwise: 8-bit bytes, `int` 32 bits (any width in the debounce and pulse counter modules), `long` and `size_t` of a stated
  or arbitrary width.
- **Elements** of generic containers are an arbitrary Lean type (C copies `element_size` bytes with `memcpy`; the
  element granularity is a simplification: one element = one cell). For the circular buffer it is proved that this
  loses nothing (C157).
- **Callbacks** are parameters of the model (functions on an abstract state), i.e. universally quantified.
- A property that is **false of the code** keeps its full statement in `properties.jsonl`; the development contains a
  theorem that exhibits the failure (as general as practical, not one literal) and a theorem with suffix `_partial`
  that proves the claim outside the failing region. Its status in MANIFEST.json is `partial`.

## Trusted base

- The Lean kernel. Axioms used: at most `propext`, `Classical.choice`, `Quot.sound` (checked with `#print axioms`).
- The correspondence between the C text and the `Model.lean` files (by reading; citations at each definition). As a check, the
  project's own unit tests (`/repo/test`) are transcribed in `Verif/Tests` and run on the models by the kernel; every
  assertion that concerns a modelled function holds. Long loops are shortened. There are no tests of the stack, the list,
  the CRCs, the scheduler, the period timer and the state machine in the repository.
- The specifications.

## Not modelled

- `gel/collections/queue.h`, `stack.h`, `maybe.h` macros are modelled after expansion, for arbitrary item types.
- Weak memory beyond store buffers: C06, C07, C87, C104 and C108 assume sequential consistency; C112 and C113 model store buffers, reordering of stores and early loads for the single-element operations of the circular buffer, C197 store buffers for its bulk operations too. The C11 rule that a data race is undefined behaviour is not part of these models; C186 says which data races there are under sequential consistency.
- Floating point: parameters of type float/double use IEEE 754 binary32/binary64 (`Float/Ieee`: bit patterns, infinities, NaN without payload, rounding to nearest with ties to even; C127-C129), evaluated in the type itself (`FLT_EVAL_METHOD` 0, no fused operations); the other parameter theorems hold for arbitrary floating point operations. That `encode`/`decode` are the IEEE formats is checked on examples and by `decode_encode`, `round_isVal` and `round_err`. The PID with both types float or double is modelled with `Float/Ieee` (`Pid/IeeeModel`, C187-C189). The products of integer PIDs with their gains are modelled (`Float/Round`, C125-C126) as rounding to `p` bits, to nearest with ties to even, with unbounded exponent, no infinities and no NaN; that `rnd` is this rounding is proved (`rnd_isFloat`, `rnd_nearest`, `nearest_tie`).
- `sprintf` (C161-C163): only the conversions d, u, o, x, X and f with the flags -, + and 0; C196 also models the parsing of the format string.
- `GEL_SCHEDULER_DYNAMIC_ENTRIES` branch of the scheduler (does not compile: refers to a missing field).
- Build files.

## Plan per property

- **C01** Circular buffer: single-element operations are a bounded FIFO. Model of the C struct (array, head, tail) with Option-valued API; refinement to a `List` FIFO by induction over histories (shape: refinement).
- **C02** Circular buffer: bulk put appends exactly what fits. Same model, loop of `puts` with its `is_full` re-check. The full claim is false: when the requested length is exactly free+1 and the last free segment is bounded by tail, one element too many is copied and the buffer looks empty. Proved: exact result for every other length (`_partial`) and a theorem characterising the failure.
- **C03** Circular buffer: bulk get/peek/drop return exactly the oldest elements. Loop of `_circular_buf_get` with its optional destination and `peek` flag. Full claim false on a full buffer with len >= size (stale element returned, nothing removed). Proved elsewhere; failure theorem for every full buffer.
- **C04** Circular buffer: the size query reports the number of stored elements. False exactly when full: size reports n instead of n-1. Proved iff-not-full plus the failure for every full state.
- **C05** Circular buffer: no call accesses memory outside the buffer. All element accesses in the model go through checked accessors that yield `ub` when out of range; theorem: no history yields `ub`.
- **C06** Circular buffer: one producer and one consumer thread need no lock (single elements). Small-step interleaving semantics: each shared read/write of head, tail and the slots is one step; inductive invariant over all schedules. Weak memory is out of scope (assumption: sequential consistency).
- **C07** Circular buffer: bulk put always returns while the consumer runs. False: `puts` reads tail once; if the buffer is full at that read and the consumer frees space before the is_full check, it copies 0 elements forever. Small-step model; theorem: from such a state no schedule lets the call return. Sequential termination proved.
- **C08** Macro queue: FIFO across index wrap-around. 16-bit indices as BitVec 16, mask with capacity-1; refinement to FIFO over all histories.
- **C09** Macro queue: count reports the number of queued elements. False once the write index has wrapped and the read index has not (int subtraction). Exact characterisation proved.
- **C10** Macro queue: every declared capacity works. False: correct iff power of two. Both directions proved.
- **C11** Macro stack: LIFO with bottom removal. Refinement to list spec.
- **C12** Macro stack: peek returns the top element without removing it. False: reads items[idx], not items[idx-1]; on a full stack out of bounds (ub).
- **C13** Intrusive list: add, add_tail and del act on the sequence of elements. Heap = address -> (next, prev). `IsList heap head l` is the specification predicate; each operation transforms it; frame lemma for disjoint lists.
- **C14** Intrusive list: iteration visits every element exactly once, in order, and terminates. Loop by fuel-free structural statement: visiting relation; exactly the list.
- **C15** Intrusive list: the current element may be deleted during iteration. Loop whose body deletes the current node according to an arbitrary decision; uses that list_del leaves the node's links.
- **C16** CRC16: the table-driven checksum is the CCITT polynomial remainder. Table copied from the source; `decide +kernel` proves the 256 entries equal bitwise division; induction over the message; the specification is `%ₘ` in Mathlib's `Polynomial (ZMod 2)`.
- **C17** CRC32: the table-driven checksum is the polynomial remainder. As C16.
- **C18** CRC: computing in segments equals computing in one go. Induction on lists.
- **C19** CRC: every error burst no longer than the checksum is detected. Linearity over GF(2) plus coprimality of x with the generator (constant term 1) and degree bound.
- **C20** CRC: a frame followed by its own checksum checks to zero, and only then. Polynomial argument, or algebra on the register.
- **C21** CRC16: odd-weight and two-bit errors are detected. x+1 divides the generator; order of x modulo generator is 32767, computed by kernel evaluation of x^32767 and the maximal proper divisors.
- **C22** Serializer: unsigned round trip and exact byte layout. Bytes as Nat/BitVec lists; round trip in both directions and frame.
- **C23** Serializer: signed values survive the round trip. Signed left shift into the sign bit is modelled as `ub` (C11 6.5.7p4): 32 and 64 bit negative values hit it; 8/16 bit are fine. `_partial` for non-negative; failure theorem for every negative; and the value under the GNU semantics.
- **C24** Serializer: a packet of consecutive fields is recovered field by field. Induction over a list of field descriptors.
- **C25** Debounce: an input changes exactly after debounce+1 consecutive differing samples. Per-bit reference automaton written as a count of trailing differing samples in the history; induction over histories.
- **C26** Debounce: the return value is the bitmap of inputs that changed. Bit-wise characterisation of one call from every state.
- **C27** Debounce: after debounce_filter_set a change again needs debounce+1 samples. False: counters are not reset by set. `_partial`: from states whose counters are clear; failure theorem.
- **C28** Pulse counter: the count is the number of debounced pulses. Refinement to per-input reference counter; count modulo 2^w, for `int` of any width w.
- **C29** Pulse counter: initialization makes the filter independent of previous memory content. False: the counters are not initialised. Failure theorem and `_partial` for zeroed memory.
- **C30** Keypad: the events of each key follow the documented life cycle. Acceptance of each key's event trace by an automaton given in the specification; induction over histories.
- **C31** Keypad: a second PRESS of a key is preceded by a RELEASE. False: PRESS, CLICK, (release not yet reported) PRESS. Failure witness family + what does hold (a PRESS never directly follows PRESS).
- **C32** Keypad: CLICK and LONGCLICK respect their times. Ghost history: time of last PRESS; invariant.
- **C33** Keypad: key state query reports whether the key is held. False with several keys: stale value. `_partial` for the single-key table.
- **C34** Keypad: a press from idle is reported immediately, one key at a time. Decision logic on one call.
- **C35** Parameter: stepping keeps the value within its limits. Typed integer cells, C promotions and conversions explicit, signed overflow = ub; decision logic.
- **C36** Parameter: stepping adds step*mod or wraps to the opposite limit. False where the unsigned (or narrowed) sum wraps back into range; `_partial` when exact sum is representable; failure theorem. `StepExact.lean`: exact condition for a defined step (`C36_defined_exact`), the value (`C36_value_exact`) and when it is right (`C36_exact`).
- **C37** Parameter: range check repairs exactly the out-of-range parameters. Fold over the list with memory; spec pointwise.
- **C38** Parameter: reset sets every parameter to its default. Loop over get_handle; fold.
- **C39** Parameter: access levels select the same parameters for counting and for lookup. False for access level 0 (count excludes, lookup includes). `_partial`: no entry with level 0.
- **C40** Parameter: conversion to long preserves the value. False for negative int8. `_partial` otherwise.
- **C41** Parameter: number of values in the range. False/ub for full 32-bit ranges; `_partial`. `RangeExact.lean`: the result for every `size_t` (`C41_value_exact`) and when it is right (`C41_exact`).
- **C42** Parameter: clones are independent copies. Memory update frame lemmas.
- **C43** Wear leveling: a read returns the last successful write. Device modelled as blocks (marker, bytes); history induction.
- **C44** Wear leveling: the data survives a restart. False when the active block is the last one (search_last returns 0). Exact characterisation over histories of writes and restarts.
- **C45** Wear leveling: writes are spread evenly and identical data is not rewritten. History induction on write counters.
- **C46** Wear leveling: a failed write leaves the old data readable. False: indices are advanced before the device write. `_partial`/failure theorem.
- **C47** Wear leveling: a crash during a write leaves either the old or the new data. Crash = the device state before or after the atomic block write, followed by init; uses C44's characterisation.
- **C48** Wear leveling: a device error during initialization does not select an arbitrary block. False: the error code is returned as index.
- **C49** Wear leveling: a shorter write only changes the bytes written. False: the rest of the next block is whatever was there before.
- **C50** Event log: the last events are returned in order. Storage as array of max_events slots provided by correct callbacks; refinement to list of all events.
- **C51** Event log: a refused save changes nothing. As C50 with failing saves in the history.
- **C52** Event log: a load error is reported to the caller. False for the second load: the negative code is added to the first count. `_partial` for first load.
- **C53** Time checks are correct across timestamp wrap-around. BitVec w for any w; statements about Int true times.
- **C54** time_interval is the distance between two timestamps. As C53.
- **C55** Time checks work for a custom timestamp type. False for types narrower than long (and not 16 bit promoted...). General model with widths (timestamp, int, long).
- **C56** Stopwatch: elapsed time is the total running time. Refinement to an ideal stopwatch on Nat time.
- **C57** Stopwatch: reached, remaining and elapsed agree. As C56.
- **C58** Stopwatch: state transitions and refusals. Decision logic.
- **C59** Timer: a one-shot timer fires exactly once, not before its period. Induction on poll sequences.
- **C60** Timer: autoreload firings are at least a period apart. Induction on poll sequences.
- **C61** Timer: pause, resume, reset and change_period. Decision logic / refinement.
- **C62** Watcher: an immediate watcher fires once per observed change. Memory as address -> byte; callbacks as parameters that may change the world but not watched memory.
- **C63** Watcher: a delayed watcher fires once, a full quiet delay after the last change. Ghost time of last detected change; induction over calls.
- **C64** Watcher: clear_changes cancels pending notifications. False: a pending delayed notification survives clear. `_partial` for nothing pending. `Cleared.lean`: exactly which watchers are still called (`C64_exact`).
- **C65** Maybe: the nullable type obeys the functor and monad laws. Generic over types.
- **C66** Struct update: applying an update changes exactly the addressed bytes. Byte memory.
- **C67** State machine: events drive exactly the table's transitions. History induction.
- **C68** Page manager: back returns to the previous page. Stack refinement.
- **C69** Page manager: page life cycle. Trace automaton per instance (ghost instance ids).
- **C70** Page manager: rebase and swap on a fresh manager. False: uninitialised current page used (ub), `initialized` never set.
- **C71** Page manager: a failed reset leaves a usable manager. False: destroyed page stays current. Failure theorem.
- **C72** Page manager: reset_to_page unwinds to the topmost page with the id. Induction on the stack.
- **C73** Page manager: behaviour does not depend on NDEBUG. False: the push is inside assert.
- **C74** PID: derivative uses the error DELTA samples ago. History induction; float gain as an uninterpreted function.
- **C75** PID: the integral is the sum of the last N errors. False when an error is 0 (slot not overwritten). `_partial` for non-zero errors.
- **C76** PID: integral thresholds and auto clear. History induction.
- **C77** PID: compute is the sum of its terms and has no side effects; indices stay in range. Invariant.
- **C78** Scheduler: the active entry is the one with the smallest weekly span, ties by value. Decision logic: argmin fold.
- **C79** Scheduler: tie-breaking by value works for every int value. False: truncation to uint8.
- **C80** Scheduler: an entry is active exactly during its daily interval on its days. Decision logic.
- **C81** Scheduler: an entry that ends after midnight continues on the following day. False: same-day bits are used.
- **C82** Scheduler: remaining duration is the time until the active entry ends. `_partial` for same-day; failure overnight.
- **C83** Scheduler: entry serialization round trip. Round trip; false outside 0..255 values.
- **C84** Scheduler: no reported overlap means never active together. False for overnight entries; `_partial` same-day.
- **C85** Scheduler: out-of-range indices are refused. is_schedule_entry_enabled returns 255 for bad index: false part; rest proved.
- **C86** Scheduler: the active map lists exactly the enabled active entries. False: ignores enabled. `_partial` when all active ones are enabled.
- **C87** Circular buffer: bulk operations between two threads. Small-step model of the loops; the invariant of C06 extended with the progress of the running call.
- **C88** CRC32: two-bit errors. Order of x modulo the generator by kernel evaluation of powers of x (square and multiply) and the factorisation of 2^32-1.
- **C89** Serializer: PACK/UNPACK macros. Variables of any unsigned width; checked byte accesses.
- **C90** Debounce: changing debounce values. The counter is loaded with the value of the first differing sample; induction over histories.
- **C91** Debounce and pulse counter in strictly conforming C. Second semantics of the shift in which an unrepresentable result is `ub`; agreement elsewhere.
- **C92** Timer: a paused timer never fires. False if the period was over when it was paused (remaining time 0 is reached at once); proved otherwise. `TimerPaused.lean`: exactly which paused timers fire (`C92_exact`).
- **C93** Parameter: the macros store their arguments unchanged. False for 64-bit types: `CAST64` casts to `uint32_t`.
- **C94** Parameter: conversion to bool. Goes through `size_t`; false only where `size_t` is narrower than the type.
- **C95** Event log: asking for more events than there are. False when `jump + number` wraps; failure theorem for logs that are not full.
- **C96** Watcher: packed configuration. Fields of 8 and 16 bits truncate size and delay; failure theorem.
- **C97** Watcher: changes made by callbacks. Callbacks are functions on the memory; the copy after an immediate callback absorbs its own change. Whole lists with arbitrary callbacks in `Watcher/Callbacks` (memory before each element as the fold of the callbacks called).
- **C98** Watcher: trigger_all. Induction over the list.
- **C99** Struct update: array macro. Length argument as an expression (primary or sum); false for sums.
- **C100** Intrusive list: iteration over the containing structures. Bit-vector addresses; reduction to C14.
- **C101** Intrusive list: moving the current element. False: the loop never ends; the set it stays in is an invariant. Exact condition.
- **C102** Intrusive list: deleting twice. True at once, false later; both proved on the pointer functions.
- **C103** Intrusive list: deletion in backward iteration. Mirror image of C15.
- **C104** Macro queue: producer and consumer without lock. Interleavings of the individual accesses; false in two places (index advanced before the item is stored or read), failing interleavings for every capacity; invariant with four counters for all others.
- **C105** PID with integer types. Second model with checked arithmetic; refinement of the exact model under bounds; failure theorems for the error and for the sum.
- **C106** Timer: phase of an autoreloading timer. False: the period counts from the poll. Exact firing polls for a constant polling rate (hence the drift); true when every deadline is polled.
- **C107** Event log: short loads. False if the first of two loads is short (gap in the array); proved otherwise.
- **C108** Circular buffer: bulk get beside a producer. Invariant on the size snapshot; measure for the number of steps. Added because a wrong size computation in the two-thread model went unnoticed.
- **C109** Scheduler: a reported overlap is real. The comparison is of closed intervals: `overlaps` iff active together or touching (exact). Consecutive entries are reported.
- **C110** Scheduler: the active map works for every table size. `1 << i` of an `int` and a 16-bit result: exact domain of definition and exact result.
- **C111** Scheduler: the duration of an entry is the time it is active. Counting of active seconds over a day by induction; iff for entries that begin within the day.
- **C112** Circular buffer: no barrier on machines with total store order. Small-step model with a FIFO store buffer per thread and store-to-load forwarding (`Cbuf/TsoModel`). Invariant: the producer's store buffer is a sublist of the stores of the calls from the memory's head on, in program order.
- **C113** Circular buffer: no barrier on any machine. False; one failing execution for reordered stores, one for reordered loads, for every buffer. The invariant of C112 already covers all store reorderings in which no store to head overtakes an earlier element (what a release store guarantees).
- **C114** Page manager: page callbacks may navigate. False in general. Model with nested calls (`Pages/Reent`), tied to that of C68-C73 by `C114_quiet`; navigation in the last callback of a call is flattened into a history without nesting, by induction on the depth; exact traces for `create`, `destroy`, divergence for `close`.
- **C115** Circular buffer: single-element calls are wait-free. Rank of the program points in both small-step models: always enabled, strictly decreasing, untouched by the other thread.
- **C116** CRC32: Hamming distance. Equal checksums mean that powers of X sum to zero modulo the generator (`Crc/Few`). That no three, four or five powers below degree 91639, 3006 or 300 do is computed in the kernel on sets of exponents (numbers, one bit per exponent), which are split on one bit of the residues at a time (`Crc/Radix`, `Crc/Check`, about a minute); that these limits are exact is shown by one pattern each.
- **C117** Keypad: PRESSING and LONGPRESS respect the period. Invariant on `time_period` in the history of one key, as in C32.
- **C118** Keypad: the events of a key are exactly those due. Specification `Phase.next` (five phases, natural-number times); simulation relation `Rel` for the touched key, the other keys stay as reset.
- **C119** PID: result after every history of calls. Specification by recursion on the history, newest call first (`Pid/General`); invariant `G` ties every field of the controller to it, the rings as in C74/C75.
- **C120** Keypad: the exact events of several keys. `Keypad/Many`: specification `Pad.next` (active key and its phase), refinement `Ref`; keys in rest are passed over by the scan (`scan_pass`), so a call equals the one-key step on the active or matching key (`step_at`).
- **C121** Keypad: reports on different keys do not interleave. From the automaton of C120: a phase ends with RELEASE only.
- **C122** Keypad: every RELEASE comes. From C120: at most two steps without the bitmap lead to rest.
- **C123** Keypad: every held key is reported. From C120 and C122.
- **C124** Watcher: initialization with and without malloc. Induction on the list; the NDEBUG configuration is a second definition.
- **C125** PID: products with float gains. `Float/Round` (rounding to `p` bits, monotone, odd, exact on floats, relative error 2^-p); `Pid/FloatModel.gain`.
- **C126** PID: output with integer types and float gains. C105 (no overflow) and C119 (result of every history) for the gains of C125; bounds on error, sum and change by induction on the history.
- **C127** Parameter: float values stay within limits. `operator_float` (exact result of a call for the operations `ieee`), comparison of IEEE values; C37 for `parameter_check_ranges`.
- **C128** Parameter: float steps are exact up to rounding. `round_isVal`, `round_err`, `round_stuck` of `Float/Ieee`; induction on the calls.
- **C129** Parameter: number of values of a float parameter. Same lemmas for `GET_RANGE`; conversion to `size_t` by C11 6.3.1.4.
- **C130** Parameter: conversion of float parameters to integers. Cases on the type; false, as the functions have no branch for them.
- **C131** Parameter: NULL handles. By computation.
- **C132** Parameter: copies between overlapping variables. Condition of `memcpy`; C42 for the converse.
- **C133** Scheduler: state after initialization. C85 and C86 for the table of zeroes.
- **C134** Circular buffer: integer widths. Second model with `int` and `size_t` of any width; equal to the first for every call while positions are below 2^(iw-1); the failure above that by arithmetic modulo 2^iw.
- **C135** Circular buffer: result of every history of calls. Specification `Exact` on the rotated array; `puts_raw` plus a frame lemma for the loop, `get_eq` with the first cells, induction over the history.
- **C136** Scheduler: the exact choice of the active entry. Invariant of the single pass: minimum so far and the fold over the entries that attain it.
- **C137** Scheduler: the remaining time of the schedule. C136 for the index, case distinction on the end.
- **C138** Scheduler: overlaps of all entries. Linear arithmetic in four cases.
- **C139** Scheduler: layout of a serialized entry. C24 for the bytes; explicit bytes for the converse.
- **C140** Debounce: the result of every history of calls. Refinement between the counters, which count down, and the runs of the specification, which count up.
- **C141** Pulse counter: the result of every history of calls. The same relation, plus the counts modulo 2^w.
- **C142** Wear leveling: the active block found on any content. Induction on the search loop with the sequence found so far.
- **C143** Wear leveling: a successful read never returns a mixture. Invariant: every block holds a record of the set; the active index may be anything.
- **C144** Wear leveling: a successful write is read back whatever failed before. The block index written is always one of the page.
- **C145** Timer: the result of every history of calls. Refinement to an ideal timer, each call composed of stopwatch calls (C56).
- **C146** Event log: requests whose sum overflows. Case distinction on the wrapped sums; the slots are those of the invariant of C50.
- **C147** Watcher: the result of every history of calls. Specification by the past calls; invariant: each watcher holds what its past says; C53 for the timestamps. `C147_since` says in words of the history when a notification is pending.
- **C148** State machine: managers that send events to their own machine. Managers as interaction trees over the model; depth of the calls as fuel, `diverge` when it is used up, for every depth.
- **C149** Watcher: callbacks that process changes of their own list. Second model with the list re-read after each callback. Invariant: a set of elements that have been dealt with; the number of due delayed ones outside it bounds the depth.
- **C150** Struct update: every history of calls. Exact refinement: the heap is a function of an ideal state of structures and updates; `malloc` may fail.
- **C151** Serializer: the width of `int`. The 16-bit functions with `int` of `w` bits, compared with those of C22 and C23.
- **C152** Serializer and struct update: names used by the macros. Macro arguments as expressions over an environment, evaluated in the inner scope; specification evaluates them outside.
- **C153** Parameter: every history of steps. One step in closed form for all inputs (`operator_exact`), then induction over the history.
- **C154** Parameter: stepping cycles through the range. Closed form with quotient and remainder, from C153.
- **C155** Parameter: variables larger than `GEL_PARAMETER_MAX_SIZE`. Model of the `_Generic` selections for every configuration.
- **C156** Parameter: the pointer argument of the macros. The type of `*ptr` when `ptr` is a sum follows the usual arithmetic conversions.
- **C157** Circular buffer: elements of several bytes. Second model on bytes; each call of it equals the call on elements, flattened.
- **C158** Circular buffer: the size in bytes. C157 with one byte; direct induction on the puts for the failure.
- **C159** Wear leveling: power lost in the middle of a block write. The damaged page satisfies the marker invariant of C43 again, with another base or another active block; `init_marked` gives the block found.
- **C160** CRC16: Hamming distance. C21 for odd numbers of bits, the order of X for two bits.
- **C161** Parameter: the string of an integer parameter. Model of the integer conversions of `sprintf`; separate reader of numerals as specification, composed with the renderer.
- **C162** Parameter: the buffer that a formatted integer needs. Number of digits against powers of ten.
- **C163** Parameter: the string of a floating point parameter. Reader of decimal fractions; error of rounding to the nearest integer; bound on the finite values of a format.
- **C164** Page manager: the view returned. The views are added to the model of C68 as any function of page and time; case analysis on the call.
- **C165** Timer: a callback may control its own timer. Second model with callbacks as lists of calls on the timer, nested polls included; depth of the calls as fuel.
- **C166** Timer: a callback may poll its own timer. The model of C165; `diverge` for every fuel.
- **C167** Stopwatch: queries from an interrupt handler. The functions as lists of stores in program order (`seen_all` links them with the first model); case analysis. Assumes that the compiler keeps the order of the stores and that each is a single access.
- **C168** Pulse counter: counting in an interrupt handler. Relation of C141 for one input; lists of handler calls between the calls of the main program.
- **C169** Debounce: reading from an interrupt handler. Prefixes of the loop.
- **C170** Stopwatch: stopwatch_setngo as a statement. The expansion written out; pointer expressions as functions of a variable.
- **C171** Parameter: cloning a handle to itself. Both handles as elements of one list, statement by statement.
- **C172** Parameter: clones in byte buffers. Typed accesses ask for an aligned address; the copy itself is bytewise.
- **C173** Parameter: number of runs of the runtime callbacks. The callback of handle `j` iterated, as the loop lemmas of C37 and C39 give it.
- **C174** Watcher: the array with its terminator. One lemma for the loop, a turn through the list for each body.
- **C175** Watcher: heap. Bytes and blocks allocated, and an oracle for `malloc`. `Watcher/Alloc.lean`: a heap of a given size.
- **C176** Queue: 16-bit `int`. The promoted difference by width; the representation of C08.
- **C177** Queue: any capacity. Invariant over the log of all accepted elements; the last one with a slot is the one stored there.
- **C178** Stack: peek. A tape of the stack and the array above it; equality of all outcomes including undefined ones.
- **C179** PID: types narrower than int. A second model with conversions at every store; equal to C105's under its bounds; the sum is linear modulo 2^w.
- **C180** PID: thresholds. The conversion from size_t, then cases on the sign of the error.
- **C181** Parameter: steps with 16-bit int. A second model of the switch; equality of results type by type.
- **C182** Parameter: number of values with 16-bit int. As C181.
- **C183** Parameter: limits that are parameters. Induction over the list; what is corrected first is not changed later.
- **C184** Scheduler: every history. Spec reads the history from the newest call back; induction, C85 for one call.
- **C185** Scheduler: map with 16-bit int. Comparison with C86's loop, shift by shift.
- **C186** Circular buffer: data races. The next access of either thread as a function of its program counter in the small-step model of C06/C87; the invariant of C87 for the elements, explicit executions for the races on head, tail and, after a too long bulk put, an element.
- **C187** PID with floating point types: bounded. Rounding is monotone, so powers of two bound sums and products (`Float/Bound`); invariant over histories.
- **C188** PID with floating point types: recovery. Comparisons with NaN are false, so it is not stored; the bad value is overwritten when the index comes round. An infinity is stored, and an error of zero leaves the entry at the index as it is. A gain of zero does not remove an infinite input: the product is NaN (`IeeeInf.lean`).
- **C189** PID with floating point types: exact. Simulation of the exact controller by the rounding one; `round_exact` at every operation.
- **C190** Keypad behind a debounce filter (`Verif/Combined/Keys.lean`). The loop of both models; `loop_eq` relates it to the histories of C25 and C30.
- **C191** Telegram through a circular buffer (`Verif/Combined/Telegram.lean`). C24 for the fields, C20 for the checksum, C06 and C112 for the buffer, C19 for damage.
- **C192** Schedule in a wear leveled memory (`Verif/Combined/Program.lean`). The record is the concatenation of C139's layouts; invariant `Rel` of C44 over the history.
- **C193** Element deleted again later (`Verif/Listx/Stale.lean`). The stale links of the element are what they were; the second deletion stores u and v into each other, which is no change iff they are neighbours and harmless iff both are out of every list.
- **C194** Constant inputs (`Verif/Pid/Steady.lean`). From C119's closed form over the history; the loop by induction over the cycles.
- **C195** Settings saved by watchers (`Verif/Combined/Autosave.lean`). Invariant over the history: watchers know the RAM, the record is the RAM, C44's `Rel`.
- **C196** Format strings (`Verif/Param/FormatString.lean`). A parser after C11 7.21.6.1; what a specification denotes is a separate relation; C161 and C163 for the numbers.
- **C197** Circular buffer: bulk operations with store buffers (`Verif/Cbuf/TsoBulk.lean`). The program points of C87, the store buffers of C112. Invariant on four counters (taken as the memory and as the consumer knows it, put as the memory and as the producer knows it), the store buffer being the stores between two of them in program order.
- **C198** Timer: control from an interrupt handler (`Verif/Time/TimerIsr.lean`). The poll as a sequence of loads and stores, a handler's effect before each; equal to the first model without handlers. Case analysis over the access before which the handler runs.
- **C199** Watcher: memory changed by an interrupt handler (`Verif/Watcher/Isr.lean`). The memory is a function of the number of accesses to its bytes. Exact condition for the loss without delay; with delay an invariant (the callback has seen the stored copy, or is pending, or a change is about to be noticed).
- **C200** Intrusive list traversed by an interrupt handler (`Verif/Listx/Isr.lean`). The calls as lists of stores. Forwards only the `next` fields matter and only the last store changes one that is reached; backwards the first store of an insertion leads to the new element before its own link is set.
- **C201** Intrusive list changed by an interrupt handler. Stores to different addresses commute. Neighbours in one list: exact result for two insertions at the head and for two deletions.
- **C202** Intrusive list changed at will during an iteration (`Verif/Listx/Iterate.lean`). The body is a script of valid calls per visit; invariant: the list is what is passed, then what is to come, and the position is the first of these.
- **C203** Event log: an event logged by an interrupt handler (`Verif/EventLog/Isr.lean`). A handler at any of seven points of the call; exact state for each (`newEventI_eq`).
- **C204** Event log: read by an interrupt handler. A handler that notes what it loads; the history visible at each point (`Spec.visible`).
- **C205** Macro stack: used by interrupt handlers. Calls as sequences of accesses with a handler before each; a handler is balanced if it keeps the relation `Rep` to the list that the stack stands for; both orders of the two stores of push.
- **C206** PID: an input added by an interrupt handler during pid_compute. Every load is a point; the state is `p` before and `p'` after the one at which the handler runs; the order of the loads decides each term.
- **C207** PID: pid_add_input interrupted. Every load and store is a point; an invariant on indices and lengths (`Safe`) that any handler made of calls keeps.
- **C208** Parameter: limits changed by an interrupt handler during parameter_operator. Six points, one closed form for a handler at any of them (`applyOperatorI_once`); case analysis.
- **C209** Wear leveling: read by an interrupt handler during a write. The write as a sequence of accesses with a handler before each (`Verif/Wear/Isr.lean`); a device that records what was read; the invariant that the blocks backwards from the active one hold the last records.
- **C210** Wear leveling: written by an interrupt handler during a write. The state left behind computed for each of the ten points; markers as a function of the block, and C142 for what a restart finds.
- **C211** Keypad: keypad_routine called by an interrupt handler during keypad_reset_keys. The reset as single stores with a handler before each (`Verif/Keypad/Isr.lean`); the table left behind for every point; the refinement of C120 continued from any state that it allows.
- **C212** Keypad: keypad_reset_keys called by an interrupt handler during keypad_routine. The call as a tree of single loads and stores (`Verif/Keypad/IsrReset.lean`), run with a handler before each; proved equal to the first model without handlers; a reset in the loop by induction over the keys, after the loop by cases over the found key's program.
- **C213** Stopwatch: queries interrupted by an operation. Functions as trees of single loads and stores (`Verif/Time/StopwatchMid.lean`), run with a handler before each access; proved equal to the first model without handlers; then cases over the query, the state, the call of the handler and the point, with both orders of the loads that C leaves open.
- **C214** Stopwatch: operations interrupted by an operation. The same trees (`Verif/Time/StopwatchBoth.lean`); stopwatches are compared by a relation proved to be kept by every call and to fix every answer; cases over the pairs of calls.
- **C215** Debounce: inputs of one filter sampled by the main program and by an interrupt handler. The call as single loads and stores with a handler before each (`Verif/Debounce/IsrFilter.lean`); handlers described by what they do to each input; the effect on the other inputs proved exactly for all of them, then specialised to one call of debounce_filter_single; the lasting damage by induction over the later samples.
- **C216** Scheduler: the table changed by an interrupt handler during a query. The queries as programs of single loads of one member (`Verif/Scheduler/Isr.lean`), equal to the first model without a handler; every query loads `enabled` of an entry at most once and before anything else of it, which is a property of programs proved with a small program logic; from it the query is atomic for changes of `enabled` alone and of disabled entries. Failures by evaluation and by counting the loads.
- **C217** Scheduler: an entry that is being set, asked for by an interrupt handler. The stores of the structure copy in any order (`Verif/Scheduler/IsrSet.lean`); by the program logic of C216 the other members of a disabled entry do not matter to a query; for every order a mixture that is active when neither entry is.
- **C218** Page manager: an application of pages. Loop of `pman_process_page_event` and the navigation answered (`Verif/Pages/App.lean`), simulated by the stack of pages of C68; the life of the pages by the invariant of C69.
- **C219** Events from another thread through a circular buffer to a state machine or to pages. Executions of C06 (and C112, with store buffers) with a reaction to every event got (`Verif/Combined/Events.lean`); the reactions are a fold over the events got, which are a prefix of those accepted; the fold is the automaton of C67 or the loop of C218.
- **C220** Circular buffer: two producers or two consumers, one of them an interrupt handler. Both functions as sequences of accesses with a handler before each (`Verif/Cbuf/Isr.lean`); exact results by the representation relation of C01, extended with `head` moved over an old element; the failures are instances.
- **C221** Macro queue: two that enqueue or two that dequeue, one of them an interrupt handler. As C220 (`Verif/Queue/Isr.lean`); a representation relation without the bound on the number of items says what an overfull queue delivers.
- **C222** (`Combined/Control.lean`): a program of a timer, a PID controller and an arbitrary plant. Step-wise refinement: the timer by
  `Timer.Is.step` (C145), the controller by C119 for the history so far. Spacing of the outputs and the closed loop of a counter are proved
  of the ideal run.
- **C223** (`StateMachine/Isr.lean`): managers as sequences of steps (a free monad over the model); a handler before the load of the state, any
  step, or the store. `sendBoth` says what becomes of both events.
- **C224** (`Pages/Isr.lean`): the navigation functions as steps (calls of callbacks, stores), proved equal to the first model; a handler before
  any of them. `table` says what is seen at each step, with the life of the page by C69. A struct copy is one step; `*found` is left out.
- **C225** (`Pid/Load.lean`): the loop of C194 with a load, over any ordered field; outputs by C119 and C194. The bound on small errors is by the
  triangle inequality over the last samples.
- **C226** (`Param/Torn.lean`): the store at the end of `APPLY_OPERATOR` as a list of byte stores in any order; the memory after the first `k` by
  induction on the list. In every order there is a moment between the stores of two given bytes.
- **C227** (`Combined/Late.lean`): C195 with delays. The specification keeps the settings, the saved ones and, per watcher, since when its bytes have
  not changed; one step per watcher by C53, the writes by the lemmas of C195. The consequences are proved of the specification.
- **C228** (`Scheduler/Hold.lean`): what is active later and did not begin since is active now, so that the candidates only become fewer; the first of
  the order of C78 stays the first.
- **C229** (`Cbuf/Query.lean`): the queries as functions of the states of the interleaving model at their loads; in the own threads one of the indices does
  not change during the call, and the answer is that of the number stored at the load of the other; for other threads executions in which elements
  pass one at a time, so that what is stored stays between two bounds, for every buffer size.
- **C230** (`Combined/Journal.lean`): the event log on a storage as in C50, its position and flag serialized to the wear leveled memory of C44; the
  state of the program is the invariant of C50 for the history as it is shown, in which an event saved without its record replaces the oldest one of a
  full log, and the relation of C44 for the record of the position after the history; power-up gives both back.
- **C231** (`Combined/Bounce.lean`): while the other inputs are 0 the KEY_PRESS of the key in the loop of C190 are the rising edges of the debounced level (`one_call`,
  `press_edge`, `device`). The level is related to the state of the finger by induction over the cycles (`Follows`): for `d` cycles after a move the
  level is still the old one, then it changes once, at the latest when the bouncing has been over for `d` cycles; it cannot change back in between
  because that needs `2 d + 2` cycles from the move. For `2 d + 2` cycles of bouncing the level is computed in closed form (`badLev`) and shown to be
  the only one that obeys the rule (`det`).
- **C232** (`Combined/Setting.lean`): the memory after `n` cycles is that after as many steps as there were KEY_PRESS (`cycles_eq`), whose number C231
  gives; C154 gives the value. That the bound on the bouncing is needed is `C232_long_wrong`.
- **C233** (`Queue/Query.lean`): a query sees the `write_idx` of one state and the `read_idx` of another (`seen`). Uses the invariant `All` of C104,
  which holds for all interleavings: the number of items waiting is the difference of the counters. In the own context one index does not change. For
  other contexts: executions in which items pass one by one between the loads (`passes`).
- **C234** (`Watcher/Copy.lean`): the callbacks copy their block, and log index, copy and block; a program of any number of polls with any contents.
  `C234_copy`: the copy is right once a poll has been made the delay after the last one that found a change. `C234_still`: without a change no
  callback. `C234_reason_partial`: each callback has a poll since the last one that found something different from the copy; without a delay it is the
  same poll. `C234_needless_wrong`: with a delay, memory that has come back is copied again (the README plans a third value against this).
- **C235** (`Cbuf/Reset.lean`): `circular_buf_reset` in a handler at each point of the `putcI` and `getcI` of C220. `C235_put_exact` and
  `C235_get_exact` give contents and result for every point, from what a buffer with one index at 0 holds (`rep_take`, `rep_drop`).
  `C235_begin_partial`: the points at which it is as if emptied before. `C235_get_wrong`, `C235_put_wrong`: the others.
- **C236** (`Combined/PulseBounce.lean`): the levels of C28 obey the same rule as those of the debounce filter, so that `follows` of C231 applies to
  the deviation of each input from its level at rest (`rule_xor`); touches and releases of the level alternate (`presses_releases`), which gives both
  kinds of pulses. `C236_once`: counts and pulses, `C236_between`: since a clear, `C236_long_wrong`: the bound is sharp.
- **C237** (`Listx/Again.lean`): moving is the composition of the lemmas of C13. Without the deletion the `next` and `prev` fields after the call are
  computed; the elements up to the added one (with the other ring, for another list) are closed under `next` and do not contain the head, so a loop
  that is among them never ends; the direction that ends is a walk along a known path.
- **C238** (`Debounce/IsrSet.lean`): the split call of C215 with a handler that sets all levels. The result is computed for every point and written
  down per input (`Bit.own`, `Bit.other`); away from the three points in the midst of the two read-modify-writes it is one of the two orders, and at
  them the reported or the stored level of the sampled input or of the others is the one from before. `debounce_filter_set` is two stores; a sample
  between them is computed as well.
- **C239** (`Wear/Restart.lean`): follows every history of writes and restarts, also after data was lost. The spec is a memory with four phases
  (`Phase`: which blocks have a marker that continues from block 0); the invariant `Pattern` ties the markers to the phase. `C239_exact` (reads),
  `C239_keeps` (which restarts keep the record), `C239_settled`, `C239_heals` (after as many changing writes as blocks all is well again) and
  `C239_forever_wrong` (after one loss, equal runs lose everything for ever).
- **C240** (`Wear/Even.lean`): the calls of `write_block` of a history of writes and restarts (`writtenR`) are those of the lossy memory of C239
  (`Lossy.wear`). If every restart keeps the active block they go round, so two counts differ by at most one (`C240_even_partial`,
  `C240_device_partial`). Otherwise not: after a restart that brings back block 0, a program with `m` changing writes in every run (`m` less than the
  number of blocks) wears the blocks 1 to `m` once per run and the others never (`C240_wrong`); from a new device for every `k` there is a history
  that writes block 1 `k + 1` times and block 0 never (`C240_new_wrong`).
- **C241** (`Combined/AutosaveAny.lean`): the program of C195 with power lost at any time between two polls. It is simulated by the lossy memory of
  C239 instead of the ideal one of C44 (`C241_exact`). `C241_lost_wrong`: in the first run of a new device, as many changes as there are blocks but
  one are all lost by a power loss.
- **C242** (`Wear/Refused.lean`): a refused write, successful ones, and a restart. `wearleveling_write` advances active block and marker before
  `write_block`, so a refused write leaves a block with its old marker behind, and `search_last` stops before it. `C242_lost_wrong`: all records
  written successfully after the refusal, as long as the writes do not come to the end of the device, are lost at a restart, which brings back the
  record from before it; `C242_first_wrong`: the record of block 0, if the last block was active. `C242_one_partial`: with one block nothing is lost.
- **C243** (`Combined/ProgramAny.lean`): the program of C192 followed through any power losses. The spec is a memory of tables (`Tables`) with the
  phases of C239; `records` maps it to the lossy memory of records, every record being that of a table (C139).
- **C244** (`Combined/JournalNew.lean`): the program of C230 in an erased memory. The record in block 0 and the phase of C239 are followed from the
  first start (`block0`), so that the first power loss is known for every number of events (`afterLoss`); erased bytes give the position 2^32 - 1.
- **C245** (`Combined/LateAny.lean`): the application of C227 with the lossy memory of C239 instead of the condition on the power losses. `late_watch`
  (what one poll does to the watchers) is shared with C227; since the last power-up the memory is that of C227, which gives `C245_saved`.
  `C245_lost_wrong` shows that settings saved after their delays, one less than the blocks, are all lost with the next power loss.
- **C246** (`Debounce/Index.lean`): the index of `debounce_filter_single` is not checked, that of `debounce_read` is. The model has the shift and the
  array access undefined for such an index, so that the failure is one unfolding; `C246_exact` also gives the calls that are undefined in strict C
  (C91).
- **C247** (`Cbuf/IsrBulk.lean`): `circular_buf_puts` as accesses to the buffer, as C220 does for `circular_buf_putc`; each load of `head` and `tail`,
  each copy and each store is a point at which the handler may run. The contents after one interruption at any of the twelve points are computed from
  those of an uninterrupted copy (`Raw.push`) and of a head moved one too far (`Raw.grow`).
- **C248** (`Cbuf/IsrGets.lean`): the same for `circular_buf_gets`, including the loads in `circular_buf_size`; the size may be computed from
  positions loaded before and after the handler, but is never less than what is asked for. The positions after one interruption at any of the ten
  points are computed, and what is left follows from `Raw.pop`.
- **C249** (`Cbuf/IsrPeek.lean`): the same for `circular_buf_peek`, for every number of elements: the interrupted call is the uninterrupted loop from
  one of two positions with the size of the other (`getLoop_eq`).
- **C250** (`Keypad/IsrSelf.lean`, `IsrSelfLoop.lean`): `keypad_routine` interrupted by itself. The program of single accesses of C212 is run with the
  first model's call at one point, and the reports of both are kept. A press is reported by exactly one of them, but at the three points between the
  comparison with `oldvalue` and its store by both (`C250_twice_wrong`). A handler in the loop is in `Keypad/IsrSelfLoop.lean`. Partial: presses only.
- **C251** (`Keypad/IsrSelfUp.lean`, `IsrSelfUpLoop.lean`): the same for a key let go. The handler may find the key half handled, with `oldvalue` stored but not the time or
  KEY_RELEASE, and then reports by the old or new time (`upReports`).
