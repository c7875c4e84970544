# Formal model of smart-keymap: design

The model is written in Lean 4 (`lean/Verif`). It is a hand translation of the Rust (and a little C)
source in `/repo`, function by function; each definition cites the file and lines it models.
The code is never run here; the tie between the code and the model is the reading of the source.

## 1. Trusted base

* **Lean's kernel** (Lean 4.33.0). Every theorem is checked by the kernel. No module imports Mathlib.
* **Axioms**: the theorems depend on a subset of `propext`, `Classical.choice`, `Quot.sound`, Lean's
  standard three. None of our own; no `sorry`, `native_decide` or `bv_decide`. `vcheck` audits this
  for every declaration. Concrete witnesses use `decide` / `decide +kernel`, evaluated by the kernel.
* **The reading of the source**: that each definition under "Model" below says what the cited lines
  say. Every simplification is named in the comment of the definition concerned and in section 3.
* **The specifications** in `Spec/*` and the statements in `Props/*`: what is claimed.

## 2. Layout

| Module (under `lean/Verif/`) | Models |
| --- | --- |
| `Res` | result of a Rust call: value, panic (with cause), or "recursion limit reached" |
| `Types` | `src/input.rs`, data types and `KeyEvents` of `src/key.rs` |
| `Output` | `KeyboardModifiers`, `KeyOutput`, `MouseOutput` (`src/key.rs`), `KeymapOutput` (`src/keymap.rs`) |
| `Reporter` | `src/keymap/hid_keyboard_reporter.rs` |
| `Scheduler`, `StdSearch` | `src/keymap/event_scheduler.rs`; std's `binary_search_by` |
| `Keymap` | `src/keymap.rs`, generic in the key system |
| `Sys/*` | one file per key system in `src/key/` (`Simple`: keyboard, consumer, custom, mouse, callback) |
| `Composite` | `src/key/composite.rs`: the key system used by every real keymap |
| `CApi` | `smart_keymap/src/lib.rs` (the C interface), `src/lib.rs` |
| `Split` | `src/split.rs` with the postcard/COBS encoding of its one message type |
| `Slice` | `src/slice.rs` |
| `Distinct` | `src/keymap/distinct_reports.rs`, `observed_keymap.rs` |
| `Backend` | `keyberon-smart-keyboard/src` (layout, backend, direct-pin matrix scan) |
| `Firmware` | key scanning and debouncing of both C firmwares |
| `Usb` | ch32x035: main loop, timer interrupt and USB interrupt, one step at a time, in any interleaving |
| `SplitLink` | ch32x035: the wire between two halves: `keyboard_split_tx_dma.c`, `keyboard_split_rx_dma.c` |
| `Matrix` | the matrix drivers of both C firmwares with the pins and switches they drive, the generated tables, and the boards |
| `Ble` | the event loop of the ch58x firmware: sleeping, waking, scanning, ticking, timeouts and sending reports, with TMOS (the scheduler of the Bluetooth library) as its header documents it |
| `Device` | ch32x035: switches, debouncing, keymap and USB together |
| `Control` | ch32x035: end-point 0 of `app/ch32x035_usbfs_device.c` (control transfers) and the descriptors of `app/usb_desc.c` |
| `Whole` | ch32x035: `Usb` and `Control` together, with the toggle bits a host expects |
| `Rtic` | `rp2040-rtic-smart-keyboard/src/main.rs`, `stm32f4-rtic-smart-keyboard/src/main.rs`: the task `tick`; `stm32-embassy-smart-keyboard/src/main.rs`: the loop of `in_fut`; `keyberon-smart-keyboard/src/input.rs`; the debouncer of keyberon 0.2 (a dependency, modelled from knowledge of it) |
| `RticSplit` | `stm32f4-rtic-smart-keyboard/examples/minif4_36-rev2021_4-lhs.rs` and `-rhs.rs`: the tasks `rx`, `layout` and `tick`, interleaved as their priorities allow; `stm32f4-rtic-smart-keyboard/src/split/transport.rs`; the tables of the keys of these boards and of `rp2040-rtic-smart-keyboard/examples/pico42.rs` |
| `EmbSplit` | `stm32-embassy-smart-keyboard/examples/minif4_36-rev2021_5-lhs.rs`: the tasks `keyboard_matrix_scan`, `keyboard_split_rx` and `keyboard_backend` and the channel between them, in any interleaving; `minif4_36-rev2021_5-rhs.rs`: the loop of `main` |
| `Hid` | the report descriptors of both C firmwares (`app/usb_desc.c`, `Profile/hidkbdservice.c`), and the bytes the ch58x sends |
| `Codegen` | the keymap compiler: `ncl/keymap-ncl-to-json.ncl`, `ncl/keymap-codegen.ncl`, `ncl/smart_keys/*` |
| `Nickel` | the same on records of fields, as they are in keymap files and keymap.json, with the validators: `ncl/validators.ncl`, `ncl/keymap-ncl-to-json.ncl`, `ncl/keymap-codegen.ncl`, `ncl/smart_keys/*` |
| `Names` | the key names of `ncl/keys.ncl` and the `key-extensions.ncl`, layers written as text, `string_to_instructions` |
| `Example` | one concrete keymap with a key of every kind, for the `example`s |
| `Spec/*` | small specifications, written without reference to the model's helpers |
| `Lemmas/*` | helper lemmas (invariants, simulations); nothing here is a claim |
| `Props/*` | the property theorems, each with an `example` showing its hypotheses are met |

## 3. Modelling decisions

* **Panics** are explicit: `Res.panic kind`. `unwrap`, slice indexing, `heapless` capacity overflow,
  arithmetic overflow (debug profile) and `panic!`/`todo!` all become `panic`. In release builds
  arithmetic overflow wraps instead; a run of the model that does not panic is also a run of the
  release build.
* **Loops and recursion**: `Keymap` is mutually recursive (`handle_event` → `process_input` →
  `handle_pending_events` → `handle_event`). The model is the fixpoint cut at a recursion depth `n`;
  reaching it is the separate result `Res.fuel`, never an ordinary value. Theorems are about every
  `n`. `Lemmas/Depth` proves that a larger `n` never changes another result, and C45 that for
  keymaps without reference cycles some `n` suffices for every call, so a result other than `fuel` is
  *the* result.
* **Integers**: bytes are `BitVec 8`; indices and times are `Nat`, with the `u8`/`u16`/`u32` range
  checked where the code can overflow in a way that matters, among them the scheduler's `u32` clock
  (it overflows after 49 days of ticks at 1 ms: a panic in debug builds).
* **Binary search**: `slice::binary_search_by` may return any matching position. The scheduler model
  takes the search function as a parameter together with its documented contract, so theorems hold
  for every conforming implementation; concrete runs use the algorithm of the current std.
* **Function pointers** (callbacks) are numbers; calls are recorded in a ghost trace.
* **Key tables**: the generated keymaps (`build.rs`/Nickel) are arbitrary lists; an out-of-range
  reference panics as the array index does. The capacities the generator chooses (chord size, number
  of chords, tap-dance definitions, macro length, layers) are the lengths of those lists or explicit
  parameters.
* **`heapless` containers** are lists with a capacity check; `heapless::spsc::Queue<_, N>` holds
  `N - 1` elements.
* **Time** is only what `tick` counts. Interrupt timing of the firmware is not modelled but in `Usb`,
  where interrupts come between any two steps of the main loop: a *history*
  is any list of calls (input, tick, tick_by, report, ...), so every interleaving the single-threaded
  callers can produce is covered.

### Not modelled

* `build.rs`, `smart-keymap-nickel-helper`, `smart-keymap-macros`, and of the Nickel sources (`ncl/`) the
  key extensions that are functions (other than `string_macro`) and the text of the
  generated Rust expressions (the validators are in `Nickel`, their messages are not). Only the theorems of `Props/Codegen`, `Source`, `Safe`, `Text`, `Words`,
  `Typist` and `Nickel` are about the compiler; all others take arbitrary key tables.
* Grapheme clusters (`std.string.characters`) and Unicode upper case: string macros are modelled for
  characters, which is the same for ASCII texts without carriage returns.
* `src/key/composite.rs`'s `Debug`/serde derives, `src/tuples.rs`' JSON deserialisation.
* BLE stacks (on the ch58x: the stack accepts or refuses a report, as an input to the model), RTIC/embassy task scheduling (the tasks themselves are modelled in `Rtic`; the USB driver answers as the environment likes, `Duplicate` only to the report it accepted last), UART transport timing and everything else in the firmware
  crates besides scanning, debouncing, the use of the keymap interface, and on the ch32x035 the sending
  of reports and the wire between two halves (`SplitLink`: the UART is assumed to carry bytes unchanged and in order, and the
  DMA controller to copy a byte at once). Of the matrix drivers (`Matrix`) the configuration of the pins as inputs and outputs is left
  out, and lines are assumed to settle within the 5 µs the drivers wait. Of its USB stack: all end-points, bus reset, all requests (`Usb`, `Control`, `Whole`); not
  suspend and wake-up, and not the `printf`s. The hardware is assumed to send a ready buffer when the host asks for it and to
  interrupt afterwards.
* `observed_eb_keymap.rs` beyond what it shares with `observed_keymap.rs`.
* Test code.

## 4. Properties and how they are proved

"Refuted" means the negation is proved with a concrete history (evaluated by the kernel), and the
provable part is proved as `…_partial`.

| Id | Theorems in | Method |
| --- | --- | --- |
| C01–C04 | `Props/Output` | list reasoning against `Spec/Output` (bits, filtered codes, integer sums); complete 256-entry tables |
| C05 | `Props/CApi` | list reasoning; every field of the C report struct |
| C06–C08 | `Props/Reporter` | invariant over report histories; C08 as documented is refuted (two new keys in a report after idling), a bound is proved |
| C09–C11 | `Props/Scheduler` | sortedness + conservation over all operation lists; refinement to `Spec/Scheduler`; C11 refuted when events coincide |
| C12–C15 | `Props/Keymap`, `Props/Queue` | invariants over all call histories, by induction on recursion depth, then on calls |
| C16, C20 | `Props/Board` | refinement: a keymap of plain, layered and layer-modifier keys simulates the `Spec/Board` automaton (list of held keys, set of active layers, input queue) for every history, including the 16-key and 31-event limits |
| C17 | `Props/Keymap` | a held key's stored state is never rewritten by anything but its own system |
| C18 | `Props/Order` | exact re-queue order; order preserved for tap-hold, refuted for tap-dance and nested pending keys |
| C19 | `Props/Callback`, `Props/CInput` | exact trace of callback calls per call |
| C21 | `Props/Events` | every reaction of every system schedules at most four events, so `KeyEvents` never overflows |
| C22, C24 | `Props/TapHold`, `Props/TapHoldTime` | decision as a function of the event list, for every list; documented interrupt behaviour refuted for rolls; both end to end (calls to outputs) on layouts of plain, layer and tap-hold keys |
| C23 | `Props/TapHoldTime` | refinement: a keymap of plain, layered, layer and tap-hold keys simulates the `Spec/Timed` automaton (board, waiting key, queue, clock, timers) for every history that does not overload it; then the times, for every timeout, tick length and number of ticks |
| C25, C26 | `Props/TapDance`, `Props/Dance` | fold over all event lists; end to end: a keymap of plain, layered, layer and tap-dance keys simulates the `Spec/Dance` automaton (board, waiting key, queue, clock, timers) for every history that does not overload it; then the key for each number of presses and the tick at which it comes |
| C27–C29 | `Props/Layered`, `Props/OneShot` | lookup = highest active layer with a key; effects as functions on layer sets; sticky layer keys end to end by refinement to the keyboard of `Spec/OneShot` (any number of sticky layers, any calls), from which: the key after a tap, the key after that, rolling over, holding through other keys, releasing; refuted: two hold keys for one layer, stacked sticky layers |
| C30, C31 | `Props/Sticky`, `Props/Virt` | virtual press/release balance over event lists; refuted beyond four modifiers and for rolling; end to end: a keymap of plain, layer, sticky modifier and caps word keys simulates the `Spec/Virt` keyboard for every history; then an invariant of that keyboard: the firmware holds exactly the waiting modifiers and the caps word shift |
| C32, C33 | `Props/CapsWord`, `Props/Virt` | full usage table; balance over event lists; end to end with C30 |
| C34–C36 | `Props/Automation`, `Props/Macro` | abstraction to the list of remaining instructions; refuted: stall, stuck key, lost double letter; end to end: a keymap of plain, layer, sticky, caps word and string keys simulates the `Spec/Macro` keyboard for every history; then invariants of that keyboard (order, balance, one letter at a time), a measure for termination, and a closed form for a string typed alone |
| C37–C40 | `Props/Chorded`, `Props/ChordCapacity`, `Props/Chords`, `Props/Foreign` | any order of pressing a chord's keys; capacity panics refute C40; end to end (C37–C39): a keymap of plain, layered, layer and chord keys simulates the `Spec/Chords` automaton (board, chords that are down, waiting key, queue, clock, timers) for every history that does not overload it; then which chord a group of presses becomes, for every order, the tick at which its output comes, what keys do without a chord, and that every output goes back to a pressed key or a chord all of whose keys were pressed |
| C41–C43 | `Props/Split` | round trip for every message, every byte stream, every garbage prefix |
| C44 | `Props/Keymap` | `init` restores everything but the key system's context; refuted for the context |
| C45 | `Props/Halt` | termination from a rank on key references; a self-referencing key never ends |
| C46, C47, C52 | `Props/Time` | induction on ticks; C47 refuted as seen by queued keys; C52 refuted for remainders and zero |
| C48 | `Props/Keymap` | multiset counting of virtual keys |
| C49 | `Props/Distinct` | induction; equality shown not transitive |
| C50 | `Props/Backend` | induction over events/ticks |
| C51 | `Props/Slice` | list reasoning |
| C53–C55 | `Props/Firmware`, `Props/Backend` | automaton per key, induction over scans |
| C56 | `Props/Time`, `Props/Distinct` | corollary of C46; induction over the rounds of the loop |
| C57 | `Props/Automation` | the events that follow each instruction, for every queue content |
| C58 | `Props/Codegen` | structural induction over the source keys through both stages (`Spec/Source`: what a reference has to mean) |
| C59 | `Props/Codegen` | references of later entries lead to earlier ones, so following them is well-founded; sizes by induction |
| C60 | `Props/Codegen`, `Props/Source` | the tables read as the layout of the source (`Spec/SourceBoard`), then C16, C20, C23, C36; sticky layers, tap-dance keys and chords with C29, C25, C37 |
| C61 | `Props/Codegen` | induction over the source; refuted for macros two levels deep |
| C62 | `Props/Codegen` | from C60; refuted for keys which name a layer that does not exist |
| C63 | `Props/Safe` | invariant of all reachable states: every reference held anywhere has its table entry, times stay in range (`Lemmas/Safe`, generic; `Lemmas/SafeSys`, per key system); C58 and C59 for sources; C45 for the end |
| C64 | `Props/Text` | each printable character by one kernel evaluation over the name table; the end-to-end claim from C58, C36 (`C36_alone`) and the reporter, read by the host of `Spec/Host` (modifiers in byte 0, keys newly down in bytes 2 to 7, US layout) |
| C65 | `Props/Words`, `Props/Typist` | induction over the text against `Spec/Words.Splits`; the 297 names by kernel evaluation, against the usage tables in `Spec/Host`; end to end from C60 |
| C66 | `Props/Usb`, `Props/Device` | an invariant of the state machine of one end-point (`Way`), for every interleaving; progress by running the main loop to its beginning and round; from the switches by projection |
| C67 | `Props/Usb` | the same state machine with resending; the release that is lost by an invariant of all continuations |
| C68 | `Props/SplitLink` | an invariant of the ring buffer, the DMA buffer and the call that runs, for every interleaving; progress by counting bytes |
| C69 | `Props/SplitLink` | the bytes that came in = given to the keymap ++ being worked on ++ in the buffer ++ in the data register, for every interleaving |
| C70 | `Props/SplitLink` | C68 and C69 joined by the bytes on the wire, with C41 to C43 for the messages |
| C71 | `Props/Matrix` | an invariant of the nested loops (which places have been read, which lines are at rest), the same for the three drivers; the boards by evaluation of a check proved sound |
| C72 | `Props/Ble` | an invariant over all histories: the phases of the keyboard's cycle (asleep, waking, scanning, ticking, arming) and which tasks may be pending in each; then, with an invariant of the switches, that two rounds contain a scan |
| C73 | `Props/Ble`, `Props/BleCases` | invariants over all histories (last report sent = `previous`, last made = `report`, different ⇒ its task is pending); the cases by evaluation, followed by a proof that nothing happens in a keyboard at rest |
| C74 | `Props/BleCalls`, `Props/BleCases` | every history is shown to be a sequence of calls of the keymap with the claimed events and times; the cases by evaluation |
| C75 | `Props/Nickel` | what a value says (`Spec/Nickel`, by recursion on keys) is unique; both stages are followed for a value that says a key (structural induction), and backwards from a result (induction on the size of the value), so that the model on records (`Nickel`) and the one on typed keys (`Codegen`) compile alike; refuted for misspelt macro lists by evaluation |
| C76 | `Props/Nickel` | any value is accepted by at most one `json_validator`; the two inductions of C75 |
| C77 | `Props/Nickel` | by the inductions of C75 and along the loops over layers; refuted by two values |
| C78 | `Props/Hid` | a reader of report descriptors and reports after the HID standard (`Spec/Hid`); the descriptors are parsed by evaluation in the kernel, the reports are read for arbitrary bytes; with C01 and C05; refuted for the rest |
| C79 | `Props/Hid` | the same; the table of names is checked in the kernel |
| C80 | `Props/Control` | the data stage by induction on the number of bytes still wanted; the buffer of end-point 0 keeps its size in all histories; transfers are histories, so that each leaves a state in which the next one works; what is left of a descriptor is an invariant for the memory |
| C81 | `Props/Whole` | the registers both halves share agree (invariant), so that the half with the reports goes as `Usb` says; the host's toggle bits are the device's (invariant); where it goes wrong: an invariant of the dead state |
| C82 | `Props/Keyboard` | the device follows the board of C16 with its queue (simulation over all histories); over still switches, by induction over the scans: debounced after 6, the queue empty after 38, all outputs reported after 55; C66 (packets reach the host), C05 and C78 (what the host reads) do the rest. The keyboard does not stop while at most 16 keys are held; one of 16 keys never: pigeonhole. Where it goes wrong: a computed history |
| C83 | `Props/Down`, `Spec/Down` | fold each key's events into "is down"; `willBe`: pressed or undecided now, then the kept events, then the queue. Invariant over all calls: `willBe` is what the calls say. When nothing is scheduled nothing waits (C84). Refuted where an undecided key becomes an undecided key: a computed run |
| C84 | `Props/Down` | invariant over all calls: while a key is undecided its timeout is queued, or scheduled and live (`Lemmas/Timer`, for any key system whose keys schedule such an event), and that event decides it |
| C85 | `Props/Rest` | a potential: what each waiting event, input, undecided key and macro can still lead to, in number of events and of milliseconds (`Lemmas/Rest`, for any key system whose events lead to less and less). Every tick lowers it while anything is scheduled. An input event weighs more than all that a decision can lead to, and loses weight when an undecided key keeps it, so that replayed events pay for themselves |
| C86 | `Props/Rtic` | invariant over all histories of the task: the accepted reports are those of the outputs, but for the last while it waits |
| C87 | `Props/Rtic` | invariant: the accepted consumer reports are a sublist of those of the outputs, and `previous_consumer` is the last. Refutations by evaluation of the model on concrete histories |
| C88 | `Props/Rtic` | invariant: what the debouncer remembers of the levels read (the length of the run at the end). Events by induction over rows and columns. Refutations by evaluation |
| C89 | `Props/RticKeyboard`, `Props/RticRuns` | as C82: the firmware follows the board of C16 with its queue; over still switches: debounced after 26 scans, the queue empty after 58, all outputs reported after 75; C86 (accepted in order), C88 (events are the changes of the levels) |
| C90 | `Props/Embassy`, `Props/RticRuns` | invariants over all histories of the loop; C90_settles from the lemma of C89, about the part both firmwares share (`Core`). Refutations by evaluation. That neither firmware stops (C89_runs, C90_runs): the board takes every event while at most 16 keys are held |
| C91 | `Props/RticSplit` | invariant over all interleavings: what the keymap was given and what waits for it is a merge of the events of the own switches and of the received ones (C41, C42 for the bytes). Over still switches as C89, per tick that is accepted; the board of a merge holds the keys either half holds, since the halves have different keys. C91_runs: an invariant of the run. The tables: by evaluation, over all places. Refutations by evaluation |
| C92 | `Props/EmbSplit` | invariants over all interleavings, as C91: the events the keymap was given, wait in the channel, or are about to be sent; the bytes read so far are fours of bytes and a rest shorter than four. The last report as C89 and C91. C92_deaf: of fours of bytes that are out of step none deserialises: what is before its first 0 is too short (all 512 possible ends of messages, by evaluation). C92_runs: an invariant of the run. Refutations by evaluation |
| C93 | `Props/Nothing` | an invariant of every recursive step of a call (`Lemmas/NothingRun`): once the waiting events are handled, each virtual key is pressed no more often than releases of it are scheduled, plus one for the shift of an active caps-word; at most one "enable" waits, and only while caps-word is inactive; with an undecided key, no event waits that could press a virtual key. With C83 for the keys of the keyboard. Refuted for a macro next to a tap-hold key by a run with the default durations |
| C94 | `Props/BleKeyboard` | the keymap that ticks by 8 ms simulates the board (`Lemmas/BleKeyboard`, on `SimP`); an invariant of every step ties the events it was told to the debounced matrix, and says that the keymap is at rest whenever the keyboard sleeps; each round of the event loop then gets one tick further, until the report is that of the board (`Lemmas/BleRounds`), and one more round empties the events and sends it (`Lemmas/BleDeliver`). Refuted without room for the events by a run; `C94_runs`: every call the program makes of the keymap returns (`Lemmas/BleRuns`), for every history with at most sixteen keys held |
| C95 | `Props/Unstuck` | the calls that the firmware makes are read off its history, with the keys that are down according to the debouncing (`Calls`, `Lemmas/Unstuck`); with the switches open the measure of C85 falls with each scan, also with a report made after each tick (`Paced.rests`); then C93 says what is pressed, and `delivered` that the computer has got it |
| C96 | `Props/RticUnstuck` | as C95, for the part that the RTIC and embassy firmwares share (`Core`): the calls made are read off the turns (`Said`, `Lemmas/RticUnstuck`), the keys that are down off the events of the debouncer (`all_up`, from C88 and the board of C89), the measure of C85 falls with each turn (`Calm`, `Paced.rests`), C93 says what is pressed then, and C86, C87 and C90 that this is the last report |
| C97 | `Props/BleUnstuck` | the calls that the firmware makes of the keymap are read off the steps (`Heeds`, `Lemmas/BleUnstuck`); which keys are down after them is the matrix's own record (`down_scan58`), and that is of open switches when the keyboard sleeps (`Track`, of C72); C93 says what is pressed then; the last reports are those of what is pressed, as reports that differ are pending (`Due`, of C74) |
| C98 | `Props/RticSplitUnstuck`, `Props/EmbSplitUnstuck` | the calls made of the keymap of a half are read off its steps, whatever their interleaving (`Called`); which keys are down after them are the switches of both halves (C91 and C92, `merge_held`); the measure of C85 falls with each tick while no event comes (`Calm`, `Paced.rests`), C93 says what is pressed then, and the last report is that |
| C99 | `Props/BleTimeout`, `Props/BleCalled` | invariant over histories (`Flagged`): the flag `event_pending` is set only while the task is due or its timer runs; then a case analysis of the event that is processed. What the keymap answered is specified from the calls made in that event (`asked`, `answers`). That the keymap is then called: a task has one timer (`Single`), and what is processed before a timeout is at most the end of going to sleep, a wake-up and a scan |

## 5. Where the code disagrees with what a user would expect

Each item is a theorem (named) unless marked *observed* (read off the model, no separate theorem).

1. `next_event_time` returns `Some(0)` when two scheduled events are due together, and underflows
   with three (C11_refuted_zero, C11_refuted_overflow). `ms_per_tick = 0` divides by zero, and a delay
   that is no multiple of `ms_per_tick` loses the remainder (C52_refuted_*).
2. Events buffered while a key waits are re-queued in a different order when the key resolves to
   another waiting key; a tap-dance key's own release is moved behind the events of other keys
   (C18_refuted).
3. Macros: two macros queued can stall for ever (C34_stall_refuted); with the default configuration
   a string macro can leave a key stuck (C36_stuck_refuted) and types a double letter once
   (C36_double_letter_refuted). A string key pressed while the last letter of the previous string is
   still down starts at once, so the letters overlap (C36_overlap_refuted). If a tick is as long as an
   instruction, a letter can be pressed and released within one call (C36_unseen_refuted).
4. A fifth stacked sticky modifier is never released (C30_fifth_refuted); rolling from a modified key
   to the next leaves the modifier down (C30_roll_refuted).
5. Chords: with chord size 2, pressing five keys in ascending order indexes out of bounds
   (C40_refuted); three held chords overflow the span buffer (C40_refuted_span); tapping a member again
   while pending overflows (C40_refuted_retap); a chord resolves although a member was released
   meanwhile (C40_released_member).
6. The reporter can show two new keys in one report although documented to add one (C08_refuted).
7. Layers: two hold keys for one layer, releasing one ends the layer (C28_two_holds_refuted); stacked
   sticky layers leak (C29_stacked_refuted). *Observed*: layer 0 modifiers and a default layer above
   the layer count panic; a default-layer key re-sends its event on release.
8. Tap-hold with "hold on other key's tap" misses: press b, press c, release b (C22_refuted). *Observed*:
   "hold on other key's press" also decides hold on a repeated press of the key itself; the timeout
   arm does not compare the key index (harmless, since one key waits at a time and its timers are
   cancelled).
9. `init` keeps active layers, sticky modifiers, caps word and chord indices (C44_refuted).
10. The idle time a key sees when it is taken from the input queue during a tick is 0 (C47_refuted).
11. Pressing 17 keys, or 17 buffered events while a key waits, panics (C20_seventeen). A third
    callback panics (C19_third_callback).
12. A key whose reference chain is cyclic never returns (C45_self_reference).
13. `DistinctReports`' equality is not transitive (C49_eq_not_transitive).
14. Split: garbage in the receive buffer can complete into one spurious message (C42_garbage);
    serialising an index ≥ 128 panics for lack of buffer space (C41_others).
15. The ch58x firmware reports every raw change (no debouncing), so its key counter follows the raw
    inputs (C54_changes).
16. Cancelled timers stay in the 32-entry schedule until their time, so 33 taps of tap-hold keys within
    one timeout overflow it and panic; so do 33 presses of a macro that ends in a long wait (C63_full_schedule).
17. `has_modifiers` is documented "includes all the other modifiers" but tests for any common bit
    (*observed*).
18. A tap-hold key waits only if the keyboard was idle for the required time at the *beginning* of the last
    tick: `k` ticks after the last event count as `k - 1` (C24_idle_ticks).
19. With a timeout of at most one tick, a tap-hold key pressed and released with no tick between is taken as
    held (C23_one_tick).
20. The wait at the end of a macro does not delay the macro queued behind it: that one starts after the
    configured instruction duration (C57_pace, and the example with a final wait of 30 beside it).
21. The keymap compiler does not number macros two levels deep (a macro as the tap of a tap-hold key that
    has other layers on top of it, or in a layered key that starts a chord), and then fails
    (C61_nested_macro_refuted). It accepts keys which name a layer that does not exist, or which has
    transparent keys only; pressing them panics (C62_missing_layer_refuted).
22. `set_active_layers_to` a list which names a layer twice activates another layer (example in
    `Props/Codegen`: [1, 1] is layer 2). The caps-word key cannot have a key on a layer above it (`withLayers`).
23. A string macro with ticks as long as an instruction loses its first letter (C64_needed). `H_LCtrl`
    and the other hold-modifier names are no keys by themselves, so they cannot be words of a layer (*observed*).
24. ch32x035: if the host takes a report right between the two lines of `USBFS_Endp_DataUp` which make the
    end-point answer and which mark it busy, the end-point stays busy: no keyboard report is sent and
    the keymap is not ticked until the bus is reset (C66_early_refuted). A timer interrupt while a packet
    is copied can lose a report (C66_torn_refuted), and a bus reset loses the one on its way (C66_reset_refuted).
25. ch32x035: while a mouse button is held its report is sent over and over. Its release is reported only if
    it comes when none is on its way, which is almost never; else the host keeps the button down until the next
    mouse report (C67_release_refuted). Of the eight mouse buttons only three are declared to the host (C67_buttons_refuted), and
    the horizontal scroll of the report is not sent at all (C67_packet).
26. ch32x035 halves: if the sixteenth byte of a buffer comes just after the interrupt of the idle line was entered
    (the line was idle after an earlier byte, and the interrupt was held up), both interrupts handle the same bytes: the second one
    swaps the buffers again and gives the keymap sixteen old bytes, four events of the past (C69_twice_refuted).
27. ch32x035 halves: a byte that comes between reading the DMA counter and stopping the DMA is lost, and with it an event; if this is
    a release, the key stays pressed (C69_gone_refuted). The flag of a full buffer is cleared only after the bytes were worked on, so
    that a second full buffer in this time would go unnoticed; C69 assumes there is none.
28. ch32x035 halves: the caller of `keyboard_split_write` ignores its result (keyboard_matrix.c 24), so that an event that finds
    fifteen before it is lost without a trace (C68_room). Events of keys from 128 on panic (C41_others).
29. ch58x: the bounds of the two loops of the matrix scan are exchanged (matrix/col_to_row.c 68 and 79), so that for a board with
    more rows than columns or fewer every scan reads beyond the end of a table (C71_ch58x_refuted). The one board there is, the
    WABBLE-60, has eight of each.
30. ch58x: between the last scan before sleeping and the clearing of the pins' flags (keyboard.c 20-29) a key press goes unnoticed, and with
    it all other keys of its row, for as long as the key is held (C72_race_refuted). Reading the rows after enabling the
    interrupts would close the gap.
31. ch58x: a report `HidDev_Report` refuses is only tried again with the next report; if the keyboard sleeps, a released key stays pressed
    for the host (C73_refused_refuted). Of two keys pressed within one scan the first report is overwritten before it is sent
    (C73_skipped_refuted), which undoes C08.
32. ch58x: `KEYMAP_TIMEOUT_EVT` is not stopped when the keymap cancels the timeout it was started for. When it comes,
    `keymap_next_event_timeout` skips to whatever is scheduled next: a tap-hold key tapped twice in a row becomes a hold after 80 of 200 ms
    (C74_early_refuted).
33. ch58x: whether the keyboard may sleep is asked of `keymap_requires_polling`, which is about queued events only (C12), not about scheduled ones;
    with a timeout scheduled from a tick (for which no `KEYMAP_TIMEOUT_EVT` is started) it sleeps, and the host keeps seeing
    a key that was released (C74_asleep_refuted).
34. ch58x: ticking and skipping to the next event together move the keymap past the time of an event that is still
    scheduled; `next_event_time - counter` then overflows. A macro of three instructions is enough (C74_macro_refuted). Without overflow checks the result
    is about 2^32 ms, through which `tick_by` ticks.
35. ch58x: a tick every 12 units of 0.625 ms (7.5 ms; the comment next to it says 13) advances the keymap by 8 ms, so that its time
    runs ahead by a fifteenth (the bound in C74_calls_partial). `delta_time_tmos * 625` wraps after 72 minutes of sleep.
36. The validators of tap-hold, tap-dance, layered and chorded keys combine their two results with
    `match { ['Ok, 'Ok] => 'Ok, [err, _] => err, [_, err] => err }`: if the first is `'Ok` and the second an error, the second arm
    gives `'Ok`. So the tap key of a tap-hold key (and the base of a layered key, …) is not validated by the contract `KeymapKey`
    (C77_not_a_key_refuted). Most such values fail later, with an error that does not name the key.
37. Because of 36, a macro under a tap-hold key with a misspelt list (`on_relase`) compiles, and the list is dropped without an error (C75_typo_refuted).
38. The validator of macro keys asks only that there be no other fields than `automation_instructions`, so `{}` is a key for the contract
    (C77_not_a_key_refuted).
39. `mouse_output.rust_expr` (ncl/keymap-codegen.ncl 92-111) computes defaults for the fields that are left out, but then uses the
    fields themselves: a `MouseOutput` in a macro has to give all of the five (`MouseSaid`), although the validator accepts fewer.
40. ch58x: the report map says that a consumer report is two numbers of 16 bits, but the keyboard sends four codes of 8 bits. With one
    code this comes to the same. With two, the host reads one number made of both: it sees neither of them, or another control (C79_consumer_refuted).
41. ch58x: keys from 0x66 on (F13 to F24, international and language keys, …) are out of the range of the report map, so that a host does not see
    them (C79_keyboard_refuted). ch32x035: the same from 0x92 on (C78_keyboard_refuted). All keys with names are in the range (C79_named).
42. Both: the mouse has three buttons for the host, though the keymap has eight, and ch32x035 has no horizontal scroll (C78_mouse_refuted, C79_mouse_refuted). A
    movement by -128, which the sum of two mouse keys can be, is out of the range of the descriptors (C78_move_refuted).
43. ch32x035: `CLEAR_FEATURE(ENDPOINT_HALT)` (ch32x035_usbfs_device.c 633-652) sets the end-point to NAK but does not clear `USBFS_Endp_Busy`. If a report waits
    there, it is lost and the end-point never sends again, until a bus reset; and since the timer waits for all packets to be sent, the keymap is
    not ticked either (C81_halt_refuted). Linux, for one, sends this request after errors on the bus.
44. ch32x035: `SET_CONFIGURATION` does not reset the toggle bits of the end-points (USB 2.0, 9.1.1.5 asks for that). If a host configures a configured device
    again, it may drop the next report as a repetition: a key can stay down (C81_reconfigure_refuted). It also takes any number for a configuration, and
    0 starts the reports like 1.
45. ch32x035: a request for a descriptor with the wrong direction bit makes the device read past the end of the descriptor, and put that into the buffer of end-point 0
    (C80_memory_refuted). `GET_IDLE`, `GET_PROTOCOL` and vendor requests do not limit the length: the host gets what was in the buffer before
    (C80_length_refuted). Both disclose a few bytes to a host that asks in the wrong way; no key press needs that.
46. ch32x035: `GET_REPORT` is refused (C80_getReport_refuted), though HID 1.11, 7.2.1 makes it mandatory. `SET_PROTOCOL` and `SET_IDLE` are stored and
    have no effect.
47. ch32x035, latent: after a descriptor whose length is a multiple of 64 and less than what was asked for, the last, empty packet would not have its toggle bit
    set right. There is no such descriptor (`lookup_le`).
48. ch32x035: the keymap is ticked only when the last report has been fetched. While the computer does not ask for reports (it is asleep, or starts), the keymap
    takes no events; after 32 key events further ones are lost, releases too: when the computer asks again, it is told of the keys typed in the meantime, and a key
    whose release was lost stays pressed until it is pressed and released again (C82_stuck_refuted).
49. `src/keymap.rs` 503-515: when an undecided key becomes another undecided key, the kept events are taken with `queued_events.pop()` and pushed to the back
    of the input queue, which reverses them. With a chord of three keys, the first of which is a tap-hold key otherwise: press the first and the second, release
    the second and the first, all within the timeout. The release of the second key is acted upon before its press, and the key stays pressed (C83_refuted).
50. `keyberon-smart-keyboard/src/input.rs` 36-39: the events of a scan are collected into a `heapless::Vec` of 8, which panics when there are more. Debouncing
    is of the matrix as a whole, so nine switches that change within the same 25 ms stop the firmware (`C88_nine_refuted`).
51. `keyberon-smart-keyboard/src/input.rs`: for the same reason keys pressed within the same 25 ms come in the order of the matrix, not in the order of the
    presses, and one switch that chatters delays all others (`C88_order_refuted`).
52. `rp2040-rtic-smart-keyboard/src/main.rs` 257-267 (and stm32f4): only a waiting keyboard report holds the keymap back. While the consumer end-point is busy
    the keymap goes on, and a release and press in between are lost (`C87_lost_refuted`).
53. `rp2040-rtic-smart-keyboard/src/main.rs` 269-279 (and stm32f4): the result of writing a mouse report is ignored, and it is written also in milliseconds in
    which the keymap does not tick: movements are repeated while a keyboard report waits (`C87_repeats_refuted`), and lost while the mouse end-point is busy
    (`C87_drops_refuted`).
54. `stm32-embassy-smart-keyboard/src/main.rs` 245-259: of the consumer codes only the first is reported. While one consumer key is held, others are not
    reported (`C90_second_refuted`).
55. `stm32-embassy-smart-keyboard/src/main.rs` 213-243: when writing a keyboard report fails the keymap does not tick, but the movement of the mouse is written
    again (`C90_repeats_refuted`); a movement whose report could not be written is lost (`C90_drops_refuted`).
56. `stm32-embassy-smart-keyboard/src/main.rs` 201-260: the loop sleeps for 1 ms and then waits for the host to fetch up to three reports, and scans and ticks
    once in a turn. A tick of the keymap is then longer than a millisecond, so the times of the configuration are too; and a switch that closes and
    opens while the loop waits is not seen. (Not a theorem: durations of `write` are not modelled.)
57. `stm32f4-rtic-smart-keyboard/examples/minif4_36-rev2021_4-lhs.rs` 187-193: what arrives on the wire is given to the keymap unchecked. Four bytes of noise that
    read as a key outside the keymap stop the half with an index out of bounds (`C91_noise_refuted`); so does a half with a keymap of fewer keys.
58. `stm32f4-rtic-smart-keyboard/examples/minif4_36-rev2021_4-lhs.rs` 191: `layout::spawn(..).unwrap()` panics when eight messages wait. Nine key events of the
    other half before `layout` runs stop the half (`C91_nine_refuted`). `layout` waits for the resources of the USB driver only, so this takes long USB interrupts.
59. `stm32f4-rtic-smart-keyboard/examples/minif4_36-rev2021_4-lhs.rs` 219-222, 228: `report_success` is set only while the device is configured. A half whose report
    waits when the computer goes to sleep does not tick its keymap any more (`C91_waits`); key events beyond 31 are then lost.
60. `stm32f4-rtic-smart-keyboard/examples/minif4_36-rev2021_4-lhs.rs` 289-307: `tick` writes each event to the wire and waits for it, about 4 ms at 9600 baud. The
    timer of 1 ms goes on in the meantime, so ticks of the keymap are left out and the times of the configuration are stretched on the half whose keys are
    pressed, not on the other. The two keymaps may also take the events of the two halves in different orders: with layers the halves can be on
    different layers, and only the half that is connected by USB matters. (The orders: C91_halves says no more than a merge. Durations are not modelled.)
61. `stm32-embassy-smart-keyboard/examples/minif4_36-rev2021_5-lhs.rs` 484-493: the reader takes each four bytes for a message. Nothing looks for the 0 at the end of a
    message, as `receive_byte` does on the other firmwares. Once the beginning of a message is lost, for example when the left half is reset or connected while the
    right half sends, all messages are out of step and none is read any more, until another byte is lost or the UART reports an error (`C92_deaf`).
62. `stm32-embassy-smart-keyboard/examples/minif4_36-rev2021_5-lhs.rs` 366-440, 451-453: while the computer does not fetch reports `keyboard_backend` waits in `write`.
    The ticks fill the channel for eight messages in 8 ms. Then the reader waits with the first event it has read, and what the right half sends in the meantime
    is lost: a key released on the right half stays pressed for the computer (`C92_lost_refuted`). If the reader resumes in the middle of a message, item 61 follows.
63. `stm32-embassy-smart-keyboard/examples/minif4_36-rev2021_5-lhs.rs` 451-453: as in item 57, a message of a key outside the keymap stops the left half
    (`C92_noise_refuted`).
64. `src/keymap.rs` 394-404, 522-526 with `src/key/automation.rs` 370-392: while a tap-hold, tap-dance or chord key is undecided, the presses and releases of
    a running macro are put aside with the key events, and handled later, one per tick; a release that is not put aside then overtakes its press, and the key
    stays pressed for ever. No other key need be touched: a 15 ms tap of a tap-hold key during a three-letter macro does it (`C93_stuck_refuted`), and no number of further ticks
    releases the letter (`C93_for_ever_refuted`).
65. The same: the events put aside fill the queue of the undecided key (16). A tap-hold key held for 85 ms while a macro types nine letters stops the keyboard
    (`C63_macro_stops_keyboard`).
66. `ch58x-ble-hid-keyboard-c/keyboard/keyboard_matrix.c`: nothing debounces the switches, and a scan is made every 7.5 ms, at which the keymap takes one event. When the
    switches of two keys bounce for a quarter of a second the queue of 31 events is full, the releases are lost, and both keys stay pressed (`C94_stuck_refuted`).
67. `src/keymap.rs: Keymap::handle_event` with `src/key/automation.rs`: on an RTIC keyboard, with its debouncing and the default durations, a tap-hold key tapped while a
    macro types six letters leaves the sixth letter pressed for the computer (`C96_stuck_refuted`; on a ch32x035 keyboard three letters are enough, `C95_stuck_refuted`; the keymap alone: `C93_stuck_refuted`).
68. `ch58x-ble-hid-keyboard-c/APP/hidkbd.c` 369-373: `KEYMAP_TIMEOUT_EVT` is not started anew while `event_pending` is set, also when the keymap answers an earlier time. After a
    tap of a tap-hold key the first step of a macro is announced for 2 ms later, and the task runs out 168 ms later (`C99_in_time_refuted`); until then only ticks move the macro.
