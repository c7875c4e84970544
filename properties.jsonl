{"id": "C01", "title": "Boot keyboard report layout", "statement": "For every collection of pressed key outputs, as_hid_boot_keyboard_report yields exactly 8 bytes: byte 0 has bit i set iff some pressed output carries modifier i (as a modifier flag or as modifier key code 0xE0+i), byte 1 is 0, and bytes 2..7 are the first six non-zero, non-modifier key codes in press order, padded with 0.", "quantifier": "every list of key outputs (any length up to the 16 keys a keymap can hold), every key code and every modifier byte", "why_tests_cant": "256 codes x 256 modifier bytes x any list of up to 16 outputs", "anchors": ["src/keymap.rs: KeymapOutput::as_hid_boot_keyboard_report, pressed_key_codes", "src/key.rs: KeyboardModifiers::as_byte, KeyOutput"]}
{"id": "C02", "title": "Modifier bytes and modifier key codes are inverse encodings", "statement": "as_byte(from_byte(b)) = b for every byte; as_key_codes lists exactly 0xE0+i for each set bit i in ascending order; from_key_code accepts exactly 0xE0..0xE7; a key output built from usage/code/modifiers has the modifier moved out of the key code field exactly when the code is a modifier code, never losing information.", "quantifier": "every byte value and every key code", "why_tests_cant": "the whole table must hold, tests check a handful of values", "anchors": ["src/key.rs: KeyboardModifiers, KeyOutput::from_usage_with_modifiers, from_key_code"]}
{"id": "C03", "title": "No pressed key code is lost or invented in pressed_key_codes", "statement": "pressed_key_codes is the ascending list of modifier codes of the union of all pressed modifiers, without duplicates, followed by every Keyboard key code in press order; it fits its 24 slot buffer for every keymap state, so nothing is dropped.", "quantifier": "every list of at most 16 pressed outputs", "why_tests_cant": "combinatorial number of pressed sets", "anchors": ["src/keymap.rs: KeymapOutput::pressed_key_codes"]}
{"id": "C04", "title": "Mouse output is the exact combination of the held mouse keys", "statement": "The mouse report is the OR of the held buttons and the exact sum of the held movements/scrolls, with no saturation for any set of up to 16 held mouse keys, and does not depend on the order in which the keys were pressed.", "quantifier": "every list of at most 16 mouse keys and every permutation of it", "why_tests_cant": "order independence and non-saturation quantify over all multisets", "anchors": ["src/key.rs: MouseOutput::combine", "src/key/mouse.rs: Key::key_output", "src/keymap.rs: KeymapOutput::pressed_mouse_output"]}
{"id": "C05", "title": "C report struct carries each output class without cross-talk", "statement": "The C KeymapHidReport holds the boot keyboard report, the first 6 custom codes, the first 4 consumer codes and the mouse report; unused slots are 0; a key of one class never appears in the field of another class.", "quantifier": "every list of pressed key outputs of any mix of classes", "why_tests_cant": "all mixes and lengths", "anchors": ["smart_keymap/src/lib.rs: KeymapHidReport, From<KeymapOutput>", "src/keymap.rs: pressed_consumer_codes, pressed_custom_codes"]}
{"id": "C06", "title": "A report only contains keys that are currently pressed, in press order", "statement": "After any history of updates and sends, what the HID reporter exposes is a prefix of the currently pressed outputs, in press order: a released key never stays in the report, and no key is reported that is not pressed.", "quantifier": "every history of pressed-list updates and report sends", "why_tests_cant": "stuck or phantom keys depend on arbitrary histories", "anchors": ["src/keymap/hid_keyboard_reporter.rs: HIDKeyboardReporter::{update,report_sent,reportable_key_outputs}"]}
{"id": "C07", "title": "Every held key is eventually reported", "statement": "If the pressed outputs stop changing, then after as many report_output calls as there are pressed outputs, the report is the complete pressed list and it stays so.", "quantifier": "every reachable reporter state and every pressed list", "why_tests_cant": "liveness over all histories", "anchors": ["src/keymap/hid_keyboard_reporter.rs", "src/keymap.rs: Keymap::report_output"]}
{"id": "C08", "title": "New keys are revealed to the host gradually", "statement": "Between two consecutive sent reports, where the pressed list changed by releasing some keys and appending new presses, the new report contains at most one key that the previous report did not contain. (The documented purpose of the reporter.)", "quantifier": "every pressed list, every set of releases and appended presses between two reports", "why_tests_cant": "the rate limit must hold for any batch of changes between reports", "anchors": ["src/keymap/hid_keyboard_reporter.rs: HIDKeyboardReporter doc comment, update, report_sent"]}
{"id": "C09", "title": "Scheduled events never fire early and fire in time order, one per tick", "statement": "An event scheduled with delay d is handed out only when at least d milliseconds of ticks have elapsed since scheduling; events with different due times are handed out in due-time order; one tick hands out at most one scheduled event.", "quantifier": "every interleaving of schedule, cancel, tick and dequeue calls, every delay, every tie-breaking of the sorted insert allowed by binary_search_by", "why_tests_cant": "arbitrary schedules; the tie-breaking is unspecified by the standard library", "anchors": ["src/keymap/event_scheduler.rs: EventScheduler::{schedule_after,tick,dequeue}"]}
{"id": "C10", "title": "No scheduled event is lost or duplicated; cancelled ones never fire", "statement": "Every scheduled, non-cancelled event is handed out exactly once, within a number of ticks bounded by its delay plus the number of events queued ahead of it; an event cancelled before it is due is never handed out; cancelling one key's events never affects another key's or an input event.", "quantifier": "every scheduler state, every event, every cancel pattern", "why_tests_cant": "conservation over all interleavings", "anchors": ["src/keymap/event_scheduler.rs: cancel_events_for_keymap_index, tick, dequeue"]}
{"id": "C11", "title": "next_event_timeout is a safe sleep bound", "statement": "The value returned by keymap_next_event_timeout / next_event_time is the time to the earliest due event: sleeping that long never oversleeps an event, and it is never 0 when nothing needs processing.", "quantifier": "every reachable scheduler state", "why_tests_cant": "depends on the coincidence of due times", "anchors": ["src/keymap/event_scheduler.rs: next_event_time", "smart_keymap/src/lib.rs: keymap_next_event_timeout"]}
{"id": "C12", "title": "No immediate work is left behind by an API call", "statement": "When handle_input, tick, report_output, handle_input_after_time or tick_to_next_scheduled_event returns, every immediate event produced during the call has been handled; consequently requires_polling() is true iff an input event is still queued.", "quantifier": "every keymap over every key system, every sequence of API calls", "why_tests_cant": "cascades of events are unbounded in depth", "anchors": ["src/keymap.rs: handle_pending_events, handle_input, tick, requires_polling"]}
{"id": "C13", "title": "A physical key is down at most once", "statement": "At every API boundary, at most one pressed entry exists per keymap index, and the key awaiting resolution (if any) is not also among the pressed ones; repeated press events for a held key are ignored.", "quantifier": "every sequence of API calls, including duplicated or unmatched press/release events", "why_tests_cant": "depends on all histories of duplicated/missing events and nested resolutions", "anchors": ["src/keymap.rs: process_input, has_pressed_input_with_keymap_index, resolve_pending_key_state"]}
{"id": "C14", "title": "Input events are processed in arrival order, none lost below capacity", "statement": "Input events are taken from the queue in arrival order, at most one per tick (plus one directly in handle_input when idle); an event is ignored only if 31 events are already waiting; none is duplicated.", "quantifier": "every sequence of handle_input and tick calls for keymaps where no key defers input", "why_tests_cant": "FIFO over unbounded histories and the full-queue boundary", "anchors": ["src/keymap.rs: handle_input, tick, INPUT_QUEUE_TICK_DELAY, MAX_QUEUED_INPUT_EVENTS"]}
{"id": "C15", "title": "Releasing a key removes it from the output", "statement": "Once the release of keymap index i has been processed (no key pending), no pressed entry for i remains, and no other pressed physical key is affected by it.", "quantifier": "every reachable keymap state, every index", "why_tests_cant": "stuck keys depend on the whole history", "anchors": ["src/keymap.rs: process_input"]}
{"id": "C16", "title": "A keymap of plain keys behaves as the list of held keys", "statement": "For a keymap whose keys are keyboard, consumer, custom and mouse keys: after any sequence of in-range key events and enough ticks to drain the queue, the pressed outputs are exactly the outputs of the keys held according to the event history, in press order; no call panics while at most 16 keys are held and at most 31 events wait.", "quantifier": "every keymap data of such keys, every event history", "why_tests_cant": "functional correctness over unbounded histories", "anchors": ["src/keymap.rs: Keymap", "src/key/composite.rs", "src/key/keyboard.rs", "src/key/consumer.rs", "src/key/custom.rs", "src/key/mouse.rs"]}
{"id": "C17", "title": "A held key keeps its output", "statement": "Once a physical key has been resolved, the key it resolved to is fixed until it is released: later layer changes, other presses, timeouts or virtual events do not change a held keyboard, consumer, custom or mouse key's output.", "quantifier": "every reachable state, every later event sequence not containing the key's release", "why_tests_cant": "arbitrary interleavings with layer changes", "anchors": ["src/keymap.rs: handle_event, process_input", "src/key/composite.rs: update_state"]}
{"id": "C18", "title": "Typing order is preserved while a key is being decided", "statement": "Input events that arrive while a tap-hold, tap-dance or chorded key is undecided are processed afterwards in their arrival order, before events that arrived later.", "quantifier": "every pending key and every list of events buffered while it is undecided", "why_tests_cant": "re-queuing order depends on nested pending resolutions", "anchors": ["src/keymap.rs: resolve_pending_key_state, update_pending_state"]}
{"id": "C19", "title": "Callbacks fire exactly once per press of a callback key", "statement": "Pressing a callback key invokes the function registered last for that callback exactly once during the call that processes the press; unregistered callbacks invoke nothing; other keys never invoke a callback.", "quantifier": "every registration history and every callback id", "why_tests_cant": "exactly-once over re-entrancy", "anchors": ["src/keymap.rs: set_callback, handle_event", "src/key/callback.rs"]}
{"id": "C20", "title": "Holding more keys than the documented limits", "statement": "API calls never panic for a keymap of plain keys as long as at most 16 keys are held; the 17th simultaneously held key panics.", "quantifier": "every history with at most 16 held keys; the 17-key history", "why_tests_cant": "panic freedom over all histories", "anchors": ["src/keymap.rs: MAX_PRESSED_KEYS, process_input"]}
{"id": "C21", "title": "A single event never produces more follow-up events than fit", "statement": "The context's reaction to an event, and any key's reaction, produce at most MAX_KEY_EVENTS follow-up events, so the push().unwrap() calls in KeyEvents never panic.", "quantifier": "every composite context state, every event", "why_tests_cant": "all combinations of simultaneously reacting subsystems", "anchors": ["src/key.rs: KeyEvents, MAX_KEY_EVENTS", "src/key/composite.rs: Context::handle_event"]}
{"id": "C22", "title": "Tap-hold decision rule", "statement": "For each interrupt response, a pending tap-hold key decides hold iff, before its own release, the timeout fired or (HoldOnKeyPress) another key was pressed or (HoldOnKeyTap) another key was pressed and released; it decides tap iff its own release came first; it decides exactly once.", "quantifier": "every sequence of input and timeout events", "why_tests_cant": "all interleavings of other keys' events", "anchors": ["src/key/tap_hold.rs: PendingKeyState::handle_event, hold_resolution"]}
{"id": "C23", "title": "Tap-hold timing end to end", "statement": "For every timeout T and tick length m: a tap-hold key pressed on a settled keyboard shows nothing while k*m < T after k ticks, shows its hold key from the first tick with k*m >= T until it is released, and then nothing. Released before that (T longer than one tick, if no tick passed at all), it shows its tap key: at once if at least one tick has passed, at the second tick otherwise; and the tap key is gone two ticks (one tick) later. If the hold key switches on a layer, the next key pressed is the key of that layer. All of this whatever other plain keys are held and whatever happened before.", "quantifier": "every timeout, tick length, tap key and hold key, every number of ticks, every layout of plain, layer and tap-hold keys, every earlier history", "why_tests_cant": "the boundary must be right for every timeout value", "anchors": ["src/keymap.rs: tick, handle_input", "src/key/tap_hold.rs: new_pressed_key", "src/keymap/event_scheduler.rs"]}
{"id": "C24", "title": "Tap-hold required idle time", "statement": "With required_idle_time = r, a tap-hold key pressed less than r ms after the previous input event resolves immediately to its tap key; otherwise (or with no requirement) it waits for the decision. The idle time is that at the beginning of the last tick: k ticks after the previous event it counts (k-1) ticks.", "quantifier": "every idle time, every r, every number of ticks since the last event", "why_tests_cant": "boundary over all values", "anchors": ["src/key/tap_hold.rs: new_pressed_key", "src/keymap.rs: idle_time"]}
{"id": "C25", "title": "Tap-dance selects the key by number of taps", "statement": "A tap-dance key with n >= 1 definitions resolves to definition min(k, n-1) where k is the number of additional presses before the timeout after the last press; it resolves immediately once the last definition is reached.", "quantifier": "every n, every event sequence", "why_tests_cant": "all interleavings of presses, releases, stale timeouts", "anchors": ["src/key/tap_dance.rs: update_pending_state, PendingKeyState::handle_event"]}
{"id": "C26", "title": "Tap-dance ignores stale timeouts", "statement": "A timeout scheduled before the most recent press never resolves the tap-dance; only the timeout of the latest press does.", "quantifier": "every event sequence", "why_tests_cant": "races between timeouts and presses", "anchors": ["src/key/tap_dance.rs: PendingKeyState::handle_event"]}
{"id": "C27", "title": "Layer lookup: highest active layer wins, transparent falls through", "statement": "A layered key resolves to the key of the highest active layer that defines one; if none of the active layers defines one, the default layer's key if set and defined, else the base key.", "quantifier": "every set of active layers, default layer and layered key definition", "why_tests_cant": "2^layers combinations", "anchors": ["src/key/layered.rs: LayeredKey::highest_active_key, Layers::highest_active_key"]}
{"id": "C28", "title": "Layer modifier keys act exactly on the layers they name", "statement": "Hold activates its layer while held; Toggle flips exactly its layer (pressing twice restores the state); SetActiveLayers makes exactly the named layers (1..min(L,31)) active; Default sets only the default layer; none affects other layers.", "quantifier": "every layer state, every layer number, every bitset", "why_tests_cant": "all layer sets and histories", "anchors": ["src/key/layered.rs: Context::handle_layer_event, ModifierKey, ModifierKeyState"]}
{"id": "C29", "title": "Sticky layer applies to exactly the next key", "statement": "A tapped sticky layer stays active until the next key pressed is released or another key is pressed, then is inactive; a sticky layer key interrupted while held acts like a hold layer.", "quantifier": "every event sequence after a sticky layer tap", "why_tests_cant": "all interleavings", "anchors": ["src/key/layered.rs: Context::handle_event, ModifierKeyState::handle_event"]}
{"id": "C30", "title": "Sticky modifiers are released exactly when they were pressed", "statement": "Every modifier virtually pressed by tapping sticky keys is virtually released exactly once when the modified key is released (or the next key is pressed, per config), for up to 4 stacked sticky modifiers; no modifier stays down.", "quantifier": "every history of sticky taps and key events", "why_tests_cant": "balance over unbounded histories, including more than 4 stacked keys", "anchors": ["src/key/sticky.rs: Context::handle_event, KeyState::update_state"]}
{"id": "C31", "title": "Sticky key: tapped means one-shot, interrupted means regular modifier", "statement": "A sticky modifier key released before any other key resolves becomes a one-shot modifier; if another key resolves while it is held it acts as an ordinary modifier until released and leaves nothing behind.", "quantifier": "every event sequence while the sticky key is held", "why_tests_cant": "all interleavings", "anchors": ["src/key/sticky.rs: KeyState::update_state, key_output"]}
{"id": "C32", "title": "Caps word ends exactly on non-word keys", "statement": "While caps word is active, it stays active for letters, unshifted digits, backspace, delete, unshifted minus/underscore key and shift, and ends on every other key code; checked for all 256 codes and all modifier bytes.", "quantifier": "all key codes x all modifier bytes", "why_tests_cant": "the table has 65536 entries", "anchors": ["src/key/caps_word.rs: Context::handle_event"]}
{"id": "C33", "title": "Caps word leaves shift balanced", "statement": "Whatever sequence of keys and caps-word toggles occurs, the virtual shift is pressed iff caps word is active: each activation presses it once, each deactivation releases it once.", "quantifier": "every event history", "why_tests_cant": "balance over unbounded histories", "anchors": ["src/key/caps_word.rs: Context::handle_event, Key::new_pressed_key"]}
{"id": "C34", "title": "Macros run to completion, in order, one at a time", "statement": "Every queued automation execution runs all its instructions exactly once in order; executions run in the order they were queued and never interleave.", "quantifier": "every instruction table, every list of queued executions, every state of the execution queue", "why_tests_cant": "all program lengths and queue states", "anchors": ["src/key/automation.rs: Context::{enqueue,execute_head,handle_event}, KeyInstructions"]}
{"id": "C35", "title": "The macro queue is bounded and never corrupted", "statement": "At most 8 executions are queued; the queue is always compact (no gap before a queued execution); requests beyond capacity and empty requests are ignored without disturbing queued ones.", "quantifier": "every history of automation events", "why_tests_cant": "invariant over unbounded histories", "anchors": ["src/key/automation.rs: EXECUTION_QUEUE_SIZE, enqueue, execute_head"]}
{"id": "C36", "title": "A macro presses and releases what it says", "statement": "For a string macro (on_press = list of taps) the virtual key events emitted are exactly press/release of each character in order, each press followed by its release before the next press.", "quantifier": "every list of taps and every instruction duration", "why_tests_cant": "every string", "anchors": ["src/key/automation.rs: KeyInstructions, key_events_for", "src/keymap/event_scheduler.rs"]}
{"id": "C37", "title": "A chord fires only if all of its keys were pressed", "statement": "Whenever a pending chorded or auxiliary key resolves to chord c, every index of chord c was pressed during the pending period, and no chord key fires otherwise.", "quantifier": "every chord table, every event sequence", "why_tests_cant": "all press orders and overlapping chord tables", "anchors": ["src/key/chorded.rs: PendingKeyState::{handle_event,check_resolution}"]}
{"id": "C38", "title": "A chord fires for every order of pressing its keys", "statement": "For every chord and every order of pressing its keys within the timeout (no other key), the pending key resolves to that chord, at the last press if it is the only possible chord, otherwise at timeout/own release.", "quantifier": "every chord, every permutation of its keys, every overlapping chord table", "why_tests_cant": "permutations", "anchors": ["src/key/chorded.rs: PendingKeyState::handle_event"]}
{"id": "C39", "title": "Without a chord, chorded keys pass through", "statement": "If the timeout fires or the key is released before any chord is complete, or a key outside of every possible chord is pressed, the pending key resolves to its passthrough key.", "quantifier": "every chord table and event sequence", "why_tests_cant": "all interleavings", "anchors": ["src/key/chorded.rs: PendingKeyState::handle_event, Key::update_pending_state, AuxiliaryKey"]}
{"id": "C40", "title": "Ordinary typing never overflows chord bookkeeping", "statement": "In a keymap with chords, holding any number of keys (up to the 16 supported) never panics in the chord bookkeeping.", "quantifier": "every set of held keys and press order", "why_tests_cant": "depends on press order and table sizes", "anchors": ["src/key/chorded.rs: Context::{press_index,insert_pressed_index,pressed_chords_indices_span}", "src/key/composite.rs: CHORDED_MAX_PRESSED_INDICES"]}
{"id": "C41", "title": "Split messages round-trip", "statement": "deserialize(serialize(m)) = m for every physical key event with index < 128, and the encoding is exactly the 4 byte buffer; other messages cannot be serialized.", "quantifier": "every message", "why_tests_cant": "every index", "anchors": ["src/split.rs: Message::{serialize,deserialize}, BUFFER_SIZE"]}
{"id": "C42", "title": "A split receiver decodes any stream of messages from any starting state", "statement": "Feeding the serialized bytes of any list of messages to receive_byte, from any receive buffer contents, yields exactly those messages in order, each at its 4th byte, and nothing else after synchronization.", "quantifier": "every message list, every initial buffer", "why_tests_cant": "unbounded streams, arbitrary initial garbage", "anchors": ["src/split.rs: receive_byte", "smart_keymap/src/lib.rs: keymap_message_buffer_receive_byte"]}
{"id": "C43", "title": "Bytes from the wire never produce virtual key events", "statement": "For every byte sequence fed to receive_byte, the events obtained are physical press/release events, so the C API conversion of received events never hits its todo!() branch.", "quantifier": "every byte sequence", "why_tests_cant": "arbitrary line noise", "anchors": ["src/split.rs: receive_byte", "smart_keymap/src/lib.rs: KeymapInputEvent conversions"]}
{"id": "C44", "title": "init() restores the initial behaviour", "statement": "After Keymap::init, the keymap behaves as freshly constructed: no pressed keys, no pending key, no queued or scheduled events, and the same reactions to later events.", "quantifier": "every reachable state", "why_tests_cant": "all states before the reset", "anchors": ["src/keymap.rs: Keymap::init", "src/keymap/event_scheduler.rs: init"]}
{"id": "C45", "title": "Every API call returns", "statement": "If key references are acyclic, every handle_input and tick call terminates: the cascade of immediate events is finite, whatever macros or nested keys are configured.", "quantifier": "every keymap data with acyclic references, every reachable state", "why_tests_cant": "non-termination cannot be observed by a test", "anchors": ["src/keymap.rs: process_input, handle_pending_events, update_pending_state"]}
{"id": "C46", "title": "Idle ticks change nothing", "statement": "If no input is queued and no scheduled event is due within d ms, then ticking d ms changes neither the pressed outputs, nor the pending key, nor layers or any other key state other than clocks: event-driven firmware may skip those ticks.", "quantifier": "every reachable state, every d", "why_tests_cant": "every state and every duration", "anchors": ["src/keymap.rs: tick, tick_by, handle_input_after_time, tick_to_next_scheduled_event"]}
{"id": "C47", "title": "Idle time is the time since the last input", "statement": "The idle time seen by keys (required_idle_time) equals the milliseconds ticked since the last handle_input call.", "quantifier": "every sequence of handle_input and tick calls", "why_tests_cant": "unbounded histories", "anchors": ["src/keymap.rs: handle_input, tick, idle_time, set_keymap_context"]}
{"id": "C48", "title": "Virtual keys are counted, not deduplicated", "statement": "Every virtual key press adds one entry and every virtual release removes exactly one equal entry, so n presses followed by n releases of the same virtual key leave the pressed list unchanged, and a virtual release never removes a physical key.", "quantifier": "every state and virtual key", "why_tests_cant": "histories", "anchors": ["src/keymap.rs: process_input"]}
{"id": "C49", "title": "Distinct report history has no consecutive duplicates", "statement": "DistinctReports never stores two consecutive equal reports, always starts with the empty report, and loses no change: dropping consecutive duplicates is its only effect.", "quantifier": "every sequence of reports", "why_tests_cant": "every sequence", "anchors": ["src/keymap/distinct_reports.rs: DistinctReports::update, eq"]}
{"id": "C50", "title": "Change flag of the keyboard backend", "statement": "KeyboardBackend::tick reports 'changed' iff the pressed outputs it will report differ from the ones of the previous tick, so that sending only changed outputs leaves the host with the current output; the keymap receives exactly the events and ticks; every position of the layout gives the events of its key, or none.", "quantifier": "every event and layout", "why_tests_cant": "all layouts and histories", "anchors": ["keyberon-smart-keyboard/src/input/smart_keymap.rs: KeyboardBackend", "keyberon-smart-keyboard/src/matrix.rs"]}
{"id": "C51", "title": "Slices keep what fits", "statement": "Slice::from_slice(s) holds exactly the elements of s in order, up to its capacity, and panics exactly when s is longer than the capacity.", "quantifier": "every element list and capacity", "why_tests_cant": "every length", "anchors": ["src/slice.rs: Slice"]}
{"id": "C52", "title": "Ticking by milliseconds", "statement": "handle_input_after_time(d, e) and tick_by(d) advance the keymap clock by exactly d ms for every d.", "quantifier": "every d and ms_per_tick", "why_tests_cant": "division rounding over all values", "anchors": ["src/keymap.rs: tick_by, handle_input_after_time, set_ms_per_tick"]}
{"id": "C53", "title": "Debouncing (ch32x035 firmware)", "statement": "A key's event is registered exactly when six consecutive raw scans agree and differ from the key's last reported state; shorter glitches give no event; each key's events are press, release, press, ... and keys do not affect each other.", "quantifier": "every sequence of raw scans of any number of keys", "why_tests_cant": "unbounded bounce patterns", "anchors": ["firmware/ch32x035-usb-device-compositekm-c/keyboard/keyboard_matrix.c: keyboard_matrix_scan"]}
{"id": "C54", "title": "Count of pressed keys (ch58x firmware)", "statement": "After any scans of at most 255 keys, keyboard_matrix_pressed_keys_count() is the number of closed switches of the last scan, and each scan reports exactly the keys whose state changed.", "quantifier": "every sequence of scans", "why_tests_cant": "an increment/decrement counter must not drift over any history", "anchors": ["firmware/ch58x-ble-hid-keyboard-c/keyboard/keyboard_matrix.c: keyboard_matrix_scan, keyboard_matrix_pressed_keys_count"]}
{"id": "C55", "title": "Matrix scan finds exactly the closed switches", "statement": "Matrix::get returns exactly the closed switches for every combination of closed switches (with diodes), because only one row is low at a time, and leaves all rows high, so the next scan is exact, too.", "quantifier": "every set of closed switches, every matrix size", "why_tests_cant": "2^(rows*cols) combinations and repeated scans", "anchors": ["keyberon-smart-keyboard/src/matrix.rs: Matrix::{new,clear,get,is_boot_key_pressed}"]}
{"id": "C56", "title": "has_scheduled_events tells when ticking is needed", "statement": "If has_scheduled_events() is false, then until the next input nothing observable changes however often tick() is called: the pressed outputs, the undecided key, the callbacks called stay as they are, and it stays false. It is true exactly when an input event waits in the queue or a timer runs. ObservedKeymap::tick_until_no_scheduled_events ticks until the first moment when it is false.", "quantifier": "every reachable keymap state, every number of ticks", "why_tests_cant": "a firmware that sleeps when this is false loses events if any history leads to a state where it is wrong", "anchors": ["src/keymap.rs: Keymap::has_scheduled_events, Keymap::tick", "src/keymap/observed_keymap.rs: ObservedKeymap::tick_until_no_scheduled_events"]}
{"id": "C57", "title": "Macros keep their pace and a macro key asks for the right macros", "statement": "After each instruction of a macro the next one follows after the time the instruction takes: for a wait its own argument, for all others the configured instruction duration. Pressing a macro key asks for its on_press macro (its while_pressed macro if on_press is empty); whenever one of its macros has finished while it is held, it asks for while_pressed; releasing it asks for on_release; nothing else makes it ask.", "quantifier": "every instruction table, queue content, event", "why_tests_cant": "the pace must hold for every instruction at every place of every macro and whatever is queued behind it", "anchors": ["src/key/automation.rs: key_events_for, Context::execute_head, System::new_pressed_key, System::update_state"]}
{"id": "C58", "title": "The compiled keymap says what the source says", "statement": "For every keymap source that compiles, KEY_REFS has one reference for each position of the base layer, and each reference leads, through the generated tables, to exactly the keys written for that position: the key of the base layer alone if no layer has another key there, otherwise a layered key with the keys of all layers in order and transparent keys left out; chorded keys with exactly the chords whose first position it is, auxiliary keys for the other members; modifier records become their bits, layer lists their sets (if no layer is listed twice), macros their own instructions. Settings and chord positions are those of the source.", "quantifier": "every keymap source: any number of layers, positions, chords, any nesting of keys", "why_tests_cant": "the tables are built by threading accumulators through arbitrarily nested keys; an index off by one in any table shows only in some keymaps", "anchors": ["ncl/keymap-ncl-to-json.ncl: layered_keys, chorded_keys, json_keymap", "ncl/keymap-codegen.ncl: key_data_and_refs, init", "ncl/smart_keys/*/keymap-ncl-to-json.ncl: to_json_value, map_accum", "ncl/smart_keys/*/keymap-codegen.ncl: data_and_ref"]}
{"id": "C59", "title": "Generated key tables are sound", "statement": "In a compiled keymap every reference that can be reached from a position has its table entry, no key refers back to itself (so every call of the firmware ends), every layered key has one place for each layer, and the chord arrays have room for every chord.", "quantifier": "every keymap source that compiles", "why_tests_cant": "must hold for every nesting of keys; a missing entry is a panic when the key is pressed", "anchors": ["ncl/keymap-codegen.ncl: key_data_and_refs, max_layered_lengths, max_chord_size, max_overlapping_chord_size", "src/key/layered.rs: LayeredKey::new", "src/key/chorded.rs: Key::new"]}
{"id": "C60", "title": "From the keymap source to the reports", "statement": "For a keymap source of plain keys and layer keys, of tap-hold keys, tap-dance keys, sticky layer keys or chords as well, or of sticky modifiers, caps word and strings, the firmware built from it does, for every history of key events and ticks, what the keyboard described by the source does: the same outputs in the same order, with the settings of the source.", "quantifier": "every such source, every history of key events, ticks and reports", "why_tests_cant": "composition of the compiler with the firmware over all sources and all histories", "anchors": ["ncl/keymap-ncl-to-json.ncl", "ncl/keymap-codegen.ncl", "src/keymap.rs: Keymap"]}
{"id": "C61", "title": "Well-formed keymaps compile", "statement": "A keymap source in which no layer is shorter than the base layer, no base key is transparent, chords have positions and layer sets are proper sets compiles, whatever keys are nested in it.", "quantifier": "every keymap source", "why_tests_cant": "the compiler's special cases (macro numbering, array sizes) depend on the nesting of keys", "anchors": ["ncl/keymap-ncl-to-json.ncl: json_keymap", "ncl/smart_keys/automation/keymap-ncl-to-json.ncl: transform_keys_to_instructions", "ncl/keymap-codegen.ncl: init"]}
{"id": "C62", "title": "What compiles can be typed on", "statement": "No key of a keymap that compiles panics the firmware when it is pressed, as long as no more keys are held than there is room for.", "quantifier": "every keymap source that compiles, every history of key events and ticks", "why_tests_cant": "a key that panics may be anywhere in any keymap", "anchors": ["ncl/keymap-codegen.ncl: init", "src/key/layered.rs: Context::activate_layer"]}
{"id": "C63", "title": "Only a full buffer stops a keymap", "statement": "A keymap that compiles from a source without mistakes (layer keys name existing layers, mouse buttons are 1 to 8, chords have keys, times fit their fields) never panics for any other reason than a full fixed-size buffer, and every call comes to an end, for any mixture of key kinds.", "quantifier": "every keymap source, every mixture and nesting of keys, every history of calls whose presses are of keys of the keymap and whose clock does not run over", "why_tests_cant": "the unwraps, indexings and subtractions are guarded by facts about the whole history (which key waits, which events are scheduled, which table a reference belongs to)", "anchors": ["src/keymap.rs: Keymap", "src/key/composite.rs: System", "src/key/chorded.rs", "src/key/tap_dance.rs", "src/key/automation.rs", "src/key/layered.rs"]}
{"id": "C64", "title": "String macros type their text", "statement": "A string macro of printable characters compiles, and pressing its key makes a computer with a US keyboard layout, reading the reports of keymap_tick, get exactly the characters of the text, in order, each once (repeated ones too), when the key is pressed while nothing else is being output. A text with any other character does not compile.", "quantifier": "every text, every keymap source of plain, layer, sticky, caps-word and string keys that compiles, every history before the key is pressed, every tick length shorter than an instruction, every initial report buffer", "why_tests_cant": "texts, keymaps and histories are unbounded; the characters pass through the name table, the instruction table, the scheduler, the reporter and the report format", "anchors": ["ncl/smart_keys/automation/lib.ncl: string_to_instructions", "ncl/smart_keys/automation/key-extensions.ncl: string_macro", "ncl/keys.ncl", "src/key/automation.rs: Context", "smart_keymap/src/lib.rs: keymap_tick"]}
{"id": "C65", "title": "A layer written as text is its words", "statement": "A layer written as text has one key for each word between white space, in order, however the text is laid out: the key with that name. A word that is no name is an error. The names are distinct, each is a key that the firmware understands, and a key named by a character types that character: tapping such keys in a compiled keymap types those characters on the computer.", "quantifier": "every text, every list of layers and user-defined names, every sequence of taps", "why_tests_cant": "texts have any white space and any words; the claim goes through all 297 names, the compiler and the firmware", "anchors": ["ncl/keymap-ncl-to-json.ncl: layer_as_array_of_keys", "ncl/keymap-ncl-to-json.ncl: words_from_whitespace_delimited_string", "ncl/keys.ncl", "smart_keymap/src/lib.rs: keymap_tick"]}
{"id": "C66", "title": "Every keyboard and consumer report gets to the USB host", "statement": "On the ch32x035 firmware, the host receives every change of the keyboard report of the keymap, and of the consumer report, once and in order. While the host keeps asking, nothing is kept back: the last report is received as well and the keymap is ticked again. So a computer reads from the reports it receives what it would read from all reports of the keymap.", "quantifier": "every interleaving of the steps of the main loop, timer interrupts, requests of the host, configuration and bus resets; every sequence of reports", "why_tests_cant": "the main loop and two interrupts share seven variables for each end-point; the bugs need an interrupt between two particular instructions", "anchors": ["firmware/ch32x035-usb-device-compositekm-c/app/main.c: main", "firmware/ch32x035-usb-device-compositekm-c/app/usbd_composite_km.c: TIM3_IRQHandler", "firmware/ch32x035-usb-device-compositekm-c/app/ch32x035_usbfs_device.c: USBFS_Endp_DataUp, USBFS_IRQHandler"]}
{"id": "C67", "title": "Mouse reports get to the USB host", "statement": "On the ch32x035 firmware, the mouse reports the host receives are reports of the keymap, in order. A mouse report that stays is received by the host, be it a movement, a pressed button or a released one.", "quantifier": "every interleaving of the steps of the main loop, timer interrupts, requests of the host, configuration and bus resets; every sequence of reports", "why_tests_cant": "as for C66; and reports are sent again and again while a mouse key is held, so that what is lost depends on when the key is released", "anchors": ["firmware/ch32x035-usb-device-compositekm-c/app/main.c: main", "firmware/ch32x035-usb-device-compositekm-c/app/usbd_composite_km.c: TIM3_IRQHandler", "firmware/ch32x035-usb-device-compositekm-c/app/ch32x035_usbfs_device.c: USBFS_Endp_DataUp, USBFS_IRQHandler"]}
{"id": "C68", "title": "A split half sends every event it accepts, once and in order", "statement": "On the ch32x035 firmware, the bytes a half sends are the messages of the key events it accepted, in order, none torn or repeated. An event is refused only when fifteen messages are still to be sent. Whatever happened before, all accepted events get sent while the UART works.", "quantifier": "every interleaving of calls of keyboard_split_write (in four steps), DMA transfers of single bytes and transfer-complete interrupts; every sequence of events of keys below 128", "why_tests_cant": "the ring buffer and the busy flag are shared with an interrupt; a lost start of a transfer would show only for particular interleavings", "anchors": ["firmware/ch32x035-usb-device-compositekm-c/keyboard/keyboard_split_tx_dma.c: keyboard_split_write, KEYBOARD_SPLIT_TX_DMA_IRQ_HANDLER", "smart_keymap/src/lib.rs: keymap_serialize_event"]}
{"id": "C69", "title": "A split half gives the keymap exactly the bytes it received", "statement": "On the ch32x035 firmware, the bytes received from the other half are given to the keymap once each and in order, and none stays in a buffer after the line went idle.", "quantifier": "every interleaving of received bytes, idle-line detection and the steps of the two interrupts", "why_tests_cant": "two interrupts swap two buffers under a DMA controller; the races need a byte between two particular instructions", "anchors": ["firmware/ch32x035-usb-device-compositekm-c/keyboard/keyboard_split_rx_dma.c: KEYBOARD_SPLIT_USART_IRQ_HANDLER, KEYBOARD_SPLIT_RX_DMA_IRQ_HANDLER, keymap_split_receive_bytes"]}
{"id": "C70", "title": "Key events of one half reach the keymap of the other", "statement": "On the ch32x035 firmware, the keymap of one half is given the key events accepted on the other half, once each, in order and unchanged, and all of them when both halves run on.", "quantifier": "every interleaving of the steps of both halves and of the bytes on the wire", "why_tests_cant": "joins C68, C69 and the message format; each side has its own races", "anchors": ["firmware/ch32x035-usb-device-compositekm-c/keyboard/keyboard_split_tx_dma.c: keyboard_split_write, KEYBOARD_SPLIT_TX_DMA_IRQ_HANDLER", "firmware/ch32x035-usb-device-compositekm-c/keyboard/keyboard_split_rx_dma.c: KEYBOARD_SPLIT_USART_IRQ_HANDLER, KEYBOARD_SPLIT_RX_DMA_IRQ_HANDLER, keymap_split_receive_bytes", "src/split.rs: Message::serialize, receive_byte"]}
{"id": "C71", "title": "A scan of the switch matrix reads every switch", "statement": "Whatever switches are closed and however they move, each scan of a ch32x035 keyboard after power on ends normally and finds, for each key of the board, whether the switch of that key (and no other, also with many keys held) was closed at some moment during the scan; places without a switch read as not pressed. So each key is debounced by its own switch. The boot loader is started exactly if the first key is held at power on. The same holds for the ch58x. The boards in the repository give every key of their keymap exactly one switch.", "quantifier": "every board whose pins and key indices are distinct, both diode directions, every behaviour of the switches over time (also during a scan), every number of scans", "why_tests_cant": "the result depends on the levels left on the pins by all reads before, and on combinations of closed switches; a test covers one board and a few keys", "anchors": ["firmware/ch32x035-usb-device-compositekm-c/keyboard/matrix/col_to_row.c: keyboard_matrix_scan_raw, keyboard_matrix_init, keyboard_matrix_is_sw_1_1_pressed", "firmware/ch32x035-usb-device-compositekm-c/keyboard/matrix/row_to_col.c: keyboard_matrix_scan_raw", "firmware/ch58x-ble-hid-keyboard-c/keyboard/matrix/col_to_row.c: keyboard_matrix_scan_raw", "firmware/ch32x035-usb-device-compositekm-c/keyboard/ncl/keyboard/keyboard_matrix.ncl: sources.keyboard_matrix", "firmware/ch32x035-usb-device-compositekm-c/ncl/boards: board.keymap_index_for_key", "firmware/ch58x-ble-hid-keyboard-c/ncl/boards: board.keymap_index_for_key"]}
{"id": "C72", "title": "A Bluetooth keyboard does not go deaf", "statement": "Whatever is pressed, released, sent or refused, and however late its tasks run, the ch58x keyboard is at every moment either asleep with interrupts enabled that wake it when a key is pressed, or is going to scan its switches without anything further happening; and it scans only while its pins are configured for that. When the switches stop moving, it knows the state of every one of them two rounds of its event loop later, and how many are closed (which decides whether it may sleep).", "quantifier": "every history of waiting, expiring timers, moving switches and processed events, every keymap, every board of at most 255 keys", "why_tests_cant": "whether a key press is noticed depends on when it falls between scans, timers and the moment of going to sleep; no test can drive the hardware through all interleavings", "anchors": ["firmware/ch58x-ble-hid-keyboard-c/APP/hidkbd.c: HidEmu_ProcessEvent, HidEmu_Wakeup", "firmware/ch58x-ble-hid-keyboard-c/keyboard/keyboard.c: keyboard_await_interrupt, keyboard_start_scanning, GPIOA_IRQHandler, GPIOB_IRQHandler", "firmware/ch58x-ble-hid-keyboard-c/keyboard/keyboard_matrix.c: keyboard_matrix_scan, keyboard_matrix_num_pressed_keys"]}
{"id": "C73", "title": "A Bluetooth keyboard sends the reports the keymap makes", "statement": "The keyboard, mouse and consumer reports the ch58x keyboard hands to the Bluetooth stack are, kind by kind, reports the keymap made, in the order in which it made them. When it has nothing left to do but to send, the host has the newest report of each kind 0.625 ms later, so that no key stays pressed for the host.", "quantifier": "every history of waiting, expiring timers, moving switches and processed events, every keymap", "why_tests_cant": "reports are compared, delayed and sent by separate tasks, whose order depends on timing, and the stack may refuse a report at any time", "anchors": ["firmware/ch58x-ble-hid-keyboard-c/APP/hidkbd.c: HidEmu_ProcessEvent, HidEmu_Wakeup", "firmware/ch58x-ble-hid-keyboard-c/keyboard/keyboard.c: keyboard_await_interrupt, keyboard_start_scanning, GPIOA_IRQHandler, GPIOB_IRQHandler"]}
{"id": "C74", "title": "A Bluetooth keyboard tells the keymap of every change, and of the time", "statement": "The ch58x keyboard calls the keymap so that it is told of every change of a switch its scans see, exactly once and in order, its reports are those it makes in these calls, and the time it is told has passed is the time that has passed: a tap-hold key or a tap-dance key is decided after its time, no earlier, also when the keyboard sleeps in between.", "quantifier": "every history of waiting, expiring timers, moving switches and processed events, every keymap", "why_tests_cant": "time is told in three ways (ticks, the time since the last call, skipping to the next event), and which is used when depends on the whole history", "anchors": ["firmware/ch58x-ble-hid-keyboard-c/APP/hidkbd.c: HidEmu_ProcessEvent, HidEmu_Wakeup", "firmware/ch58x-ble-hid-keyboard-c/keyboard/keyboard.c: keyboard_await_interrupt, keyboard_start_scanning, GPIOA_IRQHandler, GPIOB_IRQHandler", "smart_keymap/src/lib.rs: keymap_register_input_after_ms, keymap_next_event_timeout, keymap_tick, keymap_register_input_event"]}
{"id": "C75", "title": "A keymap file compiles as the keymap it says", "statement": "Every record in a keymap file is how at most one key is written, in whatever order its fields stand. A file in which every value is how a key is written compiles exactly as the keymap with these keys (so the firmware does what C58 and C60 say); every other file is rejected.", "quantifier": "every keymap file: every tree of records, arrays, strings and numbers as a key, any number of layers and chords", "why_tests_cant": "the kind of a key is found by trying fourteen validators in turn on a record which several of them look at, at every level; tests try a few records", "anchors": ["ncl/keymap-ncl-to-json.ncl: json_keymap, key_module_for_value, KeymapKey", "ncl/smart_keys: key_validator, to_json_value, map_accum", "ncl/validators.ncl: record, array, tuple", "ncl/smart_keys: codegen_values, json_validator"]}
{"id": "C76", "title": "keymap.json is read as it was written", "statement": "What the second stage of the compiler reads from the JSON value the first stage writes for a key is the key that was written in the keymap file: no value is taken for a key of another kind or of two kinds, macros are replaced by their places in the list of instructions, and nothing is read from what does not stand for a key.", "quantifier": "every value in a keymap file, every JSON value, every list of instructions before it", "why_tests_cant": "the two stages agree only by convention, through untyped JSON values nested to any depth", "anchors": ["ncl/keymap-codegen.ncl: codegen_modules, smart_key", "ncl/smart_keys: to_json_value, json_validator, codegen_values"]}
{"id": "C77", "title": "The contract of keys accepts keys, and nothing else", "statement": "The contract which every key of a keymap file has to meet is met by every key; a file with a value that does not meet it is rejected, whatever layer it is in; and a value that is not a key does not meet it.", "quantifier": "every value, every keymap file", "why_tests_cant": "the contract is a recursive validator over values of any depth", "anchors": ["ncl/keymap-ncl-to-json.ncl: json_keymap, key_module_for_value, KeymapKey", "ncl/smart_keys: key_validator, to_json_value, map_accum", "ncl/validators.ncl: record, array, tuple"]}
{"id": "C78", "title": "USB hosts read from the reports of the ch32x035 keyboard what the keymap says", "statement": "A host which reads the keyboard, mouse and consumer reports of the ch32x035 keyboard according to the report descriptors the keyboard gives it (HID 1.11) sees exactly the modifiers, the first six keys, the mouse buttons, movement and scroll, and the first four consumer controls which the keymap asks for.", "quantifier": "all combinations of up to 16 outputs, all key codes, all mouse reports, whatever the report was before", "why_tests_cant": "the layout of a report is written down twice, as bytes of a descriptor which only the host interprets, and as code which fills in the report", "anchors": ["firmware/ch32x035-usb-device-compositekm-c/app/usb_desc.c: KeyRepDesc, MouseRepDesc, ConsumerRepDesc", "firmware/ch32x035-usb-device-compositekm-c/app/usbd_composite_km.c: TIM3_IRQHandler", "smart_keymap/src/lib.rs: KeymapHidReport"]}
{"id": "C79", "title": "Bluetooth hosts read from the reports of the ch58x keyboard what the keymap says", "statement": "The same for the ch58x keyboard, its report map and the reports it hands to the Bluetooth stack; and every key that has a name is seen by the hosts of both keyboards.", "quantifier": "all combinations of up to 16 outputs, all key codes, all mouse reports, whatever the report was before", "why_tests_cant": "as for C78; the report map is interpreted by the host only", "anchors": ["firmware/ch58x-ble-hid-keyboard-c/Profile/hidkbdservice.c: hidReportMap", "firmware/ch58x-ble-hid-keyboard-c/APP/hidkbd.c: HidEmu_ProcessEvent", "ncl/hid-usage-keyboard.ncl"]}
{"id": "C80", "title": "A host can enumerate the ch32x035 keyboard", "statement": "Whatever has happened before, including transfers that were broken off and requests that were refused, a USB host gets every descriptor of the ch32x035 keyboard, up to the length it asks for; what the keyboard does not have is refused; an address is obeyed once its transfer has ended; the configuration is stored and can be read back; the output report is received. The descriptors fit each other and the reports. So a bus reset and the usual sequence of requests gives the host the three interfaces and their report descriptors. No request makes the keyboard read past the end of its memory.", "quantifier": "all histories of packets at end-point 0, all lengths asked for, all addresses and configurations", "why_tests_cant": "a host can break off a transfer anywhere and ask for any length; the state of the transfer is kept in a dozen variables which every request changes", "anchors": ["firmware/ch32x035-usb-device-compositekm-c/app/ch32x035_usbfs_device.c: USBFS_IRQHandler, USBFS_Device_Endp_Init", "firmware/ch32x035-usb-device-compositekm-c/app/usb_desc.c: MyDevDescr, MyCfgDescr, MyLangDescr, MyManuInfo, MyProdInfo, MySerNumInfo"]}
{"id": "C81", "title": "What the host asks the ch32x035 keyboard for does not disturb the reports", "statement": "Control transfers, at whatever moment they come, have no effect on the keyboard, mouse and consumer reports, but that the configuration starts them and a bus reset stops them; and the host accepts every report that is sent.", "quantifier": "all histories of the main loop, the timer, the host asking for reports, and packets at end-point 0, interleaved in all ways", "why_tests_cant": "the control transfers write the same registers as the main loop, at moments the host chooses", "anchors": ["firmware/ch32x035-usb-device-compositekm-c/app/ch32x035_usbfs_device.c: USBFS_IRQHandler, USBFS_Endp_DataUp", "firmware/ch32x035-usb-device-compositekm-c/app/main.c: main"]}
{"id": "C82", "title": "The computer takes for pressed the keys whose switches are closed", "statement": "With a keymap of plain keys and layer keys, whatever the switches of the ch32x035 keyboard did before: once they have not moved for sixty scans, and the computer asks for reports, what the computer takes for pressed (reading the reports with the report descriptors) is what the keys whose switches are closed stand for. No key stays pressed when all the switches are open; without layers and with at most six closed switches, a key is taken for pressed exactly if its switch is closed.", "quantifier": "all keymaps of plain keys and layer keys, all histories of the switches, the main loop, the timer and the computer, before which the keyboard has room for the key events", "why_tests_cant": "everything from the debouncing of the switches to the host's reading of the bytes takes part; a key event lost anywhere, in any interleaving, leaves a key stuck", "anchors": ["firmware/ch32x035-usb-device-compositekm-c/app/main.c: main", "firmware/ch32x035-usb-device-compositekm-c/app/usbd_composite_km.c: TIM3_IRQHandler", "firmware/ch32x035-usb-device-compositekm-c/keyboard/keyboard_matrix.c: keyboard_matrix_scan", "smart_keymap/src/lib.rs: keymap_tick, keymap_register_input_event", "src/keymap.rs: Keymap"]}
{"id": "C83", "title": "The keys that count as pressed are those that are down", "statement": "When the keymap has nothing left to do (has_scheduled_events is false), the keys that count as pressed are exactly those whose last event was a press; so when all keys are up, only virtual keys are reported: no key is stuck, whatever kinds of keys the keymap has, and however presses and releases were interleaved with tap-hold, tap-dance and chord decisions. At any other time the same holds for what will be once the waiting events have been taken.", "quantifier": "all keymaps of any kinds of keys, all sequences of calls to the keymap in which no input event is dropped because 31 are waiting", "why_tests_cant": "undecided keys keep the events of other keys and queue them again later, in one of several orders; a release that overtakes its press leaves a key stuck, which needs a particular interleaving of several keys and timeouts", "anchors": ["src/keymap.rs: Keymap::handle_input, Keymap::process_input, Keymap::update_pending_state, Keymap::has_scheduled_events, Keymap::pressed_keys", "src/key/composite.rs: System", "src/key/chorded.rs: System", "src/key/tap_hold.rs: System", "src/key/tap_dance.rs: System"]}
{"id": "C84", "title": "A key never waits for ever", "statement": "While a key is undecided (a tap-hold, tap-dance or chorded key that is neither one thing nor another yet) the timeout that decides it is queued or scheduled, and has not been cancelled. So has_scheduled_events is true as long as a key is undecided, and a firmware that sleeps while it is false never sleeps on an undecided key.", "quantifier": "all keymaps, whatever their keys become, all sequences of calls to the keymap", "why_tests_cant": "timeouts are scheduled, cancelled and scheduled again by every press, release and decision, and go through a queue and a scheduler shared with all other keys", "anchors": ["src/keymap.rs: Keymap", "src/keymap/event_scheduler.rs: EventScheduler", "src/key/tap_hold.rs: new_pressed_key, update_pending_state", "src/key/tap_dance.rs: new_pressed_key, update_pending_state", "src/key/chorded.rs: new_pressed_key, update_pending_state"]}
{"id": "C85", "title": "The keymap comes to rest", "statement": "If no key refers back to itself and no macro is repeated while its key is held, then after any calls enough ticks without input leave nothing scheduled and nothing waiting (has_scheduled_events is false), whichever keys are held and however many macros, undecided keys and waiting events there were; and ticks change nothing any more then. So every undecided key is decided in the end, and when all keys are up, in the end only virtual keys are reported (C83).", "quantifier": "all keymaps without such cycles and macros, all sequences of calls to the keymap, all numbers of ticks from some number on", "why_tests_cant": "events lead to further events: timeouts to decisions, decisions to replayed presses, presses to macros, macros to virtual keys and further instructions; that all of this ends is a statement about all histories", "anchors": ["src/keymap.rs: Keymap::tick, Keymap::handle_event, Keymap::has_scheduled_events", "src/keymap/event_scheduler.rs: EventScheduler", "src/key/automation.rs: Context::handle_event, Context::execute_head", "src/key/composite.rs: System"]}
{"id": "C86", "title": "Rust firmwares: keyboard reports reach the USB driver in order, and none is lost", "statement": "In the RTIC firmwares, the keyboard reports the USB driver accepts are those of the outputs of the keymap at its ticks, in their order; of the same reports in a row there may be fewer or more, and only the last may be waiting. While it waits the keymap does not tick, and the next attempt is with the same report.", "quantifier": "all keymaps, all levels of the switches at each millisecond, all answers of the USB driver (Ok, WouldBlock, Duplicate to a report that is the one accepted last), all histories", "why_tests_cant": "a report is lost or doubled only under particular interleavings of keymap ticks with a busy driver", "anchors": ["rp2040-rtic-smart-keyboard/src/main.rs: tick", "stm32f4-rtic-smart-keyboard/src/main.rs: tick", "keyberon-smart-keyboard/src/input/smart_keymap.rs: KeyboardBackend"]}
{"id": "C87", "title": "Rust firmwares: consumer and mouse reports", "statement": "In the RTIC firmwares, every change of the consumer codes and every movement of the mouse the keymap says reaches the USB driver once, in order; as soon as the driver takes a consumer report, it has the consumer codes of the keymap as they are.", "quantifier": "all keymaps, all levels of the switches at each millisecond, all answers of the USB driver, all histories", "why_tests_cant": "changes are lost or repeated only while an end-point is busy", "anchors": ["rp2040-rtic-smart-keyboard/src/main.rs: tick", "stm32f4-rtic-smart-keyboard/src/main.rs: tick"]}
{"id": "C88", "title": "Rust firmwares: debouncing and events", "statement": "The debounced levels of the switches are those read 26 times in a row last. The events of a scan are the changes of the debounced levels, each switch once: a press for one that is closed now and was not, a release for one that was closed and is not. Events come in the order in which switches change, and the firmware takes any number of changes.", "quantifier": "all sizes of the matrix, all sequences of levels read", "why_tests_cant": "bounces of any number of switches interleave with changes of others", "anchors": ["keyberon-smart-keyboard/src/input.rs: Keyboard::events", "rp2040-rtic-smart-keyboard/src/main.rs: init", "stm32f4-rtic-smart-keyboard/src/main.rs: init", "stm32-embassy-smart-keyboard/src/main.rs: main"]}
{"id": "C89", "title": "Rust firmwares: the last report has the keys whose switches are closed", "statement": "In the RTIC firmwares, on a keymap of plain keys and layers: whatever has happened, when the switches have not moved for 80 ms and keyboard reports do not wait, the report the USB driver has accepted last is that of the outputs of the keymap after the events of the debounced switches, and the keys held are exactly those whose switches are closed. When all switches are open it is the report of no key. Without layers, a key or modifier is in the report exactly if the switch of a place with this key or modifier is closed. With at most sixteen keys the firmware does not stop, as long as no more than eight switches change in one scan.", "quantifier": "all plain keymaps, all layouts of keys in the matrix, all levels of the switches and answers of the driver before, all histories in which at most 31 key events wait", "why_tests_cant": "debouncing, the queue of the keymap, the pace of reports and a driver that is busy combine; a key is stuck only after particular histories", "anchors": ["rp2040-rtic-smart-keyboard/src/main.rs: tick", "stm32f4-rtic-smart-keyboard/src/main.rs: tick", "keyberon-smart-keyboard/src/input.rs: Keyboard::events", "keyberon-smart-keyboard/src/input/smart_keymap.rs: KeyboardBackend, keymap_index_of", "src/keymap.rs: Keymap"]}
{"id": "C90", "title": "Embassy firmware: reports in order, and the last one as the switches are", "statement": "In the embassy firmware the keyboard reports that are written are those of the outputs of the keymap, one for each tick, in order; only the last may be missing, while writing it fails. Each movement and each change of mouse buttons, and each change of a consumer key, is reported once and in order. After a turn of the loop in which writing succeeds the computer knows the mouse buttons and the consumer key as they are. On a keymap of plain keys and layers: when the switches have not moved for 80 turns of the loop in which keyboard reports were written, the last report is that of the outputs of the keymap after the events of the debounced switches, and the keys held are exactly those whose switches are closed.", "quantifier": "all keymaps, all levels of the switches and all results of writing in each turn of the loop, all histories (for the last part: plain keymaps, at most 31 key events waiting)", "why_tests_cant": "changes are lost or repeated only when writing fails, or when several consumer keys are held", "anchors": ["stm32-embassy-smart-keyboard/src/main.rs: main", "keyberon-smart-keyboard/src/input.rs: Keyboard::events", "keyberon-smart-keyboard/src/input/smart_keymap.rs: KeyboardBackend"]}
{"id": "C91", "title": "Split keyboard with RTIC: both halves know the keys of both", "statement": "In the RTIC firmware of a split keyboard each half gives its keymap the key events of its own switches, in their order, and those that arrive from the other half, in theirs, each once and no others; it sends the other half exactly the key events of its own switches, in their order. When all that was sent has arrived, and the switches have not moved for 48 ticks whose reports were accepted, the last report of each half has exactly the keys whose switches are closed, on either half; with all switches open it is the empty report. A half does not stop as long as: fewer than eight messages wait, the bytes that arrive are of keys of the keymap, no more than eight switches change in a scan, no more than sixteen keys are held, no more than 31 key events wait. In the tables of the 36-key keyboard each key is at exactly one place of one half.", "quantifier": "all keymaps (for the last reports: plain keys and layers), all levels of the switches, all interleavings of timer, serial interrupt and message handling, all answers of the USB driver, all bytes on the wire, all histories", "why_tests_cant": "the order of the two halves' events, and which message is handled when, depend on the schedule of the tasks; what is lost depends on how many events come before the handler runs", "anchors": ["stm32f4-rtic-smart-keyboard/examples/minif4_36-rev2021_4-lhs.rs: rx, layout, tick", "stm32f4-rtic-smart-keyboard/examples/minif4_36-rev2021_4-rhs.rs", "stm32f4-rtic-smart-keyboard/src/split/transport.rs: TransportReader, TransportWriter", "src/split.rs: Message, receive_byte", "keyberon-smart-keyboard/src/split.rs: BackendMessage"]}
{"id": "C92", "title": "Split keyboard with embassy: the computer gets the keys of both halves", "statement": "In the embassy firmware of a split keyboard the right half sends exactly the key events of its switches, in their order. The left half gives its keymap the key events of its own switches, in their order, and those it has read from the right half, in theirs, each once and no others; as long as no byte is lost what it has read are the first of those sent, and all of them once all bytes have arrived. The keyboard reports written are those of the outputs of the keymap, in order. When all has arrived and been handled, and the switches have not moved for 48 ticks whose reports were written, the last report has exactly the keys whose switches are closed, on either half; with all switches open it is the empty report. Neither half stops as long as: the messages that arrive are of keys of the keymap, no more than eight switches change in a scan, no more than sixteen keys are held, no more than 31 key events wait. If the first one to three bytes of a message are lost, then as long as no other byte is lost no key event of the right half is read any more.", "quantifier": "all keymaps (for the last reports: plain keys and layers), all levels of the switches, all interleavings of the three tasks and of the bytes of the wire, all results of the writes, all histories", "why_tests_cant": "the order of the two halves' events, which task waits for which, and which byte comes while the reader waits, depend on the schedule of the tasks", "anchors": ["stm32-embassy-smart-keyboard/examples/minif4_36-rev2021_5-lhs.rs: keyboard_matrix_scan, keyboard_split_rx, keyboard_backend, TransportReader", "stm32-embassy-smart-keyboard/examples/minif4_36-rev2021_5-rhs.rs: main", "src/split.rs: Message", "keyberon-smart-keyboard/src/split.rs: BackendMessage"]}
{"id": "C93", "title": "When all keys are up and nothing is left to do, nothing is pressed", "statement": "When the switches of all keys are open, no input event waits and nothing is scheduled, pressed_keys() is empty and the boot report is eight zero bytes: neither a key of the keyboard nor one that a macro or caps-word pressed is left. While caps-word is active its shift alone is left.", "quantifier": "all keymaps, all sequences of calls with presses and releases of keys, at all times", "why_tests_cant": "A key that stays pressed for ever shows after a rare interleaving of a macro, an undecided key and typing; tests try a few timings.", "anchors": ["src/keymap.rs: Keymap::process_input, Keymap::resolve_pending_key_state, Keymap::pressed_keys", "src/key/automation.rs: key_events_for, Context::handle_event", "src/key/caps_word.rs: Context::handle_event", "src/keymap/event_scheduler.rs: EventScheduler::tick"]}
{"id": "C94", "title": "The host of a ch58x keyboard takes for pressed the keys whose switches are closed", "statement": "With a keymap of plain keys, modifiers and layers, once the switches of a ch58x (Bluetooth) keyboard have not moved for 0.42 s, whatever was pressed before and whether or not the keyboard slept in between, the last keyboard report sent, read with the report map, shows the modifiers and the first six keys (of those up to 101) of the keys the keymap holds, which are those whose switches are closed; the last mouse and consumer reports are those of the same keys. When all switches are open, nothing is pressed. It needs that no switch moves in the moment in which the keyboard goes to sleep, that the stack accepts the reports, and that there is room for the key events. With room for the key events and no more than sixteen keys held at a time, the keyboard never stops, whatever its switches and the stack do.", "quantifier": "all plain keymaps, all matrices up to 255 keys, all histories of switches, timers, wake-ups and event processing", "why_tests_cant": "A stuck or missing key shows after a particular interleaving of the interrupt, the scan, the keymap tick and the report tasks; tests have neither the switches nor the host.", "anchors": ["firmware/ch58x-ble-hid-keyboard-c/APP/hidkbd.c: HidEmu_ProcessEvent", "firmware/ch58x-ble-hid-keyboard-c/keyboard/keyboard_matrix.c: keyboard_matrix_scan", "firmware/ch58x-ble-hid-keyboard-c/keyboard/keyboard.c: keyboard_await_interrupt, keyboard_start_scanning", "smart_keymap/src/lib.rs: keymap_register_input_after_ms, keymap_tick, keymap_next_event_timeout", "src/keymap.rs: Keymap::handle_input, Keymap::tick, Keymap::report_output"]}
{"id": "C95", "title": "No key of a ch32x035 keyboard is stuck, with any keys", "statement": "When all switches of a ch32x035 (USB) keyboard are open, then after some time the computer takes no key for pressed, whatever was done with the keyboard before: also with tap-hold keys, tap-dances, chords, layers, caps word and macros, and whichever of them were undecided or under way. While caps word is active, its left shift is the only key.", "quantifier": "all keymaps, all histories of switches, timer interrupts, main loop turns and requests of the computer in which no report is torn and no key event dropped, at all times after some number of scans", "why_tests_cant": "A stuck key shows after a particular history of the switches, the debouncing, undecided keys, macros and the USB transfers; tests have neither the switches nor the computer.", "anchors": ["firmware/ch32x035-usb-device-compositekm-c/app/usbd_composite_km.c: TIM3_IRQHandler", "firmware/ch32x035-usb-device-compositekm-c/keyboard/keyboard_matrix.c: keyboard_matrix_scan", "smart_keymap/src/lib.rs: keymap_register_input_event, keymap_tick", "src/keymap.rs: Keymap::handle_input, Keymap::tick, Keymap::report_output", "src/key/tap_hold.rs", "src/key/automation.rs", "src/key/caps_word.rs"]}
{"id": "C96", "title": "No key of an RTIC or embassy keyboard is stuck, with any keys", "statement": "When all switches of an RTIC (rp2040, stm32f4) or embassy (stm32) keyboard are open, and keyboard reports are taken, then after some time the last keyboard report given to the driver is the one of no key, whatever was done with the keyboard before and however long reports had to wait: also with tap-hold keys, tap-dances, chords, layers, caps word and macros. While caps word is active, its left shift is the only key. The same goes for the consumer reports (and the mouse reports of the embassy firmware) as soon as they are taken.", "quantifier": "all keymaps, all histories of switch levels and answers of the drivers in which no key event is dropped, at all times after some number of scans", "why_tests_cant": "A stuck key shows after a particular history of the switches, the debouncing, reports that wait, undecided keys and macros; tests have neither the switches nor the driver.", "anchors": ["rp2040-rtic-smart-keyboard/src/main.rs: tick", "stm32f4-rtic-smart-keyboard/src/main.rs: tick", "stm32-embassy-smart-keyboard/src/main.rs: main", "src/keymap.rs: Keymap::handle_input, Keymap::tick, Keymap::report_output", "src/key/tap_hold.rs", "src/key/automation.rs", "src/key/caps_word.rs"]}
{"id": "C97", "title": "When a ch58x keyboard sleeps with its keymap at rest, the host takes no key for pressed", "statement": "When a ch58x (Bluetooth) keyboard has nothing left to do, then all its switches are open; and if the keymap has nothing scheduled, the host takes no key for pressed, and the last mouse and consumer reports say that nothing is pressed, whatever was done with the keyboard before: also with tap-hold keys, tap-dances, chords, layers, caps word and macros. While caps word is active, its left shift may still be pressed.", "quantifier": "all keymaps, all histories of switch movements, waiting times and timers in which no key event is dropped, the stack takes every report and no switch moves in the moment in which the keyboard goes to sleep", "why_tests_cant": "A key that is stuck for the host shows after a particular interleaving of switches, timers, sleep and reports; tests run neither the firmware nor the stack.", "anchors": ["firmware/ch58x-ble-hid-keyboard-c/APP/hidkbd.c: HidEmu_ProcessEvent", "firmware/ch58x-ble-hid-keyboard-c/keyboard/keyboard_matrix.c: keyboard_matrix_scan", "firmware/ch58x-ble-hid-keyboard-c/keyboard/keyboard.c: keyboard_await_interrupt, keyboard_start_scanning", "smart_keymap/src/lib.rs: keymap_register_input_after_ms, keymap_tick, keymap_next_event_timeout", "src/key/tap_hold.rs", "src/key/automation.rs", "src/key/caps_word.rs"]}
{"id": "C98", "title": "No key of an RTIC or embassy split keyboard is stuck, with any keys", "statement": "When all switches of both halves of an RTIC or embassy split keyboard are open, the key events of both have arrived and have been handled, and keyboard reports are taken, then after some time the last keyboard report given to the driver of a half (with embassy: of the left half) is the one of no key, whatever was done with the keyboard before, in whatever order events of the two halves came and however long reports had to wait: also with tap-hold keys, tap-dances, chords, layers, caps word and macros. While caps word is active, its left shift is the only key.", "quantifier": "all keymaps, all histories of switch levels, all interleavings of timer, serial line and message handling, all answers of the drivers, in which no key event is dropped and no byte lost, at all times after some number of ticks", "why_tests_cant": "A stuck key shows after a particular interleaving of the events of the two halves with undecided keys, macros and reports that wait; tests have neither the two halves nor the driver.", "anchors": ["stm32f4-rtic-smart-keyboard/examples/minif4_36-rev2021_4-lhs.rs: rx, layout, tick", "stm32f4-rtic-smart-keyboard/examples/minif4_36-rev2021_4-rhs.rs", "stm32f4-rtic-smart-keyboard/src/split/transport.rs: TransportReader, TransportWriter", "stm32-embassy-smart-keyboard/examples/minif4_36-rev2021_5-lhs.rs: keyboard_matrix_scan, keyboard_split_rx, keyboard_backend, TransportReader", "stm32-embassy-smart-keyboard/examples/minif4_36-rev2021_5-rhs.rs: main", "src/split.rs: Message, receive_byte", "src/keymap.rs: Keymap::handle_input, Keymap::tick, Keymap::report_output", "src/key/tap_hold.rs", "src/key/automation.rs", "src/key/caps_word.rs"]}
{"id": "C99", "title": "A Bluetooth keyboard comes back to its keymap", "statement": "When a call of the keymap answers that it wants to be called again after some time, the ch58x keyboard calls it again without anything further happening: when the event in which the answer was given has been processed, the task that calls the keymap is due, or runs out after that time, or was already on its way and still is. The keymap is called again no later than it asked.", "quantifier": "every history of waiting, expiring timers, moving switches and processed events, every keymap", "why_tests_cant": "whether the task is on its way is remembered in a flag that is set and cleared in different events; a flag left set would stop all later timeouts, and only after a history that leaves it so", "anchors": ["firmware/ch58x-ble-hid-keyboard-c/APP/hidkbd.c: HidEmu_ProcessEvent", "smart_keymap/src/lib.rs: keymap_register_input_after_ms, keymap_next_event_timeout"]}
