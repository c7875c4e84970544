{
 "claims": [
  {
   "property": "C01",
   "status": "proved",
   "theorems": [
    "Verif.C01_boot_report_layout",
    "Verif.C01_boot_report_length"
   ],
   "note": ""
  },
  {
   "property": "C02",
   "status": "proved",
   "theorems": [
    "Verif.C02_asByte_fromByte",
    "Verif.C02_asKeyCodes",
    "Verif.C02_fromKeyCode",
    "Verif.C02_isModifierKeyCode",
    "Verif.C02_output",
    "Verif.C02_constructors"
   ],
   "note": ""
  },
  {
   "property": "C03",
   "status": "proved",
   "theorems": [
    "Verif.C03_pressed_key_codes"
   ],
   "note": ""
  },
  {
   "property": "C04",
   "status": "proved",
   "theorems": [
    "Verif.C04_mouse_sum",
    "Verif.C04_mouse_order"
   ],
   "note": ""
  },
  {
   "property": "C05",
   "status": "proved",
   "theorems": [
    "Verif.C05_c_report",
    "Verif.C05_c_event_roundtrip",
    "Verif.C05_c_keys",
    "Verif.Comp.C05_c_virtual"
   ],
   "note": ""
  },
  {
   "property": "C06",
   "status": "proved",
   "theorems": [
    "Verif.Reporter.C06_reported_is_prefix",
    "Verif.Reporter.C06_no_stale_key"
   ],
   "note": ""
  },
  {
   "property": "C07",
   "status": "proved",
   "theorems": [
    "Verif.Reporter.C07_eventually_complete"
   ],
   "note": ""
  },
  {
   "property": "C08",
   "status": "partial",
   "theorems": [
    "Verif.Reporter.C08_refuted",
    "Verif.Reporter.C08_new_keys_partial"
   ],
   "note": "C08_full is refuted by a concrete history; C08_new_keys_partial bounds the new keys per report."
  },
  {
   "property": "C09",
   "status": "proved",
   "theorems": [
    "Verif.C09_never_early",
    "Verif.C09_tick",
    "Verif.C09_due_order",
    "Verif.C09_equal_due_not_fifo"
   ],
   "note": ""
  },
  {
   "property": "C10",
   "status": "proved",
   "theorems": [
    "Verif.C10_conservation",
    "Verif.C10_exactly_once",
    "Verif.C10_bounded_delay",
    "Verif.C10_cancelled_never_fires",
    "Verif.C10_cancel_only_own"
   ],
   "note": ""
  },
  {
   "property": "C11",
   "status": "partial",
   "theorems": [
    "Verif.C11_next_event_time_partial",
    "Verif.C11_never_oversleeps",
    "Verif.C11_refuted_zero",
    "Verif.C11_refuted_overflow"
   ],
   "note": "exact for a queue whose first due time is in the future; refuted when two events share a due time."
  },
  {
   "property": "C12",
   "status": "proved",
   "theorems": [
    "Verif.C12_no_immediate_work"
   ],
   "note": ""
  },
  {
   "property": "C13",
   "status": "proved",
   "theorems": [
    "Verif.C13_down_at_most_once",
    "Verif.C13_repeat_ignored"
   ],
   "note": ""
  },
  {
   "property": "C14",
   "status": "proved",
   "theorems": [
    "Verif.C14_handle_input",
    "Verif.C14_tick",
    "Verif.C14_all_processed",
    "Verif.C14_in_order",
    "Verif.C14_none_lost",
    "Verif.Comp.C14_in_order",
    "Verif.Comp.C14_all_processed"
   ],
   "note": ""
  },
  {
   "property": "C15",
   "status": "proved",
   "theorems": [
    "Verif.C15_release_removes",
    "Verif.C15_handle_input",
    "Verif.Comp.C15_release_removes"
   ],
   "note": ""
  },
  {
   "property": "C16",
   "status": "proved",
   "theorems": [
    "Verif.Comp.C16_refines",
    "Verif.Comp.C16_polled",
    "Verif.Comp.C16_history"
   ],
   "note": ""
  },
  {
   "property": "C17",
   "status": "proved",
   "theorems": [
    "Verif.C17_held_key_fixed",
    "Verif.Comp.C17_held_key_output"
   ],
   "note": ""
  },
  {
   "property": "C18",
   "status": "partial",
   "theorems": [
    "Verif.Comp.C18_tap_hold_partial",
    "Verif.Comp.C18_refuted"
   ],
   "note": "holds for keymaps in which only tap-hold keys wait; refuted for tap-dance."
  },
  {
   "property": "C19",
   "status": "proved",
   "theorems": [
    "Verif.Comp.C19_c_callback",
    "Verif.C19_registered_last",
    "Verif.C19_third_callback",
    "Verif.Comp.C19_press",
    "Verif.Comp.C19_handle_input",
    "Verif.Comp.C19_decided",
    "Verif.Comp.C19_tick_pending",
    "Verif.Comp.C19_no_call",
    "Verif.Comp.C19_tick_no_call",
    "Verif.Comp.C19_other_keys_silent"
   ],
   "note": ""
  },
  {
   "property": "C20",
   "status": "proved",
   "theorems": [
    "Verif.Comp.C20_overload",
    "Verif.Comp.C20_sixteen",
    "Verif.Comp.C20_seventeen"
   ],
   "note": ""
  },
  {
   "property": "C21",
   "status": "proved",
   "theorems": [
    "Verif.Automation.C21_automation",
    "Verif.Comp.C21_context",
    "Verif.Comp.C21_press",
    "Verif.Comp.C21_pending",
    "Verif.Comp.C21_state"
   ],
   "note": ""
  },
  {
   "property": "C22",
   "status": "partial",
   "theorems": [
    "Verif.Comp.C22_others",
    "Verif.TapHold.C22_hold",
    "Verif.TapHold.C22_tap",
    "Verif.TapHold.C22_undecided",
    "Verif.TapHold.C22_documented_partial",
    "Verif.TapHold.C22_refuted",
    "Verif.TapHold.C22_key",
    "Verif.Comp.C22_on_press",
    "Verif.Comp.C22_kept"
   ],
   "note": "the decision is characterised exactly; refuted: with \"hold on key tap\" the order press b, press c, release b is missed."
  },
  {
   "property": "C23",
   "status": "proved",
   "theorems": [
    "Verif.Comp.C23_refines",
    "Verif.Comp.C23_hold",
    "Verif.Comp.C23_hold_release",
    "Verif.Comp.C23_tap",
    "Verif.Comp.C23_quick_tap",
    "Verif.Comp.C23_one_tick",
    "Verif.Comp.C23_then"
   ],
   "note": ""
  },
  {
   "property": "C24",
   "status": "proved",
   "theorems": [
    "Verif.TapHold.C24_required_idle",
    "Verif.Comp.C24_impatient",
    "Verif.Comp.C24_idle_ticks"
   ],
   "note": ""
  },
  {
   "property": "C25",
   "status": "proved",
   "theorems": [
    "Verif.Comp.TD.C25_refines",
    "Verif.Comp.TD.C25_held",
    "Verif.Comp.TD.C25_tapped",
    "Verif.Comp.TD.C25_last",
    "Verif.Comp.TD.C25_then",
    "Verif.Comp.C25_others",
    "Verif.TapDance.C25_resolves",
    "Verif.TapDance.C25_undecided",
    "Verif.TapDance.C25_starts"
   ],
   "note": ""
  },
  {
   "property": "C26",
   "status": "proved",
   "theorems": [
    "Verif.TapDance.C26_one_timeout_per_press",
    "Verif.TapDance.C26_stale_timeout"
   ],
   "note": ""
  },
  {
   "property": "C27",
   "status": "proved",
   "theorems": [
    "Verif.Layered.C27_lookup",
    "Verif.Layered.C27_total"
   ],
   "note": ""
  },
  {
   "property": "C28",
   "status": "partial",
   "theorems": [
    "Verif.Layered.C28_press",
    "Verif.Layered.C28_hold_release",
    "Verif.Layered.C28_others_release",
    "Verif.Layered.C28_toggle_twice",
    "Verif.Layered.C28_set_active_layers",
    "Verif.Layered.C28_two_holds_refuted"
   ],
   "note": "holds for one key per layer; refuted for two hold keys of one layer."
  },
  {
   "property": "C29",
   "status": "partial",
   "theorems": [
    "Verif.Layered.C29_press",
    "Verif.Layered.C29_tapped_partial",
    "Verif.Layered.C29_interrupted",
    "Verif.Layered.C29_stacked_refuted",
    "Verif.Comp.C29_refines",
    "Verif.Comp.C29_polled",
    "Verif.Comp.C29_next_key",
    "Verif.Comp.C29_key_after",
    "Verif.Comp.C29_second_key",
    "Verif.Comp.C29_hold",
    "Verif.Comp.C29_hold_released"
   ],
   "note": "proved end to end (C29_refines: every layout of plain, layer and sticky layer keys; C29_next_key, C29_key_after, C29_second_key, C29_hold, C29_hold_released) for one sticky layer key at a time; refuted for stacked sticky layers."
  },
  {
   "property": "C30",
   "status": "partial",
   "theorems": [
    "Verif.Sticky.C30_total",
    "Verif.Sticky.C30_balance_partial",
    "Verif.Sticky.C30_when",
    "Verif.Sticky.C30_fifth_refuted",
    "Verif.Sticky.C30_roll_refuted",
    "Verif.Comp.C30_refines",
    "Verif.Comp.C30_polled",
    "Verif.Comp.C30_held_partial",
    "Verif.Comp.C30_nothing_left_partial",
    "Verif.Comp.C30_one_shot"
   ],
   "note": "end to end (C30_refines) and balance for at most four sticky modifiers; refuted for a fifth and for rolling from a modified key to the next."
  },
  {
   "property": "C31",
   "status": "proved",
   "theorems": [
    "Verif.Sticky.C31_tapped",
    "Verif.Sticky.C31_interrupted",
    "Verif.Comp.C31_keyboard"
   ],
   "note": ""
  },
  {
   "property": "C32",
   "status": "proved",
   "theorems": [
    "Verif.CapsWord.C32_word_keys",
    "Verif.CapsWord.C32_other_usages",
    "Verif.CapsWord.C32_only_keys"
   ],
   "note": ""
  },
  {
   "property": "C33",
   "status": "proved",
   "theorems": [
    "Verif.CapsWord.C33_key",
    "Verif.CapsWord.C33_balance",
    "Verif.Comp.C33_keyboard"
   ],
   "note": ""
  },
  {
   "property": "C34",
   "status": "partial",
   "theorems": [
    "Verif.Automation.C34_order",
    "Verif.Automation.C34_one_token",
    "Verif.Automation.C34_total",
    "Verif.Automation.C34_stall_refuted",
    "Verif.Comp.C34_letters",
    "Verif.Comp.C34_finishes",
    "Verif.Comp.C34_room_partial"
   ],
   "note": "C34_order, C34_one_token and C34_total hold for every event history of the macro context; C34_letters, C34_finishes and C34_room_partial are end to end for keymaps of plain, layer, sticky modifier, caps word and string keys. Refuted (stall) when a tap-hold key waits while a macro of its own runs."
  },
  {
   "property": "C35",
   "status": "proved",
   "theorems": [
    "Verif.Automation.C35_enqueue",
    "Verif.Automation.C35_reachable"
   ],
   "note": ""
  },
  {
   "property": "C36",
   "status": "partial",
   "theorems": [
    "Verif.Automation.C36_stuck_refuted",
    "Verif.Automation.C36_double_letter_refuted",
    "Verif.Comp.C36_refines",
    "Verif.Comp.C36_held_partial",
    "Verif.Comp.C36_each_letter_partial",
    "Verif.Comp.C36_alone",
    "Verif.Comp.C36_overlap_refuted",
    "Verif.Comp.C36_unseen_refuted"
   ],
   "note": "C36_alone, C36_each_letter_partial, C36_held_partial: end to end for keymaps of plain, layer, sticky, caps word and string keys, when strings do not overlap and an instruction takes longer than a tick; refuted otherwise."
  },
  {
   "property": "C37",
   "status": "proved",
   "theorems": [
    "Verif.Chorded.C37_pending",
    "Verif.Chorded.C37_immediate",
    "Verif.Chorded.C37_active",
    "Verif.Comp.CH.C37_refines",
    "Verif.Comp.CH.C37_silent",
    "Verif.Comp.CH.C37_only"
   ],
   "note": ""
  },
  {
   "property": "C38",
   "status": "proved",
   "theorems": [
    "Verif.Chorded.C38_any_order",
    "Verif.Comp.CH.C38_together",
    "Verif.Comp.CH.C38_larger",
    "Verif.Comp.CH.C38_larger_release",
    "Verif.Comp.CH.C38_released"
   ],
   "note": ""
  },
  {
   "property": "C39",
   "status": "proved",
   "theorems": [
    "Verif.Chorded.C39_ends",
    "Verif.Chorded.C39_outside",
    "Verif.Comp.CH.C39_timeout",
    "Verif.Comp.CH.C39_tap",
    "Verif.Comp.CH.C39_outside",
    "Verif.Comp.C39_others"
   ],
   "note": ""
  },
  {
   "property": "C40",
   "status": "partial",
   "theorems": [
    "Verif.Chorded.C40_context_partial",
    "Verif.Chorded.C40_pending_partial",
    "Verif.C40_refuted",
    "Verif.C40_refuted_span",
    "Verif.C40_refuted_retap",
    "Verif.C40_released_member"
   ],
   "note": "the chord context is correct within its capacities; refuted beyond them with concrete histories."
  },
  {
   "property": "C41",
   "status": "proved",
   "theorems": [
    "Verif.Split.C41_roundtrip",
    "Verif.Split.C41_u16",
    "Verif.Split.C41_codec",
    "Verif.Split.C41_others"
   ],
   "note": ""
  },
  {
   "property": "C42",
   "status": "proved",
   "theorems": [
    "Verif.Split.C42_stream",
    "Verif.Split.C42_exact",
    "Verif.Split.C42_garbage",
    "Verif.Split.C42_link"
   ],
   "note": ""
  },
  {
   "property": "C43",
   "status": "proved",
   "theorems": [
    "Verif.Split.C43_physical",
    "Verif.Split.C43_no_panic"
   ],
   "note": ""
  },
  {
   "property": "C44",
   "status": "partial",
   "theorems": [
    "Verif.C44_init_partial",
    "Verif.C44_refuted"
   ],
   "note": "init restores every field except the key system context; refuted for the context."
  },
  {
   "property": "C45",
   "status": "proved",
   "theorems": [
    "Verif.Comp.C45_call",
    "Verif.Comp.C45_history",
    "Verif.Comp.C45_limit",
    "Verif.Comp.C45_self_reference"
   ],
   "note": ""
  },
  {
   "property": "C46",
   "status": "proved",
   "theorems": [
    "Verif.C46_idle_ticks",
    "Verif.C46_nothing_changes",
    "Verif.Comp.C46_nothing_changes"
   ],
   "note": ""
  },
  {
   "property": "C47",
   "status": "partial",
   "theorems": [
    "Verif.C47_idle_time_partial",
    "Verif.Comp.C47_refuted"
   ],
   "note": "the idle time advances by the tick length and is cleared by input; refuted as seen by keys processed from the queue."
  },
  {
   "property": "C48",
   "status": "proved",
   "theorems": [
    "Verif.C48_virtual_counted",
    "Verif.C48_presses_releases",
    "Verif.Comp.C48_presses_releases"
   ],
   "note": ""
  },
  {
   "property": "C49",
   "status": "proved",
   "theorems": [
    "Verif.Reports.C49_collapse",
    "Verif.Reports.C49_distinct",
    "Verif.Reports.C49_eq_refl",
    "Verif.Reports.C49_eq_last",
    "Verif.Reports.C49_eq_not_transitive",
    "Verif.C49_observed"
   ],
   "note": ""
  },
  {
   "property": "C50",
   "status": "proved",
   "theorems": [
    "Verif.Backend.C50_host",
    "Verif.Backend.C50_changed",
    "Verif.Backend.C50_layout"
   ],
   "note": ""
  },
  {
   "property": "C51",
   "status": "proved",
   "theorems": [
    "Verif.Slice.C51_keeps",
    "Verif.Slice.C51_panics",
    "Verif.Slice.C51_eq",
    "Verif.Slice.C51_deserialize"
   ],
   "note": ""
  },
  {
   "property": "C52",
   "status": "partial",
   "theorems": [
    "Verif.C52_tick_by_partial",
    "Verif.C52_handle_input_after_time_partial",
    "Verif.C52_refuted_zero",
    "Verif.C52_refuted_remainder"
   ],
   "note": "holds when ms_per_tick divides the delay; refuted for zero and remainders."
  },
  {
   "property": "C53",
   "status": "proved",
   "theorems": [
    "Verif.Firmware.C53_debounce",
    "Verif.Firmware.C53_counter",
    "Verif.Firmware.C53_alternates",
    "Verif.Firmware.C53_scan",
    "Verif.Firmware.C53_scans"
   ],
   "note": ""
  },
  {
   "property": "C54",
   "status": "proved",
   "theorems": [
    "Verif.Firmware.C54_count",
    "Verif.Firmware.C54_changes"
   ],
   "note": ""
  },
  {
   "property": "C55",
   "status": "proved",
   "theorems": [
    "Verif.Backend.C55_scan",
    "Verif.Backend.C55_boot_key"
   ],
   "note": ""
  },
  {
   "property": "C56",
   "status": "proved",
   "theorems": [
    "Verif.C56_until",
    "Verif.C56_quiet",
    "Verif.C56_when"
   ],
   "note": ""
  },
  {
   "property": "C57",
   "status": "proved",
   "theorems": [
    "Verif.Automation.C57_pace",
    "Verif.Automation.C57_start",
    "Verif.Automation.C57_requests"
   ],
   "note": ""
  },
  {
   "property": "C58",
   "status": "proved",
   "theorems": [
    "Verif.Codegen.C58_faithful",
    "Verif.Codegen.C58_settings"
   ],
   "note": ""
  },
  {
   "property": "C59",
   "status": "proved",
   "theorems": [
    "Verif.Codegen.C59_present",
    "Verif.Codegen.C59_acyclic",
    "Verif.Codegen.C59_ends",
    "Verif.Codegen.C59_sizes",
    "Verif.Codegen.C59_layers"
   ],
   "note": ""
  },
  {
   "property": "C60",
   "status": "proved",
   "theorems": [
    "Verif.Codegen.C60_plain",
    "Verif.Codegen.C60_overload",
    "Verif.Codegen.C60_tapHold",
    "Verif.Codegen.C60_typing",
    "Verif.Codegen.C60_oneShot",
    "Verif.Codegen.C60_dance",
    "Verif.Codegen.C60_chords"
   ],
   "note": ""
  },
  {
   "property": "C61",
   "status": "partial",
   "theorems": [
    "Verif.Codegen.C61_compiles_partial",
    "Verif.Codegen.C61_nested_macro_refuted"
   ],
   "note": "C61_compiles_partial: macros at most one level deep; refuted for macros two levels deep."
  },
  {
   "property": "C62",
   "status": "partial",
   "theorems": [
    "Verif.Codegen.C62_safe_partial",
    "Verif.Codegen.C62_missing_layer_refuted"
   ],
   "note": "C62_safe_partial: keymaps of plain and layer keys whose layers exist (with C59_present for all; for all kinds of keys, C63_source leaves full buffers as the only cause); refuted for keys naming a layer that does not exist."
  },
  {
   "property": "C63",
   "status": "proved",
   "theorems": [
    "Verif.Nothing.C63_macro_stops_keyboard",
    "Verif.Comp.C63_tables",
    "Verif.Codegen.C63_source",
    "Verif.Codegen.SafeDemo._root_.Verif.Codegen.C63_full_schedule",
    "Verif.Codegen.SafeDemo._root_.Verif.Codegen.C63_needed"
   ],
   "note": "every mixture of key kinds; all calls but handle_input_after_time and tick_to_next_scheduled_event (C11, C52). C63_needed: the conditions on the source, the presses and the clock are needed."
  },
  {
   "property": "C64",
   "status": "proved",
   "theorems": [
    "Verif.Codegen.C64_characters",
    "Verif.Codegen.C64_only",
    "Verif.Codegen.C64_typed",
    "Verif.Codegen.C64_key",
    "Verif.Codegen.TextDemo.C64_needed"
   ],
   "note": "C64_needed: with ticks as long as an instruction, the first character is never reported. Texts with carriage returns or combining characters are outside the model (grapheme clusters)."
  },
  {
   "property": "C65",
   "status": "proved",
   "theorems": [
    "Verif.Codegen.C65_board",
    "Verif.Codegen.C65_typed",
    "Verif.Codegen.C65_words",
    "Verif.Codegen.C65_layer",
    "Verif.Codegen.C65_unknown",
    "Verif.Codegen.C65_names",
    "Verif.Codegen.C65_letters",
    "Verif.Codegen.C65_usages",
    "Verif.Codegen.C65_short",
    "Verif.Codegen.C65_special"
   ],
   "note": "C65_typed: keymaps of plain, layer, sticky, caps-word and string keys without chords."
  },
  {
   "property": "C66",
   "status": "partial",
   "theorems": [
    "Verif.Device.C66_made",
    "C66_switches_partial",
    "Verif.Usb.C66_order_partial",
    "Verif.Usb.C66_delivered_partial",
    "C66_early_refuted",
    "C66_torn_refuted",
    "C66_reset_refuted",
    "C66_read_partial"
   ],
   "note": "C66_order_partial for every interleaving in which the timer does not interrupt the copy of a packet and the bus is not reset; C66_delivered_partial and C66_read_partial if in addition the host does not take the report before the end-point is marked busy. Refuted otherwise: C66_early_refuted (dead until a bus reset), C66_torn_refuted, C66_reset_refuted."
  },
  {
   "property": "C67",
   "status": "partial",
   "theorems": [
    "C67_packet",
    "C67_buttons_refuted",
    "C67_order_partial",
    "C67_held_partial",
    "C67_release_refuted"
   ],
   "note": "C67_order_partial for every interleaving; C67_held_partial: a report that is not empty is received. Refuted for the empty one: the release of a mouse button is lost (C67_release_refuted)."
  },
  {
   "property": "C68",
   "status": "proved",
   "theorems": [
    "Verif.SplitLink.C68_no_panic",
    "Verif.SplitLink.C68_order",
    "Verif.SplitLink.C68_room",
    "Verif.SplitLink.C68_delivered"
   ],
   "note": "events of keys below 128 (others panic, C41_others)."
  },
  {
   "property": "C69",
   "status": "partial",
   "theorems": [
    "Verif.SplitLink.C69_exact_partial",
    "Verif.SplitLink.C69_settles_partial",
    "Verif.SplitLink.C69_twice_refuted",
    "Verif.SplitLink.C69_gone_refuted"
   ],
   "note": "while no byte comes within the two critical moments of the interrupts and the UART is not overrun (Rx.KeepsUp); refuted otherwise: events given twice (C69_twice_refuted), an event lost (C69_gone_refuted)."
  },
  {
   "property": "C70",
   "status": "partial",
   "theorems": [
    "Verif.SplitLink.C70_order_partial",
    "Verif.SplitLink.C70_delivered_partial"
   ],
   "note": "as for C69, on the receiving side; nothing is assumed of the sending side."
  },
  {
   "property": "C71",
   "status": "partial",
   "theorems": [
    "Verif.Matrix.C71_boot",
    "Verif.Matrix.C71_scans",
    "Verif.Matrix.C71_debounced",
    "Verif.Matrix.C71_ch58x_partial",
    "Verif.Matrix.C71_ch58x_refuted",
    "Verif.Matrix.C71_boards",
    "Verif.Matrix.C71_every_key"
   ],
   "note": "ch32x035 in full; ch58x for boards with as many rows as columns (both boards in the repository are such: C71_boards). Refuted for all other boards of the ch58x: the bounds of its two loops are exchanged, so that every scan goes beyond a table."
  },
  {
   "property": "C72",
   "status": "partial",
   "theorems": [
    "Verif.Ble.C72_listening",
    "Verif.Ble.C72_configured",
    "Verif.Ble.C72_seen_partial",
    "Verif.Ble.C72_race_refuted"
   ],
   "note": "C72_listening and C72_configured for every history. That the switches are seen is proved for histories in which no switch moves between the last scan and the enabling of the interrupts; refuted otherwise: a key pressed in that moment is not noticed while it is held (C72_race_refuted)."
  },
  {
   "property": "C73",
   "status": "partial",
   "theorems": [
    "Verif.Ble.C73_order",
    "Verif.Ble.C73_current_partial",
    "Verif.Ble.C73_delivered_partial",
    "Verif.Ble.C73_skipped_refuted",
    "Verif.Ble.C73_refused_refuted"
   ],
   "note": "the order for every history. That the host gets the newest reports is proved for histories in which the stack refuses none; a refused report may never be sent (C73_refused_refuted). Not every report is sent: with two keys pressed at once one is skipped (C73_skipped_refuted)."
  },
  {
   "property": "C74",
   "status": "partial",
   "theorems": [
    "Verif.Ble.C74_calls_partial",
    "Verif.Ble.C74_early_refuted",
    "Verif.Ble.C74_asleep_refuted",
    "Verif.Ble.C74_macro_refuted"
   ],
   "note": "the calls, and the time told by ticks and by events, for every history (the keymap's time runs ahead by at most one part in 15). Refuted in general: a timeout left over from a released key makes a tap-hold key a hold too early (C74_early_refuted), the keyboard sleeps while the keymap has something scheduled (C74_asleep_refuted), and a macro makes the time to the next event negative (C74_macro_refuted)."
  },
  {
   "property": "C75",
   "status": "partial",
   "theorems": [
    "Verif.Nickel.C75_one_meaning",
    "Verif.Nickel.C75_compiles",
    "Verif.Nickel.C75_nothing_else_partial",
    "Verif.Nickel.C75_positions",
    "Verif.Nickel.C75_typo_refuted"
   ],
   "note": "one meaning, and that files which say a keymap compile as it, in full. That nothing else compiles is proved up to lists of macro instructions with misspelt names in keys with other keys: these are dropped without an error (C75_typo_refuted)."
  },
  {
   "property": "C76",
   "status": "proved",
   "theorems": [
    "Verif.Nickel.C76_one_kind",
    "Verif.Nickel.C76_read_back",
    "Verif.Nickel.C76_valid",
    "Verif.Nickel.C76_numbered"
   ],
   "note": ""
  },
  {
   "property": "C77",
   "status": "partial",
   "theorems": [
    "Verif.Nickel.C77_accepts",
    "Verif.Nickel.C77_enforced",
    "Verif.Nickel.C77_bluetooth",
    "Verif.Nickel.C77_not_a_key_refuted"
   ],
   "note": "that keys are accepted and that the contract is enforced, in full. Refuted: that it accepts nothing else. The validators of keys with other keys ignore the second of their two results (C77_not_a_key_refuted)."
  },
  {
   "property": "C78",
   "status": "partial",
   "theorems": [
    "Verif.Hid.C78_keyboard_partial",
    "Verif.Hid.C78_keyboard_refuted",
    "Verif.Hid.C78_boot",
    "Verif.Hid.C78_kinds",
    "Verif.Hid.C78_mouse_partial",
    "Verif.Hid.C78_mouse_refuted",
    "Verif.Hid.C78_move_refuted",
    "Verif.Hid.C78_consumer"
   ],
   "note": "keys up to 145, three buttons, movement and vertical scroll from -127 on, and consumer controls, in full. Refuted for keys from 146 on, for the other buttons, horizontal scroll and for movements by -128."
  },
  {
   "property": "C79",
   "status": "partial",
   "theorems": [
    "Verif.Hid.C79_keyboard_partial",
    "Verif.Hid.C79_keyboard_refuted",
    "Verif.Hid.C79_named",
    "Verif.Hid.C79_mouse_partial",
    "Verif.Hid.C79_mouse_refuted",
    "Verif.Hid.C79_consumer_partial",
    "Verif.Hid.C79_consumer_refuted",
    "Verif.Hid.C79_kinds"
   ],
   "note": "keys up to 101 (all that have names), three buttons, movement and scroll from -127 on, and a single consumer control. Refuted for keys from 102 on (F13), other buttons, and for two consumer controls at once."
  },
  {
   "property": "C80",
   "status": "partial",
   "theorems": [
    "Verif.Control.C80_descriptor",
    "Verif.Control.C80_absent",
    "Verif.Control.C80_configuration",
    "Verif.Control.C80_device",
    "Verif.Control.C80_address",
    "Verif.Control.C80_configure",
    "Verif.Control.C80_status_device",
    "Verif.Control.C80_status_endpoint",
    "Verif.Control.C80_unknown",
    "Verif.Control.C80_leds",
    "Verif.Control.C80_enumeration",
    "Verif.Control.C80_memory_partial",
    "Verif.Control.C80_memory_refuted",
    "Verif.Control.C80_length_refuted",
    "Verif.Control.C80_getReport_refuted"
   ],
   "note": "descriptors, addresses, configurations, output reports and the whole enumeration are proved for all histories. Memory: proved when requests for descriptors have the direction bit set (C80_memory_partial), refuted else. Refuted also for class requests with a wLength above 1, and GET_REPORT is not supported."
  },
  {
   "property": "C81",
   "status": "partial",
   "theorems": [
    "Verif.Control.C81_set_halt",
    "Verif.Control.C81_clear_halt",
    "Verif.Whole.C81_requests_partial",
    "Verif.Whole.C81_toggles_partial",
    "Verif.Whole.C81_order_partial",
    "Verif.Whole.C81_halt_refuted",
    "Verif.Whole.C81_reconfigure_refuted"
   ],
   "note": "proved for histories without SET_FEATURE and CLEAR_FEATURE(ENDPOINT_HALT), and with one SET_CONFIGURATION per bus reset. Refuted for CLEAR_FEATURE while a report waits (the keyboard is dead until a bus reset) and for a second SET_CONFIGURATION (a report may be lost)."
  },
  {
   "property": "C82",
   "status": "partial",
   "theorems": [
    "Verif.Keyboard.C82_settles",
    "Verif.Keyboard.C82_no_stuck_keys",
    "Verif.Keyboard.C82_keys",
    "Verif.Keyboard.C82_runs",
    "Verif.Keyboard.C82_runs_few",
    "Verif.Keyboard.C82_compiled",
    "Verif.Keyboard.C82_stuck_refuted"
   ],
   "note": "proved as long as there is room for the key events (31 wait at most). Refuted without it: while the computer does not ask for reports the keymap takes no events, and a key whose release is lost stays pressed."
  },
  {
   "property": "C83",
   "status": "partial",
   "theorems": [
    "Verif.Comp.C83_in_the_end_partial",
    "Verif.Comp.C83_pressed_iff_down_partial",
    "Verif.Comp.C83_no_stuck_keys_partial",
    "Verif.Comp.C83_refuted",
    "Verif.Comp.C83_let_go_partial"
   ],
   "note": "proved for keymaps whose undecided keys do not become undecided keys (no tap-hold key within a chord, say), of any kinds of keys otherwise. Refuted without it: when an undecided key becomes another undecided key the events kept meanwhile are queued again in the opposite order, and a key tapped in the meantime stays pressed."
  },
  {
   "property": "C84",
   "status": "proved",
   "theorems": [
    "Verif.Comp.C84_timer",
    "Verif.Comp.C84_nothing_undecided",
    "Verif.Comp.C84_decided"
   ],
   "note": "proved for every keymap."
  },
  {
   "property": "C85",
   "status": "proved",
   "theorems": [
    "Verif.Comp.C85_rests",
    "Verif.Comp.C85_stays"
   ],
   "note": "proved, for ticks that do not panic. Macros that are repeated while held are excluded: they go on by design."
  },
  {
   "property": "C86",
   "status": "proved",
   "theorems": [
    "Verif.Rtic.C86_in_order",
    "Verif.Rtic.C86_waits"
   ],
   "note": "proved."
  },
  {
   "property": "C87",
   "status": "partial",
   "theorems": [
    "Verif.Rtic.C87_consumer_partial",
    "Verif.Rtic.C87_current",
    "Verif.Rtic.C87_mouse_partial",
    "Verif.Rtic.C87_lost_refuted",
    "Verif.Rtic.C87_repeats_refuted",
    "Verif.Rtic.C87_drops_refuted"
   ],
   "note": "proved: consumer reports are some of those of the keymap, in order, and the last is current as soon as the driver takes one; mouse reports are those of the keymap if no report has to wait. Refuted in general: while the consumer end-point is busy a release and press are lost; while a keyboard report waits the last mouse movement is repeated, and while the mouse end-point is busy movements are lost."
  },
  {
   "property": "C88",
   "status": "partial",
   "theorems": [
    "Verif.Rtic.C88_debounced",
    "Verif.Rtic.C88_events",
    "Verif.Rtic.C88_room_partial",
    "Verif.Rtic.C88_nine_refuted",
    "Verif.Rtic.C88_order_refuted"
   ],
   "note": "proved: debounced levels, and the events of each scan; at most eight changes do not stop the firmware. Refuted: nine changes at once panic; events within one debouncing window are in the order of the matrix, not in that of the switches. The debouncer is keyberon's, modelled from knowledge of that library."
  },
  {
   "property": "C89",
   "status": "partial",
   "theorems": [
    "Verif.Rtic.C89_settles",
    "Verif.Rtic.C89_no_stuck_keys",
    "Verif.Rtic.C89_keys",
    "Verif.Rtic.C89_stuck_refuted",
    "Verif.Rtic.C89_runs",
    "Verif.Rtic.C89_switches",
    "Verif.RticSplit.C89_boards"
   ],
   "note": "proved for keymaps of plain keys and layers, if at most 31 key events wait. Refuted without room: while the computer does not ask for reports events are lost when 31 wait, and a key whose release is lost stays pressed."
  },
  {
   "property": "C90",
   "status": "partial",
   "theorems": [
    "Verif.Rtic.C90_keyboard",
    "Verif.Rtic.C90_mouse_partial",
    "Verif.Rtic.C90_consumer_partial",
    "Verif.Rtic.C90_consumer_current",
    "Verif.Rtic.C90_mouse_current",
    "Verif.Rtic.C90_mouse_packet",
    "Verif.Rtic.C90_consumer_packet",
    "Verif.Rtic.C90_settles",
    "Verif.Rtic.C90_second_refuted",
    "Verif.Rtic.C90_repeats_refuted",
    "Verif.Rtic.C90_drops_refuted",
    "Verif.Rtic.C90_runs"
   ],
   "note": "keyboard reports, the state after a successful turn and the last report proved; mouse and consumer reports proved for histories in which writing succeeds, and for the first consumer code. Refuted: of two consumer keys held only the first is reported; movements repeat while keyboard reports fail and are lost while mouse reports fail."
  },
  {
   "property": "C91",
   "status": "partial",
   "theorems": [
    "Verif.RticSplit.C91_events",
    "Verif.RticSplit.C91_halves",
    "Verif.RticSplit.C91_all",
    "Verif.RticSplit.C91_report",
    "Verif.RticSplit.C91_settles",
    "Verif.RticSplit.C91_no_stuck_keys",
    "Verif.RticSplit.C91_keys",
    "Verif.RticSplit.C91_runs",
    "Verif.RticSplit.C91_waits",
    "Verif.RticSplit.C91_boards",
    "Verif.RticSplit.C91_noise_refuted",
    "Verif.RticSplit.C91_nine_refuted"
   ],
   "note": "proved: what each keymap is given, what is sent, the last report, that a half does not stop under the hypotheses of the statement, that a half whose report waits while USB is not configured does not advance, and the tables of the 36-key keyboard. Refuted without the hypotheses: noise that reads as a key outside the keymap stops a half; so do nine key events of the other half before the handler runs."
  },
  {
   "property": "C92",
   "status": "partial",
   "theorems": [
    "Verif.EmbSplit.C92_right",
    "Verif.EmbSplit.C92_right_runs",
    "Verif.EmbSplit.C92_events",
    "Verif.EmbSplit.C92_channel",
    "Verif.EmbSplit.C92_read",
    "Verif.EmbSplit.C92_halves",
    "Verif.EmbSplit.C92_deaf",
    "Verif.EmbSplit.C92_keyboard",
    "Verif.EmbSplit.C92_report",
    "Verif.EmbSplit.C92_settles",
    "Verif.EmbSplit.C92_no_stuck_keys",
    "Verif.EmbSplit.C92_runs",
    "Verif.EmbSplit.C92_lost_refuted",
    "Verif.EmbSplit.C92_noise_refuted"
   ],
   "note": "proved: what the right half sends, what the keymap is given, the reports, the last report, that neither half stops under the hypotheses of the statement, and that after the loss of the beginning of a message nothing of the right half is read any more. Refuted without the hypotheses: while the computer does not fetch reports the reader waits and bytes are lost, so that a key stays pressed for the computer although all switches are open; a message of a key outside the keymap stops the left half."
  },
  {
   "property": "C93",
   "status": "partial",
   "theorems": [
    "Verif.Nothing.C93_virtual_keys_partial",
    "Verif.Nothing.C93_nothing_pressed_partial",
    "Verif.Nothing.C93_report_partial",
    "Verif.Nothing.C93_stuck_refuted",
    "Verif.Nothing.C93_for_ever_refuted"
   ],
   "note": "Partial: proved for keymaps without sticky modifiers, in which no key that may become an undecided one becomes another undecided one, and whose macros do nothing but tap keys and wait (and only wait, if some key may have to wait for a decision). Refuted (C93_stuck_refuted) for a macro next to a tap-hold key: with the default durations a 15 ms tap of the tap-hold key while a three-letter macro runs leaves a letter pressed for ever (C93_for_ever_refuted: after any number of further ticks). Sticky modifiers are left out: their virtual keys stay pressed until the next key by design (C30)."
  },
  {
   "property": "C94",
   "status": "partial",
   "theorems": [
    "Verif.Ble.C94_settles_partial",
    "Verif.Ble.C94_no_stuck_keys_partial",
    "Verif.Ble.C94_keys_partial",
    "Verif.Ble.C94_runs",
    "Verif.Ble.C94_stuck_refuted"
   ],
   "note": "Partial: proved under the hypotheses of the statement (no switch moves in the moment in which the keyboard goes to sleep; every report is accepted; the queue has room), and for keys up to 101, which is what the report map has room for (C79_keyboard_refuted). Without the first, C72_race_refuted; without room, C94_stuck_refuted: the keyboard does not debounce, and two keys that bounce for a quarter of a second stay pressed."
  },
  {
   "property": "C95",
   "status": "partial",
   "theorems": [
    "Verif.Unstuck.C95_at_rest_partial",
    "Verif.Unstuck.C95_no_stuck_keys_partial",
    "Verif.Unstuck.C95_stuck_refuted"
   ],
   "note": "Partial: proved for keymaps without sticky modifiers, in which undecided keys do not become undecided keys, and whose macros tap keys and wait (or only wait, if some key may have to wait for a decision): for these at rest (C95_at_rest_partial), and, if no key refers back to itself and no macro is repeated, after some number of scans with open switches (C95_no_stuck_keys_partial). For the others the keymap itself is stuck (C93_stuck_refuted, C83). Hypotheses: the computer configures the keyboard and asks for the reports, no interrupt tears a report (C66), and no key event is dropped (C82_stuck_refuted shows what happens otherwise). Refuted for a macro next to a tap-hold key (C95_stuck_refuted): a tap of the tap-hold key while a macro types three letters leaves the second pressed for the computer."
  },
  {
   "property": "C96",
   "status": "partial",
   "theorems": [
    "Verif.Rtic.C96_rtic_at_rest_partial",
    "Verif.Rtic.C96_rtic_no_stuck_keys_partial",
    "Verif.Rtic.C96_embassy_at_rest_partial",
    "Verif.Rtic.C96_embassy_no_stuck_keys_partial",
    "Verif.Rtic.C96_stuck_refuted"
   ],
   "note": "Partial: proved for the keymaps of C93 and C95 (no sticky modifiers, undecided keys do not become undecided keys, macros tap keys and wait, or only wait if some key may have to wait for a decision): at rest (C96_rtic_at_rest_partial, C96_embassy_at_rest_partial), and, if moreover no key refers back to itself and no macro is repeated, after some time (C96_rtic_no_stuck_keys_partial, C96_embassy_no_stuck_keys_partial). For the other keymaps the claim is false of the keymap already, see C93 and C85. Refuted for a macro next to a tap-hold key (C96_stuck_refuted): on an RTIC keyboard, a tap of the tap-hold key while a macro types six letters leaves the sixth letter pressed for the computer."
  },
  {
   "property": "C97",
   "status": "partial",
   "theorems": [
    "Verif.Ble.C97_at_rest_partial"
   ],
   "note": "Partial: proved at rest for the keymaps of C93 (no sticky modifiers, undecided keys do not become undecided keys, macros tap keys and wait, or only wait if some key may have to wait for a decision). That the keymap has nothing scheduled is a hypothesis and not a conclusion, because the keyboard may sleep with something scheduled, and then a key does stay pressed for the host (C74_asleep_refuted)."
  },
  {
   "property": "C98",
   "status": "partial",
   "theorems": [
    "Verif.EmbSplit.C98_embassy_at_rest_partial",
    "Verif.EmbSplit.C98_embassy_no_stuck_keys_partial",
    "Verif.RticSplit.C98_rtic_at_rest_partial",
    "Verif.RticSplit.C98_rtic_no_stuck_keys_partial"
   ],
   "note": "Partial: proved for the keymaps of C93 and C95 (no sticky modifiers, undecided keys do not become undecided keys, macros tap keys and wait, or only wait if some key may have to wait for a decision): at rest (C98_rtic_at_rest_partial, C98_embassy_at_rest_partial), and, if moreover no key refers back to itself and no macro is repeated, after some number of ticks (C98_rtic_no_stuck_keys_partial, C98_embassy_no_stuck_keys_partial). For the other keymaps see C93_stuck_refuted. That no key event is dropped for want of room in the keymap, and with embassy that no byte is lost, are hypotheses: without the latter C92_lost_refuted."
  },
  {
   "property": "C99",
   "status": "partial",
   "theorems": [
    "Verif.Ble.C99_called",
    "Verif.Ble.C99_comes_back",
    "Verif.Ble.C99_in_time_refuted"
   ],
   "note": "Partial: that the task is on its way is proved for every history and keymap (C99_comes_back), and that the keymap is called once its time has run out, after at most three other events (C99_called). That the keymap is called again no later than it asked is refuted (C99_in_time_refuted): a task already on its way is left as it is, so that after a tap of a tap-hold key the answer for a macro, 2 ms, is followed by a call of that kind 168 ms later (the ticks every 7.5 ms go on while a key is held)."
  }
 ]
}