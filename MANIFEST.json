{
 "claims": [
  {
   "property": "C01",
   "status": "proved",
   "theorems": [
    "Tomllib.C01_parse_finishes"
   ],
   "note": "Full, FullError, Partial, PartialError are the only results; the model's fuel never runs out; the only other ending is one of the five panics of C31."
  },
  {
   "property": "C02",
   "status": "proved",
   "theorems": [
    "Tomllib.C02_result_says_what_happened",
    "Tomllib.C02_error_list_nonempty"
   ],
   "note": ""
  },
  {
   "property": "C03",
   "status": "proved",
   "theorems": [
    "Tomllib.C03_display_full"
   ],
   "note": "For documents without an empty inline table, on which Display panics (C05)."
  },
  {
   "property": "C04",
   "status": "proved",
   "theorems": [
    "Tomllib.C04_display_partial"
   ],
   "note": ""
  },
  {
   "property": "C05",
   "status": "proved",
   "theorems": [
    "Tomllib.C05_display_panics_iff",
    "Tomllib.C05_display_ok_of_no_braces",
    "Tomllib.C05_display_panics",
    "Tomllib.C05_display_new_panics"
   ],
   "note": ""
  },
  {
   "property": "C06",
   "status": "proved",
   "theorems": [
    "Tomllib.C06_leftover_not_reported",
    "Tomllib.C06_leftover_always_stale"
   ],
   "note": "The property is false of the code: proved negation, and that the reported leftover is always the one from before the call."
  },
  {
   "property": "C07",
   "status": "proved",
   "theorems": [
    "Tomllib.C07_line_numbers",
    "Tomllib.C07_stop_line",
    "Tomllib.C07_errors_located",
    "Tomllib.C07_array_newlines_not_counted"
   ],
   "note": "Line feeds between elements of an array are not counted by the code (proved witness), so 'line' means a line counted in this way."
  },
  {
   "property": "C08",
   "status": "proved",
   "theorems": [
    "Tomllib.C08_columns_zero"
   ],
   "note": ""
  },
  {
   "property": "C09",
   "status": "proved",
   "theorems": [
    "Tomllib.C09_unknown_key"
   ],
   "note": ""
  },
  {
   "property": "C10",
   "status": "proved",
   "theorems": [
    "Tomllib.C10_refused_edit_loses_keys",
    "Tomllib.C10_invalid_scalar",
    "Tomllib.C10_nothing_changes_iff",
    "Tomllib.C10_refused_exactly",
    "Tomllib.C10_no_children",
    "Tomllib.C10_refused_edit_keeps_text"
   ],
   "note": "The wish is false of the code (witness). Proved instead: exactly what a refused assignment takes away, for every reachable parser and every key but the empty one."
  },
  {
   "property": "C11",
   "status": "proved",
   "theorems": [
    "Tomllib.C11_set_scalar"
   ],
   "note": ""
  },
  {
   "property": "C12",
   "status": "proved",
   "theorems": [
    "Tomllib.C12_other_values_unchanged"
   ],
   "note": ""
  },
  {
   "property": "C13",
   "status": "proved",
   "theorems": [
    "Tomllib.C13_text_edited_only_there"
   ],
   "note": "For parsers that read a document completely, and every history of edits after that."
  },
  {
   "property": "C14",
   "status": "proved",
   "theorems": [
    "Tomllib.C14_same_structure"
   ],
   "note": ""
  },
  {
   "property": "C15",
   "status": "proved",
   "theorems": [
    "Tomllib.C15_flat_array",
    "Tomllib.C15_others",
    "Tomllib.C15_text",
    "Tomllib.C15_stale_element",
    "Tomllib.C15_flat_table",
    "Tomllib.C15_table_children_stale",
    "Tomllib.C15_set_panics"
   ],
   "note": "The proviso about key[i] is needed (C15_stale_element). The children of a key after a flat inline table are not its names in general (C15_flat_table says what they are, C15_table_children_stale is a witness). Nested values panic (witness)."
  },
  {
   "property": "C16",
   "status": "proved",
   "theorems": [
    "Tomllib.C16_table_header"
   ],
   "note": "The property is false of the code: proved for every document and table header that the edit is accepted without effect on the text."
  },
  {
   "property": "C17",
   "status": "proved",
   "theorems": [
    "Tomllib.C17_get_value_panics_iff",
    "Tomllib.C17_wish_fails",
    "Tomllib.C17_no_headers",
    "Tomllib.C17_any_time",
    "Tomllib.C17_several"
   ],
   "note": "The wish is false of the code (witness). The exact condition is proved for documents without arrays of tables that were read to their end and whose table headers are in order, and for documents in order with arrays of tables at any moment of a history of assignments (C17_any_time)."
  },
  {
   "property": "C18",
   "status": "proved",
   "theorems": [
    "Tomllib.C18_date_from_str",
    "Tomllib.C18_date_from_digits",
    "Tomllib.C18_plus_accepted"
   ],
   "note": "Exact, for all texts. A plus sign is accepted in place of a digit (C18_plus_accepted)."
  },
  {
   "property": "C19",
   "status": "proved",
   "theorems": [
    "Tomllib.C19_offset_from_str",
    "Tomllib.C19_time_from_str",
    "Tomllib.C19_long_fraction_rejected"
   ],
   "note": "Exact, for all texts."
  },
  {
   "property": "C20",
   "status": "proved",
   "theorems": [
    "Tomllib.C20_date_from_int",
    "Tomllib.C20_datetime_from_int",
    "Tomllib.C20_datetime_offset_from_int"
   ],
   "note": "All seven constructors."
  },
  {
   "property": "C21",
   "status": "proved",
   "theorems": [
    "Tomllib.C21_datetime_parse",
    "Tomllib.C21_print_injective"
   ],
   "note": ""
  },
  {
   "property": "C22",
   "status": "proved",
   "theorems": [
    "Tomllib.C22_int",
    "Tomllib.C22_int_injective",
    "Tomllib.C22_from_str",
    "Tomllib.C22_wish_fails",
    "Tomllib.C22_whole_accepted"
   ],
   "note": "The wish about int_from_str and float_from_str is false of the code (witness); what they accept is described exactly. The argument of Value::int is any integer, not only an i64; Value::float is in C67."
  },
  {
   "property": "C23",
   "status": "proved",
   "theorems": [
    "Tomllib.C23_strings_read_back",
    "Tomllib.C23_scalar_read_back",
    "Tomllib.C23_ml_strings_read_back",
    "Tomllib.C23_ml_wish_fails"
   ],
   "note": "For every key; also for all other scalars, and for multi-line strings that do not contain their closing quotes (with a witness for those that do)."
  },
  {
   "property": "C24",
   "status": "proved",
   "theorems": [
    "Tomllib.C24_string_contents",
    "Tomllib.C24_astral_rejected"
   ],
   "note": ""
  },
  {
   "property": "C25",
   "status": "proved",
   "theorems": [
    "Tomllib.C25_bool_from_str"
   ],
   "note": ""
  },
  {
   "property": "C26",
   "status": "proved",
   "theorems": [
    "Tomllib.C26_combine_keys"
   ],
   "note": ""
  },
  {
   "property": "C27",
   "status": "proved",
   "theorems": [
    "Tomllib.C27_children_nodup"
   ],
   "note": ""
  },
  {
   "property": "C28",
   "status": "proved",
   "theorems": [
    "Tomllib.C28_duplicate_keys",
    "Tomllib.C28_parts_leak",
    "Tomllib.C28_section"
   ],
   "note": "C28_duplicate_keys: documents without arrays of tables whose table headers are in order. C28_section: section by section, below a header that is in order, in any document without arrays of tables. C28_parts_leak shows what the rule does to the parts of a repeated array."
  },
  {
   "property": "C29",
   "status": "proved",
   "theorems": [
    "Tomllib.C29_keys_unambiguous",
    "Tomllib.C29_children_unambiguous",
    "Tomllib.C29_chains",
    "Tomllib.C29_names_must_be_keys"
   ],
   "note": ""
  },
  {
   "property": "C30",
   "status": "proved",
   "theorems": [
    "Tomllib.C30_panics_text",
    "Tomllib.C30_panics_iff",
    "Tomllib.C30_panic_after",
    "Tomllib.C30_wish_fails",
    "Tomllib.C30_no_headers",
    "Tomllib.C30_no_arrays"
   ],
   "note": "The wish is false of the code (witness). Proved: exactly when parse panics on a text without headers of arrays of tables, in terms of what the parser answers that has read the lines before the header at which it panics (Spec/Wall.lean); and that this only happens after an array below a table header that is not in order, never if every [ is first on its line."
  },
  {
   "property": "C31",
   "status": "proved",
   "theorems": [
    "Tomllib.C31_parse_panics",
    "Tomllib.C31_parse_panics_key",
    "Tomllib.C31_parse_panics_arr",
    "Tomllib.C31_parse_panics_partial",
    "Tomllib.C31_panics_there",
    "Tomllib.C31_panics_iff",
    "Tomllib.C31_panics_shut",
    "Tomllib.C31_panics_exactly",
    "Tomllib.C31_pairs"
   ],
   "note": "False of the code: three witnesses, and the exact list of panics that can happen. C31_panics_exactly says when a line is a panic, C31_pairs that no pair is one; left out are headers whose text begins with that of an open array of tables, but not name by name."
  },
  {
   "property": "C32",
   "status": "proved",
   "theorems": [
    "Tomllib.C32_values_are_found",
    "Tomllib.C32_section"
   ],
   "note": "C32_values_are_found: documents without arrays of tables whose table headers are in order. C32_section: section by section, in any document without arrays of tables; with C45_leaks this gives the values after every such document. (Arrays of tables: C46.)"
  },
  {
   "property": "C33",
   "status": "proved",
   "theorems": [
    "Tomllib.C33_mixed_arrays",
    "Tomllib.C33_wish_fails",
    "Tomllib.C33_never_full",
    "Tomllib.C33_first",
    "Tomllib.C33_reported",
    "Tomllib.C33_never_again"
   ],
   "note": "The wish is false of the code (witness); what holds is proved for every text, wherever reading stops."
  },
  {
   "property": "C34",
   "status": "proved",
   "theorems": [
    "Tomllib.C34_invalid_dates",
    "Tomllib.C34_every_text"
   ],
   "note": "C34_invalid_dates, with keys: for documents without arrays of tables whose table headers are in order. C34_every_text: which dates are reported, and on which lines, for every text read to its end."
  },
  {
   "property": "C35",
   "status": "proved",
   "theorems": [
    "Tomllib.C35_printed_is_read_again"
   ],
   "note": ""
  },
  {
   "property": "C36",
   "status": "proved",
   "theorems": [
    "Tomllib.C36_writes_only_after_success",
    "Tomllib.C36_result_of_run"
   ],
   "note": "For the modelled part of tomlkit: the commands on arguments already split; the file system never fails (C68 has one that does)."
  },
  {
   "property": "C37",
   "status": "proved",
   "theorems": [
    "Tomllib.C37_sequences_of_edits",
    "Tomllib.C37_edits_commute"
   ],
   "note": ""
  },
  {
   "property": "C38",
   "status": "proved",
   "theorems": [
    "Tomllib.C38_whole_and_parts",
    "Tomllib.C38_header_in_table",
    "Tomllib.C38_any_time",
    "Tomllib.C38_several"
   ],
   "note": "C38_whole_and_parts: for documents without arrays of tables; C38_any_time: for all documents in order. C38_header_in_table: a table header can add a part to an inline table."
  },
  {
   "property": "C39",
   "status": "proved",
   "theorems": [
    "Tomllib.C39_spelling_is_kept",
    "Tomllib.C39_values_stand_in_the_text"
   ],
   "note": "For every text read to its end, arrays of tables included. That the text is the one at the key: C13, C32."
  },
  {
   "property": "C40",
   "status": "proved",
   "theorems": [
    "Tomllib.C40_layout_does_not_matter"
   ],
   "note": "For all texts that are read to the end (C70), arrays of tables and panics included."
  },
  {
   "property": "C41",
   "status": "proved",
   "theorems": [
    "Tomllib.C41_file_lost",
    "Tomllib.C41_outcome",
    "Tomllib.C41_left_behind",
    "Tomllib.C41_empty_moment",
    "Tomllib.C41_saved"
   ],
   "note": "The wish is false of the code (witness). Proved instead: exactly when the file is lost, for every document and command line (an empty inline table in the text, all assignments made), and how every run leaves the files. At one moment of every saving run the file is empty."
  },
  {
   "property": "C42",
   "status": "proved",
   "theorems": [
    "Tomllib.C42_accepted_iff_valid",
    "Tomllib.C42_toml_example_rejected",
    "Tomllib.C42_redefinition_accepted"
   ],
   "note": ""
  },
  {
   "property": "C43",
   "status": "proved",
   "theorems": [
    "Tomllib.C43_read_to_the_end",
    "Tomllib.C43_meaning",
    "Tomllib.C43_partial_means_not_proper"
   ],
   "note": ""
  },
  {
   "property": "C44",
   "status": "proved",
   "theorems": [
    "Tomllib.C44_printed_value_is_read",
    "Tomllib.C44_printing_panics_iff",
    "Tomllib.C44_printing_is_injective"
   ],
   "note": ""
  },
  {
   "property": "C45",
   "status": "proved",
   "theorems": [
    "Tomllib.C45_section",
    "Tomllib.C45_leaks",
    "Tomllib.C45_in_order",
    "Tomllib.C45_invalid_tables",
    "Tomllib.C45_census",
    "Tomllib.C45_elements_leak",
    "Tomllib.C45_inner_pairs",
    "Tomllib.C45_pairs_lost"
   ],
   "note": "The wish is false of the code for arrays, inline tables and invalid dates below such headers (three witnesses). Proved: exactly which headers are reported, after any lines, and what a section without arrays does (C45_section, C45_in_order); whole documents without arrays below such headers (C45_invalid_tables, C45_census). C45_leaks: exactly the values that arrays below such a header enter. C59 has arrays of tables too."
  },
  {
   "property": "C46",
   "status": "proved",
   "theorems": [
    "Tomllib.C46_stray",
    "Tomllib.C46_walk_strays",
    "Tomllib.C46_listed_top",
    "Tomllib.C46_listed_exactly",
    "Tomllib.C46_walk",
    "Tomllib.C46_any_time"
   ],
   "note": "For documents in order, and at every moment of a history of assignments after that. The wish is false of the code (C46_stray); C46_walk_strays and C46_listed_top are exact."
  },
  {
   "property": "C47",
   "status": "proved",
   "theorems": [
    "Tomllib.C47_meaning",
    "Tomllib.C47_any_text",
    "Tomllib.C47_prefix",
    "Tomllib.C47_reopened",
    "Tomllib.C47_siblings",
    "Tomllib.C47_subtable"
   ],
   "note": "The last four show what happens to documents that are not in order."
  },
  {
   "property": "C48",
   "status": "proved",
   "theorems": [
    "Tomllib.C48_outcome",
    "Tomllib.C48_after_reading",
    "Tomllib.C48_any_time",
    "Tomllib.C48_several"
   ],
   "note": "C48_outcome asks that the keys of the new parts are free (they are just after reading a document in order, C48_after_reading, and at every moment of a history of assignments after that, C48_any_time)."
  },
  {
   "property": "C49",
   "status": "proved",
   "theorems": [
    "Tomllib.C49_get_value",
    "Tomllib.C49_get_value_fails",
    "Tomllib.C49_unquoted",
    "Tomllib.C49_has_value",
    "Tomllib.C49_has_children",
    "Tomllib.C49_get_children",
    "Tomllib.C49_get_children_fails",
    "Tomllib.C49_order",
    "Tomllib.C49_too_few_answers"
   ],
   "note": "For the modelled part of tomlkit. C49_too_few_answers: an index panic."
  },
  {
   "property": "C50",
   "status": "proved",
   "theorems": [
    "Tomllib.C50_one_value",
    "Tomllib.C50_assigned",
    "Tomllib.C50_not_assigned",
    "Tomllib.C50_not_threes",
    "Tomllib.C50_zulu_dropped"
   ],
   "note": "For the modelled part of tomlkit. C50_zulu_dropped: a Z offset is lost on the way."
  },
  {
   "property": "C51",
   "status": "proved",
   "theorems": [
    "Tomllib.C51_edited_is_read_again",
    "Tomllib.C51_same_kinds",
    "Tomllib.C51_written_needed"
   ],
   "note": "C51_written_needed: an integer with more text behind it is accepted by set_value and adds a key to the printed document."
  },
  {
   "property": "C52",
   "status": "proved",
   "theorems": [
    "Tomllib.C52_reading_on",
    "Tomllib.C52_errors",
    "Tomllib.C52_last_is_printed",
    "Tomllib.C52_first_not_printed"
   ],
   "note": ""
  },
  {
   "property": "C53",
   "status": "proved",
   "theorems": [
    "Tomllib.C53_in_order",
    "Tomllib.C53_as_if_alone",
    "Tomllib.C53_every_moment",
    "Tomllib.C53_others_untouched",
    "Tomllib.C53_not_all_or_nothing",
    "Tomllib.C53_output_overwritten"
   ],
   "note": "For the modelled part of tomlkit. The last two show what is not promised."
  },
  {
   "property": "C54",
   "status": "proved",
   "theorems": [
    "Tomllib.C54_printed",
    "Tomllib.C54_printed_failure",
    "Tomllib.C54_quiet_ignored",
    "Tomllib.C54_status",
    "Tomllib.C54_failure_exits_zero",
    "Tomllib.C54_get_value",
    "Tomllib.C54_set_value"
   ],
   "note": "For the modelled part of tomlkit; how an argument is split into fields is an arbitrary function."
  },
  {
   "property": "C55",
   "status": "proved",
   "theorems": [
    "Tomllib.C55_answers",
    "Tomllib.C55_assign"
   ],
   "note": "Refinement: the state of the parser follows the edited document. Assignments outside of the stated ones are covered by C15, C45, C46 and C48."
  },
  {
   "property": "C56",
   "status": "proved",
   "theorems": [
    "Tomllib.C56_read_again",
    "Tomllib.C56_sound_needed",
    "Tomllib.C56_strict_needed"
   ],
   "note": "The printed text is that of a properly written document with the same paths; C47 and C55 then give the answers."
  },
  {
   "property": "C57",
   "status": "proved",
   "theorems": [
    "Tomllib.C57_commute",
    "Tomllib.C57_undo",
    "Tomllib.C57_last",
    "Tomllib.C57_structure_needed",
    "Tomllib.C57_elsewhere",
    "Tomllib.C57_several_commute",
    "Tomllib.C57_several_undo",
    "Tomllib.C57_several_last"
   ],
   "note": "Exchanging parts of a tree commutes, and is undone by putting the part back; two parsers that stand for the same document look the same."
  },
  {
   "property": "C58",
   "status": "proved",
   "theorems": [
    "Tomllib.C58_accepted_iff",
    "Tomllib.C58_any_text",
    "Tomllib.C58_first_error",
    "Tomllib.C58_table_after_array",
    "Tomllib.C58_inline_extended",
    "Tomllib.C58_value_panics"
   ],
   "note": "C47 gives one direction; for the other, each kind of line that leaves the list of errors empty is shown to be in order, in every state that stands for the lines before it."
  },
  {
   "property": "C59",
   "status": "proved",
   "theorems": [
    "Tomllib.C59_report",
    "Tomllib.C59_any_text",
    "Tomllib.C59_elements_leak",
    "Tomllib.C59_array_header",
    "Tomllib.C59_array_header_enters"
   ],
   "note": "The specification (Spec/Report.lean) computes the list of errors from the lines; headers of arrays of tables that are not in order (except as the last line), second values that are not simple, and arrays below a bad header are outside of its hypothesis."
  },
  {
   "property": "C60",
   "status": "proved",
   "theorems": [
    "Tomllib.C60_reads",
    "Tomllib.C60_sets"
   ],
   "note": "For commands all of whose keys have answers (C49 and C54_printed_failure say what happens otherwise). The option parser and the splitting of arguments into fields are not modelled: the latter is an arbitrary function."
  },
  {
   "property": "C61",
   "status": "proved",
   "theorems": [
    "Tomllib.C61_command_fails",
    "Tomllib.C61_stops",
    "Tomllib.C61_help",
    "Tomllib.C61_several"
   ],
   "note": "The texts that come from elsewhere (output of {:?}, help text, reasons given by the operating system) are an arbitrary wording. Panics are not covered: too few words for yes or no (C49_too_few_answers), keys of tables with a header (C17)."
  },
  {
   "property": "C62",
   "status": "proved",
   "theorems": [
    "Tomllib.C62_stops",
    "Tomllib.C62_longest",
    "Tomllib.C62_as_if_alone",
    "Tomllib.C62_before_is_kept",
    "Tomllib.C62_any_time",
    "Tomllib.C62_unfinished_leaks"
   ],
   "note": "For every text that makes no panic. The line number counts the line breaks between the lines and inside multi-line strings (C07)."
  },
  {
   "property": "C63",
   "status": "proved",
   "theorems": [
    "Tomllib.C63_when_returned",
    "Tomllib.C63_later",
    "Tomllib.C63_wish_fails",
    "Tomllib.C63_emptied",
    "Tomllib.C63_emptied_panics"
   ],
   "note": "The order of lines is stated for programs that do not change the list themselves before."
  },
  {
   "property": "C64",
   "status": "proved",
   "theorems": [
    "Tomllib.C64_texts",
    "Tomllib.C64_dates",
    "Tomllib.C64_numbers",
    "Tomllib.C64_same"
   ],
   "note": "The logged warning is not modelled."
  },
  {
   "property": "C65",
   "status": "proved",
   "theorems": [
    "Tomllib.C65_datetimes",
    "Tomllib.C65_values",
    "Tomllib.C65_printed_alike",
    "Tomllib.C65_results"
   ],
   "note": "The equality of the internal syntax tree is not modelled: the program never uses it."
  },
  {
   "property": "C66",
   "status": "proved",
   "theorems": [
    "Tomllib.C66_values_stay",
    "Tomllib.C66_lines_added",
    "Tomllib.C66_in_order",
    "Tomllib.C66_top_names",
    "Tomllib.C66_wish_fails",
    "Tomllib.C66_wish_fails_later"
   ],
   "note": "Without the restriction on arrays of tables it is false: C66_wish_fails, C66_wish_fails_later."
  },
  {
   "property": "C67",
   "status": "proved",
   "theorems": [
    "Tomllib.C67_valid_iff",
    "Tomllib.C67_text",
    "Tomllib.C67_read_back",
    "Tomllib.C67_whole_becomes_integer",
    "Tomllib.C67_injective",
    "Tomllib.C67_assigned",
    "Tomllib.C67_wish_fails"
   ],
   "note": "The documented wish is false: whole numbers are not valid floats (C67_wish_fails). The text of an f64 is modelled after std: the shortest decimal that is rounded to the number."
  },
  {
   "property": "C68",
   "status": "proved",
   "theorems": [
    "Tomllib.C68_every_moment",
    "Tomllib.C68_finished",
    "Tomllib.C68_not_written",
    "Tomllib.C68_not_text",
    "Tomllib.C68_good_luck",
    "Tomllib.C68_good_luck_all",
    "Tomllib.C68_several",
    "Tomllib.C68_truncated",
    "Tomllib.C68_half_a_character"
   ],
   "note": "Files hold bytes; UTF-8 is that of Lean's library. Other programs that change the files at the same time, and two names for one file, are not modelled."
  },
  {
   "property": "C69",
   "status": "proved",
   "theorems": [
    "Tomllib.C69_names",
    "Tomllib.C69_main",
    "Tomllib.C69_input_file",
    "Tomllib.C69_empty_line",
    "Tomllib.C69_not_text",
    "Tomllib.C69_status"
   ],
   "note": "That there is no file with an empty name is a hypothesis of C69_empty_line."
  },
  {
   "property": "C70",
   "status": "proved",
   "theorems": [
    "Tomllib.C70_read",
    "Tomllib.C70_taken",
    "Tomllib.C70_iff",
    "Tomllib.C70_unique",
    "Tomllib.C70_meaning",
    "Tomllib.C70_read_means"
   ],
   "note": "The rules are DocTaken in Spec/Taken.lean. C07, C40, C45 to C48, C52, C58, C59, C62 and C66 are proved for these texts."
  },
  {
   "property": "C71",
   "status": "proved",
   "theorems": [
    "Tomllib.C71_places",
    "Tomllib.C71_reading_on",
    "Tomllib.C71_in_turn",
    "Tomllib.C34_every_text"
   ],
   "note": "The places are docSpots in Spec/Spots.lean."
  },
  {
   "property": "C72",
   "status": "proved",
   "theorems": [
    "Tomllib.C72_from_the_text",
    "Tomllib.C72_any_time",
    "Tomllib.C72_wherever_it_stops"
   ],
   "note": "When a line gives a value to a key: Spec/Source.lean."
  },
  {
   "property": "C73",
   "status": "proved",
   "theorems": [
    "Tomllib.C73_shows_there_only",
    "Tomllib.C73_same_structure",
    "Tomllib.C73_printed_alike",
    "Tomllib.C73_otherwise"
   ],
   "note": "Programs that hold on to the list of names (a RefMut that is kept or leaked) are not modelled."
  },
  {
   "property": "C74",
   "status": "proved",
   "theorems": [
    "Tomllib.C74_inside_sections",
    "Tomllib.C74_sections",
    "Tomllib.C74_groups",
    "Tomllib.C74_otherwise"
   ],
   "note": "C74_otherwise shows by example where the order does matter."
  },
  {
   "property": "C75",
   "status": "proved",
   "theorems": [
    "Tomllib.C75_answers",
    "Tomllib.C75_read",
    "Tomllib.C75_assign",
    "Tomllib.C75_either_order",
    "Tomllib.C75_one_document",
    "Tomllib.C75_walk"
   ],
   "note": "Follows C47, C52 and C55. The names at the top level may be listed in another order when there are stray ones (see C46)."
  }
 ]
}