"""Writes MANIFEST.json: which theorems settle which property."""
import json, os
P = "Tomllib."
claims = []
def c(pid, status, thms, note):
    claims.append({"property": pid, "status": status, "theorems": [P + t for t in thms], "note": note})

c("C01", "proved", ["C01_parse_finishes"], "Full, FullError, Partial, PartialError are the only results; the model's fuel never runs out; the only other ending is one of the five panics of C31.")
c("C02", "proved", ["C02_result_says_what_happened", "C02_error_list_nonempty"], "")
c("C03", "proved", ["C03_display_full"], "For documents without an empty inline table, on which Display panics (C05).")
c("C04", "proved", ["C04_display_partial"], "")
c("C05", "proved", ["C05_display_panics_iff", "C05_display_ok_of_no_braces", "C05_display_panics", "C05_display_new_panics"], "")
c("C06", "proved", ["C06_leftover_not_reported", "C06_leftover_always_stale"], "The property is false of the code: proved negation, and that the reported leftover is always the one from before the call.")
c("C07", "proved", ["C07_line_numbers", "C07_stop_line", "C07_errors_located", "C07_array_newlines_not_counted"], "Line feeds between elements of an array are not counted by the code (proved witness), so 'line' means a line counted in this way.")
c("C08", "proved", ["C08_columns_zero"], "")
c("C09", "proved", ["C09_unknown_key"], "")
c("C10", "proved", ["C10_refused_edit_loses_keys", "C10_invalid_scalar", "C10_nothing_changes_iff", "C10_refused_exactly", "C10_no_children", "C10_refused_edit_keeps_text"], "The wish is false of the code (witness). Proved instead: exactly what a refused assignment takes away, for every reachable parser and every key but the empty one.")
c("C11", "proved", ["C11_set_scalar"], "")
c("C12", "proved", ["C12_other_values_unchanged"], "")
c("C13", "proved", ["C13_text_edited_only_there"], "For parsers that read a document completely, and every history of edits after that.")
c("C14", "proved", ["C14_same_structure"], "")
c("C15", "proved", ["C15_flat_array", "C15_others", "C15_text", "C15_stale_element", "C15_flat_table", "C15_table_children_stale", "C15_set_panics"], "The proviso about key[i] is needed (C15_stale_element). The children of a key after a flat inline table are not its names in general (C15_flat_table says what they are, C15_table_children_stale is a witness). Nested values panic (witness).")
c("C16", "proved", ["C16_table_header"], "The property is false of the code: proved for every document and table header that the edit is accepted without effect on the text.")
c("C17", "proved", ["C17_get_value_panics_iff", "C17_wish_fails", "C17_no_headers", "C17_any_time", "C17_several"], "The wish is false of the code (witness). The exact condition is proved for documents without arrays of tables that were read to their end and whose table headers are in order, and for documents in order with arrays of tables at any moment of a history of assignments (C17_any_time).")
c("C18", "proved", ["C18_date_from_str", "C18_date_from_digits", "C18_plus_accepted"], "Exact, for all texts. A plus sign is accepted in place of a digit (C18_plus_accepted).")
c("C19", "proved", ["C19_offset_from_str", "C19_time_from_str", "C19_long_fraction_rejected"], "Exact, for all texts.")
c("C20", "proved", ["C20_date_from_int", "C20_datetime_from_int", "C20_datetime_offset_from_int"], "All seven constructors.")
c("C21", "proved", ["C21_datetime_parse", "C21_print_injective"], "")
c("C22", "proved", ["C22_int", "C22_int_injective", "C22_from_str", "C22_wish_fails", "C22_whole_accepted"], "The wish about int_from_str and float_from_str is false of the code (witness); what they accept is described exactly. The argument of Value::int is any integer, not only an i64; Value::float is in C67.")
c("C24", "proved", ["C24_string_contents", "C24_astral_rejected"], "")
c("C25", "proved", ["C25_bool_from_str"], "")
c("C26", "proved", ["C26_combine_keys"], "")
c("C27", "proved", ["C27_children_nodup"], "")
c("C28", "proved", ["C28_duplicate_keys", "C28_parts_leak", "C28_section"], "C28_duplicate_keys: documents without arrays of tables whose table headers are in order. C28_section: section by section, below a header that is in order, in any document without arrays of tables. C28_parts_leak shows what the rule does to the parts of a repeated array.")
c("C29", "proved", ["C29_keys_unambiguous", "C29_children_unambiguous", "C29_chains", "C29_names_must_be_keys"], "")
c("C30", "proved", ["C30_panics_text", "C30_panics_iff", "C30_panic_after", "C30_wish_fails", "C30_no_headers", "C30_no_arrays"], "The wish is false of the code (witness). Proved: exactly when parse panics on a text without headers of arrays of tables, in terms of what the parser answers that has read the lines before the header at which it panics (Spec/Wall.lean); and that this only happens after an array below a table header that is not in order, never if every [ is first on its line.")
c("C31", "proved", ["C31_parse_panics", "C31_parse_panics_key", "C31_parse_panics_arr", "C31_parse_panics_partial", "C31_panics_there", "C31_panics_iff", "C31_panics_shut", "C31_panics_exactly", "C31_pairs"], "False of the code: three witnesses, and the exact list of panics that can happen. C31_panics_exactly says when a line is a panic, C31_pairs that no pair is one; left out are headers whose text begins with that of an open array of tables, but not name by name.")
c("C32", "proved", ["C32_values_are_found", "C32_section"], "C32_values_are_found: documents without arrays of tables whose table headers are in order. C32_section: section by section, in any document without arrays of tables; with C45_leaks this gives the values after every such document. (Arrays of tables: C46.)")
c("C33", "proved", ["C33_mixed_arrays", "C33_wish_fails", "C33_never_full", "C33_first", "C33_reported", "C33_never_again"], "The wish is false of the code (witness); what holds is proved for every text, wherever reading stops.")
c("C34", "proved", ["C34_invalid_dates", "C34_every_text"], "C34_invalid_dates, with keys: for documents without arrays of tables whose table headers are in order. C34_every_text: which dates are reported, and on which lines, for every text read to its end.")
c("C36", "proved", ["C36_writes_only_after_success", "C36_result_of_run"], "For the modelled part of tomlkit: the commands on arguments already split; the file system never fails (C68 has one that does).")
c("C37", "proved", ["C37_sequences_of_edits", "C37_edits_commute"], "")
c("C41", "proved", ["C41_file_lost", "C41_outcome", "C41_left_behind", "C41_empty_moment", "C41_saved"], "The wish is false of the code (witness). Proved instead: exactly when the file is lost, for every document and command line (an empty inline table in the text, all assignments made), and how every run leaves the files. At one moment of every saving run the file is empty.")
c("C42", "proved", ["C42_accepted_iff_valid", "C42_toml_example_rejected", "C42_redefinition_accepted"], "")
c("C23", "proved", ["C23_strings_read_back", "C23_scalar_read_back", "C23_ml_strings_read_back", "C23_ml_wish_fails"], "For every key; also for all other scalars, and for multi-line strings that do not contain their closing quotes (with a witness for those that do).")
c("C35", "proved", ["C35_printed_is_read_again"], "")
c("C38", "proved", ["C38_whole_and_parts", "C38_header_in_table", "C38_any_time", "C38_several"], "C38_whole_and_parts: for documents without arrays of tables; C38_any_time: for all documents in order. C38_header_in_table: a table header can add a part to an inline table.")
c("C39", "proved", ["C39_spelling_is_kept", "C39_values_stand_in_the_text"], "For every text read to its end, arrays of tables included. That the text is the one at the key: C13, C32.")
c("C40", "proved", ["C40_layout_does_not_matter"], "For all texts that are read to the end (C70), arrays of tables and panics included.")
c("C43", "proved", ["C43_read_to_the_end", "C43_meaning", "C43_partial_means_not_proper"], "")
c("C44", "proved", ["C44_printed_value_is_read", "C44_printing_panics_iff", "C44_printing_is_injective"], "")
c("C45", "proved", ["C45_section", "C45_leaks", "C45_in_order", "C45_invalid_tables", "C45_census", "C45_elements_leak", "C45_inner_pairs", "C45_pairs_lost"], "The wish is false of the code for arrays, inline tables and invalid dates below such headers (three witnesses). Proved: exactly which headers are reported, after any lines, and what a section without arrays does (C45_section, C45_in_order); whole documents without arrays below such headers (C45_invalid_tables, C45_census). C45_leaks: exactly the values that arrays below such a header enter. C59 has arrays of tables too.")
c("C46", "proved", ["C46_stray", "C46_walk_strays", "C46_listed_top", "C46_listed_exactly", "C46_walk", "C46_any_time"], "For documents in order, and at every moment of a history of assignments after that. The wish is false of the code (C46_stray); C46_walk_strays and C46_listed_top are exact.")
c("C47", "proved", ["C47_meaning", "C47_any_text", "C47_prefix", "C47_reopened", "C47_siblings", "C47_subtable"], "The last four show what happens to documents that are not in order.")
c("C48", "proved", ["C48_outcome", "C48_after_reading", "C48_any_time", "C48_several"], "C48_outcome asks that the keys of the new parts are free (they are just after reading a document in order, C48_after_reading, and at every moment of a history of assignments after that, C48_any_time).")
c("C49", "proved", ["C49_get_value", "C49_get_value_fails", "C49_unquoted", "C49_has_value", "C49_has_children", "C49_get_children", "C49_get_children_fails", "C49_order", "C49_too_few_answers"], "For the modelled part of tomlkit. C49_too_few_answers: an index panic.")
c("C50", "proved", ["C50_one_value", "C50_assigned", "C50_not_assigned", "C50_not_threes", "C50_zulu_dropped"], "For the modelled part of tomlkit. C50_zulu_dropped: a Z offset is lost on the way.")
c("C51", "proved", ["C51_edited_is_read_again", "C51_same_kinds", "C51_written_needed"], "C51_written_needed: an integer with more text behind it is accepted by set_value and adds a key to the printed document.")
c("C52", "proved", ["C52_reading_on", "C52_errors", "C52_last_is_printed", "C52_first_not_printed"], "")
c("C53", "proved", ["C53_in_order", "C53_as_if_alone", "C53_every_moment", "C53_others_untouched", "C53_not_all_or_nothing", "C53_output_overwritten"], "For the modelled part of tomlkit. The last two show what is not promised.")
c("C54", "proved", ["C54_printed", "C54_printed_failure", "C54_quiet_ignored", "C54_status", "C54_failure_exits_zero", "C54_get_value", "C54_set_value"], "For the modelled part of tomlkit; how an argument is split into fields is an arbitrary function.")
c("C55", "proved", ["C55_answers", "C55_assign"], "Refinement: the state of the parser follows the edited document. Assignments outside of the stated ones are covered by C15, C45, C46 and C48.")
c("C56", "proved", ["C56_read_again", "C56_sound_needed", "C56_strict_needed"], "The printed text is that of a properly written document with the same paths; C47 and C55 then give the answers.")
c("C57", "proved", ["C57_commute", "C57_undo", "C57_last", "C57_structure_needed", "C57_elsewhere", "C57_several_commute", "C57_several_undo", "C57_several_last"], "Exchanging parts of a tree commutes, and is undone by putting the part back; two parsers that stand for the same document look the same.")
c("C58", "proved", ["C58_accepted_iff", "C58_any_text", "C58_first_error", "C58_table_after_array", "C58_inline_extended", "C58_value_panics"], "C47 gives one direction; for the other, each kind of line that leaves the list of errors empty is shown to be in order, in every state that stands for the lines before it.")
c("C59", "proved", ["C59_report", "C59_any_text", "C59_elements_leak", "C59_array_header", "C59_array_header_enters"], "The specification (Spec/Report.lean) computes the list of errors from the lines; headers of arrays of tables that are not in order (except as the last line), second values that are not simple, and arrays below a bad header are outside of its hypothesis.")
c("C60", "proved", ["C60_reads", "C60_sets"], "For commands all of whose keys have answers (C49 and C54_printed_failure say what happens otherwise). The option parser and the splitting of arguments into fields are not modelled: the latter is an arbitrary function.")
c("C61", "proved", ["C61_command_fails", "C61_stops", "C61_help", "C61_several"], "The texts that come from elsewhere (output of {:?}, help text, reasons given by the operating system) are an arbitrary wording. Panics are not covered: too few words for yes or no (C49_too_few_answers), keys of tables with a header (C17).")
c("C62", "proved", ["C62_stops", "C62_longest", "C62_as_if_alone", "C62_before_is_kept", "C62_any_time", "C62_unfinished_leaks"], "For every text that makes no panic. The line number counts the line breaks between the lines and inside multi-line strings (C07).")
c("C63", "proved", ["C63_when_returned", "C63_later", "C63_wish_fails", "C63_emptied", "C63_emptied_panics"], "The order of lines is stated for programs that do not change the list themselves before.")
c("C64", "proved", ["C64_texts", "C64_dates", "C64_numbers", "C64_same"], "The logged warning is not modelled.")
c("C65", "proved", ["C65_datetimes", "C65_values", "C65_printed_alike", "C65_results"], "The equality of the internal syntax tree is not modelled: the program never uses it.")
c("C66", "proved", ["C66_values_stay", "C66_lines_added", "C66_in_order", "C66_top_names", "C66_wish_fails", "C66_wish_fails_later"], "Without the restriction on arrays of tables it is false: C66_wish_fails, C66_wish_fails_later.")
c("C67", "proved", ["C67_valid_iff", "C67_text", "C67_read_back", "C67_whole_becomes_integer", "C67_injective", "C67_assigned", "C67_wish_fails"], "The documented wish is false: whole numbers are not valid floats (C67_wish_fails). The text of an f64 is modelled after std: the shortest decimal that is rounded to the number.")
c("C68", "proved", ["C68_every_moment", "C68_finished", "C68_not_written", "C68_not_text", "C68_good_luck", "C68_good_luck_all", "C68_several", "C68_truncated", "C68_half_a_character"], "Files hold bytes; UTF-8 is that of Lean's library. Other programs that change the files at the same time, and two names for one file, are not modelled.")
c("C69", "proved", ["C69_names", "C69_main", "C69_input_file", "C69_empty_line", "C69_not_text", "C69_status"], "That there is no file with an empty name is a hypothesis of C69_empty_line.")
c("C70", "proved", ["C70_read", "C70_taken", "C70_iff", "C70_unique", "C70_meaning", "C70_read_means"], "The rules are DocTaken in Spec/Taken.lean. C07, C40, C45 to C48, C52, C58, C59, C62 and C66 are proved for these texts.")
c("C71", "proved", ["C71_places", "C71_reading_on", "C71_in_turn", "C34_every_text"], "The places are docSpots in Spec/Spots.lean.")
c("C72", "proved", ["C72_from_the_text", "C72_any_time", "C72_wherever_it_stops"], "When a line gives a value to a key: Spec/Source.lean.")
c("C73", "proved", ["C73_shows_there_only", "C73_same_structure", "C73_printed_alike", "C73_otherwise"], "Programs that hold on to the list of names (a RefMut that is kept or leaked) are not modelled.")
c("C74", "proved", ["C74_inside_sections", "C74_sections", "C74_groups", "C74_otherwise"], "C74_otherwise shows by example where the order does matter.")

c("C75", "proved", ["C75_answers", "C75_read", "C75_assign", "C75_either_order", "C75_one_document", "C75_walk"], "Follows C47, C52 and C55. The names at the top level may be listed in another order when there are stray ones (see C46).")
claims.sort(key=lambda x: x["property"])

json.dump({"claims": claims}, open(os.path.join(os.path.dirname(__file__), "..", "MANIFEST.json"), "w"), indent=1)
