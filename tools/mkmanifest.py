"""Writes MANIFEST.json from the table below."""
import json, os
C = []
def c(prop, status, theorems, note):
    C.append({"property": prop, "status": status, "theorems": ["VJ." + t for t in theorems], "note": note})

c("C01", "proved", ["C01_rejected", "C01_accepted"],
  "Rejection by the object-level check, the reason given, and that acceptable documents fail only for a field.")
c("C02", "proved", ["C02_not_json", "C02_rejected_untouched", "parseBytes_iff", "looseDocument_document"], "Down to the text: the parser is modelled and proved to accept exactly the texts of an independent grammar (Spec/LooseText.lean), which contains every JSON text nested at most 300 deep and the liberties fastjson takes.")
c("C03", "proved", ["C03_member_order"], "For every set of struct types closed under embedding.")
c("C04", "proved", ["C04_unknown_members"], "For every set of lenient struct types closed under embedding.")
c("C05", "proved", ["C05_fieldwise", "C05_independent"], "")
c("C06", "partial", ["C06_default", "C06_text_default_exact", "C06_text_default_partial", "Examples.C06_backslash_default", "C06_required_fails", "C06_required_error", "C06_absent_keeps", "C06_present_not_missing"],
  "The default value is specified by the inductive relation DefaultValue. Partial because a string default with backslashes is not set to its text but to what the Go compiler reads in it (witness).")
c("C07", "partial", ["C07_null_rejected", "C07_null_keeps", "C07_null_required", "Examples.C07_null_clears_named_bytes"],
  "The last sentence of the property is false for fields of a named byte-slice type (witness C07_null_clears_named_bytes).")
c("C08", "partial", ["C08_decoded_integer_partial", "C08_unsigned_and_64_bit_exact", "C08_rejects", "C08_accepts_in_range", "Examples.C08_negative_overflow_is_accepted"],
  "Exact for unsigned and 64-bit types; narrow signed types have no lower bound check (witness), so the value is only congruent below the minimum.")
c("C09", "partial", ["C09_slice_elements_partial", "C09_array_elements_partial", "C09_map_values_partial", "C09_chained_name_partial", "C09_named_collections_partial", "Examples.C09_overflow_is_accepted"],
  "What the code does instead: the number is reduced to the width of the type. The property itself is false (witness).")
c("C10", "partial", ["C10_slice_mirrors_array_partial", "C10_slice_of_scalars", "C10_old_contents_irrelevant", "C10_slice_accepts", "C10_named_slice_partial"],
  "Full for scalars and strings; for pointers the pointed-to type must not be a time, UUID or map, for which the slice may end early (see C16).")
c("C12", "partial", ["C12_slice_elements_partial", "Examples.C12_stale_field_survives"],
  "Exact description of what survives; the property is false for slices of structs (witness).")
c("C11", "proved", ["C11_slice_storage", "C11_capacity"], "For documents without too long a base64 text for a fixed-length byte array inside the elements (see C20).")
c("C14", "proved", ["C14_array_field_iff", "C14_named_array_iff", "C14_wrong_length_rejected", "C14_named_wrong_length_rejected", "C18_failing_field_kept"], "The iff assumes that element errors are kept (C16); the length test itself needs no such hypothesis.")
c("C20", "partial", ["C20_outcomes", "C20_decode_returns", "C20_only_panic", "C20_typed", "C20_named_bytes_exactly", "C20_history_typed", "C20_unmarshal_outcomes", "C20_unmarshal_only_panic", "C20_decode_returns_partial", "C20_no_panic_partial", "C20_history_returns_partial", "C20_unmarshal_returns_partial", "Examples.C20_fixed_bytes_panic"], "On every document and every text the decode returns a value of its type, or panics; it panics only when a base64 text is too long for the fixed-length byte array it stands at, so the property as stated is false (witness) and holds for packages without such arrays and for documents without such texts.")
c("C15", "proved", ["C15_map_field", "C15_named_map"], "")
c("C16", "partial", ["C16_bad_element_is_an_error_partial", "C16_cut", "C16_struct_exact", "Examples.C16_error_is_swallowed", "Examples.C16_stale_time", "Examples.C16_map_is_swallowed", "C16_cut_maps", "Examples.C16_map_half_filled"], "False for slices of times, UUIDs and maps (witnesses). C16_cut_maps says what a slice of maps holds after a decode that reported success. For times, UUIDs and pointers to them C16_cut says exactly what the slice holds, and C16_struct_exact describes all successful decodes of structs with such fields.")
c("C43", "proved", ["C43_nested", "C43_nested_ptr", "C43_nested_value", "C43_nested_pointer", "C43_nested_slice", "C43_nested_map", "C43_nested_list_error", "C43_nested_map_error"],
  "Fields that hold a nested value, a pointer, a slice, an array or a map of a type with its own decoder, values and errors. A struct or slice element is decoded into what was there before, as the nested decoder would be.")
c("C17", "partial", ["C17_error_paths_partial", "C17_error_paths_text_partial", "C17_cause_partial", "C17_cause_text_partial", "Examples.C17_strings_lose_field", "Examples.C17_nested_slices_lose_path", "Examples.C17_bytes_lose_path", "Examples.C17_embedded_leading_dot", "Examples.C17_named_string_root"],
  "For types without embedded structs, byte fields, or slice fields of strings, times, UUIDs, slices or maps; for those the generated code reports wrong paths, witnesses included. C17_cause_partial covers all types but anonymous structs: the cause is right and the path names nothing else than what leads to the place, but may leave names out.")
c("C18", "proved", ["C18_failing_prefix", "C18_failing_field_kept"], "")
c("C19", "partial", ["C19_encode", "C19_encode_json", "C19_decode_scalar", "C19_decode_scalar_text", "C19_decode_struct", "C19_decode_slice_partial", "C19_decode_array_partial", "Examples.C19_struct_forgets", "Examples.C19_slice_null", "Examples.C19_slice_error", "Examples.C19_bytes_null", "Examples.C19_slice_stale"],
  "Encoding: every chain of declarations. Decoding: every chain that ends in a predeclared type, a time or a UUID; a chain that ends in a struct decodes a new struct (the property fails for fields the document leaves out, witness). For a name of a named slice or array only successful decodes of arrays agree; null and errors differ (witnesses).")
c("C44", "proved", ["C44_decode_again", "C44_only", "C44_any_number", "C44_unmarshal_again", "Examples.C44_first", "Examples.C44_not_other"],
  "Every type of the package; types declared elsewhere must have the property themselves. Anonymous struct types are outside the model.")
c("C32", "partial", ["C32_not_read_partial", "Examples.C32_written"], "Never read; but written, under the name - (witness).")

c("C27", "proved", ["C27_lossless", "C27_injective", "C27_safe"], "")
c("C29", "partial", ["C29_base64", "C29_bytes_field", "C29_fixed_field", "C29_named", "C29_written", "C29_round_trip", "C29_written_partial", "C29_round_trip_partial"], "Codec, decoding and encoding of fields, and both together, whenever the output is JSON (exactly when: C21_exact). Partial: an array of zero bytes without omitempty is written as null; too long a text for an array panics (C20).")
c("C30", "proved", ["C30_uuid", "C30_accepts", "C30_field", "C30_written", "C30_round_trip", "C30_written_partial", "C30_round_trip_partial"], "Codec, decoding and encoding of fields, and both together, for every UUID and every surrounding value whose encoding is JSON (exactly when: C21_exact), in structs whose JSON names are distinct.")
c("C41", "proved", ["C41_no_error", "C41_paths"], "")
c("C42", "partial", ["C42_read", "C42_accepts", "C42_default_layouts", "C42_written", "C42_round_trip", "C42_round_trip_zero", "C42_written_partial", "C42_round_trip_partial"], "On the writing side a layout tag naming a constant (time.RFC822) is used literally.")

c("C21", "partial", ["C21_exact", "C21_if_json", "C21_trouble_not_json", "C21_output_is_json_partial", "C21_nil_receiver", "C21_no_trouble_partial", "encode_document", "enc_unique", "Examples.C21_missing_comma", "Examples.C21_empty_embedded", "Examples.C21_name_with_quote"],
  "False after nil pointers, for embedded structs without members, for NaN and infinities and for JSON names with quotes (witnesses). C21_exact says for which values exactly: the output is a JSON document if and only if nothing of this kind is in the parts of the value that are written. Floats are assumed to be printed as strconv does (numbers, NaN, +Inf, -Inf).")
c("C22", "partial", ["C22_members", "C21_if_json", "C22_members_partial", "enc_unique"], "Whenever the output is JSON (exactly when: C21_exact). Which fields are left out is said by Omitted: besides zero values with omitempty these are embedded structs that are zero; where the code's idea of zero is wrong see C23.")
c("C23", "partial", ["C23_if_json_partial", "C23_omitempty_partial", "C23_written", "Examples.C23_wrong_omissions"], "False for UUIDs, arrays and pointers to pointers (witness).")
c("C24", "partial", ["C24_nil_receiver_partial", "C24_named_nil", "C24_nil_field_partial", "C24_nil_element_partial", "Examples.C24_nil_not_null", "Examples.C24_nil_uuid_panics"], "False for slices in slices, pointers to times, types without fields, pointers to UUIDs (witnesses).")
c("C25", "proved", ["C25_appends", "C25_keeps", "C25_marshalJSON", "methods_tame"], "Hand-written encoders of types that are not part of the package are assumed to append only.")
c("C28", "partial", ["C28_written", "C28_round_trip", "C28_written_partial", "C08_accepts_in_range", "C28_round_trip_partial"], "Whenever the output is JSON (exactly when: C21_exact), in structs whose JSON names are distinct; zero with omitempty is not written, and a default takes its place (C31_lost_zero).")
c("C31", "partial", ["C31_if_json_partial", "C31_round_trip_partial", "C31_round_trip_exact_partial", "encoded_fills", "Examples.trip_back", "Examples.C31_lost_nil_slice", "Examples.C31_lost_nil_time", "Examples.C31_lost_dash", "Examples.C31_lost_zero", "Examples.C31_lost_named_nil", "Examples.C31_lost_nil_pointer"],
  "False for several kinds of values (witnesses: nil inner slices, nil *time.Time, fields named -, zero with omitempty and default, nil named slices, pointers to nil pointers); proved for every value that has none of these (Lossless), of packages with distinct names (TripPackage), whenever the output is JSON (exactly when: C21_exact).")
c("C33", "partial", ["C33_spliced", "C33_spliced_partial", "C33_read_from_parent", "Examples.C33_zero_left_out"], "Reading in full; writing whenever the output is JSON (exactly when: C21_exact). An embedded struct that is zero contributes nothing, although it has no omitempty (witness).")
c("C34", "partial", ["C34_isZero_partial", "C34_zero_value_partial", "C34_true_partial", "C34_false_partial", "Examples.C34_array_field_never_zero", "Examples.C34_named_array_inverted", "Examples.C34_empty_slice"], "False for structs with fixed-length arrays, named arrays of structs and empty named collections (witnesses); exact otherwise.")
c("C38", "partial", ["C38_field_tags_partial", "C38_options_partial", "C38_only_these", "Examples.C38_age", "Examples.C38_escapes", "Examples.C38_double_quoted_tag_lost", "Examples.C38_second_option_unseen"], "In full for tags between backquotes; a tag written as an interpreted string is ignored (witness).")
c("C39", "partial", ["C39_comment_line", "C39_other_line", "C39_once", "C39_tagged_partial", "C39_untagged_partial", "C39_only_declared", "C39_exact", "C39_own_tags", "C39_chosen_own", "Examples.C39_item_decodes", "Examples.C39_srcFile", "Examples.C39_group_tags_lost", "Examples.C39_both_tags", "Examples.C39_recursive_slice_never_ends"], "No hypothesis for 'nothing twice'. C39_exact says for every file which comment decides (the first one with tags that stands at the type or hands its tags on to it) and that exactly what its tags ask for is generated. That the tags at the type itself decide holds for files without tags inside groups of types; in a group they can be overridden (witness).")
c("C40", "partial", ["C40_flattened_partial", "C40_in_place", "C40_from_declarations", "C40_nothing_to_inline", "C40_unique", "Examples.C40_user", "Examples.C40_own_name_kept", "Examples.C40_named_foreign_kept", "Examples.C40_cycle_never_ends"], "Named fields of types of other packages are not replaced (witness).")
c("C45", "partial", ["C45_every_directory_once", "C45_errors", "C45_module_root_partial", "Examples.C45_tree", "Examples.C45_parent_module_missed", "Examples.C45_foreign_module"], "The listing in full; the module root among the directories the path spells out (witnesses for relative paths).")

c("C36", "proved", ["C36_as_if_alone", "C36_result_stays", "C36_document_stays", "C36_never_blocked", "C36_unmarshal", "C36_parse_error", "readsLikeFill_exists", "Examples.C36_schedule"],
  "Small-step model of any number of calls with pools; that decoded strings are copies of the parser's memory is part of the model (the generated code converts with string(b)), not derived from a memory model.")
c("C37", "proved", ["C37_one_owner", "C37_lost_how", "C37_lost_for_good", "Examples.C37_parser_lost"],
  "A call that fails to parse does not return its parser (witness).")
c("C35", "partial", ["C35_reset_partial", "C35_reset_zero_partial", "C35_isZero_partial", "C35_named_slice", "C35_named_map_keeps_keys",
  "Examples.C35_slice_not_zero", "Examples.C35_named_map_not_zero"],
  "Reset returns and leaves the zero value except that slices and maps which were not nil stay, empty. Exactly zero, IsZero true and encoded as new when there were no slices or maps to keep. The full statement is false: a struct with a non-nil slice is not zero after Reset, and a named map keeps its keys; both have witnesses.")
c("C13", "partial", ["C13_reset_as_new_partial", "C13_named_slice", "C13_named_map_partial", "C13_history_partial",
  "Examples.C13_stale_tail", "Examples.C13_named_map_null", "Examples.C13_failed_decode_differs"],
  "Same error for every document, same value up to empty/nil collections when it succeeds, after any history of decodes and resets, for packages whose slices have scalar, string, bytes or pointer elements (or for any receiver without leftovers beyond its slice lengths). The full statement is false for slices of structs, for named maps with null, and for the value left by a failing decode; each has a witness.")
c("C46", "partial", ["C46_append_returns_partial", "C46_encode_returns_partial", "C46_encode_succeeds_partial", "C46_nil_returns", "C46_document_partial",
  "C46_only_panic", "C46_panics_exactly", "C46_succeeds_exactly", "Examples.C46_nil_uuid_never_returns"],
  "MarshalJSON panics exactly when a nil *uuid.UUID is to be written (C46_panics_exactly, witness); for every other value the property holds.")
c("C26", "proved", ["C26_same_document", "C26_every_order", "C26_each_once", "C26_map_field", "C26_same_keys", "C26_same_values", "C26_same_document_partial", "C26_every_order_partial", "C26_each_once_partial", "C26_map_field_partial", "Examples.C26_both_orders"],
  "Maps at any depth, every order; nothing is assumed of the value: if its encoding denotes a document in one order, it does in every order, and the documents are the same up to order. Hand-written encoders are assumed not to depend on the order.")
c("C47", "proved", ["C47_old_reader", "C47_new_reader", "C47_added_fields", "C47_old_reader_text", "C47_written_by_new_partial", "Examples.C47_strict_old_reader"],
  "In addition (partial, see C31): what the newer version encodes, the older one decodes. A strict older version rejects the added members (witness).")
c("C48", "proved", ["C48_known_members", "C48_strict_success", "C48_strict_iff", "C48_rest_same"], "")
c("C49", "proved", ["C49_every_value", "C49_injective", "C49_same_text", "C49_decoded"],
  "Conditions on the declarations only (PlainPackage, EncPackage). Documents nested more than 300 deep are refused by the parser.")
c("C50", "proved", ["C50_text", "C50_append", "C50_isZero"], "Hand-written methods and methods of other packages are assumed not to look beyond the length either (SpareBlind).")
c("C51", "partial", ["C51_finds", "C51_sound", "C51_unknown", "C51_first", "Examples.C51_shop", "Examples.C51_shop_any", "Examples.C51_local_type_taken"],
  "Names declared inside functions count as declared (witness: the local type of a function is inlined), so the directory found declares the name somewhere, not necessarily at top level.")
c("C52", "partial", ["C52_sound_partial", "C52_resolves_partial", "C52_other_modules_partial", "Examples.C52_neighbour", "Examples.C52_root_package"],
  "False in two cases (witnesses): the package in the module's root directory is looked for in a directory that is named like the module, and the path of another module that starts with the letters of this one is looked for inside this one.  Proved for all other imports.")

c("C53", "partial", ["C53_names_distinct", "C53_tagged_partial", "C53_untagged_partial", "C53_nothing_else", "C53_reads_partial", "C53_writes_partial", "C53_chosen", "C53_not_chosen", "C53_chosen_reads", "C53_chosen_writes", "C53_found_struct", "Examples.C53_item_strict",
  "Examples.C53_file", "Examples.C53_user_read", "Examples.C53_user_written", "Examples.C53_user_strict",
  "Examples.C53_order", "Examples.C53_order_read", "Examples.C53_order_written"],
  "With the tags C39 chooses, for every file, groups with comments inside included (C53_chosen and companions), and with tags in backquotes (see C38); files that mention types without generated methods, fields of a type of another package of the module that is not a struct, and slices named for a type of such a package are outside the model (link returns unsupp). Writing under the conditions of C22.")
c("C54", "proved", ["C54_written_out", "C54_determined", "Examples.C54_example"], "")

c("C55", "proved", ["C55_alike", "C55_unrelated", "C55_renamed", "C55_twins", "Examples.bag_unrelated"], "")

c("C56", "partial", ["C56_decoder_partial", "C56_encoder_partial", "C56_isZero_partial", "C56_reset_partial",
  "Examples.C56_uuid_list", "Examples.C56_deep_list", "Examples.C56_seven_slices"],
  "Exact in both directions. Missing: packages with anonymous struct types, arrays of named slices, arrays and maps, string literals with escapes for bytes above 7f, and tag texts with a backslash before a quote, which are not modelled. The methods called on other types are assumed to exist.")

c("C57", "partial", ["C57_only_two_files", "C57_refused", "C57_complete", "C57_finished_partial", "C57_killed", "C57_repeat_partial", "C57_recover", "C57_stuck", "C57_blocked",
  "Examples.C57_undisturbed", "Examples.C57_repeated", "Examples.C57_blocked_module", "Examples.C57_recovered", "Examples.C57_truncated"],
  "The full property is false twice. A run killed before the package clause of a file is complete blocks every later run in the module until the file is removed (C57_blocked, C57_stuck); otherwise, or once the files are removed, running again gives the files of an undisturbed run (C57_repeat_partial, C57_recover; the source file must sort before the generated ones and must not import its own directory). A write error while formatting is dropped, and a run that ends normally leaves a truncated file (C57_truncated).")
c("C58", "proved", ["C58_frame", "C58_others", "Examples.C58_ring"],
  "A memory with addresses: slices are windows of arrays, maps and pointers are addresses. Invariant: the touched part is closed under slices and maps. A call that panics is not covered (no memory is returned). Types of other packages are assumed to keep to the same (MKeep).")
c("C59", "proved", ["C59_returns", "C59_panics", "C59_apart", "C59_somewhere", "Examples.C59_shared"],
  "Refinement between the memory model and the tree model the other properties are about: same error, same panic, same value, still no sharing, nothing else changed. So every decoding theorem on trees holds for receivers without sharing. Examples.C59_shared: with two fields on one array it would be false. Types of other packages are assumed to do in memory what they do on trees (MSim).")
c("C60", "partial", ["C60_copy_partial", "C60_declared_partial", "Examples.C60_slice_changes", "Examples.C60_map_changes", "Examples.C60_pointer", "Examples.C60_ints"],
  "False for slice and map fields: the second document is written into the same array and the same map (C60_slice_changes, C60_map_changes). True for values without slices and maps except behind pointers, and for receivers of declared slice and map types.")
c("C61", "proved", ["C61_marshalTo", "C61_marshalJSON", "C61_nil", "C61_isZero", "C61_same", "Examples.C61_shared", "Examples.C61_circle", "Examples.C61_ring"],
  "For every value in memory that stands for a finite tree, with any sharing. Cyclic values stand for no tree: Examples.C61_circle shows that encoding a ring of pointers never returns. Types of other packages are assumed to do in memory what they do on trees (MSim).")
c("C62", "proved", ["C62_frame", "C62_others", "C62_returns", "Examples.C62_ring_resets", "Examples.C62_ring", "Examples.C62_self"],
  "C62_frame for any memory; C62_returns is the refinement between memory and trees. Examples.C62_self: a value that is an element of its own slice is never reset. Types of other packages are assumed to keep to the same frame (MClear) or to do what they do on trees (MSim).")
c("C63", "partial", ["C63_copy_partial", "Examples.C63_slice_changes", "Examples.C63_map_changes", "Examples.C63_bytes_change", "Examples.C63_pointer"],
  "False for slices, bytes and maps, which Reset clears in place (C63_slice_changes, C63_map_changes, C63_bytes_change). True for values without slices and maps except behind pointers.")
c("C64", "proved", ["C64_parse", "C64_write", "C64_injective", "C64_mended", "C64_read_back", "C64_survives", "C64_any_text", "C64_accepted", "Examples.C64_latin1"],
  "The parser and the string writer modelled once more on bytes. C64_parse and C64_write are why the other theorems may speak of characters: for texts in UTF-8 both give the same. Mended (Spec/Bytes.lean) defines the replacement by U+FFFD.")
c("C65", "proved", ["C65_not_json_refused", "C65_own_output_refused", "C65_accepted_is_json", "C65_not_even_loose", "Examples.C65_infinities_pass"],
  "Trouble (Spec/EncodeExact.lean) says which values these are (C21_exact). The condition on floats is needed: NaN and the infinities are written as words, which the parser takes for numbers (witness).")
c("C66", "proved", ["C66_too_deep", "C66_refused", "C66_survives_iff", "C66_bounded", "C66_bounded_round_trip", "C66_plain", "Examples.C66_long_list"],
  "Nests (Spec/Deep.lean) is the bound that can be read off the declarations. Which values can be encoded and decoded at all is C31 and C49, whose conditions these theorems have.")
c("C67", "proved", ["C67_two", "C67_together", "C67_any_order", "C67_texts", "Examples.C67_default_comes_back", "Examples.C67_embedded_pointer_forgets"], "The two witnesses show that the conditions are needed.")
c("C68", "proved", ["C68_strict_parent", "C68_strict_embedded", "C68_strict_parent_own_output", "C68_strict_embedded_own_output", "Examples.C68_refused"], "The own-output theorems speak of embedded structs whose fields all have names.")
c("C69", "proved", ["C69_read_alike", "C69_written_twice", "C69_own_output_refused", "Examples.C69_one_for_both", "Examples.twin_refused"], "The second half is what the code does; encoding/json would drop such fields.")

c("C70", "proved", ["C70_accepted", "C70_ends", "C70_endless_refused", "Examples.C70_srcFile", "Examples.C70_selfSlice", "Examples.C70_selfInline", "Examples.C70_other_refused"], "Refusing is a panic. The front end only: what the renderers do with field types is C56.")
c("C71", "partial", ["C71_fails_exactly", "C71_append_fails_exactly", "C71_names_first_partial", "C71_one_name", "C71_succeeds_exactly", "TimeSample.C71_wrong_place"],
  "When it fails: proved. Which place is named: false when the first such time is inside an embedded struct, whose error stays in the writer until the next field reports it as its own (C71_wrong_place); true otherwise. Items of lists inside lists and maps are not named by the code, and the type's own name in front of the index of a declared list is not modelled.")
c("C72", "proved", ["C72_as_if_alone", "C72_error", "C72_result_stays", "C72_one_owner", "C72_never_blocked", "C72_marshal", "writesLikeMarshal_exists", "Examples.C72_schedule"],
  "The writer's chunks and their pool are those of easyjson's buffer.Buffer, modelled from its documented behaviour; when it changes to a new chunk is left open, so every policy is covered.")
c("C73", "partial", ["C73_document_partial", "C73_text_partial", "Examples.nodeEnv_once", "Examples.nodeEnv_decodes", "Examples.C73_doubles", "Examples.C73_no_bound", "Examples.C73_text_doubles"],
  "Proved for packages in which no key is read into two fields (of a struct and the structs it embeds). Without that it is false: a recursive struct with two pointer fields of one JSON name doubles the value at every level, 2^299 from a text of 1796 characters. Counted are the values reachable from the receiver, with the spare capacity of slices, not the garbage of a decode.")
c("C74", "proved", ["C74_alone", "C74_together", "C74_interleavings", "C74_any_order", "Examples.pair_apart", "Examples.C74_pair", "Examples.C74_joint"],
  "Calls are whole: what happens inside concurrent calls is the subject of C36, C37 and C72. Types of other packages are assumed to do in memory what they do on trees (MSim). C74_joint: variables that share an array, for which the order matters.")
c("C75", "proved", ["C75_append", "C75_text", "Examples.C75_item", "Examples.C75_fork", "Examples.C75_shared"],
  "Integers are those of 64 bits; a float has at most B characters and a time at most B for each character of its layout, for any B. Hand-written encoders of other packages are assumed to be bounded likewise. Values are counted as trees: C75_shared is a memory of k structs whose text has 2^k characters, because pointers are shared.")
c("C76", "proved", ["C76_new_memory", "C76_survivor", "C76_copy", "C76_independent", "Examples.C76_dict"],
  "Which values survive is the subject of C31 and C49: C76_copy is about every value of a plain type, C76_survivor about every value to which C31 applies. Text nested more than 300 deep is refused by the parser. Equal up to the spare capacity of slices.")

c("C77", "partial", ["C77_spelling", "C77_document_partial", "C77_text_partial", "C77_verdict_partial", "Examples.C77_box", "Examples.box_texts",
  "Examples.C77_slices_of_maps", "Examples.C77_repeated_keys"],
  "Partial because the property is false of slices of maps (C77_slices_of_maps is a witness); proved for every package without them. C77_spelling has no exception. Hand-written methods are assumed not to look at the order of members. The same contents: maps compared key by key, spare capacity included.")

c("C78", "partial", ["C78_place_partial", "C78_place_text_partial", "C78_rejected", "C78_required", "MessageSample.C78_ambiguous"],
  "Partial because it is false of names with dots (C78_ambiguous: two documents wrong at different places have the same error) and because C17, on which it rests, has exceptions (slices of maps and a few others). Proved when JSON names and keys have no dots and no apostrophes. The texts of errors of other packages (fastjson, strconv, time) are left open; they are assumed not to look like 'error parsing'.")
c("C79", "partial", ["C79_wraps_partial", "C79_percent", "C79_doubled", "MessageSample.C79_lost"],
  "Partial because it is false of JSON names with a percent sign, which become part of a format (C79_percent, C79_lost). Proved for all other names. fmt.Errorf is modelled for formats of text and one-letter verbs; what %q makes of a key is left open.")

c("C80", "partial", ["C80_directory", "C80_methods_partial", "C80_passes_partial", "WalkSample.C80_declared_twice"],
  "Partial because it is false when a package of the module declares a type twice, in files for different systems: the decoder can read one version and the encoder write the other (C80_declared_twice). Proved when nothing is declared twice in a directory; C80_directory without that. Single declarations may change places, which covers all orders of files. Within one pass the same question is taken to have the same answer. The order of imports in the generated file is left to the library that writes them.")
c("C81", "partial", ["C81_absolute", "C81_relative_partial", "C81_dotdot", "C81_ends", "PathSample.C81_above", "PathSample.C81_beside"],
  "Partial because it is false for relative paths: a go.mod above the working directory is not found (C81_above), and after .. the search goes down to the working directory and takes its module (C81_beside). C81_absolute is the full claim for absolute paths, C81_relative_partial and C81_dotdot say exactly what is taken for the others. No symbolic links.")

c("C82", "proved", ["C82_reads", "C82_accepts", "C82_holds", "Examples.Times.goTimes", "Examples.Times.leapDay_names"],
  "time.Parse is modelled (Model/TimeText) from its documented behaviour in go1.20; GoTimes says that the functions of package time are those of the model for layouts of the elements it knows, and goTimes that this can be met. Spec/TimeText is independent of it: it counts days one by one from 0001-01-01.")
c("C83", "partial", ["C83_same_partial", "C83_shifted", "C83_field_partial", "C83_value_partial", "C83_lossless", "C83_plain", "Examples.Times.C83_seconds_lost", "Examples.Times.C83_years_lost"],
  "Partial because it is false: an offset with seconds is written without them, so the instant moves by these seconds (C83_seconds_lost; C83_shifted says exactly how), and years beyond 9999 are written but not read (C83_years_lost). Proved for all times with a year from 0 to 9999 and an offset of whole minutes below 25 hours. C83_value_partial is C31 with such times: nothing is assumed of the time functions any more. C83_plain discharges what C21 asks of them.")
c("C84", "partial", ["C84_shows_partial", "C84_stable", "C84_field_partial", "Examples.Times.C84_swallowed",
  "C84_constants", "C84_constants_field", "Examples.Times.C84_day_lost"],
  "Partial because it is false of layouts in which one element swallows a part of the next (C84_swallowed: 05.04) and of the tags time.DateOnly, time.DateTime and time.TimeOnly (C84_constants: the tag itself is written, and refused), and because layouts with names of months, days or zones, one-digit elements, twelve-hour clocks and other fractions are not modelled. Proved for all layouts of the elements 2006 01 02 15 04 05 .999999999 Z07:00 and other characters that keep apart.")

c("C85", "proved", ["C85_every_value", "C85_injective", "C85_same_text", "marshalText_some", "Examples.Kept.good", "Examples.Kept.C85_zone_lost"],
  "C49 for packages that also have times and floats (Kinds says which). The conditions on times are about calendar and offset only (GoodTime); those on floats are that the text of the float is a number and reads back as the float. C85_zone_lost shows why the zero instant has to be in UTC. Nested at most 300 deep, as in C49.")
c("C86", "partial", ["C86_numbers", "C86_reads_partial", "C86_close_partial", "C86_field_partial", "C86_text", "C86_text_injective", "C86_survives_partial", "C86_comes_back_partial", "C86_values", "C86_exponent", "Examples.FloatTexts.C86_lost"],
  "Proved: every JSON number is read, with its sign; numbers without an exponent, and whole numbers below 2^53 with an exponent from 0 to 22, are read as the nearest float; the text of every finite float determines it; floats written without an exponent come back, and so do values of plain types all of whose floats are such. The rest is false: 3e-5 is not read as the nearest float (C86_exponent), and 1005000 is written 1.005e+06 and comes back as 1004999.9999999999 (C86_lost). What holds instead: every number from 2^-1000 to 2^1000 is read, and every float from 2^-999 to 2^999 comes back, with its sign and a relative error of at most 2^-50 (C86_close_partial, C86_comes_back_partial).")

path = os.path.join(os.path.dirname(__file__), "..", "MANIFEST.json")
with open(path, "w") as f:
    json.dump({"claims": C}, f, indent=1)
    f.write("\n")
