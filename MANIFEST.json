{
 "claims": [
  {
   "property": "C01",
   "status": "proved",
   "theorems": [
    "VJ.C01_rejected",
    "VJ.C01_accepted"
   ],
   "note": "Rejection by the object-level check, the reason given, and that acceptable documents fail only for a field."
  },
  {
   "property": "C02",
   "status": "proved",
   "theorems": [
    "VJ.C02_not_json",
    "VJ.C02_rejected_untouched",
    "VJ.parseBytes_iff",
    "VJ.looseDocument_document"
   ],
   "note": "Down to the text: the parser is modelled and proved to accept exactly the texts of an independent grammar (Spec/LooseText.lean), which contains every JSON text nested at most 300 deep and the liberties fastjson takes."
  },
  {
   "property": "C03",
   "status": "proved",
   "theorems": [
    "VJ.C03_member_order"
   ],
   "note": "For every set of struct types closed under embedding."
  },
  {
   "property": "C04",
   "status": "proved",
   "theorems": [
    "VJ.C04_unknown_members"
   ],
   "note": "For every set of lenient struct types closed under embedding."
  },
  {
   "property": "C05",
   "status": "proved",
   "theorems": [
    "VJ.C05_fieldwise",
    "VJ.C05_independent"
   ],
   "note": ""
  },
  {
   "property": "C06",
   "status": "partial",
   "theorems": [
    "VJ.C06_default",
    "VJ.C06_text_default_exact",
    "VJ.C06_text_default_partial",
    "VJ.Examples.C06_backslash_default",
    "VJ.C06_required_fails",
    "VJ.C06_required_error",
    "VJ.C06_absent_keeps",
    "VJ.C06_present_not_missing"
   ],
   "note": "The default value is specified by the inductive relation DefaultValue. Partial because a string default with backslashes is not set to its text but to what the Go compiler reads in it (witness)."
  },
  {
   "property": "C07",
   "status": "partial",
   "theorems": [
    "VJ.C07_null_rejected",
    "VJ.C07_null_keeps",
    "VJ.C07_null_required",
    "VJ.Examples.C07_null_clears_named_bytes"
   ],
   "note": "The last sentence of the property is false for fields of a named byte-slice type (witness C07_null_clears_named_bytes)."
  },
  {
   "property": "C08",
   "status": "partial",
   "theorems": [
    "VJ.C08_decoded_integer_partial",
    "VJ.C08_unsigned_and_64_bit_exact",
    "VJ.C08_rejects",
    "VJ.C08_accepts_in_range",
    "VJ.Examples.C08_negative_overflow_is_accepted"
   ],
   "note": "Exact for unsigned and 64-bit types; narrow signed types have no lower bound check (witness), so the value is only congruent below the minimum."
  },
  {
   "property": "C09",
   "status": "partial",
   "theorems": [
    "VJ.C09_slice_elements_partial",
    "VJ.C09_array_elements_partial",
    "VJ.C09_map_values_partial",
    "VJ.C09_chained_name_partial",
    "VJ.C09_named_collections_partial",
    "VJ.Examples.C09_overflow_is_accepted"
   ],
   "note": "What the code does instead: the number is reduced to the width of the type. The property itself is false (witness)."
  },
  {
   "property": "C10",
   "status": "partial",
   "theorems": [
    "VJ.C10_slice_mirrors_array_partial",
    "VJ.C10_slice_of_scalars",
    "VJ.C10_old_contents_irrelevant",
    "VJ.C10_slice_accepts",
    "VJ.C10_named_slice_partial"
   ],
   "note": "Full for scalars and strings; for pointers the pointed-to type must not be a time, UUID or map, for which the slice may end early (see C16)."
  },
  {
   "property": "C12",
   "status": "partial",
   "theorems": [
    "VJ.C12_slice_elements_partial",
    "VJ.Examples.C12_stale_field_survives"
   ],
   "note": "Exact description of what survives; the property is false for slices of structs (witness)."
  },
  {
   "property": "C11",
   "status": "proved",
   "theorems": [
    "VJ.C11_slice_storage",
    "VJ.C11_capacity"
   ],
   "note": "For documents without too long a base64 text for a fixed-length byte array inside the elements (see C20)."
  },
  {
   "property": "C14",
   "status": "proved",
   "theorems": [
    "VJ.C14_array_field_iff",
    "VJ.C14_named_array_iff",
    "VJ.C14_wrong_length_rejected",
    "VJ.C14_named_wrong_length_rejected",
    "VJ.C18_failing_field_kept"
   ],
   "note": "The iff assumes that element errors are kept (C16); the length test itself needs no such hypothesis."
  },
  {
   "property": "C20",
   "status": "partial",
   "theorems": [
    "VJ.C20_outcomes",
    "VJ.C20_decode_returns",
    "VJ.C20_only_panic",
    "VJ.C20_typed",
    "VJ.C20_named_bytes_exactly",
    "VJ.C20_history_typed",
    "VJ.C20_unmarshal_outcomes",
    "VJ.C20_unmarshal_only_panic",
    "VJ.C20_decode_returns_partial",
    "VJ.C20_no_panic_partial",
    "VJ.C20_history_returns_partial",
    "VJ.C20_unmarshal_returns_partial",
    "VJ.Examples.C20_fixed_bytes_panic"
   ],
   "note": "On every document and every text the decode returns a value of its type, or panics; it panics only when a base64 text is too long for the fixed-length byte array it stands at, so the property as stated is false (witness) and holds for packages without such arrays and for documents without such texts."
  },
  {
   "property": "C15",
   "status": "proved",
   "theorems": [
    "VJ.C15_map_field",
    "VJ.C15_named_map"
   ],
   "note": ""
  },
  {
   "property": "C16",
   "status": "partial",
   "theorems": [
    "VJ.C16_bad_element_is_an_error_partial",
    "VJ.C16_cut",
    "VJ.C16_struct_exact",
    "VJ.Examples.C16_error_is_swallowed",
    "VJ.Examples.C16_stale_time",
    "VJ.Examples.C16_map_is_swallowed",
    "VJ.C16_cut_maps",
    "VJ.Examples.C16_map_half_filled"
   ],
   "note": "False for slices of times, UUIDs and maps (witnesses). C16_cut_maps says what a slice of maps holds after a decode that reported success. For times, UUIDs and pointers to them C16_cut says exactly what the slice holds, and C16_struct_exact describes all successful decodes of structs with such fields."
  },
  {
   "property": "C43",
   "status": "proved",
   "theorems": [
    "VJ.C43_nested",
    "VJ.C43_nested_ptr",
    "VJ.C43_nested_value",
    "VJ.C43_nested_pointer",
    "VJ.C43_nested_slice",
    "VJ.C43_nested_map",
    "VJ.C43_nested_list_error",
    "VJ.C43_nested_map_error"
   ],
   "note": "Fields that hold a nested value, a pointer, a slice, an array or a map of a type with its own decoder, values and errors. A struct or slice element is decoded into what was there before, as the nested decoder would be."
  },
  {
   "property": "C17",
   "status": "partial",
   "theorems": [
    "VJ.C17_error_paths_partial",
    "VJ.C17_error_paths_text_partial",
    "VJ.C17_cause_partial",
    "VJ.C17_cause_text_partial",
    "VJ.Examples.C17_strings_lose_field",
    "VJ.Examples.C17_nested_slices_lose_path",
    "VJ.Examples.C17_bytes_lose_path",
    "VJ.Examples.C17_embedded_leading_dot",
    "VJ.Examples.C17_named_string_root"
   ],
   "note": "For types without embedded structs, byte fields, or slice fields of strings, times, UUIDs, slices or maps; for those the generated code reports wrong paths, witnesses included. C17_cause_partial covers all types but anonymous structs: the cause is right and the path names nothing else than what leads to the place, but may leave names out."
  },
  {
   "property": "C18",
   "status": "proved",
   "theorems": [
    "VJ.C18_failing_prefix",
    "VJ.C18_failing_field_kept"
   ],
   "note": ""
  },
  {
   "property": "C19",
   "status": "partial",
   "theorems": [
    "VJ.C19_encode",
    "VJ.C19_encode_json",
    "VJ.C19_decode_scalar",
    "VJ.C19_decode_scalar_text",
    "VJ.C19_decode_struct",
    "VJ.C19_decode_slice_partial",
    "VJ.C19_decode_array_partial",
    "VJ.Examples.C19_struct_forgets",
    "VJ.Examples.C19_slice_null",
    "VJ.Examples.C19_slice_error",
    "VJ.Examples.C19_bytes_null",
    "VJ.Examples.C19_slice_stale"
   ],
   "note": "Encoding: every chain of declarations. Decoding: every chain that ends in a predeclared type, a time or a UUID; a chain that ends in a struct decodes a new struct (the property fails for fields the document leaves out, witness). For a name of a named slice or array only successful decodes of arrays agree; null and errors differ (witnesses)."
  },
  {
   "property": "C44",
   "status": "proved",
   "theorems": [
    "VJ.C44_decode_again",
    "VJ.C44_only",
    "VJ.C44_any_number",
    "VJ.C44_unmarshal_again",
    "VJ.Examples.C44_first",
    "VJ.Examples.C44_not_other"
   ],
   "note": "Every type of the package; types declared elsewhere must have the property themselves. Anonymous struct types are outside the model."
  },
  {
   "property": "C32",
   "status": "partial",
   "theorems": [
    "VJ.C32_not_read_partial",
    "VJ.Examples.C32_written"
   ],
   "note": "Never read; but written, under the name - (witness)."
  },
  {
   "property": "C27",
   "status": "proved",
   "theorems": [
    "VJ.C27_lossless",
    "VJ.C27_injective",
    "VJ.C27_safe"
   ],
   "note": ""
  },
  {
   "property": "C29",
   "status": "partial",
   "theorems": [
    "VJ.C29_base64",
    "VJ.C29_bytes_field",
    "VJ.C29_fixed_field",
    "VJ.C29_named",
    "VJ.C29_written",
    "VJ.C29_round_trip",
    "VJ.C29_written_partial",
    "VJ.C29_round_trip_partial"
   ],
   "note": "Codec, decoding and encoding of fields, and both together, whenever the output is JSON (exactly when: C21_exact). Partial: an array of zero bytes without omitempty is written as null; too long a text for an array panics (C20)."
  },
  {
   "property": "C30",
   "status": "proved",
   "theorems": [
    "VJ.C30_uuid",
    "VJ.C30_accepts",
    "VJ.C30_field",
    "VJ.C30_written",
    "VJ.C30_round_trip",
    "VJ.C30_written_partial",
    "VJ.C30_round_trip_partial"
   ],
   "note": "Codec, decoding and encoding of fields, and both together, for every UUID and every surrounding value whose encoding is JSON (exactly when: C21_exact), in structs whose JSON names are distinct."
  },
  {
   "property": "C41",
   "status": "proved",
   "theorems": [
    "VJ.C41_no_error",
    "VJ.C41_paths"
   ],
   "note": ""
  },
  {
   "property": "C42",
   "status": "partial",
   "theorems": [
    "VJ.C42_read",
    "VJ.C42_accepts",
    "VJ.C42_default_layouts",
    "VJ.C42_written",
    "VJ.C42_round_trip",
    "VJ.C42_round_trip_zero",
    "VJ.C42_written_partial",
    "VJ.C42_round_trip_partial"
   ],
   "note": "On the writing side a layout tag naming a constant (time.RFC822) is used literally."
  },
  {
   "property": "C21",
   "status": "partial",
   "theorems": [
    "VJ.C21_exact",
    "VJ.C21_if_json",
    "VJ.C21_trouble_not_json",
    "VJ.C21_output_is_json_partial",
    "VJ.C21_nil_receiver",
    "VJ.C21_no_trouble_partial",
    "VJ.encode_document",
    "VJ.enc_unique",
    "VJ.Examples.C21_missing_comma",
    "VJ.Examples.C21_empty_embedded",
    "VJ.Examples.C21_name_with_quote"
   ],
   "note": "False after nil pointers, for embedded structs without members, for NaN and infinities and for JSON names with quotes (witnesses). C21_exact says for which values exactly: the output is a JSON document if and only if nothing of this kind is in the parts of the value that are written. Floats are assumed to be printed as strconv does (numbers, NaN, +Inf, -Inf)."
  },
  {
   "property": "C22",
   "status": "partial",
   "theorems": [
    "VJ.C22_members",
    "VJ.C21_if_json",
    "VJ.C22_members_partial",
    "VJ.enc_unique"
   ],
   "note": "Whenever the output is JSON (exactly when: C21_exact). Which fields are left out is said by Omitted: besides zero values with omitempty these are embedded structs that are zero; where the code's idea of zero is wrong see C23."
  },
  {
   "property": "C23",
   "status": "partial",
   "theorems": [
    "VJ.C23_if_json_partial",
    "VJ.C23_omitempty_partial",
    "VJ.C23_written",
    "VJ.Examples.C23_wrong_omissions"
   ],
   "note": "False for UUIDs, arrays and pointers to pointers (witness)."
  },
  {
   "property": "C24",
   "status": "partial",
   "theorems": [
    "VJ.C24_nil_receiver_partial",
    "VJ.C24_named_nil",
    "VJ.C24_nil_field_partial",
    "VJ.C24_nil_element_partial",
    "VJ.Examples.C24_nil_not_null",
    "VJ.Examples.C24_nil_uuid_panics"
   ],
   "note": "False for slices in slices, pointers to times, types without fields, pointers to UUIDs (witnesses)."
  },
  {
   "property": "C25",
   "status": "proved",
   "theorems": [
    "VJ.C25_appends",
    "VJ.C25_keeps",
    "VJ.C25_marshalJSON",
    "VJ.methods_tame"
   ],
   "note": "Hand-written encoders of types that are not part of the package are assumed to append only."
  },
  {
   "property": "C28",
   "status": "partial",
   "theorems": [
    "VJ.C28_written",
    "VJ.C28_round_trip",
    "VJ.C28_written_partial",
    "VJ.C08_accepts_in_range",
    "VJ.C28_round_trip_partial"
   ],
   "note": "Whenever the output is JSON (exactly when: C21_exact), in structs whose JSON names are distinct; zero with omitempty is not written, and a default takes its place (C31_lost_zero)."
  },
  {
   "property": "C31",
   "status": "partial",
   "theorems": [
    "VJ.C31_if_json_partial",
    "VJ.C31_round_trip_partial",
    "VJ.C31_round_trip_exact_partial",
    "VJ.encoded_fills",
    "VJ.Examples.trip_back",
    "VJ.Examples.C31_lost_nil_slice",
    "VJ.Examples.C31_lost_nil_time",
    "VJ.Examples.C31_lost_dash",
    "VJ.Examples.C31_lost_zero",
    "VJ.Examples.C31_lost_named_nil",
    "VJ.Examples.C31_lost_nil_pointer"
   ],
   "note": "False for several kinds of values (witnesses: nil inner slices, nil *time.Time, fields named -, zero with omitempty and default, nil named slices, pointers to nil pointers); proved for every value that has none of these (Lossless), of packages with distinct names (TripPackage), whenever the output is JSON (exactly when: C21_exact)."
  },
  {
   "property": "C33",
   "status": "partial",
   "theorems": [
    "VJ.C33_spliced",
    "VJ.C33_spliced_partial",
    "VJ.C33_read_from_parent",
    "VJ.Examples.C33_zero_left_out"
   ],
   "note": "Reading in full; writing whenever the output is JSON (exactly when: C21_exact). An embedded struct that is zero contributes nothing, although it has no omitempty (witness)."
  },
  {
   "property": "C34",
   "status": "partial",
   "theorems": [
    "VJ.C34_isZero_partial",
    "VJ.C34_zero_value_partial",
    "VJ.C34_true_partial",
    "VJ.C34_false_partial",
    "VJ.Examples.C34_array_field_never_zero",
    "VJ.Examples.C34_named_array_inverted",
    "VJ.Examples.C34_empty_slice"
   ],
   "note": "False for structs with fixed-length arrays, named arrays of structs and empty named collections (witnesses); exact otherwise."
  },
  {
   "property": "C38",
   "status": "partial",
   "theorems": [
    "VJ.C38_field_tags_partial",
    "VJ.C38_options_partial",
    "VJ.C38_only_these",
    "VJ.Examples.C38_age",
    "VJ.Examples.C38_escapes",
    "VJ.Examples.C38_double_quoted_tag_lost",
    "VJ.Examples.C38_second_option_unseen"
   ],
   "note": "In full for tags between backquotes; a tag written as an interpreted string is ignored (witness)."
  },
  {
   "property": "C39",
   "status": "partial",
   "theorems": [
    "VJ.C39_comment_line",
    "VJ.C39_other_line",
    "VJ.C39_once",
    "VJ.C39_tagged_partial",
    "VJ.C39_untagged_partial",
    "VJ.C39_only_declared",
    "VJ.C39_exact",
    "VJ.C39_own_tags",
    "VJ.C39_chosen_own",
    "VJ.Examples.C39_item_decodes",
    "VJ.Examples.C39_srcFile",
    "VJ.Examples.C39_group_tags_lost",
    "VJ.Examples.C39_both_tags",
    "VJ.Examples.C39_recursive_slice_never_ends"
   ],
   "note": "No hypothesis for 'nothing twice'. C39_exact says for every file which comment decides (the first one with tags that stands at the type or hands its tags on to it) and that exactly what its tags ask for is generated. That the tags at the type itself decide holds for files without tags inside groups of types; in a group they can be overridden (witness)."
  },
  {
   "property": "C40",
   "status": "partial",
   "theorems": [
    "VJ.C40_flattened_partial",
    "VJ.C40_in_place",
    "VJ.C40_from_declarations",
    "VJ.C40_nothing_to_inline",
    "VJ.C40_unique",
    "VJ.Examples.C40_user",
    "VJ.Examples.C40_own_name_kept",
    "VJ.Examples.C40_named_foreign_kept",
    "VJ.Examples.C40_cycle_never_ends"
   ],
   "note": "Named fields of types of other packages are not replaced (witness)."
  },
  {
   "property": "C45",
   "status": "partial",
   "theorems": [
    "VJ.C45_every_directory_once",
    "VJ.C45_errors",
    "VJ.C45_module_root_partial",
    "VJ.Examples.C45_tree",
    "VJ.Examples.C45_parent_module_missed",
    "VJ.Examples.C45_foreign_module"
   ],
   "note": "The listing in full; the module root among the directories the path spells out (witnesses for relative paths)."
  },
  {
   "property": "C36",
   "status": "proved",
   "theorems": [
    "VJ.C36_as_if_alone",
    "VJ.C36_result_stays",
    "VJ.C36_document_stays",
    "VJ.C36_never_blocked",
    "VJ.C36_unmarshal",
    "VJ.C36_parse_error",
    "VJ.readsLikeFill_exists",
    "VJ.Examples.C36_schedule"
   ],
   "note": "Small-step model of any number of calls with pools; that decoded strings are copies of the parser's memory is part of the model (the generated code converts with string(b)), not derived from a memory model."
  },
  {
   "property": "C37",
   "status": "proved",
   "theorems": [
    "VJ.C37_one_owner",
    "VJ.C37_lost_how",
    "VJ.C37_lost_for_good",
    "VJ.Examples.C37_parser_lost"
   ],
   "note": "A call that fails to parse does not return its parser (witness)."
  },
  {
   "property": "C35",
   "status": "partial",
   "theorems": [
    "VJ.C35_reset_partial",
    "VJ.C35_reset_zero_partial",
    "VJ.C35_isZero_partial",
    "VJ.C35_named_slice",
    "VJ.C35_named_map_keeps_keys",
    "VJ.Examples.C35_slice_not_zero",
    "VJ.Examples.C35_named_map_not_zero"
   ],
   "note": "Reset returns and leaves the zero value except that slices and maps which were not nil stay, empty. Exactly zero, IsZero true and encoded as new when there were no slices or maps to keep. The full statement is false: a struct with a non-nil slice is not zero after Reset, and a named map keeps its keys; both have witnesses."
  },
  {
   "property": "C13",
   "status": "partial",
   "theorems": [
    "VJ.C13_reset_as_new_partial",
    "VJ.C13_named_slice",
    "VJ.C13_named_map_partial",
    "VJ.C13_history_partial",
    "VJ.Examples.C13_stale_tail",
    "VJ.Examples.C13_named_map_null",
    "VJ.Examples.C13_failed_decode_differs"
   ],
   "note": "Same error for every document, same value up to empty/nil collections when it succeeds, after any history of decodes and resets, for packages whose slices have scalar, string, bytes or pointer elements (or for any receiver without leftovers beyond its slice lengths). The full statement is false for slices of structs, for named maps with null, and for the value left by a failing decode; each has a witness."
  },
  {
   "property": "C46",
   "status": "partial",
   "theorems": [
    "VJ.C46_append_returns_partial",
    "VJ.C46_encode_returns_partial",
    "VJ.C46_encode_succeeds_partial",
    "VJ.C46_nil_returns",
    "VJ.C46_document_partial",
    "VJ.C46_only_panic",
    "VJ.C46_panics_exactly",
    "VJ.C46_succeeds_exactly",
    "VJ.Examples.C46_nil_uuid_never_returns"
   ],
   "note": "MarshalJSON panics exactly when a nil *uuid.UUID is to be written (C46_panics_exactly, witness); for every other value the property holds."
  },
  {
   "property": "C26",
   "status": "proved",
   "theorems": [
    "VJ.C26_same_document",
    "VJ.C26_every_order",
    "VJ.C26_each_once",
    "VJ.C26_map_field",
    "VJ.C26_same_keys",
    "VJ.C26_same_values",
    "VJ.C26_same_document_partial",
    "VJ.C26_every_order_partial",
    "VJ.C26_each_once_partial",
    "VJ.C26_map_field_partial",
    "VJ.Examples.C26_both_orders"
   ],
   "note": "Maps at any depth, every order; nothing is assumed of the value: if its encoding denotes a document in one order, it does in every order, and the documents are the same up to order. Hand-written encoders are assumed not to depend on the order."
  },
  {
   "property": "C47",
   "status": "proved",
   "theorems": [
    "VJ.C47_old_reader",
    "VJ.C47_new_reader",
    "VJ.C47_added_fields",
    "VJ.C47_old_reader_text",
    "VJ.C47_written_by_new_partial",
    "VJ.Examples.C47_strict_old_reader"
   ],
   "note": "In addition (partial, see C31): what the newer version encodes, the older one decodes. A strict older version rejects the added members (witness)."
  },
  {
   "property": "C48",
   "status": "proved",
   "theorems": [
    "VJ.C48_known_members",
    "VJ.C48_strict_success",
    "VJ.C48_strict_iff",
    "VJ.C48_rest_same"
   ],
   "note": ""
  },
  {
   "property": "C49",
   "status": "proved",
   "theorems": [
    "VJ.C49_every_value",
    "VJ.C49_injective",
    "VJ.C49_same_text",
    "VJ.C49_decoded"
   ],
   "note": "Conditions on the declarations only (PlainPackage, EncPackage). Documents nested more than 300 deep are refused by the parser."
  },
  {
   "property": "C50",
   "status": "proved",
   "theorems": [
    "VJ.C50_text",
    "VJ.C50_append",
    "VJ.C50_isZero"
   ],
   "note": "Hand-written methods and methods of other packages are assumed not to look beyond the length either (SpareBlind)."
  },
  {
   "property": "C51",
   "status": "partial",
   "theorems": [
    "VJ.C51_finds",
    "VJ.C51_sound",
    "VJ.C51_unknown",
    "VJ.C51_first",
    "VJ.Examples.C51_shop",
    "VJ.Examples.C51_shop_any",
    "VJ.Examples.C51_local_type_taken"
   ],
   "note": "Names declared inside functions count as declared (witness: the local type of a function is inlined), so the directory found declares the name somewhere, not necessarily at top level."
  },
  {
   "property": "C52",
   "status": "partial",
   "theorems": [
    "VJ.C52_sound_partial",
    "VJ.C52_resolves_partial",
    "VJ.C52_other_modules_partial",
    "VJ.Examples.C52_neighbour",
    "VJ.Examples.C52_root_package"
   ],
   "note": "False in two cases (witnesses): the package in the module's root directory is looked for in a directory that is named like the module, and the path of another module that starts with the letters of this one is looked for inside this one.  Proved for all other imports."
  },
  {
   "property": "C53",
   "status": "partial",
   "theorems": [
    "VJ.C53_names_distinct",
    "VJ.C53_tagged_partial",
    "VJ.C53_untagged_partial",
    "VJ.C53_nothing_else",
    "VJ.C53_reads_partial",
    "VJ.C53_writes_partial",
    "VJ.C53_chosen",
    "VJ.C53_not_chosen",
    "VJ.C53_chosen_reads",
    "VJ.C53_chosen_writes",
    "VJ.C53_found_struct",
    "VJ.Examples.C53_item_strict",
    "VJ.Examples.C53_file",
    "VJ.Examples.C53_user_read",
    "VJ.Examples.C53_user_written",
    "VJ.Examples.C53_user_strict",
    "VJ.Examples.C53_order",
    "VJ.Examples.C53_order_read",
    "VJ.Examples.C53_order_written"
   ],
   "note": "With the tags C39 chooses, for every file, groups with comments inside included (C53_chosen and companions), and with tags in backquotes (see C38); files that mention types without generated methods, fields of a type of another package of the module that is not a struct, and slices named for a type of such a package are outside the model (link returns unsupp). Writing under the conditions of C22."
  },
  {
   "property": "C54",
   "status": "proved",
   "theorems": [
    "VJ.C54_written_out",
    "VJ.C54_determined",
    "VJ.Examples.C54_example"
   ],
   "note": ""
  },
  {
   "property": "C55",
   "status": "proved",
   "theorems": [
    "VJ.C55_alike",
    "VJ.C55_unrelated",
    "VJ.C55_renamed",
    "VJ.C55_twins",
    "VJ.Examples.bag_unrelated"
   ],
   "note": ""
  },
  {
   "property": "C56",
   "status": "partial",
   "theorems": [
    "VJ.C56_decoder_partial",
    "VJ.C56_encoder_partial",
    "VJ.C56_isZero_partial",
    "VJ.C56_reset_partial",
    "VJ.Examples.C56_uuid_list",
    "VJ.Examples.C56_deep_list",
    "VJ.Examples.C56_seven_slices"
   ],
   "note": "Exact in both directions. Missing: packages with anonymous struct types, arrays of named slices, arrays and maps, string literals with escapes for bytes above 7f, and tag texts with a backslash before a quote, which are not modelled. The methods called on other types are assumed to exist."
  },
  {
   "property": "C57",
   "status": "partial",
   "theorems": [
    "VJ.C57_only_two_files",
    "VJ.C57_refused",
    "VJ.C57_complete",
    "VJ.C57_finished_partial",
    "VJ.C57_killed",
    "VJ.C57_repeat_partial",
    "VJ.C57_recover",
    "VJ.C57_stuck",
    "VJ.C57_blocked",
    "VJ.Examples.C57_undisturbed",
    "VJ.Examples.C57_repeated",
    "VJ.Examples.C57_blocked_module",
    "VJ.Examples.C57_recovered",
    "VJ.Examples.C57_truncated"
   ],
   "note": "The full property is false twice. A run killed before the package clause of a file is complete blocks every later run in the module until the file is removed (C57_blocked, C57_stuck); otherwise, or once the files are removed, running again gives the files of an undisturbed run (C57_repeat_partial, C57_recover; the source file must sort before the generated ones and must not import its own directory). A write error while formatting is dropped, and a run that ends normally leaves a truncated file (C57_truncated)."
  },
  {
   "property": "C58",
   "status": "proved",
   "theorems": [
    "VJ.C58_frame",
    "VJ.C58_others",
    "VJ.Examples.C58_ring"
   ],
   "note": "A memory with addresses: slices are windows of arrays, maps and pointers are addresses. Invariant: the touched part is closed under slices and maps. A call that panics is not covered (no memory is returned). Types of other packages are assumed to keep to the same (MKeep)."
  },
  {
   "property": "C59",
   "status": "proved",
   "theorems": [
    "VJ.C59_returns",
    "VJ.C59_panics",
    "VJ.C59_apart",
    "VJ.C59_somewhere",
    "VJ.Examples.C59_shared"
   ],
   "note": "Refinement between the memory model and the tree model the other properties are about: same error, same panic, same value, still no sharing, nothing else changed. So every decoding theorem on trees holds for receivers without sharing. Examples.C59_shared: with two fields on one array it would be false. Types of other packages are assumed to do in memory what they do on trees (MSim)."
  },
  {
   "property": "C60",
   "status": "partial",
   "theorems": [
    "VJ.C60_copy_partial",
    "VJ.C60_declared_partial",
    "VJ.Examples.C60_slice_changes",
    "VJ.Examples.C60_map_changes",
    "VJ.Examples.C60_pointer",
    "VJ.Examples.C60_ints"
   ],
   "note": "False for slice and map fields: the second document is written into the same array and the same map (C60_slice_changes, C60_map_changes). True for values without slices and maps except behind pointers, and for receivers of declared slice and map types."
  },
  {
   "property": "C61",
   "status": "proved",
   "theorems": [
    "VJ.C61_marshalTo",
    "VJ.C61_marshalJSON",
    "VJ.C61_nil",
    "VJ.C61_isZero",
    "VJ.C61_same",
    "VJ.Examples.C61_shared",
    "VJ.Examples.C61_circle",
    "VJ.Examples.C61_ring"
   ],
   "note": "For every value in memory that stands for a finite tree, with any sharing. Cyclic values stand for no tree: Examples.C61_circle shows that encoding a ring of pointers never returns. Types of other packages are assumed to do in memory what they do on trees (MSim)."
  },
  {
   "property": "C62",
   "status": "proved",
   "theorems": [
    "VJ.C62_frame",
    "VJ.C62_others",
    "VJ.C62_returns",
    "VJ.Examples.C62_ring_resets",
    "VJ.Examples.C62_ring",
    "VJ.Examples.C62_self"
   ],
   "note": "C62_frame for any memory; C62_returns is the refinement between memory and trees. Examples.C62_self: a value that is an element of its own slice is never reset. Types of other packages are assumed to keep to the same frame (MClear) or to do what they do on trees (MSim)."
  },
  {
   "property": "C63",
   "status": "partial",
   "theorems": [
    "VJ.C63_copy_partial",
    "VJ.Examples.C63_slice_changes",
    "VJ.Examples.C63_map_changes",
    "VJ.Examples.C63_bytes_change",
    "VJ.Examples.C63_pointer"
   ],
   "note": "False for slices, bytes and maps, which Reset clears in place (C63_slice_changes, C63_map_changes, C63_bytes_change). True for values without slices and maps except behind pointers."
  },
  {
   "property": "C64",
   "status": "proved",
   "theorems": [
    "VJ.C64_parse",
    "VJ.C64_write",
    "VJ.C64_injective",
    "VJ.C64_mended",
    "VJ.C64_read_back",
    "VJ.C64_survives",
    "VJ.C64_any_text",
    "VJ.C64_accepted",
    "VJ.Examples.C64_latin1"
   ],
   "note": "The parser and the string writer modelled once more on bytes. C64_parse and C64_write are why the other theorems may speak of characters: for texts in UTF-8 both give the same. Mended (Spec/Bytes.lean) defines the replacement by U+FFFD."
  },
  {
   "property": "C65",
   "status": "proved",
   "theorems": [
    "VJ.C65_not_json_refused",
    "VJ.C65_own_output_refused",
    "VJ.C65_accepted_is_json",
    "VJ.C65_not_even_loose",
    "VJ.Examples.C65_infinities_pass"
   ],
   "note": "Trouble (Spec/EncodeExact.lean) says which values these are (C21_exact). The condition on floats is needed: NaN and the infinities are written as words, which the parser takes for numbers (witness)."
  },
  {
   "property": "C66",
   "status": "proved",
   "theorems": [
    "VJ.C66_too_deep",
    "VJ.C66_refused",
    "VJ.C66_survives_iff",
    "VJ.C66_bounded",
    "VJ.C66_bounded_round_trip",
    "VJ.C66_plain",
    "VJ.Examples.C66_long_list"
   ],
   "note": "Nests (Spec/Deep.lean) is the bound that can be read off the declarations. Which values can be encoded and decoded at all is C31 and C49, whose conditions these theorems have."
  },
  {
   "property": "C67",
   "status": "proved",
   "theorems": [
    "VJ.C67_two",
    "VJ.C67_together",
    "VJ.C67_any_order",
    "VJ.C67_texts",
    "VJ.Examples.C67_default_comes_back",
    "VJ.Examples.C67_embedded_pointer_forgets"
   ],
   "note": "The two witnesses show that the conditions are needed."
  },
  {
   "property": "C68",
   "status": "proved",
   "theorems": [
    "VJ.C68_strict_parent",
    "VJ.C68_strict_embedded",
    "VJ.C68_strict_parent_own_output",
    "VJ.C68_strict_embedded_own_output",
    "VJ.Examples.C68_refused"
   ],
   "note": "The own-output theorems speak of embedded structs whose fields all have names."
  },
  {
   "property": "C69",
   "status": "proved",
   "theorems": [
    "VJ.C69_read_alike",
    "VJ.C69_written_twice",
    "VJ.C69_own_output_refused",
    "VJ.Examples.C69_one_for_both",
    "VJ.Examples.twin_refused"
   ],
   "note": "The second half is what the code does; encoding/json would drop such fields."
  },
  {
   "property": "C70",
   "status": "proved",
   "theorems": [
    "VJ.C70_accepted",
    "VJ.C70_ends",
    "VJ.C70_endless_refused",
    "VJ.Examples.C70_srcFile",
    "VJ.Examples.C70_selfSlice",
    "VJ.Examples.C70_selfInline",
    "VJ.Examples.C70_other_refused"
   ],
   "note": "Refusing is a panic. The front end only: what the renderers do with field types is C56."
  },
  {
   "property": "C71",
   "status": "partial",
   "theorems": [
    "VJ.C71_fails_exactly",
    "VJ.C71_append_fails_exactly",
    "VJ.C71_names_first_partial",
    "VJ.C71_one_name",
    "VJ.C71_succeeds_exactly",
    "VJ.TimeSample.C71_wrong_place"
   ],
   "note": "When it fails: proved. Which place is named: false when the first such time is inside an embedded struct, whose error stays in the writer until the next field reports it as its own (C71_wrong_place); true otherwise. Items of lists inside lists and maps are not named by the code, and the type's own name in front of the index of a declared list is not modelled."
  },
  {
   "property": "C72",
   "status": "proved",
   "theorems": [
    "VJ.C72_as_if_alone",
    "VJ.C72_error",
    "VJ.C72_result_stays",
    "VJ.C72_one_owner",
    "VJ.C72_never_blocked",
    "VJ.C72_marshal",
    "VJ.writesLikeMarshal_exists",
    "VJ.Examples.C72_schedule"
   ],
   "note": "The writer's chunks and their pool are those of easyjson's buffer.Buffer, modelled from its documented behaviour; when it changes to a new chunk is left open, so every policy is covered."
  },
  {
   "property": "C73",
   "status": "partial",
   "theorems": [
    "VJ.C73_document_partial",
    "VJ.C73_text_partial",
    "VJ.Examples.nodeEnv_once",
    "VJ.Examples.nodeEnv_decodes",
    "VJ.Examples.C73_doubles",
    "VJ.Examples.C73_no_bound",
    "VJ.Examples.C73_text_doubles"
   ],
   "note": "Proved for packages in which no key is read into two fields (of a struct and the structs it embeds). Without that it is false: a recursive struct with two pointer fields of one JSON name doubles the value at every level, 2^299 from a text of 1796 characters. Counted are the values reachable from the receiver, with the spare capacity of slices, not the garbage of a decode."
  },
  {
   "property": "C74",
   "status": "proved",
   "theorems": [
    "VJ.C74_alone",
    "VJ.C74_together",
    "VJ.C74_interleavings",
    "VJ.C74_any_order",
    "VJ.Examples.pair_apart",
    "VJ.Examples.C74_pair",
    "VJ.Examples.C74_joint"
   ],
   "note": "Calls are whole: what happens inside concurrent calls is the subject of C36, C37 and C72. Types of other packages are assumed to do in memory what they do on trees (MSim). C74_joint: variables that share an array, for which the order matters."
  },
  {
   "property": "C75",
   "status": "proved",
   "theorems": [
    "VJ.C75_append",
    "VJ.C75_text",
    "VJ.Examples.C75_item",
    "VJ.Examples.C75_fork",
    "VJ.Examples.C75_shared"
   ],
   "note": "Integers are those of 64 bits; a float has at most B characters and a time at most B for each character of its layout, for any B. Hand-written encoders of other packages are assumed to be bounded likewise. Values are counted as trees: C75_shared is a memory of k structs whose text has 2^k characters, because pointers are shared."
  },
  {
   "property": "C76",
   "status": "proved",
   "theorems": [
    "VJ.C76_new_memory",
    "VJ.C76_survivor",
    "VJ.C76_copy",
    "VJ.C76_independent",
    "VJ.Examples.C76_dict"
   ],
   "note": "Which values survive is the subject of C31 and C49: C76_copy is about every value of a plain type, C76_survivor about every value to which C31 applies. Text nested more than 300 deep is refused by the parser. Equal up to the spare capacity of slices."
  },
  {
   "property": "C77",
   "status": "partial",
   "theorems": [
    "VJ.C77_spelling",
    "VJ.C77_document_partial",
    "VJ.C77_text_partial",
    "VJ.C77_verdict_partial",
    "VJ.Examples.C77_box",
    "VJ.Examples.box_texts",
    "VJ.Examples.C77_slices_of_maps",
    "VJ.Examples.C77_repeated_keys"
   ],
   "note": "Partial because the property is false of slices of maps (C77_slices_of_maps is a witness); proved for every package without them. C77_spelling has no exception. Hand-written methods are assumed not to look at the order of members. The same contents: maps compared key by key, spare capacity included."
  },
  {
   "property": "C78",
   "status": "partial",
   "theorems": [
    "VJ.C78_place_partial",
    "VJ.C78_place_text_partial",
    "VJ.C78_rejected",
    "VJ.C78_required",
    "VJ.MessageSample.C78_ambiguous"
   ],
   "note": "Partial because it is false of names with dots (C78_ambiguous: two documents wrong at different places have the same error) and because C17, on which it rests, has exceptions (slices of maps and a few others). Proved when JSON names and keys have no dots and no apostrophes. The texts of errors of other packages (fastjson, strconv, time) are left open; they are assumed not to look like 'error parsing'."
  },
  {
   "property": "C79",
   "status": "partial",
   "theorems": [
    "VJ.C79_wraps_partial",
    "VJ.C79_percent",
    "VJ.C79_doubled",
    "VJ.MessageSample.C79_lost"
   ],
   "note": "Partial because it is false of JSON names with a percent sign, which become part of a format (C79_percent, C79_lost). Proved for all other names. fmt.Errorf is modelled for formats of text and one-letter verbs; what %q makes of a key is left open."
  },
  {
   "property": "C80",
   "status": "partial",
   "theorems": [
    "VJ.C80_directory",
    "VJ.C80_methods_partial",
    "VJ.C80_passes_partial",
    "VJ.WalkSample.C80_declared_twice"
   ],
   "note": "Partial because it is false when a package of the module declares a type twice, in files for different systems: the decoder can read one version and the encoder write the other (C80_declared_twice). Proved when nothing is declared twice in a directory; C80_directory without that. Single declarations may change places, which covers all orders of files. Within one pass the same question is taken to have the same answer. The order of imports in the generated file is left to the library that writes them."
  },
  {
   "property": "C81",
   "status": "partial",
   "theorems": [
    "VJ.C81_absolute",
    "VJ.C81_relative_partial",
    "VJ.C81_dotdot",
    "VJ.C81_ends",
    "VJ.PathSample.C81_above",
    "VJ.PathSample.C81_beside"
   ],
   "note": "Partial because it is false for relative paths: a go.mod above the working directory is not found (C81_above), and after .. the search goes down to the working directory and takes its module (C81_beside). C81_absolute is the full claim for absolute paths, C81_relative_partial and C81_dotdot say exactly what is taken for the others. No symbolic links."
  },
  {
   "property": "C82",
   "status": "proved",
   "theorems": [
    "VJ.C82_reads",
    "VJ.C82_accepts",
    "VJ.C82_holds",
    "VJ.Examples.Times.goTimes",
    "VJ.Examples.Times.leapDay_names"
   ],
   "note": "time.Parse is modelled (Model/TimeText) from its documented behaviour in go1.20; GoTimes says that the functions of package time are those of the model for layouts of the elements it knows, and goTimes that this can be met. Spec/TimeText is independent of it: it counts days one by one from 0001-01-01."
  },
  {
   "property": "C83",
   "status": "partial",
   "theorems": [
    "VJ.C83_same_partial",
    "VJ.C83_shifted",
    "VJ.C83_field_partial",
    "VJ.C83_value_partial",
    "VJ.C83_lossless",
    "VJ.C83_plain",
    "VJ.Examples.Times.C83_seconds_lost",
    "VJ.Examples.Times.C83_years_lost"
   ],
   "note": "Partial because it is false: an offset with seconds is written without them, so the instant moves by these seconds (C83_seconds_lost; C83_shifted says exactly how), and years beyond 9999 are written but not read (C83_years_lost). Proved for all times with a year from 0 to 9999 and an offset of whole minutes below 25 hours. C83_value_partial is C31 with such times: nothing is assumed of the time functions any more. C83_plain discharges what C21 asks of them."
  },
  {
   "property": "C84",
   "status": "partial",
   "theorems": [
    "VJ.C84_shows_partial",
    "VJ.C84_stable",
    "VJ.C84_field_partial",
    "VJ.Examples.Times.C84_swallowed",
    "VJ.C84_constants",
    "VJ.C84_constants_field",
    "VJ.Examples.Times.C84_day_lost"
   ],
   "note": "Partial because it is false of layouts in which one element swallows a part of the next (C84_swallowed: 05.04) and of the tags time.DateOnly, time.DateTime and time.TimeOnly (C84_constants: the tag itself is written, and refused), and because layouts with names of months, days or zones, one-digit elements, twelve-hour clocks and other fractions are not modelled. Proved for all layouts of the elements 2006 01 02 15 04 05 .999999999 Z07:00 and other characters that keep apart."
  },
  {
   "property": "C85",
   "status": "proved",
   "theorems": [
    "VJ.C85_every_value",
    "VJ.C85_injective",
    "VJ.C85_same_text",
    "VJ.marshalText_some",
    "VJ.Examples.Kept.good",
    "VJ.Examples.Kept.C85_zone_lost"
   ],
   "note": "C49 for packages that also have times and floats (Kinds says which). The conditions on times are about calendar and offset only (GoodTime); those on floats are that the text of the float is a number and reads back as the float. C85_zone_lost shows why the zero instant has to be in UTC. Nested at most 300 deep, as in C49."
  },
  {
   "property": "C86",
   "status": "partial",
   "theorems": [
    "VJ.C86_numbers",
    "VJ.C86_reads_partial",
    "VJ.C86_close_partial",
    "VJ.C86_field_partial",
    "VJ.C86_text",
    "VJ.C86_text_injective",
    "VJ.C86_survives_partial",
    "VJ.C86_comes_back_partial",
    "VJ.C86_values",
    "VJ.C86_exponent",
    "VJ.Examples.FloatTexts.C86_lost"
   ],
   "note": "Proved: every JSON number is read, with its sign; numbers without an exponent, and whole numbers below 2^53 with an exponent from 0 to 22, are read as the nearest float; the text of every finite float determines it; floats written without an exponent come back, and so do values of plain types all of whose floats are such. The rest is false: 3e-5 is not read as the nearest float (C86_exponent), and 1005000 is written 1.005e+06 and comes back as 1004999.9999999999 (C86_lost). What holds instead: every number from 2^-1000 to 2^1000 is read, and every float from 2^-999 to 2^999 comes back, with its sign and a relative error of at most 2^-50 (C86_close_partial, C86_comes_back_partial)."
  }
 ]
}
