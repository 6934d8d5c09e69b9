Amino.C01_uvarint_roundtrip depends on axioms: [propext, Classical.choice, Quot.sound]
Amino.C01_uvarint_wire depends on axioms: [propext, Quot.sound]
Amino.C01_uvarint_decode_iff depends on axioms: [propext, Classical.choice, Quot.sound]
Amino.C02_varint_roundtrip depends on axioms: [propext, Classical.choice, Quot.sound]
Amino.C02_int8_roundtrip depends on axioms: [propext, Classical.choice, Quot.sound]
Amino.C02_int16_roundtrip depends on axioms: [propext, Classical.choice, Quot.sound]
Amino.C03_uvarintSize depends on axioms: [propext, Classical.choice, Quot.sound]
Amino.C03_varintSize depends on axioms: [propext, Classical.choice, Quot.sound]
Amino.C03_byteSliceSize depends on axioms: [propext, Classical.choice, Quot.sound]
Amino.C04_uvarint_minimal depends on axioms: [propext, Classical.choice, Quot.sound]
Amino.C05_fixed64_roundtrip depends on axioms: [propext, Classical.choice, Quot.sound]
Amino.C05_fixed32_roundtrip depends on axioms: [propext, Classical.choice, Quot.sound]
Amino.C05_int64_roundtrip depends on axioms: [propext, Classical.choice, Quot.sound]
Amino.C05_int32_roundtrip depends on axioms: [propext, Classical.choice, Quot.sound]
Amino.C05_fixed_short depends on axioms: [propext, Quot.sound]
Amino.C06_decoders_safe depends on axioms: [propext, Classical.choice, Quot.sound]
Amino.C07_int8_range depends on axioms: [propext, Classical.choice, Quot.sound]
Amino.C07_int16_range depends on axioms: [propext, Classical.choice, Quot.sound]
Amino.C07_uint8_range depends on axioms: [propext, Classical.choice, Quot.sound]
Amino.C07_uint16_range depends on axioms: [propext, Classical.choice, Quot.sound]
Amino.C08_bytes_roundtrip depends on axioms: [propext, Classical.choice, Quot.sound]
Amino.C08_bytes_truncated depends on axioms: [propext, Classical.choice, Quot.sound]
Amino.C09_time_encode_range depends on axioms: [propext, Classical.choice, Quot.sound]
Amino.C09_time_roundtrip depends on axioms: [propext, Classical.choice, Quot.sound]
Amino.C09_time_decode_range depends on axioms: [propext, Classical.choice, Quot.sound]
Amino.C10_key_roundtrip depends on axioms: [propext, Classical.choice, Quot.sound]
Amino.C10_key_range depends on axioms: [propext, Classical.choice, Quot.sound]
Amino.C10_key_encode_panics depends on axioms: [propext, Quot.sound]
Amino.C11_roundTrip depends on axioms: [propext, Classical.choice, Quot.sound]
Amino.C11_lengthPrefixed depends on axioms: [propext, Classical.choice, Quot.sound]
Amino.C12_lengthPrefixed depends on axioms: [propext, Classical.choice, Quot.sound]
Amino.C13_reencode depends on axioms: [propext, Classical.choice, Quot.sound]
Amino.C13_nestedTime_differs depends on axioms: [propext, Quot.sound]
Amino.C13_idempotent depends on axioms: [propext, Classical.choice, Quot.sound]
Amino.C14_injective depends on axioms: [propext, Classical.choice, Quot.sound]
Amino.C15_step_fits depends on axioms: [propext, Classical.choice, Quot.sound]
Amino.C15_step_progress depends on axioms: [propext, Classical.choice, Quot.sound]
Amino.C15_unmarshal_no_slide depends on axioms: [propext, Classical.choice, Quot.sound]
Amino.C15_unmarshalLP_no_slide depends on axioms: [propext, Classical.choice, Quot.sound]
Amino.C16_panics_partial depends on axioms: [propext, Classical.choice, Quot.sound]
Amino.C16_noPanic_partial depends on axioms: [propext, Classical.choice, Quot.sound]
Amino.C16_refuted depends on axioms: [propext, Quot.sound]
Amino.C16_refuted_list depends on axioms: [propext, Quot.sound]
Amino.C17_terminates depends on axioms: [propext, Classical.choice, Quot.sound]
Amino.C18_accept depends on axioms: [propext, Classical.choice, Quot.sound]
Amino.C18_truncated depends on axioms: [propext, Classical.choice, Quot.sound]
Amino.C18_extended depends on axioms: [propext, Classical.choice, Quot.sound]
Amino.C19_chunking depends on axioms: [propext, Classical.choice, Quot.sound]
Amino.C19_exact depends on axioms: [propext, Classical.choice, Quot.sound]
Amino.C19_sequence depends on axioms: [propext, Classical.choice, Quot.sound]
Amino.C20_consumed depends on axioms: [propext, Classical.choice, Quot.sound]
Amino.C20_allocated depends on axioms: [propext, Classical.choice, Quot.sound]
Amino.C20_accepted depends on axioms: [propext, Classical.choice, Quot.sound]
Amino.C21_malformedIsEmpty depends on axioms: [propext, Classical.choice, Quot.sound]
Amino.C21_rejected_partial depends on axioms: [propext, Classical.choice, Quot.sound]
Amino.C21_refuted depends on axioms: [propext, Quot.sound]
Amino.C22_extraFields_partial depends on axioms: [propext, Classical.choice, Quot.sound]
Amino.C22_appendedFields depends on axioms: [propext, Classical.choice, Quot.sound]
Amino.C22_repeatedExtra_rejected depends on axioms: [propext, Quot.sound]
Amino.C22_acceptedBytes_refuted depends on axioms: [propext, Quot.sound]
Amino.C23_order_partial depends on axioms: [propext, Classical.choice, Quot.sound]
Amino.C23_time_refuted depends on axioms: [propext, Quot.sound]
Amino.C24_chunks depends on axioms: [propext, Classical.choice, Quot.sound]
Amino.C24_empty depends on axioms: [propext, Classical.choice, Quot.sound]
Amino.C25_stale_partial depends on axioms: [propext, Quot.sound]
Amino.C25_staleLengthPrefixed_partial depends on axioms: [propext, Quot.sound]
Amino.C25_nonNilInterface depends on axioms: [propext, Quot.sound]
Amino.C25_skippedKept depends on axioms: [propext, Quot.sound]
Amino.C25_fresh_partial depends on axioms: [propext, Quot.sound]
Amino.C25_listPointer_panics depends on axioms: [propext, Quot.sound]
Amino.C26_dynamicType depends on axioms: [propext, Classical.choice, Quot.sound]
Amino.C26_readIntoInterface depends on axioms: [propext, Classical.choice, Quot.sound]
Amino.C26_ambiguousPrefix depends on axioms: [propext, Classical.choice, Quot.sound]
Amino.C27_exact_partial depends on axioms: [propext, Quot.sound]
Amino.C27_panics depends on axioms: [propext, Quot.sound]
Amino.C27_unambiguous depends on axioms: [propext, Quot.sound]
Amino.C27_total_partial depends on axioms: [propext, Quot.sound]
Amino.C27_total_refuted does not depend on any axioms
Amino.C28_prefixed depends on axioms: [propext, Quot.sound]
Amino.C28_verified depends on axioms: [propext, Classical.choice, Quot.sound]
Amino.C28_stripped depends on axioms: [propext, Quot.sound]
Amino.C29_unique depends on axioms: [propext, Classical.choice, Quot.sound]
Amino.C29_found depends on axioms: [propext, Classical.choice, Quot.sound]
Amino.C29_only depends on axioms: [propext, Classical.choice, Quot.sound]
Amino.C30_implementers depends on axioms: [propext, Classical.choice, Quot.sound]
Amino.C30_order depends on axioms: [propext, Classical.choice, Quot.sound]
Amino.C30_anyOrder depends on axioms: [propext, Classical.choice, Quot.sound]
Amino.C31_prioritised depends on axioms: [propext, Classical.choice, Quot.sound]
Amino.C31_encoded depends on axioms: [propext, Classical.choice, Quot.sound]
Amino.C31_resolved depends on axioms: [propext, Classical.choice, Quot.sound]
Amino.C31_decoded depends on axioms: [propext, Classical.choice, Quot.sound]
Amino.C31_registry depends on axioms: [propext, Classical.choice, Quot.sound]
Amino.C32_frozen_partial depends on axioms: [propext]
Amino.C32_goroutine_partial depends on axioms: [propext]
Amino.C32_sequential_partial depends on axioms: [propext]
Amino.C32_refuted depends on axioms: [propext, Quot.sound]
Amino.C33_interface_partial depends on axioms: [propext]
Amino.C33_concrete_partial depends on axioms: [propext, Classical.choice, Quot.sound]
Amino.C33_kept_partial depends on axioms: [propext, Quot.sound]
Amino.C33_dupName_refuted depends on axioms: [propext, Quot.sound]
Amino.C33_dupType_refuted depends on axioms: [propext, Quot.sound]
Amino.C33_used_refuted depends on axioms: [propext, Quot.sound]
Amino.C33_conflict_refuted depends on axioms: [propext, Quot.sound]
Amino.C34_released_partial depends on axioms: [propext]
Amino.C34_refuted depends on axioms: [propext, Quot.sound]
Amino.C35_int_exact_partial depends on axioms: [propext, Classical.choice, Quot.sound]
Amino.C35_result_in_range depends on axioms: [propext, Classical.choice, Quot.sound]
Amino.C35_refuted depends on axioms: [propext, Quot.sound]
Amino.C36_isolated_partial depends on axioms: [propext, Classical.choice, Quot.sound]
Amino.C36_resumes_partial depends on axioms: [propext, Classical.choice, Quot.sound]
Amino.C36_nonMinimal_refuted depends on axioms: [propext, Quot.sound]
Amino.C36_pointerToList_refuted depends on axioms: [propext, Quot.sound]
Amino.C37_roundTrip_partial depends on axioms: [propext, Classical.choice, Quot.sound]
Amino.C37_scalar_partial depends on axioms: [propext, Classical.choice, Quot.sound]
Amino.C37_zero_refuted depends on axioms: [propext, Quot.sound]
Amino.C37_strings_refuted depends on axioms: [propext, Quot.sound]
Amino.C38_field_partial depends on axioms: [propext, Classical.choice, Quot.sound]
Amino.C38_element_refuted depends on axioms: [propext, Quot.sound]
Amino.C38_firstField_refuted depends on axioms: [propext, Quot.sound]
Amino.C38_topLevel_refuted depends on axioms: [propext, Quot.sound]
Amino.C39_preserved depends on axioms: [propext, Classical.choice, Quot.sound]
Amino.C39_collision depends on axioms: [propext, Quot.sound]
Amino.C40_writer depends on axioms: [propext, Quot.sound]
Amino.C41_wire depends on axioms: [propext, Classical.choice, Quot.sound]
Amino.C41_split_unique depends on axioms: [propext, Classical.choice, Quot.sound]
Amino.C42_rejected_partial depends on axioms: [propext, Quot.sound]
Amino.C42_bytes_refuted depends on axioms: [propext, Quot.sound]
Amino.C42_pointer_refuted depends on axioms: [propext, Quot.sound]
Amino.C43_time_partial depends on axioms: [propext, Classical.choice, Quot.sound]
Amino.C43_refuted depends on axioms: [propext, Quot.sound]
Amino.C44_fields_partial depends on axioms: [propext, Quot.sound]
Amino.C44_marshal_partial depends on axioms: [propext, Quot.sound]
Amino.C44_unmarshal_partial depends on axioms: [propext, Quot.sound]
Amino.C44_default_refuted depends on axioms: [propext, Quot.sound]
Amino.C44_list_refuted depends on axioms: [propext, Quot.sound]
Amino.C44_wireType_refuted depends on axioms: [propext, Quot.sound]
Amino.C45_options depends on axioms: [propext, Classical.choice, Quot.sound]
Amino.C45_numbers depends on axioms: [propext, Classical.choice, Quot.sound]
Amino.C45_stable depends on axioms: [propext, Classical.choice, Quot.sound]
Amino.C45_float depends on axioms: [propext, Classical.choice, Quot.sound]
Amino.C45_encode depends on axioms: [propext, Classical.choice, Quot.sound]
Amino.C45_decode depends on axioms: [propext, Classical.choice, Quot.sound]
Amino.C45_json_encode depends on axioms: [propext, Classical.choice, Quot.sound]
Amino.C45_json_decode depends on axioms: [propext, Classical.choice, Quot.sound]
Amino.C46_json_roundtrip_partial depends on axioms: [propext, Classical.choice, Quot.sound]
Amino.C46_json_exact_partial depends on axioms: [propext, Classical.choice, Quot.sound]
Amino.C46_refuted depends on axioms: [propext, Quot.sound]
Amino.C47_json_int_written depends on axioms: [propext, Classical.choice, Quot.sound]
Amino.C47_json_int_read depends on axioms: [propext, Quot.sound]
Amino.C47_json_unquoted_rejected depends on axioms: [propext]
Amino.C47_json_int_in_range depends on axioms: [propext, Quot.sound]
Amino.C48_refuted depends on axioms: [propext, Classical.choice, Quot.sound]
Amino.C48_json_float_rejected depends on axioms: [propext]
Amino.C48_json_float_partial depends on axioms: [propext, Classical.choice, Quot.sound]
Amino.C49_refuted depends on axioms: [propext, Quot.sound]
Amino.C49_json_deterministic_partial depends on axioms: [propext, Classical.choice, Quot.sound]
Amino.C50_refuted depends on axioms: [propext, Quot.sound]
Amino.C50_json_iface_partial depends on axioms: [propext, Classical.choice, Quot.sound]
Amino.C50_json_iface_value depends on axioms: [propext]
Amino.C51_equal_partial depends on axioms: [propext, Classical.choice, Quot.sound]
Amino.C51_map_refuted depends on axioms: [propext]
Amino.C51_pointer_refuted depends on axioms: [propext]
Amino.C52_disjoint_partial depends on axioms: [propext, Quot.sound]
Amino.C52_independent_partial depends on axioms: [propext, Quot.sound]
Amino.C52_slice_refuted depends on axioms: [propext]
Amino.C52_map_refuted depends on axioms: [propext]
Amino.C53_refuted depends on axioms: [propext, Quot.sound]
Amino.C53_stops_partial depends on axioms: [propext, Classical.choice, Quot.sound]
Amino.C53_exact_partial depends on axioms: [propext, Classical.choice, Quot.sound]
Amino.C54_refuted depends on axioms: [propext]
Amino.C54_json_wrapper_partial depends on axioms: [propext, Classical.choice, Quot.sound]
Amino.C55_must depends on axioms: [propext, Quot.sound]
Amino.C56_exact_partial depends on axioms: [propext, Classical.choice, Quot.sound]
Amino.C56_eofWithPrefix_refuted depends on axioms: [propext, Quot.sound]
Amino.C56_emptyRead_refuted depends on axioms: [propext, Quot.sound]
Amino.C57_race_partial depends on axioms: [propext]
Amino.C57_sealed_partial depends on axioms: [propext]
Amino.C57_refuted depends on axioms: [propext, Quot.sound]
Amino.C58_count_partial depends on axioms: [propext, Classical.choice, Quot.sound]
Amino.C58_refuted depends on axioms: [propext, Quot.sound]
Amino.C58_wellformed_partial depends on axioms: [propext, Classical.choice, Quot.sound]
Amino.C58_exact_partial depends on axioms: [propext, Classical.choice, Quot.sound]
Amino.C58_end depends on axioms: [propext, Classical.choice, Quot.sound]
Amino.C59_original depends on axioms: [propext, Quot.sound]
Amino.C60_json_no_panic_partial depends on axioms: [propext, Classical.choice, Quot.sound]
Amino.C60_refuted depends on axioms: [propext]
Amino.C61_json_int64_accepted_partial depends on axioms: [propext, Quot.sound]
Amino.C61_json_int_accepted depends on axioms: [propext, Quot.sound]
Amino.C61_refuted depends on axioms: [propext]
Amino.C62_json_stale_partial depends on axioms: [propext, Quot.sound]
Amino.C62_refuted depends on axioms: [propext, Quot.sound]
Amino.C62_null_refuted depends on axioms: [propext]
Amino.C63_json_members depends on axioms: [propext, Classical.choice, Quot.sound]
Amino.C63_json_member_order depends on axioms: [propext, Classical.choice, Quot.sound]
Amino.C63_json_unknown_member depends on axioms: [propext, Classical.choice, Quot.sound]
Amino.C64_complete depends on axioms: [propext, Classical.choice, Quot.sound]
Amino.C65_json_string depends on axioms: [propext, Classical.choice, Quot.sound]
Amino.C65_json_string_top depends on axioms: [propext, Classical.choice, Quot.sound]
Amino.C65_json_string_utf8 depends on axioms: [propext, Classical.choice, Quot.sound]
Amino.C66_struct_partial depends on axioms: [propext, Classical.choice, Quot.sound]
Amino.C66_topLevel depends on axioms: [propext, Classical.choice, Quot.sound]
Amino.C66_iface depends on axioms: [propext, Classical.choice, Quot.sound]
Amino.C66_time_refuted depends on axioms: [propext, Quot.sound]
Amino.C67_struct depends on axioms: [propext, Classical.choice, Quot.sound]
Amino.C67_wrapped depends on axioms: [propext, Classical.choice, Quot.sound]
Amino.C67_bare depends on axioms: [propext, Classical.choice, Quot.sound]
Amino.C68_binary depends on axioms: [propext, Classical.choice, Quot.sound]
Amino.C68_bytes depends on axioms: [propext, Classical.choice, Quot.sound]
Amino.C68_json depends on axioms: [propext, Classical.choice, Quot.sound]
Amino.C69_bare depends on axioms: [propext, Classical.choice, Quot.sound]
Amino.C69_prefixed depends on axioms: [propext, Classical.choice, Quot.sound]
Amino.C70_json_space_partial depends on axioms: [propext, Quot.sound]
Amino.C70_json_around_partial depends on axioms: [propext, Quot.sound]
Amino.C70_refuted depends on axioms: [propext, Quot.sound]
Amino.C71_json_indent depends on axioms: [propext, Quot.sound]
Amino.C71_json_layout depends on axioms: [propext, Quot.sound]
Amino.C71_json_indent_roundtrip depends on axioms: [propext, Classical.choice, Quot.sound]
Amino.C72_json_time_written depends on axioms: [propext, Classical.choice, Quot.sound]
Amino.C72_json_time_read depends on axioms: [propext, Classical.choice, Quot.sound]
Amino.C72_json_time_accepted_partial depends on axioms: [propext, Classical.choice, Quot.sound]
Amino.C72_stamp_unique depends on axioms: [propext, Classical.choice, Quot.sound]
Amino.C72_refuted depends on axioms: [propext, Quot.sound]
Amino.C72_json_roundtrip depends on axioms: [propext, Classical.choice, Quot.sound]
Amino.C73_json_injective depends on axioms: [propext, Classical.choice, Quot.sound]
Amino.C73_json_exact_injective depends on axioms: [propext, Classical.choice, Quot.sound]
Amino.C73_json_type depends on axioms: [propext, Quot.sound]
Amino.C74_json_settles_partial depends on axioms: [propext, Classical.choice, Quot.sound]
Amino.C74_refuted depends on axioms: [propext, Quot.sound]
Amino.C75_olderMessage depends on axioms: [propext, Classical.choice, Quot.sound]
Amino.C75_pointers depends on axioms: [propext]
Amino.C76_json_byName depends on axioms: [propext, Classical.choice, Quot.sound]
Amino.C77_sameBytes depends on axioms: [propext, Classical.choice, Quot.sound]
Amino.C77_read depends on axioms: [propext, Classical.choice, Quot.sound]
Amino.C77_widen_refuted depends on axioms: [propext, Quot.sound]
Amino.C78_writes depends on axioms: [propext, Classical.choice, Quot.sound]
Amino.C78_fuel depends on axioms: [propext, Quot.sound]
Amino.C79_rewrite_partial depends on axioms: [propext, Classical.choice, Quot.sound]
Amino.C79_reread_partial depends on axioms: [propext, Classical.choice, Quot.sound]
Amino.C79_rewrite_refuted depends on axioms: [propext, Quot.sound]
Amino.C80_document depends on axioms: [propext, Classical.choice, Quot.sound]
Amino.C80_nil depends on axioms: [propext]
Amino.C80_unique depends on axioms: [propext, Classical.choice, Quot.sound]
Amino.C80_program depends on axioms: [propext, Classical.choice, Quot.sound]
Amino.C81_writes depends on axioms: [propext, Quot.sound]
Amino.C81_depth depends on axioms: [propext, Quot.sound]
Amino.C82_json_rewrite_partial depends on axioms: [propext, Classical.choice, Quot.sound]
Amino.C82_time depends on axioms: [propext, Classical.choice, Quot.sound]
Amino.C82_float_refuted depends on axioms: [propext, Classical.choice, Quot.sound]
Amino.C82_named_bytes_refuted depends on axioms: [propext, Classical.choice, Quot.sound]
Amino.C83_refines depends on axioms: [propext, Quot.sound]
Amino.C83_transfer depends on axioms: [propext, Quot.sound]
Amino.C83_pointer depends on axioms: [propext, Quot.sound]
Amino.C83_pointer_LP depends on axioms: [propext, Quot.sound]
Amino.C83_alike_partial depends on axioms: [propext, Quot.sound]
Amino.C83_writes_partial depends on axioms: [propext, Classical.choice, Quot.sound]
Amino.C83_json_partial depends on axioms: [propext, Quot.sound]
Amino.C83_array_refuted depends on axioms: [propext, Quot.sound]
Amino.C83_json_refuted depends on axioms: [propext]
Amino.C83_places_refuted depends on axioms: [propext, Quot.sound]
Amino.C84_refines depends on axioms: [propext]
Amino.C84_terminates depends on axioms: [propext, Classical.choice, Quot.sound]
Amino.C84_no_deadlock_partial depends on axioms: [propext, Classical.choice, Quot.sound]
Amino.C84_returns_partial depends on axioms: [propext, Classical.choice, Quot.sound]
Amino.C84_printTypes_refuted depends on axioms: [propext, Quot.sound]
Amino.C85_safe_partial depends on axioms: [propext, Classical.choice, Quot.sound]
Amino.C85_lib depends on axioms: [propext, Classical.choice, Quot.sound]
Amino.C85_bytes depends on axioms: [propext, Classical.choice, Quot.sound] /tmp/tmp.WECR5B0WhV.lean:269:14: error(lean.unknownIdentifier): Unknown constant `Amino.C85_name_refuted` /tmp/tmp.WECR5B0WhV.lean:270:14: error(lean.unknownIdentifier): Unknown constant `Amino.C85_method_refuted`
Amino.C86_transcode_partial depends on axioms: [propext, Classical.choice, Quot.sound]
Amino.C86_same_text_partial depends on axioms: [propext, Classical.choice, Quot.sound]
Amino.C86_text_refuted depends on axioms: [propext, Classical.choice, Quot.sound]
Amino.C86_converse_refuted depends on axioms: [propext, Quot.sound]
Amino.C86_pointer_refuted depends on axioms: [propext, Quot.sound]
Amino.C87_strict_partial depends on axioms: [propext, Classical.choice, Quot.sound]
Amino.C87_canonical_partial depends on axioms: [propext, Classical.choice, Quot.sound]
Amino.C87_malleable_refuted depends on axioms: [propext, Quot.sound]
Amino.C88_json_preserved depends on axioms: [propext, Classical.choice, Quot.sound]
Amino.C88_own_registration depends on axioms: [propext, Quot.sound]
Amino.C89_cut_partial depends on axioms: [propext, Classical.choice, Quot.sound]
Amino.C89_eof_refuted depends on axioms: [propext, Quot.sound]
Amino.C90_binary_partial depends on axioms: [propext, Classical.choice, Quot.sound]
Amino.C90_json depends on axioms: [propext, Classical.choice, Quot.sound]
Amino.C90_alone depends on axioms: [propext, Classical.choice, Quot.sound]
Amino.C90_mixed_refuted depends on axioms: [propext, Quot.sound]
Amino.C91_table_partial depends on axioms: [propext, Classical.choice, Quot.sound]
Amino.C91_length_refuted depends on axioms: [propext, Classical.choice, Quot.sound]
Amino.C91_names_refuted depends on axioms: [propext, Classical.choice, Quot.sound]
Amino.C92_typed depends on axioms: [propext, Classical.choice, Quot.sound]
Amino.C92_success depends on axioms: [propext, Quot.sound]
Amino.C92_again_partial depends on axioms: [propext, Classical.choice, Quot.sound]
Amino.C92_kept_partial depends on axioms: [propext, Quot.sound]
Amino.C92_hidden depends on axioms: [propext, Quot.sound]
Amino.C92_half_refuted depends on axioms: [propext, Quot.sound]
Amino.C92_trailing_refuted depends on axioms: [propext, Quot.sound]
Amino.C92_interface_refuted depends on axioms: [propext, Quot.sound]
Amino.C92_listPointer_refuted depends on axioms: [propext, Quot.sound]
Amino.C93_success depends on axioms: [propext]
Amino.C93_again_partial depends on axioms: [propext, Classical.choice, Quot.sound]
Amino.C93_kept_partial depends on axioms: [propext]
Amino.C93_half_refuted depends on axioms: [propext, Quot.sound]
Amino.C93_omitempty_refuted depends on axioms: [propext, Quot.sound]
Amino.C93_interface_refuted depends on axioms: [propext, Quot.sound]
Amino.C94_get depends on axioms: [propext, Classical.choice, Quot.sound]
Amino.C94_options depends on axioms: [propext, Classical.choice, Quot.sound]
Amino.C94_order depends on axioms: [propext, Classical.choice, Quot.sound]
Amino.C94_others depends on axioms: [propext, Classical.choice, Quot.sound]
Amino.C94_skip depends on axioms: [propext, Classical.choice, Quot.sound]
Amino.C94_secret depends on axioms: [propext, Classical.choice, Quot.sound]
Amino.C94_comma depends on axioms: [propext, Classical.choice, Quot.sound]
Amino.C94_space depends on axioms: [propext, Classical.choice, Quot.sound]
Amino.C95_json_tags depends on axioms: [propext, Classical.choice, Quot.sound]
Amino.C95_write_empty depends on axioms: [propext, Classical.choice, Quot.sound]
Amino.C95_cross depends on axioms: [propext, Classical.choice, Quot.sound]
Amino.C95_binary_tags depends on axioms: [propext, Classical.choice, Quot.sound]
Amino.C95_fixed_refuted depends on axioms: [propext, Quot.sound]
Amino.C95_fixed_list_refuted depends on axioms: [propext, Quot.sound]
Amino.C95_empty_elements_refuted depends on axioms: [propext, Quot.sound]
Amino.C95_rename_refuted depends on axioms: [propext, Classical.choice, Quot.sound]
Amino.C96_bytes depends on axioms: [propext, Classical.choice, Quot.sound]
Amino.C96_listing depends on axioms: [propext, Classical.choice, Quot.sound]
Amino.C96_color depends on axioms: [propext, Classical.choice, Quot.sound]
Amino.C96_hex depends on axioms: [propext, Classical.choice, Quot.sound]
Amino.C97_frame depends on axioms: [propext, Classical.choice, Quot.sound]
Amino.C97_references depends on axioms: [propext, Classical.choice, Quot.sound]
Amino.C97_input depends on axioms: [propext, Classical.choice, Quot.sound]
Amino.C98_unshared_partial depends on axioms: [propext, Classical.choice, Quot.sound]
Amino.C98_new_partial depends on axioms: [propext, Classical.choice, Quot.sound]
Amino.C98_shared_refuted depends on axioms: [propext, Quot.sound]
Amino.C98_cyclic_refuted depends on axioms: [propext, Quot.sound]
Amino.C99_json_only_partial depends on axioms: [propext, Quot.sound]
Amino.C99_methods_partial depends on axioms: [propext, Quot.sound]
Amino.C99_refuted depends on axioms: [propext, Quot.sound]
Amino.C100_bytes depends on axioms: [propext, Classical.choice, Quot.sound]
Amino.C100_bytes_top depends on axioms: [propext, Classical.choice, Quot.sound]
Amino.C100_array depends on axioms: [propext, Classical.choice, Quot.sound]
Amino.C101_accepts depends on axioms: [propext, Classical.choice, Quot.sound]
Amino.C101_exactly depends on axioms: [propext, Classical.choice, Quot.sound]
Amino.C101_unique depends on axioms: [propext, Classical.choice, Quot.sound]
Amino.C101_refuses depends on axioms: [propext, Classical.choice, Quot.sound]
Amino.C102_exactly depends on axioms: [propext, Classical.choice, Quot.sound]
Amino.C102_accepts depends on axioms: [propext, Classical.choice, Quot.sound]
Amino.C102_unique depends on axioms: [propext, Classical.choice, Quot.sound]
Amino.C102_failure depends on axioms: [propext, Classical.choice, Quot.sound]
Amino.C102_refuses depends on axioms: [propext, Classical.choice, Quot.sound]
Amino.C102_prefixed depends on axioms: [propext, Classical.choice, Quot.sound]
Amino.C103_binary depends on axioms: [propext, Classical.choice, Quot.sound]
Amino.C103_lengthPrefixed depends on axioms: [propext, Classical.choice, Quot.sound]
Amino.C103_json depends on axioms: [propext, Classical.choice, Quot.sound]
Amino.C103_sharing depends on axioms: [propext, Classical.choice, Quot.sound]
Amino.C103_endless depends on axioms: [propext, Quot.sound]
Amino.C103_endless_json depends on axioms: [propext, Quot.sound]
Amino.C103_cyclic depends on axioms: [propext, Classical.choice, Quot.sound]
Amino.C103_cyclic_json depends on axioms: [propext, Classical.choice, Quot.sound]
Amino.C103_roundTrip depends on axioms: [propext, Classical.choice, Quot.sound]
Amino.C103_never_returns depends on axioms: [propext, Quot.sound]
Amino.C103_blowup depends on axioms: [propext, Classical.choice, Quot.sound]
Amino.C104_frame_partial depends on axioms: [propext, Classical.choice, Quot.sound]
Amino.C104_references depends on axioms: [propext, Classical.choice, Quot.sound]
Amino.C104_input depends on axioms: [propext, Classical.choice, Quot.sound]
Amino.C104_bytes_refuted depends on axioms: [propext, Quot.sound]
Amino.C104_beyond_refuted depends on axioms: [propext, Quot.sound]
Amino.C105_outcome depends on axioms: [propext, Classical.choice, Quot.sound]
Amino.C105_separate depends on axioms: [propext, Classical.choice, Quot.sound]
Amino.C105_new depends on axioms: [propext, Classical.choice, Quot.sound]
Amino.C105_roundTrip depends on axioms: [propext, Classical.choice, Quot.sound]
Amino.C105_needs_noRefs depends on axioms: [propext, Quot.sound]
Amino.C106_cut_partial depends on axioms: [propext, Classical.choice, Quot.sound]
Amino.C106_plain_partial depends on axioms: [propext, Classical.choice, Quot.sound]
Amino.C106_between depends on axioms: [propext, Classical.choice, Quot.sound]
Amino.C106_cutRefused_refuted depends on axioms: [propext, Quot.sound]
Amino.C106_json_partial depends on axioms: [propext, Classical.choice, Quot.sound]
Amino.C106_number_refuted depends on axioms: [propext, Quot.sound]
Amino.C107_size_partial depends on axioms: [propext, Classical.choice, Quot.sound]
Amino.C107_names_refuted depends on axioms: [propext, Classical.choice, Quot.sound]
Amino.C108_order depends on axioms: [propext, Classical.choice, Quot.sound]
Amino.C108_reading_partial depends on axioms: [propext, Classical.choice, Quot.sound]
Amino.C108_keys_refuted depends on axioms: [propext, Classical.choice, Quot.sound]
Amino.C109_exact depends on axioms: [propext, Classical.choice, Quot.sound]
Amino.C109_panics depends on axioms: [propext, Classical.choice, Quot.sound]
Amino.C109_own depends on axioms: [propext, Classical.choice, Quot.sound]
Amino.C109_pointer depends on axioms: [propext, Classical.choice, Quot.sound]
Amino.C109_none depends on axioms: [propext, Classical.choice, Quot.sound]
Amino.C109_promoted depends on axioms: [propext, Classical.choice, Quot.sound]
Amino.C109_ambiguous depends on axioms: [propext, Classical.choice, Quot.sound]
Amino.C109_pointer_refuted depends on axioms: [propext, Classical.choice, Quot.sound]
Amino.C109_mixed_refuted depends on axioms: [propext, Classical.choice, Quot.sound]
Amino.C109_embedded_refuted depends on axioms: [propext, Classical.choice, Quot.sound]
Amino.C110_roundtrip_partial depends on axioms: [propext, Classical.choice, Quot.sound]
Amino.C110_none depends on axioms: [propext, Quot.sound]
Amino.C110_pointer_refuted depends on axioms: [propext, Quot.sound]
Amino.C111_same_marshal depends on axioms: [propext, Quot.sound]
Amino.C111_same_unmarshal depends on axioms: [propext, Quot.sound]
Amino.C111_roundtrip_partial depends on axioms: [propext, Classical.choice, Quot.sound]
Amino.C111_int64_refuted depends on axioms: [propext, Classical.choice, Quot.sound]
Amino.C111_reads depends on axioms: [propext, Classical.choice, Quot.sound]
Amino.C111_float depends on axioms: [propext, Quot.sound]
Amino.C112_other depends on axioms: [propext, Quot.sound]
Amino.C112_named_written depends on axioms: [propext, Quot.sound]
Amino.C112_named_unread depends on axioms: [propext, Classical.choice, Quot.sound]
Amino.C112_named_refuted depends on axioms: [propext, Quot.sound]
Amino.C112_method_refuted depends on axioms: [propext, Quot.sound]
Amino.C113_deepcopy depends on axioms: [propext, Classical.choice, Quot.sound]
Amino.C113_deepcopy_pointer depends on axioms: [propext, Classical.choice, Quot.sound]
Amino.C113_amino_partial depends on axioms: [propext, Classical.choice, Quot.sound]
Amino.C113_amino_error depends on axioms: [propext, Classical.choice, Quot.sound]
Amino.C113_slice_refuted depends on axioms: [propext, Classical.choice, Quot.sound]
Amino.C113_field_refuted depends on axioms: [propext, Classical.choice, Quot.sound]
Amino.C113_codec depends on axioms: [propext, Classical.choice, Quot.sound]
Amino.C113_none depends on axioms: [propext, Classical.choice, Quot.sound]
Amino.C113_value_refuted depends on axioms: [propext, Classical.choice, Quot.sound]
Amino.C113_pointer_refuted depends on axioms: [propext, Classical.choice, Quot.sound]
Amino.C113_embedded_refuted depends on axioms: [propext, Classical.choice, Quot.sound]
Amino.C114_bare_partial depends on axioms: [propext, Quot.sound]
Amino.C114_lengthPrefixed_partial depends on axioms: [propext, Quot.sound]
Amino.C114_json_partial depends on axioms: [propext, Quot.sound]
Amino.C114_codec depends on axioms: [propext, Classical.choice, Quot.sound]
Amino.C114_memory_partial depends on axioms: [propext, Classical.choice, Quot.sound]
Amino.C114_shared_refuted depends on axioms: [propext, Classical.choice, Quot.sound]
Amino.C114_methods_refuted depends on axioms: [propext, Quot.sound]
Amino.C115_pointer depends on axioms: [propext, Quot.sound]
Amino.C115_nonpointer depends on axioms: [propext, Classical.choice, Quot.sound]
Amino.C115_nil_bare depends on axioms: [propext, Quot.sound]
Amino.C115_nil_partial depends on axioms: [propext, Classical.choice, Quot.sound]
Amino.C115_nil_json_partial depends on axioms: [propext, Quot.sound]
Amino.C115_marshal depends on axioms: [propext, Quot.sound]
Amino.C115_reader_reads depends on axioms: [propext, Quot.sound]
Amino.C115_reader_pointer depends on axioms: [propext, Quot.sound]
Amino.C115_reader_partial depends on axioms: [propext, Classical.choice, Quot.sound]
Amino.C115_nil_refuted depends on axioms: [propext, Quot.sound]
Amino.C115_reader_refuted depends on axioms: [propext, Quot.sound]
Amino.C116_message_partial depends on axioms: [propext, Classical.choice, Quot.sound]
Amino.C116_registered_partial depends on axioms: [propext, Classical.choice, Quot.sound]
Amino.C116_delimited_partial depends on axioms: [propext, Classical.choice, Quot.sound]
Amino.C116_one depends on axioms: [propext, Classical.choice, Quot.sound]
Amino.C116_order_refuted depends on axioms: [propext, Classical.choice, Quot.sound]
Amino.C116_twice_refuted depends on axioms: [propext, Classical.choice, Quot.sound]
Amino.C116_unpacked_refuted depends on axioms: [propext, Classical.choice, Quot.sound]
Amino.C116_digits_refuted depends on axioms: [propext, Classical.choice, Quot.sound]
Amino.C117_bare depends on axioms: [propext, Classical.choice, Quot.sound]
Amino.C117_prefixed depends on axioms: [propext, Classical.choice, Quot.sound]
Amino.C117_counted depends on axioms: [propext, Classical.choice, Quot.sound]
Amino.C117_square_reached depends on axioms: [propext, Classical.choice, Quot.sound]
Amino.C118_bare depends on axioms: [propext, Quot.sound]
Amino.C118_lengthPrefixed depends on axioms: [propext, Quot.sound]
Amino.C118_nesting depends on axioms: [propext, Classical.choice, Quot.sound]
Amino.C118_counted depends on axioms: [propext, Quot.sound]
Amino.C118_square_reached depends on axioms: [propext, Quot.sound]
Amino.C119_flags depends on axioms: [propext, Classical.choice, Quot.sound]
Amino.C119_scan_partial depends on axioms: [propext, Classical.choice, Quot.sound]
Amino.C119_scan_ends depends on axioms: [propext, Classical.choice, Quot.sound]
Amino.C119_color depends on axioms: [propext, Classical.choice, Quot.sound]
Amino.C119_usage depends on axioms: [propext, Classical.choice, Quot.sound]
Amino.C119_name depends on axioms: [propext, Classical.choice, Quot.sound]
Amino.C119_digest depends on axioms: [propext, Classical.choice, Quot.sound]
Amino.C119_exit depends on axioms: [propext, Classical.choice, Quot.sound]
Amino.C119_behind_flags_refuted depends on axioms: [propext, Classical.choice, Quot.sound]
Amino.C119_help_refuted depends on axioms: [propext, Classical.choice, Quot.sound]
Amino.C120_length depends on axioms: [propext, Quot.sound]
Amino.C120_begins_partial depends on axioms: [propext, Classical.choice, Quot.sound]
Amino.C120_message depends on axioms: [propext, Classical.choice, Quot.sound]
Amino.C120_prefixed depends on axioms: [propext, Classical.choice, Quot.sound]
Amino.C120_tells depends on axioms: [propext, Classical.choice, Quot.sound]
Amino.C120_reads depends on axioms: [propext, Classical.choice, Quot.sound]
Amino.C120_disamb depends on axioms: [propext, Classical.choice, Quot.sound]
Amino.C120_short_refuted depends on axioms: [propext, Classical.choice, Quot.sound]
Amino.C121_struct_partial depends on axioms: [propext, Classical.choice, Quot.sound]
Amino.C121_registered_refuted depends on axioms: [propext, Classical.choice, Quot.sound]
