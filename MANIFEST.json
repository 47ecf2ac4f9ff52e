{
 "claims": [
  {
   "property": "C01",
   "status": "proved",
   "theorems": [
    "Groot.C01_print_parse",
    "Groot.C01_print_is_presentation"
   ],
   "note": ""
  },
  {
   "property": "C02",
   "status": "proved",
   "theorems": [
    "Groot.C02_parse_legal",
    "Groot.C02_parse_canonical",
    "Groot.C02_final_dot",
    "Groot.C02_range",
    "Groot.C02_root",
    "Groot.C02_reads"
   ],
   "note": ""
  },
  {
   "property": "C03",
   "status": "proved",
   "theorems": [
    "Groot.C03_subdomain",
    "Groot.C03_subdomain_list",
    "Groot.C03_order"
   ],
   "note": ""
  },
  {
   "property": "C04",
   "status": "proved",
   "theorems": [
    "Groot.C04_length_check",
    "Groot.C04_length_check_label"
   ],
   "note": ""
  },
  {
   "property": "C05",
   "status": "proved",
   "theorems": [
    "Groot.C05_type_names",
    "Groot.C05_unknown_types",
    "Groot.C05_types_to_string",
    "Groot.C05_sets"
   ],
   "note": ""
  },
  {
   "property": "C06",
   "status": "proved",
   "theorems": [
    "Groot.C06_compare",
    "Groot.C06_compare_equal",
    "Groot.C06_order_irrelevant"
   ],
   "note": ""
  },
  {
   "property": "C07",
   "status": "proved",
   "theorems": [
    "Groot.C07_record_eq",
    "Groot.C07_record_equivalence",
    "Groot.C07_hash",
    "Groot.C07_query_eq",
    "Groot.C07_query_equivalence"
   ],
   "note": ""
  },
  {
   "property": "C08",
   "status": "proved",
   "theorems": [
    "Groot.C08_log",
    "Groot.C08_other_names",
    "Groot.C08_rejected_invisible"
   ],
   "note": ""
  },
  {
   "property": "C09",
   "status": "proved",
   "theorems": [
    "Groot.C09_exclusive",
    "Groot.C09_cname_alone"
   ],
   "note": ""
  },
  {
   "property": "C10",
   "status": "proved",
   "theorems": [
    "Groot.C10_codes",
    "Groot.C10_effect"
   ],
   "note": ""
  },
  {
   "property": "C11",
   "status": "proved",
   "theorems": [
    "Groot.C11_threshold"
   ],
   "note": ""
  },
  {
   "property": "C12",
   "status": "proved",
   "theorems": [
    "Groot.C12_names"
   ],
   "note": ""
  },
  {
   "property": "C13",
   "status": "proved",
   "theorems": [
    "Groot.C13_lookup",
    "Groot.C13_reply_unique"
   ],
   "note": ""
  },
  {
   "property": "C14",
   "status": "proved",
   "theorems": [
    "Groot.C14_referral",
    "Groot.C14_occlusion"
   ],
   "note": ""
  },
  {
   "property": "C15",
   "status": "proved",
   "theorems": [
    "Groot.C15_dname",
    "Groot.C15_owner_not_rewritten"
   ],
   "note": ""
  },
  {
   "property": "C16",
   "status": "proved",
   "theorems": [
    "Groot.C16_wildcard_used",
    "Groot.C16_wildcard_only",
    "Groot.C16_existing_name"
   ],
   "note": ""
  },
  {
   "property": "C17",
   "status": "proved",
   "theorems": [
    "Groot.C17_only_zone_data",
    "Groot.C17_types_accounted",
    "Groot.C17_requested_types"
   ],
   "note": ""
  },
  {
   "property": "C18",
   "status": "proved",
   "theorems": [
    "Groot.C18_pairing"
   ],
   "note": ""
  },
  {
   "property": "C19",
   "status": "proved",
   "theorems": [
    "Groot.C19_missing_glue"
   ],
   "note": ""
  },
  {
   "property": "C20",
   "status": "proved",
   "theorems": [
    "Groot.C20_loaded",
    "Groot.C20_first_soa",
    "Groot.C20_in_zone",
    "Groot.C20_stops",
    "Groot.C20_disagreement_root",
    "Groot.C20_disagreement_two_soas"
   ],
   "note": ""
  },
  {
   "property": "C21",
   "status": "proved",
   "theorems": [
    "Groot.C21_cname",
    "Groot.C21_rewritten_query"
   ],
   "note": ""
  },
  {
   "property": "C22",
   "status": "proved",
   "theorems": [
    "Groot.C22_nodes",
    "Groot.C22_search",
    "Groot.C22_no_dname",
    "Groot.C22_generation_never_aborts"
   ],
   "note": ""
  },
  {
   "property": "C23",
   "status": "proved",
   "theorems": [
    "Groot.C23_no_trace",
    "Groot.C23_generation_no_trace",
    "Groot.C23_terminates"
   ],
   "note": ""
  },
  {
   "property": "C24",
   "status": "proved",
   "theorems": [
    "Groot.C24_classes",
    "Groot.C24_coverage",
    "Groot.C24_classes_no_dname",
    "Groot.C24_coverage_no_dname",
    "Groot.C24_disagreement_253"
   ],
   "note": ""
  },
  {
   "property": "C25",
   "status": "proved",
   "theorems": [
    "Groot.C25_legal",
    "Groot.C25_below_domain"
   ],
   "note": ""
  },
  {
   "property": "C26",
   "status": "proved",
   "theorems": [
    "Groot.C26_no_overlap",
    "Groot.C26_disagreement_dname"
   ],
   "note": ""
  },
  {
   "property": "C27",
   "status": "proved",
   "theorems": [
    "Groot.C27_lookup_member",
    "Groot.C27_unknown_label"
   ],
   "note": ""
  },
  {
   "property": "C28",
   "status": "proved",
   "theorems": [
    "Groot.C28_same_answers",
    "Groot.C28_class_to_member",
    "Groot.C28_member_to_class",
    "Groot.C28_fresh_of_unknown",
    "Groot.C28_no_dname",
    "Groot.C28_disagreement_nested_dname"
   ],
   "note": ""
  },
  {
   "property": "C29",
   "status": "proved",
   "theorems": [
    "Groot.C29_single",
    "Groot.C29_contains"
   ],
   "note": ""
  },
  {
   "property": "C30",
   "status": "proved",
   "theorems": [
    "Groot.C30_construction_terminates"
   ],
   "note": ""
  },
  {
   "property": "C31",
   "status": "proved",
   "theorems": [
    "Groot.C31_one_node"
   ],
   "note": ""
  },
  {
   "property": "C32",
   "status": "proved",
   "theorems": [
    "Groot.C32_answers",
    "Groot.C32_says_unique"
   ],
   "note": ""
  },
  {
   "property": "C33",
   "status": "proved",
   "theorems": [
    "Groot.C33_nodes",
    "Groot.C33_edges",
    "Groot.C33_edges_inside"
   ],
   "note": ""
  },
  {
   "property": "C34",
   "status": "proved",
   "theorems": [
    "Groot.C34_zone_selection",
    "Groot.C34_no_zone",
    "Groot.C34_most_specific"
   ],
   "note": ""
  },
  {
   "property": "C35",
   "status": "proved",
   "theorems": [
    "Groot.C35_substitution",
    "Groot.C35_never_aborts"
   ],
   "note": ""
  },
  {
   "property": "C36",
   "status": "proved",
   "theorems": [
    "Groot.C36_loop_iff",
    "Groot.C36_loop_report"
   ],
   "note": ""
  },
  {
   "property": "C37",
   "status": "proved",
   "theorems": [
    "Groot.C37_enumeration",
    "Groot.C37_end_nodes",
    "Groot.C37_disagreement_repeated_node"
   ],
   "note": ""
  },
  {
   "property": "C38",
   "status": "proved",
   "theorems": [
    "Groot.C38_built_sane",
    "Groot.C38_paths",
    "Groot.C38_processing_total",
    "Groot.C38_disagreement_no_top_server",
    "Groot.C38_disagreement_no_types"
   ],
   "note": ""
  },
  {
   "property": "C39",
   "status": "proved",
   "theorems": [
    "Groot.C39_hops",
    "Groot.C39_negative_bound"
   ],
   "note": ""
  },
  {
   "property": "C40",
   "status": "proved",
   "theorems": [
    "Groot.C40_rewrites"
   ],
   "note": ""
  },
  {
   "property": "C41",
   "status": "proved",
   "theorems": [
    "Groot.C41_query_rewrite",
    "Groot.C41_query_rewrite_iff"
   ],
   "note": ""
  },
  {
   "property": "C42",
   "status": "proved",
   "theorems": [
    "Groot.C42_ns_contact"
   ],
   "note": ""
  },
  {
   "property": "C43",
   "status": "proved",
   "theorems": [
    "Groot.C43_blackholing",
    "Groot.C43_blackholing_iff"
   ],
   "note": ""
  },
  {
   "property": "C44",
   "status": "proved",
   "theorems": [
    "Groot.C44_lame_delegation"
   ],
   "note": ""
  },
  {
   "property": "C45",
   "status": "proved",
   "theorems": [
    "Groot.C45_delegation_consistency"
   ],
   "note": ""
  },
  {
   "property": "C46",
   "status": "proved",
   "theorems": [
    "Groot.C46_response_returned",
    "Groot.C46_response_returned_iff"
   ],
   "note": ""
  },
  {
   "property": "C47",
   "status": "proved",
   "theorems": [
    "Groot.C47_response_value"
   ],
   "note": ""
  },
  {
   "property": "C48",
   "status": "proved",
   "theorems": [
    "Groot.C48_response_consistency",
    "Groot.C48_order_independent"
   ],
   "note": ""
  },
  {
   "property": "C49",
   "status": "proved",
   "theorems": [
    "Groot.C49_zero_ttl",
    "Groot.C49_disagreement_types_not_filtered"
   ],
   "note": ""
  },
  {
   "property": "C50",
   "status": "proved",
   "theorems": [
    "Groot.C50_all_aliases"
   ],
   "note": ""
  },
  {
   "property": "C51",
   "status": "proved",
   "theorems": [
    "Groot.C51_dname_length"
   ],
   "note": ""
  },
  {
   "property": "C52",
   "status": "proved",
   "theorems": [
    "Groot.C52_infinite_dname"
   ],
   "note": ""
  },
  {
   "property": "C53",
   "status": "proved",
   "theorems": [
    "Groot.C53_structural",
    "Groot.C53_reported_iff",
    "Groot.C53_tasks"
   ],
   "note": ""
  },
  {
   "property": "C54",
   "status": "proved",
   "theorems": [
    "Groot.C54_exactly_once",
    "Groot.C54_json_consumer_last",
    "Groot.C54_consumer_after_generator",
    "Groot.C54_returns",
    "Groot.C54_never_blocked",
    "Groot.C54_can_return"
   ],
   "note": ""
  },
  {
   "property": "C55",
   "status": "proved",
   "theorems": [
    "Groot.C55_collected",
    "Groot.C55_groups_unique",
    "Groot.C55_as_sequential",
    "Groot.C55_schedule_independent",
    "Groot.C55_disagreement_group_order"
   ],
   "note": ""
  },
  {
   "property": "C56",
   "status": "proved",
   "theorems": [
    "Groot.C56_only_structural",
    "Groot.C56_history",
    "Groot.C56_no_leak",
    "Groot.C56_disagreement_structural",
    "Groot.C56_graph_unchanged",
    "Groot.C56_jobs_independent"
   ],
   "note": ""
  },
  {
   "property": "C57",
   "status": "proved",
   "theorems": [
    "Groot.C57_job",
    "Groot.C57_unknown_type"
   ],
   "note": ""
  },
  {
   "property": "C58",
   "status": "proved",
   "theorems": [
    "Groot.C58_sanity"
   ],
   "note": ""
  },
  {
   "property": "C59",
   "status": "proved",
   "theorems": [
    "Groot.C59_violations_file",
    "Groot.C59_lint_file",
    "Groot.C59_lint_objects",
    "Groot.C59_disagreement_one_line"
   ],
   "note": ""
  },
  {
   "property": "C60",
   "status": "proved",
   "theorems": [
    "Groot.C60_maximal_munch",
    "Groot.C60_lossless",
    "Groot.C60_token_texts",
    "Groot.C60_newline",
    "Groot.C60_newline_count",
    "Groot.C60_disagreement_escaped_paren"
   ],
   "note": ""
  },
  {
   "property": "C61",
   "status": "proved",
   "theorems": [
    "Groot.C61_split",
    "Groot.C61_lines",
    "Groot.C61_line",
    "Groot.C61_unfinished",
    "Groot.C61_disagreement_last_line"
   ],
   "note": ""
  },
  {
   "property": "C62",
   "status": "proved",
   "theorems": [
    "Groot.C62_record_line",
    "Groot.C62_at",
    "Groot.C62_disagreement_owner",
    "Groot.C62_disagreement_units",
    "Groot.C62_disagreement_at_target"
   ],
   "note": ""
  },
  {
   "property": "C63",
   "status": "proved",
   "theorems": [
    "Groot.C63_letters",
    "Groot.C63_file",
    "Groot.C63_no_control",
    "Groot.C63_context",
    "Groot.C63_disagreement_control"
   ],
   "note": ""
  },
  {
   "property": "C64",
   "status": "proved",
   "theorems": [
    "Groot.C64_loaded",
    "Groot.C64_nodes",
    "Groot.C64_wellFormed",
    "Groot.C64_registered",
    "Groot.C64_inZones",
    "Groot.C64_resolves",
    "Groot.C64_disagreement_blank_soa",
    "Groot.C64_disagreement_empty_zone"
   ],
   "note": ""
  },
  {
   "property": "C65",
   "status": "proved",
   "theorems": [
    "Groot.C65_only_ds",
    "Groot.C65_label_graph",
    "Groot.C65_no_ds",
    "Groot.C65_disagreement_rejected",
    "Groot.C65_disagreement_lookup"
   ],
   "note": ""
  },
  {
   "property": "C66",
   "status": "proved",
   "theorems": [
    "Groot.C66_hops_complete",
    "Groot.C66_hops_sound",
    "Groot.C66_rewrites_complete",
    "Groot.C66_rewrites_sound"
   ],
   "note": ""
  },
  {
   "property": "C67",
   "status": "proved",
   "theorems": [
    "Groot.C67_loops_complete",
    "Groot.C67_loops_sound"
   ],
   "note": ""
  },
  {
   "property": "C68",
   "status": "proved",
   "theorems": [
    "Groot.C68_blackhole_complete",
    "Groot.C68_blackhole_sound",
    "Groot.C68_rewrite_complete",
    "Groot.C68_rewrite_sound",
    "Groot.C68_contact_complete",
    "Groot.C68_contact_sound"
   ],
   "note": ""
  },
  {
   "property": "C69",
   "status": "proved",
   "theorems": [
    "Groot.C69_total",
    "Groot.C69_from_files"
   ],
   "note": ""
  },
  {
   "property": "C70",
   "status": "proved",
   "theorems": [
    "Groot.C70_setting"
   ],
   "note": ""
  },
  {
   "property": "C71",
   "status": "proved",
   "theorems": [
    "Groot.C71_path_reports",
    "Groot.C71_answers_determined"
   ],
   "note": ""
  },
  {
   "property": "C72",
   "status": "proved",
   "theorems": [
    "Groot.C72_end_reports",
    "Groot.C72_missing_complete"
   ],
   "note": ""
  },
  {
   "property": "C73",
   "status": "proved",
   "theorems": [
    "Groot.C73_loop_reports"
   ],
   "note": ""
  },
  {
   "property": "C74",
   "status": "proved",
   "theorems": [
    "Groot.C74_every_schedule",
    "Groot.C74_below_no_dname",
    "Groot.C74_only_tasks",
    "Groot.C74_exactly_once",
    "Groot.C74_as_sequential",
    "Groot.C74_returns",
    "Groot.C74_can_return",
    "Groot.C74_disagreement_lost",
    "Groot.C74_disagreement_marks",
    "Groot.C74_disagreement_endless"
   ],
   "note": ""
  },
  {
   "property": "C75",
   "status": "proved",
   "theorems": [
    "Groot.C75_report",
    "Groot.C75_order",
    "Groot.C75_default",
    "Groot.C75_lint",
    "Groot.C75_glue",
    "Groot.C75_finishes",
    "Groot.C75_bad_metadata",
    "Groot.C75_disagreement_bad_job",
    "Groot.C75_some_schedule",
    "Groot.C75_every_schedule",
    "Groot.C75_every_schedule_no_dname"
   ],
   "note": ""
  },
  {
   "property": "C76",
   "status": "proved",
   "theorems": [
    "Groot.C76_entries",
    "Groot.C76_distinct",
    "Groot.C76_assign",
    "Groot.C76_roundtrip",
    "Groot.C76_dump",
    "Groot.C76_output",
    "Groot.C76_count",
    "Groot.C76_bytes",
    "Groot.C76_schedule",
    "Groot.C76_lint",
    "Groot.C76_no_lint",
    "Groot.C76_lint_aborts",
    "Groot.C76_disagreement_lint",
    "Groot.C76_disagreement_output"
   ],
   "note": ""
  },
  {
   "property": "C77",
   "status": "proved",
   "theorems": [
    "Groot.C77_characters",
    "Groot.C77_utf8_output",
    "Groot.C77_utf8_lint"
   ],
   "note": ""
  },
  {
   "property": "C78",
   "status": "proved",
   "theorems": [
    "Groot.C78_unique",
    "Groot.C78_value",
    "Groot.C78_job",
    "Groot.C78_metadata",
    "Groot.C78_main",
    "Groot.C78_program",
    "Groot.C78_other_members",
    "Groot.C78_bad_metadata",
    "Groot.C78_disagreement_lone_job",
    "Groot.C78_disagreement_missing",
    "Groot.C78_disagreement_wrap"
   ],
   "note": ""
  },
  {
   "property": "C79",
   "status": "proved",
   "theorems": [
    "Groot.C79_reports",
    "Groot.C79_known_names",
    "Groot.C79_single_name",
    "Groot.C79_sound",
    "Groot.C79_determined",
    "Groot.C79_setting"
   ],
   "note": ""
  },
  {
   "property": "C80",
   "status": "proved",
   "theorems": [
    "Groot.C80_file",
    "Groot.C80_orphan",
    "Groot.C80_contents",
    "Groot.C80_text",
    "Groot.C80_context",
    "Groot.C80_world",
    "Groot.C80_disagreement_owner"
   ],
   "note": ""
  },
  {
   "property": "C81",
   "status": "proved",
   "theorems": [
    "Groot.C81_zero_ttl_complete",
    "Groot.C81_zero_ttl_sound",
    "Groot.C81_zero_ttl_job",
    "Groot.C81_consistency_complete",
    "Groot.C81_consistency_sound",
    "Groot.C81_consistency_denied",
    "Groot.C81_value_complete",
    "Groot.C81_value_sound",
    "Groot.C81_missing_complete",
    "Groot.C81_missing_sound",
    "Groot.C81_disagreement_types"
   ],
   "note": ""
  },
  {
   "property": "C82",
   "status": "proved",
   "theorems": [
    "Groot.C82_lame_complete",
    "Groot.C82_lame_sound",
    "Groot.C82_servers_complete",
    "Groot.C82_addresses_complete",
    "Groot.C82_delegation_sound",
    "Groot.C82_disagreement_own_address"
   ],
   "note": ""
  },
  {
   "property": "C83",
   "status": "proved",
   "theorems": [
    "Groot.C83_hops_any",
    "Groot.C83_rewrites_any",
    "Groot.C83_rewrite_any",
    "Groot.C83_blackhole_any",
    "Groot.C83_contact_any",
    "Groot.C83_too_long_any",
    "Groot.C83_infinite_any",
    "Groot.C83_hops_true",
    "Groot.C83_rewrites_true",
    "Groot.C83_blackhole_true",
    "Groot.C83_rewrite_true",
    "Groot.C83_contact_true",
    "Groot.C83_alias_complete",
    "Groot.C83_alias_sound",
    "Groot.C83_disagreement_alias_in_loop"
   ],
   "note": ""
  },
  {
   "property": "C84",
   "status": "proved",
   "theorems": [
    "Groot.C84_plain",
    "Groot.C84_covered",
    "Groot.C84_hops_complete",
    "Groot.C84_hops_sound",
    "Groot.C84_rewrites_complete",
    "Groot.C84_rewrites_sound",
    "Groot.C84_loops_complete",
    "Groot.C84_loops_sound",
    "Groot.C84_blackhole_complete",
    "Groot.C84_blackhole_sound",
    "Groot.C84_contact_complete",
    "Groot.C84_contact_sound",
    "Groot.C84_rewrite_complete",
    "Groot.C84_rewrite_sound",
    "Groot.C84_hops_any",
    "Groot.C84_rewrites_any",
    "Groot.C84_rewrite_any",
    "Groot.C84_blackhole_any",
    "Groot.C84_contact_any"
   ],
   "note": ""
  },
  {
   "property": "C85",
   "status": "proved",
   "theorems": [
    "Groot.C85_too_large",
    "Groot.C85_directive",
    "Groot.C85_dropped",
    "Groot.C85_disagreement_negative"
   ],
   "note": ""
  },
  {
   "property": "C86",
   "status": "proved",
   "theorems": [
    "Groot.C86_world",
    "Groot.C86_found",
    "Groot.C86_loop_found",
    "Groot.C86_clean",
    "Groot.C86_true"
   ],
   "note": ""
  },
  {
   "property": "C87",
   "status": "proved",
   "theorems": [
    "Groot.C87_inhabited",
    "Groot.C87_true",
    "Groot.C87_disagreement_overlong"
   ],
   "note": ""
  },
  {
   "property": "C88",
   "status": "proved",
   "theorems": [
    "Groot.C88_asked",
    "Groot.C88_covered",
    "Groot.C88_plain",
    "Groot.C88_zero_ttl_complete",
    "Groot.C88_zero_ttl_sound",
    "Groot.C88_consistency_complete",
    "Groot.C88_consistency_sound",
    "Groot.C88_value_complete",
    "Groot.C88_value_sound",
    "Groot.C88_missing_complete",
    "Groot.C88_missing_sound",
    "Groot.C88_zero_ttl_job",
    "Groot.C88_consistency_denied",
    "Groot.C88_lame_complete",
    "Groot.C88_lame_sound",
    "Groot.C88_servers_complete",
    "Groot.C88_addresses_complete",
    "Groot.C88_delegation_sound",
    "Groot.C88_disagreement_twice"
   ],
   "note": ""
  },
  {
   "property": "C89",
   "status": "proved",
   "theorems": [
    "Groot.C89_inhabited",
    "Groot.C89_too_long",
    "Groot.C89_alias_sound",
    "Groot.C89_infinite_any",
    "Groot.C89_alias_complete",
    "Groot.C89_true",
    "Groot.C89_found",
    "Groot.C89_loop_found",
    "Groot.C89_clean",
    "Groot.C89_all_true",
    "Groot.C89_disagreement_finite"
   ],
   "note": ""
  },
  {
   "property": "C90",
   "status": "proved",
   "theorems": [
    "Groot.C90_ends",
    "Groot.C90_threads_end",
    "Groot.C90_same",
    "Groot.C90_found",
    "Groot.C90_loop_found",
    "Groot.C90_all_true",
    "Groot.C90_clean"
   ],
   "note": ""
  },
  {
   "property": "C91",
   "status": "proved",
   "theorems": [
    "Groot.C91_tasks",
    "Groot.C91_run",
    "Groot.C91_found",
    "Groot.C91_all_true",
    "Groot.C91_in_turn",
    "Groot.C91_clean",
    "Groot.C91_disagreement_alias"
   ],
   "note": ""
  },
  {
   "property": "C92",
   "status": "proved",
   "theorems": [
    "Groot.C92_accounted",
    "Groot.C92_counts",
    "Groot.C92_meaning",
    "Groot.C92_disagreement_no_zone"
   ],
   "note": ""
  },
  {
   "property": "C93",
   "status": "proved",
   "theorems": [
    "Groot.C93_only_asked",
    "Groot.C93_output",
    "Groot.C93_threads",
    "Groot.C93_root_allowed",
    "Groot.C93_default",
    "Groot.C93_disagreement_default_rewrite"
   ],
   "note": ""
  },
  {
   "property": "C94",
   "status": "proved",
   "theorems": [
    "Groot.C94_ends",
    "Groot.C94_threads_end",
    "Groot.C94_same",
    "Groot.C94_found",
    "Groot.C94_loop_found",
    "Groot.C94_all_true",
    "Groot.C94_clean"
   ],
   "note": ""
  },
  {
   "property": "C95",
   "status": "proved",
   "theorems": [
    "Groot.C95_summary",
    "Groot.C95_nodes",
    "Groot.C95_edges",
    "Groot.C95_schedule",
    "Groot.C95_job",
    "Groot.C95_program"
   ],
   "note": ""
  },
  {
   "property": "C96",
   "status": "proved",
   "theorems": [
    "Groot.C96_output_name",
    "Groot.C96_wrote",
    "Groot.C96_returned",
    "Groot.C96_stale",
    "Groot.C96_output_seen",
    "Groot.C96_lint_seen",
    "Groot.C96_other_files",
    "Groot.C96_good",
    "Groot.C96_bad_metadata",
    "Groot.C96_disagreement_status",
    "Groot.C96_disagreement_same_file",
    "Groot.C96_disagreement_number"
   ],
   "note": ""
  },
  {
   "property": "C97",
   "status": "proved",
   "theorems": [
    "Groot.C97_same",
    "Groot.C97_without_structural",
    "Groot.C97_ends",
    "Groot.C97_disagreement_same_origin"
   ],
   "note": ""
  },
  {
   "property": "C98",
   "status": "proved",
   "theorems": [
    "Groot.C98_ample",
    "Groot.C98_exact"
   ],
   "note": ""
  },
  {
   "property": "C99",
   "status": "proved",
   "theorems": [
    "Groot.Process.C99_aborted",
    "Groot.Process.C99_default",
    "Groot.C99_task",
    "Groot.C99_fatal"
   ],
   "note": ""
  }
 ]
}