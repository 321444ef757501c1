{
 "claims": [
  {
   "property": "C01",
   "status": "proved",
   "theorems": [
    "Verif.Refs.C01_no_dangling_refs",
    "Verif.Refs.C01_walk_visits_every_reference"
   ],
   "note": "For every document whose pointers are in range (always true of a Go value), cyclic or shared schemas included."
  },
  {
   "property": "C02",
   "status": "proved",
   "theorems": [
    "Verif.Refs.C02_repair_keeps_everything",
    "Verif.Refs.C02_repair_adds_exactly_missing",
    "Verif.Refs.C02_added_are_placeholders",
    "Verif.Refs.C02_report_exact",
    "Verif.Refs.C02_sites_exact",
    "Verif.Refs.C02_complete_document_untouched",
    "Verif.Refs.C02_repair_idempotent"
   ],
   "note": "Site counts are stated for documents with a finite serialization; all other clauses for every document."
  },
  {
   "property": "C03",
   "status": "proved",
   "theorems": [
    "Verif.Refs.C03_reported_type_unique",
    "Verif.Refs.C03_order_independent"
   ],
   "note": "The name mangling is an arbitrary function."
  },
  {
   "property": "C04",
   "status": "proved",
   "theorems": [
    "Verif.Paths.C04_one_slash_at_seam",
    "Verif.Paths.C04_rooted",
    "Verif.Paths.C04_join_assoc"
   ],
   "note": ""
  },
  {
   "property": "C05",
   "status": "partial",
   "theorems": [
    "Verif.Paths.C05_nested_mounts_partial",
    "Verif.Paths.C05_nested_mounts_text_partial",
    "Verif.Paths.C05_repeated_prefix_lost"
   ],
   "note": "Proved when no prefix is already a suffix of what is accumulated; C05_repeated_prefix_lost proves the full claim false of the code (the HasSuffix shortcut loses a repeated prefix)."
  },
  {
   "property": "C06",
   "status": "partial",
   "theorems": [
    "Verif.Paths.C06_convert",
    "Verif.Paths.C06_convert_idempotent",
    "Verif.Paths.C06_no_colon_params_left",
    "Verif.Paths.C06_literal_unchanged",
    "Verif.Paths.C06_idempotence_fails_on_nested_names",
    "Verif.Paths.C06_params_found"
   ],
   "note": "Conversion proved for all well-formed router paths; idempotence proved when names are brace-free; C06_idempotence_fails_on_nested_names proves it false in general."
  },
  {
   "property": "C07",
   "status": "partial",
   "theorems": [
    "Verif.Params.C07_placeholders_declared_partial",
    "Verif.Params.C07_declared_kept",
    "Verif.Params.C07_no_duplicates_partial",
    "Verif.Params.C07_repeated_placeholder_twice",
    "Verif.Params.C07_exported_name_twice",
    "Verif.Params.C07_non_identifier_undeclared"
   ],
   "note": "Proved for identifier placeholders, lower-case synthesized names and templates without repeated placeholders; three theorems show each proviso is needed (the code breaks the full claim)."
  },
  {
   "property": "C08",
   "status": "proved",
   "theorems": [
    "Verif.Params.C08_unique",
    "Verif.Params.C08_idempotent"
   ],
   "note": ""
  },
  {
   "property": "C09",
   "status": "partial",
   "theorems": [
    "Verif.Responses.C09_types_and_responses_kept",
    "Verif.Responses.C09_parameters_lost",
    "Verif.Responses.C09_public_lost",
    "Verif.Paths.C09_survivors_exact",
    "Verif.Paths.C09_order_kept",
    "Verif.Paths.C09_every_route_represented",
    "Verif.Paths.C09_survivors_incomparable",
    "Verif.Paths.C09_contribution_kept",
    "Verif.Paths.C09_idempotent",
    "Verif.Paths.C09_appendUnique"
   ],
   "note": "Survival, order, types, responses and request body proved; C09_parameters_lost and C09_public_lost prove that parameters and explicit public marks of the dropped route can be lost."
  },
  {
   "property": "C10",
   "status": "proved",
   "theorems": [
    "Verif.Responses.C10_pairing_exact",
    "Verif.Responses.C10_source_order",
    "Verif.Responses.C10_slots_consistent",
    "Verif.Responses.C10_known_status_documented",
    "Verif.Responses.C10_body_takes_status",
    "Verif.Responses.C10_no_status_invented",
    "Verif.Responses.C10_unclaimed_body_documented",
    "Verif.Responses.C10_unreadable_status_ignored",
    "Verif.RouteWalk.C10_candidate_key",
    "Verif.RouteWalk.C10_candidates",
    "Verif.RouteWalk.C10_frame",
    "Verif.RouteWalk.C10_frame_handler",
    "Verif.RouteWalk.C10_frame_distinct",
    "Verif.RouteWalk.Example.C10_argument_frames_merge"
   ],
   "note": "Proved for the pairing code; handlerCallDepths is an arbitrary depth table and the walk that collects the candidates and names their frames is modelled too (C10_candidates, C10_frame); what is read off a node is not. C10_unreadable_status_ignored records that an unreadable status write does not displace a readable one written before it."
  },
  {
   "property": "C11",
   "status": "proved",
   "theorems": [
    "Verif.Responses.C11_known_statuses",
    "Verif.Responses.C11_only_known_or_default",
    "Verif.Responses.C11_content_iff",
    "Verif.Responses.C11_nonempty",
    "Verif.Responses.C11_default_kept",
    "Verif.Responses.C11_handler"
   ],
   "note": ""
  },
  {
   "property": "C12",
   "status": "partial",
   "theorems": [
    "Verif.Responses.C12_best_chosen",
    "Verif.Responses.C12_order_independent",
    "Verif.Responses.C12_assoc",
    "Verif.Responses.C12_tie_order_dependent",
    "Verif.Responses.C12_request_order_dependent",
    "Verif.Responses.C12_request_concrete_wins_partial",
    "Verif.Responses.C12_slot_best"
   ],
   "note": "Among observations of different Go types proved in full; C12_tie_order_dependent and C12_request_order_dependent prove the claim false on ties and for request bodies."
  },
  {
   "property": "C13",
   "status": "proved",
   "theorems": [
    "Verif.Security.C13_public_iff",
    "Verif.Security.C13_required_iff",
    "Verif.Security.C13_inherits_iff"
   ],
   "note": "For middleware whose rendered names tell them apart (Distinguished); looking through wrappers is a parameter here, see C48."
  },
  {
   "property": "C14",
   "status": "proved",
   "theorems": [
    "Verif.Security.C14_report_exact",
    "Verif.Security.C14_skip_neutral"
   ],
   "note": ""
  },
  {
   "property": "C15",
   "status": "partial",
   "theorems": [
    "Verif.Security.C15_nothing_extra",
    "Verif.Security.C15_alternative_offered",
    "Verif.Security.C15_as_strong_partial",
    "Verif.Security.C15_scopes_overwritten",
    "Verif.Security.C15_alternatives_weaken",
    "Verif.Security.C15_wrapper_weakens"
   ],
   "note": "Proved without alternatives, conflicting scopes and handler wrappers; three theorems show the code breaks the claim in each of those cases."
  },
  {
   "property": "C16",
   "status": "partial",
   "theorems": [
    "Verif.Security.C16_key_faithful",
    "Verif.Security.C16_dedup",
    "Verif.Security.C16_comma_confused"
   ],
   "note": "Proved for scheme names and scopes free of separator characters; C16_comma_confused proves the claim false otherwise."
  },
  {
   "property": "C17",
   "status": "partial",
   "theorems": [
    "Verif.Security.C17_definitions_partial",
    "Verif.Security.C17_dangling_emitted"
   ],
   "note": "Definitions characterised exactly; C17_dangling_emitted proves that a scheme nobody defines stays undefined in the document."
  },
  {
   "property": "C18",
   "status": "proved",
   "theorems": [
    "Verif.Security.C18_adds_called_for",
    "Verif.Security.C18_once",
    "Verif.Security.C18_uncalled_unchanged",
    "Verif.Security.C18_import_order_irrelevant"
   ],
   "note": ""
  },
  {
   "property": "C19",
   "status": "proved",
   "theorems": [
    "Verif.Config.C19_exact",
    "Verif.Config.C19_first_seen_order",
    "Verif.Config.C19_never_empty"
   ],
   "note": ""
  },
  {
   "property": "C20",
   "status": "proved",
   "theorems": [
    "Verif.Config.C20_order",
    "Verif.Config.C20_patterns",
    "Verif.Config.C20_secondary_kept",
    "Verif.Config.C20_context_kept",
    "Verif.Config.C20_case_insensitive"
   ],
   "note": "The preset configurations are parameters; the net/http layer is transcribed and shown to meet the hypotheses."
  },
  {
   "property": "C21",
   "status": "partial",
   "theorems": [
    "Verif.Config.C21_primary_first",
    "Verif.Config.C21_key_faithful",
    "Verif.Config.C21_omitted_only_if_present_partial",
    "Verif.Config.C21_receiver_type_ignored",
    "Verif.Config.C21_idempotent",
    "Verif.Config.C21_primary_settings",
    "Verif.Config.C21_one_by_one"
   ],
   "note": "Primary precedence, order, idempotence proved in full; the omitted-only-if-equivalent clause for patterns written like the presets; C21_receiver_type_ignored proves it false for exact receiver types."
  },
  {
   "property": "C22",
   "status": "proved",
   "theorems": [
    "Verif.Reach.C22_prune_exact",
    "Verif.Reach.C22_pruned_is_barren",
    "Verif.Reach.C22_order_independent",
    "Verif.Reach.C22_every_family",
    "Verif.Reach.C22_route_reach_exact",
    "Verif.Reach.C22_reach_set_exact"
   ],
   "note": ""
  },
  {
   "property": "C23",
   "status": "proved",
   "theorems": [
    "Verif.Scc.C23_same_component",
    "Verif.Scc.C23_partition",
    "Verif.Scc.C23_callee_first",
    "Verif.Scc.C23_recursive_iff",
    "Verif.Scc.C23_condensed_graph",
    "Verif.Scc.C23_order_independent"
   ],
   "note": ""
  },
  {
   "property": "C24",
   "status": "proved",
   "theorems": [
    "Verif.Reach.C24_main_reach_exact",
    "Verif.Reach.C24_gate_exact"
   ],
   "note": ""
  },
  {
   "property": "C25",
   "status": "partial",
   "theorems": [
    "Verif.Lazy.C25_instance_cap",
    "Verif.Lazy.C25_children_limit",
    "Verif.Lazy.C25_no_repeat_on_path",
    "Verif.Lazy.C25_bounded",
    "Verif.Lazy.C25_settles",
    "Verif.Lazy.C25_route_budget",
    "Verif.Lazy.C25_budget_scopes",
    "Verif.Lazy.C25_node_budget",
    "Verif.Lazy.C25_chain_repeats"
   ],
   "note": "All clauses proved for parent chains. Followed through child lists, a path can repeat a call (C25_chain_repeats): a chained call is listed under one node and parented to another. Budgets overshoot by less than one expansion, as the code checks them between expansions."
  },
  {
   "property": "C26",
   "status": "partial",
   "theorems": [
    "Verif.Lazy.C26_silence_means_complete_partial",
    "Verif.Lazy.C26_report_has_cause",
    "Verif.Lazy.C26_nothing_missing",
    "Verif.Lazy.C26_request_honoured",
    "Verif.Lazy.C26_counts",
    "Verif.Lazy.C26_children_limit_silent",
    "Verif.Lazy.C26_false_alarm"
   ],
   "note": "Proved: silence means no budget mattered; a report names a budget really spent; a request is honoured or reported; counts exact. False in general: the children limit drops calls silently (C26_children_limit_silent) and a leaf can raise a false alarm (C26_false_alarm)."
  },
  {
   "property": "C27",
   "status": "proved",
   "theorems": [
    "Verif.Lazy.C27_reordering",
    "Verif.Lazy.C27_unordered",
    "Verif.Lazy.C27_plan",
    "Verif.Lazy.C27_explores_the_same"
   ],
   "note": ""
  },
  {
   "property": "C28",
   "status": "partial",
   "theorems": [
    "Verif.TypeModel.C28_internal_roundtrip",
    "Verif.TypeModel.C28_canonical_partial",
    "Verif.TypeModel.C28_borrowed_package",
    "Verif.TypeModel.C28_not_idempotent",
    "Verif.TypeModel.C28_function_argument",
    "Verif.TypeModel.C28_roundtrip",
    "Verif.TypeModel.C28_string_roundtrip",
    "Verif.TypeModel.C28_rendering_injective",
    "Verif.TypeModel.C28_total"
   ],
   "note": "Round trip for every well-formed type, injectivity, totality, internal round trip and canonical keys on types with plain names. False in general: C28_not_idempotent (malformed text) and C28_function_argument (function types as arguments)."
  },
  {
   "property": "C29",
   "status": "partial",
   "theorems": [
    "Verif.GitignoreModel.C29_gitignore_partial",
    "Verif.GitignoreModel.C29_plain_name",
    "Verif.GitignoreModel.C29_plain_directory",
    "Verif.GitignoreModel.C29_negation",
    "Verif.GitignoreModel.C29_star_stays",
    "Verif.GitignoreModel.C29_double_deep",
    "Verif.GitignoreModel.C29_leading_slash",
    "Verif.GitignoreModel.C29_class_negation",
    "Verif.GitignoreModel.C29_class_crosses",
    "Verif.GitignoreModel.C29_class_swallows",
    "Verif.GitignoreModel.C29_class_backslash",
    "Verif.GitignoreModel.C29_line_break"
   ],
   "note": "Exact gitignore semantics proved for every clean pattern (segments of ordinary characters, *, ?, simple classes, ** as whole segments); false outside: doubled trailing **, leading slash without other slash, [!..], classes crossing /, ] first in class, line breaks (witnesses)."
  },
  {
   "property": "C30",
   "status": "partial",
   "theorems": [
    "Verif.FiltersModel.C30_package",
    "Verif.FiltersModel.C30_file",
    "Verif.FiltersModel.C30_filter_paths",
    "Verif.FiltersModel.C30_analysed_partial",
    "Verif.FiltersModel.C30_union",
    "Verif.FiltersModel.C30_apply",
    "Verif.FiltersModel.C30_apply_idempotent",
    "Verif.FiltersModel.C30_cgo_misaligned",
    "Verif.FiltersModel.C30_config_file_ignored",
    "Verif.FiltersModel.C30_cgo_list"
   ],
   "note": "Decision logic exact for all lists; analysed files exact when parses line up with the file list; false for cgo packages (witness); patterns in a configuration file are ignored (witness)."
  },
  {
   "property": "C31",
   "status": "partial",
   "theorems": [
    "Verif.MethodsModel.C31_branches_exact",
    "Verif.MethodsModel.C31_explicit_not_split",
    "Verif.MethodsModel.C31_one_per_method",
    "Verif.MethodsModel.C31_attribution_partial",
    "Verif.MethodsModel.C31_shared_response_lost",
    "Verif.MethodsModel.C31_same_file_helper_lost",
    "Verif.MethodsModel.C31_fall_through_lost"
   ],
   "note": "Dispatch branches are found exactly, one route per method, explicit verbs never split; attribution of responses exact for sites in the handler file inside or outside all branches; false for responses shared after the switch, same-file helpers and fall-through (witnesses)."
  },
  {
   "property": "C32",
   "status": "partial",
   "theorems": [
    "Verif.MethodsModel.C32_verbs_in_argument",
    "Verif.MethodsModel.C32_operations",
    "Verif.MethodsModel.C32_every_verb_partial",
    "Verif.MethodsModel.C32_trace_lost",
    "Verif.MethodsModel.C32_last_wins"
   ],
   "note": "Verb lists are read exactly, the operations of the document are exactly the last route per path and verb, every verb except TRACE and CONNECT of a registration is documented; TRACE and CONNECT are lost (witness)."
  },
  {
   "property": "C33",
   "status": "proved",
   "theorems": [
    "Verif.MethodsModel.C33_inferred",
    "Verif.MethodsModel.C33_best_exists",
    "Verif.MethodsModel.C33_words",
    "Verif.MethodsModel.C33_leading_word"
   ],
   "note": ""
  },
  {
   "property": "C34",
   "status": "proved",
   "theorems": [
    "Verif.IdsModel.C34_stable",
    "Verif.IdsModel.C34_distinct",
    "Verif.IdsModel.C34_reload",
    "Verif.IdsModel.C34_contents",
    "Verif.IdsModel.C34_each_once"
   ],
   "note": ""
  },
  {
   "property": "C35",
   "status": "partial",
   "theorems": [
    "Verif.IdsModel.C35_strip_partial",
    "Verif.IdsModel.C35_generic_receiver",
    "Verif.IdsModel.C35_order",
    "Verif.IdsModel.C35_positions",
    "Verif.IdsModel.C35_caching",
    "Verif.IdsModel.C35_copy_keeps_id",
    "Verif.IdsModel.C35_copy_partial"
   ],
   "note": "Stripping exact for names without @ and [; false for methods of generic types (witness); order independence and distinctness of positions proved; a call copied with further type arguments keeps its old instance id (witness)."
  },
  {
   "property": "C36",
   "status": "proved",
   "theorems": [
    "Verif.ConcModel.C36_transparent",
    "Verif.ConcModel.C36_shared",
    "Verif.ConcModel.C36_stable",
    "Verif.ConcModel.C36_pool_race"
   ],
   "note": "All schedules of any number of goroutines, critical sections atomic; the string pool, which the property does not name, has no lock and a race in it is exhibited."
  },
  {
   "property": "C37",
   "status": "proved",
   "theorems": [
    "Verif.UiProps.C37_one_owner",
    "Verif.UiProps.C37_generations",
    "Verif.UiProps.C37_epochs_grow",
    "Verif.UiProps.C37_refused",
    "Verif.UiProps.C37_released_by_owner",
    "Verif.UiProps.C37_unforced_one_engine",
    "Verif.UiProps.C37_forced_engines",
    "Verif.UiProps.C37_can_finish",
    "Verif.UiProps.C37_stop_exact",
    "Verif.UiProps.C37_stopped_reply",
    "Verif.UiProps.C37_told_to_stop"
   ],
   "note": ""
  },
  {
   "property": "C38",
   "status": "partial",
   "theorems": [
    "Verif.UiProps.C38_newest_partial",
    "Verif.UiProps.C38_superseded_before",
    "Verif.UiProps.C38_project_partial",
    "Verif.UiProps.C38_switch_clears",
    "Verif.UiProps.C38_overtaken",
    "Verif.UiProps.C38_switched",
    "Verif.UiProps.C38_refused_switches",
    "Verif.UiProps.C38_foreign_config",
    "Verif.UiProps.C38_mixed",
    "Verif.UiProps.C38_stopped_publishes",
    "Verif.UiProps.C38_phase_claimed",
    "Verif.UiProps.C38_phase"
   ],
   "note": "holds without force and while the project stays selected; seven schedules in which it fails are proved"
  },
  {
   "property": "C39",
   "status": "partial",
   "theorems": [
    "Verif.DiagramProps.C39_order_starts",
    "Verif.DiagramProps.C39_orders",
    "Verif.DiagramProps.C39_order_stable_partial",
    "Verif.DiagramProps.C39_page",
    "Verif.DiagramProps.C39_partition_partial",
    "Verif.DiagramProps.C39_has_more_first_partial",
    "Verif.DiagramProps.C39_has_more_wrong",
    "Verif.DiagramProps.C39_parent_repeated",
    "Verif.DiagramProps.C39_parent_edge_missing",
    "Verif.DiagramProps.C39_order_flips",
    "Verif.DiagramProps.C39_overflow_crash",
    "Verif.DiagramProps.C39_clamped"
   ],
   "note": "pages partition the shown nodes for distinct ids and page numbers that do not overflow, first-page more-flag exact; more-flag wrong on later pages, parents repeated, parent edges missing, order not stable with two mains, overflow crash (all proved)"
  },
  {
   "property": "C40",
   "status": "partial",
   "theorems": [
    "Verif.InsightProps.C40_resolved_sound",
    "Verif.InsightProps.C40_resolved_depth_wrong",
    "Verif.InsightProps.C40_builtins_partial",
    "Verif.InsightProps.C40_named_like_builtin",
    "Verif.InsightProps.C40_count_ends",
    "Verif.InsightProps.C40_paths_partial",
    "Verif.InsightProps.C40_sample",
    "Verif.InsightProps.C40_sample_walk",
    "Verif.InsightProps.C40_recursion_miscounted",
    "Verif.InsightProps.C40_grade",
    "Verif.InsightProps.C40_depth",
    "Verif.InsightProps.C40_complete",
    "Verif.InsightProps.C40_sound",
    "Verif.InsightProps.C40_fan_sites",
    "Verif.InsightProps.C40_false_alarm"
   ],
   "note": "distances, completeness, sample, grade and, without recursion, the path count are proved; with recursion the count is wrong, the walk that resolves interfaces reports depths that are not shortest, and functions named like builtins are dropped (all proved)"
  },
  {
   "property": "C41",
   "status": "partial",
   "theorems": [
    "Verif.ValidateModel.C41_rules_partial",
    "Verif.ValidateModel.C41_numbers",
    "Verif.ValidateModel.C41_keywords",
    "Verif.ValidateModel.C41_enum",
    "Verif.ValidateModel.C41_following_tag",
    "Verif.ValidateModel.C41_foreign_key",
    "Verif.ValidateModel.C41_crash",
    "Verif.ValidateModel.C41_zero_lost",
    "Verif.ValidateModel.C41_map_dive"
   ],
   "note": "Rules to keywords exact for every rule list and nesting of dive when validate is the last key and arguments have no brace or colon; false when another tag follows or mentions min: max: (witnesses); oneof on an array without items crashes; zero bounds vanish; rules after dive on a map are dropped (proved for all)."
  },
  {
   "property": "C42",
   "status": "partial",
   "theorems": [
    "Verif.EnumModel.C42_once",
    "Verif.EnumModel.C42_exact_partial",
    "Verif.EnumModel.C42_order",
    "Verif.EnumModel.C42_mixed_block",
    "Verif.EnumModel.C42_conversion_lost",
    "Verif.EnumModel.C42_blank_listed",
    "Verif.EnumModel.C42_long_text",
    "Verif.EnumModel.C42_foreign_name",
    "Verif.EnumModel.C42_component_none"
   ],
   "note": "Each value once, in text order and independent of map order for all metadata; exactly the constants of the Go type for packages that tell them apart; false for mixed blocks, conversions, blank constants, long strings, shared type names and the components of declared types (witnesses)."
  },
  {
   "property": "C43",
   "status": "partial",
   "theorems": [
    "Verif.Params.C43_no_forms",
    "Verif.Params.C43_others_untouched",
    "Verif.Params.C43_form_body",
    "Verif.Params.C43_form_query",
    "Verif.Params.C43_required_twice",
    "Verif.Params.C43_file_lost"
   ],
   "note": "Placement proved in full; C43_required_twice and C43_file_lost show where the code loses \"every field once\"."
  },
  {
   "property": "C44",
   "status": "partial",
   "theorems": [
    "Verif.SchemaGen.C44_body_used",
    "Verif.SchemaGen.C44_document_refs_partial",
    "Verif.SchemaGen.C44_override_refers_to_itself",
    "Verif.SchemaGen.C44_slice_component",
    "Verif.SchemaGen.C44_route_refs",
    "Verif.SchemaGen.C44_routes_refs",
    "Verif.SchemaGen.C44_array_ref_dangles",
    "Verif.SchemaGen.C44_mapped_ref_dangles",
    "Verif.SchemaGen.C44_terminates",
    "Verif.SchemaGen.C44_generate_terminates",
    "Verif.SchemaGen.C44_nested_suffix_diverges"
   ],
   "note": "termination proved for every finite table whose declared names may be components; every reference of routes and components has a component for tables without arrays of names, absent builtins and scalar mappings (hypotheses PlainTable, FitTable); the failures outside them are proved: a self-referential type named *_nested diverges, array and mapped references dangle, an overridden recursive body refers to itself, nested slice bodies leave a wrong component"
  },
  {
   "property": "C45",
   "status": "partial",
   "theorems": [
    "Verif.GenericsModel.C45_terminates_iff",
    "Verif.GenericsModel.C45_bound",
    "Verif.GenericsModel.C45_result",
    "Verif.GenericsModel.C45_complete",
    "Verif.GenericsModel.C45_nearest",
    "Verif.GenericsModel.C45_bindings",
    "Verif.GenericsModel.C45_outermost",
    "Verif.GenericsModel.C45_scopes_partial",
    "Verif.GenericsModel.C45_forwarding_hangs",
    "Verif.GenericsModel.C45_wrong_scope",
    "Verif.GenericsModel.C45_composite"
   ],
   "note": "ends exactly without reachable cycles; the right result if names are not reused; forwarding a type parameter under its own name never ends (proved), texts are resolved in the wrong scope (proved)"
  },
  {
   "property": "C46",
   "status": "partial",
   "theorems": [
    "Verif.NamesModel.C46_legal",
    "Verif.NamesModel.C46_illegal_kept",
    "Verif.NamesModel.C46_pointer_argument",
    "Verif.NamesModel.C46_distinct_partial",
    "Verif.NamesModel.C46_collisions",
    "Verif.NamesModel.C46_overwritten",
    "Verif.NamesModel.C46_found"
   ],
   "note": "names of types built from words, paths, arguments and slices are legal; distinct for plain words; collisions and illegal names of other types are proved"
  },
  {
   "property": "C47",
   "status": "partial",
   "theorems": [
    "Verif.Responses.C47_responses_order_independent",
    "Verif.Security.C47_schemes_order_independent"
   ],
   "note": "Proved for the walks modelled; see DESIGN.md for those that are not."
  },
  {
   "property": "C48",
   "status": "partial",
   "theorems": [
    "Verif.Middleware.C48_sound",
    "Verif.Middleware.C48_first_question_complete",
    "Verif.Middleware.C48_complete_partial",
    "Verif.Middleware.C48_repeat_same",
    "Verif.Middleware.C48_history_matters"
   ],
   "note": "False in general (C48_history_matters): an answer remembered while an enclosing function is still being resolved misses middleware. Proved: soundness always, completeness of a first question, completeness after any history where no recursion is involved."
  },
  {
   "property": "C49",
   "status": "partial",
   "theorems": [
    "Verif.TagsModel.C49_omitted",
    "Verif.TagsModel.C49_name_partial",
    "Verif.TagsModel.C49_no_tag",
    "Verif.TagsModel.C49_other_key",
    "Verif.TagsModel.C49_space",
    "Verif.TagsModel.C49_dash",
    "Verif.TagsModel.C49_interpreted"
   ],
   "note": "Omission exact for every well-formed tag; the name exact when no earlier key or value contains json: and it has no space; false otherwise (witnesses: other key ending in json, names with spaces, \"-,\", interpreted literals)."
  },
  {
   "property": "C50",
   "status": "proved",
   "theorems": [
    "Verif.Params.C50_concat",
    "Verif.Params.C50_not_concat"
   ],
   "note": ""
  },
  {
   "property": "C51",
   "status": "proved",
   "theorems": [
    "Verif.ScopeModel.C51_scope",
    "Verif.ScopeModel.C51_bad_patterns",
    "Verif.ScopeModel.C51_only_bad",
    "Verif.ScopeModel.C51_receiver",
    "Verif.ScopeModel.C51_pattern",
    "Verif.ScopeModel.C51_mount",
    "Verif.ScopeModel.C51_param",
    "Verif.ScopeModel.C51_written_receiver"
   ],
   "note": ""
  },
  {
   "property": "C52",
   "status": "partial",
   "theorems": [
    "Verif.MappingModel.C52_lookup",
    "Verif.MappingModel.C52_exact_wins",
    "Verif.MappingModel.C52_containers",
    "Verif.MappingModel.C52_container_entry",
    "Verif.MappingModel.C52_external",
    "Verif.MappingModel.C52_generic_argument",
    "Verif.MappingModel.C52_channel"
   ],
   "note": "look-up fully characterised; the guards before it are not modelled; short names of instances and channels are wrong (proved)"
  },
  {
   "property": "C53",
   "status": "proved",
   "theorems": [
    "Verif.Paths.C53_servemux_normalised",
    "Verif.Paths.C53_method_split",
    "Verif.Paths.C53_no_method",
    "Verif.Paths.C53_host_not_method"
   ],
   "note": ""
  },
  {
   "property": "C54",
   "status": "partial",
   "theorems": [
    "Verif.FiltersModel.C54_rerun_partial",
    "Verif.FiltersModel.C54_second_run_differs"
   ],
   "note": "Proved for any number of runs without automatic framework inclusion; false with it (witness)."
  },
  {
   "property": "C55",
   "status": "partial",
   "theorems": [
    "Verif.MethodsModel.C55_one_registration",
    "Verif.MethodsModel.C55_id",
    "Verif.MethodsModel.C55_distinct_handlers_partial",
    "Verif.MethodsModel.C55_underscore",
    "Verif.MethodsModel.C55_shared_handler"
   ],
   "note": "Ids differ within one registration and between handlers with underscore-free names; one handler at two paths repeats its id (witness)."
  },
  {
   "property": "C56",
   "status": "partial",
   "theorems": [
    "Verif.IndexModel.C56_types",
    "Verif.IndexModel.C56_functions",
    "Verif.IndexModel.C56_files",
    "Verif.IndexModel.C56_anywhere_partial",
    "Verif.IndexModel.C56_anywhere_stale",
    "Verif.IndexModel.C56_callees",
    "Verif.IndexModel.C56_roots_partial",
    "Verif.IndexModel.C56_roots_stale"
   ],
   "note": "Type, function, file and callee lookups exact over all histories of growth and questions; FunctionAnywhere and the call graph roots only while nothing is added after the first question (witnesses)."
  },
  {
   "property": "C57",
   "status": "partial",
   "theorems": [
    "Verif.CallsModel.C57_each_call_once_partial",
    "Verif.CallsModel.C57_by_position_partial",
    "Verif.CallsModel.C57_chain_parent_partial",
    "Verif.CallsModel.C57_completes_partial",
    "Verif.CallsModel.C57_curried_lost",
    "Verif.CallsModel.C57_through_field_lost",
    "Verif.CallsModel.C57_conversion_crash",
    "Verif.CallsModel.C57_conversion_chain"
   ],
   "note": "Each call once if calls that are not links of one chain have different ids; parents right if what is chained on is recorded; completes unless the first call is chained on a conversion; witnesses for curried calls, wrong parent and crash."
  },
  {
   "property": "C58",
   "status": "partial",
   "theorems": [
    "Verif.CallsModel.C58_wrong_depth",
    "Verif.CallsModel.C58_capped"
   ],
   "note": "False in general: no chain with a known root is ever deeper than 2 (proved for all programs) and a five-call chain is numbered 0 1 1 2 1 (witness)."
  },
  {
   "property": "C59",
   "status": "proved",
   "theorems": [
    "Verif.LitModel.C59_innermost",
    "Verif.LitModel.C59_parent"
   ],
   "note": ""
  },
  {
   "property": "C60",
   "status": "partial",
   "theorems": [
    "Verif.LitModel.C60_checkout_partial",
    "Verif.LitModel.C60_dotted_directory",
    "Verif.LitModel.C60_cache",
    "Verif.LitModel.C60_distinct_partial",
    "Verif.LitModel.C60_shortened_alike"
   ],
   "note": "Independent of the checkout except for directories starting with two dots (witness); distinct within the module; a module file can be named like a dependency file (witness)."
  },
  {
   "property": "C61",
   "status": "partial",
   "theorems": [
    "Verif.MappingModel.C61_resolve",
    "Verif.MappingModel.C61_own_type"
   ],
   "note": "order of decisions proved; a project type called uuid.UUID or decimal.Decimal is taken for the well-known one (proved)"
  },
  {
   "property": "C62",
   "status": "partial",
   "theorems": [
    "Verif.UiProps.C62_never_failed",
    "Verif.UiProps.C62_failure_hidden",
    "Verif.UiProps.C62_reported_done_partial",
    "Verif.UiProps.C62_published_partial"
   ],
   "note": "only the half about success holds; that no failure is ever reported is proved"
  },
  {
   "property": "C63",
   "status": "partial",
   "theorems": [
    "Verif.DiagramProps.C63_depth",
    "Verif.DiagramProps.C63_monotone",
    "Verif.DiagramProps.C63_cycle_lost"
   ],
   "note": "exact distance and monotone for all graphs; functions only reachable from a cycle without entry function are never shown (proved)"
  },
  {
   "property": "C64",
   "status": "partial",
   "theorems": [
    "Verif.DiagramProps.C64_key_exact",
    "Verif.DiagramProps.C64_cache_partial",
    "Verif.DiagramProps.C64_key_collision",
    "Verif.DiagramProps.C64_wrong_answer",
    "Verif.DiagramProps.C64_project_partial",
    "Verif.DiagramProps.C64_switch_lost",
    "Verif.DiagramProps.C64_stale_drawing"
   ],
   "note": "holds for terms without spaces and brackets and switches between requests; key collision, lost switch and stale drawing are proved"
  },
  {
   "property": "C65",
   "status": "partial",
   "theorems": [
    "Verif.DiagramProps.C65_exact",
    "Verif.DiagramProps.C65_receiver_partial",
    "Verif.DiagramProps.C65_plain_function_passes",
    "Verif.DiagramProps.C65_unknown_scope"
   ],
   "note": "all filters characterised exactly; functions without receiver, signature or type arguments pass those filters and unknown scopes pass all (proved)"
  },
  {
   "property": "C66",
   "status": "partial",
   "theorems": [
    "Verif.DiagramProps.C66_isolated",
    "Verif.DiagramProps.C66_neighbours_partial",
    "Verif.DiagramProps.C66_order_matters"
   ],
   "note": "isolated view exact; the other view contains the neighbours but further nodes depend on the order of edges (proved)"
  },
  {
   "property": "C67",
   "status": "partial",
   "theorems": [
    "Verif.DiagramProps.C67_nodes",
    "Verif.DiagramProps.C67_edges_sound",
    "Verif.DiagramProps.C67_edges_partial",
    "Verif.DiagramProps.C67_calls_lost",
    "Verif.DiagramProps.C67_wrong_parent"
   ],
   "note": "nodes exact, edges sound, complete if enclosing functions come first; lost calls and wrong enclosing method are proved"
  },
  {
   "property": "C68",
   "status": "partial",
   "theorems": [
    "Verif.InsightProps.C68_nearest",
    "Verif.InsightProps.C68_nodes",
    "Verif.InsightProps.C68_edges",
    "Verif.InsightProps.C68_order_partial",
    "Verif.InsightProps.C68_edges_unordered",
    "Verif.InsightProps.C68_sites",
    "Verif.InsightProps.C68_whole"
   ],
   "note": "nodes, counts, mark and set of edges proved, independent of map order; the order of the edges is not (proved)"
  },
  {
   "property": "C69",
   "status": "partial",
   "theorems": [
    "Verif.SchemaGen.C69_route_partial",
    "Verif.SchemaGen.C69_document_partial",
    "Verif.SchemaGen.C69_struct_component_partial",
    "Verif.SchemaGen.C69_alias_containers",
    "Verif.SchemaGen.C69_cross_package_alias",
    "Verif.SchemaGen.C69_used_alias",
    "Verif.SchemaGen.C69_inline_map",
    "Verif.SchemaGen.C69_bare_name",
    "Verif.SchemaGen.C69_mapping_ignored",
    "Verif.SchemaGen.C69_lookup_declared",
    "Verif.SchemaGen.C69_lookup_sound",
    "Verif.SchemaGen.C69_foreign_type"
   ],
   "note": "routes and components proved for tables whose aliases are of builtin types, with the hypotheses PlainTable, FitTable, ExactTable; failures outside them proved: containers of aliases, aliases across packages, used aliases, inline structs with maps, names several packages declare, mappings of aliases, types of packages not scanned; embedded fields are not documented by the code and the model has no embedded fields"
  },
  {
   "property": "C70",
   "status": "partial",
   "theorems": [
    "Verif.HandlerDoc.C70_split_partial",
    "Verif.HandlerDoc.C70_words_partial",
    "Verif.HandlerDoc.C70_second_sentence_lost",
    "Verif.HandlerDoc.C70_word_lost",
    "Verif.HandlerDoc.C70_annotations",
    "Verif.HandlerDoc.C70_plain",
    "Verif.HandlerDoc.C70_every_comment",
    "Verif.HandlerDoc.C70_own_text"
   ],
   "note": "annotated and plain comments characterised for every text; the split into words is proved for ordinary white space and a synopsis (parameter) whose words are those the comment begins with; losses proved for text without blanks between sentences and for other white space"
  },
  {
   "property": "C71",
   "status": "partial",
   "theorems": [
    "Verif.HandlerDoc.C71_function",
    "Verif.HandlerDoc.C71_method_partial",
    "Verif.HandlerDoc.C71_field_partial",
    "Verif.HandlerDoc.C71_value_partial",
    "Verif.HandlerDoc.C71_foreign_function",
    "Verif.HandlerDoc.C71_foreign_field",
    "Verif.HandlerDoc.C71_foreign_field_lost",
    "Verif.HandlerDoc.C71_interface_namesake",
    "Verif.HandlerDoc.C71_type_like_package"
   ],
   "note": "functions proved; methods, fields and values proved without the clashes for which a wrong comment is exhibited (namesakes in other packages, interface values, a type called like its package)"
  },
  {
   "property": "C72",
   "status": "partial",
   "theorems": [
    "Verif.Provenance.C72_sound_partial",
    "Verif.Provenance.C72_complete_partial",
    "Verif.Provenance.C72_terminates",
    "Verif.Provenance.C72_answer_unique",
    "Verif.Provenance.C72_decoder_partial",
    "Verif.Provenance.C72_read_all_lost",
    "Verif.Provenance.C72_limited_lost",
    "Verif.Provenance.C72_assigned_later",
    "Verif.Provenance.C72_assigned_later_wrong",
    "Verif.Provenance.C72_method_lost",
    "Verif.Provenance.C72_method_decoder_lost",
    "Verif.Provenance.C72_foreign_variable",
    "Verif.Provenance.C72_callee_variable"
   ],
   "note": "proved both ways for functions and closures in which every variable is assigned once before it is used, without parentheses or functions applied to the body; termination and uniqueness of the answer for all inputs; losses and wrong answers outside that are exhibited"
  },
  {
   "property": "C73",
   "status": "partial",
   "theorems": [
    "Verif.Provenance.C73_dropped_partial",
    "Verif.Provenance.C73_kept_partial",
    "Verif.Provenance.C73_terminates",
    "Verif.Provenance.C73_answer_unique",
    "Verif.Provenance.C73_response_kept_partial",
    "Verif.Provenance.C73_any_argument_partial",
    "Verif.Provenance.C73_named_field_lost",
    "Verif.Provenance.C73_named_field_wrong",
    "Verif.Provenance.C73_rewrapped_lost",
    "Verif.Provenance.C73_field_lost",
    "Verif.Provenance.C73_assigned_later_lost",
    "Verif.Provenance.C73_assigned_later_wrong",
    "Verif.Provenance.C73_traced_type"
   ],
   "note": "proved for functions and closures in which every variable is assigned once before it is used, without keyed elements or reads from fields; termination and uniqueness of the answer for all inputs; losses and wrong answers outside that are exhibited"
  },
  {
   "property": "C74",
   "status": "partial",
   "theorems": [
    "Verif.Provenance.C74_followed_partial",
    "Verif.Provenance.C74_value_exists",
    "Verif.Provenance.C74_depth_partial",
    "Verif.Provenance.C74_producer_parameter",
    "Verif.Provenance.C74_nine_helpers"
   ],
   "note": "proved for up to eight helpers when no call in between has a parameter of the same name; both limits are shown to matter"
  },
  {
   "property": "C75",
   "status": "partial",
   "theorems": [
    "Verif.SchemaGen.C75_document_partial",
    "Verif.SchemaGen.C75_nil_slice",
    "Verif.SchemaGen.C75_any_string"
   ],
   "note": "for the type tables of C69 (no arrays of bytes, builtin aliases only), values without null, and interface values that are objects; null and other interface values are shown to be rejected by the generated schema"
  },
  {
   "property": "C76",
   "status": "partial",
   "theorems": [
    "Verif.Embed.C76_own_fields",
    "Verif.Embed.C76_field_partial",
    "Verif.Embed.C76_complete_partial",
    "Verif.Embed.C76_embedded_lost",
    "Verif.Embed.C76_promoted_field_lost",
    "Verif.Embed.C76_named_embedding_lost",
    "Verif.Embed.C76_same_name_kept",
    "Verif.Embed.C76_tag_precedence_lost",
    "Verif.Embed.C76_inline_embedding"
   ],
   "note": "a property is right whenever the struct has one thing at most per key, whatever it embeds; keys from embedded types are proved to be missing always, and name conflicts are shown to be resolved wrongly"
  },
  {
   "property": "C77",
   "status": "partial",
   "theorems": [
    "Verif.AnonStruct.C77_fields_partial",
    "Verif.AnonStruct.C77_embedded_generic"
   ],
   "note": "proved when the text of an embedded type has no blank; an embedded generic instance with one is shown to be read as a field"
  },
  {
   "property": "C78",
   "status": "partial",
   "theorems": [
    "Verif.WriteSink.C78_variable_partial",
    "Verif.WriteSink.C78_raw_partial",
    "Verif.WriteSink.C78_helper_partial",
    "Verif.WriteSink.C78_helper_variable_lost",
    "Verif.WriteSink.C78_copy_lost",
    "Verif.WriteSink.C78_direct_call_lost",
    "Verif.WriteSink.C78_dot_import_lost",
    "Verif.WriteSink.C78_assigned_later_wrong",
    "Verif.WriteSink.C78_helper_reassigned_wrong",
    "Verif.WriteSink.C78_helper_parameter_wrong",
    "Verif.WriteSink.C78_method_helper_wrong",
    "Verif.WriteSink.C78_foreign_helper_wrong",
    "Verif.WriteSink.C78_local_payload_lost"
   ],
   "note": "proved for a variable last assigned from a serializer before and after which it is not assigned again, for raw bytes, and for helpers whose returns serialize one untouched parameter; helpers through a variable, copies, serializers called in place, dot imports, later assignments, reassigning helpers, method helpers and foreign helpers are shown to fail"
  },
  {
   "property": "C79",
   "status": "partial",
   "theorems": [
    "Verif.MapLiteral.C79_literal_partial",
    "Verif.MapLiteral.C79_string_iff",
    "Verif.MapLiteral.C79_number_string_wrong",
    "Verif.MapLiteral.C79_rune_wrong",
    "Verif.MapLiteral.C79_prefixed_wrong",
    "Verif.MapLiteral.C79_negative_wrong"
   ],
   "note": "proved for decimal integers, floating-point literals and strings that do not read as values, exactly for strings; strings of digits, character literals, prefixed integers and negative literals are shown to be documented wrong"
  },
  {
   "property": "C80",
   "status": "partial",
   "theorems": [
    "Verif.MapLiteral.C80_object_partial",
    "Verif.MapLiteral.C80_string_keys",
    "Verif.MapLiteral.C80_named_lost",
    "Verif.MapLiteral.C80_constant_lost",
    "Verif.MapLiteral.C80_number_string_wrong",
    "Verif.MapLiteral.C80_computed_key_wrong",
    "Verif.MapLiteral.C80_nested_wrong"
   ],
   "note": "proved for written-out map[string]T types with values resolved to their types and computed keys apart from constant ones; declared map types, declared constants as keys, strings of digits, computed keys that coincide and nested maps are shown to fail"
  },
  {
   "property": "C81",
   "status": "partial",
   "theorems": [
    "Verif.Envelope.C81_payload_partial",
    "Verif.Envelope.C81_documented_partial",
    "Verif.Envelope.C81_same_package_lost",
    "Verif.Envelope.C81_sentence_wrong",
    "Verif.Envelope.C81_two_hops_lost",
    "Verif.Envelope.C81_reassigned_wrong",
    "Verif.Envelope.C81_early_return_lost",
    "Verif.Envelope.C81_later_assignment_wrong"
   ],
   "note": "proved, both ways, for a helper that makes the envelope with one constructor call, neither of them assigning to its parameters, all return statements of the constructor alike; types of the same package, texts with a full stop, a second helper, reassigned parameters, early returns and later assignments are shown to be lost or wrong"
  },
  {
   "property": "C82",
   "status": "partial",
   "theorems": [
    "Verif.HeaderSide.C82_writer_types",
    "Verif.HeaderSide.C82_excluded_partial",
    "Verif.HeaderSide.C82_chain",
    "Verif.HeaderSide.C82_variable",
    "Verif.HeaderSide.C82_chain_variable_partial",
    "Verif.HeaderSide.C82_chain_variable_kept",
    "Verif.HeaderSide.C82_later_assignment_wrong",
    "Verif.HeaderSide.C82_conversion_wrong",
    "Verif.HeaderSide.C82_copy_kept",
    "Verif.HeaderSide.C82_gin_kept",
    "Verif.HeaderSide.C82_embedded_kept",
    "Verif.HeaderSide.C82_field_kept",
    "Verif.HeaderSide.C82_parameter_kept"
   ],
   "note": "proved: what is dropped is a header of the response, when variables are not assigned later and the read is not on a conversion; chains of up to eight calls and variables up to seven steps from a writer are dropped; the accepted types are characterised exactly; copies, fields, parameters, embedded writers and gin writers through a variable are shown to be kept"
  },
  {
   "property": "C83",
   "status": "partial",
   "theorems": [
    "Verif.StatusCodes.C83_constant",
    "Verif.StatusCodes.C83_literal",
    "Verif.StatusCodes.C83_octal_wrong",
    "Verif.StatusCodes.C83_unresolved",
    "Verif.StatusCodes.C83_variable_partial",
    "Verif.StatusCodes.C83_variable_sound",
    "Verif.StatusCodes.C83_variable_codes",
    "Verif.StatusCodes.C83_call_iff",
    "Verif.StatusCodes.C83_variable_default",
    "Verif.StatusCodes.C83_parameter_lost",
    "Verif.StatusCodes.C83_compound_wrong",
    "Verif.StatusCodes.C83_same_status_lost",
    "Verif.StatusCodes.C83_argument_wrong",
    "Verif.StatusCodes.C83_mapper_partial",
    "Verif.StatusCodes.C83_mapper_documented_partial",
    "Verif.StatusCodes.C83_mapper_sound_partial",
    "Verif.StatusCodes.C83_bound_irrelevant",
    "Verif.StatusCodes.C83_mapper_ends_partial",
    "Verif.StatusCodes.C83_self_copy_never_ends",
    "Verif.StatusCodes.C83_swap_never_ends",
    "Verif.StatusCodes.C83_input_lost",
    "Verif.StatusCodes.C83_other_lost",
    "Verif.StatusCodes.C83_method_lost",
    "Verif.StatusCodes.C83_field_write_lost",
    "Verif.StatusCodes.C83_external_lost",
    "Verif.StatusCodes.C83_type_confused",
    "Verif.StatusCodes.C83_one_status_lost"
   ],
   "note": "proved: constants of net/http and decimal literals are read right; statuses of a variable with two assignments or more; statuses of mappers are complete, sound and the search ends, for programs whose mappers return literals, locals and known functions; mappers that copy a variable to itself are shown to recurse for ever, and what other programs lose is shown by examples"
  },
  {
   "property": "C84",
   "status": "partial",
   "theorems": [
    "Verif.Wrappers.C84_context_deterministic_partial",
    "Verif.Wrappers.C84_groups_deterministic",
    "Verif.Wrappers.C84_groups_exact",
    "Verif.Wrappers.C84_apply_twice",
    "Verif.Wrappers.C84_apply_keeps",
    "Verif.Wrappers.C84_apply_complete",
    "Verif.Wrappers.C84_mount_iff",
    "Verif.Wrappers.Apply.C84_complete_reset",
    "Verif.Wrappers.Apply.C84_round_stops",
    "Verif.Wrappers.Apply.C84_second_run_differs",
    "Verif.Wrappers.Apply.C84_second_role_lost",
    "Verif.Wrappers.Apply.C84_map_order_wrong",
    "Verif.Wrappers.Apply.C84_via_order",
    "Verif.Wrappers.Apply.C84_group_prefix_wrong",
    "Verif.Wrappers.Apply.C84_group_lost",
    "Verif.Wrappers.Apply.C84_group_invented",
    "Verif.Wrappers.Apply.C84_embedding_elsewhere_lost",
    "Verif.Wrappers.C84_decoder_applied",
    "Verif.Wrappers.C84_reader_applied",
    "Verif.Wrappers.C84_responder_applied",
    "Verif.Wrappers.C84_supplied_iff",
    "Verif.Wrappers.C84_supplied_position",
    "Verif.Wrappers.C84_supplied_plain",
    "Verif.Wrappers.C84_mention_wrong",
    "Verif.Wrappers.C84_other_function_wrong",
    "Verif.Wrappers.C84_far_lost",
    "Verif.Wrappers.C84_once_per_method",
    "Verif.Wrappers.C84_only_project_methods",
    "Verif.Wrappers.C84_registered_partial",
    "Verif.Wrappers.C84_depth_partial",
    "Verif.Wrappers.C84_own_path_not_applied",
    "Verif.Wrappers.C84_verb",
    "Verif.Wrappers.C84_prefix_wrong",
    "Verif.Wrappers.C84_first_call_wrong",
    "Verif.Wrappers.C84_module_wrong",
    "Verif.Wrappers.C84_verb_lost",
    "Verif.Wrappers.C84_context_partial"
   ],
   "note": "proved: which parameter an argument is taken from; for plain routers and contexts the documented arguments are those that reach the framework, and chains of up to four calls are found and longer ones are not; groups are independent of map order; applying is idempotent, keeps what is configured and uses complete derivations only; which methods group routes. Programs with prefixes, several registrations per method, other conventions or overriding methods are shown to be read wrongly"
  },
  {
   "property": "C85",
   "status": "partial",
   "theorems": [
    "Verif.FuncField.C85_exact_partial",
    "Verif.FuncField.C85_entrypoints_partial",
    "Verif.FuncField.C85_each_once",
    "Verif.FuncField.C85_order",
    "Verif.FuncField.C85_import_order",
    "Verif.FuncField.Example.C85_named_type_lost",
    "Verif.FuncField.Example.C85_conversion_lost",
    "Verif.FuncField.Example.C85_map_lost",
    "Verif.FuncField.Example.C85_named_slice_lost",
    "Verif.FuncField.Example.C85_package_level_lost",
    "Verif.FuncField.Example.C85_package_positional_lost",
    "Verif.FuncField.Example.C85_deep_lost",
    "Verif.FuncField.Example.C85_short_path_lost",
    "Verif.FuncField.Example.C85_package_name_lost",
    "Verif.FuncField.Example.C85_variable_wrong",
    "Verif.FuncField.Example.C85_field_wrong",
    "Verif.FuncField.Example.C85_method_wrong",
    "Verif.FuncField.Example.C85_same_name_wrong",
    "Verif.FuncField.C85_method_value",
    "Verif.FuncField.C85_map_in_field"
   ],
   "note": "proved: what is found is exactly what is stored, for programs whose function types have no name, whose values have the names of functions only when they are functions, whose lists are written as such and whose literals outside of functions state their type and fields; each function once; independent of the order of files and imports; the same for entrypoints. What other programs lose or get wrong is shown by examples"
  },
  {
   "property": "C86",
   "status": "partial",
   "theorems": [
    "Verif.RouteWalk.C86_body_runs_partial",
    "Verif.RouteWalk.C86_body_kept",
    "Verif.RouteWalk.C86_lateral_ignored",
    "Verif.RouteWalk.C86_last_wins",
    "Verif.RouteWalk.C86_no_body",
    "Verif.RouteWalk.Example.C86_same_name_leaks",
    "Verif.RouteWalk.Example.C86_chained_registration_leaks",
    "Verif.RouteWalk.Example.C86_wrapped_name_lost",
    "Verif.RouteWalk.Example.C86_order_decides",
    "Verif.RouteWalk.Example.C86_no_metadata"
   ],
   "note": "proved for trees in which values below calls, conversions and the arguments of the registration are run, chains stay in one function and functions named like the method called implement it; below call nodes anything may be attached. Lateral attachments are shown to have no influence at all. What the excluded trees get wrong is shown by examples"
  },
  {
   "property": "C87",
   "status": "partial",
   "theorems": [
    "Verif.RouteWalk.C87_exact",
    "Verif.RouteWalk.C87_own_function_partial",
    "Verif.RouteWalk.C87_inner_ignored",
    "Verif.RouteWalk.Example.C87_inner_chain_completes"
   ],
   "note": "proved: exactly the calls that continue the statement; that these are written in the function of the registration is proved where chain links are listed below their chain. An example shows that a chain inside a called function completes the outer route"
  },
  {
   "property": "C88",
   "status": "partial",
   "theorems": [
    "Verif.SourceModel.C88_confined_partial",
    "Verif.SourceModel.C88_outside_refused",
    "Verif.SourceModel.C88_served",
    "Verif.SourceModel.C88_window",
    "Verif.SourceModel.C88_switch_shows_all",
    "Verif.SourceModel.C88_symlink_escape"
   ],
   "note": "proved for disks without symbolic links (the check compares texts, the file is opened through links: C88_symlink_escape); refusal, completeness and the window are proved there in full. C88_switch_shows_all shows that a client may lift the restriction by switching the project"
  },
  {
   "property": "C89",
   "status": "partial",
   "theorems": [
    "Verif.SaveModel.C89_not_clobbered",
    "Verif.SaveModel.C89_saved_partial",
    "Verif.SaveModel.C89_interrupted_partial",
    "Verif.SaveModel.C89_unrendered",
    "Verif.SaveModel.C89_race_clobbers",
    "Verif.SaveModel.C89_crash_loses",
    "Verif.SaveModel.C89_encode_failure_loses"
   ],
   "note": "proved for all schedules: existing files are not altered by guarded saves; success and interruption for files only one job writes. Simultaneous saves of a new file, crashes and failing encodings are refuted (C89_race_clobbers, C89_crash_loses, C89_encode_failure_loses)"
  },
  {
   "property": "C90",
   "status": "partial",
   "theorems": [
    "Verif.CliModel.C90_documented",
    "Verif.CliModel.C90_accepted",
    "Verif.CliModel.C90_last_counts",
    "Verif.CliModel.C90_default",
    "Verif.CliModel.C90_repeated",
    "Verif.CliModel.C90_directory",
    "Verif.CliModel.C90_directory_flag",
    "Verif.CliModel.C90_page_size",
    "Verif.CliModel.C90_after_directory_ignored",
    "Verif.CliModel.C90_output_file",
    "Verif.CliModel.C90_output_stdout",
    "Verif.CliModel.C90_stdout_mixed",
    "Verif.CliModel.C90_failure",
    "Verif.CliModel.C90_flag_after_directory"
   ],
   "note": "proved for all argument lists; refuted for the printed document, which is mixed with a notice and the time (C90_stdout_mixed). Profiling and the text of messages are not modelled"
  },
  {
   "property": "C91",
   "status": "partial",
   "theorems": [
    "Verif.ImplModel.C91_complete_partial",
    "Verif.ImplModel.C91_sound_partial",
    "Verif.ImplModel.C91_two_sided",
    "Verif.ImplModel.C91_order",
    "Verif.ImplModel.C91_same_name_invented",
    "Verif.ImplModel.C91_shared_result",
    "Verif.ImplModel.C91_any_missed",
    "Verif.ImplModel.C91_channel_invented",
    "Verif.ImplModel.C91_function_invented",
    "Verif.ImplModel.C91_generic_missed",
    "Verif.ImplModel.C91_promoted_missed",
    "Verif.ImplModel.C91_named_missed",
    "Verif.ImplModel.C91_embedded_wrong"
   ],
   "note": "the two lists agreeing and their order are proved for all programs; completeness and soundness for methods declared on the struct, plainly written signatures and types told apart by their names. Nine refutations show why each restriction is needed"
  },
  {
   "property": "C92",
   "status": "partial",
   "theorems": [
    "Verif.ExtImpl.C92_named_partial",
    "Verif.ExtImpl.C92_signature_partial",
    "Verif.ExtImpl.C92_inside_partial",
    "Verif.ExtImpl.C92_sound",
    "Verif.ExtImpl.C92_order",
    "Verif.ExtImpl.C92_depth_order",
    "Verif.ExtImpl.C92_instance_order"
   ],
   "note": "completeness is proved for interfaces named in the code, in signatures, and anywhere in types at most four levels deep, when no two referenced interfaces share a name; soundness and the order of the answer in full. Refuted for deep types and for two instances of one generic interface (C92_depth_order, C92_instance_order)"
  },
  {
   "property": "C93",
   "status": "partial",
   "theorems": [
    "Verif.ParamName.C93_stated_partial",
    "Verif.ParamName.C93_silent_partial",
    "Verif.ParamName.C93_wrapper_partial",
    "Verif.ParamName.C93_multipart",
    "Verif.ParamName.C93_order",
    "Verif.ParamName.C93_raw_wrong",
    "Verif.ParamName.C93_derived_constant_wrong",
    "Verif.ParamName.C93_variable_guessed",
    "Verif.ParamName.C93_shadow_wrong",
    "Verif.ParamName.C93_version_wrong",
    "Verif.ParamName.C93_no_argument"
   ],
   "note": "proved for names stated by an ordinary literal or a constant declared with one, and that nothing is documented for arguments that state none; multipart and file order in full. Refuted for raw literals, derived constants, package variables, shadowing names, packages whose path does not end with their name, and calls without the argument"
  },
  {
   "property": "C94",
   "status": "partial",
   "theorems": [
    "Verif.PathVar.C94_reported_partial",
    "Verif.PathVar.C94_sound_partial",
    "Verif.PathVar.C94_once",
    "Verif.PathVar.C94_completed",
    "Verif.PathVar.C94_mount_prefix_reported",
    "Verif.PathVar.C94_use_missed",
    "Verif.PathVar.C94_copy_missed",
    "Verif.PathVar.C94_reused_reported",
    "Verif.PathVar.C94_method_missed"
   ],
   "note": "reports proved complete for reads in assignments of declared functions that do not copy the map, and sound when a variable holding the map holds nothing else; uniqueness and the documented parameters in full. Refuted for mount prefixes, reads outside assignments, copies, reused variables, and methods or function literals as handlers"
  },
  {
   "property": "C95",
   "status": "partial",
   "theorems": [
    "Verif.MwIdent.C95_identified_partial",
    "Verif.MwIdent.C95_wrapper",
    "Verif.MwIdent.C95_handler_left_out",
    "Verif.MwIdent.C95_anonymous_dropped",
    "Verif.MwIdent.C95_later_assignment",
    "Verif.MwIdent.C95_receiver_lost",
    "Verif.MwIdent.C95_variable_name",
    "Verif.MwIdent.C95_method_confused"
   ],
   "note": "identity proved for functions, methods, calls and variables set once to a function of another package, a method or the result of a function; positions and wrappers in full. Refuted for function literals and other expressions, variables set again after the call, results of methods (receiver lost), variables holding a function or a variable, and methods named like the caller"
  },
  {
   "property": "C96",
   "status": "partial",
   "theorems": [
    "Verif.Preset.C96_gin",
    "Verif.Preset.C96_echo",
    "Verif.Preset.C96_fiber",
    "Verif.Preset.C96_mux",
    "Verif.Preset.C96_http_partial",
    "Verif.Preset.C96_http_handle_anywhere",
    "Verif.Preset.C96_chi",
    "Verif.Preset.C96_chi_receivers",
    "Verif.Preset.C96_methods_missed",
    "Verif.Preset.C96_gin_interfaces_missed",
    "Verif.Preset.C96_versions_missed"
   ],
   "note": "the calls recognised are characterised exactly for gin, echo, fiber, mux and chi, and for net/http except calls named Handle. Refuted: net/http takes any call named Handle for a route; registration methods such as gin Any/Handle/Match, chi Connect/Trace, echo Any/Match/Add, fiber All/Add are missed; gin interfaces and two-digit major versions are missed"
  },
  {
   "property": "C97",
   "status": "partial",
   "theorems": [
    "Verif.Preset.C97_additive",
    "Verif.Preset.C97_entrypoints",
    "Verif.Preset.C97_unscoped",
    "Verif.Preset.C97_cobra_hooks_missed"
   ],
   "note": "proved in full for the modelled libraries; two cobra hooks (PersistentPostRun, PersistentPostRunE) are missing from the presets"
  },
  {
   "property": "C98",
   "status": "partial",
   "theorems": [
    "Verif.RouteExtract.C98_verb_methods_partial",
    "Verif.RouteExtract.C98_middleware_documented",
    "Verif.RouteExtract.C98_chi_verbs",
    "Verif.RouteExtract.C98_chi_method_partial",
    "Verif.RouteExtract.C98_chi_variable_verb",
    "Verif.RouteExtract.C98_raw_verb",
    "Verif.RouteExtract.C98_handle_guessed",
    "Verif.RouteExtract.C98_mux_chain_partial",
    "Verif.RouteExtract.C98_second_verb_dropped",
    "Verif.RouteExtract.C98_chain_reset",
    "Verif.RouteExtract.C98_http_verb",
    "Verif.RouteExtract.C98_http_any"
   ],
   "note": "proved for verb methods with path and handler, constant verbs of chi Method, mux chains of any order and length, net/http patterns with and without verb. Refuted: gin and fiber document a middleware given before the handler; only the first verb of mux Methods is documented; a mux chain whose handler has no package (composite literal) loses path and handler; chi Method with a verb that is not constant or a raw string is documented as POST; chi Handle, which serves all verbs, gets the verb of the handler name"
  },
  {
   "property": "C99",
   "status": "partial",
   "theorems": [
    "Verif.Unwrap.C99_unwrapped_partial",
    "Verif.Unwrap.C99_part",
    "Verif.Unwrap.C99_factory",
    "Verif.Unwrap.C99_adapter",
    "Verif.Unwrap.C99_adapter_package",
    "Verif.Unwrap.C99_ambiguous",
    "Verif.Unwrap.C99_library_wrapper",
    "Verif.Unwrap.C99_two_parameters",
    "Verif.Unwrap.C99_wrapped_factory",
    "Verif.Unwrap.C99_converted_call",
    "Verif.Unwrap.C99_too_deep",
    "Verif.Unwrap.C99_same_name"
   ],
   "note": "proved for up to eight layers, where a plain function name must be the only argument of a function known to take and return the same type, and for factories, adapters and ambiguous calls. Refuted: wrappers of libraries around a plain function, middleware with a second parameter, middleware around a factory, a conversion of a call, more than eight layers, and an adapter between two types of the same name, taken for middleware"
  },
  {
   "property": "C100",
   "status": "partial",
   "theorems": [
    "Verif.BodyType.C100_covers_partial",
    "Verif.BodyType.C100_assigned",
    "Verif.BodyType.C100_narrowed",
    "Verif.BodyType.C100_listed",
    "Verif.BodyType.C100_interface_assignment",
    "Verif.BodyType.C100_tuple",
    "Verif.BodyType.C100_nil",
    "Verif.BodyType.C100_method",
    "Verif.BodyType.C100_foreign_function",
    "Verif.BodyType.C100_any",
    "Verif.BodyType.C100_after_call"
   ],
   "note": "proved for variables of functions, with an interface of the analyzed packages and assignments of concrete types only. Refuted: assignments of an interface type are passed over; calls of several results are documented as a tuple; nil is listed as a type; assignments in methods are not found, and those of a function of the same name in another package are taken instead; any and interfaces of libraries are not looked into; assignments after the call are listed"
  },
  {
   "property": "C101",
   "status": "partial",
   "theorems": [
    "Verif.FwDeps.C101_direct",
    "Verif.FwDeps.C101_framework",
    "Verif.FwDeps.C101_dependents",
    "Verif.FwDeps.C101_imports",
    "Verif.FwDeps.C101_imported_ours",
    "Verif.FwDeps.C101_once",
    "Verif.FwDeps.C101_analysed",
    "Verif.FwDeps.C101_order_matters",
    "Verif.FwDeps.C101_too_deep",
    "Verif.FwDeps.C101_names"
   ],
   "note": "proved for the direct and the dependent packages, for the direct imports of framework packages, for no package twice and for what is analyzed. Refuted: two runs can report different packages, packages more than two imports away are left out, and any path containing stub, mock or fake counts as a test package"
  },
  {
   "property": "C102",
   "status": "partial",
   "theorems": [
    "Verif.Overview.C102_references",
    "Verif.Overview.C102_resolution",
    "Verif.Overview.C102_score",
    "Verif.Overview.C102_score_hundred",
    "Verif.Overview.C102_table",
    "Verif.Overview.C102_methods",
    "Verif.Overview.C102_statuses",
    "Verif.Overview.C102_issues",
    "Verif.Overview.C102_reported",
    "Verif.Overview.C102_security",
    "Verif.Overview.C102_bodies",
    "Verif.Overview.C102_free",
    "Verif.Overview.C102_deterministic_partial",
    "Verif.Overview.C102_issue_order",
    "Verif.Overview.C102_missing_body_unseen",
    "Verif.Overview.C102_methods_twice",
    "Verif.Overview.C102_interfaces",
    "Verif.Overview.C102_same_label"
   ],
   "note": "proved for the tables, states, score, warnings, security counts, bodies by status and the interfaces counted, all independent of map order. Refuted: the issues of one operation come in map order; bodies that resolved to a bare object count as fully resolved because the issue for them is never raised; 199 of 200 clean operations show as 100 percent; methods are counted twice among the functions; ambiguous interfaces of packages with the same last path element share a row whose number depends on the run"
  },
  {
   "property": "C103",
   "status": "partial",
   "theorems": [
    "Verif.Head.C103_required",
    "Verif.Head.C103_description",
    "Verif.Head.C103_details",
    "Verif.Head.C103_effective",
    "Verif.Head.C103_ui",
    "Verif.Head.C103_contact_forced",
    "Verif.Head.C103_license_unnamed",
    "Verif.Head.C103_option_ignored",
    "Verif.Head.C103_notice_added",
    "Verif.Head.C103_library_drops"
   ],
   "note": "proved for every field, with the round trip through the written configuration. Refuted: a document without a contact in its configuration always names one, by default the author of the tool; without a licence it has a licence object with an empty name, which OpenAPI does not allow; an explicit option never overrides the configuration and contacts are not merged field by field; the description always ends with the notice of the tool unless the configuration gives one; used as a library the mapping drops contact, licence and terms when title, description and version are empty"
  },
  {
   "property": "C104",
   "status": "partial",
   "theorems": [
    "Verif.SecCheck.C104_accepts",
    "Verif.SecCheck.C104_reports",
    "Verif.SecCheck.C104_ways_in",
    "Verif.SecCheck.C104_effect_partial",
    "Verif.SecCheck.C104_empty_requirement",
    "Verif.SecCheck.C104_no_precedence",
    "Verif.SecCheck.C104_undefined_scheme"
   ],
   "note": "proved exactly for the check, the error reported and the ways in; for the effect, of mappings whose requirements are not empty. Refuted: a mapping to an empty requirement is accepted and silently hides the middleware; mappings given by the user take no precedence over built-in ones, although they are put first for that purpose; schemes that are defined nowhere are accepted"
  },
  {
   "property": "C105",
   "status": "partial",
   "theorems": [
    "Verif.Gate.C105_exact",
    "Verif.Gate.C105_recognised_partial",
    "Verif.Gate.C105_command_partial",
    "Verif.Gate.C105_terminal",
    "Verif.Gate.C105_written_missed",
    "Verif.Gate.C105_no_call_missed",
    "Verif.Gate.C105_scope_ignored"
   ],
   "note": "exact for the test itself; that recognised calls pass it is proved for patterns with a call expression and calls whose receiver was not replaced by a concrete type. Refuted otherwise: a call recognised by the type it was written on, and a call recognised by a pattern without call expression, do not count, so a command with only such registrations is not expanded"
  },
  {
   "property": "C106",
   "status": "partial",
   "theorems": [
    "Verif.PkgTree.C106_roots",
    "Verif.PkgTree.C106_counts",
    "Verif.PkgTree.C106_children",
    "Verif.PkgTree.C106_names",
    "Verif.PkgTree.C106_once",
    "Verif.PkgTree.C106_everything_partial",
    "Verif.PkgTree.C106_drawing",
    "Verif.PkgTree.C106_agree_partial",
    "Verif.PkgTree.C106_total_partial",
    "Verif.PkgTree.C106_order",
    "Verif.PkgTree.C106_deep_lost"
   ],
   "note": "counts, names, children, uniqueness and order are proved for every input; that every package has an entry is proved for packages at most 20 levels below their top entry, and refuted beyond (C106_deep_lost)"
  },
  {
   "property": "C107",
   "status": "partial",
   "theorems": [
    "Verif.Ctor.C107_true_partial",
    "Verif.Ctor.C107_found",
    "Verif.Ctor.C107_variable_partial",
    "Verif.Ctor.C107_branches_wrong",
    "Verif.Ctor.C107_default_wrong",
    "Verif.Ctor.C107_returns_wrong"
   ],
   "note": "complete and true for plain constructors and a last assignment outside of branches; refuted for two branches with a constructor each, for constructors that replace a status and for constructors with several return statements. Assignments to the field itself and calls through method values are not modelled"
  },
  {
   "property": "C108",
   "status": "partial",
   "theorems": [
    "Verif.Near.C108_distance",
    "Verif.Near.C108_nearest_documented",
    "Verif.Near.C108_only_nearest",
    "Verif.Near.C108_helper_lost"
   ],
   "note": "exact; distances are assumed below 2^20 where they are compared with functions the handler does not reach. Not proved, because it is false: that all bodies sent without a status are documented (C108_helper_lost)"
  },
  {
   "property": "C109",
   "status": "partial",
   "theorems": [
    "Verif.FiltersModel.C109_written",
    "Verif.FiltersModel.C109_replay_partial",
    "Verif.FiltersModel.C109_auto_narrows",
    "Verif.FiltersModel.C109_file_claims",
    "Verif.FiltersModel.C109_repeated"
   ],
   "note": "exact for what is written; replay is proved for runs without automatic inclusion of framework packages and without a configuration file, and refuted for both"
  },
  {
   "property": "C110",
   "status": "partial",
   "theorems": [
    "Verif.HandlerValue.C110_concrete",
    "Verif.HandlerValue.C110_exact",
    "Verif.HandlerValue.C110_runs_partial",
    "Verif.HandlerValue.C110_promoted_missed",
    "Verif.HandlerValue.C110_others_documented"
   ],
   "note": "exact for what is recorded, and the method that runs is found when the type declares it; refuted for methods of embedded types"
  },
  {
   "property": "C111",
   "status": "partial",
   "theorems": [
    "Verif.FieldLookup.C111_own",
    "Verif.FieldLookup.C111_sound",
    "Verif.FieldLookup.C111_found_partial",
    "Verif.FieldLookup.C111_selects_partial",
    "Verif.FieldLookup.C111_depth_wrong",
    "Verif.FieldLookup.C111_cycle_never_ends"
   ],
   "note": "own fields and existence are exact; the choice is proved when all fields of the name have one type and no struct embeds itself, and refuted otherwise"
  },
  {
   "property": "C112",
   "status": "partial",
   "theorems": [
    "Verif.Operand.C112_unique",
    "Verif.Operand.C112_value_partial",
    "Verif.Operand.C112_placeholder",
    "Verif.Operand.C112_promoted_dropped",
    "Verif.Operand.C112_names_mixed"
   ],
   "note": "the agreement of callers is exact; values are right in every run that fits what was recorded; refuted for fields of embedded structs and for a variable of the caller that has the name of another parameter"
  },
  {
   "property": "C113",
   "status": "partial",
   "theorems": [
    "Verif.TraceRoot.C113_split",
    "Verif.TraceRoot.C113_direct",
    "Verif.TraceRoot.C113_renamed_partial",
    "Verif.TraceRoot.C113_closure_partial",
    "Verif.TraceRoot.C113_interface_partial",
    "Verif.TraceRoot.C113_calls",
    "Verif.TraceRoot.C113_other_receiver",
    "Verif.TraceRoot.C113_order_dependent",
    "Verif.TraceRoot.C113_other_closure",
    "Verif.TraceRoot.C113_version_wrong"
   ],
   "note": "proved when the name is unique in the package; refuted for equal names on different receivers, for the order, for handlers that call nothing, and for packages with a version in the last element"
  },
  {
   "property": "C114",
   "status": "partial",
   "theorems": [
    "Verif.CallBody.C114_sources",
    "Verif.CallBody.C114_plain_partial",
    "Verif.CallBody.C114_interface_partial",
    "Verif.CallBody.C114_receiver_ignored",
    "Verif.CallBody.C114_first_return",
    "Verif.CallBody.C114_any_function"
   ],
   "note": "proved when the functions and methods of that name in the package have the same result, and for functions whose returned values have one type; refuted for equal method names on two types, for several return statements and for methods that return an interface"
  },
  {
   "property": "C115",
   "status": "partial",
   "theorems": [
    "Verif.Browse.C115_comparison",
    "Verif.Browse.C115_listed",
    "Verif.Browse.C115_order",
    "Verif.Browse.C115_one_order",
    "Verif.Browse.C115_parent",
    "Verif.Browse.C115_refused",
    "Verif.Browse.C115_links_missing"
   ],
   "note": "proved for folders that are not links; links to folders are not offered"
  },
  {
   "property": "C116",
   "status": "partial",
   "theorems": [
    "Verif.Subtree.C116_edges",
    "Verif.Subtree.C116_functions",
    "Verif.Subtree.C116_complete_partial",
    "Verif.Subtree.C116_second_caller",
    "Verif.Subtree.C116_depth_not_distance"
   ],
   "note": "edges and functions proved for all trees; completeness proved when a key of the tree stands for one call from one function, refuted otherwise; depth is an upper bound of the distance, not the distance"
  },
  {
   "property": "C117",
   "status": "partial",
   "theorems": [
    "Verif.Endpoint.C117_found",
    "Verif.Endpoint.C117_responses",
    "Verif.Endpoint.C117_request",
    "Verif.Endpoint.C117_params",
    "Verif.Endpoint.C117_one_content_partial",
    "Verif.Endpoint.C117_responses_order",
    "Verif.Endpoint.C117_short_name_partial",
    "Verif.Endpoint.C117_arbitrary_content",
    "Verif.Endpoint.C117_param_twice",
    "Verif.Endpoint.C117_names_collide"
   ],
   "note": "proved but for contents with several types and no JSON, whose report depends on the order of a map, and for parameters of the path that the operation replaces, which are listed twice; short names collide for types with underscores"
  },
  {
   "property": "C118",
   "status": "partial",
   "theorems": [
    "Verif.Origin.C118_repeatable",
    "Verif.Origin.C118_answered",
    "Verif.Origin.C118_param_partial",
    "Verif.Origin.C118_copy_partial",
    "Verif.Origin.C118_result_partial",
    "Verif.Origin.C118_second_file",
    "Verif.Origin.C118_first_call"
   ],
   "note": "repeatability and termination are proved in full; what a parameter, a copy and a result lead to is proved for functions called once, for local variables of functions that are not called and for results declared in the first file of the package; a method declared in a later file is not found, and a parameter is traced to the first call alone"
  },
  {
   "property": "C119",
   "status": "partial",
   "theorems": [
    "Verif.Link.C119_order",
    "Verif.Link.C119_found",
    "Verif.Link.C119_kept",
    "Verif.Link.C119_only",
    "Verif.Link.C119_list",
    "Verif.Link.C119_second_call"
   ],
   "note": "proved but for several calls on one variable, of which only the last in the call graph is linked"
  },
  {
   "property": "C120",
   "status": "proved",
   "theorems": [
    "Verif.Suggest.C120_packages",
    "Verif.Suggest.C120_functions",
    "Verif.Suggest.C120_types",
    "Verif.Suggest.C120_methods",
    "Verif.Suggest.C120_imports",
    "Verif.Suggest.C120_user",
    "Verif.Suggest.C120_one_order",
    "Verif.Suggest.C120_distinct"
   ],
   "note": "each list is proved to hold exactly the names it should, each once and sorted, and to be the same for all orders of maps and all sorts"
  },
  {
   "property": "C121",
   "status": "partial",
   "theorems": [
    "Verif.Export.C121_replaced",
    "Verif.Export.C121_kept",
    "Verif.Export.C121_export_partial",
    "Verif.Export.C121_reported",
    "Verif.Export.C121_component_shown",
    "Verif.Export.C121_overlap",
    "Verif.Export.C121_class_wrong"
   ],
   "note": "proved for module paths that cannot overlap with the placeholder and have no spaces, line breaks or backquotes; names of components have the module path with underscores and are not redacted, and some module paths are put together again by the replacement"
  },
  {
   "property": "C122",
   "status": "proved",
   "theorems": [
    "Verif.Verbs.C122_rows",
    "Verif.Verbs.C122_ordered",
    "Verif.Verbs.C122_only",
    "Verif.Verbs.C122_one_order",
    "Verif.Verbs.C122_same_name"
   ],
   "note": ""
  },
  {
   "property": "C123",
   "status": "partial",
   "theorems": [
    "Verif.FuncMap.C123_sound_partial",
    "Verif.FuncMap.C123_found_partial",
    "Verif.FuncMap.C123_nothing_partial",
    "Verif.FuncMap.C123_generic",
    "Verif.FuncMap.C123_other_package"
   ],
   "note": "proved if no package path is that of another one, a dot and a name, and for types without type parameters; methods of generic types are never found"
  },
  {
   "property": "C124",
   "status": "partial",
   "theorems": [
    "Verif.EndExport.C124_redacted_partial",
    "Verif.EndExport.C124_reported",
    "Verif.EndExport.C124_trace",
    "Verif.EndExport.C124_interface_shown",
    "Verif.EndExport.C124_component_shown",
    "Verif.EndExport.C124_cut"
   ],
   "note": "proved for module paths that cannot overlap with the placeholder and have none of the characters between parts; names of components have the module path with underscores and are not redacted"
  },
  {
   "property": "C125",
   "status": "partial",
   "theorems": [
    "Verif.Behind.C125_interface_partial",
    "Verif.Behind.C125_order_partial",
    "Verif.Behind.C125_unknown",
    "Verif.Behind.C125_not_called",
    "Verif.Behind.C125_same_name"
   ],
   "note": "proved if no other type has the name of the receiver; types are looked up by their bare names, so with two types of one name the order of the maps decides"
  },
  {
   "property": "C126",
   "status": "partial",
   "theorems": [
    "Verif.Pos.C126_place_partial",
    "Verif.Pos.C126_nowhere_partial",
    "Verif.Pos.C126_string_partial",
    "Verif.Pos.C126_same_partial",
    "Verif.Pos.C126_two_sets"
   ],
   "note": "proved for histories with one file set and calls one after another; the cache does not know file sets"
  },
  {
   "property": "C127",
   "status": "partial",
   "theorems": [
    "Verif.Impls.C127_methods",
    "Verif.Impls.C127_no_interface",
    "Verif.Impls.C127_no_calls"
   ],
   "note": "what is recorded as implementing is taken as given; the data shown for each method is not modelled"
  },
  {
   "property": "C128",
   "status": "partial",
   "theorems": [
    "Verif.PickConf.C128_first_partial",
    "Verif.PickConf.C128_none_partial",
    "Verif.PickConf.C128_not_offered"
   ],
   "note": "a title and the sections that the program looks at; the rest of the description, entry points, handler methods and the contexts of requests and responses alone are not enough"
  },
  {
   "property": "C129",
   "status": "partial",
   "theorems": [
    "Verif.Version.C129_linked",
    "Verif.Version.C129_no_placeholder",
    "Verif.Version.C129_version",
    "Verif.Version.C129_development",
    "Verif.Version.C129_rest",
    "Verif.Version.C129_placeholder_dirty"
   ],
   "note": "a build of changed sources without a version shows the placeholder with the mark; the settings have each key once"
  },
  {
   "property": "C130",
   "status": "partial",
   "theorems": [
    "Verif.FnFile.C130_function",
    "Verif.FnFile.C130_method",
    "Verif.FnFile.C130_some",
    "Verif.FnFile.C130_other_type"
   ],
   "note": "names that are declared; every file is taken as parsed, and the sorting of files and types is not modelled"
  }
 ]
}