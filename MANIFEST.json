{
 "claims": [
  {
   "property": "C01",
   "status": "proved",
   "theorems": [
    "Bnf.Props.C01_soundness"
   ],
   "note": ""
  },
  {
   "property": "C02",
   "status": "proved",
   "theorems": [
    "Bnf.Props.C02_trees_spell_input"
   ],
   "note": ""
  },
  {
   "property": "C03",
   "status": "proved",
   "theorems": [
    "Bnf.Props.C03_completeness",
    "Bnf.Props.C03_first_call_returns"
   ],
   "note": ""
  },
  {
   "property": "C04",
   "status": "proved",
   "theorems": [
    "Bnf.Props.C04_at_most_copies",
    "Bnf.Props.C04_copies_reached",
    "Bnf.Props.C04_copies_exact",
    "Bnf.Props.C04_no_duplicates",
    "Bnf.Props.C04_duplicates_witness"
   ],
   "note": "Exact multiplicity by C04_copies_exact (ended iterators), C04_copies_reached (all iterators) and C04_at_most_copies; C04_duplicates_witness is a concrete repeated tree."
  },
  {
   "property": "C05",
   "status": "proved",
   "theorems": [
    "Bnf.Props.C05_exhausted_exact",
    "Bnf.Props.C05_none_first",
    "Bnf.Props.C05_some_first"
   ],
   "note": ""
  },
  {
   "property": "C06",
   "status": "proved",
   "theorems": [
    "Bnf.Props.C06_terminates_acyclic",
    "Bnf.Props.C06_every_call_returns"
   ],
   "note": ""
  },
  {
   "property": "C07",
   "status": "partial",
   "theorems": [
    "Bnf.Props.C07_returns_while_trees_left_partial",
    "Bnf.Props.C07_diverges",
    "Bnf.Props.C07_witness"
   ],
   "note": "The full property is false: C07_witness shows a call that never returns. Proved: every call returns while a derivation is left (all grammars) and always for acyclic grammars (C06). The exact condition is C54_every_call_returns_iff."
  },
  {
   "property": "C08",
   "status": "proved",
   "theorems": [
    "Bnf.Props.C08_default_start",
    "Bnf.Props.C08_unknown_start"
   ],
   "note": ""
  },
  {
   "property": "C09",
   "status": "proved",
   "theorems": [
    "Bnf.Props.C09_drained_perm_repeated",
    "Bnf.Props.C09_same_trees",
    "Bnf.Props.C09_drained_perm"
   ],
   "note": ""
  },
  {
   "property": "C10",
   "status": "proved",
   "theorems": [
    "Bnf.Props.C10_deprecated_agree",
    "Bnf.Props.C10_deprecated_panic_iff"
   ],
   "note": ""
  },
  {
   "property": "C11",
   "status": "proved",
   "theorems": [
    "Bnf.Props.C11_open_no_panic",
    "Bnf.Props.C11_next_no_panic"
   ],
   "note": ""
  },
  {
   "property": "C12",
   "status": "proved",
   "theorems": [
    "Bnf.Props.C12_char_boundaries",
    "Bnf.Props.C12_start_boundaries",
    "Bnf.Props.C12_no_clamp"
   ],
   "note": ""
  },
  {
   "property": "C13",
   "status": "proved",
   "theorems": [
    "Bnf.Props.C13_fused",
    "Bnf.Props.C13_deterministic",
    "Bnf.Props.C13_resumable"
   ],
   "note": ""
  },
  {
   "property": "C14",
   "status": "proved",
   "theorems": [
    "Bnf.Props.C14_build_parser_ok_iff",
    "Bnf.Props.C14_build_parser_error_kind"
   ],
   "note": ""
  },
  {
   "property": "C15",
   "status": "proved",
   "theorems": [
    "Bnf.Props.C15_build_parser_error_names_undefined",
    "Bnf.Props.C15_validate_error_names_undefined"
   ],
   "note": ""
  },
  {
   "property": "C16",
   "status": "partial",
   "theorems": [
    "Bnf.Props.C16_validate_ok_iff",
    "Bnf.Props.C16_build_parser_ok_validate_ok",
    "Bnf.Props.C16_agree_partial",
    "Bnf.Props.C16_condition_of_no_empty_production",
    "Bnf.Props.C16_disagreement"
   ],
   "note": "The full property is false for productions without alternatives (C16_disagreement). Proved: exact condition of validate(), build_parser ok implies validate ok, agreement under the exact side condition."
  },
  {
   "property": "C17",
   "status": "proved",
   "theorems": [
    "Bnf.Props.C17_term_round_trip",
    "Bnf.Props.C17_failure_witness"
   ],
   "note": "Exact characterisation: the round trip works if and only if the term is printable."
  },
  {
   "property": "C18",
   "status": "proved",
   "theorems": [
    "Bnf.Props.C18_expression_round_trip"
   ],
   "note": ""
  },
  {
   "property": "C19",
   "status": "proved",
   "theorems": [
    "Bnf.Props.C19_production_round_trip"
   ],
   "note": ""
  },
  {
   "property": "C20",
   "status": "proved",
   "theorems": [
    "Bnf.Props.C20_grammar_round_trip",
    "Bnf.Props.C20_parse_from_round_trip"
   ],
   "note": ""
  },
  {
   "property": "C21",
   "status": "proved",
   "theorems": [
    "Bnf.Props.C21_reparse",
    "Bnf.Props.C21_reparse_detected",
    "Bnf.Props.C21_abnf_witness"
   ],
   "note": ""
  },
  {
   "property": "C22",
   "status": "proved",
   "theorems": [
    "Bnf.Props.C22_layout",
    "Bnf.Props.C22_around",
    "Bnf.Props.C22_bar_witness",
    "Bnf.Props.C22_bracket_witness"
   ],
   "note": ""
  },
  {
   "property": "C23",
   "status": "proved",
   "theorems": [
    "Bnf.Props.C23_accepted_texts",
    "Bnf.Props.C23_rejected_texts",
    "Bnf.Props.C23_plain_texts",
    "Bnf.Props.C23_unambiguous"
   ],
   "note": "Both formats. The ABNF results use two facts about char::is_alphabetic (AlphabeticTable)."
  },
  {
   "property": "C24",
   "status": "proved",
   "theorems": [
    "Bnf.Props.C24_fast_path_transparent",
    "Bnf.Props.C24_plain_implies_extended",
    "Bnf.Props.C24_heuristic_witness",
    "Bnf.Props.C24_heuristic_exact"
   ],
   "note": ""
  },
  {
   "property": "C25",
   "status": "proved",
   "theorems": [
    "Bnf.Props.C25_well_formed",
    "Bnf.Props.C25_well_formed_from_str"
   ],
   "note": ""
  },
  {
   "property": "C26",
   "status": "proved",
   "theorems": [
    "Bnf.Props.C26_detection",
    "Bnf.Props.C26_no_misreading",
    "Bnf.Props.C26_exclusive"
   ],
   "note": ""
  },
  {
   "property": "C27",
   "status": "proved",
   "theorems": [
    "Bnf.Props.C27_layout_skipping",
    "Bnf.Props.C27_whitespace_table"
   ],
   "note": ""
  },
  {
   "property": "C28",
   "status": "proved",
   "theorems": [
    "Bnf.Props.C28_no_empty_groups",
    "Bnf.Props.C28_empty_group_is_error"
   ],
   "note": ""
  },
  {
   "property": "C29",
   "status": "proved",
   "theorems": [
    "Bnf.Props.C29_language"
   ],
   "note": ""
  },
  {
   "property": "C30",
   "status": "proved",
   "theorems": [
    "Bnf.Props.C30_fresh_names"
   ],
   "note": ""
  },
  {
   "property": "C31",
   "status": "partial",
   "theorems": [
    "Bnf.Props.C31_hygiene_partial",
    "Bnf.Props.C31_capture_witness"
   ],
   "note": "False as stated: an undefined nonterminal called __anonN is captured by a generated name (C31_capture_witness). C31_hygiene_partial proves the statement for all other names."
  },
  {
   "property": "C32",
   "status": "proved",
   "theorems": [
    "Bnf.Props.C32_optional_is_group"
   ],
   "note": ""
  },
  {
   "property": "C33",
   "status": "proved",
   "theorems": [
    "Bnf.Props.C33_terminates_iff"
   ],
   "note": ""
  },
  {
   "property": "C34",
   "status": "proved",
   "theorems": [
    "Bnf.Props.C34_generated_derivable",
    "Bnf.Props.C34_generated_parsed",
    "Bnf.Props.C34_undefined_witness"
   ],
   "note": ""
  },
  {
   "property": "C35",
   "status": "proved",
   "theorems": [
    "Bnf.Props.C35_expansions_accepted",
    "Bnf.Props.C35_log_transparent",
    "Bnf.Props.C35_tree_accepted"
   ],
   "note": ""
  },
  {
   "property": "C36",
   "status": "proved",
   "theorems": [
    "Bnf.Props.C36_nonterminating",
    "Bnf.Props.C36_empty",
    "Bnf.Props.C36_terminal_lhs",
    "Bnf.Props.C36_other_errors",
    "Bnf.Props.C36_no_panic",
    "Bnf.Props.C36_no_panic_builtin",
    "Bnf.Props.C36_no_panic_weighted"
   ],
   "note": "Weighted is covered with overflow checks off; with checks a weight sum over u32::MAX panics (C40_overflow_panics)."
  },
  {
   "property": "C37",
   "status": "proved",
   "theorems": [
    "Bnf.Props.C37_choose",
    "Bnf.Props.C37_weighted",
    "Bnf.Props.C37_faithful",
    "Bnf.Props.C37_empty_panics"
   ],
   "note": "On a production without alternatives the strategies panic instead of returning None (C37_empty_panics); generation never asks for one (C36_no_panic)."
  },
  {
   "property": "C38",
   "status": "partial",
   "theorems": [
    "Bnf.Props.C38_terminates_partial",
    "Bnf.Props.C38_terminates_wf_partial",
    "Bnf.Props.C38_witness"
   ],
   "note": "The full property is false: C38_witness (for every max_depth). Proved when every first production has an all-terminal alternative, with the bound on the nesting, and under the weaker condition of no infinite chain of nonterminals without such an alternative."
  },
  {
   "property": "C39",
   "status": "proved",
   "theorems": [
    "Bnf.Props.C39_covered_random_walk",
    "Bnf.Props.C39_prefers_new",
    "Bnf.Props.C39_covers_all",
    "Bnf.Props.C39_new_answer"
   ],
   "note": ""
  },
  {
   "property": "C40",
   "status": "proved",
   "theorems": [
    "Bnf.Props.C40_proportional",
    "Bnf.Props.C40_zero_never",
    "Bnf.Props.C40_all_zero",
    "Bnf.Props.C40_overflow_panics",
    "Bnf.Props.C40_wraps_exact",
    "Bnf.Props.C40_overflow_wraps"
   ],
   "note": ""
  },
  {
   "property": "C41",
   "status": "partial",
   "theorems": [
    "Bnf.Props.C41_can_generate_partial",
    "Bnf.Props.C41_several_productions_witness",
    "Bnf.Props.C41_bare_alternative_witness"
   ],
   "note": "The full property is false for several productions of one left-hand side and for a single alternative without terms (two witnesses, for all strategies). Proved otherwise."
  },
  {
   "property": "C42",
   "status": "proved",
   "theorems": [
    "Bnf.Props.C42_display_draws",
    "Bnf.Props.C42_one_line_per_node"
   ],
   "note": ""
  },
  {
   "property": "C43",
   "status": "proved",
   "theorems": [
    "Bnf.Props.C43_mermaid_edges",
    "Bnf.Props.C43_preorder_paths_distinct"
   ],
   "note": ""
  },
  {
   "property": "C44",
   "status": "proved",
   "theorems": [
    "Bnf.Props.C44_decode_escape",
    "Bnf.Props.C44_escape_injective",
    "Bnf.Props.C44_escape_safe",
    "Bnf.Props.C44_escape_plain"
   ],
   "note": ""
  },
  {
   "property": "C45",
   "status": "proved",
   "theorems": [
    "Bnf.Props.C45_mermaid_of_parse",
    "Bnf.Props.C45_terminal_start_panics"
   ],
   "note": "For nonterminal starting terms. C45_terminal_start_panics shows the panic for a terminal one."
  },
  {
   "property": "C46",
   "status": "proved",
   "theorems": [
    "Bnf.Props.C46_remove_term",
    "Bnf.Props.C46_remove_term_absent",
    "Bnf.Props.C46_remove_from_rhs",
    "Bnf.Props.C46_remove_from_rhs_absent",
    "Bnf.Props.C46_remove_production",
    "Bnf.Props.C46_remove_production_absent",
    "Bnf.Props.C46_remove_production_order"
   ],
   "note": ""
  },
  {
   "property": "C47",
   "status": "proved",
   "theorems": [
    "Bnf.Props.C47_start_kept",
    "Bnf.Props.C47_trees_after_removal",
    "Bnf.Props.C47_alternatives",
    "Bnf.Props.C47_start_witness"
   ],
   "note": "C47_start_witness shows that removing the first production makes the last one the start."
  },
  {
   "property": "C48",
   "status": "proved",
   "theorems": [
    "Bnf.Props.C48_expression_macro",
    "Bnf.Props.C48_production_macro",
    "Bnf.Props.C48_grammar_macro",
    "Bnf.Props.C48_same_trees",
    "Bnf.Props.C48_start_two_productions",
    "Bnf.Props.C48_start_last_but_one",
    "Bnf.Props.C48_start_witness",
    "Bnf.Props.C48_order_witness"
   ],
   "note": "Exact results of the macros; they build the written alternatives up to order only (C48_order_witness, C48_start_witness)."
  },
  {
   "property": "C49",
   "status": "proved",
   "theorems": [
    "Bnf.Props.C49_sums",
    "Bnf.Props.C49_term_plus_expression",
    "Bnf.Props.C49_order_witness"
   ],
   "note": "Term + Expression has the term at the end (C49_term_plus_expression, C49_order_witness)."
  },
  {
   "property": "C50",
   "status": "proved",
   "theorems": [
    "Bnf.Props.C50_waiting_index",
    "Bnf.Props.C50_completed_index"
   ],
   "note": ""
  },
  {
   "property": "C51",
   "status": "proved",
   "theorems": [
    "Bnf.Props.C51_generated_iff",
    "Bnf.Props.C51_every_sentence_generated"
   ],
   "note": ""
  },
  {
   "property": "C52",
   "status": "proved",
   "theorems": [
    "Bnf.Props.C52_display_injective",
    "Bnf.Props.C52_line_break_witness"
   ],
   "note": "The condition on line breaks is needed (C52_line_break_witness)."
  },
  {
   "property": "C53",
   "status": "proved",
   "theorems": [
    "Bnf.Props.C53_add_production",
    "Bnf.Props.C53_old_results_kept"
   ],
   "note": ""
  },
  {
   "property": "C54",
   "status": "proved",
   "theorems": [
    "Bnf.Props.C54_call_outcome_repeated",
    "Bnf.Props.C54_drain_ends_iff",
    "Bnf.Props.C54_calls_return",
    "Bnf.Props.C54_hangs",
    "Bnf.Props.C54_infinitely_many",
    "Bnf.Props.C54_every_call_returns_iff",
    "Bnf.Props.C54_call_outcome",
    "Bnf.Props.C54_acyclic_no_trap"
   ],
   "note": ""
  },
  {
   "property": "C55",
   "status": "proved",
   "theorems": [
    "Bnf.Props.C55_builds_iff",
    "Bnf.Props.C55_membership",
    "Bnf.Props.C55_from_str",
    "Bnf.Props.C55_generated"
   ],
   "note": "The exception in C55_builds_iff is the name clash of C31 (undeclared nonterminal called __anonN)."
  },
  {
   "property": "C56",
   "status": "proved",
   "theorems": [
    "Bnf.Props.C56_subtrees_are_parses",
    "Bnf.Props.C56_exchange"
   ],
   "note": ""
  },
  {
   "property": "C57",
   "status": "proved",
   "theorems": [
    "Bnf.Props.C57_unreachable"
   ],
   "note": ""
  },
  {
   "property": "C58",
   "status": "proved",
   "theorems": [
    "Bnf.Props.C58_term_texts",
    "Bnf.Props.C58_expression_texts",
    "Bnf.Props.C58_production_texts",
    "Bnf.Props.C58_other_texts",
    "Bnf.Props.C58_leading_space"
   ],
   "note": ""
  },
  {
   "property": "C59",
   "status": "proved",
   "theorems": [
    "Bnf.Props.C59_any_strategy",
    "Bnf.Props.C59_coverage_guided",
    "Bnf.Props.C59_coverage_fresh_witness",
    "Bnf.Props.C59_random_walk",
    "Bnf.Props.C59_generate_seeded",
    "Bnf.Props.C59_depth_bounded",
    "Bnf.Props.C59_weighted",
    "Bnf.Props.C59_otherwise_bounded",
    "Bnf.Props.C59_recursion"
   ],
   "note": ""
  },
  {
   "property": "C60",
   "status": "proved",
   "theorems": [
    "Bnf.Props.C60_defined_iff",
    "Bnf.Props.C60_count",
    "Bnf.Props.C60_capture_iff",
    "Bnf.Props.C60_builds_iff"
   ],
   "note": ""
  },
  {
   "property": "C61",
   "status": "proved",
   "theorems": [
    "Bnf.Props.C61_mermaid_injective",
    "Bnf.Props.C61_parses_of_texts",
    "Bnf.Props.C61_childless_witness"
   ],
   "note": ""
  },
  {
   "property": "C62",
   "status": "proved",
   "theorems": [
    "Bnf.Props.C62_renaming",
    "Bnf.Props.C62_distinct",
    "Bnf.Props.C62_identifying"
   ],
   "note": ""
  },
  {
   "property": "C63",
   "status": "proved",
   "theorems": [
    "Bnf.Props.C63_mirror",
    "Bnf.Props.C63_all"
   ],
   "note": ""
  },
  {
   "property": "C64",
   "status": "proved",
   "theorems": [
    "Bnf.Props.C64_sentences",
    "Bnf.Props.C64_endless",
    "Bnf.Props.C64_generate_seeded_callback",
    "Bnf.Props.C64_otherwise_bounded",
    "Bnf.Props.C64_accept_all",
    "Bnf.Props.C64_start_rejected"
   ],
   "note": ""
  },
  {
   "property": "C65",
   "status": "proved",
   "theorems": [
    "Bnf.Props.C65_rounds",
    "Bnf.Props.C65_exact",
    "Bnf.Props.C65_at_least",
    "Bnf.Props.C65_drains_iff",
    "Bnf.Props.C65_memory",
    "Bnf.Props.C65_repeated_witness",
    "Bnf.Props.C65_exact_repeated",
    "Bnf.Props.C65_drains_iff_any",
    "Bnf.Props.C65_memory_repeated"
   ],
   "note": ""
  },
  {
   "property": "C66",
   "status": "proved",
   "theorems": [
    "Bnf.Props.C66_quadratic",
    "Bnf.Props.C66_few_places",
    "Bnf.Props.C66_right_recursion",
    "Bnf.Props.C66_left_recursion"
   ],
   "note": ""
  },
  {
   "property": "C67",
   "status": "proved",
   "theorems": [
    "Bnf.Props.C67_catalan_trees",
    "Bnf.Props.C67_rounds",
    "Bnf.Props.C67_rejecting",
    "Bnf.Props.C67_exponential"
   ],
   "note": ""
  },
  {
   "property": "C68",
   "status": "proved",
   "theorems": [
    "Bnf.Props.C68_reproducible",
    "Bnf.Props.C68_caller_source",
    "Bnf.Props.C68_series",
    "Bnf.Props.C68_one_generator",
    "Bnf.Props.C68_unseeded"
   ],
   "note": ""
  },
  {
   "property": "C69",
   "status": "proved",
   "theorems": [
    "Bnf.Props.C69_same_results",
    "Bnf.Props.C69_exact",
    "Bnf.Props.C69_exact_detected",
    "Bnf.Props.C69_fault_or_grammar",
    "Bnf.Props.C69_unique",
    "Bnf.Props.C69_within",
    "Bnf.Props.C69_kinds",
    "Bnf.Props.C69_message",
    "Bnf.Props.C69_message_text",
    "Bnf.Props.C69_prefix"
   ],
   "note": ""
  },
  {
   "property": "C70",
   "status": "proved",
   "theorems": [
    "Bnf.Props.C70_behind_productions",
    "Bnf.Props.C70_first_production",
    "Bnf.Props.C70_no_name",
    "Bnf.Props.C70_no_separator",
    "Bnf.Props.C70_term",
    "Bnf.Props.C70_expression",
    "Bnf.Props.C70_production",
    "Bnf.Props.C70_previous_production_witness",
    "Bnf.Props.C70_bracket_witness"
   ],
   "note": "The wording of the statement is what the code does; disagreement 21 in DESIGN.md says how the position misleads."
  },
  {
   "property": "C71",
   "status": "proved",
   "theorems": [
    "Bnf.Props.C71_agree_or_panic",
    "Bnf.Props.C71_own_references",
    "Bnf.Props.C71_builtin",
    "Bnf.Props.C71_foreign_witness"
   ],
   "note": ""
  },
  {
   "property": "C72",
   "status": "proved",
   "theorems": [
    "Bnf.Props.C72_bare_name",
    "Bnf.Props.C72_no_new_characters",
    "Bnf.Props.C72_witness"
   ],
   "note": ""
  },
  {
   "property": "C73",
   "status": "proved",
   "theorems": [
    "Bnf.Props.C73_size"
   ],
   "note": ""
  },
  {
   "property": "C74",
   "status": "proved",
   "theorems": [
    "Bnf.Props.C74_shorter_first",
    "Bnf.Props.C74_first_tree",
    "Bnf.Props.C74_depth"
   ],
   "note": ""
  },
  {
   "property": "C75",
   "status": "proved",
   "theorems": [
    "Bnf.Props.C75_fewer_terms",
    "Bnf.Props.C75_listed_first"
   ],
   "note": ""
  },
  {
   "property": "C76",
   "status": "proved",
   "theorems": [
    "Bnf.Props.C76_same_results",
    "Bnf.Props.C76_linear",
    "Bnf.Props.C76_from_str",
    "Bnf.Props.C76_all_read",
    "Bnf.Props.C76_looked_at",
    "Bnf.Props.C76_looked_at_from_str",
    "Bnf.Props.C76_names"
   ],
   "note": ""
  },
  {
   "property": "C77",
   "status": "proved",
   "theorems": [
    "Bnf.Props.C77_depth",
    "Bnf.Props.C77_no_limit",
    "Bnf.Props.C77_from_str",
    "Bnf.Props.C77_exact",
    "Bnf.Props.C77_nested",
    "Bnf.Props.C77_not_deeper",
    "Bnf.Props.C77_as_deep"
   ],
   "note": ""
  },
  {
   "property": "C78",
   "status": "proved",
   "theorems": [
    "Bnf.Props.C78_well_defined",
    "Bnf.Props.C78_random_walk",
    "Bnf.Props.C78_depth_bounded",
    "Bnf.Props.C78_weighted",
    "Bnf.Props.C78_ending"
   ],
   "note": ""
  },
  {
   "property": "C79",
   "status": "proved",
   "theorems": [
    "Bnf.Props.C79_ends",
    "Bnf.Props.C79_ends_weighted",
    "Bnf.Props.C79_random_walk_witness",
    "Bnf.Props.C79_weighted_witness",
    "Bnf.Props.C79_depth_bounded_witness"
   ],
   "note": ""
  },
  {
   "property": "C80",
   "status": "proved",
   "theorems": [
    "Bnf.Props.C80_results",
    "Bnf.Props.C80_end",
    "Bnf.Props.C80_rounds"
   ],
   "note": ""
  },
  {
   "property": "C81",
   "status": "proved",
   "theorems": [
    "Bnf.Props.C81_order",
    "Bnf.Props.C81_all"
   ],
   "note": ""
  },
  {
   "property": "C82",
   "status": "proved",
   "theorems": [
    "Bnf.Props.C82_same_alternatives",
    "Bnf.Props.C82_swap",
    "Bnf.Props.C82_merge",
    "Bnf.Props.C82_unneeded"
   ],
   "note": ""
  },
  {
   "property": "C83",
   "status": "proved",
   "theorems": [
    "Bnf.Props.C83_edges",
    "Bnf.Props.C83_append",
    "Bnf.Props.C83_queue"
   ],
   "note": ""
  },
  {
   "property": "C84",
   "status": "proved",
   "theorems": [
    "Bnf.Props.C84_language",
    "Bnf.Props.C84_context_free_iff"
   ],
   "note": ""
  },
  {
   "property": "C85",
   "status": "proved",
   "theorems": [
    "Bnf.Props.C85_trees",
    "Bnf.Props.C85_returned",
    "Bnf.Props.C85_eventually"
   ],
   "note": ""
  },
  {
   "property": "C86",
   "status": "proved",
   "theorems": [
    "Bnf.Props.C86_different_ways",
    "Bnf.Props.C86_every_way",
    "Bnf.Props.C86_exhausted",
    "Bnf.Props.C86_count"
   ],
   "note": ""
  },
  {
   "property": "C87",
   "status": "proved",
   "theorems": [
    "Bnf.Props.C87_fixtures",
    "Bnf.Props.C87_sentences",
    "Bnf.Props.C87_generated",
    "Bnf.Props.C87_seeded",
    "Bnf.Props.C87_ends"
   ],
   "note": ""
  },
  {
   "property": "C88",
   "status": "proved",
   "theorems": [
    "Bnf.Props.C88_printed",
    "Bnf.Props.C88_recognised",
    "Bnf.Props.C88_not_itself"
   ],
   "note": ""
  },
  {
   "property": "C89",
   "status": "proved",
   "theorems": [
    "Bnf.Props.C89_debug",
    "Bnf.Props.C89_debug_range"
   ],
   "note": ""
  },
  {
   "property": "C90",
   "status": "proved",
   "theorems": [
    "Bnf.Props.C90_term",
    "Bnf.Props.C90_expression",
    "Bnf.Props.C90_linear"
   ],
   "note": ""
  },
  {
   "property": "C91",
   "status": "proved",
   "theorems": [
    "Bnf.Props.C91_covered",
    "Bnf.Props.C91_start",
    "Bnf.Props.C91_watched",
    "Bnf.Props.C91_starved",
    "Bnf.Props.C91_stale"
   ],
   "note": ""
  },
  {
   "property": "C92",
   "status": "proved",
   "theorems": [
    "Bnf.Props.C92_result",
    "Bnf.Props.C92_passes",
    "Bnf.Props.C92_passes_productions",
    "Bnf.Props.C92_comparisons",
    "Bnf.Props.C92_looked_at",
    "Bnf.Props.C92_worst",
    "Bnf.Props.C92_order"
   ],
   "note": ""
  },
  {
   "property": "C93",
   "status": "proved",
   "theorems": [
    "Bnf.Props.C93_written",
    "Bnf.Props.C93_read",
    "Bnf.Props.C93_accepted",
    "Bnf.Props.C93_accepted_parts",
    "Bnf.Props.C93_text_determined",
    "Bnf.Props.C93_round_trip",
    "Bnf.Props.C93_injective",
    "Bnf.Props.C93_parts",
    "Bnf.Props.C93_determined",
    "Bnf.Props.C93_unchecked",
    "Bnf.Props.C93_keeps"
   ],
   "note": ""
  },
  {
   "property": "C94",
   "status": "proved",
   "theorems": [
    "Bnf.Props.C94_to_string_and_back",
    "Bnf.Props.C94_generator_exact",
    "Bnf.Props.C94_generated_grammars"
   ],
   "note": ""
  },
  {
   "property": "C95",
   "status": "proved",
   "theorems": [
    "Bnf.Props.C95_undefined",
    "Bnf.Props.C95_layered_parses",
    "Bnf.Props.C95_order_independent",
    "Bnf.Props.C95_collects_unique",
    "Bnf.Props.C95_reusable",
    "Bnf.Props.C95_flat_trees",
    "Bnf.Props.C95_empty_insertion",
    "Bnf.Props.C95_empty_rules"
   ],
   "note": ""
  },
  {
   "property": "C96",
   "status": "proved",
   "theorems": [
    "Bnf.Props.C96_grammars",
    "Bnf.Props.C96_passes_iff",
    "Bnf.Props.C96_cut_witness",
    "Bnf.Props.C96_all_lengths"
   ],
   "note": ""
  },
  {
   "property": "C97",
   "status": "proved",
   "theorems": [
    "Bnf.Props.C97_escape_round_trip",
    "Bnf.Props.C97_well_formed",
    "Bnf.Props.C97_parsed",
    "Bnf.Props.C97_single_node"
   ],
   "note": ""
  },
  {
   "property": "C98",
   "status": "proved",
   "theorems": [
    "Bnf.Props.C98_sequences",
    "Bnf.Props.C98_sums",
    "Bnf.Props.C98_sum_witness",
    "Bnf.Props.C98_change_in_place",
    "Bnf.Props.C98_add_alternative",
    "Bnf.Props.C98_old_results_kept",
    "Bnf.Props.C98_undo",
    "Bnf.Props.C98_remove_alternative",
    "Bnf.Props.C98_constructors"
   ],
   "note": ""
  },
  {
   "property": "C99",
   "status": "proved",
   "theorems": [
    "Bnf.Props.C99_conservative",
    "Bnf.Props.C99_exact",
    "Bnf.Props.C99_same_on_bnf",
    "Bnf.Props.C99_other_texts",
    "Bnf.Props.C99_two_kinds"
   ],
   "note": ""
  },
  {
   "property": "C100",
   "status": "proved",
   "theorems": [
    "Bnf.Props.C100_random_walk",
    "Bnf.Props.C100_depth_bounded",
    "Bnf.Props.C100_coverage_guided",
    "Bnf.Props.C100_weighted",
    "Bnf.Props.C100_constructors"
   ],
   "note": ""
  },
  {
   "property": "C101",
   "status": "proved",
   "theorems": [
    "Bnf.Props.C101_own",
    "Bnf.Props.C101_others",
    "Bnf.Props.C101_fresh",
    "Bnf.Props.C101_reused_memory"
   ],
   "note": ""
  },
  {
   "property": "C102",
   "status": "proved",
   "theorems": [
    "Bnf.Props.C102_least_solution",
    "Bnf.Props.C102_ends",
    "Bnf.Props.C102_ends_weighted",
    "Bnf.Props.C102_ends_depth_bounded",
    "Bnf.Props.C102_goes_on",
    "Bnf.Props.C102_goes_on_weighted",
    "Bnf.Props.C102_single",
    "Bnf.Props.C102_polish_bench"
   ],
   "note": ""
  },
  {
   "property": "C103",
   "status": "proved",
   "theorems": [
    "Bnf.Props.C103_well_defined",
    "Bnf.Props.C103_at_most",
    "Bnf.Props.C103_at_most_weighted",
    "Bnf.Props.C103_exact",
    "Bnf.Props.C103_unbounded",
    "Bnf.Props.C103_polish_bench",
    "Bnf.Props.C103_dna"
   ],
   "note": ""
  },
  {
   "property": "C104",
   "status": "proved",
   "theorems": [
    "Bnf.Props.C104_chances",
    "Bnf.Props.C104_well_defined",
    "Bnf.Props.C104_expansion",
    "Bnf.Props.C104_whole_sentences",
    "Bnf.Props.C104_ends",
    "Bnf.Props.C104_local_witness"
   ],
   "note": ""
  },
  {
   "property": "C105",
   "status": "proved",
   "theorems": [
    "Bnf.Props.C105_counted",
    "Bnf.Props.C105_counted_round",
    "Bnf.Props.C105_counted_tree",
    "Bnf.Props.C105_drains",
    "Bnf.Props.C105_rounds",
    "Bnf.Props.C105_exact",
    "Bnf.Props.C105_bound",
    "Bnf.Props.C105_quadratic",
    "Bnf.Props.C105_flat"
   ],
   "note": ""
  },
  {
   "property": "C106",
   "status": "proved",
   "theorems": [
    "Bnf.Props.C106_no_lookahead",
    "Bnf.Props.C106_ends_prefix",
    "Bnf.Props.C106_prefix",
    "Bnf.Props.C106_prefix_exact",
    "Bnf.Props.C106_ends_smaller",
    "Bnf.Props.C106_smaller",
    "Bnf.Props.C106_trees"
   ],
   "note": ""
  },
  {
   "property": "C107",
   "status": "proved",
   "theorems": [
    "Bnf.Props.C107_random_walk",
    "Bnf.Props.C107_depth_bounded",
    "Bnf.Props.C107_weighted",
    "Bnf.Props.C107_repeated",
    "Bnf.Props.C107_enough_room",
    "Bnf.Props.C107_unambiguous",
    "Bnf.Props.C107_so_far",
    "Bnf.Props.C107_undeclared_witness"
   ],
   "note": ""
  },
  {
   "property": "C108",
   "status": "proved",
   "theorems": [
    "Bnf.Props.C108_reprint_iff",
    "Bnf.Props.C108_misread_witness",
    "Bnf.Props.C108_writable_iff",
    "Bnf.Props.C108_written",
    "Bnf.Props.C108_there_and_back",
    "Bnf.Props.C108_generated_names"
   ],
   "note": ""
  },
  {
   "property": "C109",
   "status": "proved",
   "theorems": [
    "Bnf.Props.C109_same_runs",
    "Bnf.Props.C109_same_sentence",
    "Bnf.Props.C109_same_chance",
    "Bnf.Props.C109_close",
    "Bnf.Props.C109_smaller_bound",
    "Bnf.Props.C109_any_bound",
    "Bnf.Props.C109_scaled_weights",
    "Bnf.Props.C109_equal_weights",
    "Bnf.Props.C109_weights",
    "Bnf.Props.C109_compared_to_random_walk",
    "Bnf.Props.C109_strict_witness",
    "Bnf.Props.C109_gap_witness"
   ],
   "note": ""
  },
  {
   "property": "C110",
   "status": "proved",
   "theorems": [
    "Bnf.Props.C110_reading",
    "Bnf.Props.C110_bound",
    "Bnf.Props.C110_long_is_deep",
    "Bnf.Props.C110_generating",
    "Bnf.Props.C110_generating_bound",
    "Bnf.Props.C110_reading_bound",
    "Bnf.Props.C110_linear_witness",
    "Bnf.Props.C110_cyclic_witness"
   ],
   "note": ""
  },
  {
   "property": "C111",
   "status": "proved",
   "theorems": [
    "Bnf.Props.C111_random_walk",
    "Bnf.Props.C111_depth_bounded",
    "Bnf.Props.C111_weighted",
    "Bnf.Props.C111_limit",
    "Bnf.Props.C111_sentences",
    "Bnf.Props.C111_proper",
    "Bnf.Props.C111_exhausted",
    "Bnf.Props.C111_infinite_witness"
   ],
   "note": ""
  },
  {
   "property": "C112",
   "status": "proved",
   "theorems": [
    "Bnf.Props.C112_opening",
    "Bnf.Props.C112_parsing",
    "Bnf.Props.C112_parsing_needs",
    "Bnf.Props.C112_reading",
    "Bnf.Props.C112_reading_exact",
    "Bnf.Props.C112_display",
    "Bnf.Props.C112_mermaid",
    "Bnf.Props.C112_generating",
    "Bnf.Props.C112_depths"
   ],
   "note": ""
  },
  {
   "property": "C113",
   "status": "proved",
   "theorems": [
    "Bnf.Props.C113_texts",
    "Bnf.Props.C113_ends",
    "Bnf.Props.C113_dna_right",
    "Bnf.Props.C113_dna_left",
    "Bnf.Props.C113_empty_right",
    "Bnf.Props.C113_empty_left",
    "Bnf.Props.C113_nested_infinite",
    "Bnf.Props.C113_noop_infinite",
    "Bnf.Props.C113_first_nested",
    "Bnf.Props.C113_branching",
    "Bnf.Props.C113_ambiguous",
    "Bnf.Props.C113_empty_ambiguous",
    "Bnf.Props.C113_one_text",
    "Bnf.Props.C113_shared",
    "Bnf.Props.C113_math",
    "Bnf.Props.C113_polish"
   ],
   "note": ""
  },
  {
   "property": "C114",
   "status": "proved",
   "theorems": [
    "Bnf.Props.C114_at_most",
    "Bnf.Props.C114_bounded",
    "Bnf.Props.C114_at_least",
    "Bnf.Props.C114_polynomial_iff",
    "Bnf.Props.C114_exponential_witness"
   ],
   "note": ""
  },
  {
   "property": "C115",
   "status": "proved",
   "theorems": [
    "Bnf.Props.C115_compact",
    "Bnf.Props.C115_compact_parts",
    "Bnf.Props.C115_pretty",
    "Bnf.Props.C115_pretty_parts",
    "Bnf.Props.C115_shortest"
   ],
   "note": ""
  },
  {
   "property": "C116",
   "status": "proved",
   "theorems": [
    "Bnf.Props.C116_text",
    "Bnf.Props.C116_parsing",
    "Bnf.Props.C116_trees",
    "Bnf.Props.C116_generating",
    "Bnf.Props.C116_expected",
    "Bnf.Props.C116_mean"
   ],
   "note": ""
  },
  {
   "property": "C117",
   "status": "proved",
   "theorems": [
    "Bnf.Props.C117_chance",
    "Bnf.Props.C117_all_used",
    "Bnf.Props.C117_ends",
    "Bnf.Props.C117_postal",
    "Bnf.Props.C117_polish",
    "Bnf.Props.C117_witness"
   ],
   "note": ""
  },
  {
   "property": "C118",
   "status": "proved",
   "theorems": [
    "Bnf.Props.C118_text",
    "Bnf.Props.C118_injective",
    "Bnf.Props.C118_one_line",
    "Bnf.Props.C118_message"
   ],
   "note": ""
  },
  {
   "property": "C119",
   "status": "proved",
   "theorems": [
    "Bnf.Props.C119_parts",
    "Bnf.Props.C119_either",
    "Bnf.Props.C119_followed",
    "Bnf.Props.C119_repeated",
    "Bnf.Props.C119_languages",
    "Bnf.Props.C119_build_parser",
    "Bnf.Props.C119_example"
   ],
   "note": ""
  },
  {
   "property": "C120",
   "status": "proved",
   "theorems": [
    "Bnf.Props.C120_exact",
    "Bnf.Props.C120_bounds",
    "Bnf.Props.C120_mermaid",
    "Bnf.Props.C120_dna"
   ],
   "note": ""
  },
  {
   "property": "C121",
   "status": "proved",
   "theorems": [
    "Bnf.Props.C121_well_defined",
    "Bnf.Props.C121_independent",
    "Bnf.Props.C121_waiting",
    "Bnf.Props.C121_random_walk_covers",
    "Bnf.Props.C121_coverage_covers"
   ],
   "note": ""
  },
  {
   "property": "C122",
   "status": "proved",
   "theorems": [
    "Bnf.Props.C122_total",
    "Bnf.Props.C122_sound",
    "Bnf.Props.C122_exact",
    "Bnf.Props.C122_unambiguous",
    "Bnf.Props.C122_error",
    "Bnf.Props.C122_start_char",
    "Bnf.Props.C122_fast_path",
    "Bnf.Props.C122_nothing",
    "Bnf.Props.C122_one_alternative",
    "Bnf.Props.C122_reprint",
    "Bnf.Props.C122_writable_iff",
    "Bnf.Props.C122_written",
    "Bnf.Props.C122_translate",
    "Bnf.Props.C122_bracket_witness",
    "Bnf.Props.C122_rejected_witness",
    "Bnf.Props.C122_ambiguous_witness"
   ],
   "note": ""
  },
  {
   "property": "C123",
   "status": "proved",
   "theorems": [
    "Bnf.Props.C123_lines",
    "Bnf.Props.C123_accepted",
    "Bnf.Props.C123_productions",
    "Bnf.Props.C123_many",
    "Bnf.Props.C123_meaning",
    "Bnf.Props.C123_trailing",
    "Bnf.Props.C123_semicolon",
    "Bnf.Props.C123_spaced_semicolon",
    "Bnf.Props.C123_abnf_name",
    "Bnf.Props.C123_lost_witness",
    "Bnf.Props.C123_continuation_witness",
    "Bnf.Props.C123_comment_witness"
   ],
   "note": ""
  },
  {
   "property": "C124",
   "status": "proved",
   "theorems": [
    "Bnf.Props.C124_pumping",
    "Bnf.Props.C124_derivations",
    "Bnf.Props.C124_lengths",
    "Bnf.Props.C124_shortest",
    "Bnf.Props.C124_unlimited_iff",
    "Bnf.Props.C124_infinite_iff",
    "Bnf.Props.C124_three",
    "Bnf.Props.C124_three_parser",
    "Bnf.Props.C124_squares",
    "Bnf.Props.C124_both",
    "Bnf.Props.C124_both_texts"
   ],
   "note": ""
  },
  {
   "property": "C125",
   "status": "proved",
   "theorems": [
    "Bnf.Props.C125_characters",
    "Bnf.Props.C125_nothing_skipped",
    "Bnf.Props.C125_without_parentheses",
    "Bnf.Props.C125_with_parentheses",
    "Bnf.Props.C125_optional",
    "Bnf.Props.C125_long_form",
    "Bnf.Props.C125_one_terminal",
    "Bnf.Props.C125_readme_loose",
    "Bnf.Props.C125_readme_tight",
    "Bnf.Props.C125_readme_word",
    "Bnf.Props.C125_readme_blank"
   ],
   "note": ""
  },
  {
   "property": "C126",
   "status": "proved",
   "theorems": [
    "Bnf.Props.C126_loop",
    "Bnf.Props.C126_substitution",
    "Bnf.Props.C126_trees",
    "Bnf.Props.C126_returned",
    "Bnf.Props.C126_characters",
    "Bnf.Props.C126_same_answers",
    "Bnf.Props.C126_test",
    "Bnf.Props.C126_not_separate_witness"
   ],
   "note": ""
  },
  {
   "property": "C127",
   "status": "proved",
   "theorems": [
    "Bnf.Props.C127_no_groups",
    "Bnf.Props.C127_characters",
    "Bnf.Props.C127_brackets",
    "Bnf.Props.C127_generated",
    "Bnf.Props.C127_underscore",
    "Bnf.Props.C127_doc_example",
    "Bnf.Props.C127_terminal_witness"
   ],
   "note": ""
  },
  {
   "property": "C128",
   "status": "proved",
   "theorems": [
    "Bnf.Props.C128_kinds",
    "Bnf.Props.C128_display",
    "Bnf.Props.C128_debug",
    "Bnf.Props.C128_lines"
   ],
   "note": ""
  },
  {
   "property": "C129",
   "status": "proved",
   "theorems": [
    "Bnf.Props.C129_automaton",
    "Bnf.Props.C129_regular"
   ],
   "note": ""
  },
  {
   "property": "C130",
   "status": "proved",
   "theorems": [
    "Bnf.Props.C130_rounds",
    "Bnf.Props.C130_work",
    "Bnf.Props.C130_marked",
    "Bnf.Props.C130_polish"
   ],
   "note": ""
  },
  {
   "property": "C131",
   "status": "proved",
   "theorems": [
    "Bnf.Props.C131_redundant",
    "Bnf.Props.C131_self",
    "Bnf.Props.C131_inline",
    "Bnf.Props.C131_direction",
    "Bnf.Props.C131_direction_matters"
   ],
   "note": ""
  },
  {
   "property": "C132",
   "status": "proved",
   "theorems": [
    "Bnf.Props.C132_trees",
    "Bnf.Props.C132_rounds",
    "Bnf.Props.C132_memory",
    "Bnf.Props.C132_ambiguity",
    "Bnf.Props.C132_work",
    "Bnf.Props.C132_tight"
   ],
   "note": ""
  },
  {
   "property": "C133",
   "status": "proved",
   "theorems": [
    "Bnf.Props.C133_equal",
    "Bnf.Props.C133_chars",
    "Bnf.Props.C133_get",
    "Bnf.Props.C133_starts_with",
    "Bnf.Props.C133_find",
    "Bnf.Props.C133_text",
    "Bnf.Props.C133_parsing",
    "Bnf.Props.C133_insert"
   ],
   "note": ""
  },
  {
   "property": "C134",
   "status": "proved",
   "theorems": [
    "Bnf.Props.C134_list",
    "Bnf.Props.C134_rounds",
    "Bnf.Props.C134_unending",
    "Bnf.Props.C134_progress",
    "Bnf.Props.C134_no_check",
    "Bnf.Props.C134_text",
    "Bnf.Props.C134_vec",
    "Bnf.Props.C134_vec_returned",
    "Bnf.Props.C134_vec_stable"
   ],
   "note": ""
  },
  {
   "property": "C135",
   "status": "proved",
   "theorems": [
    "Bnf.Props.C135_edit",
    "Bnf.Props.C135_nowhere",
    "Bnf.Props.C135_elsewhere",
    "Bnf.Props.C135_order",
    "Bnf.Props.C135_twice",
    "Bnf.Props.C135_text",
    "Bnf.Props.C135_valid_iff",
    "Bnf.Props.C135_parsed",
    "Bnf.Props.C135_mermaid",
    "Bnf.Props.C135_lhs",
    "Bnf.Props.C135_unchecked_witness"
   ],
   "note": ""
  },
  {
   "property": "C136",
   "status": "proved",
   "theorems": [
    "Bnf.Props.C136_ok",
    "Bnf.Props.C136_complete",
    "Bnf.Props.C136_rejected",
    "Bnf.Props.C136_rest",
    "Bnf.Props.C136_rest_witness"
   ],
   "note": ""
  }
 ]
}