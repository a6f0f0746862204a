{
 "claims": [
  {
   "property": "C01",
   "status": "proved",
   "theorems": [
    "Ere.Props.C01_atom_ranges_exact",
    "Ere.Props.C01_serialize_check"
   ],
   "note": "every atom and character, including reversed ranges; also the emitted check expression"
  },
  {
   "property": "C02",
   "status": "proved",
   "theorems": [
    "Ere.Props.C02_class_tables"
   ],
   "note": "all twelve classes, all characters"
  },
  {
   "property": "C03",
   "status": "partial",
   "theorems": [
    "Ere.Props.C03_atom_eq_sound",
    "Ere.Props.C03_atom_eq_complete_partial",
    "Ere.Props.C03_atom_eq_semantic_false"
   ],
   "note": "soundness is proved for all atoms; completeness only without reversed ranges (with them it is false: witness [b-a] vs [c-a])"
  },
  {
   "property": "C04",
   "status": "partial",
   "theorems": [
    "Ere.Props.C04_ranges_minimal_partial",
    "Ere.Props.C04_ranges_minimal_false",
    "Ere.Props.C04_ranges_overlap_witness"
   ],
   "note": "proved for atoms without reversed ranges; false with them (witnesses)"
  },
  {
   "property": "C05",
   "status": "proved",
   "theorems": [
    "Ere.Props.C05_parser_total"
   ],
   "note": "stack overflow of the recursion is outside the model"
  },
  {
   "property": "C06",
   "status": "proved",
   "theorems": [
    "Ere.Props.C06_print_parse",
    "Ere.Props.C06_print_parse_atom"
   ],
   "note": ""
  },
  {
   "property": "C07",
   "status": "partial",
   "theorems": [
    "Ere.Props.C07_negation",
    "Ere.Props.C07_one_error_partial"
   ],
   "note": "false: parse_str reports InvalidAtom(')') for every rejected pattern (proved exactly)"
  },
  {
   "property": "C08",
   "status": "proved",
   "theorems": [
    "Ere.Props.C08_quantifier_counts",
    "Ere.Props.C08_quantifier_table"
   ],
   "note": ""
  },
  {
   "property": "C09",
   "status": "proved",
   "theorems": [
    "Ere.Props.C09_tree_eq_pattern"
   ],
   "note": ""
  },
  {
   "property": "C10",
   "status": "proved",
   "theorems": [
    "Ere.Props.C10_max_bytes",
    "Ere.Props.C10_atom_max_bytes"
   ],
   "note": ""
  },
  {
   "property": "C11",
   "status": "partial",
   "theorems": [
    "Ere.Props.C11_min_bytes_partial",
    "Ere.Props.C11_atom_min_bytes",
    "Ere.Props.C11_min_bytes_false",
    "Ere.Props.C11_min_bytes_false_pattern"
   ],
   "note": "false for x? and x{n,m} (witness a?); proved for trees without such nodes and for single atoms"
  },
  {
   "property": "C12",
   "status": "proved",
   "theorems": [
    "Ere.Props.C12_build_correct",
    "Ere.Props.C12_build_wf"
   ],
   "note": ""
  },
  {
   "property": "C13",
   "status": "proved",
   "theorems": [
    "Ere.Props.C13_clean_anchors",
    "Ere.Props.C13_clear_zero_symbol",
    "Ere.Props.C13_optimize_pass",
    "Ere.Props.C13_remove_unreachable",
    "Ere.Props.C13_ranked",
    "Ere.Props.C13_optimisation_exact",
    "Ere.Props.C13_compiled_captures"
   ],
   "note": "each pass for generic automata (characters and bytes), and the whole pipeline for every pattern"
  },
  {
   "property": "C14",
   "status": "proved",
   "theorems": [
    "Ere.Props.C14_optimize_terminates",
    "Ere.Props.C14_patterns"
   ],
   "note": "for every automaton without dangling edges and without cycles of plain epsilons; every pattern gives such an automaton"
  },
  {
   "property": "C15",
   "status": "proved",
   "theorems": [
    "Ere.Props.C15_test_eq_search",
    "Ere.Props.C15_test_or_empty",
    "Ere.Props.C15_test_panics_on_unmatchable"
   ],
   "note": "the claim quantifies over patterns with at least one possible match; the remaining patterns are treated in the other two theorems"
  },
  {
   "property": "C16",
   "status": "proved",
   "theorems": [
    "Ere.Props.C16_byte_runs",
    "Ere.Props.C16_byte_eq_char",
    "Ere.Props.C16_byte_test",
    "Ere.Props.C16_exists",
    "Ere.Props.C16_crate_contract"
   ],
   "note": "whenever the byte automaton is built (when that is: C16_exists, C17); the external crate utf8_ranges enters as a contract, which is also proved for an implementation"
  },
  {
   "property": "C17",
   "status": "partial",
   "theorems": [
    "Ere.Props.C17_compile_returns_partial",
    "Ere.Props.C17_pick_returns_iff",
    "Ere.Props.C17_framed_returns_iff",
    "Ere.Props.C17_negation",
    "Ere.Props.C17_flat_returns",
    "Ere.Props.C17_dfa_returns",
    "Ere.Props.C17_one_pass_returns"
   ],
   "note": "false: a{2,1}, a^b, [b-a] make the macro panic; proved for patterns that match some text, an exact criterion on the automaton, and for patterns with anchors only around the branches the exact criterion that some text matches"
  },
  {
   "property": "C18",
   "status": "proved",
   "theorems": [
    "Ere.Props.C18_flat_char_test"
   ],
   "note": "for every pattern for which the macro returns a program (when that is: C17)"
  },
  {
   "property": "C19",
   "status": "proved",
   "theorems": [
    "Ere.Props.C19_flat_u8_test"
   ],
   "note": "for every pattern for which the macro returns a program (when that is: C17)"
  },
  {
   "property": "C20",
   "status": "partial",
   "theorems": [
    "Ere.Props.C20_dfa_test_partial",
    "Ere.Props.C20_dfa_no_end_partial",
    "Ere.Props.C20_dfa_test_negation",
    "Ere.Props.C20_dfa_complete_partial"
   ],
   "note": "false: for (^|b)$ the DFA engine accepts x; proved for patterns without ^, for patterns like ^a* in which every way through crosses a ^ with none after it, for patterns without $, and for patterns that do not match the empty text; for every pattern, every text that matches is found"
  },
  {
   "property": "C21",
   "status": "proved",
   "theorems": [
    "Ere.Props.C21_one_pass_test"
   ],
   "note": "whenever the emitted program compiles (C39)"
  },
  {
   "property": "C22",
   "status": "partial",
   "theorems": [
    "Ere.Props.C23_fixed_exec",
    "Ere.Props.C22_exec_some_iff",
    "Ere.Props.C23_flat_char_exec",
    "Ere.Props.C23_flat_u8_exec",
    "Ere.Props.C23_one_pass_exec",
    "Ere.Props.C23_dfa_exec_partial",
    "Ere.Props.C18_flat_char_test",
    "Ere.Props.C19_flat_u8_test",
    "Ere.Props.C22_negation",
    "Ere.Props.C20_dfa_complete_partial",
    "Ere.Props.C20_dfa_no_end_partial",
    "Ere.Props.C41_test_partial"
   ],
   "note": "both flat engines, and the DFA engine for patterns without ^, with every branch crossing a last ^ first, or not matching the empty text, the one-pass engine whenever its program compiles, the fixed-offset wrapper for any inner engine whose test is right; the DFA engine is wrong for some of the other patterns: ^(a|$)(^|b) on ac; for every pattern, every matching text is found"
  },
  {
   "property": "C23",
   "status": "partial",
   "theorems": [
    "Ere.Props.C23_fixed_exec",
    "Ere.Props.C23_flat_char_exec",
    "Ere.Props.C23_flat_u8_exec",
    "Ere.Props.C23_one_pass_exec",
    "Ere.Props.C23_dfa_exec_partial",
    "Ere.Props.C23_negation",
    "Ere.Props.C23_no_end_negation",
    "Ere.Props.C23_dfa_late_partial"
   ],
   "note": "both flat engines, and the DFA engine for patterns without ^, with every branch crossing a last ^ first, or not matching the empty text, the one-pass engine whenever its program compiles, the fixed-offset wrapper for any inner engine whose test is right; the DFA engine is wrong for some of the other patterns: (^|b)$ on x; for every pattern, every matching text is found and a wrong report is a match of the pattern without ^ that ends at the end of the text"
  },
  {
   "property": "C24",
   "status": "proved",
   "theorems": [
    "Ere.Props.C24_compile_regex",
    "Ere.Props.C24_dfa",
    "Ere.Props.C24_exec_slices",
    "Ere.Props.C45_attribute_fields",
    "Ere.Props.C23_flat_char_exec",
    "Ere.Props.C23_flat_u8_exec",
    "Ere.Props.C23_one_pass_exec",
    "Ere.Props.C41_fixed_offset"
   ],
   "note": "every engine, every pattern and text, compile_regex! and the attribute macro, also where the DFA engine reports a wrong match; the only condition is that the emitted program compiles"
  },
  {
   "property": "C25",
   "status": "partial",
   "theorems": [
    "Ere.Props.C23_fixed_exec",
    "Ere.Props.C25_exec_group0",
    "Ere.Props.C23_flat_char_exec",
    "Ere.Props.C23_flat_u8_exec",
    "Ere.Props.C23_one_pass_exec",
    "Ere.Props.C23_dfa_exec_partial",
    "Ere.Props.C23_negation",
    "Ere.Props.C23_dfa_late_partial"
   ],
   "note": "both flat engines, and the DFA engine for patterns without ^, with every branch crossing a last ^ first, or not matching the empty text, the one-pass engine whenever its program compiles, the fixed-offset wrapper for any inner engine whose test is right; the DFA engine is wrong for some of the other patterns: (^|b)$ on x; for every pattern, every matching text is found and a wrong report is a match of the pattern without ^ that ends at the end of the text"
  },
  {
   "property": "C26",
   "status": "proved",
   "theorems": [
    "Ere.Props.C26_flat_char",
    "Ere.Props.C26_flat_u8",
    "Ere.Props.C26_dfa",
    "Ere.Props.C26_one_pass",
    "Ere.Props.C26_compile_regex",
    "Ere.Props.C26_attribute"
   ],
   "note": "for every pattern and text, all engines, compile_regex! and the attribute macro; no condition other than that the emitted program compiles"
  },
  {
   "property": "C27",
   "status": "partial",
   "theorems": [
    "Ere.Props.C27_flat_agree_partial",
    "Ere.Props.C27_dfa_flat_agree_partial",
    "Ere.Props.C27_one_pass_flat_agree_partial",
    "Ere.Props.C27_one_pass_dfa_agree_partial",
    "Ere.Props.C27_negation",
    "Ere.Props.C27_negation_whole",
    "Ere.Props.C46_one_pass_negation"
   ],
   "note": "all engines agree under their conditions of C46; false in general: on (()|(^))a the DFA engine and the flat engines report different groups (C27_negation), on ^a+(|())$ the one-pass engine and the others (C46_one_pass_negation)"
  },
  {
   "property": "C28",
   "status": "proved",
   "theorems": [
    "Ere.Props.C28_mandatory_groups",
    "Ere.Props.C28_expect_never_fires",
    "Ere.Props.C28_dfa",
    "Ere.Props.C28_compile_regex"
   ],
   "note": "for every pattern and text, every engine, also where the DFA engine reports a wrong match"
  },
  {
   "property": "C29",
   "status": "partial",
   "theorems": [
    "Ere.Props.C29_groups_bound",
    "Ere.Props.C29_dfa_bound",
    "Ere.Props.C29_groups_exact_partial",
    "Ere.Props.C29_dfa_exact_partial",
    "Ere.Props.C29_compile_regex_partial",
    "Ere.Props.C29_negation",
    "Ere.Props.C29_dfa_negation"
   ],
   "note": "false for groups that cannot take part ((a){0}b) and for the DFA engine (|()); the upper bound always holds; equality if some match captures the last group (for the DFA engine, and so for compile_regex!: if some preferred match does)"
  },
  {
   "property": "C30",
   "status": "proved",
   "theorems": [
    "Ere.Props.C30_flat_slots",
    "Ere.Props.C30_dfa_slots",
    "Ere.Props.C30_one_pass_slots"
   ],
   "note": "every engine that writes slots through tags; for every pattern for which the macro returns a program"
  },
  {
   "property": "C31",
   "status": "proved",
   "theorems": [
    "Ere.Props.C31_fixed_offsets",
    "Ere.Props.C31_fixed_offsets_analysis",
    "Ere.Props.C23_fixed_exec"
   ],
   "note": ""
  },
  {
   "property": "C32",
   "status": "proved",
   "theorems": [
    "Ere.Props.C32_determinise"
   ],
   "note": "result independent of the bound, None exactly when it does not fit"
  },
  {
   "property": "C33",
   "status": "proved",
   "theorems": [
    "Ere.Props.C33_minimise"
   ],
   "note": "for every DFA with disjoint sorted ranges (what validate checks)"
  },
  {
   "property": "C34",
   "status": "proved",
   "theorems": [
    "Ere.Props.C34_split_ranges"
   ],
   "note": ""
  },
  {
   "property": "C35",
   "status": "proved",
   "theorems": [
    "Ere.Props.C35_topological_order"
   ],
   "note": ""
  },
  {
   "property": "C36",
   "status": "proved",
   "theorems": [
    "Ere.Props.C36_epsilon_closure"
   ],
   "note": ""
  },
  {
   "property": "C37",
   "status": "proved",
   "theorems": [
    "Ere.Props.C37_lazy_irrelevant"
   ],
   "note": "for the character automaton's test; the engines' tests are related to it by C18-C21"
  },
  {
   "property": "C38",
   "status": "partial",
   "theorems": [
    "Ere.Props.C38_atom_tokens",
    "Ere.Props.C38_negation",
    "Ere.Props.C38_flat_char_compiles_partial"
   ],
   "note": "false: the tokens for [:graph:] and [:xdigit:] name items that do not exist; every other atom's tokens are proved to denote the same atom, and the flat character engine to compile for patterns without these two classes"
  },
  {
   "property": "C39",
   "status": "partial",
   "theorems": [
    "Ere.Props.C39_one_pass_compiles_iff",
    "Ere.Props.C39_framed_compiles_iff",
    "Ere.Props.C39_no_start_compiles",
    "Ere.Props.C39_unbounded_compiles",
    "Ere.Props.C39_one_pass_compiles_partial",
    "Ere.Props.C39_negation"
   ],
   "note": "false: ^a*$ uses a variable out of scope, ^(|())$ emits compile_error; exact characterisation on the automaton proved, and one on the pattern for patterns with anchors only around the branches (Spec/Framed); patterns without ^ and patterns of unbounded length that do not match the empty text always compile"
  },
  {
   "property": "C40",
   "status": "proved",
   "theorems": [
    "Ere.Props.C40_nfa_static",
    "Ere.Props.C40_compiles_iff"
   ],
   "note": "for every pattern whose tokens compile; C40_compiles_iff says exactly when they do (the serialiser is crate-private and not used by the macros)"
  },
  {
   "property": "C41",
   "status": "partial",
   "theorems": [
    "Ere.Props.C41_choice_invisible_partial",
    "Ere.Props.C41_compile_regex_partial",
    "Ere.Props.C41_fixed_offset",
    "Ere.Props.C41_negation",
    "Ere.Props.C41_late_partial",
    "Ere.Props.C41_test_partial"
   ],
   "note": "false for patterns where the DFA engine is wrong ((^|b)$); proved for patterns without ^, patterns like ^a* in which every way through crosses a ^ with none after it, and patterns not matching the empty text, for all four engines and compile_regex from the pattern string on; that something is found is right also for patterns without $; the fixed-offset engine is right for every pattern; for every pattern, every matching text is found and a wrong report is a match of the pattern without ^ that ends at the end of the text"
  },
  {
   "property": "C42",
   "status": "proved",
   "theorems": [
    "Ere.Props.C42_escape",
    "Ere.Props.C42_backslash"
   ],
   "note": ""
  },
  {
   "property": "C43",
   "status": "proved",
   "theorems": [
    "Ere.Props.C43_parser_grammar",
    "Ere.Props.C43_unambiguous",
    "Ere.Props.C43_atom_from_str"
   ],
   "note": ""
  },
  {
   "property": "C44",
   "status": "partial",
   "theorems": [
    "Ere.Props.C44_attribute_compiles_partial",
    "Ere.Props.C44_negation"
   ],
   "note": "false: for |() the macro declares two fields but the DFA engine has one group; proved for patterns whose last group takes part in the preferred match of some text (whose unbounded repetitions consume, and which if the engine is a DFA have no ^, or lead with it, or do not match the empty text)"
  },
  {
   "property": "C45",
   "status": "partial",
   "theorems": [
    "Ere.Props.C45_same_program",
    "Ere.Props.C45_attribute_fields",
    "Ere.Props.C45_attribute_partial",
    "Ere.Props.C45_negation"
   ],
   "note": "that exec never panics and returns what the engine returns, field by field, holds for every pattern; that it is None exactly if the text does not match is false for (^|b)$ on x (the DFA engine is wrong there, C20), and proved if the engine is not a DFA without fixed offsets, or the pattern has no ^, crosses a last ^ first in every branch, or does not match the empty text"
  },
  {
   "property": "C46",
   "status": "partial",
   "theorems": [
    "Ere.Props.C46_attribute_partial",
    "Ere.Props.C46_decided",
    "Ere.Props.C46_first_sound",
    "Ere.Props.C46_flat_char_partial",
    "Ere.Props.C46_flat_u8_partial",
    "Ere.Props.C46_dfa_partial",
    "Ere.Props.C46_one_pass_partial",
    "Ere.Props.C46_fixed_partial",
    "Ere.Props.C46_compile_regex_partial",
    "Ere.Props.C46_negation",
    "Ere.Props.C46_one_pass_negation"
   ],
   "note": "every engine reports the match preferred by an independent backtracking specification, for patterns whose unbounded repetitions consume at least a character per round, and: flat engines, if all ways through cross the same anchors; DFA engine, under the condition of C20; one-pass engine, if the program compiles and no state has two final arms or the pattern has no $ (then the text determines the captures). Without these conditions it is false (C46_negation, C46_one_pass_negation)"
  },
  {
   "property": "C47",
   "status": "proved",
   "theorems": [
    "Ere.Props.C47_draw_char",
    "Ere.Props.C47_draw_byte",
    "Ere.Props.C47_draw_tdfa",
    "Ere.Props.C47_draw_dfa",
    "Ere.Props.C47_pattern_char",
    "Ere.Props.C47_pattern_byte",
    "Ere.Props.C47_pattern_dfa",
    "Ere.Props.C47_escape"
   ],
   "note": "the text is read back by an independent reader for this fragment of TikZ; the automata of every pattern meet the condition on targets"
  },
  {
   "property": "C48",
   "status": "proved",
   "theorems": [
    "Ere.Props.C48_determines_byte",
    "Ere.Props.C48_determines_dfa",
    "Ere.Props.C48_tdfa_negation"
   ],
   "note": "for tagged DFAs, which the claim does not include, it is false: tags are not drawn (C48_tdfa_negation)"
  },
  {
   "property": "C49",
   "status": "proved",
   "theorems": [
    "Ere.Props.C49_layout_char",
    "Ere.Props.C49_layout_byte",
    "Ere.Props.C49_layout_tdfa",
    "Ere.Props.C49_layout_dfa"
   ],
   "note": "with C47, which says that computing the drawing terminates without a panic"
  },
  {
   "property": "C50",
   "status": "partial",
   "theorems": [
    "Ere.Props.C50_loops_negation",
    "Ere.Props.C50_loops_partial"
   ],
   "note": "false in the layered layout (DFA of ^a*b$: a straight line from a node to itself); proved for the drawings in a row"
  },
  {
   "property": "C51",
   "status": "proved",
   "theorems": [
    "Ere.Props.C51_linear",
    "Ere.Props.C51_flat_char",
    "Ere.Props.C51_flat_u8",
    "Ere.Props.C51_dfa",
    "Ere.Props.C51_one_pass",
    "Ere.Props.C51_threads",
    "Ere.Props.C51_reads_all"
   ],
   "note": "the counted programs return the same results as the programs (proved); counted are the states, transitions and threads looked at"
  },
  {
   "property": "C52",
   "status": "proved",
   "theorems": [
    "Ere.Props.C52_attribute",
    "Ere.Props.C52_compile_regex",
    "Ere.Props.C52_flat_char",
    "Ere.Props.C52_flat_u8",
    "Ere.Props.C52_one_pass",
    "Ere.Props.C52_dfa",
    "Ere.Props.C52_fixed_offset"
   ],
   "note": "for every pattern, also where the DFA engine is wrong"
  },
  {
   "property": "C53",
   "status": "proved",
   "theorems": [
    "Ere.Props.C53_attribute",
    "Ere.Props.C53_compile_regex",
    "Ere.Props.C53_flat_char",
    "Ere.Props.C53_flat_u8",
    "Ere.Props.C53_one_pass",
    "Ere.Props.C53_dfa"
   ],
   "note": ""
  },
  {
   "property": "C54",
   "status": "partial",
   "theorems": [
    "Ere.Props.C54_laws",
    "Ere.Props.C54_flat_char",
    "Ere.Props.C54_flat_u8",
    "Ere.Props.C54_one_pass",
    "Ere.Props.C54_compile_regex_partial",
    "Ere.Props.C54_negation"
   ],
   "note": "false: ^(a|$)(^|b) and ^a(^|b)|^$(^|b) on a; missing from the partial theorem: patterns for which compile_regex takes a DFA without fixed offsets, that match the empty text, have a $, and have a ^ not crossed first (test of the DFA is wrong there, C20)"
  },
  {
   "property": "C55",
   "status": "partial",
   "theorems": [
    "Ere.Props.C55_attribute_partial",
    "Ere.Props.C55_negation",
    "Ere.Props.C55_compile_regex_partial",
    "Ere.Props.C55_flat_char_partial",
    "Ere.Props.C55_flat_u8_partial",
    "Ere.Props.C55_one_pass_partial",
    "Ere.Props.C55_dfa_partial"
   ],
   "note": "false for repeated groups: ((b)|a)* on ba reports the inner group of the first round before the outer group of the second; proved if no group is repeated"
  },
  {
   "property": "C56",
   "status": "proved",
   "theorems": [
    "Ere.Props.C56_attribute",
    "Ere.Props.C56_compile_regex",
    "Ere.Props.C56_flat_char",
    "Ere.Props.C56_flat_u8",
    "Ere.Props.C56_one_pass",
    "Ere.Props.C56_dfa"
   ],
   "note": "for every pattern, also where the DFA engine is wrong"
  },
  {
   "property": "C57",
   "status": "proved",
   "theorems": [
    "Ere.Props.C57_flat_char",
    "Ere.Props.C57_flat_u8",
    "Ere.Props.C57_flat_u8_crate",
    "Ere.Props.C57_dfa"
   ],
   "note": ""
  },
  {
   "property": "C58",
   "status": "partial",
   "theorems": [
    "Ere.Props.C58_negation",
    "Ere.Props.C58_exponential",
    "Ere.Props.C58_flat_char_partial",
    "Ere.Props.C58_flat_u8_partial"
   ],
   "note": "false: (()|()) written n times needs 2^n thread updates; proved quadratic for a fixed number of groups"
  },
  {
   "property": "C59",
   "status": "partial",
   "theorems": [
    "Ere.Props.C59_negation",
    "Ere.Props.C59_distinct_partial"
   ],
   "note": "false: ^ac*$|^bc*$ has two states that accept the same strings; proved: no two states have the same acceptance and transitions"
  },
  {
   "property": "C60",
   "status": "proved",
   "theorems": [
    "Ere.Props.C60_fixed_offset",
    "Ere.Props.C60_compile_regex"
   ],
   "note": ""
  },
  {
   "property": "C61",
   "status": "proved",
   "theorems": [
    "Ere.Props.C61_documented"
   ],
   "note": "the kind of patterns is defined in Spec/Width"
  },
  {
   "property": "C62",
   "status": "partial",
   "theorems": [
    "Ere.Props.C62_emitted_compiles_partial",
    "Ere.Props.C62_only_one_pass",
    "Ere.Props.C62_framed_compiles_iff",
    "Ere.Props.C62_ascii_compiles_iff",
    "Ere.Props.C62_negation"
   ],
   "note": "false: the programs for ^ and ^[0-9]*$ do not compile; apart from [:graph:] and [:xdigit:] only programs of the one-pass engine fail; proved for patterns without ^ and for patterns that match texts of any length but not the empty text; exact for patterns with anchors only around the branches (Spec/Framed), also with these classes if the pattern matches only ASCII texts"
  },
  {
   "property": "C63",
   "status": "proved",
   "theorems": [
    "Ere.Props.C63_accepted",
    "Ere.Props.C63_framed_iff",
    "Ere.Props.C63_other_anchors"
   ],
   "note": "C63_other_anchors shows that the condition on anchors is needed: ^($|b)(^cc|d)$ only matches bd but is refused"
  },
  {
   "property": "C64",
   "status": "partial",
   "theorems": [
    "Ere.Props.C64_negation",
    "Ere.Props.C64_exponential",
    "Ere.Props.C64_repeated",
    "Ere.Props.C64_digest",
    "Ere.Props.C64_bound",
    "Ere.Props.C64_search_partial"
   ],
   "note": "false: at least 2^n iterations for ^[0-9a-f]{n}$ (2^64 for a SHA-256 digest); no iterations for patterns with infinitely many ways of matching, such as those without ^ or without $; always at most exponential in the number of states"
  },
  {
   "property": "C65",
   "status": "proved",
   "theorems": [
    "Ere.Props.C65_compile_regex",
    "Ere.Props.C65_framed",
    "Ere.Props.C65_framed_determined",
    "Ere.Props.C65_framed_preferred",
    "Ere.Props.C65_attribute"
   ],
   "note": "the preferred match is not claimed for programs of the one-pass engine for patterns with $ whose text does not determine the captures (C46_one_pass_negation)"
  },
  {
   "property": "C66",
   "status": "proved",
   "theorems": [
    "Ere.Props.C66_calls",
    "Ere.Props.C66_stack"
   ],
   "note": ""
  },
  {
   "property": "C67",
   "status": "proved",
   "theorems": [
    "Ere.Props.C67_optional_exact",
    "Ere.Props.C67_fields_exact",
    "Ere.Props.C67_array_exact",
    "Ere.Props.C67_attribute",
    "Ere.Props.C67_negation",
    "Ere.Props.C67_negation_dead",
    "Ere.Props.C67_negation_attribute"
   ],
   "note": "The negations show that neither condition can be dropped. C67_array_exact: the array length of the byte engines other than the DFA; it needs no condition on classes."
  },
  {
   "property": "C68",
   "status": "partial",
   "theorems": [
    "Ere.Props.C68_attribute_partial",
    "Ere.Props.C68_fixed_offset",
    "Ere.Props.C68_compile_regex_partial",
    "Ere.Props.C68_flat_char_partial",
    "Ere.Props.C68_flat_u8_partial",
    "Ere.Props.C68_dfa_partial",
    "Ere.Props.firstOk_cuts",
    "Ere.Props.cuts_alone",
    "Ere.Props.C68_negation",
    "Ere.Props.C68_negation_cuts"
   ],
   "note": "missing: programs of the one-pass engine for patterns with $ but without ^ in which the text does not determine the captures; C68_negation shows that the condition on anchors is needed"
  },
  {
   "property": "C69",
   "status": "partial",
   "theorems": [
    "Ere.Props.C69_attribute_partial",
    "Ere.Props.C69_decided",
    "Ere.Props.C69_fixed_offset",
    "Ere.Props.C69_equivalent",
    "Ere.Props.C69_compile_regex_partial",
    "Ere.Props.C69_same_end_partial",
    "Ere.Props.C69_flat_char_partial",
    "Ere.Props.C69_flat_u8_partial",
    "Ere.Props.C69_dfa_partial",
    "Ere.Props.leftLongest_unique",
    "Ere.Props.C69_negation",
    "Ere.Props.C69_negation_longest"
   ],
   "note": "false in general (C69_negation); proved for steady patterns, for patterns with $ behind every branch, and for patterns with at most one match from each place"
  },
  {
   "property": "C70",
   "status": "partial",
   "theorems": [
    "Ere.Props.C70_perl_sound",
    "Ere.Props.C70_perl_first",
    "Ere.Props.C70_compile_regex_partial",
    "Ere.Props.C70_negation",
    "Ere.Props.C70_negation_longest",
    "Ere.Props.C70_case"
   ],
   "note": "C70_perl_sound: the specification ERE.perl gives a match exactly if there is one, leftmost, for every pattern. C70_perl_first and C70_compile_regex_partial: for patterns in which every round of an unbounded repetition consumes something it is the match of C46, and the emitted program reports it. C70_negation: false for (|a)* on aaa. Missing: which patterns with empty rounds behave as in Perl (C70_case shows one that does)."
  },
  {
   "property": "C71",
   "status": "partial",
   "theorems": [
    "Ere.Props.C71_first",
    "Ere.Props.C71_engines",
    "Ere.Props.C71_flat_char_partial",
    "Ere.Props.C71_flat_u8_partial",
    "Ere.Props.C71_dfa_partial",
    "Ere.Props.C71_one_pass_partial",
    "Ere.Props.C71_compile_regex_partial",
    "Ere.Props.C71_framed_partial",
    "Ere.Props.C46_framed_whole",
    "Ere.Props.C71_negation"
   ],
   "note": "C71_first: the laws keep the preferred match, for all patterns. C71_framed_partial: the programs of compile_regex! report the same whole match for patterns with anchors only around the branches whose unbounded repetitions consume a character per round; no condition on the engines. The other theorems: the same captures, under the conditions of C46. C71_negation: the remaining laws of C54 change what is reported."
  },
  {
   "property": "C72",
   "status": "proved",
   "theorems": [
    "Ere.Props.C72_compile_regex",
    "Ere.Props.C72_flat_char",
    "Ere.Props.C72_flat_u8",
    "Ere.Props.C72_dfa",
    "Ere.Props.C72_attribute",
    "Ere.Props.scans_allFound",
    "Ere.Props.C72_negation"
   ],
   "note": "for patterns without ^, as stated; C72_negation: the condition is needed"
  },
  {
   "property": "C73",
   "status": "partial",
   "theorems": [
    "Ere.Props.C73_one_way",
    "Ere.Props.C73_flat_char",
    "Ere.Props.C73_flat_u8",
    "Ere.Props.C73_one_pass",
    "Ere.Props.C73_dfa_partial",
    "Ere.Props.C73_compile_regex_partial",
    "Ere.Props.C73_attribute_partial",
    "Ere.Props.C73_agree",
    "Ere.Props.C73_lazy",
    "Ere.Props.C46_decided",
    "Ere.Props.C69_decided",
    "Ere.Props.C73_negation"
   ],
   "note": "all engines; for a DFA only if StartSimple holds (no ^, or a last ^ crossed first in every branch, or the empty text is not matched); C73_negation: that condition is needed"
  },
  {
   "property": "C74",
   "status": "partial",
   "theorems": [
    "Ere.Props.C74_parser_partial",
    "Ere.Props.C74_compile_regex_partial",
    "Ere.Props.C74_attribute_partial",
    "Ere.Props.C74_one_reading",
    "Ere.Props.C74_plain_posix",
    "Ere.Props.C74_paren",
    "Ere.Props.C74_collating",
    "Ere.Props.C74_equivalence",
    "Ere.Props.C74_bracket_range",
    "Ere.Props.C74_negation"
   ],
   "note": "all of the POSIX grammar but four constructs that the code rejects or misreads (proved: unmatched ), collating symbols, equivalence classes, ranges that start with ])"
  },
  {
   "property": "C75",
   "status": "proved",
   "theorems": [
    "Ere.Props.C75_classes",
    "Ere.Props.C75_atoms",
    "Ere.Props.C75_emitted"
   ],
   "note": "as stated"
  },
  {
   "property": "C76",
   "status": "proved",
   "theorems": [
    "Ere.Props.C76_meaning",
    "Ere.Props.C76_framed",
    "Ere.Props.C76_compile_regex",
    "Ere.Props.C76_attribute",
    "Ere.Props.C76_flat",
    "Ere.Props.C76_same_language",
    "Ere.Props.C76_rewrite",
    "Ere.Props.C76_case"
   ],
   "note": "as stated, with Mathlib's Language as the specification; if the emitted program compiles (C39, C62)"
  },
  {
   "property": "C77",
   "status": "proved",
   "theorems": [
    "Ere.Props.C77_regular",
    "Ere.Props.C77_not_balanced"
   ],
   "note": "as stated, with Mathlib's Language.IsRegular"
  },
  {
   "property": "C78",
   "status": "proved",
   "theorems": [
    "Ere.Props.C78_meaning",
    "Ere.Props.C78_test",
    "Ere.Props.C78_attribute",
    "Ere.Props.C78_flat",
    "Ere.Props.C78_exec",
    "Ere.Props.C78_letter",
    "Ere.Props.C78_other",
    "Ere.Props.C78_dot",
    "Ere.Props.C78_range",
    "Ere.Props.C78_classes",
    "Ere.Props.C78_case",
    "Ere.Props.C78_upper_negation"
   ],
   "note": "as stated; for compile_regex! with anchors only around the branches and if the emitted programs compile (C39, C62); exec under the conditions of C65_framed_preferred; the condition on upper-case letters is needed (C78_upper_negation)"
  },
  {
   "property": "C79",
   "status": "proved",
   "theorems": [
    "Ere.Props.C79_debug",
    "Ere.Props.C79_attribute",
    "Ere.Props.C79_attribute_model",
    "Ere.Props.C79_optimize",
    "Ere.Props.C79_split",
    "Ere.Props.C79_determinise",
    "Ere.Props.C79_minimise"
   ],
   "note": "as stated, for the debug assertions; the overflow checks of the same profile are not modelled"
  },
  {
   "property": "C80",
   "status": "proved",
   "theorems": [
    "Ere.Props.C80_words",
    "Ere.Props.C80_attribute",
    "Ere.Props.C80_found",
    "Ere.Props.C80_not_found",
    "Ere.Props.C80_test",
    "Ere.Props.C80_negation",
    "Ere.Props.C80_states"
   ],
   "note": "C80_states is the pattern of a test, for every text; composition of the parser (C43), C62_framed_compiles_iff (the program compiles), C29 (one group), C41/C65 (test) and C46_framed_whole (exec); findWord (Spec/Words) is the specification, and C80_found, C80_not_found, C80_test say in plain terms what it finds. C80_negation: the condition that ^ alone does not go with an empty string is needed"
  },
  {
   "property": "C81",
   "status": "proved",
   "theorems": [
    "Ere.Props.C81_phone",
    "Ere.Props.C81_color",
    "Ere.Props.C81_color_attribute",
    "Ere.Props.C81_readme_negation"
   ],
   "note": "the answers are the functions phoneAnswer and colorAnswer of Spec/Documented, which do not mention regular expressions; for every table of UTF-8 sequences; the colour pattern contains [:xdigit:] and compiles by C62_ascii_compiles_iff. C81_readme_negation: the assertion of the README for 1F2e3D is false"
  },
  {
   "property": "C82",
   "status": "proved",
   "theorems": [
    "Ere.Props.C82_fields",
    "Ere.Props.C82_attribute",
    "Ere.Props.C82_whole",
    "Ere.Props.C82_assignment",
    "Ere.Props.C82_emoji",
    "Ere.Props.C82_needle"
   ],
   "note": "C82_emoji and C82_needle are patterns of the tests, for every text; readText of Spec/Fields is the reading by hand; the hypotheses are separated, possible and one demanded character, on the text side; parse_fields gives the texts of such patterns; an example shows that separation is needed"
  },
  {
   "property": "C83",
   "status": "proved",
   "theorems": [
    "Ere.Props.C83_runs",
    "Ere.Props.C83_all"
   ],
   "note": "the loop is scanAll, the program of C72; runsOf of Spec/Runs goes through the text once"
  },
  {
   "property": "C84",
   "status": "proved",
   "theorems": [
    "Ere.Props.C84_lexer",
    "Ere.Props.C84_attribute",
    "Ere.Props.C84_small"
   ],
   "note": "nextToken of Spec/Lexer reads by hand; parse_lex gives the texts of such patterns; C84_small is an instance for every text; an example shows that the hypothesis about the last group is needed"
  },
  {
   "property": "C85",
   "status": "proved",
   "theorems": [
    "Ere.Props.C85_list",
    "Ere.Props.C85_compiles",
    "Ere.Props.C85_fields",
    "Ere.Props.C85_groups",
    "Ere.Props.C85_dotted",
    "Ere.Props.C85_numbers"
   ],
   "note": "pieces and lastSep of Spec/Lists are the specification; items in general by their formal language (C76), items of fields by Consists (C82); C85_dotted and C85_numbers are instances for every text; an example shows that the condition on the separator is needed"
  },
  {
   "property": "C86",
   "status": "proved",
   "theorems": [
    "Ere.Props.C86_compile_regex",
    "Ere.Props.C86_attribute",
    "Ere.Props.C86_engines",
    "Ere.Props.C86_compiles",
    "Ere.Props.C86_quoted",
    "Ere.Props.C86_time",
    "Ere.Props.C86_time_engines"
   ],
   "note": "C86_time is the time pattern of the tests, for every text, compared with a reader by hand (Spec/Clock); the reader is ERE.readFrom of Spec/Predict, a total function that mentions no automaton; Decided (C73), progress and Framed are the hypotheses; C86_quoted is an instance for every text with the answer of test by hand (isQuoted); an example shows that the reader fails where the next character does not decide"
  },
  {
   "property": "C87",
   "status": "proved",
   "theorems": [
    "Ere.Props.C87_records",
    "Ere.Props.C87_attribute",
    "Ere.Props.C87_compiles",
    "Ere.Props.C87_engines",
    "Ere.Props.C87_ipv4",
    "Ere.Props.C87_ipv4_engines",
    "Ere.Props.C87_date"
   ],
   "note": "cutAt and stretches of Spec/Records are the cutting by hand; the fields are arbitrary patterns without anchors and groups, given by their formal languages (C76); C87_ipv4 and C87_date are the patterns of the benchmark and of the tests, for every text; an example shows that the condition on the separators is needed"
  },
  {
   "property": "C88",
   "status": "proved",
   "theorems": [
    "Ere.Props.C88_delimited",
    "Ere.Props.C88_attribute",
    "Ere.Props.C88_engines",
    "Ere.Props.C88_found",
    "Ere.Props.C88_not_found",
    "Ere.Props.C88_split_once",
    "Ere.Props.C88_all",
    "Ere.Props.C88_comments",
    "Ere.Props.C88_lazy_greedy",
    "Ere.Props.C88_quoted",
    "Ere.Props.parse_delim"
   ],
   "note": "enclosedIn of Spec/Delimited is the search by hand (C88_found and C88_not_found say what it means: leftmost, there shortest or longest); onceSplit is str::split_once; parse_delim: which pattern texts are meant; C88_comments is the pattern of the tests, C88_quoted is \"([^\"]*)\""
  },
  {
   "property": "C89",
   "status": "proved",
   "theorems": [
    "Ere.Props.C89_quoted",
    "Ere.Props.C89_attribute",
    "Ere.Props.C89_engines",
    "Ere.Props.C89_closed",
    "Ere.Props.C89_first_bare",
    "Ere.Props.C89_last_escaped"
   ],
   "note": "quotedIn of Spec/Quoted is the reader by hand; C89_closed, C89_first_bare and C89_last_escaped say where the string it reads ends"
  },
  {
   "property": "C90",
   "status": "proved",
   "theorems": [
    "Ere.Props.C90_uri",
    "Ere.Props.C90_uri_engines"
   ],
   "note": "uriPlaces of Spec/Uri is the decomposition by hand; C90_uri also says that the program compiles and has five groups"
  },
  {
   "property": "C91",
   "status": "partial",
   "theorems": [
    "Ere.Props.C91_dfa_partial",
    "Ere.Props.anchored_program"
   ],
   "note": "proved for the DFA engine, on every text; missing: the two flat engines of the test, since the order of branches with different anchors is not proved for them (C46_negation shows that in general they do not keep it)"
  }
 ]
}