{"id": "C01", "title": "Atom ranges are exact", "statement": "For every bracket expression, dot or literal character that can be written in a pattern, the list of code point ranges the compiler derives from it contains a character exactly when the atom accepts that character (also for reversed ranges such as [z-a], negated lists and named classes).", "quantifier": "every atom, every Unicode scalar value", "why_tests_cant": "there are about 1.1 million characters and unboundedly many bracket expressions", "anchors": ["ere-core/src/parse_tree.rs: Atom::to_ranges, Atom::check, BracketExpressionTerm::to_ranges"]}
{"id": "C02", "title": "Named character classes agree with their tables", "statement": "For each of the twelve POSIX classes the predicate used at run time and the range table used at compile time accept exactly the same characters.", "quantifier": "every class, every Unicode scalar value", "why_tests_cant": "existing tests sample a handful of characters", "anchors": ["ere-core/src/parse_tree.rs: BracketCharClass::check_ascii, BracketCharClass::to_ranges"]}
{"id": "C03", "title": "Atom equality is semantic", "statement": "Two atoms compare equal only if they accept the same characters, and compare equal whenever they accept the same characters (the doc comment promises semantic equality).", "quantifier": "every pair of atoms", "why_tests_cant": "pairs of atoms are unboundedly many and equality drives state merging", "anchors": ["ere-core/src/parse_tree.rs: impl PartialEq for Atom"]}
{"id": "C04", "title": "Range lists are sorted and minimal", "statement": "The range list derived from an atom is sorted, with pairwise disjoint, non-adjacent and non-empty ranges, as promised by its documentation.", "quantifier": "every atom", "why_tests_cant": "the merge and subtraction loops have many overlap cases", "anchors": ["ere-core/src/parse_tree.rs: Atom::to_ranges"]}
{"id": "C05", "title": "Parser is total", "statement": "Parsing any string terminates and returns either a parse tree or an error; it never loops or overflows its recursion on malformed input, and each step consumes input.", "quantifier": "every pattern string", "why_tests_cant": "unboundedly many strings", "anchors": ["ere-core/src/parse_tree.rs: ERE::parse_str, ERE::take, EREBranch::take, EREPart::take, Atom::take, Quantifier::take"]}
{"id": "C06", "title": "Printing a parsed pattern and parsing it again is the identity", "statement": "If a string parses, then displaying the parse tree gives a string that parses to the same tree.", "quantifier": "every pattern string accepted by the parser", "why_tests_cant": "escaping, bracket and quantifier corner cases combine unboundedly", "anchors": ["ere-core/src/parse_tree.rs: Display impls, ERE::parse_str"]}
{"id": "C07", "title": "Parse errors report their cause", "statement": "When a pattern is rejected, the error value names the actual defect (unterminated bracket, bad escape, ...).", "quantifier": "every rejected pattern string", "why_tests_cant": "only a sample of bad patterns can be tried", "anchors": ["ere-core/src/parse_tree.rs: ERE::parse_str, AtomParseError"]}
{"id": "C08", "title": "Quantifier expansion has counting semantics", "statement": "x*, x+, x?, x{n}, x{n,} and x{n,m} match exactly a concatenation of an allowed number of matches of x (at least 0, at least 1, 0 or 1, exactly n, at least n, between n and m; none at all if m<n).", "quantifier": "every pattern, all bounds n and m, every text and position", "why_tests_cant": "bounds are unbounded integers", "anchors": ["ere-core/src/simplified_tree.rs: SimplifiedTreeNode::from_ere_part"]}
{"id": "C09", "title": "The simplified tree matches what the pattern matches", "statement": "The tree produced from a parsed pattern matches a stretch of text exactly when the pattern does under the standard ERE reading (alternation, concatenation, repetition, groups, ^ only at offset 0, $ only at the end).", "quantifier": "every parsed pattern, every text, every start and end position", "why_tests_cant": "unbounded nesting and text length", "anchors": ["ere-core/src/simplified_tree.rs: SimplifiedTreeNode::from_ere"]}
{"id": "C10", "title": "Upper length bound is sound", "statement": "If the reported maximum match length is a number m, no match of the tree is longer than m bytes.", "quantifier": "every tree, every text, every match", "why_tests_cant": "all matches of all trees", "anchors": ["ere-core/src/simplified_tree.rs: SimplifiedTreeNode::max_bytes", "ere-core/src/parse_tree.rs: Atom::max_bytes"]}
{"id": "C11", "title": "Lower length bound is sound", "statement": "The reported minimum match length is never larger than the byte length of an actual match.", "quantifier": "every tree, every text, every match", "why_tests_cant": "all matches of all trees", "anchors": ["ere-core/src/simplified_tree.rs: SimplifiedTreeNode::min_bytes", "ere-core/src/parse_tree.rs: Atom::min_bytes"]}
{"id": "C12", "title": "Automaton construction is correct", "statement": "The character automaton built from a tree has an accepting run over a stretch of text, with given capture positions, exactly when the tree matches that stretch with those capture positions.", "quantifier": "every tree, every text, every capture assignment", "why_tests_cant": "unbounded trees and texts", "anchors": ["ere-core/src/working_nfa.rs: WorkingNFA::build, nfa_union, nfa_concat, nfa_star, nfa_upto, nfa_repeat, nfa_capture"]}
{"id": "C13", "title": "Optimisation passes never change what a regex matches or captures", "statement": "State merging, transition de-duplication, epsilon skipping, anchor cleaning, dead and unreachable state removal keep the set of (text, capture positions) results unchanged.", "quantifier": "every automaton that the compiler can produce, every text", "why_tests_cant": "each rewrite is conditional on global graph shape", "anchors": ["ere-core/src/working_nfa.rs: WorkingNFA::optimize_pass, dedupe_transitions, clean_start_anchors, clean_end_anchors, nodes_after_end, nodes_before_start, remove_unreachable", "ere-core/src/working_u8_nfa.rs: same names"]}
{"id": "C14", "title": "Optimisation terminates", "statement": "The optimisation loop run by the macro stops for every pattern.", "quantifier": "every automaton", "why_tests_cant": "an infinite loop can only be excluded by a measure", "anchors": ["ere-core/src/working_nfa.rs: WorkingNFA::new_loop_opt", "ere-core/src/working_u8_nfa.rs: U8NFA::new_loop_opt"]}
{"id": "C15", "title": "Compiled automaton test equals regex search", "statement": "The compiled character automaton accepts a text exactly when some contiguous stretch of the text matches the pattern.", "quantifier": "every pattern with at least one possible match, every text", "why_tests_cant": "unbounded patterns and texts", "anchors": ["ere-core/src/working_nfa.rs: WorkingNFA::new, WorkingNFA::test"]}
{"id": "C16", "title": "Byte automaton agrees with character automaton", "statement": "The byte-level automaton accepts the UTF-8 encoding of a text, with given capture byte offsets, exactly when the character automaton accepts the text with those offsets.", "quantifier": "every pattern, every Unicode text", "why_tests_cant": "all of Unicode times all patterns", "anchors": ["ere-core/src/working_u8_nfa.rs: U8NFA::new, U8NFA::build, U8NFA::nfa_symbol, U8NFA::test"]}
{"id": "C17", "title": "Every compiled regex: valid pattern compiles", "statement": "Every pattern the parser accepts is compiled to an engine without the compiler panicking.", "quantifier": "every pattern accepted by the parser", "why_tests_cant": "unboundedly many patterns", "anchors": ["ere-core/src/lib.rs: pick_base_engine, __compile_regex", "ere-core/src/working_u8_nfa.rs: U8NFA::build", "ere-core/src/working_nfa.rs: WorkingNFA::remove_unreachable"]}
{"id": "C18", "title": "flat_lockstep_nfa test is correct", "statement": "For the regex produced by compile_regex_flat_lockstep_nfa!, test(text) is true exactly when some stretch of the text matches the pattern.", "quantifier": "every compiling pattern, every text", "why_tests_cant": "unbounded", "anchors": ["ere-core/src/engines/flat_lockstep_nfa.rs: serialize_flat_lockstep_nfa_test"]}
{"id": "C19", "title": "flat_lockstep_nfa_u8 test is correct", "statement": "For the regex produced by compile_regex_flat_lockstep_nfa_u8!, test(text) is true exactly when some stretch of the text matches the pattern.", "quantifier": "every compiling pattern, every text", "why_tests_cant": "unbounded", "anchors": ["ere-core/src/engines/flat_lockstep_nfa_u8.rs: serialize_flat_lockstep_nfa_u8_test"]}
{"id": "C20", "title": "dfa_u8 test is correct", "statement": "For the regex produced by compile_regex_dfa_u8!, test(text) is true exactly when some stretch of the text matches the pattern.", "quantifier": "every compiling pattern, every text", "why_tests_cant": "unbounded", "anchors": ["ere-core/src/engines/dfa_u8.rs: test codegen", "ere-core/src/working_u8_dfa.rs: U8TDFA::from_nfa, U8DFA::from_tagged"]}
{"id": "C21", "title": "one_pass test is correct", "statement": "For the regex produced by compile_regex_u8onepass!, test(text) is true exactly when some stretch of the text matches the pattern.", "quantifier": "every pattern accepted by the one-pass engine, every text", "why_tests_cant": "unbounded", "anchors": ["ere-core/src/engines/one_pass_u8.rs: serialize_one_pass_token_stream, vmlike and functional test codegen, compute_runs"]}
{"id": "C22", "title": "exec succeeds exactly when test succeeds", "statement": "For each engine exec(text) returns Some exactly when test(text) returns true.", "quantifier": "every engine, pattern and text", "why_tests_cant": "two independently generated programs", "anchors": ["ere-core/src/engines/flat_lockstep_nfa.rs", "ere-core/src/engines/flat_lockstep_nfa_u8.rs", "ere-core/src/engines/dfa_u8.rs", "ere-core/src/engines/one_pass_u8.rs", "ere-core/src/engines/fixed_offset.rs"]}
{"id": "C23", "title": "exec captures come from a real match", "statement": "When exec returns Some, there is one way of matching the pattern against the text in which every reported group is the last stretch matched by that group, and unset groups did not take part.", "quantifier": "every engine, pattern and text", "why_tests_cant": "capture bookkeeping is only visible on specific ambiguous inputs", "anchors": ["ere-core/src/engines/flat_lockstep_nfa.rs: exec codegen", "ere-core/src/engines/flat_lockstep_nfa_u8.rs: exec codegen", "ere-core/src/engines/dfa_u8.rs: exec codegen", "ere-core/src/engines/one_pass_u8.rs: exec codegen"]}
{"id": "C24", "title": "exec never panics while slicing", "statement": "Every start and end offset used to slice the text lies within the text, start is not after end, both are set or both unset and both are on UTF-8 character boundaries, so no assertion or slice panics.", "quantifier": "every engine, pattern and text", "why_tests_cant": "a panic depends on specific text", "anchors": ["ere-core/src/engines/flat_lockstep_nfa.rs: assert_ne / text.get", "ere-core/src/engines/flat_lockstep_nfa_u8.rs: text.get", "ere-core/src/engines/dfa_u8.rs: text.get", "ere-core/src/engines/one_pass_u8.rs: text.get", "ere-core/src/engines/fixed_offset.rs: slicing"]}
{"id": "C25", "title": "Group 0 is always reported", "statement": "When exec returns Some, element 0 is set and is a stretch of the text that the pattern matches.", "quantifier": "every engine, pattern and text", "why_tests_cant": "unbounded", "anchors": ["ere-core/src/engines/flat_lockstep_nfa.rs", "ere-core/src/engines/flat_lockstep_nfa_u8.rs", "ere-core/src/engines/dfa_u8.rs", "ere-core/src/engines/one_pass_u8.rs", "ere-core/src/lib.rs: Regex::exec"]}
{"id": "C26", "title": "Leftmost match", "statement": "Whenever exec reports something, the overall match it reports starts at the smallest possible offset: no match of the pattern anywhere in the text starts earlier. (That what it reports is a match is C23.)", "quantifier": "every engine, pattern and text", "why_tests_cant": "needs comparison with every other possible match", "anchors": ["ere-core/src/config.rs: CaptureMode::Greedy", "ere-core/src/engines/flat_lockstep_nfa_u8.rs", "ere-core/src/engines/flat_lockstep_nfa.rs", "ere-core/src/engines/dfa_u8.rs"]}
{"id": "C27", "title": "Engines agree on captures", "statement": "All engines report the same captures for the same pattern and text.", "quantifier": "every pattern, every text", "why_tests_cant": "ambiguous alternatives and anchors combine unboundedly", "anchors": ["ere-core/src/engines/flat_lockstep_nfa_u8.rs: transition_epsilons_exec", "ere-core/src/engines/dfa_u8.rs: exec codegen", "ere-core/src/engines/one_pass_u8.rs: exec codegen"]}
{"id": "C28", "title": "Groups declared mandatory are always captured", "statement": "If the compiler declares a group non-optional for the attribute macro, exec sets that group in every match, so the generated expect never fires.", "quantifier": "every pattern and text", "why_tests_cant": "a single missed path causes a runtime panic", "anchors": ["ere-core/src/working_nfa.rs: WorkingNFA::capture_group_is_optional", "ere-core/src/lib.rs: __compile_regex_attr"]}
{"id": "C29", "title": "Number of groups", "statement": "The array length N of the compiled regex equals one plus the number of parenthesised groups in the pattern.", "quantifier": "every pattern", "why_tests_cant": "depends on which groups survive optimisation", "anchors": ["ere-core/src/working_nfa.rs: num_capture_groups", "ere-core/src/working_u8_nfa.rs: num_capture_groups", "ere-core/src/lib.rs: Regex doc comment"]}
{"id": "C30", "title": "Capture indices are in range", "statement": "No generated engine writes a capture slot with index at or above N.", "quantifier": "every pattern", "why_tests_cant": "unbounded", "anchors": ["ere-core/src/working_nfa.rs: num_capture_groups", "ere-core/src/engines/flat_lockstep_nfa.rs", "ere-core/src/engines/flat_lockstep_nfa_u8.rs", "ere-core/src/engines/one_pass_u8.rs", "ere-core/src/engines/dfa_u8.rs"]}
{"id": "C31", "title": "Fixed-offset engine returns the true captures", "statement": "When the compiler decides that all groups have fixed offsets, returning those offsets after a successful test gives exactly the captures of every match of the text.", "quantifier": "every pattern for which fixed offsets are found, every text", "why_tests_cant": "paths through the automaton are exponentially many", "anchors": ["ere-core/src/engines/fixed_offset.rs: get_fixed_offsets, serialize_fixed_offset_token_stream"]}
{"id": "C32", "title": "Determinisation respects its bound", "statement": "Building the tagged DFA always terminates, returns nothing if more than the allowed number of states would be needed, and otherwise returns a table with at most that many states.", "quantifier": "every byte automaton, every bound", "why_tests_cant": "state sets are exponentially many", "anchors": ["ere-core/src/working_u8_dfa.rs: U8TDFA::from_nfa, default_bound"]}
{"id": "C33", "title": "DFA minimisation is exact", "statement": "Merging DFA states never changes which byte strings are accepted, and it terminates.", "quantifier": "every DFA", "why_tests_cant": "depends on iterated merging", "anchors": ["ere-core/src/working_u8_dfa.rs: U8DFA::from_tagged, merge_states"]}
{"id": "C34", "title": "Transition splitting is exact", "statement": "Splitting overlapping byte ranges yields disjoint ranges such that each byte keeps exactly its original targets in their original order.", "quantifier": "every list of labelled byte ranges, every byte", "why_tests_cant": "2^256 possible overlap patterns", "anchors": ["ere-core/src/working_u8_dfa.rs: split_ranges_u8"]}
{"id": "C35", "title": "Topological ordering is correct", "statement": "When an order is returned it lists every state once and every edge points forward; nothing is returned only if there is a cycle or an unreachable state.", "quantifier": "every automaton graph", "why_tests_cant": "all graphs", "anchors": ["ere-core/src/working_u8_nfa.rs: U8NFA::topological_ordering"]}
{"id": "C36", "title": "Epsilon closures are complete and exact", "statement": "The pre-computed epsilon propagation of a state lists exactly the states reachable without consuming input together with the anchors crossed and tags set, and computing it terminates.", "quantifier": "every automaton, every state", "why_tests_cant": "cyclic epsilon graphs", "anchors": ["ere-core/src/epsilon_propogation.rs: calculate_epsilon_propogations_char, calculate_epsilon_propogations_u8"]}
{"id": "C37", "title": "Greedy or lazy never changes whether a text matches", "statement": "Adding or removing the lazy marker ? after quantifiers does not change the result of test.", "quantifier": "every pattern and text", "why_tests_cant": "unbounded", "anchors": ["ere-core/src/simplified_tree.rs: from_ere_part longest/alt", "ere-core/src/working_nfa.rs: nfa_star, nfa_upto"]}
{"id": "C38", "title": "Generated character tests compile and mean the same", "statement": "The source tokens emitted for an atom denote the same atom, so that the generated program compiles and tests the same characters.", "quantifier": "every atom", "why_tests_cant": "needs all named classes and terms", "anchors": ["ere-core/src/parse_tree.rs: impl ToTokens for BracketCharClass, Atom::serialize_check"]}
{"id": "C39", "title": "One-pass generated program is well formed", "statement": "For every pattern the one-pass engine accepts, the generated program is closed (all variables in scope, no compile_error) and so compiles.", "quantifier": "every pattern accepted by the one-pass check", "why_tests_cant": "unbounded", "anchors": ["ere-core/src/engines/one_pass_u8.rs: serialize_one_pass_token_stream, vmlike_test_codegen, vmlike_exec_codegen, functional_exec_codegen"]}
{"id": "C40", "title": "NFAStatic agrees with the automaton it serialises", "statement": "The runtime NFA structure accepts the same texts as the compiled character automaton.", "quantifier": "every pattern and text", "why_tests_cant": "unbounded", "anchors": ["ere-core/src/engines/nfa_static.rs: NFAStatic::test"]}
{"id": "C41", "title": "Engine choice is invisible to test", "statement": "The engine chosen by compile_regex! returns the same test result as every other engine that supports the pattern.", "quantifier": "every pattern and text", "why_tests_cant": "needs all engine pairs on all inputs", "anchors": ["ere-core/src/lib.rs: pick_base_engine, pick_engine"]}
{"id": "C42", "title": "Escaped special characters match themselves", "statement": "A backslash followed by a special character matches exactly that character, and a pattern obtained by escaping every special character of a string matches exactly the texts containing that string.", "quantifier": "every literal string, every text", "why_tests_cant": "all strings", "anchors": ["ere-core/src/parse_tree.rs: Atom::take, is_escapable_character"]}
{"id": "C43", "title": "The parser accepts exactly the documented grammar", "statement": "A string parses to a tree exactly when the tree derives that string in the ERE grammar (special characters, escapes, brackets, classes, quantifiers, groups, alternation), and no string has two parse trees.", "quantifier": "every string and every parse tree", "why_tests_cant": "all strings; ambiguity and precedence need every derivation to be considered", "anchors": ["ere-core/src/parse_tree.rs: ERE::parse_str, ERE::take, EREBranch::take, EREPart::take, Quantifier::take, QuantifierType::take, Atom::take, Atom::from_str, BracketExpressionTerm::take"]}
{"id": "C44", "title": "The attribute macro's program type-checks", "statement": "For every struct whose number of fields fits the pattern, the program emitted by the regex attribute macro type-checks: the array of captures it destructures has exactly the length declared by the engine it wraps.", "quantifier": "every pattern and every struct accepted by the macro", "why_tests_cant": "two separate counts of groups (from the character automaton and inside each engine) must agree for every pattern", "anchors": ["ere-core/src/lib.rs: __compile_regex_attr", "ere-core/src/working_nfa.rs: num_capture_groups", "ere-core/src/engines/dfa_u8.rs: serialize_u8_dfa"]}
{"id": "C45", "title": "The attribute macro returns the engine's captures, field by field", "statement": "exec of a struct produced by the regex attribute macro never panics, returns None exactly when the text does not match, and otherwise field k holds capture k of the engine: a plain slice for mandatory groups and an Option for optional ones.", "quantifier": "every pattern, struct and text for which the emitted program compiles", "why_tests_cant": "the emitted code calls expect on the capture of every group judged mandatory; whether that can fail depends on all texts", "anchors": ["ere-core/src/lib.rs: __compile_regex_attr", "ere-core/src/working_nfa.rs: capture_group_is_optional"]}
{"id": "C46", "title": "Ambiguous matches follow the documented Perl rules", "statement": "When a pattern can match a text in several ways, exec reports the captures of the match that the documented rules prefer: quantifiers take as many rounds as possible (as few for quantifiers followed by ?), earlier alternatives win, choices further left are decided first, and the match starts as early as possible.", "quantifier": "every engine, pattern and text", "why_tests_cant": "the preferred match is defined against all other matches of the text, and the engines reach it through automaton optimisation, byte splitting and thread lists whose order must be kept by every step", "anchors": ["ere-core/src/config.rs: AmbiguousSubmatchMode::Greedy", "ere-core/src/parse_tree.rs: Quantifier (lines 262-270)", "ere-core/src/simplified_tree.rs: SimplifiedTreeNode::from", "ere-core/src/engines/flat_lockstep_nfa_u8.rs: transition_epsilons_exec", "ere-core/src/engines/flat_lockstep_nfa.rs", "ere-core/src/engines/dfa_u8.rs: exec codegen"]}
{"id": "C47", "title": "Drawings show exactly the automaton", "statement": "to_tikz of the character automaton, the byte automaton, the tagged DFA and the DFA never panics, and its text, read back as TikZ, shows exactly the states (start and accept marks included) and exactly the transitions, in order, each with its symbols, its kind of epsilon transition and its target; special characters of LaTeX survive.", "quantifier": "every automaton whose targets exist, in particular those of every pattern; with and without the document around the picture", "why_tests_cant": "labels are built from arbitrary characters and bytes with two layers of escaping; whether a brace, backslash or quote breaks the text must be known for all of them, and for every number of states", "anchors": ["ere-core/src/visualization/latex_graph.rs", "ere-core/src/visualization/layout.rs", "ere-core/src/working_nfa.rs: to_tikz", "ere-core/src/working_u8_nfa.rs: to_tikz", "ere-core/src/working_u8_dfa.rs: to_tikz (both)"]}
{"id": "C48", "title": "A drawing determines its automaton", "statement": "Two byte automata, or two DFAs, whose to_tikz texts are equal are the same automaton, so that comparing drawings compares automata.", "quantifier": "every pair of automata", "why_tests_cant": "a claim about all pairs: no test can show that no two different byte ranges, epsilon kinds or targets are printed alike", "anchors": ["ere-core/src/working_u8_nfa.rs: Display for U8Atom, to_tikz", "ere-core/src/working_u8_dfa.rs: DisplayByteChar, DisplayRange, to_tikz"]}
{"id": "C49", "title": "Layout of drawings", "statement": "If every state can be reached from the first and there are no cycles except loops at a state, the drawing puts no two states at the same place and all other transitions go strictly from left to right; otherwise the states are put in a row. Computing the layout terminates without a panic.", "quantifier": "every automaton whose targets exist", "why_tests_cant": "termination and freedom from overlaps for every graph; the depth search revisits states and its index arithmetic must stay in range for all of them", "anchors": ["ere-core/src/visualization/layout.rs: check_dag, new, layout", "ere-core/src/visualization/latex_graph.rs: to_tikz, pick_layout"]}
{"id": "C50", "title": "Loops are drawn as loops", "statement": "A transition from a state to itself is drawn with the shape of a loop.", "quantifier": "every automaton whose targets exist", "why_tests_cant": "depends on the layout chosen for the whole graph", "anchors": ["ere-core/src/visualization/latex_graph.rs: display_in_line, display_straight, to_tikz", "ere-core/src/visualization/layout.rs: DAGLayout (self-loops are allowed)"]}
{"id": "C51", "title": "Searching takes time linear in the text", "statement": "For a compiled regex, test and exec on a text look at a number of states, transitions and threads that is at most a constant, depending only on the regex, times the length of the text plus one. There is no text on which matching takes exponential or quadratic time.", "quantifier": "every pattern, every engine, every text", "why_tests_cant": "a bound for all texts: tests measure some texts, and patterns with catastrophic inputs need a search for those inputs", "anchors": ["ere-core/src/flat_lockstep_nfa.rs: emitted test and exec", "ere-core/src/flat_lockstep_nfa_u8.rs", "ere-core/src/engines/one_pass_u8.rs", "ere-core/src/dfa_u8.rs", "ere-core/src/fixed_offset.rs"]}
{"id": "C52", "title": "Groups lie within the match", "statement": "Every group that exec reports lies within the whole match reported as group 0, and its start is not behind its end.", "quantifier": "every pattern, every engine, every text", "why_tests_cant": "relates the positions of all groups on all texts; the positions are kept in separate slots that each engine moves on its own", "anchors": ["ere-core/src/flat_lockstep_nfa.rs", "ere-core/src/flat_lockstep_nfa_u8.rs", "ere-core/src/engines/one_pass_u8.rs", "ere-core/src/dfa_u8.rs", "ere-core/src/fixed_offset.rs"]}
{"id": "C53", "title": "Text around a match", "statement": "If a pattern without ^ is found in a text, it is also found in every longer text that ends with it; if a pattern without $ is found in a text, it is also found in every longer text that begins with it.", "quantifier": "every pattern, every engine, every text and every text put before or after it", "why_tests_cant": "all texts and all extensions of them; depends on how each engine starts threads and treats the two ends", "anchors": ["ere-core/src/lib.rs", "ere-core/src/working_nfa.rs: add_start_loop and anchors", "ere-core/src/working_u8_dfa.rs: expand"]}
{"id": "C54", "title": "Equivalent patterns", "statement": "Patterns that differ by laws of regular expressions (order and repetition of alternatives, multiplying out parentheses, x+ for xx*, x{m,n} for its expansions, lazy for greedy, sets written differently), anywhere in the pattern and any number of times, have the same test answer on every text.", "quantifier": "every pair of patterns related by the laws, every text", "why_tests_cant": "infinitely many pairs of patterns; the engine chosen may differ between the two", "anchors": ["ere-core/src/parse_tree.rs", "ere-core/src/simplified_tree.rs", "ere-core/src/lib.rs: compile_regex"]}
{"id": "C55", "title": "Inner groups lie within outer groups, and groups come in order", "statement": "If exec reports a group that is written inside another group, then it also reports the other group, and the inner one lies within it; and a group starts no earlier than the groups with smaller numbers, and lies within or behind each of them.", "quantifier": "every pattern, every engine, every text", "why_tests_cant": "positions of inner groups from earlier rounds of a repetition are kept; which combinations occur depends on the text", "anchors": ["ere-core/src/flat_lockstep_nfa.rs: exec", "ere-core/src/working_u8_dfa.rs", "ere-core/src/engines/one_pass_u8.rs"]}
{"id": "C56", "title": "An inner group takes part only with its outer group", "statement": "If exec reports a group that is written inside another group, then it also reports the other group.", "quantifier": "every pattern, every engine, every text", "why_tests_cant": "quantifies over all nestings of groups and all texts; users index outer groups without checking after they saw an inner one", "anchors": ["ere-core/src/flat_lockstep_nfa.rs: exec", "ere-core/src/working_u8_dfa.rs", "ere-core/src/engines/one_pass_u8.rs", "ere-core/src/lib.rs"]}
{"id": "C57", "title": "The number of states is linear in the size of the pattern", "statement": "Compiling a pattern gives an engine whose number of states is at most a constant times the size of the pattern, where a counted repetition counts as often as it says. For the byte engines each atom may cost up to a constant more for each of its character ranges. The DFA engine is only emitted within the same kind of bound, and its test never has more states than its exec.", "quantifier": "every pattern that compiles", "why_tests_cant": "a growth rate over all patterns; a test only sees the sizes of its own examples", "anchors": ["ere-core/src/working_nfa.rs", "ere-core/src/working_u8_nfa.rs", "ere-core/src/working_u8_dfa.rs", "ere-core/src/engines/dfa_u8.rs"]}
{"id": "C58", "title": "The generated program is polynomial in the size of the pattern", "statement": "The number of thread updates written into the program that the flat engines emit is bounded by a polynomial in the length of the pattern.", "quantifier": "every pattern that compiles", "why_tests_cant": "a growth rate over all patterns; small patterns never show an exponential", "anchors": ["ere-core/src/epsilon_propogation.rs:42-161", "ere-core/src/engines/flat_lockstep_nfa.rs", "ere-core/src/engines/flat_lockstep_nfa_u8.rs"]}
{"id": "C59", "title": "The DFA used by test is minimal", "statement": "No two different states of the DFA that test runs accept the same byte strings.", "quantifier": "every pattern for which the DFA engine is made, every pair of states", "why_tests_cant": "compares the languages of all pairs of states, over all byte strings", "anchors": ["ere-core/src/working_u8_dfa.rs:573-627"]}
{"id": "C60", "title": "Fixed offsets mean a fixed text", "statement": "If the fixed-offset macro accepts a pattern (or compile_regex chooses fixed offsets for it), the pattern only ever matches whole texts, and all texts it matches have the same length in bytes.", "quantifier": "every pattern, every text and every way of matching", "why_tests_cant": "speaks about all texts that match, of any length", "anchors": ["ere-core/src/engines/fixed_offset.rs:1-4", "ere-core/src/engines/fixed_offset.rs:20-73"]}
{"id": "C61", "title": "Patterns of the documented kind have fixed offsets", "statement": "Every pattern ^...$ without variable quantifiers, whose alternatives have equal length in bytes and contain no groups, is accepted by the fixed-offset macro, and compile_regex uses fixed offsets for it; the length of the texts it matches is the one computed from the pattern.", "quantifier": "every pattern of that kind, of any size and nesting", "why_tests_cant": "infinitely many patterns; depends on every optimisation pass and on the removal of the search loops", "anchors": ["ere-core/src/engines/fixed_offset.rs:6-13", "ere-core/src/engines/fixed_offset.rs:20-73", "ere-core/src/working_nfa.rs:441-449"]}
{"id": "C62", "title": "What compile_regex emits compiles", "statement": "For every pattern that compile_regex accepts, in a crate that depends on ere, the emitted program compiles: every variable is in scope, every named item exists, array lengths agree and no compile_error is emitted.", "quantifier": "every accepted pattern, of any size, whichever engine is chosen", "why_tests_cant": "infinitely many patterns; whether the program compiles depends on loops and anchors of the optimised automaton and on the choice of the engine", "anchors": ["ere-core/src/lib.rs:58-152", "ere-core/src/engines/one_pass_u8.rs: serialize_one_pass_token_stream, vmlike_test_codegen, functional_exec_codegen", "ere-core/src/engines/fixed_offset.rs:76-101"]}
{"id": "C63", "title": "Which patterns have fixed offsets", "statement": "If the fixed-offset macro accepts a pattern (or compile_regex chooses fixed offsets for it), then in all matches of all texts each group captures the same stretch, and there are only finitely many ways of matching. Conversely, a pattern with these two properties that matches some text is accepted, provided that anchors only occur at the begin and end of its branches.", "quantifier": "every pattern, every pair of texts and every way of matching them", "why_tests_cant": "compares all matches of all texts; the converse needs that every path of the optimised automaton belongs to some text", "anchors": ["ere-core/src/engines/fixed_offset.rs:1-8", "ere-core/src/engines/fixed_offset.rs:18-73", "ere-core/src/working_nfa.rs:464-562"]}
{"id": "C64", "title": "The macros run for a reasonable time", "statement": "The search for fixed offsets, which compile_regex and the fixed-offset macro carry out for every pattern at compile time, takes a number of steps bounded by a polynomial in the length of the pattern.", "quantifier": "every pattern, of any length", "why_tests_cant": "growth with the pattern; tests only use short patterns", "anchors": ["ere-core/src/engines/fixed_offset.rs:20-73", "ere-core/src/lib.rs:115-141"]}
{"id": "C65", "title": "Whole invocations of the macros are right for recognisable classes of patterns", "statement": "For a pattern that matches some text and has no ^, or matches texts of any length but not the empty text (and does not name [:graph:] or [:xdigit:]): compile_regex on its text gives a program, the program compiles, test says without a panic whether the pattern matches somewhere, and exec returns None exactly if it does not and otherwise the captures of a match; likewise the attribute macro with one field for the match and one for every pair of parentheses, if the last group can take part and repetitions consume. For a pattern with anchors only around its branches, test and exec of every program that compiles are right; exec returns the preferred match, and if the text determines what the groups capture, exactly that.", "quantifier": "every pattern of these classes, of any size, every text, whichever engine is chosen", "why_tests_cant": "composition of parser, automaton, optimisations, choice of the engine and code generation, over infinitely many patterns and texts", "anchors": ["ere-core/src/lib.rs:58-152", "ere-core/src/lib.rs:256-379", "ere-macros/src/lib.rs"]}
{"id": "C66", "title": "The generated functions do not exhaust the stack", "statement": "During a call of test or exec of a one-pass program no generated function is active twice, and the depth of the calls is at most the number of functions in the program, however long the text is. (All other generated programs are loops.)", "quantifier": "every pattern the one-pass engine accepts, every text", "why_tests_cant": "unbounded texts; depends on the absence of cycles in every automaton for which functions are generated", "anchors": ["ere-core/src/engines/one_pass_u8.rs: serialize_one_pass_token_stream, codegen_functional", "ere-core/src/working_u8_nfa.rs: topological_ordering"]}
{"id": "C67", "title": "Optional fields are needed", "statement": "Let a pattern have anchors only around its branches, with the same anchors around each of them, and no class that stands for no character. Then the attribute macro asks for one field for the whole match and one for each group up to the last group that takes part in some match of some text, and it declares a field optional exactly if some match of some text leaves the group unset. Without either condition this fails: there are patterns whose optional field is set by every match, and patterns for which the macro asks for more fields than the engine returns.", "quantifier": "every such pattern; all texts and all ways of matching", "why_tests_cant": "that no match of any text leaves a group unset is a statement about infinitely many texts", "anchors": ["ere-core/src/working_nfa.rs: WorkingNFA::capture_group_is_optional, num_capture_groups", "ere-core/src/lib.rs: __compile_regex_attr"]}
{"id": "C68", "title": "What is reported does not depend on text around it", "statement": "Let a pattern have anchors only around its branches, with the same anchors around each of them, and let every expression that is repeated without bound consume a character per round. If exec reports a match, then on every stretch of the text that contains this match exec reports the same match and the same groups, with the offsets moved accordingly; in particular on the matched stretch alone. (With anchors elsewhere this fails, for example for (a)$|a.)", "quantifier": "every such pattern, every text, every way of cutting off text before and behind the match", "why_tests_cant": "relates the answers for infinitely many pairs of texts, through priorities, greedy loops and the start-anywhere loop", "anchors": ["ere-core/src/lib.rs: __compile_regex, Regex::exec", "ere-core/src/engines/flat_lockstep_nfa.rs", "ere-core/src/engines/flat_lockstep_nfa_u8.rs", "ere-core/src/engines/dfa_u8.rs", "ere-core/src/engines/one_pass_u8.rs"]}
{"id": "C69", "title": "The longest of the leftmost matches", "statement": "POSIX demands that the match reported by a search is the longest of those that start furthest left; the documentation reserves other rules for submatches only. So whenever exec reports something, the reported whole match starts where the first match in the text starts, and no match from there ends later. (False: a|ab on ab reports the first byte only. True for patterns in which every branch ends in $, for patterns with at most one match from each place, and for patterns built from such parts, from greedy repetitions followed by something that begins differently, and from alternatives that exclude one another.)", "quantifier": "every such pattern, every text, every engine that compile_regex! may pick", "why_tests_cant": "compares the reported match with all matches in all texts; the engines search by priority and never compare lengths", "anchors": ["README.md: lines 5 and 69", "ere-core/src/lib.rs: __compile_regex, Regex::exec", "ere-core/src/working_nfa.rs", "ere-core/src/engines/flat_lockstep_nfa.rs", "ere-core/src/engines/flat_lockstep_nfa_u8.rs", "ere-core/src/engines/dfa_u8.rs", "ere-core/src/engines/one_pass_u8.rs"]}
{"id": "C70", "title": "Repetitions with empty rounds follow Perl", "statement": "The documentation names the Perl rules for choosing among several matches. Perl breaks an unbounded loop when a round has matched the empty text: such a round is kept but is the last one. exec reports the match which a backtracking matcher with this rule finds first, for patterns such as (a*)* too. (False: for (|a)* on aaa Perl prefers the empty match, exec reports the first byte, which is neither that nor the longest match. True for patterns in which every round of an unbounded repetition consumes something.)", "quantifier": "every pattern, every text", "why_tests_cant": "whether an empty round is followed by another one depends on how the passes over the automaton merged states; all patterns and texts matter", "anchors": ["ere-core/src/config.rs: AmbiguousSubmatchMode", "README.md: line 69", "ere-core/src/working_nfa.rs", "ere-core/src/epsilon_propogation.rs", "ere-core/src/engines/flat_lockstep_nfa.rs"]}
{"id": "C71", "title": "Rewriting a pattern by order-preserving laws does not change what exec reports", "statement": "Some ways of writing a pattern differently change neither whether it matches nor which match exec reports: leaving out or adding parentheses, x{1} for x, x{n,n} for x{n}, x{0,1} for x?, xx* for x+, x{n}x* for x{n,}, x{m}x{0,n} for x{m,m+n}, (x|) for x? and (|x) for x??, (xx*|) for x*, ay|by for (a|b)y, [ba] for [ab], ^^ for ^, anywhere in the pattern. exec reports the same whole match for both patterns, whatever engine is chosen for each. If the rewriting leaves the groups as they are it reports the same captures. (Reordering alternatives, greedy for lazy, xa|xb for x(a|b) do change it.)", "quantifier": "all pairs of patterns related by any number of such steps at any depth, every text", "why_tests_cant": "the two patterns go through different automata and possibly different engines; pairs of patterns and texts are unbounded", "anchors": ["ere-core/src/simplified_tree.rs", "ere-core/src/working_nfa.rs", "ere-core/src/lib.rs: pick_engine", "README.md: line 69"]}
{"id": "C72", "title": "Repeated exec finds all occurrences", "statement": "For a pattern without ^, the usual loop that calls exec again on the text behind the whole match (a character further behind an empty match) finds all occurrences: it never slices inside a character and never panics, it ends after at most one call per character and one more, the stretches found are matches of the whole text, each is the leftmost one behind the one before, they do not overlap and no two begin at the same place, and every match of the text begins within one of them or at the same place as one. (False with ^: each rest is a text of its own, so ^a is found twice in aa.)", "quantifier": "every pattern without ^, every text", "why_tests_cant": "the number of occurrences is unbounded and every rest of every text matters, in particular with empty matches and multi-byte characters", "anchors": ["ere-core/src/lib.rs: Regex::exec", "README.md", "ere-core/src/engines/flat_lockstep_nfa.rs", "ere-core/src/engines/dfa_u8.rs", "ere-core/src/engines/one_pass_u8.rs"]}
{"id": "C73", "title": "Where the next character decides, there is nothing to prefer", "statement": "Call a pattern decided if at each choice (between branches, or between a further round and going on) the next character, or the end of the text, tells which way may succeed. In a decided pattern at most one match, with its groups, starts at each place of a text. exec reports the only match that starts as far left as any, or nothing if there is none. So all engines report the same, greedy and lazy quantifiers mean the same, and the report is both the preferred match and the longest of the leftmost ones. Anchors may stand anywhere. (False for the DFA engine for patterns that match the empty text and have a ^ that is not crossed first.)", "quantifier": "every decided pattern, every text, every engine", "why_tests_cant": "all ways to match in all texts must be compared, for every pattern of an infinite class", "anchors": ["ere-core/src/lib.rs: Regex::exec, pick_engine", "README.md", "ere-core/src/engines/flat_lockstep_nfa.rs", "ere-core/src/engines/dfa_u8.rs", "ere-core/src/engines/one_pass_u8.rs"]}
{"id": "C74", "title": "POSIX extended regular expressions are accepted and read as POSIX says", "statement": "Every text that the POSIX grammar (XBD 9.5.3) derives as an extended regular expression is accepted and read with the structure the grammar gives it: branches, groups, quantifiers, anchors, quoted characters, bracket expressions with ] and - in the places where they stand for themselves, ranges and classes. So test answers by the POSIX reading. (False for a ) without a matching (, which is rejected; for collating symbols [.c.] and equivalence classes [=c=], which are accepted with another meaning; and for ranges that start with ], likewise. Patterns that can never match, such as a^b, are read correctly but the macro panics.)", "quantifier": "every text derived by the POSIX grammar, every text searched", "why_tests_cant": "the grammar derives infinitely many texts, and the places in which ], -, [ and ^ change their meaning interact", "anchors": ["README.md", "ere-core/src/parse_tree.rs: ERE::parse_str, Atom::take, BracketCharClass::take, QuantifierType::take"]}
{"id": "C75", "title": "Atoms accept the characters POSIX says", "statement": "A literal accepts itself; the dot accepts every character but NUL; a bracket expression accepts the listed characters, or with ^ all others; ranges go by code point; each named class accepts exactly the characters that POSIX lists for it in the POSIX locale (so space includes the vertical tab, and no class accepts a character outside ASCII). The predicate, the ranges derived from the atom and the emitted test agree on this.", "quantifier": "every atom, every Unicode character", "why_tests_cant": "there are infinitely many bracket expressions and over a million characters", "anchors": ["ere-core/src/parse_tree.rs: Atom::check, BracketCharClass::check_ascii, BracketCharClass::to_ranges, Atom::to_ranges, Atom::serialize_check"]}
{"id": "C76", "title": "test decides the formal language of the pattern", "statement": "Read a pattern as an expression of Kleene algebra: alternatives are sums, juxtaposition is product, * is the star, counts are powers, an atom is the set of its characters. For a pattern with anchors only around its branches, test says true exactly for the texts in that language, with anything before it if there is no ^ and anything behind it if there is no $. So two patterns with ^ and $ around their branches give the same answers on all texts exactly if they are equal as languages, and any law of Kleene algebra may be used to rewrite a pattern.", "quantifier": "every pattern with anchors only around the branches, every text, every engine", "why_tests_cant": "languages are infinite; equality of two patterns concerns all texts", "anchors": ["ere-core/src/lib.rs: Regex::test, pick_engine", "ere-core/src/simplified_tree.rs", "README.md"]}
{"id": "C77", "title": "Patterns describe regular languages", "statement": "The set of texts in which a pattern matches is a regular language (accepted by a finite automaton), for every pattern with anchors anywhere. For instance no pattern matches exactly the texts made of some a followed by as many b.", "quantifier": "every pattern, every text", "why_tests_cant": "a statement about infinite sets of texts and about all patterns", "anchors": ["ere-core/src/engines/flat_lockstep_nfa.rs", "ere-core/src/lib.rs: Regex::test"]}
{"id": "C78", "title": "Lower-casing the text is as good as a pattern that ignores case", "statement": "Take a pattern that does not ask for upper-case letters (each of its atoms that accepts a character accepts its ASCII lower-case version), and modify it so that each atom accepts a character if the original atom accepts it in upper or lower case, for instance x into [xX]. Then test of the modified pattern on a text is test of the pattern on the lower-cased text, and exec reports the same positions, which are also positions of the text as it is. The condition on upper-case letters is needed.", "quantifier": "every such pattern with anchors only around the branches (for the flat engines: anywhere), every text, every engine", "why_tests_cant": "it relates two patterns on all texts; ROADMAP.md only asserts it", "anchors": ["ROADMAP.md: Case-insensitive mode", "ere-core/src/lib.rs: Regex::test, Regex::exec, pick_engine", "ere-core/src/parse_tree.rs: Atom::check"]}
{"id": "C79", "title": "Debug assertions never fail", "statement": "Whether the macro crate is built with or without debug assertions makes no difference: compile_regex! and the attribute macro give the same result on every pattern, so none of the seven debug assertions in their code can fail.", "quantifier": "every pattern text, every number of struct fields, every table of byte sequences for character ranges", "why_tests_cant": "tests run a few patterns with the assertions switched on; that no pattern breaks one, however its automaton is merged and split, needs the invariants of the optimiser, of the determinisation and of the minimisation", "anchors": ["ere-core/src/working_nfa.rs: 658, 884", "ere-core/src/working_u8_dfa.rs: 608, 610, 622, 770, 771", "ere-core/src/lib.rs: __compile_regex, __compile_regex_attr"]}
{"id": "C80", "title": "A list of fixed strings is a search for these strings", "statement": "For any strings, written with special characters escaped, separated by |, all with ^ in front or none, all with $ behind or none (^ alone only if no string is empty): compile_regex gives a program and the attribute macro one for a struct with one field, they compile, and without a panic test says whether one of the strings occurs (contains, starts_with, ends_with or == of the standard library, depending on the anchors), and exec returns the byte range of the first place where one occurs, of the first of them in the given order that stands there, or None. Instance: the fifty state abbreviations of the tests, on every text.", "quantifier": "every list of strings of any length, in any script, every text, whichever engine is chosen", "why_tests_cant": "infinitely many strings and texts; overlapping strings, repeated prefixes and characters sharing bytes interact with determinisation and priorities", "anchors": ["ere-core/src/lib.rs:58-152", "ere-core/src/parse_tree.rs: Atom::take", "ere-core/src/working_u8_dfa.rs", "ere-core/src/engines/fixed_offset.rs", "tests/pure_regex.rs:294-328"]}
{"id": "C81", "title": "The patterns of the documentation do what they are for, on every text", "statement": "compile_regex on the README pattern for telephone numbers gives a Regex<2> that compiles, and on every text, without a panic, exec answers exactly for three digits, -, three digits, -, four digits, possibly after '+1 ', with group 1 the '+1 ' or None; on the README pattern for colours it gives a Regex<5>, and the attribute macro a struct with five fields, and exec answers exactly for six or eight hexadecimal digits, possibly after #, with groups of two digits each and None for a missing opacity; test says whether exec answers.", "quantifier": "every text, of any length and in any script", "why_tests_cant": "infinitely many texts; the README checks fourteen of them (one of its assertions is false: it expects 1F2E3D for 1F2e3D)", "anchors": ["README.md:12-64", "ere-macros/src/lib.rs:168", "ere-core/src/lib.rs:58-152", "ere-core/src/lib.rs:256-379"]}
{"id": "C82", "title": "A sequence of classes reads a text field by field", "statement": "Let a pattern be a sequence of characters and classes (not [:graph:] or [:xdigit:]), each with a greedy quantifier or none and each in parentheses or not, possibly with ^ in front and $ behind, such that no class of variable length contains a character with which what follows it may begin, and at least one character is demanded (identifiers, numbers, dates, key=value, addresses). Then compile_regex gives a program and the attribute macro one for a struct with one field per group, they compile, and on every text, without a panic, test and exec do what reading by hand does: at the first place where it succeeds, every field is the longest run of its class, never shortened; exec returns the byte range of the whole and of every parenthesised field, all of them present. With ^ and $ a text is accepted exactly if it consists of strings for the fields. Further instances, on every text: the patterns :[[:alnum:]_]{2,}: and nee+dle of the tests.", "quantifier": "every such pattern of any length with any classes and bounds, every text in any script, whichever engine is chosen", "why_tests_cant": "infinitely many patterns and texts; that backtracking, determinisation and merging of threads never give a different division than the longest runs is a statement about all of them", "anchors": ["ere-core/src/lib.rs:58-152", "ere-core/src/working_nfa.rs", "ere-core/src/working_u8_dfa.rs", "ere-core/src/engines/one_pass_u8.rs", "ere-core/src/parse_tree.rs:216-270", "tests/pure_regex.rs:121-150", "tests/pure_regex.rs:370-398"]}
{"id": "C83", "title": "Repeated exec with a class and + finds the runs of the class", "statement": "For every character or class (not [:graph:] or [:xdigit:]) that contains a character, compile_regex with the class followed by + gives a Regex<1> that compiles, and calling exec again and again on what follows the match finds exactly the runs of characters of the class in the text, each as long as possible, in order, as byte ranges, without a panic (words, numbers, items between commas). With ^ in front and $ behind, test says whether the text is not empty and consists of characters of the class.", "quantifier": "every class, every text of any length and in any script, whichever engine is chosen", "why_tests_cant": "infinitely many classes and texts; the loop runs any number of times", "anchors": ["ere-core/src/lib.rs:58-152", "ere-core/src/lib.rs:25-39", "ere-core/src/working_u8_dfa.rs"]}
{"id": "C84", "title": "Alternatives of sequences of classes are a lexer", "statement": "Let a pattern consist of alternatives, each a sequence of characters and classes (not [:graph:] or [:xdigit:]) with greedy quantifiers, in parentheses or not, such that within an alternative no class of variable length contains a character with which what follows may begin; all with ^ in front, then each demanding a character, or none. If some text uses the last group, compile_regex gives a program and the attribute macro one for a struct with one field per group, they compile, and on every text, without a panic, exec returns the first token: at the first place where any kind of token can be read (with ^: at the beginning), the first kind in the order of the alternatives, every field as long as possible, the byte ranges of its parenthesised fields, and None for those of all other kinds; test says whether there is one.", "quantifier": "every such pattern with any number of alternatives, every text, whichever engine is chosen", "why_tests_cant": "infinitely many patterns and texts; alternatives compete, and a wrong priority or a leaked group of another alternative shows only for particular combinations", "anchors": ["ere-core/src/lib.rs:58-152", "ere-core/src/lib.rs:256-379", "ere-core/src/working_u8_dfa.rs", "ere-core/src/simplified_tree.rs"]}
{"id": "C85", "title": "A pattern for a list with a separator splits the text at the separator", "statement": "Let the pattern be ^item(sep item)Q$ with a separator character that no string for the item contains and a quantifier Q. If the emitted program compiles, test splits the text at the separator and says whether every piece is a string for the item and the number of separators is within the bounds of Q; exec finds something exactly then, reports the whole text as group 0, and for the parentheses of the repetition the stretch from the last separator to the end of the text, or None if there is no separator. If the item is a sequence of classes with quantifiers none of which contains the separator (not [:graph:] or [:xdigit:]), of variable length only where the next character decides, and demands a character, compile_regex gives such a program and it compiles: lists of numbers, dotted addresses, version numbers.", "quantifier": "every item, separator and quantifier of this form, every text with any number of pieces, whichever engine is chosen", "why_tests_cant": "infinitely many items and texts; the number of rounds has no bound, and a group in a repetition must report the last round", "anchors": ["ere-core/src/lib.rs:58-152", "ere-core/src/simplified_tree.rs", "ere-core/src/working_u8_dfa.rs", "ere-core/src/engines/one_pass_u8.rs"]}
{"id": "C86", "title": "Where the next character decides, exec is a reader without backtracking", "statement": "Let the pattern be such that at every alternative and at every repetition the next character alone tells how to go on, let every round of an unbounded repetition consume a character, and let anchors stand only around the branches. If the emitted program compiles, test and exec do on every text exactly what a predictive reader does that goes through the pattern from left to right, takes the first branch whose first character fits, repeats as long as the next character may begin a further round, and never takes a choice back; it is tried at each position of the text from the left, and the groups are the stretches read for their parentheses, the last round of a repetition counting. If something can be read, nothing can be read in the empty text (or there is no ^) and the classes are not [:graph:] or [:xdigit:], compile_regex gives such a program and it compiles. Example: ^\"([^\"\\]|\\\\.)*\"$ accepts exactly the quoted strings with backslash escapes. Instance: the ISO 8601 time pattern of the tests reads, on every text, a time of day as one would by hand (T or not, hours up to 23, minutes and seconds up to 59, a fraction or none) and reports hour, minute, second and fraction.", "quantifier": "every pattern with this property, every text, whichever engine is chosen (and each engine by itself)", "why_tests_cant": "infinitely many patterns and texts; the emitted automata follow all alternatives at once, or are determinised, and share no structure with such a reader", "anchors": ["ere-core/src/lib.rs:58-152", "ere-core/src/engines/dfa_u8.rs", "ere-core/src/engines/one_pass_u8.rs", "ere-core/src/engines/flat_lockstep_nfa.rs", "ere-core/src/engines/flat_lockstep_nfa_u8.rs", "tests/pure_regex.rs:242-273"]}
{"id": "C87", "title": "Records are cut at their separators; the IPv4 and the date pattern are right for every text", "statement": "Let a pattern be ^(i1)s1(i2)s2...(in)$ with fields i1..in that are patterns without anchors and groups, and separator characters such that no string of a field contains the separator behind it. If the emitted program compiles, test and exec do on every text what one would write by hand: cut the text at the first s1, what follows at the first s2, and so on, and compare every piece with its field; if all fit, exec reports the whole text as group 0 and the pieces as groups 1 to n, otherwise None. If there is a separator, every field can match something and the classes are not [:graph:] or [:xdigit:], compile_regex and the attribute macro give such a program and it compiles, and the flat, one-pass and DFA engines give the same answers. Instances: the IPv4 pattern of the benchmark and of the tests accepts exactly the texts a.b.c.d with four numbers up to 255 in decimal notation without leading zeros and reports the four numbers; the date pattern of the tests accepts exactly yyyy-mm-dd with months 1 to 12 and days 1 to 31 and reports the three fields.", "quantifier": "every list of fields and separators with these properties, every text, whichever engine is chosen (and each engine by itself); for the instances: every text", "why_tests_cant": "the test of the repository tries ten thousand of the 2^32 addresses and six of the infinitely many other texts; the ambiguous alternatives of a field (25 against 2[0-4][0-9] against [0-9]) are resolved only by what follows", "anchors": ["tests/pure_regex.rs:83-117", "tests/pure_regex.rs:220-238", "benches/ere_benchmark.rs:193-197", "ere-core/src/lib.rs:58-152", "ere-core/src/engines/dfa_u8.rs", "ere-core/src/engines/flat_lockstep_nfa.rs", "ere-core/src/engines/flat_lockstep_nfa_u8.rs"]}
{"id": "C88", "title": "Delimited text: from the opening string to the next closing string", "statement": "Let a pattern consist of a literal opening string, a character class with *? or * (possibly in parentheses) and a literal closing string, like <!--.*?-->. compile_regex and the attribute macro give a program that compiles. On every text, exec reports the leftmost place where the opening string, a stretch of allowed characters and the closing string follow each other; at that place the stretch is the shortest one for *? and the longest one for *; the group in parentheses is this stretch; test says whether there is such a place. The flat engines and the DFA engine give the same answers when used directly. If all characters of the text are allowed, the lazy pattern does what text.split_once(open) followed by split_once(close) on the rest does, and calling exec again and again on what follows a match finds exactly the delimited stretches that repeated split_once finds. If the closing string begins with a character that the class excludes, * and *? give the same. Instances: the comment pattern <!--.*?--> of the tests, on every text without NUL, and \"([^\"]*)\" on every text.", "quantifier": "every opening and closing string, every class that is not [:graph:] or [:xdigit:], greedy or lazy, with or without parentheses, every text, whichever engine is chosen; flat_char, flat_u8 and dfa_u8 by themselves whenever they give a program", "why_tests_cant": "the tests try a handful of comments; whether a partly read closing string (---->), an opening string inside the stretch or a missing closing string is handled depends on texts of any length", "anchors": ["tests/pure_regex.rs:400-430", "ere-core/src/lib.rs:58-152", "ere-core/src/engines/dfa_u8.rs", "ere-core/src/engines/flat_lockstep_nfa.rs", "ere-core/src/engines/flat_lockstep_nfa_u8.rs"]}
{"id": "C89", "title": "Quoted strings with escaped quotation marks", "statement": "For the pattern \"((\\\\\"|[^\"])*)\" of the tests (a quotation mark, pieces that are \\\" or any character but a quotation mark, a quotation mark), compile_regex and the attribute macro give a program that compiles and has three groups. On every text, exec reports a string that begins at the first quotation mark of the text; there is one exactly if the text has another quotation mark. It ends at the first quotation mark behind the opening one that has no backslash directly in front of it; if all of them have one, at the last. Group 1 is what lies between the two marks, group 2 its last piece (\\\" or one character), absent for the empty string. The three engines used by the test give the same answers when used directly.", "quantifier": "every text, whichever engine compile_regex picks; flat_char, flat_u8 and dfa_u8 by themselves whenever they give a program", "why_tests_cant": "a backslash is matched by both alternatives, so the number of ways to read a string grows exponentially with its backslashes, and where it ends depends on all that follows; the test has nine texts", "anchors": ["tests/pure_regex.rs:330-368", "ere-core/src/lib.rs:58-152", "ere-core/src/engines/dfa_u8.rs", "ere-core/src/engines/flat_lockstep_nfa.rs", "ere-core/src/engines/flat_lockstep_nfa_u8.rs"]}
{"id": "C90", "title": "The URI pattern of the tests takes every URI apart as one would by hand", "statement": "compile_regex!(r\"^([[:alpha:]][[:alnum:]-+.]+)://([^?#]+)([?][^#]*)?(#[^#]*)?$\") compiles and gives a Regex<5>. On every text, test is true exactly if the text is a letter with at least one further scheme character, then ://, then at least one character before the first ? or #, then possibly a query beginning with ?, then possibly a fragment beginning with # without a further #, and nothing behind; exec reports these four pieces, the query and the fragment as None exactly if there is no ? or # to begin them (a ? inside the fragment belongs to the fragment, a second ? to the query). The four engines of the test give the same answers.", "quantifier": "every text; compile_regex and each of the four engines", "why_tests_cant": "the tests have four well-formed URIs; they cannot exclude that some other text is accepted, rejected or split at another place", "anchors": ["tests/pure_regex.rs:623-681", "ere-core/src/lib.rs:58-152", "ere-core/src/parse_tree.rs"]}
{"id": "C91", "title": "Branches that differ only in their anchors: the first one that fits is reported", "statement": "For (^a$)|(^a)|(a$)|(a), a Regex<5>, exec reports on every text the first a as the whole match, and exactly one of the four groups, with the same stretch: the first if the a is the whole text, the second if it is at the beginning but not the whole text, the third if it is at the end but not at the beginning, the fourth otherwise; None if there is no a.", "quantifier": "every text; the DFA engine and the two flat engines", "why_tests_cant": "the tests have four texts; where the first a stands and what is around it is unbounded, and anchored transitions are compiled separately for the beginning, the end and the middle of the text", "anchors": ["tests/pure_regex.rs:683-699", "ere-core/src/engines/dfa_u8.rs", "ere-core/src/working_u8_dfa.rs"]}
