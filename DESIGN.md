# Formal model of `ere` (compile-time ERE regex engine)

All claims are listed in `properties.jsonl` (C01, C02, ...); `MANIFEST.json` maps each to the theorems that
prove it. Property theorems are in `lean/Verif/Props/`, in the namespace `Ere.Props`.

## 1. Trusted base

* Lean 4.33.0 kernel. No axioms of our own; every property theorem depends at most on
  `propext`, `Classical.choice`, `Quot.sound` (checked with `#print axioms`). No `native_decide`,
  `bv_decide`, `sorry`, `unsafe` or `implemented_by`.
* The specifications in `lean/Verif/Spec/` (section 3): they say what the theorems mean.
* Our reading of `/repo` (never built or run). Each definition in `lean/Verif/Model/` cites the Rust lines it
  models and says where it simplifies.
* Rust semantics read into the model:
  * `char` is Lean's `Char` (Unicode scalar value); `str` is a list of `Char`, its bytes are
    `String.utf8EncodeChar` of each (Lean core), as `UInt8`.
  * `usize` is unbounded `Nat`; the sentinel `usize::MAX` for "capture not set" is `none`
    (a `str` is never longer than `isize::MAX`).
  * `Vec` is `List`; `&mut` becomes a returned value; a panic is an explicit error value (`Err`), including
    out-of-range indices, `expect` on `None`, failed `assert!`, and slices off a character boundary.
    A `debug_assert` is left out there; `Model/Debug` has the macros with all seven of them as panics, and C79
    shows that none can fail.
  * hash sets and hash maps are lists without duplicates. The code never iterates over one of them (it only looks up
    and inserts; the containers it iterates over are vectors and ordered maps), so their order cannot matter.
  * the generated Rust program is modelled by the function it computes (its `match` tables are
    evaluated directly). Whether the emitted tokens compile is modelled where a property is about that:
    names in the tokens of atoms (C38, C40), variables out of scope and `compile_error!` in the one-pass
    engine (C39), array lengths in the wrapper and the attribute macro (C44, C45).
* `utf8_ranges::Utf8Sequences` is an external crate which is not in the repository. Its contract
  ("the byte-range sequences match exactly the UTF-8 encodings of the characters in the range")
  is a hypothesis structure (`Utf8Seqs`); `utf8Crate` is an implementation proved to satisfy it.

Not modelled: proc-macro plumbing (`syn`, `quote`, spans, parsing of the annotated struct), documentation texts,
`Display` of automata as plain text (it does not show what kind an epsilon transition has), `config.rs` (its only
mode is greedy, so `quantifiers_prefer_longest` is the constant true, which `Tree` has written in), benchmarks, running times (C51 and C64 count steps), stack overflow of very deep recursion, overflow of `usize` arithmetic.

## 2. What is modelled

| model file | repository |
|------------|------------|
| `Atom` | `parse_tree.rs`: classes, brackets, `check`, `to_ranges`, `PartialEq` |
| `Parse` | `parse_tree.rs`: `take` functions, `parse_str`, `Display` |
| `Tree` | `parse_tree.rs` data types; `simplified_tree.rs` |
| `NFA`, `Opt`, `Dfs` | `working_nfa.rs` and the identical passes of `working_u8_nfa.rs`: construction, every optimisation pass, `new`, `test` |
| `U8NFA` | `working_u8_nfa.rs`: byte automaton, prefix trees, `U8NFA::new` |
| `EpsProp` | `epsilon_propogation.rs` |
| `Flat` | `flat_lockstep_nfa.rs`, `flat_lockstep_nfa_u8.rs`: emitted `test` and `exec` |
| `TDFA` | `working_u8_dfa.rs` (tagged and untagged DFA, minimisation), `dfa_u8.rs` (emitted `test` and `exec`) |
| `OnePass` | `one_pass_u8.rs`: tables, both kinds of emitted program |
| `Meta` | `topological_ordering`, `fixed_offset.rs`, `num_capture_groups`, `capture_group_is_optional` |
| `Tokens` | `ToTokens` of atoms and automata, `nfa_static.rs` |
| `Draw` | `visualization/` and the four `to_tikz`; coordinates are integers (exact up to 2^53 states) |
| `Work` | the emitted `test` and `exec` of all engines once more, counting the states, transitions and threads looked at; proved to return the same |
| `CompileWork` | `get_fixed_offsets` once more, counting the iterations of its loop |
| `Calls` | the functions called by the functional one-pass program |
| `Debug` | the macros with their debug assertions |
| `Engines`, `Pick` | `lib.rs`: every macro, the choice of the engine, the attribute macro |

`Tests/Repo` (no theorems) evaluates the model on the patterns and texts of the tests of the repository
(`tests/pure_regex.rs`, unit tests, README) and fails to build if an answer or the refusal of a pattern differs.

The code for characters and for bytes is duplicated in the repository; the model is generic (`NFA σ`) and both
copies are cited.

## 3. Specifications

* `Spec/Grammar`: which texts spell which patterns (a plain grammar, no parser state).
* `Spec/Semantics`: `Matches e pre mid post` ("in the text `pre ++ mid ++ post` the pattern matches exactly
  `mid`"), `MatchesIn`; runs of simplified trees.
* `Spec/Captures`: `Captures e text S` ("`S` is the list of stretches captured in some match").
* `Spec/Priority`: all matches in the order in which a backtracking matcher following Perl's rules finds them,
  and `ERE.first`, the first of them.
* `Spec/Syntax`: simple syntactic conditions on patterns (`hasStart`, `StartSimple`, `progress`, `evenAnchors`, ...).
* `Spec/Nesting`: which group is written inside which, and whether a group is under a repetition.
* `Spec/Size`: the size of a pattern with counted repetitions written out.
* `Spec/Longest`: the longest of the leftmost matches; steady patterns, in which one can see at each place how to go on.
* `Spec/Perl`: the match that Perl prefers, also with empty rounds.
* `Spec/OrderLaws`: laws of patterns that do not change which match is preferred.
* `Spec/Scan`: all occurrences of a pattern in a text, one after the other.
* `Spec/Decided`: patterns in which the next character decides at each choice; the only match that starts leftmost.
* `Spec/Posix`: the POSIX grammar of extended regular expressions (XBD 9.5.3) as a derivation of the tree, and the POSIX meaning of atoms with the members of the classes listed. Written from memory of the standard (no network): what the standard leaves undefined is left out.
* `Spec/Language`: the language of a pattern in Mathlib's Kleene algebra of languages; a second description of what a pattern means, independent of the relation of `Spec/Semantics`.
* `Spec/Case`: ASCII upper and lower case, and patterns of the same shape with other atoms (the two ways to ignore case named in `ROADMAP.md`).
* `Spec/Words`: the search for fixed strings (`find`, `starts_with`, `ends_with` and `==` of the standard library, for several strings at once).
* `Spec/Documented`: what the two patterns of the README are for, as functions on texts (no regular expressions).
* `Spec/Fields`: reading a text field by field, each field a run of characters of a class, as long as possible and never given back (no regular expressions); when fields are separated; what it means that a text consists of fields.
* `Spec/Runs`: the runs of characters of a class in a text, found by going through it once.
* `Spec/Lexer`: several kinds of tokens, each given by fields; the first kind that can be read counts (no regular expressions).
* `Spec/Lists`: splitting a text at a character, and where the last separator is (no regular expressions).
* `Spec/Predict`: the predictive reader: which character may come next (`look`), and reading a pattern from left to right without taking a choice back (`ERE.read`, `ERE.readFrom`).
* `Spec/Records`: cutting a text at the first occurrence of each separator in turn (`cutAt`), where the pieces lie (`stretches`), numbers in decimal notation, IPv4 addresses and dates as they are written.
* `Spec/Delimited`: the leftmost opening string that is followed by allowed characters and the closing string (`enclosedIn`), `str::split_once` (`onceSplit`), and cutting off one delimited stretch after the other with it (`allEnclosed`).
* `Spec/Quoted`: reading a quoted string with escaped quotation marks piece by piece (`quotedBody`, `quotedIn`).
* `Spec/Clock`: reading a time of day by hand.
* `Spec/Uri`: taking a URI apart by hand.
* `Spec/Anchored`: the first `a` and how it stands in the text.
* `Spec/Framed`: patterns with anchors only around the branches; patterns that match texts of any length; patterns for
  which the text determines the captures.
* `Spec/Width`: patterns of fixed width, `^…$` (the kind described in fixed_offset.rs 1-13).
* `Spec/Laws`: laws of regular expressions, as a relation between patterns.
* `Spec/Picture`: a reader for the fragment of TikZ in which automata are drawn, and what a good layout is.

None of them mentions trees, automata or engines (except the run relation of trees, used for C10-C12, and the kinds
of epsilon transitions that a label can name, for C47).

## 4. Method

1. parser against the grammar: soundness and completeness by induction on the parser and on the grammar.
2. pattern → `Tree` → automaton: Thompson invariants (exact runs with offsets and captures).
3. each optimisation pass: weak (bi)simulations that keep offsets, captures and the order of anchors and marks;
   termination measures.
4. bytes: UTF-8 prefix freeness; every character step is simulated by byte steps and vice versa.
5. engines: executable models of the generated programs; `test`/`exec` proved against the accept relation.
   `Ready` (Proofs/Pipeline) collects what the engines rely on. Flat: set simulation plus thread invariants.
   DFA: simulation of labelled state sets; minimisation by partition refinement. One-pass: uniqueness of the run.
6. order of matches (Proofs/First*): `FstL`/`Fst` say which accepting run comes first when the edges of a state
   are tried in order. Construction, every pass, the byte automaton and epsilon propagation are proved to keep
   the first run; the thread lists of the flat engines and of the tagged DFA are proved to keep it first.

| id | proof idea |
|----|------------|
| C01, C02 | invariants of the merge/subtract folds; arithmetic on code points |
| C03, C04 | soundness from C01; completeness by uniqueness of canonical range lists; false with reversed ranges: witness |
| C05–C07, C42, C43 | induction on the grammar and the parser; C07 false: witness |
| C08, C09, C37 | structural induction |
| C10, C11 | structural induction; C11 false for `UpTo`: witness + partial |
| C12 | Thompson invariants |
| C13, C14 | weak bisimulation; measure states + epsilons |
| C15, C16 | composition; UTF-8 prefix freeness, trie invariant |
| C17 | false for unmatchable patterns: witness + partial, exact criterion on the automaton; for patterns with anchors only around the branches (`Spec/Framed`) it returns exactly if some text matches |
| C18, C19, C22, C23, C25, C30, C36 | set simulation; thread invariants; C22, C23, C25 false for the DFA engine: witnesses |
| C24 | as C23 where the engines are right; for the DFA engine also where it is wrong: labels of states (Proofs/Labels, DfaSafe) tell whether a group is open and how many bytes of a character are missing |
| C20, C32–C34 | simulation; false with `^` (`expand` ignores `start_only`): witness + partial for `StartSimple` patterns: no `^`, or every way through crosses a `^` with none after it (Proofs/Lead: the front loop then loses its symbol), or the empty text is not matched; for every pattern: all matches are found, and a wrong report is a match of the pattern without `^` at the end of the text (Proofs/DropStart: an automaton with `^` erased, the passes as simulations) |
| C21, C39 | single-thread simulation; C39 false: witnesses, exact characterisation, partial. On patterns: states are labelled by the side of `^` and `$` they are on; passes keep the labels, so every path of the automaton is part of a match, and cycles, anchored ends and double ends of the automaton become statements about the texts that match |
| C26 | colours of states (Proofs/Front: before, on or past the front loop), then: threads are kept in the order of their starts (Proofs/Leftmost*) |
| C27, C46 | order of runs (step 6); false in general: witnesses + partial |
| C28, C29, C31, C35 | path arguments; DFS invariant; C29 false: witness + partial; C28 for the DFA engine on every pattern by labels (Proofs/DfaMandatory) |
| C38, C40 | tables of names; C38 false for two classes |
| C41, C44, C45 | composition; all false: witnesses + partial. With fixed offsets no anchor can be crossed late (Proofs/FixedSafe), so that engine is always right |
| C47, C48 | every line is read back to what was written (Proofs/DrawRead, DrawPicture): escaped text keeps braces balanced and backslashes paired; labels of bytes by a complete table of 256 |
| C49, C50 | depth-first search with colours decides acyclicity and reachability (Proofs/DrawDag); depths are lengths of longest walks (Proofs/DrawLayout); C50 false: witness + partial |
| C51 | the threads of the flat engines are distinct states, so a step costs at most the size of the tables; one pass over the text |
| C52, C55, C56 | induction over the derivations of `Captures`; C55 false for repeated groups: witness + partial |
| C53, C54 | induction over derivations of matches; a pattern without `$` that matches the empty text matches every text, so that `test` of the DFA is right for all patterns without `$` (`C20_dfa_no_end_partial`) |
| C57, C58 | weights of automata (Proofs/Size): construction adds a constant per node, no pass enlarges; byte sequences per range counted in Proofs/SizeBytes; C58 false: every subset of empty groups is a different update of the same thread (Proofs/Blowup) |
| C59 | the merging loop ends with pairwise different states; false: states that lead to themselves are never merged |
| C60 | an automaton without cycle reads fewer bytes than it has states, but a match with text around it could be extended at will; the end of group 0 is the same constant for all walks |
| C61 | states are labelled by phase (before `^`, between the anchors, after `$`), bytes read and captures recorded; construction, passes and translation to bytes keep the labels, and `clearZeroSymbol` leaves symbols between the anchors only; so walks to one state agree and phase + bytes + captures grow along every cycle |
| C62 | DFA minimisation never emits `compile_error!`, offsets are one per group, plain symbols compile (C38): so only the one-pass engine fails, for which C39 applies |
| C63 | with anchors only around the branches every walk of the automaton (phases of C61) is a run over some bytes, hence a match of some text; without this condition a walk can contain a `^` after a byte |
| C64 | an entry is popped for every walk; texts over `0` and `a` need different walks, since a byte range with both contains `:`, and by the phases of C61 every walk is a match |
| C65 | composition of C17, C62, C41, C44, C45 and C46: patterns with anchors only around the branches satisfy the conditions on `^` and on the order of preference |
| C66 | every call follows an edge of the automaton (a run: several), so it goes up in a topological ordering |
| C67 | walks of the automata are matches, as for C63 (here also of the character automaton, if its symbols stand for something); the analyses look at walks |
| C68 | cutting off the end and moving the text are partial maps of positions that carry the list of all ways to match along in order (Proofs/Cut: closed under sequence, alternatives, repetition), so the preferred match is carried along |
| C69 | the lists of all ways to match are compared by place (Proofs/Longest): numbers of groups and captures so far make no difference to the places reached, a group may be flattened into what follows it, and in a steady pattern the head of the list goes furthest; SteadyERE is stated with the matching relation only (Spec/Longest), and lemmas sameEnd_*, apart_* make it checkable |
| C70 | `ERE.perl` (Spec/Perl) extends the list of all ways to match to patterns with empty rounds; sound, complete up to empty rounds and leftmost for every pattern (Proofs/Perl); equal to the list of C46 if every round consumes, since then both loops end by running out of text |
| C71 | `OrdERE keep` (Spec/OrderLaws) relates patterns by laws that keep the order of preference; each law is shown to leave the list of all ways to match unchanged, place by place (`Alike`, Proofs/OrderLaws), with the captures if `keep`; so the first is the same and C46 carries it over to the engines. With `$` behind the branches the whole match is determined by being leftmost (`C46_framed_whole`), which removes the condition on the one-pass engine |
| C72 | from C23 and C26: without `^` what precedes does not matter to a match, so `exec` on the rest finds what comes next in the whole text (`FindsLeft.rest`); induction on the length of the rest gives the list `ERE.Scans` (Spec/Scan), induction on that list that it is sound, ordered and complete |
| C73 | mutual induction on the pattern with the set `F` of what may be seen behind it: what `sees` promises holds (`CapERE.seen`), and two ways to match from one place with `F` behind them are equal (`ERE.Decided.once`, Proofs/Decided); with C23 and C26 this gives the report of each engine; no argument about the order inside the engines is needed |
| C74 | induction on the POSIX derivation gives a derivation of the accepted grammar (`posix_items`, `posix_ere`), then C43; the four constructs that differ are settled for every character by C43 and inversion of the semantics |
| C75 | classes: both sides are false outside ASCII, inside ASCII the table is checked whole; the rest follows by cases. This also makes the meaning of atoms in Spec/Semantics (which uses `Atom.check`) independent of the code |
| C76 | mutual induction on derivations and on patterns (`MatchesERE.lang`, `ERE.of_lang`); a quantifier is a choice of a power (`mem_qlang`); then C41 |
| C77 | the loop of the flat engine over characters depends on the rest of the text only through the vector of states (`runFrom_append`), so there are finitely many left quotients; then Myhill and Nerode (Mathlib) and C18 |
| C78 | a map of characters commutes with matching (`AltERE.map`) and, if it keeps the lengths in bytes, with the enumeration in order of preference (`AltERE.through`), by mutual induction on the pattern; then C41 and C65 |
| C79 | the macros with the assertions as panics (`Model/Debug`) equal the macros without: first and last state stay alive in `optimize_pass`; `splitRanges_spec` (C31) and `mergePairs_spec` (C33) hold for all inputs; merging keeps the ranges, so it keeps validity |
| C80 | the list of all ways to match such a pattern is computed (`try_words`): its head is the first string that stands at the place; so the preferred match is `findWord` (Spec/Words); bounded length or one reading gives that the program compiles (C62), the rest is C29, C46, C65; the pattern of the states in `Props/Instances` |
| C81 | the rules of matching are inverted for the two patterns (`phone_captures`, `color_captures`), which gives a function that reads the text (`ReadBy`); `readBy_regex` and `readBy_attr` turn such a function into the answers of the emitted program (C29, C44, C45, C65); that the program compiles is C62, for `[:xdigit:]` by `symbol_occurs`: a symbol of the trimmed automaton occurs in an accepted text, so a pattern that matches only ASCII texts never gets the engine over characters |
| C82 | the ways in which a class with a quantifier is tried are the longest run and then shorter ones (`try_base`); after a shorter one the next character belongs to the class, so what follows cannot begin and everything fails (`try_blocked`); hence the preferred match at a place is the reading (`try_fields`), and the first place is a scan (`firstFrom_scan`). With `$` the pattern is one for which the next character decides (`fields_decided`), so C73 and C46 apply to all engines; without it `C65_framed_preferred`. `C82_whole` says what the reading accepts; two patterns of the tests in `Props/Instances` |
| C83 | a text is split before and behind its first run (`run_split`); C82 says that `exec` finds this run (`read_first`), and the loop of C72 (`scanAll`) goes on behind it (`scan_runs`, induction on the length of the text) |
| C84 | the preferred match at a place is the reading of the first alternative that succeeds (`try_lex`, from `try_fields`); the numbering of the groups over the alternatives is `lex_answer`; that the last group is used somewhere is a hypothesis (C29 needs it, as in `a\|(a)`) |
| C85 | the language of `^item(sep item)Q$` is compared with splitting the text (`list_lang`, from `mem_qlang` of C76); the program compiles because the list is not bounded or, for items of fields, because the next character decides (`list_decided`, C73); the last round of the repetition is `times_last` |
| C86 | what the reader reads is a match (`read_sound`); where the next character decides it reads every match that starts there (`read_full`, by the rounds of `C73`'s `Decided` and `progress`); the reported match is the only one (C73), hence what was read (`onlyOk_read`); the program compiles because the reading is unique from `^` on or the pattern is not bounded; the time pattern of the tests in `Props/Clock`: every part of the reader is a step of the reader by hand (`read_hour`, `read_second`, `clock_read`) |
| C87 | the language of the parts is compared with cutting (`record_lang`); every capture is the list of the pieces (`record_cap`), so the reading is unique and the program compiles by C62; the languages of the fields of the two instances are sets of numbers in decimal notation (`octet_lang`, `year_lang`, `month_lang`, `day_lang`) |
| C88 | the attempts at one place are the bodies in order of length (`try_rounds`, `try_delim`), so the first attempt of the reference search is `enclosedIn` (`first_delim`, `delim_answer`); the program compiles since every match has one last use of the group (`delim_lastUsed`); with all characters allowed, a failing first opening excludes later ones (`in_split`) |
| C89 | the attempts at a string are the readings piece by piece, `\"` before `\` (`try_piece_esc`, `try_pieces`), so the first attempt of the reference search is `quotedIn` (`first_quotedIn`); where it ends by induction over the pieces (`quoted_ind`) |
| C90 | the reader of C86 on this pattern is `uriPlaces` (`uri_read`, part by part); it reads every match (`uri_full`; not by `Decided`, because `[^#]` contains the `?` that begins the optional query, but part by part with `full_tail` for the single round), so the only match is what is read (`captures_read`) |
| C91 | the attempts at one place are computed for any rest (`try_anchored`), so the first attempt of the reference search is `firstA` (`first_anchored`); the DFA reports it (C46). That there is a program is computed by the kernel step by step (`anchored_program`). Not proved: the flat engines, as the pattern is not `evenAnchors` |

## 5. Disagreements found between the code and its promises

Each is a theorem with a concrete witness. What remains true is the theorem with the suffix `_partial`.

| theorem | witness | what happens |
|---------|---------|--------------|
| `C03_atom_eq_semantic_false` | `[b-a]` and `[c-a]` | reversed ranges match nothing but compare unequal |
| `C04_ranges_minimal_false`, `C04_ranges_overlap_witness` | reversed ranges | `to_ranges` is not minimal |
| `C07_negation` | any rejected pattern | `parse_str` reports `InvalidAtom(')')` whatever is wrong, even if the text has no `)` |
| `C11_min_bytes_false`, `..._pattern` | `a?` | `min_bytes` is 1 but the empty text matches |
| `C17_negation` | `a{2,1}`, `a^b`, `[b-a]` | the macro panics (empty automaton) |
| `C20_dfa_test_negation`, `C23_negation`, `C41_negation`, `C45_negation` | `(^\|b)$` on `x` | the DFA engine, which `compile_regex!` chooses, answers true: the accept computed by `expand` ignores `start_only` |
| `C23_no_end_negation` | `x*(^\|b)` on `xx` | for the same reason `exec` of the DFA engine reports all of `xx`; only the empty text at the beginning matches |
| `C22_negation` | `^(a\|$)(^\|b)` on `ac` | for the same reason `test` of the DFA engine is true and `exec` returns `None` |
| `C27_negation`, `C46_negation` | `(()\|(^))a` on `a` | the flat engines report the right alternative, the DFA engine the left one |
| `C46_one_pass_negation` | `^a+(\|())$` on `a` | the one-pass engine reports the last alternative |
| `C29_negation`, `C29_dfa_negation` | `(a){0}b`; `\|()` | the engine has fewer groups than the pattern |
| `C38_negation` | `[:graph:]`, `[:xdigit:]` | the tokens name items that do not exist |
| `C39_negation` | `^a*$`; `^(\|())$` | the one-pass program uses a variable out of scope; emits `compile_error!` |
| `C62_negation` | `^`; `^[0-9]*$`; `^(\|())$` | `compile_regex!` chooses the one-pass engine and emits a program that does not compile (for the reasons of `C39_negation`) |
| `C81_readme_negation` | README line 41-44 | the README asserts the whole match `1F2E3D` for the text `1F2e3D`; the answer is `1F2e3D` |
| `C63_other_anchors` | `^($\|b)(^cc\|d)$` | only matches `bd`, in one way, but has no fixed offsets: `clean_start_anchors` keeps the `^` of `^cc` because of a `$` that `clean_end_anchors` removes later (a missed optimisation, not an error) |
| `C64_negation`, `C64_digest` | `^[0-9a-f]{64}$` | the macro follows every path of the automaton separately, here more than 2^64: it does not end in practice |
| `C44_negation` | `\|()` | the attribute macro declares two fields, the engine has one group |
| `C67_negation_attribute` | `^([b-a])?$` | the attribute macro declares two fields, the engine has one group: the class stands for no byte, so the group disappears from the byte automaton only |
| `C67_negation`, `C67_negation_dead` | `^(a\|$)(^b\|(c))$`; `[b-a]\|(c)` | a field is declared optional although every match sets it (harmless) |
| `C68_negation` | `(a)$\|a` on `ab`; `(^a)\|a` on `ba` | the groups reported depend on text outside of the match (as they should; shows that the condition of C68 is needed) |
| `C69_negation` | `a\|ab` on `ab`; `a*(ab)?` on `aab` | the match reported is not the longest of the leftmost ones, which POSIX demands; README.md 69 reserves other rules for submatches only |
| `C70_negation` | `(\|a)*` on `aaa` | Perl breaks the loop after the empty round and reports the empty match; reported is the first byte, which is neither that nor the longest match nor what `(\|a){0,3}` gives; patterns with the empty way last, such as `(a*)*`, are not affected in the cases computed |
| `C71_negation` | `a\|ab` and `ab\|a`; `a+` and `a+?`; `a??(b\|a)` and `a??b\|a??a` | not a defect: the laws of C54 that C71 leaves out do change which match is reported |
| `C27_negation_whole` | `a\|^ab` on `ab` | the flat engines report `ab`, the DFA engine `a`, which Perl prefers: the flat engines try ways that cross `^` before all others |
| `C72_negation` | `^a` on `aa` | calling `exec` again on the rest finds `^a` twice; there is no way to pass a place in the text |
| `C73_negation` | `(^\|b)$` on `x` | the defect of C20 again, in a pattern in which the next character decides |
| `C74_paren` | `a)` | POSIX: an unmatched `)` stands for itself; the parser rejects it |
| `C74_collating`, `C74_equivalence` | `[[.a.]]`, `[[=a=]]` | POSIX: both stand for `a`; the parser accepts them as a bracket expression `[[.a.]` followed by a literal `]`, so they never match `a` and no error tells |
| `C74_bracket_range` | `[]-a]` | POSIX: the range from `]` to `a`; the parser reads the three characters `]`, `-`, `a` |
| `C55_negation` | `((b)\|a)*` on `ba` | the inner group keeps the position of the first round, so it lies before the outer group |
| `C50_loops_negation` | `^a*b$` | in the layered drawing of the DFA a self-loop is a straight edge from a node to itself (`x_next - x` is 0) |
| `C54_negation` | `^(a\|$)(^\|b)` and `^a(^\|b)\|^$(^\|b)` on `a` | patterns that differ by a law have different answers: the error in `expand` shows in only one of them |
| `C58_negation` | `(()\|())` n times | epsilon propagation lists every path with different captures: `2^n` updates, in the generated program too |
| `C59_negation` | `^ac*$\|^bc*$` | the "DFA minimization" merges only states with equal transitions, so two equivalent self-looping states stay apart |
| (by reading) | `ere-macros/src/lib.rs:144` | the doc comment declares `Regex<2>` for a pattern with four groups; such a program is rejected by the compiler |

`progress` (unbounded repetitions consume at least a character per round) in the theorems about preferred
matches: for others, such as `((a)*?)*`, matchers differ in how they cut off empty rounds, so there is no
single rule to compare with; the engines still report a match (C23).

## 6. Tests of the theorems against wrong programs

`seeded/LOG.jsonl` records, for each deliberate bug put into a copy of the model, which theorems no longer
prove, and which theorems were tightened because they still did.
