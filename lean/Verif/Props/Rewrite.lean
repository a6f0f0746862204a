import Verif.Proofs.OrderLaws
import Verif.Proofs.Unset
import Verif.Props.Longest

/-!
# Property theorems about rewriting patterns without changing what is reported: C71

C54 says that the laws of patterns do not change whether a text is matched. Here: which of them do not change which match
is reported (`OrdERE`, Spec/OrderLaws.lean), and that the others do.
-/

namespace Ere.Props
open Ere

/-- Two results are alike: nothing is reported by both, or the same whole match, and if groups are kept the same captures. -/
def SameReport (keep : Bool) (res res' : Except Err (Option (List (Option (Nat × Nat))))) : Prop :=
  (res = .ok none ∧ res' = .ok none) ∨
  ∃ r r', res = .ok (some r) ∧ res' = .ok (some r') ∧ (r[0]?).join = (r'[0]?).join ∧ (r[0]?).join ≠ none ∧
    (keep = true → ∀ g : Nat, (r[g]?).join = (r'[g]?).join)

/-- The preferred match is not changed by the laws: not as a whole and, if groups are kept, in no group. (About the
specification; no engine involved.) -/
theorem C71_first {keep : Bool} {e e' : ERE} (h : OrdERE keep e e') (text : List Char) :
    (e.first text = none ∧ e'.first text = none) ∨
    ∃ S S', e.first text = some S ∧ e'.first text = some S' ∧ lastSpan S 0 = lastSpan S' 0 ∧ (keep = true → S = S') := by
  have := h.first text
  cases h1 : e.first text with
  | none =>
    cases h2 : e'.first text with
    | none => exact .inl ⟨rfl, rfl⟩
    | some S' => rw [h1, h2] at this; exact this.elim
  | some S =>
    cases h2 : e'.first text with
    | none => rw [h1, h2] at this; exact this.elim
    | some S' => rw [h1, h2] at this; exact .inr ⟨S, S', rfl, rfl, this⟩

theorem first_whole {e : ERE} {text : List Char} {S} (h : e.first text = some S) : lastSpan S 0 ≠ none := by
  obtain ⟨i, j, h1⟩ := lastSpan_zero (first_captures h)
  rw [h1]
  simp

/-- **C71.** Whatever engines run two patterns that differ by such laws: if they report the preferred match, they report
the same. -/
theorem C71_engines {keep : Bool} {e e' : ERE} (h : OrdERE keep e e') {text : List Char} {k k' : Nat} {res res'}
    (h1 : FirstOk e text k res) (h2 : FirstOk e' text k' res') : SameReport keep res res' := by
  have := h.first text
  rcases h1 with ⟨h1, k1⟩ | ⟨r, S, h1, k1, _, l1⟩ <;> rcases h2 with ⟨h2, k2⟩ | ⟨r', S', h2, k2, _, l2⟩ <;>
    rw [k1, k2] at this
  · exact .inl ⟨h1, h2⟩
  · exact this.elim
  · exact this.elim
  · refine .inr ⟨r, r', h1, h2, ?_, ?_, fun hk g => ?_⟩
    · rw [l1, l2]; exact this.1
    · rw [l1]; exact first_whole k1
    · rw [l1, l2, this.2 hk]

/-- **C71 (flat engine over characters).** -/
theorem C71_flat_char_partial {keep : Bool} {e e' : ERE} (h : OrdERE keep e e') (hp : e.progress = true)
    (hp' : e'.progress = true) (ha : e.evenAnchors = true) (ha' : e'.evenAnchors = true) {F F' : Flat Atom}
    (hF : compileFlatChar e = .ok F) (hF' : compileFlatChar e' = .ok F') (text : List Char) :
    SameReport keep (F.exec text text) (F'.exec text text) :=
  C71_engines h (C46_flat_char_partial hp ha hF text) (C46_flat_char_partial hp' ha' hF' text)

/-- **C71 (flat engine over bytes).** -/
theorem C71_flat_u8_partial (U : Utf8Seqs) {keep : Bool} {e e' : ERE} (h : OrdERE keep e e') (hp : e.progress = true)
    (hp' : e'.progress = true) (ha : e.evenAnchors = true) (ha' : e'.evenAnchors = true) {F F' : Flat U8Atom}
    (hF : compileFlatU8 U.seqs e = .ok F) (hF' : compileFlatU8 U.seqs e' = .ok F') (text : List Char) :
    SameReport keep (F.exec text (encode text)) (F'.exec text (encode text)) :=
  C71_engines h (C46_flat_u8_partial U hp ha hF text) (C46_flat_u8_partial U hp' ha' hF' text)

/-- **C71 (DFA engine).** -/
theorem C71_dfa_partial (U : Utf8Seqs) {keep : Bool} {e e' : ERE} (h : OrdERE keep e e') (hp : e.progress = true)
    (hp' : e'.progress = true) (hs : e.StartSimple) (hs' : e'.StartSimple) {G G' : DfaEngine}
    (hG : compileDfaU8 U.seqs e = .ok (some G)) (hG' : compileDfaU8 U.seqs e' = .ok (some G')) (text : List Char) :
    SameReport keep (G.tdfa.exec text (encode text)) (G'.tdfa.exec text (encode text)) :=
  C71_engines h (C46_dfa_partial U hp hs hG text) (C46_dfa_partial U hp' hs' hG' text)

/-- **C71 (one-pass engine).** -/
theorem C71_one_pass_partial (U : Utf8Seqs) {keep : Bool} {e e' : ERE} (h : OrdERE keep e e') (hp : e.progress = true)
    (hp' : e'.progress = true) {P P' : OnePass} (hP : compileOnePassU8 U.seqs e = .ok (some P))
    (hP' : compileOnePassU8 U.seqs e' = .ok (some P')) (hc : P.compiles = true) (hc' : P'.compiles = true)
    (ho : P.OneEnd ∨ e.hasEnd = false) (ho' : P'.OneEnd ∨ e'.hasEnd = false) (text : List Char) :
    SameReport keep (P.exec text (encode text)) (P'.exec text (encode text)) :=
  C71_engines h (C46_one_pass_partial U hp hP hc ho text) (C46_one_pass_partial U hp' hP' hc' ho' text)

/-- **C71 (`compile_regex!`).** The two patterns may be run by different engines. (Missing: as in
`C46_compile_regex_partial`.) -/
theorem C71_compile_regex_partial (U : Utf8Seqs) {keep : Bool} {p p' : List Char} {e e' : ERE} (he : parseStr p = .ok e)
    (he' : parseStr p' = .ok e') (h : OrdERE keep e e') (hp : e.progress = true) (hp' : e'.progress = true) {E E' : Engine}
    (hE : compileRegex U.seqs p = .ok (some E)) (hE' : compileRegex U.seqs p' = .ok (some E')) {cr : List String}
    (hc : E.compiles cr = true) (hc' : E'.compiles cr = true) (hs : StartOk e E) (hs' : StartOk e' E') (ho : OrderOk e E)
    (ho' : OrderOk e' E') (text : List Char) : SameReport keep (E.exec text) (E'.exec text) :=
  C71_engines h (C46_compile_regex_partial U hp (compileRegex_ok he hE) hc hs ho text)
    (C46_compile_regex_partial U hp' (compileRegex_ok he' hE') hc' hs' ho' text)

/-! ## Patterns with anchors at the ends only -/

/-- The whole match is the preferred one. -/
def WholeOk (e : ERE) (text : List Char) (res : Except Err (Option (List (Option (Nat × Nat))))) : Prop :=
  (res = .ok none ∧ e.first text = none) ∨
  ∃ r S, res = .ok (some r) ∧ e.first text = some S ∧ (r[0]?).join = lastSpan S 0

theorem framed_toEnd {s : Bool} {e : ERE} (he : e.Framed s true) {pre m r : List Char} (h : MatchesERE e pre m r) : r = [] := by
  obtain ⟨bs, rfl, hb⟩ := he
  cases h with
  | @intro _ b _ _ _ h1 h2 =>
    obtain ⟨ps, rfl, _, _⟩ := hb _ h1
    simp only [if_true] at h2
    obtain ⟨_, _, k⟩ := matches_parts _ [.end_] h2
    cases k with
    | cons k1 k2 =>
      cases k2
      generalize hz : [] ++ r = z at k1
      cases k1
      simpa using hz

/-- **C46 for the whole match.** For patterns with `^` only before and `$` only behind the branches, and whose repetitions
without bound consume a character per round: if the program emitted by `compile_regex!` compiles, the whole match is the
one that the order of preference selects, by whatever engine. -/
theorem C46_framed_whole (U : Utf8Seqs) {s t : Bool} {p : List Char} {e : ERE} (hp : parseStr p = .ok e)
    (he : e.Framed s t) (hg : e.progress = true) {E : Engine} (h : compileRegex U.seqs p = .ok (some E))
    {cr : List String} (hc : E.compiles cr = true) (text : List Char) : WholeOk e text (E.exec text) := by
  cases t with
  | false =>
    rcases C65_framed_preferred U hp he hg h hc (fun k => by cases k) text with h1 | ⟨r, S, h1, h2, _, h4⟩
    · exact .inl h1
    · exact .inr ⟨r, S, h1, h2, h4 0⟩
  | true =>
    rcases (C65_framed U hp he h hc).exec text with ⟨h1, h2⟩ | ⟨r, S, h1, h2, _, h4⟩
    · refine .inl ⟨h1, ?_⟩
      cases h3 : e.first text with
      | none => rfl
      | some S => exact absurd ((first_isSome hg text).mp (by rw [h3]; rfl)) h2
    · have hm : e.MatchesIn text := by
        obtain ⟨pre, mid, post, S0, c1, c2, _⟩ := h2
        exact ⟨pre, mid, post, c1, c2.matches⟩
      obtain ⟨S', hS'⟩ := Option.isSome_iff_exists.mp ((first_isSome hg text).mpr hm)
      refine .inr ⟨r, S', h1, hS', ?_⟩
      obtain ⟨i, j, k1, k2⟩ := first_left hg hS'
      obtain ⟨i', j', l1, l2⟩ := C26_compile_regex U (compileRegex_ok hp h) hc h1 (first_captures hS') k1
      have l3 : lastSpan S 0 = some (i', j') := by rw [← h4 0]; exact l1
      have hi : i = i' := Nat.le_antisymm (k2 S i' j' h2 l3) l2
      have hend : ∀ {S i j}, e.Captures text S → lastSpan S 0 = some (i, j) → j = byteLen text := by
        rintro S i j ⟨pre, mid, post, S0, c1, c2, rfl⟩ hl
        rw [lastSpan_whole, Option.some.injEq, Prod.mk.injEq] at hl
        have := framed_toEnd he c2.matches
        subst this
        rw [← hl.2, c1, List.append_nil]
      rw [l1, k1, hi, hend h2 l3, hend (first_captures hS') k1]

/-- **C71 (`compile_regex!`).** For patterns with `^` only before and `$` only behind the branches, and whose repetitions
without bound consume a character per round: rewriting by the laws does not change the whole match that is reported. -/
theorem C71_framed_partial (U : Utf8Seqs) {s t s' t' : Bool} {p p' : List Char} {e e' : ERE} (he : parseStr p = .ok e)
    (he' : parseStr p' = .ok e') (h : OrdERE false e e') (hf : e.Framed s t) (hf' : e'.Framed s' t') (hp : e.progress = true)
    (hp' : e'.progress = true) {E E' : Engine} (hE : compileRegex U.seqs p = .ok (some E))
    (hE' : compileRegex U.seqs p' = .ok (some E')) {cr : List String} (hc : E.compiles cr = true) (hc' : E'.compiles cr = true)
    (text : List Char) : SameReport false (E.exec text) (E'.exec text) := by
  have := h.first text
  rcases C46_framed_whole U he hf hp hE hc text with ⟨h1, k1⟩ | ⟨r, S, h1, k1, l1⟩ <;>
    rcases C46_framed_whole U he' hf' hp' hE' hc' text with ⟨h2, k2⟩ | ⟨r', S', h2, k2, l2⟩ <;> rw [k1, k2] at this
  · exact .inl ⟨h1, h2⟩
  · exact this.elim
  · exact this.elim
  · refine .inr ⟨r, r', h1, h2, ?_, ?_, nofun⟩
    · rw [l1, l2]; exact this.1
    · rw [l1]; exact first_whole k1

/-! ## Cases -/

/-- The pattern `(a|b)x+`. -/
def patFactored : ERE := .mk [.mk [.single (.sub (.mk [.mk [.single (.atom (.normal 'a'))], .mk [.single (.atom (.normal 'b'))]])),
  .quantified (.atom (.normal 'x')) ⟨.plus, false⟩]]

/-- The pattern `ax+|bxx*`. -/
def patExpanded : ERE := .mk [
  .mk [.single (.atom (.normal 'a')), .quantified (.atom (.normal 'x')) ⟨.plus, false⟩],
  .mk [.single (.atom (.normal 'b')), .single (.atom (.normal 'x')), .quantified (.atom (.normal 'x')) ⟨.star, false⟩]]

/-- non-vacuity: `(a|b)x+` and `ax+|bxx*` differ by laws. -/
theorem patFactored_expanded : OrdERE false patFactored patExpanded := by
  have key : ∀ {ps ps' : List EREPart}, OrdParts false ps ps' → ∀ qs,
      OrdERE false (.mk [.mk [.single (.atom (.normal 'a')), .quantified (.atom (.normal 'x')) ⟨.plus, false⟩],
        .mk ([.single (.atom (.normal 'b'))] ++ (ps ++ qs))])
      (.mk [.mk [.single (.atom (.normal 'a')), .quantified (.atom (.normal 'x')) ⟨.plus, false⟩],
        .mk ([.single (.atom (.normal 'b'))] ++ (ps' ++ qs))]) :=
    fun h qs => .branch (bs1 := [_]) (bs2 := []) (.parts h)
  exact .trans (.distribute (bs1 := []) (bs2 := [])) (.trans (key (.plus (z := false)) [])
    (.trans (key (.atLeast (z := false) nofun) []) (key (.one (z := false)) [_])))

theorem patFactored_parse : parseStr "(a|b)x+".toList = .ok patFactored := by
  refine (C43_parser_grammar _ _).2 ?_
  have ha : SpellsPart (.single (.atom (.normal 'a'))) ['a'] := .single (.atom (.plain (by decide)))
  have hb : SpellsPart (.single (.atom (.normal 'b'))) ['b'] := .single (.atom (.plain (by decide)))
  have hx : SpellsPart (.quantified (.atom (.normal 'x')) ⟨.plus, false⟩) ['x', '+'] :=
    .quantified (w := ['x']) (.atom (.plain (by decide))) (.greedy .plus)
  exact .one (.cons (w := '(' :: (['a', '|', 'b'] ++ [')'])) (.single (.sub (.more (w := ['a']) (v := ['b'])
    (.cons (v := []) ha .nil) (.one (.cons (v := []) hb .nil))))) (.cons (v := []) hx .nil))

theorem patExpanded_parse : parseStr "ax+|bxx*".toList = .ok patExpanded := by
  refine (C43_parser_grammar _ _).2 ?_
  have ha : SpellsPart (.single (.atom (.normal 'a'))) ['a'] := .single (.atom (.plain (by decide)))
  have hb : SpellsPart (.single (.atom (.normal 'b'))) ['b'] := .single (.atom (.plain (by decide)))
  have hx : SpellsPart (.single (.atom (.normal 'x'))) ['x'] := .single (.atom (.plain (by decide)))
  have hp : SpellsPart (.quantified (.atom (.normal 'x')) ⟨.plus, false⟩) ['x', '+'] :=
    .quantified (w := ['x']) (.atom (.plain (by decide))) (.greedy .plus)
  have hs : SpellsPart (.quantified (.atom (.normal 'x')) ⟨.star, false⟩) ['x', '*'] :=
    .quantified (w := ['x']) (.atom (.plain (by decide))) (.greedy .star)
  exact .more (w := ['a', 'x', '+']) (v := ['b', 'x', 'x', '*']) (.cons (w := ['a']) ha (.cons (v := []) hp .nil))
    (.one (.cons (w := ['b']) hb (.cons (w := ['x']) hx (.cons (v := []) hs .nil))))

example : patFactored.Framed false false ∧ patExpanded.Framed false false ∧ patFactored.progress = true ∧
    patExpanded.progress = true := by
  refine ⟨⟨_, rfl, fun b hb => ⟨b.parts, ?_⟩⟩, ⟨_, rfl, fun b hb => ⟨b.parts, ?_⟩⟩, by decide, by decide⟩
  · simp only [List.mem_cons, List.not_mem_nil, or_false] at hb
    subst hb
    exact ⟨rfl, rfl, rfl⟩
  · simp only [List.mem_cons, List.not_mem_nil, or_false] at hb
    rcases hb with rfl | rfl <;> exact ⟨rfl, rfl, rfl⟩

/-- … and `bxx` is reported in `éabxx` for both, with and without a group. -/
example : (compileFlatChar patFactored).map (fun F => decide (F.exec ['é', 'a', 'b', 'x', 'x'] ['é', 'a', 'b', 'x', 'x'] =
      .ok (some [some (3, 6), some (3, 4)]))) = .ok true ∧
    (compileFlatChar patExpanded).map (fun F => decide (F.exec ['é', 'a', 'b', 'x', 'x'] ['é', 'a', 'b', 'x', 'x'] =
      .ok (some [some (3, 6)]))) = .ok true := by
  decide +kernel

/-- The pattern `ab?`, which is `a(b)?` (parsed in Props/Total) without parentheses. -/
def patBareB : ERE := .mk [.mk [.single (.atom (.normal 'a')), .quantified (.atom (.normal 'b')) ⟨.question, false⟩]]

example : OrdERE false patOptB patBareB :=
  .branch (bs1 := []) (bs2 := []) (.parts (ps1 := [_]) (ps2 := []) (.quantified .unwrap))

/-- The program of `compile_regex!` for `ab?` reports `ab` in `éabc`, as that for `a(b)?` does (Props/Longest). -/
example : (compileRegex utf8Sequences "ab?".toList).map (·.map fun E => (E.compiles ["ere"],
    decide (E.exec ['é', 'a', 'b', 'c'] = .ok (some [some (2, 4)])))) = .ok (some (true, true)) := by decide +kernel

/-- The pattern `(a?)c{0,}` and, by laws that keep the group, `(a{0,1})c*`. -/
def patGroup (changed : Bool) : ERE := if changed
  then .mk [.mk [.single (.sub (.mk [.mk [.quantified (.atom (.normal 'a')) ⟨.range 0 (some 1), false⟩]])),
    .quantified (.atom (.normal 'c')) ⟨.star, false⟩]]
  else .mk [.mk [.single (.sub (.mk [.mk [.quantified (.atom (.normal 'a')) ⟨.question, false⟩]])),
    .quantified (.atom (.normal 'c')) ⟨.range 0 none, false⟩]]

/-- non-vacuity -/
theorem patGroup_changed : OrdERE true (patGroup false) (patGroup true) := by
  refine .trans (e' := .mk [.mk [.single (.sub (.mk [.mk [.quantified (.atom (.normal 'a')) ⟨.question, false⟩]])),
    .quantified (.atom (.normal 'c')) ⟨.star, false⟩]]) ?_ ?_
  · exact .symm (.branch (bs1 := []) (bs2 := []) (.parts (ps1 := [_]) (ps2 := []) .star))
  · exact .branch (bs1 := []) (bs2 := []) (.parts (ps1 := []) (ps := [_]) (ps' := [_]) (ps2 := [_]) (.single (.sub
      (.branch (bs1 := []) (bs2 := []) (.parts (ps1 := []) (ps2 := []) .question)))))

example : (compileFlatChar (patGroup false)).map (fun F => decide (F.exec ['a', 'c'] ['a', 'c'] =
      .ok (some [some (0, 2), some (0, 1)]))) = .ok true ∧
    (compileFlatChar (patGroup true)).map (fun F => decide (F.exec ['a', 'c'] ['a', 'c'] =
      .ok (some [some (0, 2), some (0, 1)]))) = .ok true := by decide +kernel

/-! ## Laws that do change what is reported -/

/-- What the flat engine over characters reports as the whole match. -/
def wholeFlat (e : ERE) (text : List Char) : Option (Nat × Nat) :=
  match compileFlatChar e with
  | .error _ => none
  | .ok F =>
    match F.exec text text with
    | .ok (some r) => (r[0]?).join
    | _ => none

/-- The pattern `ab|a`. -/
def patLongFirst : ERE := .mk [.mk [.single (.atom (.normal 'a')), .single (.atom (.normal 'b'))], .mk [.single (.atom (.normal 'a'))]]

/-- The pattern `a+`, lazy or not. -/
def patLazyPlus (z : Bool) : ERE := .mk [.mk [.quantified (.atom (.normal 'a')) ⟨.plus, z⟩]]

/-- The patterns `a??(b|a)` and `a??b|a??a`. -/
def patDistr (distributed : Bool) : ERE :=
  let x : EREPart := .quantified (.atom (.normal 'a')) ⟨.question, true⟩
  let a : EREPart := .single (.atom (.normal 'a'))
  let b : EREPart := .single (.atom (.normal 'b'))
  if distributed then .mk [.mk [x, b], .mk [x, a]] else .mk [.mk [x, .single (.sub (.mk [.mk [b], .mk [a]]))]]

/-- **C71 is false for the other laws of C54:** reordering alternatives (`a|ab` and `ab|a`), greedy for lazy (`a+` and
`a+?`), distributing from the left (`a??(b|a)` and `a??b|a??a`). By C54 each pair matches the same texts, but different
whole matches are reported for `aab` or `ab`. -/
theorem C71_negation :
    (LawERE patShort patLongFirst ∧ wholeFlat patShort ['a', 'b'] = some (0, 1) ∧ wholeFlat patLongFirst ['a', 'b'] = some (0, 2)) ∧
    (LawERE (patLazyPlus true) (patLazyPlus false) ∧ wholeFlat (patLazyPlus true) ['a', 'a', 'b'] = some (0, 1) ∧
      wholeFlat (patLazyPlus false) ['a', 'a', 'b'] = some (0, 2)) ∧
    (LawERE (patDistr false) (patDistr true) ∧ wholeFlat (patDistr false) ['a', 'b'] = some (0, 1) ∧
      wholeFlat (patDistr true) ['a', 'b'] = some (0, 2)) := by
  refine ⟨⟨.alternatives fun b => ?_, by decide +kernel, by decide +kernel⟩,
    ⟨.branch (bs1 := []) (bs2 := []) (.parts (ps1 := []) (ps2 := []) .lazy), by decide +kernel, by decide +kernel⟩,
    ⟨.distribute (bs1 := []) (ps1 := [_]) (ps2 := []) (bs2 := []), by decide +kernel, by decide +kernel⟩⟩
  simp only [List.mem_cons, List.not_mem_nil, or_false]
  exact or_comm

/-! ## The whole match depends on the engine -/

/-- The pattern `a|^ab`. -/
def patAnchorSecond : ERE := .mk [.mk [.single (.atom (.normal 'a'))],
  .mk [.start, .single (.atom (.normal 'a')), .single (.atom (.normal 'b'))]]

/-- **C46 and C27 are false also for the whole match:** for `a|^ab` on `ab` the left alternative is preferred and the DFA
engine reports it, the flat engine reports the right one. (At the beginning of the text it tries the ways that cross `^`
before all others.) -/
theorem C27_negation_whole : patAnchorSecond.progress = true ∧
    patAnchorSecond.first ['a', 'b'] = some [⟨0, 0, 1⟩] ∧
    wholeFlat patAnchorSecond ['a', 'b'] = some (0, 2) ∧
    (compileDfaU8 utf8Sequences patAnchorSecond).map (·.map (fun G => decide (G.tdfa.exec ['a', 'b'] (encode ['a', 'b']) =
      .ok (some [some (0, 1)])))) = .ok (some true) := by
  decide +kernel

end Ere.Props
