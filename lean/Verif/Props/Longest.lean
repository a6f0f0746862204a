import Verif.Proofs.Longest
import Verif.Props.Leftmost
import Verif.Props.Total

/-!
# Property theorems about the length of the match: C69
-/

namespace Ere.Props
open Ere

/-- Whenever `exec` reports something, group 0 is the longest of the leftmost matches. -/
def Longest (e : ERE) (exec : List Char → Except Err (Option (List (Option (Nat × Nat))))) : Prop :=
  ∀ text r, exec text = .ok (some r) → ∃ i j, r[0]? = some (some (i, j)) ∧ e.LeftLongest text i j

/-- The longest of the leftmost matches is unique, so it does not matter how it is found. -/
theorem leftLongest_unique {e : ERE} {text : List Char} {i j i' j' : Nat} (h : e.LeftLongest text i j)
    (h' : e.LeftLongest text i' j') : i = i' ∧ j = j' := by
  obtain ⟨⟨p, m, q, a1, a2, a3, a4⟩, a5⟩ := h
  obtain ⟨⟨p', m', q', b1, b2, b3, b4⟩, b5⟩ := h'
  have h1 := a5 p' m' q' b1 b2
  have h2 := b5 p m q a1 a2
  omega

theorem firstOk_longest {e : ERE} (hs : SteadyERE e) (hp : e.progress = true) {k : Nat} {exec}
    (h : ∀ text, FirstOk e text k (exec text)) : Longest e exec := by
  intro text r hr
  rcases h text with ⟨h1, _⟩ | ⟨r1, S, h1, h2, _, h4⟩
  · rw [hr] at h1; cases h1
  rw [hr] at h1
  cases h1
  obtain ⟨i, j, k1, _⟩ := first_left hp h2
  refine ⟨i, j, ?_, first_longest hs hp h2 k1⟩
  have := h4 0
  rw [k1] at this
  exact Option.join_eq_some_iff.mp this

theorem sameEnd_longest {e : ERE} (hs : e.SameEnd) {k : Nat} {exec} (h : ∀ text, ExecOk e text k (exec text))
    (hl : ∀ text r, exec text = .ok (some r) → ∀ S' i' j', e.Captures text S' → lastSpan S' 0 = some (i', j') →
      ∃ i j, (r[0]?).join = some (i, j) ∧ i ≤ i') : Longest e exec := by
  intro text r hr
  rcases h text with ⟨h1, _⟩ | ⟨r1, S, h1, ⟨pre, mid, post, S0, c1, c2, c3⟩, _, h4⟩
  · rw [hr] at h1; cases h1
  rw [hr] at h1
  cases h1
  have h0 := h4 0
  rw [c3, lastSpan_whole] at h0
  refine ⟨byteLen pre, byteLen (pre ++ mid), Option.join_eq_some_iff.mp h0, ⟨pre, mid, post, c1, c2.matches, rfl, rfl⟩,
    fun pre' mid' post' ht hm => ?_⟩
  obtain ⟨S', hS'⟩ := hm.captured 1
  obtain ⟨i, j, k1, k2⟩ := hl text r hr _ _ _ ⟨pre', mid', post', S', ht, hS', rfl⟩ (lastSpan_whole _ _ _)
  rw [h0] at k1
  cases k1
  rcases Nat.lt_or_eq_of_le k2 with hlt | heq
  · exact .inl hlt
  · right
    have e1 := c1.symm.trans ht
    rw [List.append_assoc, List.append_assoc] at e1
    obtain ⟨rfl, e2⟩ := prefix_eq e1 heq
    rw [hs _ _ _ _ _ e2 c2.matches hm]
    exact ⟨rfl, Nat.le_refl _⟩

/-- **C69 (flat engine over characters).** -/
theorem C69_flat_char_partial {e : ERE} (hs : SteadyERE e) (hp : e.progress = true) (ha : e.evenAnchors = true) {F : Flat Atom}
    (h : compileFlatChar e = .ok F) : Longest e fun text => F.exec text text :=
  firstOk_longest hs hp (C46_flat_char_partial hp ha h)

/-- **C69 (flat engine over bytes).** -/
theorem C69_flat_u8_partial (U : Utf8Seqs) {e : ERE} (hs : SteadyERE e) (hp : e.progress = true) (ha : e.evenAnchors = true)
    {F : Flat U8Atom} (h : compileFlatU8 U.seqs e = .ok F) : Longest e fun text => F.exec text (encode text) :=
  firstOk_longest hs hp (C46_flat_u8_partial U hp ha h)

/-- **C69 (DFA).** -/
theorem C69_dfa_partial (U : Utf8Seqs) {e : ERE} (hs : SteadyERE e) (hp : e.progress = true) (hS : e.StartSimple)
    {G : DfaEngine} (h : compileDfaU8 U.seqs e = .ok (some G)) : Longest e fun text => G.tdfa.exec text (encode text) :=
  firstOk_longest hs hp (C46_dfa_partial U hp hS h)

theorem matches_parts (qs ps : List EREPart) {pre mid post : List Char}
    (h : MatchesBranch (.mk (qs ++ ps)) pre mid post) : ∃ pre' mid', MatchesBranch (.mk ps) pre' mid' post := by
  induction qs generalizing pre mid with
  | nil => exact ⟨pre, mid, h⟩
  | cons q qs ih =>
    rw [List.cons_append] at h
    cases h with
    | cons _ h2 => exact ih h2

/-- All matches of a pattern with `$` behind each branch end at the end. -/
theorem framed_sameEnd {s : Bool} {e : ERE} (he : e.Framed s true) : e.SameEnd := by
  refine sameEnd_toEnd fun pre m r h => ?_
  obtain ⟨bs, rfl, hb⟩ := he
  cases h with
  | @intro _ b _ _ _ h1 h2 =>
    obtain ⟨ps, rfl, _, _⟩ := hb _ h1
    simp only [if_true] at h2
    obtain ⟨_, _, k⟩ := matches_parts _ [.end_] h2
    cases k with
    | cons k1 k2 =>
      cases k2
      generalize hz : [] ++ r = z at k1
      cases k1
      simpa using hz

/-- **C69 (`compile_regex!`).** Let the anchors stand only around the branches of a pattern, and let either every branch end in
`$`, or the pattern be steady and every expression that is repeated without bound consume a character per round. If the program
emitted by `compile_regex!` compiles, `exec` reports the longest of the leftmost matches, as POSIX demands. -/
theorem C69_compile_regex_partial (U : Utf8Seqs) {s t : Bool} {p : List Char} {e : ERE} (hp : parseStr p = .ok e)
    (he : e.Framed s t) (hs : t = false → SteadyERE e ∧ e.progress = true) {E : Engine}
    (h : compileRegex U.seqs p = .ok (some E)) {cr : List String} (hc : E.compiles cr = true) : Longest e E.exec := by
  cases t with
  | false =>
    exact firstOk_longest (hs rfl).1 (hs rfl).2 (C65_framed_preferred U hp he (hs rfl).2 h hc (fun k => by cases k))
  | true =>
    refine sameEnd_longest (framed_sameEnd he) (C65_framed U hp he h hc).exec fun text r hr S' i' j' hS hl => ?_
    exact C26_compile_regex U (compileRegex_ok hp h) hc hr hS hl

/-- The same for patterns with at most one match from each place, whatever is repeated. -/
theorem C69_same_end_partial (U : Utf8Seqs) {s t : Bool} {p : List Char} {e : ERE} (hp : parseStr p = .ok e)
    (he : e.Framed s t) (hs : e.SameEnd) {E : Engine}
    (h : compileRegex U.seqs p = .ok (some E)) {cr : List String} (hc : E.compiles cr = true) : Longest e E.exec :=
  sameEnd_longest hs (C65_framed U hp he h hc).exec fun _ _ hr _ _ _ hS hl =>
    C26_compile_regex U (compileRegex_ok hp h) hc hr hS hl

/-! non-vacuity: the pattern `(a+)b(a+|bc?)`. In `cabbc` it matches `abb` and `abbc`; the latter is reported. -/

/-- The pattern `(a+)b(a+|bc?)`. -/
def patSteady : ERE := .mk [.mk [.single (.sub (.mk [.mk [.quantified (.atom (.normal 'a')) ⟨.plus, false⟩]])),
  .single (.atom (.normal 'b')), .single (.sub (.mk [.mk [.quantified (.atom (.normal 'a')) ⟨.plus, false⟩],
    .mk [.single (.atom (.normal 'b')), .quantified (.atom (.normal 'c')) ⟨.question, false⟩]]))]]

theorem normal_differ {a b : Char} (h : a ≠ b) : ∀ c, (Atom.normal a).check c = true → (Atom.normal b).check c = false := by
  intro c hc
  simp only [Atom.check, beq_iff_eq, beq_eq_false_iff_ne] at *
  subst hc
  first | exact h | exact h.symm

theorem starts_plus {b : Atom} {alt : Bool} : ∀ pre m r, MatchesPart (.quantified (.atom b) ⟨.plus, alt⟩) pre m r →
    ∃ c m', b.check c = true ∧ m = c :: m' := by
  intro pre m r h
  cases h with
  | quantified h1 _ h3 =>
    cases h3 with
    | zero => simp [QType.min] at h1
    | succ k _ =>
      cases k with
      | atom k => exact ⟨_, _, k, rfl⟩

theorem patSteady_steady : SteadyERE patSteady := by
  refine .one (.group1 (.run rfl (sameEnd_atom _) (apart_atoms (normal_differ (by decide)) _)
    (.fixed (sameEnd_expr (sameEnd_atom _)) (.group (.alt ?_ ?_)))))
  · refine List.pairwise_pair.mpr fun pre m r m' r' e h1 h2 => ?_
    cases h1 with
    | cons a1 _ =>
      cases h2 with
      | cons b1 _ =>
        obtain ⟨c, w, k1, rfl⟩ := starts_plus _ _ _ a1
        obtain ⟨c', w', k2, rfl⟩ := starts_atom _ _ _ b1
        simp only [List.cons_append, List.cons.injEq] at e
        rw [e.1] at k1
        rw [normal_differ (by decide) _ k1] at k2
        cases k2
  · intro b hb
    simp only [List.map_cons, List.map_nil, EREBranch.andThen, List.append_nil, List.mem_cons, List.not_mem_nil, or_false] at hb
    rcases hb with rfl | rfl
    · exact .run rfl (sameEnd_atom _) (apart_nil _) .nil
    · exact .fixed (sameEnd_expr (sameEnd_atom _)) (.run rfl (sameEnd_atom _) (apart_nil _) .nil)

example : parseStr "(a+)b(a+|bc?)".toList = .ok patSteady ∧ patSteady.Framed false false ∧ patSteady.progress = true := by
  refine ⟨(C43_parser_grammar _ _).2 ?_, ⟨_, rfl, fun b hb => ⟨[_, _, _], List.mem_singleton.mp hb, rfl, rfl⟩⟩, by decide⟩
  have hb : SpellsPart (.single (.atom (.normal 'b'))) ['b'] := .single (.atom (.plain (by decide)))
  have ha : SpellsPart (.quantified (.atom (.normal 'a')) ⟨.plus, false⟩) ['a', '+'] :=
    .quantified (w := ['a']) (.atom (.plain (by decide))) (.greedy .plus)
  have hc : SpellsPart (.quantified (.atom (.normal 'c')) ⟨.question, false⟩) ['c', '?'] :=
    .quantified (w := ['c']) (.atom (.plain (by decide))) (.greedy .question)
  exact .one (.cons (w := '(' :: (['a', '+'] ++ [')'])) (.single (.sub (.one (.cons (v := []) ha .nil))))
    (.cons (w := ['b']) hb (.cons (w := '(' :: (['a', '+', '|', 'b', 'c', '?'] ++ [')'])) (v := [])
      (.single (.sub (.more (w := ['a', '+']) (v := ['b', 'c', '?']) (.cons (v := []) ha .nil)
        (.one (.cons (w := ['b']) hb (.cons (v := []) hc .nil)))))) .nil)))

example : (compileFlatChar patSteady).map (fun F => decide (F.exec "cabbc".toList "cabbc".toList =
    .ok (some [some (1, 5), some (1, 2), some (3, 5)]))) = .ok true := by decide +kernel

/-! The pattern `a(b)?` (parsed in Props/Total) matches `a` and `ab` in `éabc`; the latter is reported by the program emitted by
`compile_regex!`. -/

example : SteadyERE patOptB :=
  .one (.fixed (sameEnd_expr (sameEnd_atom _))
    (.run rfl (sameEnd_group (sameEnd_cons (sameEnd_expr (sameEnd_atom _)) sameEnd_nil)) (apart_nil _) .nil))

example : (compileRegex utf8Sequences "a(b)?".toList).map (·.map fun E => (E.compiles ["ere"],
    decide (E.exec ['é', 'a', 'b', 'c'] = .ok (some [some (2, 4), some (3, 4)])))) = .ok (some (true, true)) := by decide +kernel

/-! ### Other patterns -/

/-- The pattern `a|ab`. -/
def patShort : ERE := .mk [.mk [.single (.atom (.normal 'a'))], .mk [.single (.atom (.normal 'a')), .single (.atom (.normal 'b'))]]

/-- The pattern `a*(ab)?`. -/
def patGreed : ERE := .mk [.mk [.quantified (.atom (.normal 'a')) ⟨.star, false⟩,
  .quantified (.sub (.mk [.mk [.single (.atom (.normal 'a')), .single (.atom (.normal 'b'))]])) ⟨.question, false⟩]]

/-- **C69 is false in general.** With `a|ab`, the first byte of `ab` is reported though both bytes are matched; with `a*(ab)?`, the
first two bytes of `aab` are reported though all three are matched. -/
theorem C69_negation :
    (compileRegex utf8Sequences "a|ab".toList).map (·.map fun E => (E.compiles ["ere"],
      decide (E.exec ['a', 'b'] = .ok (some [some (0, 1)])))) = .ok (some (true, true)) ∧
    (compileFlatChar patGreed).map (fun F => decide (F.exec ['a', 'a', 'b'] ['a', 'a', 'b'] = .ok (some [some (0, 2), none]))) =
      .ok true ∧
    MatchesERE patShort [] ['a', 'b'] [] ∧ MatchesERE patGreed [] ['a', 'a', 'b'] [] := by
  have ha : ∀ {pre post}, MatchesExpr (.atom (.normal 'a')) pre ['a'] post := .atom rfl
  have hb : ∀ {pre post}, MatchesExpr (.atom (.normal 'b')) pre ['b'] post := .atom rfl
  have hab : ∀ {pre post}, MatchesBranch (.mk [.single (.atom (.normal 'a')), .single (.atom (.normal 'b'))]) pre ['a', 'b'] post :=
    .cons (m1 := ['a']) (m2 := ['b']) (.single ha) (.cons (m2 := []) (.single hb) .nil)
  refine ⟨by decide +kernel, by decide +kernel, .intro (b := .mk [_, _]) (by simp) hab, .intro (List.mem_singleton.mpr rfl) ?_⟩
  refine .cons (m1 := ['a']) (m2 := ['a', 'b']) (.quantified (n := 1) (by decide) (by intro m hm; cases hm) (.succ (m2 := []) ha .zero)) ?_
  exact .cons (m2 := []) (.quantified (n := 1) (by decide) (by intro m hm; cases hm; decide)
    (.succ (m2 := []) (.sub (.intro (List.mem_singleton.mpr rfl) hab)) .zero)) .nil

example : parseStr "a|ab".toList = .ok patShort := by
  refine (C43_parser_grammar _ _).2 ?_
  have ha : SpellsPart (.single (.atom (.normal 'a'))) ['a'] := .single (.atom (.plain (by decide)))
  have hb : SpellsPart (.single (.atom (.normal 'b'))) ['b'] := .single (.atom (.plain (by decide)))
  exact .more (w := ['a']) (v := ['a', 'b']) (.cons (v := []) ha .nil) (.one (.cons (w := ['a']) ha (.cons (v := []) hb .nil)))

/-- The same stated with `Longest`. -/
theorem C69_negation_longest : ¬ (∀ e F, e.progress = true → e.evenAnchors = true → compileFlatChar e = .ok F →
    Longest e fun text => F.exec text text) := by
  intro h
  have hn : (compileFlatChar patShort).map (fun F => decide (F.exec ['a', 'b'] ['a', 'b'] = .ok (some [some (0, 1)]))) = .ok true := by
    decide +kernel
  cases hF : compileFlatChar patShort with
  | error x => rw [hF] at hn; cases hn
  | ok F =>
    rw [hF] at hn
    simp only [Except.map, Except.ok.injEq, decide_eq_true_eq] at hn
    have hp : patShort.progress = true := by decide
    have ha : patShort.evenAnchors = true := by decide
    obtain ⟨i, j, k1, _, k2⟩ := h patShort F hp ha hF ['a', 'b'] [some (0, 1)] hn
    cases k1
    have := k2 [] ['a', 'b'] [] rfl C69_negation.2.2.1
    revert this
    decide

end Ere.Props
