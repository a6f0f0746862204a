import Verif.Props.Compiles
import Verif.Props.Priority
import Verif.Props.Groups

/-!
# Property theorems about whole invocations of the macros: C65

From the text of the pattern to the answers of `test` and `exec`, for classes of patterns that a user can recognise, without
any condition on the engine that was chosen.
-/

namespace Ere.Props
open Ere

/-! ## Patterns with anchors only around the branches -/

mutual
theorem ERE.crosses_plain {w : List Char} {e : ERE} (x : Bool × Bool) :
    SpellsERE e w → e.hasStart = false → e.hasEnd = false → e.crosses x = some x
  | .one hb, h1, h2 => by
    simp only [ERE.hasStart, branchesHaveStart, Bool.or_false] at h1
    simp only [ERE.hasEnd, branchesHaveEnd, Bool.or_false] at h2
    simp only [ERE.crosses, branchesCross]
    exact EREBranch.crosses_plain x hb h1 h2
  | .more (b := b) (bs := bs) hb hr, h1, h2 => by
    simp only [ERE.hasStart, branchesHaveStart, Bool.or_eq_false_iff] at h1
    simp only [ERE.hasEnd, branchesHaveEnd, Bool.or_eq_false_iff] at h2
    have i1 := EREBranch.crosses_plain x hb h1.1 h2.1
    have i2 := ERE.crosses_plain x hr (by simpa only [ERE.hasStart] using h1.2) (by simpa only [ERE.hasEnd] using h2.2)
    simp only [ERE.crosses] at i2 ⊢
    cases bs with
    | nil => simp [branchesCross] at i2
    | cons b' bs => simp only [branchesCross, i1, i2, if_true]
theorem EREBranch.crosses_plain {w : List Char} {b : EREBranch} (x : Bool × Bool) :
    SpellsBranch b w → b.hasStart = false → b.hasEnd = false → b.crosses x = some x
  | .nil, _, _ => by simp only [EREBranch.crosses, partsCross]
  | .cons hp hr, h1, h2 => by
    simp only [EREBranch.hasStart, partsHaveStart, Bool.or_eq_false_iff] at h1
    simp only [EREBranch.hasEnd, partsHaveEnd, Bool.or_eq_false_iff] at h2
    have i1 := EREPart.crosses_plain x hp h1.1 h2.1
    have i2 := EREBranch.crosses_plain x hr (by simpa only [EREBranch.hasStart] using h1.2)
      (by simpa only [EREBranch.hasEnd] using h2.2)
    simp only [EREBranch.crosses] at i2 ⊢
    simp only [partsCross, i1, Option.bind_some, i2]
theorem EREPart.crosses_plain {w : List Char} {p : EREPart} (x : Bool × Bool) :
    SpellsPart p w → p.hasStart = false → p.hasEnd = false → p.crosses x = some x
  | .start, h1, _ => by simp [EREPart.hasStart] at h1
  | .end_, _, h2 => by simp [EREPart.hasEnd] at h2
  | .single he, h1, h2 => by
    simp only [EREPart.hasStart] at h1
    simp only [EREPart.hasEnd] at h2
    simp only [EREPart.crosses]
    exact EREExpr.crosses_plain x he h1 h2
  | .quantified _ _, h1, h2 => by
    simp only [EREPart.hasStart] at h1
    simp only [EREPart.hasEnd] at h2
    simp only [EREPart.crosses, h1, h2, Bool.or_false, Bool.false_eq_true, if_false]
theorem EREExpr.crosses_plain {w : List Char} {e : EREExpr} (x : Bool × Bool) :
    SpellsExpr e w → e.hasStart = false → e.hasEnd = false → e.crosses x = some x
  | .atom _, _, _ => by simp only [EREExpr.crosses]
  | .sub he, h1, h2 => by
    simp only [EREExpr.hasStart] at h1
    simp only [EREExpr.hasEnd] at h2
    simp only [EREExpr.crosses]
    exact ERE.crosses_plain x he h1 h2
end

theorem spells_branches {e : ERE} {w : List Char} (h : SpellsERE e w) :
    ∀ bs, e = .mk bs → bs ≠ [] ∧ ∀ b ∈ bs, ∃ v, SpellsBranch b v := by
  induction h using SpellsERE.rec (motive_2 := fun _ _ _ => True) (motive_3 := fun _ _ _ => True)
      (motive_4 := fun _ _ _ => True) with
  | one hb =>
    intro bs h
    cases h
    exact ⟨by simp, fun b hb' => by cases List.mem_singleton.mp hb'; exact ⟨_, hb⟩⟩
  | more hb hr _ ih =>
    intro bs h
    cases h
    refine ⟨by simp, fun b hb' => ?_⟩
    rcases List.mem_cons.mp hb' with rfl | hb'
    · exact ⟨_, hb⟩
    · exact (ih _ rfl).2 b hb'
  | _ => trivial

theorem spells_parts {b : EREBranch} {w : List Char} (h : SpellsBranch b w) :
    ∀ ps, b = .mk ps → ∀ p ∈ ps, ∃ v, SpellsPart p v := by
  induction h using SpellsBranch.rec (motive_1 := fun _ _ _ => True) (motive_3 := fun _ _ _ => True)
      (motive_4 := fun _ _ _ => True) with
  | nil =>
    intro ps h p hp
    cases h
    simp at hp
  | cons hp hr _ ih =>
    intro ps h p hp'
    cases h
    rcases List.mem_cons.mp hp' with rfl | hp'
    · exact ⟨_, hp⟩
    · exact ih _ rfl p hp'
  | _ => trivial

theorem partsCross_append (ps qs : List EREPart) (x : Bool × Bool) :
    partsCross (ps ++ qs) x = (partsCross ps x).bind (partsCross qs) := by
  induction ps generalizing x with
  | nil => simp [partsCross]
  | cons p ps ih =>
    simp only [List.cons_append, partsCross]
    cases p.crosses x with
    | none => rfl
    | some y => simpa using ih y

theorem partsCross_plain {ps : List EREPart} (x : Bool × Bool) (h : ∀ p ∈ ps, ∃ v, SpellsPart p v)
    (h1 : partsHaveStart ps = false) (h2 : partsHaveEnd ps = false) : partsCross ps x = some x := by
  induction ps with
  | nil => simp only [partsCross]
  | cons p ps ih =>
    simp only [partsHaveStart, Bool.or_eq_false_iff] at h1
    simp only [partsHaveEnd, Bool.or_eq_false_iff] at h2
    obtain ⟨v, hv⟩ := h p (by simp)
    simp only [partsCross, EREPart.crosses_plain x hv h1.1 h2.1, Option.bind_some]
    exact ih (fun q hq => h q (by simp [hq])) h1.2 h2.2

theorem framed_evenAnchors {s t : Bool} {e : ERE} {w : List Char} (hw : SpellsERE e w) (he : e.Framed s t) :
    e.evenAnchors = true := by
  obtain ⟨bs, rfl, hb⟩ := he
  obtain ⟨hne, hsp⟩ := spells_branches hw bs rfl
  have key : ∀ b ∈ bs, b.crosses (false, false) = some (s, t) := by
    intro b hbm
    obtain ⟨ps, rfl, h1, h2⟩ := hb b hbm
    obtain ⟨v, hv⟩ := hsp _ hbm
    have hp := spells_parts hv _ rfl
    have hm : partsCross ps (s, false) = some (s, false) := partsCross_plain _ (fun p hp' => hp p (by simp [hp'])) h1 h2
    simp only [EREBranch.crosses, partsCross_append]
    cases s <;> cases t <;> simp [partsCross, EREPart.crosses, hm]
  clear hw hb hsp
  have : branchesCross bs (false, false) = some (s, t) := by
    induction bs with
    | nil => exact absurd rfl hne
    | cons b bs ih =>
      cases bs with
      | nil => simpa only [branchesCross] using key b (by simp)
      | cons b' bs =>
        have i1 := key b (by simp)
        have i2 := ih (by simp) fun c hc => key c (by simp [List.mem_cons.mp hc])
        simp only [branchesCross, i1]
        rw [i2]
        simp
  simp [ERE.evenAnchors, ERE.crosses, this]

theorem partsHaveStart_end {ps : List EREPart} (h : partsHaveStart ps = false) :
    partsHaveStart (ps ++ [.end_]) = false := by
  induction ps with
  | nil => rfl
  | cons p ps ih =>
    simp only [partsHaveStart, Bool.or_eq_false_iff] at h
    simp only [List.cons_append, partsHaveStart, Bool.or_eq_false_iff]
    exact ⟨h.1, ih h.2⟩

theorem framed_startSimple {s t : Bool} {e : ERE} (he : e.Framed s t) : e.StartSimple := by
  obtain ⟨bs, rfl, hb⟩ := he
  cases s with
  | false =>
    left
    simp only [ERE.hasStart]
    induction bs with
    | nil => rfl
    | cons b bs ih =>
      obtain ⟨ps, rfl, h1, _⟩ := hb b (by simp)
      simp only [branchesHaveStart, Bool.or_eq_false_iff]
      refine ⟨?_, ih fun c hc => hb c (by simp [hc])⟩
      simp only [EREBranch.hasStart]
      cases t <;> simp [partsHaveStart_end, h1]
  | true =>
    right; left
    simp only [ERE.leads]
    induction bs with
    | nil => rfl
    | cons b bs ih =>
      obtain ⟨ps, rfl, h1, _⟩ := hb b (by simp)
      simp only [branchesLead, Bool.and_eq_true]
      refine ⟨?_, ih fun c hc => hb c (by simp [hc])⟩
      simp only [EREBranch.leads]
      cases t <;> simp [partsHaveStart_end, h1, partsLead, EREPart.leads]

/-! ## C65 -/

theorem compileRegex_ok {seqs} {p : List Char} {e : ERE} (hp : parseStr p = .ok e) {E : Engine}
    (h : compileRegex seqs p = .ok (some E)) : pickEngine seqs e = .ok E := by
  unfold compileRegex at h
  rw [hp] at h
  simp only at h
  split at h
  · simp at h
  · rename_i E' h'
    rw [h', Option.some.inj (Except.ok.inj h)]

/-- The patterns of `C62_emitted_compiles_partial`: they match some text and have no `^`, or they match texts of any length
but not the empty one. -/
def Plain (e : ERE) : Prop :=
  (e.hasStart = false ∧ ∃ text, e.MatchesIn text) ∨ (¬ e.MatchesIn [] ∧ e.Unbounded)

theorem plain_start {e : ERE} (h : Plain e) : e.StartSimple := h.elim (fun h => .inl h.1) fun h => .inr (.inr h.1)

theorem plain_exists {e : ERE} (h : Plain e) : ∃ text, e.MatchesIn text := by
  rcases h with h | h
  · exact h.2
  · obtain ⟨text, S, hS, _⟩ := h.2 0
    exact ⟨text, captures_matchesIn.mp ⟨S, hS⟩⟩

/-- **C65 (`compile_regex!`).** Let a pattern match some text and have no `^`, or match texts of any length but not the empty
text; let it not mention `[:graph:]` or `[:xdigit:]`. Then `compile_regex!` on its text gives a program, the program compiles,
`test` answers without a panic whether the pattern matches somewhere in the text, and `exec` returns `None` exactly if it does
not and otherwise the captures of a match. -/
theorem C65_compile_regex (U : Utf8Seqs) {p : List Char} {e : ERE} (hp : parseStr p = .ok e)
    (ha : e.atomsAll plainAtom = true) {cr : List String} (hcr : "ere" ∈ cr) (hm : Plain e) :
    ∃ E, compileRegex U.seqs p = .ok (some E) ∧ E.compiles cr = true ∧ EngineOk e E.groups E.test E.exec := by
  obtain ⟨E, h1, h2⟩ := C62_emitted_compiles_partial U hp ha hcr hm
  exact ⟨E, h1, h2, C41_compile_regex_partial U (compileRegex_ok hp h1) h2 fun _ _ => plain_start hm⟩

/-- **C65 (anchors only around the branches).** Let every branch of the pattern begin with `^` (if `s`), end with `$` (if `t`)
and contain no other anchors. If the program emitted by `compile_regex!` compiles, `test` and `exec` are right, whatever engine
has been chosen. -/
theorem C65_framed (U : Utf8Seqs) {s t : Bool} {p : List Char} {e : ERE} (hp : parseStr p = .ok e) (he : e.Framed s t)
    {E : Engine} (h : compileRegex U.seqs p = .ok (some E)) {cr : List String} (hc : E.compiles cr = true) :
    EngineOk e E.groups E.test E.exec :=
  C41_compile_regex_partial U (compileRegex_ok hp h) hc fun _ _ => framed_startSimple he

/-- If the text determines what the groups capture, a right answer of `exec` is the only right one. -/
theorem exec_determined {e : ERE} (h1 : e.OneReading) {k : Nat} {text : List Char} {res} (h : ExecOk e text k res) {S}
    (hS : e.Captures text S) : ∃ r, res = .ok (some r) ∧ r.length = k ∧ ∀ g, (r[g]?).join = lastSpan S g := by
  rcases h with ⟨_, h⟩ | ⟨r, S', r1, r2, r3, r4⟩
  · exact absurd (captures_matchesIn.mp ⟨S, hS⟩) h
  · exact ⟨r, r1, r3, fun g => by rw [r4 g]; exact h1 _ _ _ r2 hS g⟩

/-- **C65 (only one answer).** Let the text determine what the groups of the pattern capture, and let the anchors stand only
around the branches. If the program emitted by `compile_regex!` compiles, `exec` returns exactly what any match captures. -/
theorem C65_framed_determined (U : Utf8Seqs) {s t : Bool} {p : List Char} {e : ERE} (hp : parseStr p = .ok e)
    (he : e.Framed s t) (h1 : e.OneReading) {E : Engine} (h : compileRegex U.seqs p = .ok (some E)) {cr : List String}
    (hc : E.compiles cr = true) {text : List Char} {S} (hS : e.Captures text S) :
    ∃ r, E.exec text = .ok (some r) ∧ r.length = E.groups ∧ ∀ g, (r[g]?).join = lastSpan S g :=
  exec_determined h1 ((C65_framed U hp he h hc).exec text) hS

theorem branchesHaveEnd_false {bs : List EREBranch} (h : ∀ b ∈ bs, b.hasEnd = false) : branchesHaveEnd bs = false := by
  induction bs with
  | nil => rfl
  | cons b bs ih =>
    rw [branchesHaveEnd, h b (by simp), ih fun b hb => h b (by simp [hb])]
    rfl

/-- A pattern without `$` behind its branches has none. -/
theorem framed_noEnd {s : Bool} {e : ERE} (he : e.Framed s false) : e.hasEnd = false := by
  obtain ⟨bs, rfl, hb⟩ := he
  rw [ERE.hasEnd]
  refine branchesHaveEnd_false fun b hm => ?_
  obtain ⟨ps, rfl, _, h2⟩ := hb b hm
  rw [EREBranch.hasEnd]
  cases s
  · simpa using h2
  · simpa [partsHaveEnd, EREPart.hasEnd] using h2

/-- **C65 (the preferred match).** Let the anchors stand only around the branches, and let every expression that is repeated
without bound consume a character per round. If the program emitted by `compile_regex!` compiles, `exec` returns the captures
of the match that the order of preference selects, unless the branches end with `$` and the program is one of the one-pass
engine (for which the text must determine what the groups capture; see `C46_one_pass_negation`). -/
theorem C65_framed_preferred (U : Utf8Seqs) {s t : Bool} {p : List Char} {e : ERE} (hp : parseStr p = .ok e)
    (he : e.Framed s t) (hg : e.progress = true) {E : Engine} (h : compileRegex U.seqs p = .ok (some E))
    {cr : List String} (hc : E.compiles cr = true) (ho : t = true → (∃ P, E.base = .onePass P) → e.OneReading)
    (text : List Char) : FirstOk e text E.groups (E.exec text) := by
  have hs : StartOk e E := fun _ _ => framed_startSimple he
  have hE := compileRegex_ok hp h
  by_cases hone : ∃ P, E.base = .onePass P
  · have hr : e.OneReading := by
      cases t with
      | true => exact ho rfl hone
      | false =>
        obtain ⟨P, hP⟩ := hone
        exact onePass_open_reading U (pickEngine_onePass hE hP) (framed_noEnd he)
    exact firstOk_of_reading hg hr ((C65_framed U hp he h hc).exec text)
  · refine C46_compile_regex_partial U hg hE hc hs ?_ text
    have hev := framed_evenAnchors ((C43_parser_grammar _ _).mp hp) he
    unfold OrderOk
    split
    · rename_i P _ hP
      exact absurd ⟨P, hP⟩ hone
    · exact hev
    · exact hev
    · trivial

/-- How to see that the text determines what the groups capture: the pattern has a one-pass program that compiles and in
which no state has two ends. -/
theorem oneReading_of_onePass (U : Utf8Seqs) {s t : Bool} {e : ERE} (he : e.Framed s t) {P : OnePass}
    (h : compileOnePassU8 U.seqs e = .ok (some P)) (hc : P.compiles = true) (ho : P.OneEnd) : e.OneReading := by
  obtain ⟨M, hb, hR, h6, _⟩ := onePass_compiled U h
  obtain ⟨N, h1, h2⟩ := byteNFA_ok hb
  obtain ⟨rows, hT, _⟩ := h6.table
  exact (twoEnds_iff U h1 h2 hR.ne he hT).mp (oneEnd_twoEnds hR h6 hc ho)

/-! ### The attribute macro -/

theorem mapM_range_ok {β : Type} {f : Nat → Except Err β} (h : ∀ i, ∃ y, f i = .ok y) (l : List Nat) :
    ∃ ys, l.mapM f = .ok ys ∧ ys.length = l.length := by
  induction l with
  | nil => exact ⟨[], rfl, rfl⟩
  | cons i l ih =>
    obtain ⟨ys, hys, hl⟩ := ih
    obtain ⟨y, hy⟩ := h i
    refine ⟨y :: ys, ?_, by simp [hl]⟩
    rw [List.mapM_cons, hy, hys]
    rfl

/-- **C65 (attribute macro).** For the same patterns as in `C65_compile_regex`, if moreover every expression that is repeated
without bound consumes a character per round and the last group takes part in the preferred match of some text: the attribute
macro accepts the struct with one field for the whole match and one for every pair of parentheses, the program compiles, and
its `test` and `exec` are right. -/
theorem C65_attribute (U : Utf8Seqs) {p : List Char} {e : ERE} (hp : parseStr p = .ok e)
    (ha : e.atomsAll plainAtom = true) {cr : List String} (hcr : "ere" ∈ cr) (hm : Plain e) (hg : e.progress = true)
    (hl : LastUsed e) :
    ∃ A, compileAttr U.seqs p (e.groups + 1) = .ok (some A) ∧ A.compiles cr = true ∧
      EngineOk e (e.groups + 1) A.test A.exec := by
  obtain ⟨E, h1, h2, _⟩ := C65_compile_regex U hp ha hcr hm
  have hE := compileRegex_ok hp h1
  obtain ⟨N, M, k1, k2, k3, k4⟩ := C29_groups_exact_partial U e (lastUsed_captures hl)
  have hne : N ≠ [] := by
    obtain ⟨M', hM', hn⟩ := (C17_pick_returns_iff U e).mp ⟨_, hE⟩
    intro h0
    unfold byteNFA at hM'
    rw [k1, h0] at hM'
    simp only [u8New_nil] at hM'
    simp at hM'
  obtain ⟨opt, ho, hol⟩ := mapM_range_ok (fun i => ⟨_, (C28_mandatory_groups (e := e) k1 hne i).1⟩)
    (List.range N.numCaptureGroups)
  rw [List.length_range, k3] at hol
  have hA : compileAttr U.seqs p (e.groups + 1) = .ok (some ⟨N.numCaptureGroups, opt, E⟩) := by
    unfold compileAttr
    simp only [hp, k1, ho, hol, hE, if_true]
  have hs : StartOk e E := fun _ _ => plain_start hm
  obtain ⟨e', he', hc⟩ := C44_attribute_compiles_partial U hA h2
  rw [hp] at he'
  cases he'
  have hc := (hc hg hl hs).1
  obtain ⟨e', he', hk⟩ := C45_attribute_partial U hA hc
  rw [hp] at he'
  cases he'
  exact ⟨_, hA, hc, (hk hs).1⟩

/-! non-vacuity: `ab*c` and `^a*b$` (see Props/Compiles) are patterns of `C65_compile_regex`; `^a*b$` has only one reading
and gets the one-pass engine. `^(a|ab)(b?)$` has anchors only around its branch, consumes a character per round and
gets a DFA; its preferred match is reported. `a(b)?` is a pattern of `C65_attribute`. -/

example : patLong.OneReading := by
  have hF : patLong.Framed true true := ⟨_, rfl, fun b hb =>
    ⟨[.quantified (.atom (.normal 'a')) ⟨.star, false⟩, .single (.atom (.normal 'b'))], List.mem_singleton.mp hb, rfl, rfl⟩⟩
  have hX : (compileOnePassU8 utf8Sequences patLong).map (·.map fun P => (P.compiles, decide P.OneEnd)) =
      .ok (some (true, true)) := by decide +kernel
  cases hc : compileOnePassU8 utf8Sequences patLong with
  | error x => rw [hc] at hX; simp [Except.map] at hX
  | ok o =>
    cases o with
    | none => rw [hc] at hX; simp [Except.map] at hX
    | some P =>
      rw [hc] at hX
      simp only [Except.map, Option.map_some, Except.ok.injEq, Option.some.injEq, Prod.mk.injEq, decide_eq_true_eq] at hX
      exact oneReading_of_onePass utf8Crate hF hc hX.1 hX.2

/-- The pattern `^(a|ab)(b?)$`. -/
def patClassic : ERE := .mk [.mk ([.start] ++ [
  .single (.sub (.mk [.mk [.single (.atom (.normal 'a'))], .mk [.single (.atom (.normal 'a')), .single (.atom (.normal 'b'))]])),
  .single (.sub (.mk [.mk [.quantified (.atom (.normal 'b')) ⟨.question, false⟩]]))] ++ [.end_])]

example : parseStr "^(a|ab)(b?)$".toList = .ok patClassic ∧ patClassic.Framed true true ∧
    patClassic.progress = true := by
  refine ⟨(C43_parser_grammar _ _).2 ?_, ⟨_, rfl, fun b hb => ⟨_, List.mem_singleton.mp hb, rfl, rfl⟩⟩, by decide⟩
  have ha : SpellsPart (.single (.atom (.normal 'a'))) ['a'] := .single (.atom (.plain (by decide)))
  have hb : SpellsPart (.single (.atom (.normal 'b'))) ['b'] := .single (.atom (.plain (by decide)))
  exact .one (.cons (w := ['^']) .start
    (.cons (w := '(' :: (['a', '|', 'a', 'b'] ++ [')']))
      (.single (.sub (.more (w := ['a']) (v := ['a', 'b']) (.cons (v := []) ha .nil)
        (.one (.cons (v := ['b']) ha (.cons (v := []) hb .nil))))))
      (.cons (w := '(' :: (['b', '?'] ++ [')']))
        (.single (.sub (.one (.cons (w := ['b', '?']) (v := []) (.quantified (w := ['b']) (.atom (.plain (by decide)))
          (.greedy .question)) .nil))))
        (.cons (w := ['$']) (v := []) .end_ .nil))))

example : (compileRegex utf8Sequences "^(a|ab)(b?)$".toList).map (·.map fun E =>
    (match E.base with | .dfa _ => true | _ => false, E.compiles ["ere"],
      decide (E.exec "ab".toList = .ok (some [some (0, 2), some (0, 1), some (1, 2)])))) =
    .ok (some (true, true, true)) := by decide +kernel

/-- The pattern `a(b)?`. -/
def patOptB : ERE := .mk [.mk [.single (.atom (.normal 'a')),
  .quantified (.sub (.mk [.mk [.single (.atom (.normal 'b'))]])) ⟨.question, false⟩]]

example : parseStr "a(b)?".toList = .ok patOptB ∧ patOptB.atomsAll plainAtom = true ∧ Plain patOptB ∧
    patOptB.progress = true ∧ LastUsed patOptB := by
  have hl : LastUsed patOptB := ⟨['a', 'b'], _, (by decide +kernel : patOptB.first ['a', 'b'] = some [⟨1, 1, 2⟩, ⟨0, 0, 2⟩]), by decide⟩
  refine ⟨(C43_parser_grammar _ _).2 ?_, by decide, .inl ⟨by decide, ?_⟩, by decide, hl⟩
  · exact .one (.cons (w := ['a']) (.single (.atom (.plain (by decide))))
      (.cons (w := ('(' :: (['b'] ++ [')'])) ++ ['?']) (v := [])
        (.quantified (.sub (.one (.cons (w := ['b']) (v := []) (.single (.atom (.plain (by decide)))) .nil)))
          (.greedy .question)) .nil))
  obtain ⟨text, S, _, _, h, _⟩ := lastUsed_captures hl
  exact ⟨text, captures_matchesIn.mp ⟨S, h⟩⟩

end Ere.Props
