import Verif.Proofs.Cut
import Verif.Props.Total

/-!
# Property theorems about text around the match: C68
-/

namespace Ere.Props
open Ere

/-- What is reported with all offsets `k` bytes further on. -/
def shiftGroups (k : Nat) (r : List (Option (Nat × Nat))) : List (Option (Nat × Nat)) :=
  r.map (Option.map fun p => (p.1 + k, p.2 + k))

/-- Text before and behind the reported match can be left out: the same match is reported in what remains. -/
def Cuts (exec : List Char → Except Err (Option (List (Option (Nat × Nat))))) : Prop :=
  ∀ x m z r i j, exec (x ++ m ++ z) = .ok (some r) → r[0]? = some (some (i, j)) → byteLen x ≤ i → j ≤ byteLen (x ++ m) →
    ∃ r', exec m = .ok (some r') ∧ r = shiftGroups (byteLen x) r'

theorem lastSpan_shift (S : List Span) (k g : Nat) :
    lastSpan (S.map (Span.shift k)) g = (lastSpan S g).map fun p => (p.1 + k, p.2 + k) := by
  unfold lastSpan
  rw [← List.map_reverse, List.find?_map]
  have : ((fun s : Span => s.group == g) ∘ Span.shift k) = fun s => s.group == g := rfl
  rw [this, Option.map_map, Option.map_map]
  rfl

/-- **C68.** An engine that reports the preferred match of a pattern all of whose ways cross the same anchors does not depend on
text around that match. -/
theorem firstOk_cuts {e : ERE} (hp : e.progress = true) (he : e.evenAnchors = true) {k : Nat} {exec}
    (h : ∀ text, FirstOk e text k (exec text)) : Cuts exec := by
  intro x m z r i j hr h0 hi hj
  rcases h (x ++ m ++ z) with ⟨h1, _⟩ | ⟨r1, S, h1, h2, h3, h4⟩
  · rw [hr] at h1; cases h1
  rw [hr] at h1
  cases h1
  obtain ⟨S', k1, k2⟩ := first_cut hp he h2 (i := i) (j := j) (by rw [← h4 0, h0]; rfl) hi hj
  rcases h m with ⟨_, h5⟩ | ⟨r', S'', l1, l2, l3, l4⟩
  · rw [k1] at h5; cases h5
  rw [k1] at l2
  cases l2
  refine ⟨r', l1, List.ext_getElem? fun g => ?_⟩
  have hg := h4 g
  rw [k2, lastSpan_shift, ← l4 g] at hg
  unfold shiftGroups
  rw [List.getElem?_map]
  by_cases hlt : g < k
  · rw [List.getElem?_eq_getElem (by omega), List.getElem?_eq_getElem (by omega)] at hg ⊢
    simpa using hg
  · rw [List.getElem?_eq_none (by omega), List.getElem?_eq_none (by omega)]
    rfl

/-- In particular the matched stretch alone is matched as a whole, with the same groups. -/
theorem cuts_alone {exec} (h : Cuts exec) {x m z : List Char} {r} (hr : exec (x ++ m ++ z) = .ok (some r))
    (h0 : r[0]? = some (some (byteLen x, byteLen (x ++ m)))) :
    ∃ r', exec m = .ok (some r') ∧ r = shiftGroups (byteLen x) r' ∧ r'[0]? = some (some (0, byteLen m)) := by
  obtain ⟨r', h1, h2⟩ := h x m z r _ _ hr h0 (Nat.le_refl _) (Nat.le_refl _)
  refine ⟨r', h1, h2, ?_⟩
  rw [h2, shiftGroups, List.getElem?_map, Option.map_eq_some_iff] at h0
  obtain ⟨o, ho, h3⟩ := h0
  obtain ⟨⟨a, b⟩, rfl, h4⟩ := Option.map_eq_some_iff.mp h3
  rw [byteLen_append, Prod.mk.injEq] at h4
  simp only at h4
  rw [ho, show a = 0 by omega, show b = byteLen m by omega]

/-- **C68 (flat engine over characters).** -/
theorem C68_flat_char_partial {e : ERE} (hp : e.progress = true) (ha : e.evenAnchors = true) {F : Flat Atom}
    (h : compileFlatChar e = .ok F) : Cuts fun text => F.exec text text :=
  firstOk_cuts hp ha (C46_flat_char_partial hp ha h)

/-- **C68 (flat engine over bytes).** -/
theorem C68_flat_u8_partial (U : Utf8Seqs) {e : ERE} (hp : e.progress = true) (ha : e.evenAnchors = true) {F : Flat U8Atom}
    (h : compileFlatU8 U.seqs e = .ok F) : Cuts fun text => F.exec text (encode text) :=
  firstOk_cuts hp ha (C46_flat_u8_partial U hp ha h)

/-- **C68 (DFA).** -/
theorem C68_dfa_partial (U : Utf8Seqs) {e : ERE} (hp : e.progress = true) (ha : e.evenAnchors = true) (hs : e.StartSimple)
    {G : DfaEngine} (h : compileDfaU8 U.seqs e = .ok (some G)) : Cuts fun text => G.tdfa.exec text (encode text) :=
  firstOk_cuts hp ha (C46_dfa_partial U hp hs h)

theorem framed_parts (qs ps : List EREPart) {g : Nat} {pre mid post : List Char} {S}
    (h : CapBranch (.mk (qs ++ ps)) g pre mid post S) : ∃ g' pre' mid' S', CapBranch (.mk ps) g' pre' mid' post S' := by
  induction qs generalizing g pre mid S with
  | nil => exact ⟨g, pre, mid, S, h⟩
  | cons q qs ih =>
    rw [List.cons_append] at h
    cases h with
    | cons _ h2 => exact ih h2

/-- A pattern with `^` and `$` around its branches only matches the whole text. -/
theorem framed_whole {e : ERE} (he : e.Framed true true) {g : Nat} {pre mid post : List Char} {S} (h : CapERE e g pre mid post S) :
    pre = [] ∧ post = [] := by
  obtain ⟨bs, rfl, hb⟩ := he
  cases h with
  | @intro _ bs1 b bs2 _ _ _ _ _ h1 h2 =>
    obtain ⟨ps, rfl, _, _⟩ := hb b (by rw [h1]; simp)
    simp only [if_true] at h2
    constructor
    · cases h2 with
      | cons k _ => cases k; rfl
    · obtain ⟨_, _, _, _, k⟩ := framed_parts ([.start] ++ ps) [.end_] h2
      cases k with
      | cons k1 k2 =>
        cases k2
        generalize hz : [] ++ post = z at k1
        cases k1
        simpa using hz

/-- **C68 (`compile_regex!`).** Let the anchors stand only around the branches, and let every expression that is repeated without
bound consume a character per round. If the program emitted by `compile_regex!` compiles (and, if it is one of the one-pass
engine for a pattern without `^` but with `$`, the text determines what the groups capture), text around the reported match
makes no difference: leaving it out, `exec` reports the same groups. -/
theorem C68_compile_regex_partial (U : Utf8Seqs) {s t : Bool} {p : List Char} {e : ERE} (hp : parseStr p = .ok e)
    (he : e.Framed s t) (hg : e.progress = true) {E : Engine} (h : compileRegex U.seqs p = .ok (some E))
    {cr : List String} (hc : E.compiles cr = true)
    (ho : s = false → t = true → (∃ P, E.base = .onePass P) → e.OneReading) : Cuts E.exec := by
  by_cases hst : s = false ∨ t = false
  · refine firstOk_cuts hg (framed_evenAnchors ((C43_parser_grammar _ _).mp hp) he) (C65_framed_preferred U hp he hg h hc ?_)
    exact fun ht => ho (hst.resolve_right (by rw [ht]; simp)) ht
  · rw [not_or, Bool.not_eq_false, Bool.not_eq_false] at hst
    obtain ⟨rfl, rfl⟩ := hst
    intro x m z r i j hr h0 hi hj
    rcases (C65_framed U hp he h hc).exec (x ++ m ++ z) with ⟨h1, _⟩ | ⟨r1, S, h1, h2, h3, h4⟩
    · rw [hr] at h1; cases h1
    rw [hr] at h1
    cases h1
    have hS : lastSpan S 0 = some (i, j) := by rw [← h4 0, h0]; rfl
    obtain ⟨pre, mid, post, S', c1, c2, rfl⟩ := h2
    obtain ⟨rfl, rfl⟩ := framed_whole he c2
    rw [lastSpan_whole, Option.some.injEq, Prod.mk.injEq, List.nil_append, byteLen_nil] at hS
    rw [List.append_nil, List.nil_append] at c1
    rw [← c1, byteLen_append] at hS
    have hx : x = [] := byteLen_eq_zero.mp (by omega)
    have hz : z = [] := byteLen_eq_zero.mp (by omega)
    subst hx hz
    refine ⟨r, by simpa using hr, ?_⟩
    unfold shiftGroups
    simp [byteLen_nil]

/-! non-vacuity: the pattern `a(b)?` (parsed in Props/Total); in `éabc` the match `ab` is reported, in `ab` alone too. -/

example : patOptB.Framed false false := ⟨_, rfl, fun _ hb =>
  ⟨[.single (.atom (.normal 'a')), .quantified (.sub (.mk [.mk [.single (.atom (.normal 'b'))]])) ⟨.question, false⟩],
    List.mem_singleton.mp hb, rfl, rfl⟩⟩

example : (compileRegex utf8Sequences "a(b)?".toList).map (·.map fun E =>
    (match E.base with | .onePass _ => true | _ => false, E.compiles ["ere"],
      decide (E.exec (['é'] ++ ['a', 'b'] ++ ['c']) = .ok (some [some (2, 4), some (3, 4)])),
      decide (E.exec ['a', 'b'] = .ok (some [some (0, 2), some (1, 2)])))) =
    .ok (some (false, true, true, true)) := by decide +kernel

/-! ### Patterns with uneven anchors -/

/-- The pattern `(a)$|a`. -/
def patEndOrNot : ERE := .mk [.mk [.single (.sub (.mk [.mk [.single (.atom (.normal 'a'))]])), .end_],
  .mk [.single (.atom (.normal 'a'))]]

/-- The pattern `(^a)|a`. -/
def patStartOrNot : ERE := .mk [.mk [.single (.sub (.mk [.mk [.start, .single (.atom (.normal 'a'))]]))],
  .mk [.single (.atom (.normal 'a'))]]

/-- **C68 is false in general.** With `(a)$|a`, group 1 is not set in the match reported for `ab` but is in the one for `a`; with
`(^a)|a` it is not in the one for `ba`. -/
theorem C68_negation :
    (compileFlatChar patEndOrNot).map (fun F => (decide (F.exec ['a', 'b'] ['a', 'b'] = .ok (some [some (0, 1), none])),
      decide (F.exec ['a'] ['a'] = .ok (some [some (0, 1), some (0, 1)])))) = .ok (true, true) ∧
    (compileFlatChar patStartOrNot).map (fun F => (decide (F.exec ['b', 'a'] ['b', 'a'] = .ok (some [some (1, 2), none])),
      decide (F.exec ['a'] ['a'] = .ok (some [some (0, 1), some (0, 1)])))) = .ok (true, true) := by decide +kernel

/-- The same stated with `Cuts`. -/
theorem C68_negation_cuts : ¬ (∀ e F, e.progress = true → compileFlatChar e = .ok F → Cuts fun text => F.exec text text) := by
  intro h
  have hn := C68_negation.1
  cases hF : compileFlatChar patEndOrNot with
  | error x => rw [hF] at hn; cases hn
  | ok F =>
    rw [hF] at hn
    simp only [Except.map, Except.ok.injEq, Prod.mk.injEq, decide_eq_true_eq] at hn
    obtain ⟨r', k1, k2⟩ := h patEndOrNot F (by decide) hF [] ['a'] ['b'] _ 0 1 hn.1 rfl (by decide) (by decide)
    simp only at k1
    rw [hn.2] at k1
    cases k1
    revert k2
    decide

end Ere.Props
