import Verif.Props.Cut
import Verif.Props.Laws
import Verif.Props.Longest
import Verif.Props.Spans
import Verif.Props.Fixed

/-!
# The other macros: the attribute macro runs the program of `compile_regex!`, and what follows; fixed offsets
-/

namespace Ere.Props
open Ere

/-- **C45 (same program).** If the attribute macro accepts a struct and what it emits compiles, then `compile_regex!` accepts the
same pattern, what it emits compiles too, and `test` and `exec` of both give the same results on every text. -/
theorem C45_same_program (U : Utf8Seqs) {s : List Char} {k : Nat} {A : Attr} (h : compileAttr U.seqs s k = .ok (some A))
    {cr : List String} (hc : A.compiles cr = true) :
    ∃ E, compileRegex U.seqs s = .ok (some E) ∧ E.compiles cr = true ∧ E.groups = k ∧
      ∀ text, A.test text = E.test text ∧ A.exec text = E.exec text := by
  have hx := fun text => (C45_attribute_fields U h hc text).1
  obtain ⟨e, N, he, _, hE, hf, hk, hopt⟩ := compileAttr_ok h
  simp only [Attr.compiles, Bool.and_eq_true, beq_iff_eq] at hc
  refine ⟨A.engine, ?_, hc.1, ?_, fun text => ⟨rfl, hx text⟩⟩
  · unfold compileRegex
    rw [he]
    simp only [hE]
  · obtain ⟨ho, _⟩ := mapM_get hopt
    rw [List.length_range] at ho
    omega

/-- **C46 (attribute macro).** Let the anchors stand only around the branches, and let every expression that is repeated without
bound consume a character per round. What `exec` of the struct returns is the preferred match (if the program is not one of the
one-pass engine for a pattern with `$`, or the text determines what the groups capture). -/
theorem C46_attribute_partial (U : Utf8Seqs) {b t : Bool} {s : List Char} {e : ERE} (hp : parseStr s = .ok e)
    (he : e.Framed b t) (hg : e.progress = true) {k : Nat} {A : Attr} (h : compileAttr U.seqs s k = .ok (some A))
    {cr : List String} (hc : A.compiles cr = true) (ho : t = true → (∃ P, A.engine.base = .onePass P) → e.OneReading)
    (text : List Char) : FirstOk e text k (A.exec text) := by
  obtain ⟨E, h1, h2, h3, h4⟩ := C45_same_program U h hc
  obtain ⟨e', _, he', _, hE, _⟩ := compileAttr_ok h
  have : A.engine = E := by
    rw [hp] at he'
    cases he'
    have := compileRegex_ok hp h1
    rw [hE] at this
    exact Except.ok.inj this
  rw [(h4 text).2, ← h3]
  exact C65_framed_preferred U hp he hg h1 h2 (by rw [← this]; exact ho) text

/-- **C52 (attribute macro).** -/
theorem C52_attribute (U : Utf8Seqs) {s : List Char} {k : Nat} {A : Attr} (h : compileAttr U.seqs s k = .ok (some A))
    {cr : List String} (hc : A.compiles cr = true) (text : List Char) : Inside text (A.exec text) := by
  obtain ⟨e, _, _, _, hE, _⟩ := compileAttr_ok h
  rw [(C45_attribute_fields U h hc text).1]
  simp only [Attr.compiles, Bool.and_eq_true] at hc
  exact C52_compile_regex U hE hc.1 text

/-- **C53 (attribute macro).** -/
theorem C53_attribute (U : Utf8Seqs) {s : List Char} {k : Nat} {A : Attr} (h : compileAttr U.seqs s k = .ok (some A))
    {cr : List String} (hc : A.compiles cr = true) {e : ERE} (he : parseStr s = .ok e) {text : List Char}
    (ht : A.test text = .ok true) : (e.hasStart = false → ∀ a, A.test (a ++ text) = .ok true) ∧
      (e.hasEnd = false → ∀ b, A.test (text ++ b) = .ok true) := by
  obtain ⟨E, h1, h2, _, h4⟩ := C45_same_program U h hc
  rw [(h4 _).1] at ht
  have := C53_compile_regex U (compileRegex_ok he h1) h2 ht
  exact ⟨fun hs a => by rw [(h4 _).1]; exact this.1 hs a, fun hs b => by rw [(h4 _).1]; exact this.2 hs b⟩

/-- **C55 (attribute macro)**, if no group is repeated. -/
theorem C55_attribute_partial (U : Utf8Seqs) {s : List Char} {k : Nat} {A : Attr} (h : compileAttr U.seqs s k = .ok (some A))
    {cr : List String} (hc : A.compiles cr = true) {e : ERE} (he : parseStr s = .ok e) (ho : e.once = true) (text : List Char) :
    InOrder (A.exec text) ∧ Nested e (A.exec text) := by
  obtain ⟨E, h1, h2, _, h4⟩ := C45_same_program U h hc
  rw [(h4 text).2]
  exact C55_compile_regex_partial U (compileRegex_ok he h1) h2 ho text

/-- **C56 (attribute macro).** -/
theorem C56_attribute (U : Utf8Seqs) {s : List Char} {k : Nat} {A : Attr} (h : compileAttr U.seqs s k = .ok (some A))
    {cr : List String} (hc : A.compiles cr = true) {e : ERE} (he : parseStr s = .ok e) (text : List Char) :
    ParentsSet e (A.exec text) := by
  obtain ⟨E, h1, h2, _, h4⟩ := C45_same_program U h hc
  rw [(h4 text).2]
  exact C56_compile_regex U (compileRegex_ok he h1) h2 text

/-- **C68 (attribute macro).** -/
theorem C68_attribute_partial (U : Utf8Seqs) {b t : Bool} {s : List Char} {e : ERE} (hp : parseStr s = .ok e)
    (he : e.Framed b t) (hg : e.progress = true) {k : Nat} {A : Attr} (h : compileAttr U.seqs s k = .ok (some A))
    {cr : List String} (hc : A.compiles cr = true)
    (ho : b = false → t = true → (∃ P, A.engine.base = .onePass P) → e.OneReading) : Cuts A.exec := by
  obtain ⟨E, h1, h2, _, h4⟩ := C45_same_program U h hc
  obtain ⟨e', _, he', _, hE, _⟩ := compileAttr_ok h
  have : A.engine = E := by
    rw [hp] at he'
    cases he'
    have := compileRegex_ok hp h1
    rw [hE] at this
    exact Except.ok.inj this
  rw [show A.exec = E.exec from funext fun text => (h4 text).2]
  exact C68_compile_regex_partial U hp he hg h1 h2 (by rw [← this]; exact ho)

/-- **C69 (attribute macro).** -/
theorem C69_attribute_partial (U : Utf8Seqs) {b t : Bool} {s : List Char} {e : ERE} (hp : parseStr s = .ok e)
    (he : e.Framed b t) (hs : t = false → SteadyERE e ∧ e.progress = true) {k : Nat} {A : Attr}
    (h : compileAttr U.seqs s k = .ok (some A)) {cr : List String} (hc : A.compiles cr = true) : Longest e A.exec := by
  obtain ⟨E, h1, h2, _, h4⟩ := C45_same_program U h hc
  rw [show A.exec = E.exec from funext fun text => (h4 text).2]
  exact C69_compile_regex_partial U hp he hs h1 h2

/-! non-vacuity: the attribute macro accepts a struct with two fields for `a(b)?`, which is framed, steady and consumes characters;
what is emitted compiles and returns the match `ab` of `éabc`. -/

example : (compileAttr utf8Sequences "a(b)?".toList 2).map (·.map fun A => (A.compiles ["ere"],
    decide (A.exec ['é', 'a', 'b', 'c'] = .ok (some [some (2, 4), some (3, 4)])))) = .ok (some (true, true)) := by decide +kernel

/-! ### Fixed offsets -/

/-- **C68 (fixed-offset macro).** -/
theorem C68_fixed_offset (U : Utf8Seqs) {e : ERE} {E : Engine} (h : compileFixed U.seqs e = .ok (some E))
    {cr : List String} (hc : E.compiles cr = true) : Cuts E.exec := by
  obtain ⟨n, hn⟩ := C60_fixed_offset U h
  intro x m z r i j hr h0 hi hj
  rcases (C41_fixed_offset U h hc).exec (x ++ m ++ z) with ⟨h1, _⟩ | ⟨r1, S, h1, h2, h3, h4⟩
  · rw [hr] at h1; cases h1
  rw [hr] at h1
  cases h1
  have hS : lastSpan S 0 = some (i, j) := by rw [← h4 0, h0]; rfl
  obtain ⟨pre, mid, post, S', c1, c2, rfl⟩ := h2
  obtain ⟨rfl, rfl, _⟩ := hn _ _ _ c2.matches
  rw [lastSpan_whole, Option.some.injEq, Prod.mk.injEq, List.nil_append, byteLen_nil] at hS
  rw [List.append_nil, List.nil_append] at c1
  rw [← c1, byteLen_append] at hS
  have hx : x = [] := byteLen_eq_zero.mp (by omega)
  have hz : z = [] := byteLen_eq_zero.mp (by omega)
  subst hx hz
  refine ⟨r, by simpa using hr, ?_⟩
  unfold shiftGroups
  simp [byteLen_nil]

/-- **C69 (fixed-offset macro).** For every pattern it accepts. -/
theorem C69_fixed_offset (U : Utf8Seqs) {e : ERE} {E : Engine} (h : compileFixed U.seqs e = .ok (some E))
    {cr : List String} (hc : E.compiles cr = true) : Longest e E.exec := by
  obtain ⟨n, hn⟩ := C60_fixed_offset U h
  refine sameEnd_longest (sameEnd_toEnd fun pre m r hm => (hn _ _ _ hm).2.1) (C41_fixed_offset U h hc).exec ?_
  intro text r hr S' i' j' hS hl
  rcases (C41_fixed_offset U h hc).exec text with ⟨h1, _⟩ | ⟨r1, S, h1, h2, h3, h4⟩
  · rw [hr] at h1; cases h1
  rw [hr] at h1
  cases h1
  obtain ⟨pre, mid, post, S0, c1, c2, rfl⟩ := h2
  refine ⟨_, _, (h4 0).trans (lastSpan_whole _ _ _), ?_⟩
  rw [(hn _ _ _ c2.matches).1]
  exact Nat.zero_le _

/-! non-vacuity: the fixed-offset macro accepts `^(é|ab)c$` (see C60); what is emitted compiles. -/

example : (compileFixed utf8Sequences patFixed).map (·.map fun E => (E.compiles ["ere"],
    decide (E.exec ['é', 'c'] = .ok (some [some (0, 3), some (0, 2)])))) = .ok (some (true, true)) := by decide +kernel

/-! ### Patterns that match the same -/

/-- **C69 (equivalent patterns).** Let two patterns match the same stretches, and let the longest of the leftmost matches be reported
for both. Then the same match is reported for both on every text for which something is reported, whatever their groups are. -/
theorem C69_equivalent {e e' : ERE} (h : ∀ pre mid post, MatchesERE e pre mid post ↔ MatchesERE e' pre mid post) {exec exec'}
    (h1 : Longest e exec) (h2 : Longest e' exec') {text r r'} (hr : exec text = .ok (some r)) (hr' : exec' text = .ok (some r')) :
    r[0]? = r'[0]? := by
  obtain ⟨i, j, a1, a2⟩ := h1 text r hr
  obtain ⟨i', j', b1, b2⟩ := h2 text r' hr'
  have : e.LeftLongest text i' j' := by
    obtain ⟨⟨p, m, q, k1, k2, k3, k4⟩, k5⟩ := b2
    exact ⟨⟨p, m, q, k1, (h _ _ _).mpr k2, k3, k4⟩, fun p m q l1 l2 => k5 p m q l1 ((h _ _ _).mp l2)⟩
  obtain ⟨rfl, rfl⟩ := leftLongest_unique a2 this
  rw [a1, b1]

/-- The pattern `a|(b)` (or, with the branches exchanged, `(b)|a`). -/
def patSwap (swap : Bool) : ERE :=
  let x : EREBranch := .mk [.single (.atom (.normal 'a'))]
  let y : EREBranch := .mk [.single (.sub (.mk [.mk [.single (.atom (.normal 'b'))]]))]
  .mk (if swap then [y, x] else [x, y])

theorem patSwap_steady (swap : Bool) : SteadyERE (patSwap swap) := by
  refine .same (sameEnd_width (w := 1) fun pre m r h => ?_)
  have key : ∀ {c : Char}, charLen c = 1 → ∀ {x}, (Atom.normal c).check x = true → byteLen [x] = 1 := by
    intro c hc x hx
    simp only [Atom.check, beq_iff_eq] at hx
    subst hx
    rw [byteLen_cons, byteLen_nil, hc]
  have hA : ∀ {c : Char}, charLen c = 1 → ∀ {pre m r}, MatchesBranch (.mk [.single (.atom (.normal c))]) pre m r → byteLen m = 1 := by
    intro c hc pre m r h
    cases h with
    | cons h1 h2 =>
      cases h2
      cases h1 with
      | single h1 =>
        cases h1 with
        | atom h1 => exact key hc h1
  have hB : ∀ {pre m r}, MatchesBranch (.mk [.single (.sub (.mk [.mk [.single (.atom (.normal 'b'))]]))]) pre m r → byteLen m = 1 := by
    intro pre m r h
    cases h with
    | cons h1 h2 =>
      cases h2
      cases h1 with
      | single h1 =>
        cases h1 with
        | sub h1 =>
          cases h1 with
          | intro k1 k2 =>
            rw [List.mem_singleton] at k1
            subst k1
            rw [List.append_nil]
            exact hA (by decide) k2
  cases h with
  | intro k1 k2 =>
    cases swap <;> simp only [Bool.false_eq_true, if_false, if_true, List.mem_cons, List.not_mem_nil, or_false] at k1 <;>
      rcases k1 with rfl | rfl
    · exact hA (by decide) k2
    · exact hB k2
    · exact hB k2
    · exact hA (by decide) k2

example : ∀ pre mid post, MatchesERE (patSwap false) pre mid post ↔ MatchesERE (patSwap true) pre mid post := by
  intro pre mid post
  constructor <;> intro h <;> cases h with
  | intro k1 k2 =>
    refine .intro ?_ k2
    simp only [Bool.false_eq_true, if_false, if_true, List.mem_cons, List.not_mem_nil, or_false] at k1 ⊢
    exact k1.symm

example : ((patSwap false).progress = true ∧ (patSwap false).evenAnchors = true) ∧
    ((patSwap true).progress = true ∧ (patSwap true).evenAnchors = true) := by decide

example : (compileFlatChar (patSwap false)).map (fun F => decide (F.exec ['c', 'b'] ['c', 'b'] =
    .ok (some [some (1, 2), some (1, 2)]))) = .ok true ∧
    (compileFlatChar (patSwap true)).map (fun F => decide (F.exec ['c', 'b'] ['c', 'b'] =
    .ok (some [some (1, 2), some (1, 2)]))) = .ok true := by decide +kernel

end Ere.Props
