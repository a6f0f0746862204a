import Verif.Proofs.LeftmostOnePass
import Verif.Props.Priority

/-!
# Property theorems about where the reported match begins: C26

No hypothesis about the pattern: the order in which the search visits things keeps earlier starts first in
all engines, even where the preferred match is not the reported one (`C46_negation`).

The theorems compare with `ERE.Captures` (Spec/Captures.lean): `e.Captures text S'` says that the pattern
matches a stretch of the text with the spans `S'`, and `lastSpan S' 0` is that stretch.
-/

namespace Ere.Props
open Ere

/-- **C26 (flat engine over characters).** -/
theorem C26_flat_char {e : ERE} {F : Flat Atom} (h : compileFlatChar e = .ok F) {text : List Char} {r}
    (hr : F.exec text text = .ok (some r)) :
    ∃ i j, (r[0]?).join = some (i, j) ∧ ∀ S' i' j', e.Captures text S' → lastSpan S' 0 = some (i', j') → i ≤ i' :=
  flat_char_left h hr

/-- **C26 (flat engine over bytes).** -/
theorem C26_flat_u8 (U : Utf8Seqs) {e : ERE} {F : Flat U8Atom} (h : compileFlatU8 U.seqs e = .ok F)
    {text : List Char} {r} (hr : F.exec text (encode text) = .ok (some r)) :
    ∃ i j, (r[0]?).join = some (i, j) ∧ ∀ S' i' j', e.Captures text S' → lastSpan S' 0 = some (i', j') → i ≤ i' :=
  flat_u8_left U h hr

/-- **C26 (DFA engine).** Also where `exec` reports something although nothing matches (`C20_negation`). -/
theorem C26_dfa (U : Utf8Seqs) {e : ERE} {G : DfaEngine} (h : compileDfaU8 U.seqs e = .ok (some G))
    {text : List Char} {r} (hr : G.tdfa.exec text (encode text) = .ok (some r)) :
    ∃ i j, (r[0]?).join = some (i, j) ∧ ∀ S' i' j', e.Captures text S' → lastSpan S' 0 = some (i', j') → i ≤ i' := by
  unfold compileDfaU8 at h
  split at h
  · simp at h
  · rename_i M hb
    obtain ⟨N, h1, h2⟩ := byteNFA_ok hb
    have hne := dfaOf_ne h
    unfold dfaOf at h
    split at h
    · simp at h
    · simp at h
    · rename_i T hT
      unfold serializeDfa at h
      split at h
      · simp at h
      · simp at h
      · injection h with h
        injection h with h
        subst h
        exact tdfa_left U h1 h2 hne hT hr

/-- **C26 (one-pass engine).** If the emitted program compiles. -/
theorem C26_one_pass (U : Utf8Seqs) {e : ERE} {P : OnePass} (h : compileOnePassU8 U.seqs e = .ok (some P))
    (hc : P.compiles = true) {text : List Char} {r} (hr : P.exec text (encode text) = .ok (some r)) :
    ∃ i j, (r[0]?).join = some (i, j) ∧ ∀ S' i' j', e.Captures text S' → lastSpan S' 0 = some (i', j') → i ≤ i' := by
  obtain ⟨M, hb, hM, hP, _⟩ := onePass_compiled U h
  obtain ⟨N, h1, h2⟩ := byteNFA_ok hb
  exact onePass_left U h1 h2 hM.ne hP hc hr

theorem pickInner_left (U : Utf8Seqs) {e : ERE} {N : NFA Atom} {M : NFA U8Atom} {ascii : Bool} {b : BaseEngine}
    (h1 : workingNew (Tree.fromERE e).1 = .ok N) (h2 : u8New U.seqs N = .ok M)
    (h : pickInner ascii N M = .ok b) {cr : List String} (hc : b.compiles cr = true) {text : List Char} {r}
    (hr : b.exec text = .ok (some r)) : LeftOk e text r := by
  have hb : byteNFA U.seqs e = .ok M := by unfold byteNFA charNFA; rw [h1]; exact h2
  have hcn : charNFA e = .ok N := h1
  unfold pickInner at h
  split at h
  · simp at h
  · rename_i P hP
    injection h with h; subst h
    have hq : compileOnePassU8 U.seqs e = .ok (some P) := by unfold compileOnePassU8; rw [hb]; exact hP
    exact C26_one_pass U hq hc hr
  · split at h
    · simp at h
    · rename_i T hT
      split at h
      · simp at h
      · rename_i G hG
        injection h with h; subst h
        cases G with
        | none => simp [BaseEngine.compiles] at hc
        | some G =>
          have hd : compileDfaU8 U.seqs e = .ok (some G) := by
            unfold compileDfaU8; rw [hb]; simp only [dfaOf]; rw [hT]; exact hG
          exact C26_dfa U hd hr
    · split at h
      · split at h
        · simp at h
        · rename_i F hF
          injection h with h; subst h
          have hf : compileFlatU8 U.seqs e = .ok F := by unfold compileFlatU8; rw [hb]; exact hF
          exact C26_flat_u8 U hf hr
      · split at h
        · simp at h
        · rename_i F hF
          injection h with h; subst h
          have hf : compileFlatChar e = .ok F := by unfold compileFlatChar; rw [hcn]; exact hF
          exact C26_flat_char hf hr

/-- **C26 (`compile_regex!`).** If the emitted program compiles, `exec` of the regex reports a stretch that begins
no later than any match. -/
theorem C26_compile_regex (U : Utf8Seqs) {e : ERE} {E : Engine}
    (h : pickEngine U.seqs e = .ok E) {cr : List String} (hc : E.compiles cr = true)
    {text : List Char} {r} (hr : E.exec text = .ok (some r)) {S' i' j'} (hS : e.Captures text S')
    (hl : lastSpan S' 0 = some (i', j')) : ∃ i j, (r[0]?).join = some (i, j) ∧ i ≤ i' := by
  unfold pickEngine at h
  split at h
  · simp at h
  · rename_i b hb
    obtain ⟨h1, h2, h3⟩ := pickBase_ok hb
    have hbn : byteNFA U.seqs e = .ok b.u8nfa := by unfold byteNFA charNFA; rw [h1]; exact h2
    split at h
    · simp at h
    · rename_i offs hof
      injection h with h; subst h
      simp only [Engine.exec] at hr
      split at hr
      · simp at hr
      rename_i x _
      obtain ⟨res, r1, _, r3⟩ := C31_fixed_offsets U hbn hof text S' hS
      cases x with
      | false => simp [fixedExec] at hr
      | true =>
        rw [hr] at r1
        have := Option.some.inj (Except.ok.inj r1)
        subst this
        exact ⟨i', j', by rw [r3, hl], Nat.le_refl _⟩
    · injection h with h; subst h
      simp only [Engine.compiles, Bool.and_eq_true] at hc
      obtain ⟨i, j, g1, g2⟩ := pickInner_left U h1 h2 h3 hc.1 hr
      exact ⟨i, j, g1, g2 _ _ _ hS hl⟩

/-- **C26 (attribute macro).** The same for the first field of the struct that the emitted `exec` returns. -/
theorem C26_attribute (U : Utf8Seqs) {s : List Char} {k : Nat} {A : Attr}
    (h : compileAttr U.seqs s k = .ok (some A)) {cr : List String} (hc : A.compiles cr = true) {e : ERE}
    (he : parseStr s = .ok e) {text : List Char} {r} (hr : A.exec text = .ok (some r)) {S' i' j'}
    (hS : e.Captures text S') (hl : lastSpan S' 0 = some (i', j')) :
    ∃ i j, (r[0]?).join = some (i, j) ∧ i ≤ i' := by
  obtain ⟨e', N, he', _, hE, _, _, hopt⟩ := compileAttr_ok h
  rw [he] at he'
  rw [← Except.ok.inj he'] at hE
  simp only [Attr.compiles, Bool.and_eq_true] at hc
  unfold Attr.exec at hr
  split at hr
  · simp at hr
  · simp at hr
  · rename_i result hx
    split at hr
    · simp at hr
    · rename_i r' hm
      have hrr := Option.some.inj (Except.ok.inj hr)
      rw [← hrr]
      obtain ⟨i, j, g1, g2⟩ := C26_compile_regex U hE hc.1 hx hS hl
      refine ⟨i, j, ?_, g2⟩
      obtain ⟨ho, _⟩ := mapM_get hopt
      rw [List.length_range] at ho
      have hpos : 0 < A.optional.length := by rw [ho]; exact Nat.succ_pos _
      obtain ⟨_, hg⟩ := mapM_get hm
      obtain ⟨y, y1, y2⟩ := hg 0 (A.optional[0], 0) (by
        rw [List.getElem?_zipIdx, List.getElem?_eq_getElem hpos]; rfl)
      rw [y1]
      unfold attrField at y2
      simp only at y2
      split at y2
      · simp at y2
      · rename_i x hx0
        rw [hx0] at g1
        split at y2
        · rw [← Except.ok.inj y2]; exact g1
        · split at y2
          · rw [← Except.ok.inj y2]; exact g1
          · simp at y2

/-- non-vacuity: all hypotheses hold for `(()|(^))a|b+` on `ébab`, a pattern for which the flat
engines do not report the preferred match on every text; there are several matches with different starts. -/
def patLeft : ERE := .mk [.mk [.single (.sub (.mk [.mk [.single (.sub (.mk [.mk []]))],
  .mk [.single (.sub (.mk [.mk [.start]]))]])), .single (.atom (.normal 'a'))],
  .mk [.quantified (.atom (.normal 'b')) ⟨.plus, false⟩]]
example : (compileFlatChar patLeft).map (fun F => decide ((F.exec ['é', 'b', 'a', 'b'] ['é', 'b', 'a', 'b']).map (·.map (·[0]?)) =
    .ok (some (some (some (2, 3)))))) = .ok true := by decide +kernel
example : (compileFlatU8 utf8Sequences patLeft).map (fun F => decide ((F.exec ['é', 'b', 'a', 'b'] (encode ['é', 'b', 'a', 'b'])).map
    (·.map (·[0]?)) = .ok (some (some (some (2, 3)))))) = .ok true := by decide +kernel
example : (compileDfaU8 utf8Sequences patLeft).map (·.map (fun G => decide ((G.tdfa.exec ['é', 'b', 'a', 'b']
    (encode ['é', 'b', 'a', 'b'])).map (·.map (·[0]?)) = .ok (some (some (some (2, 3))))))) = .ok (some true) := by decide +kernel
example : patLeft.Captures ['é', 'b', 'a', 'b'] [⟨0, 4, 5⟩] :=
  ⟨['é', 'b', 'a'], ['b'], [], [], rfl, .intro (bs1 := [_]) (b := .mk [_]) (bs2 := []) rfl
    (.cons (m1 := ['b']) (m2 := []) (S1 := []) (S2 := []) (.quantified (n := 1) (by decide) (by simp [QType.max])
      (.succ (m1 := ['b']) (m2 := []) (S1 := []) (S2 := []) (.atom (by decide)) .zero)) .nil), by decide⟩

/-- the one-pass program that reports the second alternative of `^a+(|())$`. -/
example : (compileOnePassU8 utf8Sequences patTwoEnds).map (·.map (fun P => P.compiles && decide (
    P.exec ['a', 'a'] (encode ['a', 'a']) = .ok (some [some (0, 2), some (2, 2), some (2, 2)])))) = .ok (some true) := by
  decide +kernel

end Ere.Props
