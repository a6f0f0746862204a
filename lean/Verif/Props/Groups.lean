import Verif.Proofs.DfaGroups
import Verif.Props.Priority

/-!
# Property theorems about the length of the array of captures: C29 for the DFA engine and for
`compile_regex!`, C44

The hypothesis "the last group takes part in the preferred match of some text" is needed for the DFA
engine (`C29_dfa_negation`, `C44_negation`).
-/

namespace Ere.Props
open Ere

/-- Some text has a preferred match in which the last group takes part. -/
def LastUsed (e : ERE) : Prop := ∃ text S, e.first text = some S ∧ (lastSpan S e.groups).isSome = true

theorem lastUsed_captures {e : ERE} (h : LastUsed e) :
    ∃ text S i j, e.Captures text S ∧ lastSpan S e.groups = some (i, j) := by
  obtain ⟨text, S, h1, h2⟩ := h
  obtain ⟨⟨i, j⟩, h3⟩ := Option.isSome_iff_exists.mp h2
  exact ⟨text, S, i, j, first_captures h1, h3⟩

/-- A result of the right kind is as long as the last group that is set. -/
theorem firstOk_groups {e : ERE} {text : List Char} {k g : Nat} {S} {res} (h : FirstOk e text k res)
    (hS : e.first text = some S) (hg : (lastSpan S g).isSome = true) : g < k := by
  rcases h with ⟨_, h⟩ | ⟨r, S', _, h1, h2, h3⟩
  · rw [h] at hS; simp at hS
  · rw [hS] at h1
    injection h1 with h1
    subst h1
    rw [← h2]
    by_contra hlt
    have := h3 g
    rw [List.getElem?_eq_none (by omega)] at this
    rw [← this] at hg
    simp at hg

/-- **C29 (DFA engine, bound).** The array returned by the DFA engine is at most one longer than the number of
parentheses. -/
theorem C29_dfa_bound (U : Utf8Seqs) {e : ERE} {G : DfaEngine} (h : compileDfaU8 U.seqs e = .ok (some G)) :
    G.tdfa.numCaptureGroups ≤ e.groups + 1 := by
  unfold compileDfaU8 at h
  split at h
  · simp at h
  rename_i M hb
  obtain ⟨N, h1, h2⟩ := byteNFA_ok hb
  obtain ⟨hN, hM, _, _⟩ := pipeline_ne U e h1 h2 (dfaOf_ne h)
  rcases fromNFA_spec hM.wf hM.ne (TDFA.defaultBound M.length) with ⟨g1, _⟩ | ⟨T, g1, _, g2⟩
  · rw [dfaOf, g1] at h; simp at h
  rw [dfaOf, g1] at h
  obtain ⟨D, g3, _⟩ := fromTagged_spec g2
  simp only [serializeDfa] at h
  rw [g3] at h
  injection h with h
  injection h with h
  subst h
  exact Nat.le_trans (tdfa_groups_le hM g2) (groups_le U e h1 hN h2 hM.ne).2

/-- **C29 (DFA engine, partial).** The length is exact if the last group takes part in the preferred match of
some text. -/
theorem C29_dfa_exact_partial (U : Utf8Seqs) {e : ERE} (hp : e.progress = true)
    (hs : e.StartSimple) (hl : LastUsed e) {G : DfaEngine}
    (h : compileDfaU8 U.seqs e = .ok (some G)) : G.tdfa.numCaptureGroups = e.groups + 1 := by
  obtain ⟨text, S, h1, h2⟩ := hl
  have := firstOk_groups (C46_dfa_partial U hp hs h text) h1 h2
  have := C29_dfa_bound U h
  omega

theorem compileFlat_groups {σ : Type} {N : NFA σ} {F : Flat σ} (h : compileFlat N = .ok F) :
    F.groups = N.numCaptureGroups := by
  unfold compileFlat at h
  split at h
  · simp at h
  · split at h
    · simp at h
    · injection h with h; subst h; rfl

theorem pickInner_groups (U : Utf8Seqs) {e : ERE} (hp : e.progress = true) (hl : LastUsed e)
    {N : NFA Atom} {M : NFA U8Atom} {ascii : Bool} {b : BaseEngine}
    (h1 : charNFA e = .ok N) (h2 : byteNFA U.seqs e = .ok M)
    (h : pickInner ascii N M = .ok b) {cr : List String} (hc : b.compiles cr = true) (hs : StartOk e ⟨b, none⟩) :
    b.groups = e.groups + 1 := by
  obtain ⟨N', M', k1, k2, k3, k4⟩ := C29_groups_exact_partial U e (lastUsed_captures hl)
  rw [ok_unique k1 h1] at k3
  rw [ok_unique k2 h2] at k4
  unfold pickInner at h
  split at h
  · simp at h
  · rename_i P hP
    have hbe := (Except.ok.inj h).symm
    have hq : compileOnePassU8 U.seqs e = .ok (some P) := by unfold compileOnePassU8; rw [h2]; exact hP
    obtain ⟨M'', j1, _, j2, _⟩ := onePass_compiled U hq
    rw [hbe]
    simp only [BaseEngine.groups]
    rw [j2.groups, ok_unique j1 h2, k4]
  · split at h
    · simp at h
    · rename_i T hT
      split at h
      · simp at h
      · rename_i G hG
        have hbe := (Except.ok.inj h).symm
        rw [hbe] at hc hs ⊢
        cases G with
        | none => simp [BaseEngine.compiles] at hc
        | some G =>
          have hd : compileDfaU8 U.seqs e = .ok (some G) := by
            unfold compileDfaU8; rw [h2]; simp only [dfaOf]; rw [hT]; exact hG
          exact C29_dfa_exact_partial U hp (hs rfl ⟨_, rfl⟩) hl hd
    · split at h
      · split at h
        · simp at h
        · rename_i F hF
          rw [← Except.ok.inj h]
          simp only [BaseEngine.groups]
          rw [(compileFlat_groups hF), k4]
      · split at h
        · simp at h
        · rename_i F hF
          rw [← Except.ok.inj h]
          simp only [BaseEngine.groups]
          rw [(compileFlat_groups hF), k3]

/-- **C29 (`compile_regex!`, partial).** The `N` of the `Regex<N>` is one plus the number of parentheses, as
documented, whichever engine is chosen. -/
theorem C29_compile_regex_partial (U : Utf8Seqs) {e : ERE} (hp : e.progress = true) (hl : LastUsed e) {E : Engine}
    (h : pickEngine U.seqs e = .ok E) {cr : List String} (hc : E.compiles cr = true) (hs : StartOk e E) :
    E.groups = e.groups + 1 := by
  unfold pickEngine at h
  split at h
  · simp at h
  · rename_i b hb
    obtain ⟨h1, h2, h3⟩ := pickBase_ok hb
    have hbn : byteNFA U.seqs e = .ok b.u8nfa := by unfold byteNFA charNFA; rw [h1]; exact h2
    split at h
    · simp at h
    · rw [← Except.ok.inj h]
      obtain ⟨N', M', k1, k2, k3, k4⟩ := C29_groups_exact_partial U e (lastUsed_captures hl)
      rw [ok_unique k2 hbn] at k4
      exact k4
    · have hE := (Except.ok.inj h).symm
      rw [hE] at hc hs ⊢
      simp only [Engine.compiles, Bool.and_eq_true] at hc
      exact pickInner_groups U hp hl h1 hbn h3 hc.1 hs

/-- **C44 (partial).** If the engine chosen for the pattern compiles, then so does the program of the attribute macro: the length
declared for the array of captures is that of the engine, and it is one plus the number of parentheses.
Missing: patterns whose last group takes part in no preferred match, where it is false
(`C44_negation`), patterns with empty rounds of an unbounded repetition, and the DFA for patterns that match the
empty text and have a `^` other than at their beginning. -/
theorem C44_attribute_compiles_partial (U : Utf8Seqs) {s : List Char} {k : Nat} {A : Attr}
    (h : compileAttr U.seqs s k = .ok (some A)) {cr : List String} (hc : A.engine.compiles cr = true) :
    ∃ e, parseStr s = .ok e ∧ (e.progress = true → LastUsed e → StartOk e A.engine →
      A.compiles cr = true ∧ k = e.groups + 1 ∧ A.engine.groups = e.groups + 1) := by
  obtain ⟨e, N, he, hN, hE, hf, hk, hopt⟩ := compileAttr_ok h
  refine ⟨e, he, fun hp hl hs => ?_⟩
  have h1 := C29_compile_regex_partial U hp hl hE hc hs
  obtain ⟨N', M', k1, k2, k3, k4⟩ := C29_groups_exact_partial U e (lastUsed_captures hl)
  rw [ok_unique k1 hN] at k3
  refine ⟨?_, ?_, h1⟩
  · simp only [Attr.compiles, Bool.and_eq_true, beq_iff_eq]
    exact ⟨hc, by rw [h1, hf, k3]⟩
  · rw [hk, (mapM_get hopt).1, List.length_range, k3]

/-- non-vacuity: `a(é|$)`, compiled to a DFA, and `(a)(b)?` as a struct with three fields. -/
example : LastUsed patAE := ⟨['a'], _, (by decide +kernel : patAE.first ['a'] = some [⟨1, 1, 1⟩, ⟨0, 0, 1⟩]), by decide⟩
example : patAE.progress = true ∧ patAE.groups = 1 ∧ (compileDfaU8 utf8Sequences patAE).map (·.map
    (·.tdfa.numCaptureGroups)) = .ok (some 2) := by decide +kernel
example : (parseStr "(a)(b)?".toList).toOption.map (fun e => (e.progress, e.groups, e.hasStart, (e.first ['a', 'b']).map
    (fun S => (lastSpan S 2).isSome))) = some (true, 2, false, some true) := by decide +kernel
example : (compileAttr utf8Sequences "(a)(b)?".toList 3).map (·.map (fun A => (A.engine.compiles ["ere"],
    A.engine.groups))) = .ok (some (true, 3)) := by decide +kernel

/-- The condition cannot be dropped: in `|()` the last group takes part in a match, but never in the preferred one. -/
example : patEmptyOr.first [] = some [⟨0, 0, 0⟩] ∧ patEmptyOr.first ['a', 'b'] = some [⟨0, 0, 0⟩] := by decide +kernel

end Ere.Props
