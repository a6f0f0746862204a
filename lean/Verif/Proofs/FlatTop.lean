import Verif.Model.Engines
import Verif.Proofs.FlatExec

/-! The flat lockstep engines for patterns. -/

namespace Ere
variable {σ α : Type}

/-- Events of a run come from edges. -/
theorem reach_start_none [Sym σ α] {N : NFA σ} {q off} {text rest : List α} {caps : Caps}
    (h : ReachE N.HasEdge (0, ⟨0, text, []⟩) (q, ⟨off, rest, caps⟩)) {g}
    (hg : N.numCaptureGroups ≤ g) : caps.start? g = none := by
  refine reachE_tail_induction (P := fun _ d => d.caps.start? g = none) h rfl ?_
  intro q1 d1 l q2 d2 _ ih he hl
  cases l with
  | sym a =>
    obtain ⟨c, r, _, _, rfl⟩ := symStep_iff.mp (show symStep a d1 = some d2 from hl)
    exact ih
  | eps e =>
    have hst : epsStep e d1 = some d2 := hl
    cases e with
    | none => simp [epsStep] at hst; subst hst; exact ih
    | startAnchor => simp [epsStep] at hst; obtain ⟨_, rfl⟩ := hst; exact ih
    | endAnchor => simp [epsStep] at hst; obtain ⟨_, rfl⟩ := hst; exact ih
    | startCapture k =>
      simp [epsStep] at hst; subst hst
      have hk := start_lt he
      simp only [Caps.setStart]
      rw [start?_append, ih]
      have : ¬ k = g := by omega
      simp [Caps.start?, this]
    | endCapture k =>
      simp [epsStep] at hst; subst hst
      simp only [Caps.setEnd]
      rw [start?_append, ih]
      simp [Caps.start?]

/-- What the flat engines do: `test` decides matching; `exec` fails exactly when there is no match,
never panics, and otherwise reports, for one way of matching, the last stretch of each group. -/
structure FlatCorrect (F : Flat σ) (e : ERE) [Sym σ α] (enc : List Char → List α) : Prop where
  test : ∀ text, F.test (enc text) = true ↔ e.MatchesIn text
  exec : ∀ text, (F.exec text (enc text) = .ok none ∧ ¬ e.MatchesIn text) ∨
    ∃ r S, F.exec text (enc text) = .ok (some r) ∧ e.Captures text S ∧ r.length = F.groups ∧
      ∀ g, (r[g]?).join = lastSpan S g

theorem flatCorrect [Sym σ α] {N : NFA σ} (hN : Ready N) {F : Flat σ} (hF : FlatOk N F) {e : ERE}
    {enc : List Char → List α}
    (h : ∀ text caps, N.Acc ⟨0, enc text, []⟩ ⟨unitLen σ (enc text), [], caps⟩ ↔
      ∃ pre mid post, text = pre ++ mid ++ post ∧
        (Tree.fromERE e).1.Run ⟨byteLen pre, mid ++ post, []⟩ ⟨byteLen (pre ++ mid), post, caps⟩) :
    FlatCorrect F e enc := by
  have hm : ∀ text, (∃ caps, N.Acc ⟨0, enc text, []⟩ ⟨unitLen σ (enc text), [], caps⟩) ↔ e.MatchesIn text := by
    intro text
    rw [← exists_run_iff]
    simp only [h]
  constructor
  · intro text
    rw [flatTest_spec hN.wf hN.ne hF, hm]
  · intro text
    rcases flatExec_spec hN hF text (enc text) (by
      intro caps hacc g _
      obtain ⟨S, h1, h2⟩ := run_captures ((h text caps).mp hacc)
      exact ⟨_, finishSlot_ok h1 h2 g⟩) with ⟨h1, h2⟩ | ⟨r, caps, h1, h2, h3, h4⟩
    · exact Or.inl ⟨h1, fun hh => h2 ((hm text).mpr hh)⟩
    · obtain ⟨S, h5, h6⟩ := run_captures ((h text caps).mp h2)
      refine Or.inr ⟨r, S, h1, h5, by rw [h3, hF.groups], fun g => ?_⟩
      by_cases hg : g < N.numCaptureGroups
      · obtain ⟨x, h7, h8⟩ := h4 g hg
        rw [finishSlot_ok h5 h6 g] at h8
        injection h8 with h8
        rw [h7, ← h8]; rfl
      · rw [List.getElem?_eq_none (by omega)]
        have h9 := reach_start_none h2.2 (g := g) (by omega)
        rw [(reads_last h6 g).1] at h9
        simp only [Option.map_eq_none_iff] at h9
        rw [h9]; rfl

/-- A computation has one result. -/
theorem ok_unique {β : Type} {x : Except Err β} {a b : β} (h1 : x = .ok a) (h2 : x = .ok b) : a = b :=
  Except.ok.inj (h1.symm.trans h2)

theorem byteNFA_ok {seqs : Char → Char → List (List U8Atom)} {e : ERE} {M : NFA U8Atom} (h : byteNFA seqs e = .ok M) :
    ∃ N, workingNew (Tree.fromERE e).1 = .ok N ∧ u8New seqs N = .ok M := by
  unfold byteNFA charNFA at h
  split at h
  · simp at h
  · exact ⟨_, by assumption, h⟩

theorem compileFlat_ne {N : NFA σ} {F : Flat σ} (h : compileFlat N = .ok F) : N ≠ [] := by
  rintro rfl
  rw [compileFlat] at h
  simp at h

/-- The flat engine over characters, whenever the macro returns. -/
theorem flat_char {e : ERE} {F : Flat Atom} (h : compileFlatChar e = .ok F) :
    ∃ N, workingNew (Tree.fromERE e).1 = .ok N ∧ FlatOk N F ∧ Ready N ∧ FlatCorrect F e (id : List Char → List Char) := by
  unfold compileFlatChar charNFA at h
  split at h
  · simp at h
  · rename_i N h1
    obtain ⟨hN, h3⟩ := workingNew_ne e h1 (compileFlat_ne h)
    obtain ⟨F', f1, f2⟩ := compileFlat_spec hN.wf hN.ne
    obtain rfl : F' = F := by rw [f1] at h; injection h
    exact ⟨N, h1, f2, hN, flatCorrect hN f2 h3⟩

/-- The flat engine over bytes, whenever the macro returns. -/
theorem flat_u8 (U : Utf8Seqs) {e : ERE} {F : Flat U8Atom} (h : compileFlatU8 U.seqs e = .ok F) :
    ∃ N M, workingNew (Tree.fromERE e).1 = .ok N ∧ u8New U.seqs N = .ok M ∧ FlatOk M F ∧ Ready M ∧
      FlatCorrect F e encode := by
  unfold compileFlatU8 at h
  split at h
  · simp at h
  · rename_i M hb
    obtain ⟨N, h1, h2⟩ := byteNFA_ok hb
    obtain ⟨_, hM, h3, h4⟩ := pipeline_ne U e h1 h2 (compileFlat_ne h)
    obtain ⟨F', f1, f2⟩ := compileFlat_spec hM.wf hM.ne
    obtain rfl : F' = F := by rw [f1] at h; injection h
    refine ⟨N, M, h1, h2, f2, hM, flatCorrect hM f2 ?_⟩
    intro text caps
    rw [unitLen_u8, encode_length, acc_enc h4, h3]

/-- The macros return if the pattern can match at all. -/
theorem flat_returns (U : Utf8Seqs) {e : ERE} (hm : ∃ text, e.MatchesIn text) :
    (∃ F, compileFlatChar e = .ok F) ∧ ∃ F, compileFlatU8 U.seqs e = .ok F := by
  obtain ⟨N, M, h1, h2, hN, hM, h3, h4⟩ := pipeline_spec U e hm
  obtain ⟨F, f1, f2⟩ := compileFlat_spec hN.wf hN.ne
  obtain ⟨G, g1, g2⟩ := compileFlat_spec hM.wf hM.ne
  refine ⟨⟨F, ?_⟩, G, ?_⟩
  · unfold compileFlatChar charNFA; rw [h1]; exact f1
  · unfold compileFlatU8 byteNFA charNFA; rw [h1]; simp only; rw [h2]; exact g1

end Ere
