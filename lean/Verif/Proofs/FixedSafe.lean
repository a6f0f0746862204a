import Verif.Proofs.DfaSafe
import Verif.Proofs.Fixed

/-! If the offsets of a pattern are fixed, the DFA crosses no start anchor late. -/

namespace Ere
variable {σ α : Type}

/-- Start anchors are inside of group 0. -/
def anchC (l : Lab σ) (x y : Bool) : Prop := grpC 0 l x y ∧ (l = .eps .startAnchor → x = true)

theorem anchC_none (x : Bool) : anchC (σ := σ) (.eps .none) x x := ⟨rfl, by simp⟩

theorem anchC_sym {a : σ} {x : Bool} : anchC (.sym a) x x := ⟨rfl, by simp⟩

theorem anchC_rule [Sym σ α] : LabRule α (anchC (σ := σ)) where
  none := fun h => h.1
  inj := fun hs h h' => (grpC_rule (α := α) 0).inj hs h.1 h'.1

theorem anch_char (e : ERE) {N : NFA Atom} (h1 : workingNew (Tree.fromERE e).1 = .ok N) (hN : N ≠ []) :
    LabG anchC N false false := by
  have hb := build_shape _ (starOk_fromERE e)
  have hc1 : Shape (build (Tree.fromERE e).1).cleanStartAnchors := filterEdges_shape hb
  have hc : Shape (build (Tree.fromERE e).1).cleanStartAnchors.cleanEndAnchors := filterEdges_shape hc1
  have hl := withLoops_shape hc anyAtom true true
  have hbase : LabG anchC (build (Tree.fromERE e).1) false false := by
    have hq : EpsQ (NotGroup 0) (build (Tree.fromSubERE e 1).1) :=
      build_epsQ _ (markQ_fromSubERE e 1 (by simp [NotGroup]) (by simp [NotGroup])
        fun j hj _ => ⟨by simp [NotGroup]; omega, by simp [NotGroup]; omega⟩)
    rw [Tree.fromERE, build]
    have hin : LabG anchC (build (Tree.fromSubERE e 1).1) true true := by
      refine labG_const fun p l q he => ⟨?_, fun _ => rfl⟩
      cases l with
      | sym a => rfl
      | eps x =>
        rcases hq.edge he with rfl | ⟨k1, k2⟩
        · rfl
        · exact (grpC_other k1 k2).mpr rfl
    refine labG_capture (build_good _) hin _ ?_ ?_ <;> simp [anchC, grpC]
  have h0 : LabG anchC (build (Tree.fromERE e).1).cleanStartAnchors.cleanEndAnchors false false :=
    labG_filter (labG_filter hbase _ _) _ _
  have hL := labG_withLoops anchC_none hc.good h0 anyAtom anchC_sym anchC_sym
  rw [workingNew, newLoopOpt] at h1
  exact (labG_stable (α := Char) anchC_rule false false).finish hl (labG_filter hL _ _) h1 hN

theorem anch_byte (U : Utf8Seqs) (e : ERE) {N : NFA Atom} {M : NFA U8Atom}
    (h1 : workingNew (Tree.fromERE e).1 = .ok N) (hN : Ready N)
    (h2 : u8New U.seqs N = .ok M) (hM : M ≠ []) : LabG anchC M false false := by
  have hNs := anch_char e h1 hN.ne
  obtain ⟨B, ms, ss, I, h3, h4⟩ := u8Build_spec U hN.ne
  rw [u8New, u8NewLoopOpt, h3] at h2
  have h5 : B.finish = .ok M := h2
  refine (labG_stable (α := UInt8) anchC_rule false false).finish
    (u8Build_shape hN.wf hN.ne hN.rank hN.mix hN.sink h4) (labG_filter ?_ _ _) h5 hM
  refine labG_u8Build U (fun y _ => y) hN.wf hN.ne h4 hNs ?_ (anchC_none _) (fun _ _ _ _ h _ => ⟨h.1, by simp⟩)
    (fun _ _ _ _ _ h _ _ => ⟨h.1, by simp⟩) (fun _ _ _ _ _ _ _ _ _ => anchC_sym) (fun _ _ _ _ _ _ _ => anchC_sym)
  intro x y z h
  refine ⟨?_, fun hh => h.2 (by simpa using hh)⟩
  cases x <;> exact h.1

/-- A walk that crosses a start anchor and ends outside of group 0 closes group 0. -/
theorem walk_closes {M : NFA σ} {A : Nat → Bool} (hA : GOkL anchC A 0 M) {q ls p} (h : EWalk M q ls p)
    (hs : EpsType.startAnchor ∈ ls) (hp : A p = false) : EpsType.endCapture 0 ∈ ls := by
  have key : A p = true ∨ EpsType.endCapture 0 ∈ ls := by
    clear hp
    induction h with
    | refl => simp at hs
    | @tail ls p e r _ he ih =>
      have ha := hA _ _ _ he
      rw [Nat.zero_add] at ha
      by_cases h0 : e = .endCapture 0
      · exact Or.inr (by simp [h0])
      by_cases h1 : e = .startCapture 0
      · subst h1
        have := ha.1
        simp only [grpC, if_true] at this
        exact Or.inl this.2
      have hxy := (grpC_other h1 h0).mp ha.1
      by_cases h2 : e = .startAnchor
      · subst h2
        exact Or.inl (by rw [← hxy]; exact ha.2 rfl)
      · rcases List.mem_append.mp hs with h | h
        · rcases ih h with k | k
          · exact Or.inl (by rw [← hxy]; exact k)
          · exact Or.inr (by simp [k])
        · simp at h; exact absurd h.symm h2
  rcases key with h | h
  · rw [hp] at h; simp at h
  · exact h

theorem walk_drift {M : NFA σ} {q ls p} (h : EWalk M q ls p) {o c} (hd : M.Drift q o c) :
    M.Drift p o (c ++ walkEvents o ls) := by
  induction h with
  | refl => simpa [walkEvents] using hd
  | @tail ls p e r _ he ih =>
    rw [walkEvents_append, ← List.append_assoc]
    exact .tail ih (.eps he)

/-- Fixed offsets: no start anchor is crossed after a symbol. -/
theorem fixed_startSafe (U : Utf8Seqs) (e : ERE) {N : NFA Atom} {M : NFA U8Atom}
    (h1 : workingNew (Tree.fromERE e).1 = .ok N) (h2 : u8New U.seqs N = .ok M) (hne : M ≠ []) {offs : Slots}
    (hf : M.fixedOffsets = .ok (some offs)) : StartSafe M := by
  obtain ⟨hN, hM, h3, h4⟩ := pipeline_ne U e h1 h2 hne
  by_cases hm : e.MatchesIn []
  · intro p a q ls he hw hs
    obtain ⟨r, k1, _, k2⟩ := fixedOffsets_spec hM
    rw [hf] at k1
    injection k1 with k1
    have hfix := k2 offs k1.symm
    obtain ⟨A, a0, al, hA⟩ := anch_byte U e h1 hN h2 hne
    -- the walk that crosses the anchor after a symbol
    have hp : p < M.length := hasEdge_lt he
    obtain ⟨o, c, hd⟩ := drift_of_path (path_edge.mp (hM.trim p hp).1)
    have hd1 := walk_drift hw (.tail hd (.sym he))
    have hclose := walk_closes hA hw hs al
    -- a run on the empty text
    obtain ⟨caps, hrun⟩ := (exists_run_iff e []).mpr hm
    rw [← h3, ← acc_enc h4] at hrun
    have hd2 := run_drift hrun.2
    have heq := (hfix _ _ hd1).symm.trans (hfix _ _ hd2)
    obtain ⟨A', b0, bl, hA'⟩ := grp_byte U e 0 h1 hN h2 hne
    obtain ⟨B, c0, _, hB⟩ := ph_byte U hN h2 hne
    obtain ⟨_, _, _, _, j4⟩ := run_slots b0 c0 hA' hB [] hrun.2
    rw [bl] at j4
    have hk : 0 < M.numCaptureGroups := Nat.succ_pos _
    have e1 := congrArg (fun l => l[0]?) heq
    simp only [slotsOf_get hk, Option.some.injEq, Prod.mk.injEq] at e1
    have e2 := e1.2
    rw [end?_append, walkEvents_end, if_pos hclose, Option.some_or] at e2
    rcases j4 with ⟨_, j⟩ | ⟨i, j, _, j5, _, j6, _⟩
    · rw [← e2] at j; simp at j
    · rw [← e2] at j5
      injection j5 with j5
      have : byteLen [] = 0 := rfl
      simp at j6
      omega
  · exact startSafe_pipeline U e (Or.inr (Or.inr hm)) h1 hN h2 hne

end Ere
