import Verif.Proofs.FixedSafe
import Verif.Proofs.Laws
import Verif.Proofs.FirstERE

/-! If the offsets of a pattern are fixed, all texts that match have the same length, and match as a whole. -/

namespace Ere
variable {σ : Type}

/-- An automaton without cycle can be numbered along its edges. -/
theorem acyclic_pos {N : NFA σ} (hN : Ready N) (h : ¬ ∃ q, Relation.TransGen N.Edge q q) :
    ∃ pos : Nat → Nat, (∀ a b, N.Edge a b → pos a < pos b) ∧ ∀ q, q < N.length → pos q < N.length := by
  obtain ⟨t, _, h2, h3⟩ := topological_spec N hN.ne
    (fun a b h => by obtain ⟨l, hl⟩ := edge_iff.1 h; exact hN.wf _ _ _ hl)
  cases t with
  | none =>
    rcases h2 rfl with h4 | ⟨q, h4, h5⟩
    · exact absurd h4 h
    · exact absurd (path_edge.1 (hN.trim q h4).1) h5
  | some ord =>
    obtain ⟨h4, h5, -⟩ := h3 ord rfl
    have hnd : ord.Nodup := h4.nodup_iff.2 List.nodup_range
    have hmem : ∀ q, q ∈ ord ↔ q < N.length := fun q => by rw [h4.mem_iff, List.mem_range]
    have hlen : ord.length = N.length := by rw [h4.length_eq, List.length_range]
    refine ⟨fun q => ord.idxOf q, ?_, fun q hq => by rw [← hlen]; exact List.idxOf_lt_length_of_mem ((hmem q).2 hq)⟩
    intro a b hab
    have ha : a ∈ ord := by
      obtain ⟨l, hl⟩ := edge_iff.1 hab
      exact (hmem a).2 (hasEdge_lt hl)
    obtain ⟨u, v, rfl⟩ := List.append_of_mem ha
    have hb := h5 u a v rfl b hab
    rw [List.nodup_append] at hnd
    obtain ⟨_, n2, n3⟩ := hnd
    rw [List.nodup_cons] at n2
    have hau : a ∉ u := fun h => n3 a h a (by simp) rfl
    have hbu : b ∉ u := fun h => n3 b h b (by simp [hb]) rfl
    have hba : a ≠ b := fun e => n2.1 (e ▸ hb)
    simp only
    rw [List.idxOf_append_of_notMem hau, List.idxOf_append_of_notMem hbu]
    simp only [List.idxOf_cons_self]
    rw [List.idxOf_cons_ne _ hba]
    omega

/-- Walks through an automaton without cycle read fewer symbols than there are states. -/
theorem drift_lt {N : NFA σ} (hN : Ready N) (h : ¬ ∃ q, Relation.TransGen N.Edge q q) {q o c} (hd : N.Drift q o c) :
    o < N.length := by
  obtain ⟨pos, h1, h2⟩ := acyclic_pos hN h
  have hne := List.length_pos_of_ne_nil hN.ne
  have key : ∀ x : Nat × Nat × Caps, Relation.ReflTransGen (DStep N) (0, 0, []) x → x.2.1 ≤ pos x.1 ∧ x.1 < N.length := by
    intro x hx
    induction hx with
    | refl => exact ⟨Nat.zero_le _, hne⟩
    | tail _ hs ih =>
      cases hs with
      | sym he => exact ⟨by have := h1 _ _ (edge_iff.2 ⟨_, he⟩); have := ih.1; simp only at *; omega, hN.wf _ _ _ he⟩
      | eps he => exact ⟨by have := h1 _ _ (edge_iff.2 ⟨_, he⟩); have := ih.1; simp only at *; omega, hN.wf _ _ _ he⟩
  have := key _ hd
  have h3 := h2 _ this.2
  simp only at this h3
  omega

/-! A `^` is not crossed with something in front of it, so what is there does not matter. -/

mutual
theorem MatchesERE.anyPre : {e : ERE} → {pre mid post : List Char} → MatchesERE e pre mid post → pre ≠ [] →
    ∀ pre', MatchesERE e pre' mid post
  | _, _, _, _, .intro hb h, hs, pre' => .intro hb (h.anyPre hs pre')
theorem MatchesBranch.anyPre : {e : EREBranch} → {pre mid post : List Char} → MatchesBranch e pre mid post →
    pre ≠ [] → ∀ pre', MatchesBranch e pre' mid post
  | _, _, _, _, .nil, _, _ => .nil
  | _, _, _, _, .cons h1 h2, hs, pre' => .cons (h1.anyPre hs pre') (h2.anyPre (by simp [hs]) _)
theorem MatchesPart.anyPre : {e : EREPart} → {pre mid post : List Char} → MatchesPart e pre mid post →
    pre ≠ [] → ∀ pre', MatchesPart e pre' mid post
  | _, _, _, _, .single h, hs, pre' => .single (h.anyPre hs pre')
  | _, _, _, _, .quantified h1 h2 h, hs, pre' => .quantified h1 h2 (h.anyPre hs pre')
  | _, _, _, _, .start, hs, _ => absurd rfl hs
  | _, _, _, _, .end_, _, _ => .end_
theorem MatchesTimes.anyPre : {e : EREExpr} → {n : Nat} → {pre mid post : List Char} → MatchesTimes e n pre mid post →
    pre ≠ [] → ∀ pre', MatchesTimes e n pre' mid post
  | _, _, _, _, _, .zero, _, _ => .zero
  | _, _, _, _, _, .succ h1 h2, hs, pre' => .succ (h1.anyPre hs pre') (h2.anyPre (by simp [hs]) _)
theorem MatchesExpr.anyPre : {e : EREExpr} → {pre mid post : List Char} → MatchesExpr e pre mid post →
    pre ≠ [] → ∀ pre', MatchesExpr e pre' mid post
  | _, _, _, _, .atom h, _, _ => .atom h
  | _, _, _, _, .sub h, hs, pre' => .sub (h.anyPre hs pre')
end

mutual
theorem MatchesERE.anyPost : {e : ERE} → {pre mid post : List Char} → MatchesERE e pre mid post → post ≠ [] →
    ∀ post', MatchesERE e pre mid post'
  | _, _, _, _, .intro hb h, hs, post' => .intro hb (h.anyPost hs post')
theorem MatchesBranch.anyPost : {e : EREBranch} → {pre mid post : List Char} → MatchesBranch e pre mid post →
    post ≠ [] → ∀ post', MatchesBranch e pre mid post'
  | _, _, _, _, .nil, _, _ => .nil
  | _, _, _, _, .cons h1 h2, hs, _ => .cons (h1.anyPost (by simp [hs]) _) (h2.anyPost hs _)
theorem MatchesPart.anyPost : {e : EREPart} → {pre mid post : List Char} → MatchesPart e pre mid post →
    post ≠ [] → ∀ post', MatchesPart e pre mid post'
  | _, _, _, _, .single h, hs, post' => .single (h.anyPost hs post')
  | _, _, _, _, .quantified h1 h2 h, hs, post' => .quantified h1 h2 (h.anyPost hs post')
  | _, _, _, _, .start, _, _ => .start
  | _, _, _, _, .end_, hs, _ => absurd rfl hs
theorem MatchesTimes.anyPost : {e : EREExpr} → {n : Nat} → {pre mid post : List Char} → MatchesTimes e n pre mid post →
    post ≠ [] → ∀ post', MatchesTimes e n pre mid post'
  | _, _, _, _, _, .zero, _, _ => .zero
  | _, _, _, _, _, .succ h1 h2, hs, _ => .succ (h1.anyPost (by simp [hs]) _) (h2.anyPost hs _)
theorem MatchesExpr.anyPost : {e : EREExpr} → {pre mid post : List Char} → MatchesExpr e pre mid post →
    post ≠ [] → ∀ post', MatchesExpr e pre mid post'
  | _, _, _, _, .atom h, _, _ => .atom h
  | _, _, _, _, .sub h, hs, post' => .sub (h.anyPost hs post')
end

/-- Fixed offsets: matches are whole texts, all of one length. -/
theorem fixed_length (U : Utf8Seqs) (e : ERE) {N : NFA Atom} {M : NFA U8Atom}
    (h1 : workingNew (Tree.fromERE e).1 = .ok N) (h2 : u8New U.seqs N = .ok M) (hne : M ≠ []) {offs : Slots}
    (hf : M.fixedOffsets = .ok (some offs)) :
    ∃ n, ∀ pre mid post, MatchesERE e pre mid post → pre = [] ∧ post = [] ∧ byteLen mid = n := by
  obtain ⟨hN, hM, h3, h4⟩ := pipeline_ne U e h1 h2 hne
  obtain ⟨r, k1, k2, k3⟩ := fixedOffsets_spec hM
  rw [hf] at k1
  injection k1 with k1
  have hcyc : ¬ ∃ q, Relation.TransGen M.Edge q q := by
    intro hc
    have := k2.2 (.inl hc)
    rw [this] at k1; simp at k1
  have hb : ∀ text, e.MatchesIn text → byteLen text < M.length := by
    intro text hm
    obtain ⟨caps, hrun⟩ := (exists_run_iff e text).mpr hm
    rw [← h3, ← acc_enc h4] at hrun
    exact drift_lt hM hcyc (run_drift hrun.2)
  have hwhole : ∀ pre mid post, MatchesERE e pre mid post → pre = [] ∧ post = [] := by
    intro pre mid post hm
    constructor
    · by_contra hp
      have := hb _ ⟨_, _, _, rfl, hm.anyPre hp (List.replicate M.length 'a')⟩
      rw [byteLen_append, byteLen_append, byteLen_replicate] at this
      omega
    · by_contra hp
      have := hb _ ⟨_, _, _, rfl, hm.anyPost hp (List.replicate M.length 'a')⟩
      rw [byteLen_append, byteLen_replicate] at this
      omega
  by_cases hx : ∃ pre mid post, MatchesERE e pre mid post
  · obtain ⟨pre, mid, post, hm⟩ := hx
    refine ⟨byteLen mid, fun pre' mid' post' hm' => ?_⟩
    obtain ⟨rfl, rfl⟩ := hwhole _ _ _ hm
    obtain ⟨rfl, rfl⟩ := hwhole _ _ _ hm'
    refine ⟨rfl, rfl, ?_⟩
    have key : ∀ m, MatchesERE e [] m [] → ∃ o c, M.Drift (M.length - 1) o c ∧ c.end? 0 = some (byteLen m) := by
      intro m hm
      obtain ⟨caps, hrun⟩ := Tree.matchesText_caps ((Tree.mt_fromERE _ _ _ _).mpr hm) []
      have hacc := (h3 m caps).mpr ⟨[], m, [], by simp, hrun⟩
      rw [← acc_enc h4] at hacc
      refine ⟨_, caps, run_drift hacc.2, ?_⟩
      rw [Tree.fromERE] at hrun
      generalize hd : (⟨byteLen ([] ++ m), [], caps⟩ : Cfg Char) = d at hrun
      cases hrun with
      | capture h =>
        injection hd with d1 d2 d3
        rw [d3]
        simp at d1
        simp [Caps.end?, Caps.setEnd, d1]
    obtain ⟨o, c, hd, hc⟩ := key _ hm
    obtain ⟨o', c', hd', hc'⟩ := key _ hm'
    have heq := (k3 offs k1.symm _ _ hd').symm.trans (k3 offs k1.symm _ _ hd)
    have hk : 0 < M.numCaptureGroups := Nat.succ_pos _
    have e1 := congrArg (fun l => l[0]?) heq
    simp only [slotsOf_get hk, Option.some.injEq, Prod.mk.injEq] at e1
    rw [hc, hc'] at e1
    exact Option.some.inj e1.2
  · exact ⟨0, fun pre mid post hm => absurd ⟨_, _, _, hm⟩ hx⟩

end Ere
