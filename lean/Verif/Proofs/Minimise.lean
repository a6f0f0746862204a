import Verif.Proofs.TDFARun

/-! Minimisation of the untagged DFA. -/

namespace Ere

/-- Every target exists. -/
def DFA.TargetsOk (D : DFA) : Prop := ∀ s ∈ D.start :: D.states, ∀ t ∈ s.trans, t.dst < D.states.length

/-- Change of a label by a merge. -/
def VState.map (f : Nat → Nat) : VState → VState
  | .start => .start
  | .normal i => .normal (f i)

theorem find_retarget (s : DState) (f : Nat → Nat) (c : UInt8) :
    (s.retarget f).trans.find? (fun t => t.symbol.check c) =
      (s.trans.find? (fun t => t.symbol.check c)).map (fun t => ⟨f t.dst, t.symbol⟩) := by
  unfold DState.retarget
  simp only
  rw [List.find?_map]
  rfl

/-- A renaming of the states that respects the table keeps the behaviour. -/
theorem testLoop_map {D D' : DFA} {f : Nat → Nat} (hT : D.TargetsOk)
    (hs : D'.start = D.start.retarget f)
    (hn : ∀ (i : Nat) s, D.states[i]? = some s → D'.states[f i]? = some (s.retarget f)) :
    ∀ (bs : List UInt8) (v : VState), (∀ i, v = .normal i → i < D.states.length) →
      D'.testLoop (v.map f) bs = D.testLoop v bs := by
  have hget : ∀ v : VState, (∀ i, v = .normal i → i < D.states.length) →
      ∃ s, D.get v = some s ∧ s ∈ D.start :: D.states ∧ D'.get (v.map f) = some (s.retarget f) := by
    intro v hv
    cases v with
    | start => exact ⟨D.start, rfl, by simp, by simp [DFA.get, VState.map, hs]⟩
    | normal i =>
      have hi := hv i rfl
      have := List.getElem?_eq_getElem hi
      exact ⟨_, this, by simp, hn i _ this⟩
  intro bs
  induction bs with
  | nil =>
    intro v hv
    obtain ⟨s, h1, _, h2⟩ := hget v hv
    unfold DFA.testLoop
    rw [h1, h2]; rfl
  | cons c cs ih =>
    intro v hv
    obtain ⟨s, h1, hm, h2⟩ := hget v hv
    unfold DFA.testLoop
    rw [h1, h2]
    simp only
    rw [find_retarget]
    have : (s.retarget f).accept = s.accept := rfl
    rw [this]
    split
    · rfl
    · cases hf : s.trans.find? (fun t => t.symbol.check c) with
      | none => rfl
      | some t =>
        simp only [Option.map_some]
        refine ih (.normal t.dst) ?_
        intro i hi
        injection hi with hi
        subst hi
        exact hT s hm t (List.mem_of_find?_eq_some hf)

theorem mergeTarget_lt {n keep merge t : Nat} (hk : keep < merge) (hm : merge < n) (ht : t < n) :
    mergeTarget keep merge t < n - 1 := by
  unfold mergeTarget
  split
  · omega
  · split <;> omega

theorem eraseIdx_merge {β : Type} {l : List β} {keep merge : Nat} (hk : keep < merge) (hm : merge < l.length)
    (he : l[keep]? = l[merge]?) (i : Nat) (hi : i < l.length) :
    (l.eraseIdx merge)[mergeTarget keep merge i]? = l[i]? := by
  unfold mergeTarget
  rw [List.getElem?_eraseIdx]
  split
  · rename_i h; subst h; exact he
  · split
    · rw [if_neg (by omega)]
      congr 1; omega
    · rw [if_pos (by omega)]

/-- The transitions of all states keep their symbols. -/
def DState.symbols (s : DState) : List U8Atom := s.trans.map (·.symbol)

/-- What minimisation has to keep. -/
structure SameDFA (D D' : DFA) : Prop where
  targets : D'.TargetsOk
  test : ∀ bs, D'.test bs = D.test bs
  symbols : ∀ s' ∈ D'.start :: D'.states, ∃ s ∈ D.start :: D.states, s'.symbols = s.symbols ∧ s'.accept = s.accept

theorem SameDFA.refl {D : DFA} (h : D.TargetsOk) : SameDFA D D :=
  ⟨h, fun _ => rfl, fun s hs => ⟨s, hs, rfl, rfl⟩⟩

theorem SameDFA.trans {D D' D'' : DFA} (h1 : SameDFA D D') (h2 : SameDFA D' D'') : SameDFA D D'' :=
  ⟨h2.targets, fun bs => (h2.test bs).trans (h1.test bs), fun s hs => by
    obtain ⟨s1, a1, a2, a3⟩ := h2.symbols s hs
    obtain ⟨s2, b1, b2, b3⟩ := h1.symbols s1 a1
    exact ⟨s2, b1, a2.trans b2, a3.trans b3⟩⟩

theorem retarget_symbols (s : DState) (f : Nat → Nat) : (s.retarget f).symbols = s.symbols := by
  simp [DState.retarget, DState.symbols, Function.comp_def]

theorem mergeStates_spec {D : DFA} (hT : D.TargetsOk) {keep merge : Nat} (hk : keep < merge)
    (hm : merge < D.states.length) (he : D.states[keep]? = D.states[merge]?) :
    ∃ D', D.mergeStates keep merge = .ok D' ∧ SameDFA D D' ∧ D'.states.length + 1 = D.states.length ∧
      ∀ i, i < merge → D'.states[i]? = (D.states[i]?).map (·.retarget (mergeTarget keep merge)) := by
  unfold DFA.mergeStates
  rw [if_neg (by omega)]
  have hlen : ((D.states.eraseIdx merge).map (·.retarget (mergeTarget keep merge))).length + 1 = D.states.length := by
    rw [List.length_map, List.length_eraseIdx, if_pos hm]; omega
  refine ⟨_, rfl, ⟨?_, ?_, ?_⟩, hlen, ?_⟩
  · intro s hs t ht
    simp only at hs ht ⊢
    obtain ⟨s0, h0, rfl⟩ : ∃ s0 ∈ D.start :: D.states, s = s0.retarget (mergeTarget keep merge) := by
      rcases List.mem_cons.mp hs with rfl | h
      · exact ⟨D.start, by simp, rfl⟩
      · obtain ⟨s0, h1, rfl⟩ := List.mem_map.mp h
        exact ⟨s0, by simp [List.mem_of_mem_eraseIdx h1], rfl⟩
    unfold DState.retarget at ht
    obtain ⟨t0, h1, rfl⟩ := List.mem_map.mp ht
    have := hT s0 h0 t0 h1
    have := mergeTarget_lt hk hm this
    simp only
    omega
  · intro bs
    have := testLoop_map (D := D) (D' := ⟨D.start.retarget (mergeTarget keep merge),
      (D.states.eraseIdx merge).map (·.retarget (mergeTarget keep merge))⟩) (f := mergeTarget keep merge)
      hT rfl (by
        intro i s hs
        simp only [List.getElem?_map]
        rw [eraseIdx_merge hk hm he i (List.getElem?_eq_some_iff.mp hs).1, hs]; rfl) bs .start (by simp)
    unfold DFA.test
    rw [show VState.start = VState.start.map (mergeTarget keep merge) from rfl, this]
    rfl
  · intro s hs
    rcases List.mem_cons.mp hs with rfl | h
    · exact ⟨D.start, by simp, retarget_symbols _ _, rfl⟩
    · obtain ⟨s0, h1, rfl⟩ := List.mem_map.mp h
      exact ⟨s0, by simp [List.mem_of_mem_eraseIdx h1], retarget_symbols _ _, rfl⟩
  · intro i hi
    simp only [List.getElem?_map, List.getElem?_eraseIdx, if_pos hi]

theorem mergeFold_spec (ps : List (Nat × Nat)) : ∀ (D : DFA), D.TargetsOk → ps.Pairwise (fun p q => q.1 < p.1) →
    (∀ p ∈ ps, p.2 < p.1 ∧ p.1 < D.states.length ∧ D.states[p.2]? = D.states[p.1]?) →
    ∃ D', ps.foldlM (fun D p => D.mergeStates p.2 p.1) D = .ok D' ∧ SameDFA D D' ∧
      D'.states.length + ps.length = D.states.length := by
  induction ps with
  | nil => intro D hT _ _; exact ⟨D, rfl, .refl hT, by simp⟩
  | cons p ps ih =>
    intro D hT hp h
    obtain ⟨h1, h2, h3⟩ := h p (by simp)
    rw [List.pairwise_cons] at hp
    obtain ⟨D1, g1, g2, g3, g4⟩ := mergeStates_spec hT h1 h2 h3
    obtain ⟨D', k1, k2, k3⟩ := ih D1 g2.targets hp.2 (by
      intro q hq
      obtain ⟨a1, a2, a3⟩ := h q (by simp [hq])
      have a4 := hp.1 q hq
      refine ⟨a1, by omega, ?_⟩
      rw [g4 _ (by omega), g4 _ a4, a3])
    refine ⟨D', ?_, g2.trans k2, ?_⟩
    · rw [List.foldlM_cons, g1]; exact k1
    · simp only [List.length_cons]; omega

theorem mergePairs_spec (D : DFA) : (D.mergePairs.reverse).Pairwise (fun p q => q.1 < p.1) ∧
    (∀ p ∈ D.mergePairs, p.2 < p.1 ∧ p.1 < D.states.length ∧ D.states[p.2]? = D.states[p.1]?) ∧
    (D.mergePairs = [] → D.states.Nodup) := by
  have hmem : ∀ p, p ∈ D.mergePairs ↔ ∃ s, D.states[p.1]? = some s ∧ D.states.findIdx? (· == s) = some p.2 ∧ p.2 < p.1 := by
    intro p
    unfold DFA.mergePairs
    rw [List.mem_filterMap]
    constructor
    · rintro ⟨⟨s, i⟩, h1, h2⟩
      have h1 := List.mem_zipIdx_iff_getElem?.mp h1
      simp only at h1 h2
      split at h2
      · rename_i k hk
        split at h2
        · rename_i hlt
          injection h2 with h2
          subst h2
          exact ⟨s, h1, hk, hlt⟩
        · simp at h2
      · simp at h2
    · rintro ⟨s, h1, h2, h3⟩
      refine ⟨(s, p.1), List.mem_zipIdx_iff_getElem?.mpr h1, ?_⟩
      simp only
      rw [h2]
      simp [h3]
  refine ⟨?_, ?_, ?_⟩
  · rw [List.pairwise_reverse]
    unfold DFA.mergePairs
    refine List.Pairwise.filterMap _ (R := fun a b => a.2 < b.2) ?_ ?_
    · intro a b hab x hx y hy
      split at hx <;> simp at hx
      split at hy <;> simp at hy
      rw [← hx.2, ← hy.2]
      exact hab
    · rw [List.pairwise_iff_getElem]
      intro i j hi hj hij
      simp only [List.getElem_zipIdx]
      omega
  · intro p hp
    obtain ⟨s, h1, h2, h3⟩ := (hmem p).mp hp
    obtain ⟨h4, h5, _⟩ := List.findIdx?_eq_some_iff_getElem.mp h2
    refine ⟨h3, (List.getElem?_eq_some_iff.mp h1).1, ?_⟩
    rw [h1, List.getElem?_eq_getElem h4]
    simpa using h5
  · intro hnil
    rw [List.nodup_iff_getElem?_ne_getElem?]
    intro i j hij hj heq
    have hi : i < D.states.length := by omega
    have hs := List.getElem?_eq_getElem hj
    cases hf : D.states.findIdx? (· == D.states[j]) with
    | none =>
      have := List.findIdx?_eq_none_iff.mp hf _ (List.getElem_mem hj)
      simp at this
    | some k =>
      obtain ⟨h4, h5, h6⟩ := List.findIdx?_eq_some_iff_getElem.mp hf
      have hk : k ≤ i := by
        by_contra hlt
        have := h6 i (by omega)
        rw [List.getElem?_eq_getElem hi, hs] at heq
        injection heq with heq
        simp [heq] at this
      have : (j, k) ∈ D.mergePairs := (hmem _).mpr ⟨_, hs, hf, by omega⟩
      rw [hnil] at this
      simp at this

theorem minimiseLoop_spec : ∀ (k : Nat) (D : DFA), D.TargetsOk → D.states.length < k →
    ∃ D', minimiseLoop k D = .ok D' ∧ SameDFA D D' ∧ D'.states.length ≤ D.states.length ∧ D'.states.Nodup := by
  intro k
  induction k with
  | zero => intro D _ h; omega
  | succ k ih =>
    intro D hT hk
    obtain ⟨h1, h2, h3⟩ := mergePairs_spec D
    unfold minimiseLoop
    split
    · rename_i hnil
      exact ⟨D, rfl, .refl hT, Nat.le_refl _, h3 hnil⟩
    · rename_i hne
      obtain ⟨D1, g1, g2, g3⟩ := mergeFold_spec D.mergePairs.reverse D hT h1 (fun p hp => h2 p (List.mem_reverse.mp hp))
      rw [g1]
      simp only
      have : 0 < D.mergePairs.reverse.length := by
        rw [List.length_reverse]
        exact List.length_pos_iff.mpr (fun h => hne h)
      obtain ⟨D', k1, k2, k3, k4⟩ := ih D1 g2.targets (by omega)
      exact ⟨D', k1, g2.trans k2, by omega, k4⟩

/-! ### Validity -/

theorem validTrans_of {n : Nat} : ∀ (l : List DTrans) (prev : Nat), (∀ t ∈ l, t.dst < n ∧ prev ≤ t.symbol.lo.toNat) →
    l.Pairwise (fun x y => x.symbol.hi < y.symbol.lo) → validTrans n prev l = true := by
  intro l
  induction l with
  | nil => intro _ _ _; rfl
  | cons t ts ih =>
    intro prev h hp
    rw [List.pairwise_cons] at hp
    unfold validTrans
    simp only [Bool.and_eq_true, decide_eq_true_eq]
    refine ⟨⟨(h t (by simp)).1, (h t (by simp)).2⟩, ih _ ?_ hp.2⟩
    intro x hx
    refine ⟨(h x (by simp [hx])).1, ?_⟩
    have := UInt8.lt_iff_toNat_lt.mp (hp.1 x hx)
    omega

theorem plain_valid {N : NFA U8Atom} {D : TDFA} (hD : TDFAOk N D) : D.plain.valid = true ∧ D.plain.TargetsOk := by
  have key : ∀ s ∈ D.plain.start :: D.plain.states, s.trans.Pairwise (fun x y => x.symbol.hi < y.symbol.lo) ∧
      ∀ t ∈ s.trans, t.dst < D.plain.states.length := by
    intro s hs
    obtain ⟨s0, first, L, rfl, hE⟩ : ∃ s0 first L, s = s0.untag ∧ Expanded N first L (namesOf D.states) s0 := by
      rcases List.mem_cons.mp hs with rfl | h
      · exact ⟨D.start, true, [0], rfl, hD.start⟩
      · obtain ⟨s0, h1, rfl⟩ := List.mem_map.mp h
        obtain ⟨i, hi⟩ := List.mem_iff_getElem?.mp h1
        exact ⟨s0, false, s0.nfa, rfl, hD.states i s0 hi⟩
    obtain ⟨h1, h2⟩ := hE.sorted
    rw [hE.untag_trans]
    refine ⟨by rw [List.pairwise_map]; exact h1, ?_⟩
    intro t ht
    obtain ⟨t0, h3, rfl⟩ := List.mem_map.mp ht
    have := (h2 t0 h3).2
    simpa [TDFA.plain, namesOf] using this
  refine ⟨?_, fun s hs => (key s hs).2⟩
  unfold DFA.valid
  rw [List.all_eq_true]
  intro s hs
  exact validTrans_of _ _ (fun t ht => ⟨(key s hs).2 t ht, by omega⟩) (key s hs).1

/-- `from_tagged` on what determinisation produced. -/
theorem fromTagged_spec {N : NFA U8Atom} {D : TDFA} (hD : TDFAOk N D) :
    ∃ D', DFA.fromTagged D = .ok (some D') ∧ SameDFA D.plain D' ∧ D'.states.length ≤ D.states.length ∧ D'.states.Nodup := by
  obtain ⟨h1, h2⟩ := plain_valid hD
  obtain ⟨D', g1, g2, g3, g4⟩ := minimiseLoop_spec (D.plain.states.length + 1) D.plain h2 (by omega)
  refine ⟨D', ?_, g2, by simpa [TDFA.plain] using g3, g4⟩
  unfold DFA.fromTagged
  have h1' : DFA.valid ⟨D.start.untag, D.states.map TState.untag⟩ = true := h1
  simp only [h1', if_true]
  have : minimiseLoop ((D.states.map TState.untag).length + 1) ⟨D.start.untag, D.states.map TState.untag⟩ = .ok D' := g1
  rw [this]

end Ere
