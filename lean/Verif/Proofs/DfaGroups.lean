import Verif.Proofs.TDFARun

/-! The tagged DFA mentions no group that the byte automaton does not have. -/

namespace Ere

theorem groups_update (x y : TAccept) : ∀ g ∈ (x.update y).groups, g ∈ x.groups ∨ g ∈ y.groups := by
  intro g hg
  cases x <;> cases y <;> simp_all [TAccept.update, TAccept.groups] <;> grind

theorem groups_ofProps (i : Nat) (props : List EpsProp) (acc : Nat) :
    ∀ g ∈ (TAccept.ofProps i props acc).groups, ∃ p ∈ props, ∃ t ∈ p.tags, t.group = g := by
  intro g hg
  have hm : ∀ (f : EpsProp × Nat → Bool) a k,
      ((props.filter (fun p => p.state == acc)).zipIdx).find? f = some (a, k) → a ∈ props := by
    intro f a k h
    have := List.mem_of_find?_eq_some h
    rw [List.mem_zipIdx_iff_getElem?] at this
    exact (List.mem_filter.mp (List.mem_of_getElem? this)).1
  have hone : ∀ a, a ∈ props → g ∈ (AccTrans.ofProp i a).add.map Tag.group → ∃ p ∈ props, ∃ t ∈ p.tags, t.group = g := by
    intro a ha h
    obtain ⟨t, h1, h2⟩ := List.mem_map.mp h
    exact ⟨a, ha, t, h1, h2⟩
  unfold TAccept.ofProps at hg
  simp only at hg
  split at hg
  · rename_i a _ ha _
    exact hone a (hm _ _ _ ha) hg
  · rename_i u _ _ hu
    exact hone u (hm _ _ _ hu) hg
  · simp [TAccept.groups] at hg
  · rename_i a _ u _ ha hu
    split at hg
    · rcases List.mem_append.mp hg with h | h
      · exact hone a (hm _ _ _ ha) h
      · exact hone u (hm _ _ _ hu) h
    · exact hone u (hm _ _ _ hu) hg

theorem expanded_groups {N : NFA U8Atom} (hN : Ready N) {first : Bool} {L : List Nat} (hL : ∀ q ∈ L, q < N.length)
    {names : List (List Nat)} {s : TState} (h : Expanded N first L names s) :
    ∀ g ∈ s.groups, g < N.numCaptureGroups := by
  intro g hg
  rcases List.mem_append.mp hg with hg | hg
  · obtain ⟨t, ht, hg⟩ := List.mem_flatMap.mp hg
    obtain ⟨⟨j, tg⟩, hp, rfl⟩ := List.mem_map.mp hg
    obtain ⟨items, k1, k2, _⟩ := h.trans
    obtain ⟨r, k3, k4⟩ := forall2_left k2 ht
    rw [k4.add] at hp
    obtain ⟨⟨it, i⟩, k5, k6⟩ := List.mem_flatMap.mp hp
    obtain ⟨tg', k7, k8⟩ := List.mem_map.mp k6
    injection k8 with _ k8
    subst k8
    rw [List.mem_zipIdx_iff_getElem?] at k5
    have k6 := (dedupByKey_sub _ _ _ it (List.mem_of_getElem? k5)).1
    obtain ⟨_, s2, s3⟩ := splitRanges_spec items
    obtain ⟨rr, vs⟩ := r
    have hle := (s2 _ k3).1
    have k7' := ((s3 rr.lo vs).mp ⟨rr, k3, by simp [U8Atom.check]; exact hle⟩).1
    have k8 : it ∈ itemsAt items rr.lo := by rw [← k7']; exact k6
    obtain ⟨a, k9, _⟩ := mem_itemsAt.mp k8
    obtain ⟨q, ls, p, _, hw, hprop, _⟩ := (k1 a it).mp k9
    exact walk_tag_lt hN hw _ (by rw [← hprop]; exact k7)
  · obtain ⟨P, hP, he⟩ := h.order
    rw [he] at hg
    have key : ∀ (l : List (Nat × Nat)) (a : TAccept),
        g ∈ (l.foldl (fun a x => a.update (.ofProps x.2 (P x.1) (N.length - 1))) a).groups →
        g ∈ a.groups ∨ ∃ x ∈ l, g ∈ (TAccept.ofProps x.2 (P x.1) (N.length - 1)).groups := by
      intro l
      induction l with
      | nil => intro a h; exact Or.inl h
      | cons x l ih =>
        intro a h
        rcases ih _ h with h | ⟨y, h1, h2⟩
        · rcases groups_update _ _ g h with h | h
          · exact Or.inl h
          · exact Or.inr ⟨x, List.mem_cons_self, h⟩
        · exact Or.inr ⟨y, List.mem_cons_of_mem _ h1, h2⟩
    rcases key _ _ hg with h0 | ⟨⟨q, i⟩, h1, h2⟩
    · simp [TAccept.groups] at h0
    · obtain ⟨p, h3, t, h4, rfl⟩ := groups_ofProps _ _ _ g h2
      rw [List.mem_zipIdx_iff_getElem?] at h1
      have hq := List.mem_of_getElem? h1
      obtain ⟨R, hR, _, hmem⟩ := epsProps_spec hN.wf (hL q hq)
      rw [hP q hq] at hR
      rw [show P q = R from Except.ok.inj hR] at h3
      obtain ⟨p', ls, hw, rfl⟩ := (hmem p).mp h3
      exact walk_tag_lt hN hw t h4

theorem foldl_max_le (l : List Nat) (a b : Nat) (ha : a ≤ b) (h : ∀ x ∈ l, x ≤ b) : l.foldl max a ≤ b := by
  induction l generalizing a with
  | nil => exact ha
  | cons x l ih =>
    rw [List.foldl_cons]
    exact ih _ (by have := h x List.mem_cons_self; omega) (fun y hy => h y (List.mem_cons_of_mem _ hy))

theorem tdfa_groups_le {N : NFA U8Atom} (hN : Ready N) {D : TDFA} (hD : TDFAOk N D) :
    D.numCaptureGroups ≤ N.numCaptureGroups := by
  have hpos : 0 < N.numCaptureGroups := by unfold NFA.numCaptureGroups; omega
  unfold TDFA.numCaptureGroups
  have := foldl_max_le ((D.states ++ [D.start]).flatMap TState.groups) 0 (N.numCaptureGroups - 1) (by omega) (by
    intro g hg
    obtain ⟨s, hs, hg⟩ := List.mem_flatMap.mp hg
    have : g < N.numCaptureGroups := by
      rcases List.mem_append.mp hs with hs | hs
      · obtain ⟨x, hx⟩ := List.mem_iff_getElem?.mp hs
        refine expanded_groups hN (hD.names s.nfa ?_).1 (hD.states x s hx) g hg
        exact List.mem_map.mpr ⟨s, hs, rfl⟩
      · rw [List.mem_singleton.mp hs] at hg
        refine expanded_groups hN ?_ hD.start g hg
        intro q hq
        rw [List.mem_singleton.mp hq]
        exact List.length_pos_iff.mpr hN.ne
    omega)
  omega

end Ere
