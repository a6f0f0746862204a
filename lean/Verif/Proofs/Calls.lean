import Verif.Model.Calls
import Verif.Proofs.OnePassTop

/-! The functions of the generated program never call each other in a circle. -/

namespace Ere

/-- Calls go up in a rank. -/
def FnProg.Ranked (P : FnProg) (f : Nat → Nat) : Prop := ∀ q : Nat,
  (∀ r, P.fns[q]?.join = some (.run r) → f q < f r.dst) ∧
  ∀ acc row, P.fns[q]?.join = some (.normal acc row) → ∀ t ∈ row, f q < f t.2.state

theorem FnProg.testCalls_up {P : FnProg} {f : Nat → Nat} (hf : P.Ranked f) : ∀ (k q : Nat) (bytes : List UInt8) (start : Bool),
    (P.testCalls k q bytes start).Pairwise (fun x y => f x < f y) ∧
      (∀ x ∈ P.testCalls k q bytes start, f q ≤ f x ∧ (P.fns[x]?.join).isSome = true)
  | 0, _, _, _ => by simp [FnProg.testCalls]
  | k + 1, q, bytes, start => by
    have step : ∀ p bytes', (P.fns[q]?.join).isSome = true → f q < f p →
        (q :: P.testCalls k p bytes' false).Pairwise (fun x y => f x < f y) ∧
          ∀ x ∈ q :: P.testCalls k p bytes' false, f q ≤ f x ∧ (P.fns[x]?.join).isSome = true := by
      intro p bytes' hd hlt
      obtain ⟨i1, i2⟩ := FnProg.testCalls_up hf k p bytes' false
      refine ⟨List.pairwise_cons.mpr ⟨fun x hx => Nat.lt_of_lt_of_le hlt (i2 x hx).1, i1⟩, fun x hx => ?_⟩
      rcases List.mem_cons.mp hx with rfl | hx
      · exact ⟨Nat.le_refl _, hd⟩
      · exact ⟨Nat.le_trans (Nat.le_of_lt hlt) (i2 x hx).1, (i2 x hx).2⟩
    have one : (P.fns[q]?.join).isSome = true → ([q] : List Nat).Pairwise (fun x y => f x < f y) ∧
        ∀ x ∈ [q], f q ≤ f x ∧ (P.fns[x]?.join).isSome = true := by
      intro hd
      refine ⟨by simp, fun x hx => ?_⟩
      cases List.mem_singleton.mp hx
      exact ⟨Nat.le_refl _, hd⟩
    rw [FnProg.testCalls]
    split
    · simp
    · rename_i r hr
      split
      · exact step _ _ (by simp [hr]) ((hf q).1 r hr)
      · exact one (by simp [hr])
    · rename_i acc row hr
      split
      · exact one (by simp [hr])
      · split
        · exact one (by simp [hr])
        · rename_i t ht
          exact step _ _ (by simp [hr]) ((hf q).2 _ _ hr _ (List.mem_of_find?_eq_some ht))

theorem FnProg.execCalls_up {P : FnProg} {f : Nat → Nat} (hf : P.Ranked f) :
    ∀ (k q : Nat) (bytes : List UInt8) (idx : Nat) (caps : Slots) (start : Bool),
    (P.execCalls k q bytes idx caps start).Pairwise (fun x y => f x < f y) ∧
      (∀ x ∈ P.execCalls k q bytes idx caps start, f q ≤ f x ∧ (P.fns[x]?.join).isSome = true)
  | 0, _, _, _, _, _ => by simp [FnProg.execCalls]
  | k + 1, q, bytes, idx, caps, start => by
    have step : ∀ p bytes' idx' caps', (P.fns[q]?.join).isSome = true → f q < f p →
        (q :: P.execCalls k p bytes' idx' caps' false).Pairwise (fun x y => f x < f y) ∧
          ∀ x ∈ q :: P.execCalls k p bytes' idx' caps' false, f q ≤ f x ∧ (P.fns[x]?.join).isSome = true := by
      intro p bytes' idx' caps' hd hlt
      obtain ⟨i1, i2⟩ := FnProg.execCalls_up hf k p bytes' idx' caps' false
      refine ⟨List.pairwise_cons.mpr ⟨fun x hx => Nat.lt_of_lt_of_le hlt (i2 x hx).1, i1⟩, fun x hx => ?_⟩
      rcases List.mem_cons.mp hx with rfl | hx
      · exact ⟨Nat.le_refl _, hd⟩
      · exact ⟨Nat.le_trans (Nat.le_of_lt hlt) (i2 x hx).1, (i2 x hx).2⟩
    have one : (P.fns[q]?.join).isSome = true → ([q] : List Nat).Pairwise (fun x y => f x < f y) ∧
        ∀ x ∈ [q], f q ≤ f x ∧ (P.fns[x]?.join).isSome = true := by
      intro hd
      refine ⟨by simp, fun x hx => ?_⟩
      cases List.mem_singleton.mp hx
      exact ⟨Nat.le_refl _, hd⟩
    rw [FnProg.execCalls]
    split
    · simp
    · rename_i r hr
      split
      · split
        · exact one (by simp [hr])
        · exact step _ _ _ _ (by simp [hr]) ((hf q).1 r hr)
      · exact one (by simp [hr])
    · rename_i acc row hr
      split
      · exact one (by simp [hr])
      · split
        · exact one (by simp [hr])
        · rename_i t ht
          split
          · exact one (by simp [hr])
          · exact step _ _ _ _ (by simp [hr]) ((hf q).2 _ _ hr _ (List.mem_of_find?_eq_some ht))

/-- A list of different functions is no longer than the number of functions. -/
theorem FnProg.calls_le {P : FnProg} {l : List Nat} (hn : l.Nodup) (hd : ∀ x ∈ l, (P.fns[x]?.join).isSome = true) :
    l.length ≤ P.functions := by
  have hsub : l ⊆ (List.range P.fns.length).filter (fun q => (P.fns[q]?.join).isSome) := by
    intro x hx
    have h := hd x hx
    refine List.mem_filter.mpr ⟨List.mem_range.mpr ?_, h⟩
    by_contra hc
    rw [List.getElem?_eq_none (by omega)] at h
    simp at h
  have hle := (List.subperm_of_subset hn hsub).length_le
  refine Nat.le_trans hle (Nat.le_of_eq ?_)
  rw [← List.countP_eq_length_filter]
  unfold FnProg.functions
  have hmap : P.fns = (List.range P.fns.length).map (fun q => P.fns[q]?.join) := by
    apply List.ext_getElem (by simp)
    intro i h1 h2
    simp [h1]
  conv_rhs => rw [hmap]
  rw [List.countP_map]
  rfl

/-- With a bound for the depth that is larger than the number of calls the functions return the same. -/
theorem FnProg.testLoop_fuel {P : FnProg} : ∀ (k k' q : Nat) (bytes : List UInt8) (start : Bool),
    P.testLoop k q bytes start ≠ .error .fuel → (P.testCalls k q bytes start).length < k' →
      P.testLoop k' q bytes start = P.testLoop k q bytes start
  | 0, _, _, _, _, h, _ => by simp [FnProg.testLoop] at h
  | k + 1, k', q, bytes, start, h, h' => by
    obtain ⟨k', rfl⟩ := Nat.exists_eq_succ_of_ne_zero (n := k') (by omega)
    rw [FnProg.testCalls] at h'
    rw [FnProg.testLoop] at h
    rw [FnProg.testLoop, FnProg.testLoop]
    cases hr : P.fns[q]?.join with
    | none => rfl
    | some g =>
      cases g with
      | run r =>
        simp only [hr] at h h' ⊢
        split
        · rename_i hc
          simp only [hc, if_true, List.length_cons] at h h'
          exact FnProg.testLoop_fuel k k' _ _ _ h (by omega)
        · rfl
      | normal acc row =>
        simp only [hr] at h h' ⊢
        cases bytes with
        | nil => rfl
        | cons c cs =>
          simp only at h h' ⊢
          cases hf : row.find? (fun t => t.1.check c && fnGuard q start t.2) with
          | none => rfl
          | some t =>
            simp only [hf, List.length_cons] at h h' ⊢
            exact FnProg.testLoop_fuel k k' _ _ _ h (by omega)

theorem FnProg.execLoop_fuel {P : FnProg} : ∀ (k k' q : Nat) (bytes : List UInt8) (idx : Nat) (caps : Slots) (start : Bool),
    P.execLoop k q bytes idx caps start ≠ .error .fuel → (P.execCalls k q bytes idx caps start).length < k' →
      P.execLoop k' q bytes idx caps start = P.execLoop k q bytes idx caps start
  | 0, _, _, _, _, _, _, h, _ => by simp [FnProg.execLoop] at h
  | k + 1, k', q, bytes, idx, caps, start, h, h' => by
    obtain ⟨k', rfl⟩ := Nat.exists_eq_succ_of_ne_zero (n := k') (by omega)
    rw [FnProg.execCalls] at h'
    rw [FnProg.execLoop] at h
    rw [FnProg.execLoop, FnProg.execLoop]
    cases hr : P.fns[q]?.join with
    | none => rfl
    | some g =>
      cases g with
      | run r =>
        simp only [hr] at h h' ⊢
        split
        · rename_i hc
          simp only [hc, if_true, List.length_cons] at h h'
          cases ht : r.tags.foldlM (fun c t => applyTag (t.1 + idx) c t.2) caps with
          | error x => rfl
          | ok caps' =>
            simp only [ht] at h h' ⊢
            exact FnProg.execLoop_fuel k k' _ _ _ _ _ h (by omega)
        · rfl
      | normal acc row =>
        simp only [hr] at h h' ⊢
        cases bytes with
        | nil => rfl
        | cons c cs =>
          simp only at h h' ⊢
          cases hf : row.find? (fun t => t.1.check c && fnGuard q start t.2) with
          | none => rfl
          | some t =>
            simp only [hf, List.length_cons] at h h' ⊢
            cases ht : (tagsOf t.2.caps).foldlM (applyTag idx) caps with
            | error x => rfl
            | ok caps' =>
              simp only [ht] at h h' ⊢
              exact FnProg.execLoop_fuel k k' _ _ _ _ _ h (by omega)

theorem fn_ranked {N : NFA U8Atom} (hN : Ready N) {rows : List (OpRow × List Upd)} (hT : OpTable N rows) {out P}
    (hR : RunsOk rows out) (hP : FnOk N rows out P) {f : Nat → Nat} (hf : ∀ x y, N.Edge x y → f x < f y) : P.Ranked f := by
  have hwalk : ∀ {q ls p}, EWalk N q ls p → f q ≤ f p := by
    intro q ls p h
    induction h with
    | refl => exact Nat.le_refl _
    | tail _ h2 ih => exact Nat.le_trans ih (Nat.le_of_lt (hf _ _ (edge_iff.mpr ⟨_, h2⟩)))
  intro q
  refine ⟨fun r hr => ?_, fun acc row hr t ht => ?_⟩
  · obtain ⟨xs, hc, hne, _⟩ := hR.start q r (hP.run hr)
    have key : ∀ {q as xs p}, RunChain (nextOf rows) q as xs p → f q ≤ f p ∧ (as ≠ [] → f q < f p) := by
      intro q as xs p h
      induction h with
      | nil => simp
      | cons h1 _ ih =>
        have := hf _ _ (edge_iff.mpr ⟨_, (next_spec hN hT h1).edge⟩)
        exact ⟨by omega, fun _ => by omega⟩
    exact (key hc).2 hne
  · obtain ⟨h1, _, _⟩ := hP.normal hr
    obtain ⟨p, ls, hw, he, _⟩ := (hT.row q _ h1 t.1 t.2).mp ht
    exact Nat.lt_of_le_of_lt (hwalk hw) (hf _ _ (edge_iff.mpr ⟨_, he⟩))

/-- The functional program is ranked. -/
theorem compileOnePass_ranked {N : NFA U8Atom} (hN : Ready N) {P : FnProg} (h : compileOnePass N = .ok (some (.fn P))) :
    ∃ f, P.Ranked f := by
  obtain ⟨rows0, rows, h1, h2, h3⟩ := opRows_spec hN
  unfold compileOnePass at h
  rw [h1] at h
  simp only at h
  rw [← h2] at h
  split at h
  · simp at h
  rename_i hd
  have hT : OpTable N rows := h3.resolve_left hd
  split at h
  · simp at h
  · rename_i o ho
    obtain ⟨f, hf1, hf2, hf3⟩ := topo_rank hN ho
    obtain ⟨out, hc, hR⟩ := computeRuns_spec hN hT hf1 hf2
    obtain ⟨P', hP1, hP⟩ := codegenFn_ok (N := N) hc
    rw [hP1] at h
    cases h
    exact ⟨f, fn_ranked hN hT hR hP hf2⟩
  · split at h
    · simp at h
    · simp at h

end Ere
