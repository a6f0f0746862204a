import Verif.Model.TDFA

/-! `split_ranges_u8` and `dedup_by_key_all`. -/

namespace Ere
variable {β κ : Type}

/-- The items whose range contains a byte, in order (specification). -/
def itemsAt (items : List (U8Atom × β)) (b : UInt8) : List β :=
  (items.filter (fun p => p.1.check b)).map (·.2)

theorem filter_zipIdx_map (p : U8Atom × β → Bool) (items : List (U8Atom × β)) (k : Nat) :
    (((items.zipIdx k).filter (fun q => p q.1)).map (fun q => q.1.2)) = (items.filter p).map (·.2) := by
  induction items generalizing k with
  | nil => rfl
  | cons x xs ih =>
    rw [List.zipIdx_cons, List.filter_cons, List.filter_cons]
    split <;> simp [ih]

theorem splitCell_vals (items : List (U8Atom × β)) (i : Nat) :
    (splitCell items i).map (·.1) = itemsAt items (UInt8.ofNat i) := by
  unfold splitCell itemsAt
  rw [List.map_map]
  exact filter_zipIdx_map (fun p => p.1.check (UInt8.ofNat i)) items 0

/-- The positions determine the cell. -/
theorem splitCell_idx (items : List (U8Atom × β)) {i j : Nat}
    (h : (splitCell items i).map (·.2) = (splitCell items j).map (·.2)) :
    splitCell items i = splitCell items j := by
  have key : ∀ l m : List (β × Nat), (∀ p ∈ l, (items[p.2]?).map (·.2) = some p.1) →
      (∀ p ∈ m, (items[p.2]?).map (·.2) = some p.1) → l.map (·.2) = m.map (·.2) → l = m := by
    intro l
    induction l with
    | nil => intro m _ _ h; simpa using h.symm
    | cons x l ih =>
      intro m h1 h2 h
      cases m with
      | nil => simp at h
      | cons y m =>
        simp only [List.map_cons, List.cons.injEq] at h
        have hx := h1 x (by simp)
        have hy := h2 y (by simp)
        rw [h.1, hy] at hx
        injection hx with hx
        have := ih m (fun p hp => h1 p (by simp [hp])) (fun p hp => h2 p (by simp [hp])) h.2
        rw [this]
        congr 1
        exact Prod.ext hx.symm h.1
  have mem : ∀ i, ∀ p ∈ splitCell items i, (items[p.2]?).map (·.2) = some p.1 := by
    intro i p hp
    unfold splitCell at hp
    obtain ⟨q, hq, rfl⟩ := List.mem_map.mp hp
    have := (List.mem_filter.mp hq).1
    rw [List.mem_zipIdx_iff_getElem?] at this
    simp [this]
  exact key _ _ (mem i) (mem j) h

/-- What the result of splitting says about the bytes below `k`. -/
structure SplitInv (items : List (U8Atom × β)) (k : Nat) (s : SplitSt β) : Prop where
  start_le : s.start ≤ k
  prev : ∀ i, s.start ≤ i → i < k → splitCell items i = s.prev
  prev0 : s.start = k → s.prev = []
  sorted : s.out.Pairwise (fun x y => x.1.hi < y.1.lo)
  below : ∀ x ∈ s.out, x.1.lo ≤ x.1.hi ∧ x.2 ≠ [] ∧ x.1.hi.toNat < s.start
  look : ∀ i, i < s.start → ∀ vs, (∃ r, (r, vs) ∈ s.out ∧ r.check (UInt8.ofNat i) = true) ↔
    vs = itemsAt items (UInt8.ofNat i) ∧ vs ≠ []

theorem check_nat {a : U8Atom} {i : Nat} (hi : i < 256) :
    a.check (UInt8.ofNat i) = true ↔ a.lo.toNat ≤ i ∧ i ≤ a.hi.toNat := by
  unfold U8Atom.check
  rw [Bool.and_eq_true, decide_eq_true_eq, decide_eq_true_eq, UInt8.le_iff_toNat_le, UInt8.le_iff_toNat_le,
    UInt8.toNat_ofNat', Nat.mod_eq_of_lt (by simpa using hi)]

theorem toNat_ofNat_lt {i : Nat} (hi : i < 256) : (UInt8.ofNat i).toNat = i := by
  rw [UInt8.toNat_ofNat', Nat.mod_eq_of_lt (by simpa using hi)]

theorem itemsAt_prev {items : List (U8Atom × β)} {k : Nat} {s : SplitSt β} (h : SplitInv items k s)
    {i} (h1 : s.start ≤ i) (h2 : i < k) : itemsAt items (UInt8.ofNat i) = s.prev.map (·.1) := by
  rw [← splitCell_vals, h.prev i h1 h2]

/-- Closing the current stretch at `k`. -/
theorem split_close {items : List (U8Atom × β)} {k : Nat} {s : SplitSt β} (h : SplitInv items k s)
    (hk : k ≤ 256) :
    let out := if s.prev.isEmpty then s.out
      else s.out ++ [(⟨UInt8.ofNat s.start, UInt8.ofNat (k - 1)⟩, s.prev.map (·.1))]
    out.Pairwise (fun x y => x.1.hi < y.1.lo) ∧
    (∀ x ∈ out, x.1.lo ≤ x.1.hi ∧ x.2 ≠ [] ∧ x.1.hi.toNat < k) ∧
    ∀ i, i < k → ∀ vs, (∃ r, (r, vs) ∈ out ∧ r.check (UInt8.ofNat i) = true) ↔
      vs = itemsAt items (UInt8.ofNat i) ∧ vs ≠ [] := by
  intro out
  by_cases he : s.prev.isEmpty = true
  · have ho : out = s.out := by simp only [out, he, if_true]
    rw [ho]
    refine ⟨h.sorted, fun x hx => ?_, ?_⟩
    · obtain ⟨a, b, c⟩ := h.below x hx
      exact ⟨a, b, by have := h.start_le; omega⟩
    · intro i hi vs
      by_cases hlt : i < s.start
      · exact h.look i hlt vs
      · have hv := itemsAt_prev h (by omega) hi
        have hp : s.prev = [] := by simpa using he
        rw [hv, hp]
        constructor
        · rintro ⟨r, h1, h2⟩
          obtain ⟨a, b, c⟩ := h.below _ h1
          rw [check_nat (by omega)] at h2
          simp only at c; omega
        · rintro ⟨rfl, h2⟩; simp at h2
  · have ho : out = s.out ++ [(⟨UInt8.ofNat s.start, UInt8.ofNat (k - 1)⟩, s.prev.map (·.1))] := by
      simp only [out, he, Bool.false_eq_true, if_false]
    have hne : s.prev ≠ [] := by simpa using he
    have hs : s.start < k := by
      rcases Nat.lt_or_ge s.start k with h1 | h1
      · exact h1
      · exact absurd (h.prev0 (by have := h.start_le; omega)) hne
    have n1 : (UInt8.ofNat s.start).toNat = s.start := toNat_ofNat_lt (by omega)
    have n2 : (UInt8.ofNat (k - 1)).toNat = k - 1 := toNat_ofNat_lt (by omega)
    rw [ho]
    refine ⟨?_, ?_, ?_⟩
    · rw [List.pairwise_append]
      refine ⟨h.sorted, by simp, ?_⟩
      intro x hx y hy
      simp only [List.mem_singleton] at hy
      subst hy
      simp only
      rw [UInt8.lt_iff_toNat_lt, n1]
      exact (h.below x hx).2.2
    · intro x hx
      rcases List.mem_append.mp hx with hx | hx
      · obtain ⟨a, b, c⟩ := h.below x hx
        exact ⟨a, b, by omega⟩
      · simp only [List.mem_singleton] at hx
        subst hx
        simp only
        rw [UInt8.le_iff_toNat_le, n1, n2]
        exact ⟨by omega, by simpa using hne, by omega⟩
    · intro i hi vs
      by_cases hlt : i < s.start
      · rw [← h.look i hlt vs]
        constructor
        · rintro ⟨r, h1, h2⟩
          rcases List.mem_append.mp h1 with h1 | h1
          · exact ⟨r, h1, h2⟩
          · simp only [List.mem_singleton, Prod.mk.injEq] at h1
            rw [check_nat (by omega), h1.1] at h2
            simp only at h2
            rw [n1] at h2; omega
        · rintro ⟨r, h1, h2⟩; exact ⟨r, by simp [h1], h2⟩
      · have hv := itemsAt_prev h (by omega) hi
        rw [hv]
        constructor
        · rintro ⟨r, h1, h2⟩
          rcases List.mem_append.mp h1 with h1 | h1
          · obtain ⟨a, b, c⟩ := h.below _ h1
            rw [check_nat (by omega)] at h2
            simp only at c; omega
          · simp only [List.mem_singleton, Prod.mk.injEq] at h1
            exact ⟨h1.2, by rw [h1.2]; simpa using hne⟩
        · rintro ⟨rfl, _⟩
          refine ⟨⟨UInt8.ofNat s.start, UInt8.ofNat (k - 1)⟩, by simp, ?_⟩
          rw [check_nat (by omega)]
          simp only
          rw [n1, n2]; omega

theorem split_step {items : List (U8Atom × β)} {k : Nat} {s : SplitSt β} (h : SplitInv items k s)
    (hk : k < 256) : SplitInv items (k + 1) (splitStep items s k) := by
  unfold splitStep
  simp only
  split
  · rename_i hsame
    have hcell : splitCell items k = s.prev := by
      rcases Nat.lt_or_ge s.start k with h1 | h1
      · have := h.prev s.start (by omega) h1
        rw [← this] at hsame ⊢
        exact splitCell_idx items hsame
      · have hp := h.prev0 (by have := h.start_le; omega)
        rw [hp] at hsame ⊢
        simpa using hsame
    refine ⟨by have := h.start_le; omega, ?_, ?_, h.sorted, h.below, h.look⟩
    · intro i h1 h2
      rcases Nat.lt_or_ge i k with h3 | h3
      · exact h.prev i h1 h3
      · have : i = k := by omega
        subst this; exact hcell
    · intro h1; have := h.start_le; omega
  · obtain ⟨h1, h2, h3⟩ := split_close h (by omega)
    refine ⟨by simp, ?_, by simp, h1, h2, h3⟩
    intro i h4 h5
    have : i = k := by simp only at h4; omega
    subst this; rfl

theorem split_inv (items : List (U8Atom × β)) (k : Nat) (hk : k ≤ 256) :
    SplitInv items k ((List.range k).foldl (splitStep items) ⟨[], [], 0⟩) := by
  induction k with
  | zero =>
    refine ⟨by simp, ?_, by simp, by simp, by simp, ?_⟩
    · intro i _ h; omega
    · intro i h; simp at h
  | succ k ih =>
    rw [List.range_succ, List.foldl_append]
    exact split_step (ih (by omega)) (by omega)

/-- Sorted disjoint non-empty ranges; every byte keeps exactly its items in order. -/
theorem splitRanges_spec (items : List (U8Atom × β)) :
    (splitRanges items).Pairwise (fun x y => x.1.hi < y.1.lo) ∧
    (∀ x ∈ splitRanges items, x.1.lo ≤ x.1.hi ∧ x.2 ≠ []) ∧
    ∀ b vs, (∃ r, (r, vs) ∈ splitRanges items ∧ r.check b = true) ↔ vs = itemsAt items b ∧ vs ≠ [] := by
  obtain ⟨h1, h2, h3⟩ := split_close (split_inv items 256 (by omega)) (by omega)
  unfold splitRanges
  refine ⟨h1, fun x hx => ⟨(h2 x hx).1, (h2 x hx).2.1⟩, ?_⟩
  intro b vs
  have := h3 b.toNat (by have := b.toNat_lt; simpa using this) vs
  rwa [UInt8.ofNat_toNat] at this

/-- In a sorted list of ranges at most one contains a byte. -/
theorem check_unique {γ : Type} {f : γ → U8Atom} {l : List γ} (h : l.Pairwise (fun x y => (f x).hi < (f y).lo))
    {x y : γ} {b : UInt8} (hx : x ∈ l) (hy : y ∈ l) (cx : (f x).check b = true) (cy : (f y).check b = true) :
    x = y := by
  have no : ∀ u v : γ, (f u).hi < (f v).lo → (f u).check b = true → (f v).check b = true → False := by
    intro u v h1 h2 h3
    unfold U8Atom.check at h2 h3
    rw [Bool.and_eq_true, decide_eq_true_eq, decide_eq_true_eq, UInt8.le_iff_toNat_le, UInt8.le_iff_toNat_le] at h2 h3
    rw [UInt8.lt_iff_toNat_lt] at h1
    omega
  induction l with
  | nil => simp at hx
  | cons z l ih =>
    rw [List.pairwise_cons] at h
    rcases List.mem_cons.mp hx with rfl | hx <;> rcases List.mem_cons.mp hy with rfl | hy
    · rfl
    · exact (no _ _ (h.1 _ hy) cx cy).elim
    · rename_i hx'; exact (no _ _ (h.1 _ hx') cy cx).elim
    · exact ih h.2 hx hy

/-! ### `dedup_by_key_all` -/

theorem dedupByKey_sub [DecidableEq κ] (key : β → κ) (l : List β) (seen : List κ) :
    ∀ x ∈ dedupByKey key seen l, x ∈ l ∧ key x ∉ seen := by
  induction l generalizing seen with
  | nil => simp [dedupByKey]
  | cons y l ih =>
    intro x hx
    unfold dedupByKey at hx
    split at hx
    · obtain ⟨h1, h2⟩ := ih seen x hx; exact ⟨by simp [h1], h2⟩
    · rename_i hn
      rcases List.mem_cons.mp hx with rfl | hx
      · exact ⟨by simp, hn⟩
      · obtain ⟨h1, h2⟩ := ih _ x hx
        exact ⟨by simp [h1], fun h => h2 (by simp [h])⟩

theorem dedupByKey_keys [DecidableEq κ] (key : β → κ) (l : List β) (seen : List κ) :
    ∀ x ∈ l, key x ∈ seen ∨ ∃ y ∈ dedupByKey key seen l, key y = key x := by
  induction l generalizing seen with
  | nil => simp
  | cons y l ih =>
    intro x hx
    unfold dedupByKey
    split
    · rename_i hs
      rcases List.mem_cons.mp hx with rfl | hx
      · exact Or.inl hs
      · exact ih seen x hx
    · rcases List.mem_cons.mp hx with rfl | hx
      · exact Or.inr ⟨x, by simp, rfl⟩
      · rcases ih (key y :: seen) x hx with h | ⟨z, h1, h2⟩
        · rcases List.mem_cons.mp h with h | h
          · exact Or.inr ⟨y, by simp, h.symm⟩
          · exact Or.inl h
        · exact Or.inr ⟨z, by simp [h1], h2⟩

theorem dedupByKey_nodup [DecidableEq κ] (key : β → κ) (l : List β) (seen : List κ) :
    ((dedupByKey key seen l).map key).Nodup := by
  induction l generalizing seen with
  | nil => simp [dedupByKey]
  | cons y l ih =>
    unfold dedupByKey
    split
    · exact ih seen
    · rw [List.map_cons, List.nodup_cons]
      refine ⟨?_, ih _⟩
      intro h
      obtain ⟨x, hx, hk⟩ := List.mem_map.mp h
      exact (dedupByKey_sub key l _ x hx).2 (by rw [hk]; simp)

/-- The first element of each key survives. -/
theorem dedupByKey_first [DecidableEq κ] (key : β → κ) (l : List β) (seen : List κ) (k : κ) (hk : k ∉ seen) :
    (dedupByKey key seen l).find? (fun x => key x == k) = l.find? (fun x => key x == k) := by
  induction l generalizing seen with
  | nil => rfl
  | cons y l ih =>
    unfold dedupByKey
    split
    · rename_i hs
      have : (key y == k) = false := by
        simp only [beq_eq_false_iff_ne]
        exact fun h => hk (h ▸ hs)
      rw [ih seen hk, List.find?_cons]
      simp only [this]
    · rw [List.find?_cons, List.find?_cons]
      by_cases h : key y = k
      · simp [h]
      · have : (key y == k) = false := by simpa using h
        simp only [this]
        refine ih _ ?_
        intro hm
        rcases List.mem_cons.mp hm with e | e
        · exact h e.symm
        · exact hk e

end Ere
