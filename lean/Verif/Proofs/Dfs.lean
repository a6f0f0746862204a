import Verif.Model.Dfs
import Mathlib.Logic.Relation
import Mathlib.Data.List.Basic

/-! Correctness of the depth-first search. -/

namespace Ere

theorem count_set_false {vis : List Bool} {y : Nat} (h : vis[y]? = some false) :
    (vis.set y true).count false + 1 = vis.count false := by
  induction vis generalizing y with
  | nil => simp at h
  | cons b vis ih =>
    cases y with
    | zero => simp at h; subst h; simp
    | succ y =>
      simp only [List.getElem?_cons_succ] at h
      have := ih h
      simp only [List.set_cons_succ, List.count_cons]; omega

theorem dfsVisit_length (ys stack vis) : (dfsVisit stack vis ys).2.length = vis.length := by
  induction ys generalizing stack vis with
  | nil => rfl
  | cons y ys ih =>
    unfold dfsVisit; split
    · rw [ih]; simp
    · exact ih ..

theorem dfsVisit_measure (ys stack vis) :
    (dfsVisit stack vis ys).1.length + (dfsVisit stack vis ys).2.count false =
      stack.length + vis.count false := by
  induction ys generalizing stack vis with
  | nil => rfl
  | cons y ys ih =>
    unfold dfsVisit; split
    · rename_i h
      rw [ih]; have := count_set_false h; simp only [List.length_cons]; omega
    · exact ih ..

theorem dfsVisit_spec (ys stack vis) (hy : ∀ y ∈ ys, y < vis.length) (x : Nat) :
    ((dfsVisit stack vis ys).2[x]? = some true ↔ vis[x]? = some true ∨ x ∈ ys) ∧
    (x ∈ (dfsVisit stack vis ys).1 ↔ x ∈ stack ∨ (x ∈ ys ∧ vis[x]? = some false)) := by
  induction ys generalizing stack vis with
  | nil => simp [dfsVisit]
  | cons y ys ih =>
    have hy' : ∀ z ∈ ys, z < vis.length := fun z hz => hy z (by simp [hz])
    have hylt := hy y (by simp)
    unfold dfsVisit
    split
    · rename_i h
      obtain ⟨h1, h2⟩ := ih (y :: stack) (vis.set y true) (by simpa using hy')
      rw [h1, h2]
      by_cases hxy : y = x
      · subst hxy
        simp [h, hylt]
        exact Or.inr (List.getElem?_eq_some_iff.mp h).2
      · simp only [List.getElem?_set_ne hxy, List.mem_cons, Ne.symm hxy, false_or]
        simp [eq_comm (a := x), hxy]
    · rename_i h
      obtain ⟨h1, h2⟩ := ih stack vis hy'
      rw [h1, h2]
      by_cases hxy : y = x
      · subst hxy
        have : vis[y]? = some true := by
          rw [List.getElem?_eq_getElem hylt] at *
          cases hb : vis[y] <;> simp_all
        simp [this]
      · simp [eq_comm (a := x), hxy]

/-- Invariant: everything visited is on the stack or has all its successors visited; everything
visited is reachable from the initial set. -/
theorem dfsLoop_spec (succ : Nat → List Nat) (S : Nat → Prop) (n : Nat)
    (hs : ∀ x, x < n → ∀ y ∈ succ x, y < n) (fuel : Nat) :
    ∀ (stack : List Nat) (vis : List Bool), vis.length = n →
      stack.length + vis.count false < fuel →
      (∀ x ∈ stack, vis[x]? = some true) →
      (∀ x, vis[x]? = some true → x ∈ stack ∨ ∀ y ∈ succ x, vis[y]? = some true) →
      (∀ x, S x → vis[x]? = some true) →
      (∀ x, vis[x]? = some true → ∃ s, S s ∧ Relation.ReflTransGen (fun a b => b ∈ succ a) s x) →
      (dfsLoop succ fuel stack vis).length = n ∧
      ∀ x, (dfsLoop succ fuel stack vis)[x]? = some true ↔
        ∃ s, S s ∧ Relation.ReflTransGen (fun a b => b ∈ succ a) s x := by
  induction fuel with
  | zero => intro stack vis _ h; omega
  | succ fuel ih =>
    intro stack vis hlen hf hstack hinv hS hR
    match stack with
    | [] =>
      refine ⟨hlen, fun x => ⟨hR x, ?_⟩⟩
      rintro ⟨s, h1, h2⟩
      simp only [dfsLoop]
      induction h2 with
      | refl => exact hS s h1
      | tail _ h3 ih2 => exact ((hinv _ ih2).resolve_left (by simp)) _ h3
    | x :: stack =>
      have hx := hstack x (by simp)
      have hxn : x < n := by
        rw [← hlen]; exact (List.getElem?_eq_some_iff.mp hx).1
      have hys : ∀ y ∈ succ x, y < vis.length := by rw [hlen]; exact hs x hxn
      have hsp := dfsVisit_spec (succ x) stack vis hys
      simp only [dfsLoop]
      apply ih
      · rw [dfsVisit_length, hlen]
      · rw [dfsVisit_measure]; simp only [List.length_cons] at hf; omega
      · intro z hz
        rw [(hsp z).1]
        rcases (hsp z).2.mp hz with h | h
        · exact Or.inl (hstack z (by simp [h]))
        · exact Or.inr h.1
      · intro z hz
        by_cases hzx : z = x
        · subst hzx
          exact Or.inr (fun y hy => (hsp y).1.mpr (Or.inr hy))
        · by_cases hzv : vis[z]? = some true
          · rcases hinv z hzv with h | h
            · have : z ∈ stack := by simpa [hzx] using h
              exact Or.inl ((hsp z).2.mpr (Or.inl this))
            · exact Or.inr (fun y hy => (hsp y).1.mpr (Or.inl (h y hy)))
          · have hzs := ((hsp z).1.mp hz).resolve_left hzv
            have : vis[z]? = some false := by
              have hlt := hys z hzs
              rw [List.getElem?_eq_getElem hlt] at *
              cases hb : vis[z] <;> simp_all
            exact Or.inl ((hsp z).2.mpr (Or.inr ⟨hzs, this⟩))
      · intro z hz; exact (hsp z).1.mpr (Or.inl (hS z hz))
      · intro z hz
        rcases (hsp z).1.mp hz with h | h
        · exact hR z h
        · obtain ⟨s, h1, h2⟩ := hR x hx
          exact ⟨s, h1, h2.tail h⟩

/-- The search marks exactly what is reachable from the initially marked nodes. -/
theorem dfs_correct (succ : Nat → List Nat) (stack : List Nat) (vis : List Bool)
    (hs : ∀ x, x < vis.length → ∀ y ∈ succ x, y < vis.length)
    (h1 : ∀ x, vis[x]? = some true ↔ x ∈ stack) :
    (dfs succ stack vis).length = vis.length ∧
    ∀ x, (dfs succ stack vis)[x]? = some true ↔
      ∃ s, vis[s]? = some true ∧ Relation.ReflTransGen (fun a b => b ∈ succ a) s x := by
  apply dfsLoop_spec succ (fun x => vis[x]? = some true) vis.length hs _ stack vis rfl (by omega)
  · intro x hx; exact (h1 x).mpr hx
  · intro x hx; exact Or.inl ((h1 x).mp hx)
  · intro x hx; exact hx
  · intro x hx; exact ⟨x, hx, .refl⟩

/-- Search from a single node. -/
theorem dfs_single (succ : Nat → List Nat) (n s : Nat) (hsn : s < n)
    (hs : ∀ x, x < n → ∀ y ∈ succ x, y < n) :
    (dfs succ [s] ((List.replicate n false).set s true)).length = n ∧
    ∀ x, (dfs succ [s] ((List.replicate n false).set s true))[x]? = some true ↔
      Relation.ReflTransGen (fun a b => b ∈ succ a) s x := by
  have hmark : ∀ x, ((List.replicate n false).set s true)[x]? = some true ↔ x = s := by
    intro x
    by_cases h : s = x
    · subst h; simp [hsn]
    · rw [List.getElem?_set_ne h]
      simp only [List.getElem?_replicate]
      constructor
      · intro h2; split at h2 <;> simp at h2
      · intro h2; exact absurd h2.symm h
  have := dfs_correct succ [s] ((List.replicate n false).set s true) (by simpa using hs) (by
    intro x; rw [hmark]; simp)
  refine ⟨by simpa using this.1, fun x => ?_⟩
  rw [this.2 x]
  simp only [hmark, exists_eq_left]

end Ere
