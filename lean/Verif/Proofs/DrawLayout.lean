import Mathlib.Data.List.Perm.Subperm
import Mathlib.Tactic.Common
import Verif.Proofs.DrawDag

/-!
# The layered layout
-/

namespace Ere

open Relation

/-- There is a walk of `d` steps from the first state. -/
inductive Graph.Dist (g : Graph) : Nat → Nat → Prop
  | zero : Dist g 0 0
  | step {n m d} : Dist g n d → g.Step n m → Dist g m (d + 1)

/-- In a layered graph no walk is longer than the number of states. -/
theorem Graph.Dist.lt {g : Graph} (hg : g.InRange) (hL : g.Layered) {n d : Nat} (h : g.Dist n d) :
    d < g.length := by
  have key : ∃ l : List Nat, l.length = d + 1 ∧ l.Nodup ∧
      ∀ x ∈ l, x < g.length ∧ ReflTransGen g.Step x n := by
    induction h with
    | zero =>
      refine ⟨[0], rfl, by simp, ?_⟩
      intro x hx
      rw [List.mem_singleton] at hx
      subst hx
      exact ⟨List.length_pos_of_ne_nil hL.ne, .refl⟩
    | @step n m d _ hs ih =>
      obtain ⟨l, h1, h2, h3⟩ := ih
      refine ⟨m :: l, by simp [h1], List.nodup_cons.2 ⟨fun hm => ?_, h2⟩, ?_⟩
      · exact hL.acyclic m (TransGen.tail' (h3 m hm).2 hs)
      · intro x hx
        rcases List.mem_cons.1 hx with rfl | hx
        · exact ⟨(hs.lt hg).2, .refl⟩
        · exact ⟨(h3 x hx).1, (h3 x hx).2.tail hs⟩
  obtain ⟨l, h1, h2, h3⟩ := key
  have hsub : l ⊆ List.range g.length := fun x hx => List.mem_range.2 (h3 x hx).1
  have := (List.subperm_of_subset h2 hsub).length_le
  rw [List.length_range] at this
  omega

/-- The invariant of the loop that computes the depths. -/
structure DepInv (g : Graph) (depths : List (Option Nat)) (maxd : Nat) (st : List (Nat × Nat)) : Prop where
  ld : depths.length = g.length
  stk : ∀ p ∈ st, p.1 < g.length ∧ g.Dist p.1 p.2
  dep : ∀ n d : Nat, depths[n]? = some (some d) → g.Dist n d ∧ d ≤ maxd
  edge : ∀ n d m : Nat, depths[n]? = some (some d) → g.Step n m →
    (∃ e, depths[m]? = some (some e) ∧ d + 1 ≤ e) ∨ (m, d + 1) ∈ st
  zero : (∃ d, depths[0]? = some (some d)) ∨ (0, 0) ∈ st

/-- How often the depth of a state can still grow. -/
def depRest (N : Nat) : Option Nat → Nat
  | none => N
  | some d => N - 1 - d

/-- Items that can still be pushed. -/
def depPot (N : Nat) : List GState → List (Option Nat) → Nat
  | s :: ss, a :: as => depRest N a * s.transitions.length + depPot N ss as
  | _, _ => 0

theorem depPot_set {N : Nat} {g : List GState} : ∀ {depths : List (Option Nat)} {n d : Nat} {s : GState}
    {old : Option Nat}, depths[n]? = some old → g[n]? = some s → d < N →
    (∀ e, old = some e → e < d) →
    depPot N g (depths.set n (some d)) + s.transitions.length ≤ depPot N g depths := by
  induction g with
  | nil => intro depths n d s old _ h; simp at h
  | cons x g ih =>
    intro depths n d s old ha hs hd ho
    cases depths with
    | nil => simp at ha
    | cons a as =>
      cases n with
      | zero =>
        simp only [List.getElem?_cons_zero, Option.some.injEq] at ha hs
        subst ha hs
        simp only [List.set_cons_zero, depPot]
        have hr : depRest N (some d) + 1 ≤ depRest N a := by
          cases a with
          | none => simp only [depRest]; omega
          | some e => have := ho e rfl; simp only [depRest]; omega
        have := Nat.mul_le_mul_right x.transitions.length hr
        rw [Nat.add_mul, Nat.one_mul] at this
        omega
      | succ n =>
        simp only [List.getElem?_cons_succ] at ha hs
        have := ih ha hs hd ho
        simp only [List.set_cons_succ, depPot]
        omega

theorem depPot_start (N : Nat) (g : List GState) :
    depPot N g (List.replicate g.length none) = N * Graph.size g := by
  induction g with
  | nil => rfl
  | cons s g ih =>
    simp only [List.length_cons, List.replicate_succ, depPot, ih, Graph.size, List.map_cons, List.sum_cons,
      depRest, Nat.mul_add]

theorem DepInv.skip {g : Graph} {depths : List (Option Nat)} {maxd n d e : Nat} {st : List (Nat × Nat)}
    (h : DepInv g depths maxd ((n, d) :: st)) (hn : depths[n]? = some (some e)) (hd : d ≤ e) :
    DepInv g depths maxd st where
  ld := h.ld
  stk := fun p hp => h.stk p (by simp [hp])
  dep := h.dep
  edge := fun a k m ha hs => by
    rcases h.edge a k m ha hs with h1 | h1
    · exact .inl h1
    · rcases List.mem_cons.1 h1 with h1 | h1
      · cases h1; exact .inl ⟨e, hn, hd⟩
      · exact .inr h1
  zero := by
    rcases h.zero with h1 | h1
    · exact .inl h1
    · rcases List.mem_cons.1 h1 with h1 | h1
      · cases h1; exact .inl ⟨e, hn⟩
      · exact .inr h1

theorem DepInv.grow {g : Graph} (hg : g.InRange) {depths : List (Option Nat)} {maxd n d : Nat}
    {st : List (Nat × Nat)} {s : GState} {old : Option Nat}
    (h : DepInv g depths maxd ((n, d) :: st)) (hn : depths[n]? = some old) (ho : ∀ e, old = some e → e < d)
    (hs : g[n]? = some s) :
    DepInv g (depths.set n (some d)) (max maxd d)
      (((s.transitions.filter (fun t => t.dst != n)).map (fun t => (t.dst, d + 1))).reverse ++ st) := by
  have hlt : n < depths.length := (List.getElem?_eq_some_iff.1 hn).1
  have hD := h.stk (n, d) (by simp)
  have hpush : ∀ p, p ∈ ((s.transitions.filter (fun t => t.dst != n)).map (fun t => (t.dst, d + 1))).reverse ↔
      ∃ t ∈ s.transitions, t.dst ≠ n ∧ p = (t.dst, d + 1) := by
    intro p
    simp only [List.mem_reverse, List.mem_map, List.mem_filter, bne_iff_ne, and_assoc]
    constructor
    · rintro ⟨t, h1, h2, rfl⟩; exact ⟨t, h1, h2, rfl⟩
    · rintro ⟨t, h1, h2, rfl⟩; exact ⟨t, h1, h2, rfl⟩
  have hget : ∀ i : Nat, (depths.set n (some d))[i]? = if n = i then some (some d) else depths[i]? := by
    intro i
    rw [List.getElem?_set]
    by_cases hi : n = i
    · subst hi; simp [hlt]
    · simp [hi]
  exact {
    ld := by rw [List.length_set, h.ld]
    stk := fun p hp => by
      rcases List.mem_append.1 hp with hp | hp
      · obtain ⟨t, h1, h2, rfl⟩ := (hpush p).1 hp
        have hst : g.Step n t.dst := ⟨s, hs, t, h1, rfl, h2⟩
        exact ⟨(hst.lt hg).2, .step hD.2 hst⟩
      · exact h.stk p (by simp [hp])
    dep := fun i e hi => by
      rw [hget] at hi
      split at hi
      · rename_i e'
        subst e'
        cases hi
        exact ⟨hD.2, by omega⟩
      · have := h.dep i e hi
        exact ⟨this.1, by omega⟩
    edge := fun i e m hi hm => by
      rw [hget] at hi
      split at hi
      · rename_i e'
        subst e'
        cases hi
        obtain ⟨s', hs', t, ht, rfl, hne⟩ := hm
        rw [hs] at hs'
        cases hs'
        exact .inr (List.mem_append.2 (.inl ((hpush _).2 ⟨t, ht, hne, rfl⟩)))
      · rcases h.edge i e m hi hm with ⟨k, hk, hle⟩ | h1
        · left
          rw [hget]
          by_cases hnm : n = m
          · subst hnm
            rw [hn] at hk
            have := ho k (Option.some.inj hk)
            exact ⟨d, by simp, by omega⟩
          · exact ⟨k, by simp [hnm, hk], hle⟩
        · rcases List.mem_cons.1 h1 with h1 | h1
          · cases h1
            left
            exact ⟨e + 1, by rw [hget]; simp, by omega⟩
          · exact .inr (List.mem_append.2 (.inr h1))
    zero := by
      rcases h.zero with ⟨k, hk⟩ | h1
      · left
        rw [hget]
        by_cases hn0 : n = 0
        · exact ⟨d, by simp [hn0]⟩
        · exact ⟨k, by simp [hn0, hk]⟩
      · rcases List.mem_cons.1 h1 with h1 | h1
        · cases h1
          exact .inl ⟨0, by rw [hget]; simp⟩
        · exact .inr (List.mem_append.2 (.inr h1)) }

theorem depthLoop_spec {g : Graph} (hg : g.InRange) (hL : g.Layered) : ∀ (f : Nat)
    {depths : List (Option Nat)} {maxd : Nat} {st : List (Nat × Nat)}, DepInv g depths maxd st →
    depPot g.length g depths + st.length ≤ f →
    ∃ depths' maxd', depthLoop g f depths maxd st = .ok (depths', maxd') ∧ DepInv g depths' maxd' [] := by
  intro f
  induction f with
  | zero =>
    intro depths maxd st h hf
    cases st with
    | cons v st => simp at hf
    | nil => exact ⟨depths, maxd, rfl, h⟩
  | succ f ih =>
    intro depths maxd st h hf
    cases st with
    | nil => exact ⟨depths, maxd, rfl, h⟩
    | cons p st =>
      obtain ⟨n, d⟩ := p
      have hD := h.stk (n, d) (by simp)
      have hlt : n < depths.length := by rw [h.ld]; exact hD.1
      have hn : depths[n]? = some depths[n] := List.getElem?_eq_getElem hlt
      have hs : g[n]? = some g[n] := List.getElem?_eq_getElem hD.1
      rw [depthLoop, hn]
      simp only
      by_cases hc : deeper d depths[n] = true
      · rw [if_pos hc, hs]
        have ho : ∀ e, depths[n] = some e → e < d := by
          intro e he
          rw [he] at hc
          simpa [deeper] using hc
        refine ih (h.grow hg hn ho hs) ?_
        have h1 := depPot_set (d := d) hn hs (hD.2.lt hg hL) ho
        have h2 : (((g[n].transitions.filter (fun t => t.dst != n)).map
            (fun t => (t.dst, d + 1))).reverse).length ≤ g[n].transitions.length := by
          simp only [List.length_reverse, List.length_map]
          exact List.length_filter_le _ _
        simp only [List.length_append, List.length_cons] at hf ⊢
        omega
      · rw [if_neg hc]
        cases ho : depths[n] with
        | none => rw [ho] at hc; simp [deeper] at hc
        | some e =>
          rw [ho] at hc hn
          have hle : d ≤ e := by simpa [deeper] using hc
          exact ih (h.skip hn hle) (by simp only [List.length_cons] at hf; omega)

/-- In a layered graph the depth of every state is found: a depth that the state has, smaller than that
of every state with a transition from it. -/
theorem depths_spec {g : Graph} (hg : g.InRange) (hL : g.Layered) :
    ∃ (ds : List Nat) (maxd : Nat), depthLoop g (g.length * g.size + 1) (List.replicate g.length none) 0
      [(0, 0)] = .ok (ds.map some, maxd) ∧ ds.length = g.length ∧ (∀ d ∈ ds, d ≤ maxd) ∧
      (∀ i d : Nat, ds[i]? = some d → g.Dist i d) ∧
      ∀ a b x y : Nat, g.Step a b → ds[a]? = some x → ds[b]? = some y → x < y := by
  have hrep : ∀ (i d : Nat), (List.replicate g.length (none : Option Nat))[i]? ≠ some (some d) := by
    intro i d hi
    have := List.mem_of_getElem? hi
    rw [List.mem_replicate] at this
    cases this.2
  have hpos : 0 < g.length := List.length_pos_of_ne_nil hL.ne
  obtain ⟨depths, maxd, h1, h2⟩ := depthLoop_spec hg hL (g.length * g.size + 1)
    (depths := List.replicate g.length none) (maxd := 0) (st := [(0, 0)])
    { ld := by simp
      stk := fun p hp => by
        rw [List.mem_singleton] at hp; subst hp; exact ⟨hpos, .zero⟩
      dep := fun n d hn => absurd hn (hrep n d)
      edge := fun n d m hn => absurd hn (hrep n d)
      zero := .inr (by simp) }
    (by rw [depPot_start]; simp)
  have hall : ∀ i, ReflTransGen g.Step 0 i → ∃ d, depths[i]? = some (some d) := by
    intro i hi
    induction hi with
    | refl =>
      rcases h2.zero with h | h
      · exact h
      · cases h
    | tail _ hs ih =>
      obtain ⟨d, hd⟩ := ih
      rcases h2.edge _ d _ hd hs with ⟨e, he, _⟩ | h
      · exact ⟨e, he⟩
      · cases h
  have hsome : ∀ o ∈ depths, ∃ d, o = some d := by
    intro o ho
    obtain ⟨i, hi, rfl⟩ := List.getElem_of_mem ho
    obtain ⟨d, hd⟩ := hall i (hL.reach i (by rw [← h2.ld]; exact hi))
    rw [List.getElem?_eq_getElem hi] at hd
    exact ⟨d, Option.some.inj hd⟩
  have hmap : ∀ l : List (Option Nat), (∀ o ∈ l, ∃ d, o = some d) → ∃ ds : List Nat, l = ds.map some := by
    intro l
    induction l with
    | nil => intro _; exact ⟨[], rfl⟩
    | cons o l ih =>
      intro h
      obtain ⟨d, rfl⟩ := h o (by simp)
      obtain ⟨ds, rfl⟩ := ih (fun o ho => h o (by simp [ho]))
      exact ⟨d :: ds, rfl⟩
  obtain ⟨ds, rfl⟩ := hmap depths hsome
  have hget : ∀ i d : Nat, (ds.map some)[i]? = some (some d) ↔ ds[i]? = some d := by
    intro i d
    rw [List.getElem?_map]
    cases ds[i]? <;> simp
  refine ⟨ds, maxd, h1, by simpa using h2.ld, ?_, ?_, ?_⟩
  · intro d hd
    obtain ⟨i, hi, rfl⟩ := List.getElem_of_mem hd
    exact (h2.dep i ds[i] ((hget _ _).2 (List.getElem?_eq_getElem hi))).2
  · intro i d hd
    exact (h2.dep i d ((hget _ _).2 hd)).1
  · intro a b x y hs hx hy
    rcases h2.edge a x b ((hget _ _).2 hx) hs with ⟨e, he, hle⟩ | h
    · rw [(hget _ _).1 he] at hy
      cases hy
      omega
    · cases h

theorem bump_ok {v : List Nat} {d : Nat} (h : d < v.length) :
    ∃ v', bump v (some d) = .ok v' ∧ v'.length = v.length ∧
      ∀ k : Nat, v'[k]? = v[k]?.map (fun x => if k = d then x + 1 else x) := by
  have hd : v[d]? = some v[d] := List.getElem?_eq_getElem h
  refine ⟨v.set d (v[d] + 1), by simp only [bump, hd], by simp, ?_⟩
  intro k
  rw [List.getElem?_set]
  by_cases hk : d = k
  · subst hk; simp [h]
  · have : k ≠ d := fun e => hk e.symm
    simp [hk, this]

theorem depthSizes_ok (ds : List Nat) : ∀ {v : List Nat}, (∀ d ∈ ds, d < v.length) →
    ∃ v', depthSizes (ds.map some) v = .ok v' ∧ v'.length = v.length ∧
      ∀ k : Nat, v'[k]? = v[k]?.map (fun x => x + ds.count k) := by
  induction ds with
  | nil => intro v _; exact ⟨v, rfl, rfl, fun k => by simp⟩
  | cons d ds ih =>
    intro v h
    obtain ⟨w, h1, h2, h3⟩ := bump_ok (h d (by simp))
    obtain ⟨v', h4, h5, h6⟩ := ih (v := w) (fun e he => by rw [h2]; exact h e (by simp [he]))
    refine ⟨v', ?_, by rw [h5, h2], ?_⟩
    · rw [List.map_cons, depthSizes, h1]; exact h4
    · intro k
      rw [h6, h3, Option.map_map]
      congr 1
      funext x
      by_cases hk : k = d
      · subst hk; simp; omega
      · have : d ≠ k := fun e => hk e.symm
        simp [hk, this]

theorem place_ok {sizes : List Nat} (ds : List Nat) : ∀ {used : List Nat}, used.length = sizes.length →
    (∀ d ∈ ds, d < sizes.length) →
    ∃ ps, place sizes (ds.map some) used = .ok ps ∧ ps.length = ds.length ∧
      ∀ i d n u : Nat, ds[i]? = some d → sizes[d]? = some n → used[d]? = some u →
        ps[i]? = some (2 * (d : Int), -(n : Int) + 2 * ((u + (ds.take i).count d : Nat) : Int)) := by
  induction ds with
  | nil => intro used _ _; exact ⟨[], rfl, rfl, fun i => by simp⟩
  | cons d ds ih =>
    intro used hu h
    have hd := h d (by simp)
    obtain ⟨w, h1, h2, h3⟩ := bump_ok (v := used) (d := d) (by rw [hu]; exact hd)
    obtain ⟨ps, h4, h5, h6⟩ := ih (used := w) (by rw [h2, hu]) (fun e he => h e (by simp [he]))
    have hs : sizes[d]? = some sizes[d] := List.getElem?_eq_getElem hd
    have hud : used[d]? = some (used[d]'(by rw [hu]; exact hd)) := List.getElem?_eq_getElem _
    refine ⟨(2 * (d : Int), -(sizes[d] : Int) + 2 * ((used[d]'(by rw [hu]; exact hd) : Nat) : Int)) :: ps,
      ?_, by simp [h5], ?_⟩
    · rw [List.map_cons, place, hs, hud]
      simp only [h1, h4, bind, pure, Except.bind, Except.pure]
    · intro i e n u hi hn hu'
      cases i with
      | zero =>
        simp only [List.getElem?_cons_zero, Option.some.injEq] at hi
        subst hi
        rw [hs] at hn
        rw [hud] at hu'
        cases hn
        cases hu'
        simp
      | succ i =>
        simp only [List.getElem?_cons_succ] at hi ⊢
        have hw : w[e]? = some (if e = d then u + 1 else u) := by rw [h3, hu']; rfl
        rw [h6 i e n _ hi hn hw, List.take_succ_cons, List.count_cons]
        by_cases hed : e = d
        · subst hed; simp; omega
        · have : d ≠ e := fun x => hed x.symm
          simp [hed, this]

/-- Positions of the states in the layered layout. -/
theorem dagLayout_ok {ds : List Nat} {maxd : Nat} (h : ∀ d ∈ ds, d ≤ maxd) :
    ∃ ps, dagLayout (ds.map some) maxd = .ok ps ∧ ps.length = ds.length ∧
      ∀ i d : Nat, ds[i]? = some d → ps[i]? =
        some (2 * (d : Int), -((ds.count d : Nat) : Int) + 2 * (((ds.take i).count d : Nat) : Int)) := by
  obtain ⟨v, h1, h2, h3⟩ := depthSizes_ok ds (v := List.replicate (maxd + 2) 0) (fun d hd => by
    have := h d hd
    simp
    omega)
  obtain ⟨ps, h4, h5, h6⟩ := place_ok (sizes := v) ds (used := List.replicate (maxd + 2) 0) (by rw [h2])
    (fun d hd => by have := h d hd; rw [h2]; simp; omega)
  refine ⟨ps, ?_, h5, ?_⟩
  · rw [dagLayout, h1]; exact h4
  · intro i d hd
    have hle := h d (List.mem_of_getElem? hd)
    have hr : (List.replicate (maxd + 2) 0)[d]? = some 0 := by
      rw [List.getElem?_replicate, if_pos (by omega)]
    have := h6 i d (ds.count d) 0 hd (by rw [h3, hr]; simp) hr
    rw [this]
    simp

/-- What the layout of a graph is: none if the graph is not layered; otherwise a position for every state,
no two at the same place and every transition to another state leading to the right. -/
theorem layout_spec {g : Graph} (hg : g.InRange) :
    (¬ g.Layered ∧ g.layout = .ok none) ∨
    (g.Layered ∧ ∃ ps, g.layout = .ok (some ps) ∧ ps.length = g.length ∧
      (∀ i j : Nat, i < g.length → ps[i]? = ps[j]? → i = j) ∧
      (∀ a b p q, g.Step a b → ps[a]? = some p → ps[b]? = some q → p.1 + 2 ≤ q.1)) := by
  obtain ⟨b, h1, h2⟩ := checkDag_iff hg
  cases b with
  | false =>
    left
    refine ⟨fun h => (Bool.false_ne_true (h2.2 h)).elim, ?_⟩
    simp only [Graph.layout, dagNew, h1, bind, Except.bind, pure, Except.pure]
    rfl
  | true =>
    right
    have hL := h2.1 rfl
    obtain ⟨ds, maxd, h3, h4, h5, _, h7⟩ := depths_spec hg hL
    obtain ⟨ps, h8, h9, h10⟩ := dagLayout_ok h5
    refine ⟨hL, ps, ?_, by rw [h9, h4], ?_, ?_⟩
    · simp only [Graph.layout, dagNew, h1, h3, h8, bind, Except.bind, pure, Except.pure, if_true]
    · have key : ∀ i j : Nat, i < j → ps[i]? = ps[j]? → i < g.length → False := by
        intro i j hij he hi
        rw [← h4] at hi
        have hdi : ds[i]? = some ds[i] := List.getElem?_eq_getElem hi
        have hp := h10 i _ hdi
        have hj : j < ds.length := by
          rw [← h9]
          rw [hp] at he
          exact (List.getElem?_eq_some_iff.1 he.symm).1
        have hdj : ds[j]? = some ds[j] := List.getElem?_eq_getElem hj
        rw [hp, h10 j _ hdj] at he
        have he := Option.some.inj he
        simp only [Prod.mk.injEq] at he
        have hd : ds[j] = ds[i] := by omega
        rw [hd] at he
        have hlt : (ds.take i).count ds[i] + 1 ≤ (ds.take j).count ds[i] := by
          have hsub : (ds.take (i + 1)).Sublist (ds.take j) := by
            rw [show ds.take (i + 1) = (ds.take j).take (i + 1) by
              rw [List.take_take]; congr 1; omega]
            exact List.take_sublist _ _
          have := hsub.count_le ds[i]
          rw [List.take_add_one, hdi, List.count_append] at this
          have h1 : (Option.toList (some ds[i])).count ds[i] = 1 := by
            rw [Option.toList_some, List.count_singleton_self]
          omega
        omega
      intro i j hi he
      rcases Nat.lt_trichotomy i j with h | h | h
      · exact (key i j h he hi).elim
      · exact h
      · refine (key j i h he.symm ?_).elim
        omega
    · intro a b p q hs hp hq
      have hl := hs.lt hg
      rw [← h4] at hl
      have hda : ds[a]? = some ds[a] := List.getElem?_eq_getElem hl.1
      have hdb : ds[b]? = some ds[b] := List.getElem?_eq_getElem hl.2
      have := h7 a b _ _ hs hda hdb
      rw [h10 a _ hda] at hp
      rw [h10 b _ hdb] at hq
      cases hp
      cases hq
      simp only
      omega

theorem mapM_total {β γ : Type} {f : β → Except Err γ} {l : List β} (h : ∀ x ∈ l, ∃ y, f x = .ok y) :
    ∃ ys, l.mapM f = .ok ys := by
  induction l with
  | nil => exact ⟨[], rfl⟩
  | cons x l ih =>
    obtain ⟨y, hy⟩ := h x (by simp)
    obtain ⟨ys, hys⟩ := ih (fun z hz => h z (by simp [hz]))
    exact ⟨y :: ys, by rw [List.mapM_cons, hy, hys]; rfl⟩

theorem drawLoop_ok {lay : Option (List (Int × Int))} {N : Nat} (hlay : ∀ l, lay = some l → l.length = N)
    (ss : List GState) : ∀ (i : Nat), i + ss.length ≤ N → (∀ s ∈ ss, ∀ t ∈ s.transitions, t.dst < N) →
    ∃ p, drawLoop lay i ss = .ok p := by
  induction ss with
  | nil => intro i _ _; exact ⟨_, rfl⟩
  | cons s ss ih =>
    intro i hi ht
    rw [List.length_cons] at hi
    obtain ⟨p, hp⟩ := ih (i + 1) (by omega) (fun s hs => ht s (by simp [hs]))
    have h1 : ∃ n, nodeText lay i s = .ok n := by
      cases lay with
      | none => exact ⟨_, rfl⟩
      | some l =>
        have : i < l.length := by rw [hlay l rfl]; omega
        exact ⟨_, by rw [nodeText, List.getElem?_eq_getElem this]⟩
    have h2 : ∃ e, s.transitions.mapM (edgeText lay i) = .ok e := by
      refine mapM_total (fun t htm => ?_)
      cases lay with
      | none => exact ⟨_, rfl⟩
      | some l =>
        have h3 : i < l.length := by rw [hlay l rfl]; omega
        have h4 : t.dst < l.length := by rw [hlay l rfl]; exact ht s (by simp) t htm
        exact ⟨_, by rw [edgeText, List.getElem?_eq_getElem h3, List.getElem?_eq_getElem h4]⟩
    obtain ⟨n, hn⟩ := h1
    obtain ⟨e, he⟩ := h2
    exact ⟨_, by rw [drawLoop, hn, he, hp]; rfl⟩

/-- Drawing does not panic if all transitions lead to states. -/
theorem toTikz_ok {g : Graph} (hg : g.InRange) (doc : Bool) : ∃ s, g.toTikz doc = .ok s := by
  have hlay : ∃ lay, g.layout = .ok lay ∧ ∀ l, lay = some l → l.length = g.length := by
    rcases layout_spec hg with ⟨_, h⟩ | ⟨_, ps, h, hl, _⟩
    · exact ⟨none, h, fun l e => by cases e⟩
    · exact ⟨some ps, h, fun l e => by cases e; exact hl⟩
  obtain ⟨lay, h1, h2⟩ := hlay
  obtain ⟨p, hp⟩ := drawLoop_ok h2 g 0 (by simp) hg
  exact ⟨_, by simp only [Graph.toTikz, h1, hp, bind, Except.bind]; rfl⟩

end Ere
