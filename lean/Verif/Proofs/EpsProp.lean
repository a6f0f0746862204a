import Verif.Model.EpsProp
import Verif.Proofs.Finish
import Mathlib.Data.List.Perm.Subperm
import Mathlib.Data.List.Nodup

/-! Epsilon propagation lists exactly the epsilon walks. -/

namespace Ere

section dfs
variable {β : Type} [DecidableEq β]

/-- Number of elements of `V` not yet in `out`. -/
def todo (V out : List β) : Nat := (V.filter (fun v => !out.contains v)).length

theorem todo_lt {V out : List β} {x} (hx : x ∈ V) (ho : x ∉ out) (out' : List β)
    (hsub : ∀ y ∈ out, y ∈ out') (hx' : x ∈ out') : todo V out' < todo V out := by
  unfold todo
  have h1 : (V.filter (fun v => !out'.contains v)).Sublist (V.filter (fun v => !out.contains v)) := by
    have : V.filter (fun v => !out'.contains v) =
        (V.filter (fun v => !out.contains v)).filter (fun v => !out'.contains v) := by
      rw [List.filter_filter]
      refine List.filter_congr ?_
      intro v _
      have h := hsub v
      by_cases h1 : v ∈ out' <;> by_cases h2 : v ∈ out <;> simp_all
    rw [this]; exact List.filter_sublist
  rcases Nat.lt_or_ge (V.filter (fun v => !out'.contains v)).length
    (V.filter (fun v => !out.contains v)).length with h | h
  · exact h
  · have := h1.eq_of_length_le h
    have hm : x ∈ V.filter (fun v => !out.contains v) := by simp [hx, ho]
    rw [← this] at hm
    simp [hx'] at hm

theorem todo_le {V out out' : List β} (hsub : ∀ y ∈ out, y ∈ out') : todo V out' ≤ todo V out := by
  unfold todo
  refine List.Sublist.length_le (?_ : List.Sublist _ _)
  have : V.filter (fun v => !out'.contains v) =
      (V.filter (fun v => !out.contains v)).filter (fun v => !out'.contains v) := by
    rw [List.filter_filter]
    refine List.filter_congr ?_
    intro v _
    have h := hsub v
    by_cases h1 : v ∈ out' <;> by_cases h2 : v ∈ out <;> simp_all
  rw [this]; exact List.filter_sublist

/-- Reachability over successors. -/
abbrev SReach (succ : β → List β) : β → β → Prop := Relation.ReflTransGen (fun a b => b ∈ succ a)

theorem preorder_spec (succ : β → List β) (V : List β) (hV : ∀ x ∈ V, ∀ y ∈ succ x, y ∈ V) :
    ∀ k x out, x ∈ V → x ∉ out → out.Nodup → todo V out ≤ k →
      ∃ R, preorder succ k x out = .ok (out ++ x :: R) ∧ (out ++ x :: R).Nodup ∧
        (∀ y ∈ x :: R, SReach succ x y) ∧ ∀ y ∈ x :: R, ∀ z ∈ succ y, z ∈ out ++ x :: R := by
  intro k
  induction k with
  | zero =>
    intro x out hx ho _ hk
    have := todo_lt hx ho (out ++ [x]) (by intro y hy; simp [hy]) (by simp)
    omega
  | succ k ih =>
    intro x out hx ho hn hk
    have fold : ∀ (ys : List β) (out : List β), (∀ y ∈ ys, y ∈ V) → out.Nodup → todo V out ≤ k →
        ∃ R, ys.foldlM (fun out y => if out.contains y then Except.ok out else preorder succ k y out) out
            = .ok (out ++ R) ∧ (out ++ R).Nodup ∧ (∀ y ∈ ys, y ∈ out ++ R) ∧
          (∀ y ∈ R, ∃ y0 ∈ ys, SReach succ y0 y) ∧ ∀ y ∈ R, ∀ z ∈ succ y, z ∈ out ++ R := by
      intro ys
      induction ys with
      | nil =>
        intro out _ hn _
        refine ⟨[], ?_, ?_, by simp, by simp, by simp⟩
        · simp only [List.foldlM_nil, List.append_nil]; rfl
        · simpa using hn
      | cons y ys ihy =>
        intro out hys hn hk
        rw [List.foldlM_cons]
        by_cases hy : y ∈ out
        · obtain ⟨R, h1, h2, h3, h4, h5⟩ := ihy out (fun z hz => hys z (by simp [hz])) hn hk
          refine ⟨R, ?_, h2, ?_, ?_, h5⟩
          · rw [if_pos (by simpa using hy)]; exact h1
          · intro z hz
            rcases List.mem_cons.mp hz with rfl | hz
            · simp [hy]
            · exact h3 z hz
          · intro z hz
            obtain ⟨y0, h6, h7⟩ := h4 z hz
            exact ⟨y0, by simp [h6], h7⟩
        · obtain ⟨R1, g1, g2, g3, g4⟩ := ih y out (hys y (by simp)) hy hn hk
          obtain ⟨R, h1, h2, h3, h4, h5⟩ := ihy (out ++ y :: R1) (fun z hz => hys z (by simp [hz])) g2
            (Nat.le_trans (todo_le (by intro z hz; simp [hz])) hk)
          refine ⟨y :: R1 ++ R, ?_, by rw [← List.append_assoc]; exact h2, ?_, ?_, ?_⟩
          · rw [if_neg (by simpa using hy), g1, ← List.append_assoc]; exact h1
          · intro z hz
            rw [← List.append_assoc]
            rcases List.mem_cons.mp hz with rfl | hz
            · simp
            · exact h3 z hz
          · intro z hz
            rcases List.mem_append.mp hz with hz | hz
            · exact ⟨y, by simp, g3 z hz⟩
            · obtain ⟨y0, h6, h7⟩ := h4 z hz
              exact ⟨y0, by simp [h6], h7⟩
          · intro z hz w hw
            rw [← List.append_assoc]
            rcases List.mem_append.mp hz with hz | hz
            · exact List.mem_append_left _ (g4 z hz w hw)
            · exact h5 z hz w hw
    have hlt := todo_lt hx ho (out ++ [x]) (by intro y hy; simp [hy]) (by simp)
    obtain ⟨R, h1, h2, h3, h4, h5⟩ := fold (succ x) (out ++ [x]) (hV x hx)
      (by
        rw [List.nodup_append]
        exact ⟨hn, by simp, by intro a ha b hb; simp at hb; subst hb; rintro rfl; exact ho ha⟩)
      (by omega)
    refine ⟨R, ?_, ?_, ?_, ?_⟩
    · rw [preorder, h1]; simp
    · simpa using h2
    · intro y hy
      rcases List.mem_cons.mp hy with rfl | hy
      · exact .refl
      · obtain ⟨y0, h6, h7⟩ := h4 y hy
        exact Relation.ReflTransGen.head h6 h7
    · intro y hy z hz
      rcases List.mem_cons.mp hy with rfl | hy
      · have := h3 z hz; simpa using this
      · have := h5 y hy z hz; simpa using this

/-- From an empty output: exactly the reachable elements, each once, the start first. -/
theorem preorder_reach (succ : β → List β) (V : List β) (hV : ∀ x ∈ V, ∀ y ∈ succ x, y ∈ V) {k : Nat} {x}
    (hx : x ∈ V) (hk : V.length ≤ k) : ∃ R, preorder succ k x [] = .ok (x :: R) ∧ (x :: R).Nodup ∧
      ∀ y, y ∈ x :: R ↔ SReach succ x y := by
  obtain ⟨R, h1, h2, h3, h4⟩ := preorder_spec succ V hV k x [] hx (by simp) (by simp)
    (Nat.le_trans (List.length_filter_le _ _) hk)
  refine ⟨R, by simpa using h1, by simpa using h2, fun y => ⟨h3 y, fun h => ?_⟩⟩
  induction h with
  | refl => simp
  | tail _ h6 ih => have := h4 _ ih _ h6; simpa using this

end dfs

/-! ### Bound -/

theorem sum_replicate_nat (n m : Nat) : (List.replicate n m).sum = n * m := by
  induction n with
  | zero => simp
  | succ n ih => rw [List.replicate_succ, List.sum_cons, ih, Nat.succ_mul, Nat.add_comm]

/-- All lists of length at most `k` over `T`. -/
def listsUpTo {γ : Type} (T : List γ) : Nat → List (List γ)
  | 0 => [[]]
  | k + 1 => [] :: T.flatMap (fun t => (listsUpTo T k).map (t :: ·))

theorem listsUpTo_length {γ : Type} (T : List γ) (k) : (listsUpTo T k).length = cntLists T.length k := by
  induction k with
  | zero => rfl
  | succ k ih =>
    simp only [listsUpTo, cntLists, List.length_cons, List.length_flatMap, List.length_map]
    rw [ih, List.map_const', sum_replicate_nat]; omega

theorem mem_listsUpTo {γ : Type} {T : List γ} {k} {l : List γ} (h1 : l.length ≤ k) (h2 : ∀ x ∈ l, x ∈ T) :
    l ∈ listsUpTo T k := by
  induction k generalizing l with
  | zero => have : l = [] := List.length_eq_zero_iff.mp (by omega); subst this; simp [listsUpTo]
  | succ k ih =>
    cases l with
    | nil => simp [listsUpTo]
    | cons x l =>
      refine List.mem_cons_of_mem _ (List.mem_flatMap.mpr ⟨x, h2 x (by simp), List.mem_map.mpr
        ⟨l, ih (by simpa using h1) (fun y hy => h2 y (by simp [hy])), rfl⟩⟩)

variable {σ : Type}

/-- All possible threads. -/
def propUniverse (N : NFA σ) : List EpsProp :=
  (List.range N.length).flatMap fun q => (listsUpTo N.allTags N.allTags.length).flatMap fun ts =>
    [⟨q, ts, false, false⟩, ⟨q, ts, false, true⟩, ⟨q, ts, true, false⟩, ⟨q, ts, true, true⟩]

theorem propUniverse_length (N : NFA σ) :
    (propUniverse N).length = N.length * cntLists N.allTags.length N.allTags.length * 4 := by
  simp only [propUniverse, List.length_flatMap, List.length_cons, List.length_nil, List.map_const',
    sum_replicate_nat, listsUpTo_length, List.length_range, Nat.mul_assoc]

/-- Thread invariant: valid state, tags without repetition from the automaton. -/
def EpsProp.Ok (N : NFA σ) (t : EpsProp) : Prop :=
  t.state < N.length ∧ t.tags.Nodup ∧ ∀ x ∈ t.tags, x ∈ N.allTags

theorem mem_universe {N : NFA σ} {t : EpsProp} (h : t.Ok N) : t ∈ propUniverse N := by
  obtain ⟨q, ts, a, b⟩ := t
  obtain ⟨h1, h2, h3⟩ := h
  refine List.mem_flatMap.mpr ⟨q, List.mem_range.mpr h1, List.mem_flatMap.mpr ⟨ts, ?_, ?_⟩⟩
  · refine mem_listsUpTo ?_ h3
    exact (List.subperm_of_subset h2 h3).length_le
  · cases a <;> cases b <;> simp

theorem addTag_nodup {ts : List Tag} (h : ts.Nodup) (t) : (addTag ts t).Nodup := by
  unfold addTag
  split
  · exact h
  · rename_i hc
    rw [List.nodup_append]
    refine ⟨h, by simp, ?_⟩
    intro a ha b hb
    simp at hb hc
    subst hb
    rintro rfl
    exact hc ha

theorem mem_addTag {ts : List Tag} {t x} : x ∈ addTag ts t ↔ x ∈ ts ∨ x = t := by
  unfold addTag
  split
  · rename_i hc
    simp at hc
    constructor
    · exact Or.inl
    · rintro (h | rfl)
      · exact h
      · exact hc
  · simp

theorem mem_allTags {N : NFA σ} {q : Nat} {s : State σ} {e : Eps} (hs : N[q]? = some s) (he : e ∈ s.epsilons) {t}
    (ht : e.special.tag? = some t) : t ∈ N.allTags :=
  List.mem_filterMap.mpr ⟨e, List.mem_flatMap.mpr ⟨s, List.mem_of_getElem? hs, he⟩, ht⟩

theorem propSucc_mem {N : NFA σ} {t t' : EpsProp} : t' ∈ N.propSucc t ↔
    ∃ e q', N.HasEdge t.state (.eps e) q' ∧ t' = t.extend ⟨q', e⟩ := by
  unfold NFA.propSucc NFA.HasEdge
  cases h : N[t.state]? with
  | none => simp
  | some s =>
    simp only [List.mem_map, Option.some.injEq]
    constructor
    · rintro ⟨e, he, rfl⟩; exact ⟨e.special, e.dst, ⟨s, rfl, he⟩, rfl⟩
    · rintro ⟨e, q', ⟨_, rfl, he⟩, rfl⟩; exact ⟨_, he, rfl⟩

theorem extend_ok {N : NFA σ} (hN : N.WF) {t : EpsProp} (ht : t.Ok N) {e q'}
    (he : N.HasEdge t.state (.eps e) q') : (t.extend ⟨q', e⟩).Ok N := by
  have hq := hN _ _ _ he
  obtain ⟨s, h1, h2⟩ := he
  obtain ⟨_, h4, h5⟩ := ht
  have hall : ∀ x, e.tag? = some x → x ∈ N.allTags := fun x hx => mem_allTags h1 h2 hx
  cases e with
  | none => exact ⟨hq, h4, h5⟩
  | startAnchor => exact ⟨hq, h4, h5⟩
  | endAnchor => exact ⟨hq, h4, h5⟩
  | startCapture g =>
    refine ⟨hq, addTag_nodup h4 _, fun x hx => ?_⟩
    rcases mem_addTag.mp hx with hx | rfl
    · exact h5 x hx
    · exact hall _ rfl
  | endCapture g =>
    refine ⟨hq, addTag_nodup h4 _, fun x hx => ?_⟩
    rcases mem_addTag.mp hx with hx | rfl
    · exact h5 x hx
    · exact hall _ rfl

/-- Elements of the universe that satisfy the invariant; closed under successors. -/
theorem epsProps_reach {N : NFA σ} (hN : N.WF) {q : Nat} (hq : q < N.length) :
    ∃ R, N.epsProps q = .ok (⟨q, [], false, false⟩ :: R) ∧ (⟨q, [], false, false⟩ :: R : List EpsProp).Nodup ∧
      ∀ t, t ∈ (⟨q, [], false, false⟩ :: R : List EpsProp) ↔ SReach N.propSucc ⟨q, [], false, false⟩ t := by
  classical
  have hV : ∀ x ∈ (propUniverse N).filter (fun t => decide (t.Ok N)), ∀ y ∈ N.propSucc x,
      y ∈ (propUniverse N).filter (fun t => decide (t.Ok N)) := by
    intro x hx y hy
    obtain ⟨e, q', he, rfl⟩ := propSucc_mem.mp hy
    have hok := extend_ok hN (by simpa using (List.mem_filter.mp hx).2) he
    exact List.mem_filter.mpr ⟨mem_universe hok, by simpa using hok⟩
  have h0 : EpsProp.Ok N ⟨q, [], false, false⟩ := ⟨hq, by simp, by simp⟩
  exact preorder_reach N.propSucc _ hV
    (List.mem_filter.mpr ⟨mem_universe h0, by simpa using h0⟩)
    (by rw [← propUniverse_length]; exact List.length_filter_le _ _)

/-! ### Walks -/

/-- A walk along epsilons, with its labels. -/
inductive EWalk (N : NFA σ) : Nat → List EpsType → Nat → Prop
  | refl {q} : EWalk N q [] q
  | tail {q ls p e r} : EWalk N q ls p → N.HasEdge p (.eps e) r → EWalk N q (ls ++ [e]) r

/-- What a walk amounts to: where it ends, the tags it sets (first occurrences), the anchors it
crosses. -/
def walkSummary (p : Nat) (ls : List EpsType) : EpsProp :=
  ⟨p, (ls.filterMap EpsType.tag?).eraseDups, ls.contains .startAnchor, ls.contains .endAnchor⟩

theorem eraseDups_concat (l : List Tag) (x : Tag) : (l ++ [x]).eraseDups = addTag l.eraseDups x := by
  rw [List.eraseDups_append]
  unfold addTag List.removeAll
  by_cases h : x ∈ l
  · simp [h]
  · simp [h, List.eraseDups_cons]

theorem summary_extend (p r : Nat) (ls : List EpsType) (e : EpsType) :
    (walkSummary p ls).extend ⟨r, e⟩ = walkSummary r (ls ++ [e]) := by
  cases e <;> simp [walkSummary, EpsProp.extend, EpsType.tag?, eraseDups_concat, List.filterMap]

theorem walk_reach {N : NFA σ} {q t} : SReach N.propSucc ⟨q, [], false, false⟩ t ↔
    ∃ ls, EWalk N q ls t.state ∧ t = walkSummary t.state ls := by
  constructor
  · intro h
    induction h with
    | refl => exact ⟨[], .refl, rfl⟩
    | tail _ h2 ih =>
      obtain ⟨ls, h3, h4⟩ := ih
      obtain ⟨e, r, h5, rfl⟩ := propSucc_mem.mp h2
      refine ⟨ls ++ [e], ?_, ?_⟩
      · have : ∀ t : EpsProp, (t.extend ⟨r, e⟩).state = r := by intro t; cases e <;> rfl
        rw [this]; exact .tail h3 h5
      · rw [h4, summary_extend]; rfl
  · rintro ⟨ls, h1, h2⟩
    rw [h2]
    generalize t.state = p at *
    clear h2
    induction h1 with
    | refl => exact .refl
    | @tail ls p e r h3 h4 ih =>
      refine ih.tail ?_
      rw [← summary_extend p]
      exact propSucc_mem.mpr ⟨e, r, h4, rfl⟩

/-- The propagation of a state lists, without repetition, exactly the summaries of its epsilon walks. -/
theorem epsProps_spec {N : NFA σ} (hN : N.WF) {q : Nat} (hq : q < N.length) :
    ∃ R, N.epsProps q = .ok R ∧ R.Nodup ∧
      ∀ t, t ∈ R ↔ ∃ p ls, EWalk N q ls p ∧ t = walkSummary p ls := by
  obtain ⟨R, h1, h2, h3⟩ := epsProps_reach hN hq
  refine ⟨_, h1, h2, fun t => ?_⟩
  rw [h3, walk_reach]
  constructor
  · rintro ⟨ls, h4, h5⟩; exact ⟨_, ls, h4, h5⟩
  · rintro ⟨p, ls, h4, rfl⟩; exact ⟨ls, h4, rfl⟩

end Ere
