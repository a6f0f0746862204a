import Verif.Proofs.Stable

/-! Ordered runs: which accepting run comes first if the edges of every state are tried in order. -/

namespace Ere
variable {σ α β : Type} [Sym σ α]

/-- Edges leaving a state, in order. -/
abbrev Edges (σ : Type) := List (Lab σ × Nat)

/-- Edges of a state; symbols first (no state has both kinds). -/
def State.outs (s : State σ) : Edges σ :=
  s.transitions.map (fun t => (.sym t.symbol, t.dst)) ++ s.epsilons.map (fun e => (.eps e.special, e.dst))

/-- Edges of a state by number. -/
def NFA.outs (N : NFA σ) (q : Nat) : Edges σ :=
  match N[q]? with
  | some s => s.outs
  | none => []

/-- Depth-first search with backtracking over a list of edges: the first way to the state `f` with a
configuration that `K` accepts. The result is what `K` makes of the configuration, `none` if all ways
have been tried in vain. No derivation exists if the search does not end. -/
inductive FstL (O : Nat → Edges σ) (f : Nat) (K : Cfg α → Option β) : Edges σ → Cfg α → Option β → Prop
  | nil {d} : FstL O f K [] d none
  | skip {l q es d r} : labStep l d = none → FstL O f K es d r → FstL O f K ((l, q) :: es) d r
  | acc {l es d d1 y} : labStep l d = some d1 → K d1 = some y → FstL O f K ((l, f) :: es) d (some y)
  | rej {l es d d1 r} : labStep l d = some d1 → K d1 = none → FstL O f K es d r →
      FstL O f K ((l, f) :: es) d r
  | fail {l q es d d1 r} : labStep l d = some d1 → q ≠ f → FstL O f K (O q) d1 none →
      FstL O f K es d r → FstL O f K ((l, q) :: es) d r
  | hit {l q es d d1 y} : labStep l d = some d1 → q ≠ f → FstL O f K (O q) d1 (some y) →
      FstL O f K ((l, q) :: es) d (some y)

/-- The same from a state. -/
def FstQ (O : Nat → Edges σ) (f : Nat) (K : Cfg α → Option β) (q : Nat) (d : Cfg α) (r : Option β) : Prop :=
  FstL O f K [(.eps .none, q)] d r

/-- The same for an automaton. -/
def NFA.Fst (N : NFA σ) (K : Cfg α → Option β) (q : Nat) (d : Cfg α) (r : Option β) : Prop :=
  FstQ N.outs (N.length - 1) K q d r

theorem labStep_none (d : Cfg α) : labStep (σ := σ) (.eps .none) d = some d := rfl

variable {O : Nat → Edges σ} {f : Nat} {K : Cfg α → Option β}

theorem fstQ_iff {q : Nat} {d : Cfg α} {r} :
    FstQ O f K q d r ↔ (q = f ∧ r = K d) ∨ (q ≠ f ∧ FstL O f K (O q) d r) := by
  constructor
  · intro h
    unfold FstQ at h
    cases h with
    | skip h _ => rw [labStep_none] at h; simp at h
    | acc h1 h2 => rw [labStep_none] at h1; injection h1 with h1; subst h1; exact Or.inl ⟨rfl, h2.symm⟩
    | rej h1 h2 h3 =>
      rw [labStep_none] at h1; injection h1 with h1; subst h1
      cases h3; exact Or.inl ⟨rfl, h2.symm⟩
    | fail h1 h2 h3 h4 =>
      rw [labStep_none] at h1; injection h1 with h1; subst h1
      cases h4; exact Or.inr ⟨h2, h3⟩
    | hit h1 h2 h3 =>
      rw [labStep_none] at h1; injection h1 with h1; subst h1
      exact Or.inr ⟨h2, h3⟩
  · rintro (⟨rfl, rfl⟩ | ⟨h1, h2⟩)
    · cases h : K d with
      | none => exact .rej (labStep_none d) h .nil
      | some y => exact .acc (labStep_none d) h
    · cases r with
      | none => exact .fail (labStep_none d) h1 h2 .nil
      | some y => exact .hit (labStep_none d) h1 h2

theorem FstL.consNone {l q es} {d d1 : Cfg α} {r} (h : labStep l d = some d1) (h1 : FstQ O f K q d1 none)
    (h2 : FstL O f K es d r) : FstL O f K ((l, q) :: es) d r := by
  rcases fstQ_iff.mp h1 with ⟨rfl, h3⟩ | ⟨h3, h4⟩
  · exact .rej h h3.symm h2
  · exact .fail h h3 h4 h2

theorem FstL.consSome {l q es} {d d1 : Cfg α} {y} (h : labStep l d = some d1) (h1 : FstQ O f K q d1 (some y)) :
    FstL O f K ((l, q) :: es) d (some y) := by
  rcases fstQ_iff.mp h1 with ⟨rfl, h3⟩ | ⟨h3, h4⟩
  · exact .acc h h3.symm
  · exact .hit h h3 h4

theorem fstL_cons {l q es} {d : Cfg α} {r} : FstL O f K ((l, q) :: es) d r ↔
    (labStep l d = none ∧ FstL O f K es d r) ∨
    ∃ d1, labStep l d = some d1 ∧ ((FstQ O f K q d1 none ∧ FstL O f K es d r) ∨
      ∃ y, r = some y ∧ FstQ O f K q d1 (some y)) := by
  constructor
  · intro h
    cases h with
    | skip h1 h2 => exact Or.inl ⟨h1, h2⟩
    | acc h1 h2 => exact Or.inr ⟨_, h1, Or.inr ⟨_, rfl, fstQ_iff.mpr (Or.inl ⟨rfl, h2.symm⟩)⟩⟩
    | rej h1 h2 h3 => exact Or.inr ⟨_, h1, Or.inl ⟨fstQ_iff.mpr (Or.inl ⟨rfl, h2.symm⟩), h3⟩⟩
    | fail h1 h2 h3 h4 => exact Or.inr ⟨_, h1, Or.inl ⟨fstQ_iff.mpr (Or.inr ⟨h2, h3⟩), h4⟩⟩
    | hit h1 h2 h3 => exact Or.inr ⟨_, h1, Or.inr ⟨_, rfl, fstQ_iff.mpr (Or.inr ⟨h2, h3⟩)⟩⟩
  · rintro (⟨h1, h2⟩ | ⟨d1, h1, ⟨h2, h3⟩ | ⟨y, rfl, h2⟩⟩)
    · exact .skip h1 h2
    · exact .consNone h1 h2 h3
    · exact .consSome h1 h2

theorem fstL_nil {d : Cfg α} {r} : FstL O f K [] d r ↔ r = none :=
  ⟨fun h => by cases h; rfl, fun h => by subst h; exact .nil⟩

/-- The search has one result. -/
theorem FstL.det {es} {d : Cfg α} {r r'} (h : FstL O f K es d r) (h' : FstL O f K es d r') : r = r' := by
  induction h generalizing r' with
  | nil => cases h'; rfl
  | skip h1 _ ih =>
    cases h' with
    | skip _ h3 => exact ih h3
    | acc h3 => rw [h1] at h3; simp at h3
    | rej h3 => rw [h1] at h3; simp at h3
    | fail h3 => rw [h1] at h3; simp at h3
    | hit h3 => rw [h1] at h3; simp at h3
  | acc h1 h2 =>
    cases h' with
    | skip h3 => rw [h1] at h3; simp at h3
    | acc h3 h4 => rw [h1] at h3; injection h3 with h3; subst h3; rw [h2] at h4; exact h4
    | rej h3 h4 => rw [h1] at h3; injection h3 with h3; subst h3; rw [h2] at h4; simp at h4
    | fail _ h4 => exact absurd rfl h4
    | hit _ h4 => exact absurd rfl h4
  | rej h1 h2 _ ih =>
    cases h' with
    | skip h3 => rw [h1] at h3; simp at h3
    | acc h3 h4 => rw [h1] at h3; injection h3 with h3; subst h3; rw [h2] at h4; simp at h4
    | rej _ _ h5 => exact ih h5
    | fail _ h4 => exact absurd rfl h4
    | hit _ h4 => exact absurd rfl h4
  | fail h1 h2 _ _ ih1 ih2 =>
    cases h' with
    | skip h3 => rw [h1] at h3; simp at h3
    | acc => exact absurd rfl h2
    | rej => exact absurd rfl h2
    | fail _ _ _ h6 => exact ih2 h6
    | hit h3 _ h5 => rw [h1] at h3; injection h3 with h3; subst h3; have := ih1 h5; simp at this
  | hit h1 h2 _ ih1 =>
    cases h' with
    | skip h3 => rw [h1] at h3; simp at h3
    | acc => exact absurd rfl h2
    | rej => exact absurd rfl h2
    | fail h3 _ h5 => rw [h1] at h3; injection h3 with h3; subst h3; have := ih1 h5; simp at this
    | hit h3 _ h5 => rw [h1] at h3; injection h3 with h3; subst h3; exact ih1 h5

theorem FstQ.det {q} {d : Cfg α} {r r'} (h : FstQ O f K q d r) (h' : FstQ O f K q d r') : r = r' :=
  FstL.det h h'

theorem FstL.appendSome {es es'} {d : Cfg α} {r y} (h : FstL O f K es d r) (hr : r = some y) :
    FstL O f K (es ++ es') d (some y) := by
  induction h with
  | nil => simp at hr
  | skip h1 _ ih => exact .skip h1 (ih hr)
  | acc h1 h2 => rw [← hr]; exact .acc h1 h2
  | rej h1 h2 _ ih => exact .rej h1 h2 (ih hr)
  | fail h1 h2 h3 _ _ ih => exact .fail h1 h2 h3 (ih hr)
  | hit h1 h2 h3 => rw [← hr]; exact .hit h1 h2 h3

theorem FstL.appendNone {es es'} {d : Cfg α} {r r'} (h : FstL O f K es d r) (hr : r = none)
    (h' : FstL O f K es' d r') : FstL O f K (es ++ es') d r' := by
  induction h with
  | nil => exact h'
  | skip h1 _ ih => exact .skip h1 (ih hr h')
  | acc h1 h2 => simp at hr
  | rej h1 h2 _ ih => exact .rej h1 h2 (ih hr h')
  | fail h1 h2 h3 _ _ ih => exact .fail h1 h2 h3 (ih hr h')
  | hit h1 h2 h3 => simp at hr

/-- Two lists in sequence. -/
theorem FstL.append {es es'} {d : Cfg α} {r r'} (h : FstL O f K es d r) (h' : FstL O f K es' d r') :
    FstL O f K (es ++ es') d (r.or r') := by
  cases r with
  | none => exact h.appendNone rfl h'
  | some y => exact h.appendSome rfl

/-- Edges correspond one by one: same labels, states renamed by `φ`. -/
def EdgesSame (α : Type) [Sym σ α] (φ : Nat → Nat) : Edges σ → Edges σ → Prop :=
  List.Forall₂ (fun a b => LabSame (α := α) a.1 b.1 ∧ b.2 = φ a.2)

/-- Transfer to another automaton: states are renamed by `φ`, edges correspond one by one, and arriving at
the image of `f` amounts to what `K` says. `P` holds of what the search meets. -/
theorem FstL.embed {O' : Nat → Edges σ} {f' : Nat} {K' : Cfg α → Option β} {φ : Nat → Nat}
    {P : Nat → Cfg α → Prop}
    (hK : ∀ d, P f d → FstQ O' f' K' (φ f) d (K d))
    (hne : ∀ q d, P q d → q ≠ f → φ q ≠ f')
    (hO : ∀ q d, P q d → q ≠ f → EdgesSame α φ (O q) (O' (φ q)))
    (hP : ∀ q d, P q d → q ≠ f → ∀ l q1, (l, q1) ∈ O q → ∀ d1, labStep l d = some d1 → P q1 d1)
    {es es'} {d : Cfg α} {r} (h : FstL O f K es d r) (hes : EdgesSame α φ es es')
    (hPe : ∀ l q1, (l, q1) ∈ es → ∀ d1, labStep l d = some d1 → P q1 d1) :
    FstL O' f' K' es' d r := by
  induction h generalizing es' with
  | nil => cases hes; exact .nil
  | skip h1 _ ih =>
    cases hes with
    | cons a b =>
      rename_i y _
      obtain ⟨l', q'⟩ := y
      obtain ⟨a1, a2⟩ := a
      exact .skip (by rw [← labStep_same a1]; exact h1)
        (ih b (fun l q hm => hPe l q (List.mem_cons_of_mem _ hm)))
  | @acc l es d d1 y h1 h2 =>
    have hp := hPe _ _ List.mem_cons_self _ h1
    cases hes with
    | cons a b =>
      rename_i y _
      obtain ⟨l', q'⟩ := y
      obtain ⟨a1, a2⟩ := a
      simp only at a2; subst a2
      refine .consSome (by rw [← labStep_same a1]; exact h1) ?_
      rw [← h2]; exact hK _ hp
  | rej h1 h2 _ ih =>
    have hp := hPe _ _ List.mem_cons_self _ h1
    cases hes with
    | cons a b =>
      rename_i y _
      obtain ⟨l', q'⟩ := y
      obtain ⟨a1, a2⟩ := a
      simp only at a2; subst a2
      refine .consNone (by rw [← labStep_same a1]; exact h1) ?_
        (ih b (fun l q hm => hPe l q (List.mem_cons_of_mem _ hm)))
      rw [← h2]; exact hK _ hp
  | fail h1 h2 _ _ ih1 ih2 =>
    have hp := hPe _ _ List.mem_cons_self _ h1
    cases hes with
    | cons a b =>
      rename_i y _
      obtain ⟨l', q'⟩ := y
      obtain ⟨a1, a2⟩ := a
      simp only at a2; subst a2
      exact .fail (by rw [← labStep_same a1]; exact h1) (hne _ _ hp h2)
        (ih1 (hO _ _ hp h2) (hP _ _ hp h2)) (ih2 b (fun l q hm => hPe l q (List.mem_cons_of_mem _ hm)))
  | hit h1 h2 _ ih1 =>
    have hp := hPe _ _ List.mem_cons_self _ h1
    cases hes with
    | cons a b =>
      rename_i y _
      obtain ⟨l', q'⟩ := y
      obtain ⟨a1, a2⟩ := a
      simp only at a2; subst a2
      exact .hit (by rw [← labStep_same a1]; exact h1) (hne _ _ hp h2)
        (ih1 (hO _ _ hp h2) (hP _ _ hp h2))

/-- The same for states. -/
theorem FstQ.embed {O' : Nat → Edges σ} {f' : Nat} {K' : Cfg α → Option β} {φ : Nat → Nat}
    {P : Nat → Cfg α → Prop}
    (hK : ∀ d, P f d → FstQ O' f' K' (φ f) d (K d))
    (hne : ∀ q d, P q d → q ≠ f → φ q ≠ f')
    (hO : ∀ q d, P q d → q ≠ f → EdgesSame α φ (O q) (O' (φ q)))
    (hP : ∀ q d, P q d → q ≠ f → ∀ l q1, (l, q1) ∈ O q → ∀ d1, labStep l d = some d1 → P q1 d1)
    {q} {d : Cfg α} {r} (h : FstQ O f K q d r) (hq : P q d) : FstQ O' f' K' (φ q) d r := by
  refine FstL.embed hK hne hO hP h (.cons ⟨rfl, rfl⟩ .nil) ?_
  intro l q1 hm d1 hd
  simp only [List.mem_singleton, Prod.mk.injEq] at hm
  obtain ⟨rfl, rfl⟩ := hm
  rw [labStep_none] at hd; injection hd with hd; subst hd
  exact hq

omit [Sym σ α] in
theorem mem_outs {N : NFA σ} {q l q'} : (l, q') ∈ N.outs q ↔ N.HasEdge q l q' := by
  rw [hasEdge_iff]
  unfold NFA.outs
  cases h : N[q]? with
  | none => simp
  | some s =>
    simp only [State.outs, List.mem_append, List.mem_map, Prod.mk.injEq, Option.some.injEq]
    cases l with
    | sym a =>
      simp only [State.Has, Lab.sym.injEq, reduceCtorEq, false_and, and_false, exists_false, or_false]
      constructor
      · rintro ⟨t, h1, h2, h3⟩
        obtain ⟨td, ts⟩ := t
        simp only at h2 h3; subst h2 h3
        exact ⟨s, rfl, h1⟩
      · rintro ⟨s', rfl, h1⟩; exact ⟨_, h1, rfl, rfl⟩
    | eps e =>
      simp only [State.Has, Lab.eps.injEq, reduceCtorEq, false_and, and_false, exists_false, false_or]
      constructor
      · rintro ⟨t, h1, h2, h3⟩
        obtain ⟨td, ts⟩ := t
        simp only at h2 h3; subst h2 h3
        exact ⟨s, rfl, h1⟩
      · rintro ⟨s', rfl, h1⟩; exact ⟨_, h1, rfl, rfl⟩

/-- A successful search describes a run. -/
theorem FstL.reach {N : NFA σ} {es} {d : Cfg α} {r y} (h : FstL N.outs f K es d r) (hr : r = some y) :
    ∃ l q d1 d2, (l, q) ∈ es ∧ labStep l d = some d1 ∧ ReachE N.HasEdge (q, d1) (f, d2) ∧ K d2 = some y := by
  induction h with
  | nil => simp at hr
  | skip h1 _ ih =>
    obtain ⟨l, q, d1, d2, h2, h3⟩ := ih hr
    exact ⟨l, q, d1, d2, List.mem_cons_of_mem _ h2, h3⟩
  | acc h1 h2 => exact ⟨_, _, _, _, List.mem_cons_self, h1, reachE_refl, by rw [h2, hr]⟩
  | rej h1 h2 _ ih =>
    obtain ⟨l, q, d1, d2, h2, h3⟩ := ih hr
    exact ⟨l, q, d1, d2, List.mem_cons_of_mem _ h2, h3⟩
  | fail h1 h2 h3 _ _ ih =>
    obtain ⟨l, q, d1, d2, h2, h3⟩ := ih hr
    exact ⟨l, q, d1, d2, List.mem_cons_of_mem _ h2, h3⟩
  | @hit l q es d d1 y' h1 h2 h3 ih =>
    obtain ⟨l', q', e1, e2, g1, g2, g3, g4⟩ := ih hr
    exact ⟨l, q, d1, e2, List.mem_cons_self, h1, reachE_trans (reachE_step (mem_outs.mp g1) g2) g3, g4⟩

theorem NFA.Fst.reach {N : NFA σ} {q} {d : Cfg α} {y} (h : N.Fst K q d (some y)) :
    ∃ d', ReachE N.HasEdge (q, d) (N.length - 1, d') ∧ K d' = some y := by
  obtain ⟨l, q', d1, d2, h1, h2, h3, h4⟩ := FstL.reach h rfl
  simp only [List.mem_singleton, Prod.mk.injEq] at h1
  obtain ⟨rfl, rfl⟩ := h1
  rw [labStep_none] at h2; injection h2 with h2; subst h2
  exact ⟨d2, h3, h4⟩

/-! ### Leaving out edges -/

/-- An edge that lies on no accepting run may be left out. -/
theorem fst_filterEdges {N : NFA σ} {fe ft} {d0 : Cfg α}
    (h : ∀ (d' : Cfg α) q l q1 c c1, ReachE N.HasEdge (0, d0) (q, c) → N.HasEdge q l q1 →
      labStep l c = some c1 → ReachE N.HasEdge (q1, c1) (N.length - 1, d') → keeps fe ft q l q1)
    {r} (hf : N.Fst K 0 d0 r) : (N.filterEdges fe ft).Fst K 0 d0 r := by
  classical
  have hlen : (N.filterEdges fe ft).length = N.length := filterEdges_length
  have houts : ∀ q, (N.filterEdges fe ft).outs q = (N.outs q).filter (fun p => decide (keeps fe ft q p.1 p.2)) := by
    intro q
    unfold NFA.outs NFA.filterEdges
    rw [List.getElem?_mapIdx]
    cases N[q]? with
    | none => rfl
    | some s =>
      simp only [Option.map_some, State.outs, List.filter_append, List.filter_map]
      congr 2
      · apply List.filter_congr; intro t _; cases t; simp only [keeps, Function.comp_apply]; exact Bool.eq_iff_iff.mpr (@decide_eq_true_iff _ (Classical.propDecidable _)).symm
      · apply List.filter_congr; intro t _; cases t; simp only [keeps, Function.comp_apply]; exact Bool.eq_iff_iff.mpr (@decide_eq_true_iff _ (Classical.propDecidable _)).symm
  have key : ∀ es d r, FstL N.outs (N.length - 1) K es d r → ∀ q, (∀ e ∈ es, e ∈ N.outs q) →
      ReachE N.HasEdge (0, d0) (q, d) →
      FstL (N.filterEdges fe ft).outs (N.length - 1) K (es.filter (fun p => decide (keeps fe ft q p.1 p.2))) d r := by
    intro es d r hh
    induction hh with
    | nil => intro _ _ _; exact .nil
    | skip h1 _ ih =>
      intro q he hr
      have := ih q (fun e hm => he e (List.mem_cons_of_mem _ hm)) hr
      rw [List.filter_cons]
      split
      · exact .skip h1 this
      · exact this
    | @acc l es d d1 y h1 h2 =>
      intro q he hr
      have hk : keeps fe ft q l (N.length - 1) :=
        h _ _ _ _ _ _ hr (mem_outs.mp (he _ List.mem_cons_self)) h1 reachE_refl
      rw [List.filter_cons, if_pos (by simpa using hk)]
      exact .acc h1 h2
    | rej h1 h2 _ ih =>
      intro q he hr
      have := ih q (fun e hm => he e (List.mem_cons_of_mem _ hm)) hr
      rw [List.filter_cons]
      split
      · exact .rej h1 h2 this
      · exact this
    | @fail l q1 es d d1 r h1 h2 _ _ ih1 ih2 =>
      intro q he hr
      have := ih2 q (fun e hm => he e (List.mem_cons_of_mem _ hm)) hr
      have h3 := ih1 q1 (fun e hm => hm) (reachE_trans hr (reachE_step (mem_outs.mp (he _ List.mem_cons_self)) h1))
      rw [← houts] at h3
      rw [List.filter_cons]
      split
      · exact .fail h1 h2 h3 this
      · exact this
    | @hit l q1 es d d1 y h1 h2 hh ih =>
      intro q he hr
      have hr1 := reachE_trans hr (reachE_step (mem_outs.mp (he _ List.mem_cons_self)) h1)
      have h3 := ih q1 (fun e hm => hm) hr1
      rw [← houts] at h3
      obtain ⟨d', h4, _⟩ := NFA.Fst.reach (N := N) (fstQ_iff.mpr (Or.inr ⟨h2, hh⟩))
      have hk : keeps fe ft q l q1 :=
        h _ _ _ _ _ _ hr (mem_outs.mp (he _ List.mem_cons_self)) h1 h4
      rw [List.filter_cons, if_pos (by simpa using hk)]
      exact .hit h1 h2 h3
  unfold NFA.Fst
  rw [hlen]
  rcases fstQ_iff.mp hf with ⟨h1, h2⟩ | ⟨h1, h2⟩
  · exact fstQ_iff.mpr (Or.inl ⟨h1, h2⟩)
  · refine fstQ_iff.mpr (Or.inr ⟨h1, ?_⟩)
    rw [houts]
    exact key _ _ _ h2 0 (fun e he => he) reachE_refl

end Ere
