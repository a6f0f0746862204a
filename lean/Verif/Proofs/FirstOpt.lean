import Verif.Proofs.FirstERE

/-! The optimisation passes keep the order in which runs are tried. -/

namespace Ere
variable {σ α β : Type} [Sym σ α]

/-! ### Edge lists after the elementary edits -/

section
omit [Sym σ α]

theorem outs_redirect {N : NFA σ} {x y q} :
    (N.redirect x y).outs q = (N.outs q).map (fun p => (p.1, if p.2 = x then y else p.2)) := by
  unfold NFA.outs NFA.redirect
  rw [List.getElem?_map]
  cases N[q]? with
  | none => rfl
  | some s =>
    simp only [Option.map_some, State.outs, List.map_append, List.map_map]
    congr 1
    · apply List.map_congr_left; intro t _; simp only [Function.comp_apply]; split <;> rfl
    · apply List.map_congr_left; intro t _; simp only [Function.comp_apply]; split <;> rfl

theorem outs_clear {N : NFA σ} {x q} (h : q ≠ x) : (N.clear x).outs q = N.outs q := by
  have : (N.clear x)[q]? = N[q]? := List.getElem?_modify_ne _ _ (Ne.symm h)
  unfold NFA.outs; rw [this]

theorem outs_get {N : NFA σ} {q s} (h : N[q]? = some s) : N.outs q = s.outs := by
  unfold NFA.outs; rw [h]

theorem outs_removeDead {N : NFA σ} {ds : List Bool} (h : Live N ds) {q} (hq : ds[q]? = some false) :
    (N.removeDead ds).outs (cnt ds q) = (N.outs q).map (fun p => (p.1, cnt ds p.2)) := by
  have hlt : q < N.length := by rw [← h.len]; exact (List.getElem?_eq_some_iff.mp hq).1
  have hs := List.getElem?_eq_getElem hlt
  generalize N[q] = s at hs
  have hk := (kept_get 0 ds N (cnt ds q) s).mpr ⟨q, hq, hs, rfl⟩
  unfold NFA.removeDead
  simp only
  rw [outs_get (by rw [List.getElem?_map, hk]; rfl), outs_get hs]
  simp only [State.outs, List.map_append, List.map_map]
  congr 1
  · apply List.map_congr_left
    intro t ht
    simp only [Function.comp_apply, Prod.mk.injEq, true_and]
    exact mapTarget_live (h.into q (.sym t.symbol) _ (hasEdge_iff.mpr ⟨s, hs, ht⟩))
  · apply List.map_congr_left
    intro t ht
    simp only [Function.comp_apply, Prod.mk.injEq, true_and]
    exact mapTarget_live (h.into q (.eps t.special) _ (hasEdge_iff.mpr ⟨s, hs, ht⟩))

end

theorem sameOut_outs {a b : State σ} (h : sameOut a b = true) (φ : Nat → Nat) :
    EdgesSame α φ a.outs (b.outs.map (fun p => (p.1, φ p.2))) := by
  simp only [sameOut, Bool.and_eq_true, beq_iff_eq] at h
  unfold State.outs EdgesSame
  rw [h.1.1, List.map_append]
  refine forall₂_append ?_ (edgesSame_map φ _)
  have h2 := h.1.2
  generalize a.transitions = ta at h2
  generalize b.transitions = tb at h2
  induction ta generalizing tb with
  | nil => cases tb with
    | nil => exact .nil
    | cons u tb => simp [transEq] at h2
  | cons t ta ih => cases tb with
    | nil => simp [transEq] at h2
    | cons u tb =>
      simp only [transEq, Bool.and_eq_true, beq_iff_eq] at h2
      exact .cons ⟨fun c => Sym.beq_sound _ _ h2.1.2 c, by simp [h2.1.1]⟩ (ih tb h2.2)

/-! ### Merging -/

theorem fst_merge {N : NFA σ} {x o : Nat} {a b : State σ} {K : Cfg α → Option β} (hx : 1 ≤ x)
    (hxl : x + 1 < N.length) (hol : o + 1 < N.length) (hxo : x ≠ o) (ha : N[x]? = some a) (hb : N[o]? = some b)
    (hab : sameOut a b = true) {d r} (h : N.Fst K 0 d r) : ((N.clear x).redirect x o).Fst K 0 d r := by
  unfold NFA.Fst
  rw [redirect_length, clear_length]
  have := FstQ.embed (O' := ((N.clear x).redirect x o).outs) (f' := N.length - 1) (K' := K)
    (φ := fun q => if q = x then o else q) (P := fun _ _ => True) ?_ ?_ ?_ ?_ h trivial
  · rw [if_neg (by omega)] at this; exact this
  · intro d _; rw [if_neg (by omega)]; exact fstQ_final
  · intro q d _ hq; split <;> omega
  · intro q d _ hq
    rw [outs_redirect]
    by_cases hqx : q = x
    · rw [if_pos hqx, outs_clear (Ne.symm hxo), outs_get hb, hqx, outs_get ha]
      exact sameOut_outs hab _
    · rw [if_neg hqx, outs_clear hqx]
      exact edgesSame_map (fun q => if q = x then o else q) _
  · intros; trivial

/-! ### De-duplication -/

/-- Leaving out some edges that have occurred before. -/
inductive Dup : Edges σ → Edges σ → Edges σ → Prop
  | nil {S} : Dup S [] []
  | keep {S e es es'} : Dup (e :: S) es es' → Dup S (e :: es) (e :: es')
  | drop {S e es es'} : e ∈ S → Dup S es es' → Dup S (e :: es) es'

omit [Sym σ α] in
theorem Dup.mono {S S' es es' : Edges σ} (h : Dup S es es') (hs : ∀ e ∈ S, e ∈ S') : Dup S' es es' := by
  induction h generalizing S' with
  | nil => exact .nil
  | keep _ ih =>
    refine .keep (ih fun e he => ?_)
    rcases List.mem_cons.mp he with rfl | he
    · exact List.mem_cons_self
    · exact List.mem_cons_of_mem _ (hs _ he)
  | drop h1 _ ih => exact .drop (hs _ h1) (ih hs)

omit [Sym σ α] in
theorem Dup.prepend {S es es' : Edges σ} (ts : Edges σ) (h : Dup S es es') : Dup S (ts ++ es) (ts ++ es') := by
  induction ts generalizing S with
  | nil => exact h
  | cons t ts ih => exact .keep (ih (h.mono fun e he => List.mem_cons_of_mem _ he))

omit [Sym σ α] in
theorem dup_dedupeEps (l : List Eps) :
    Dup (σ := σ) [] (l.map (fun e => (.eps e.special, e.dst))) ((dedupeEps l).map (fun e => (.eps e.special, e.dst))) := by
  have key : ∀ (suf pre : List Eps), Dup (σ := σ) (pre.map (fun e => (.eps e.special, e.dst)))
      (suf.map (fun e => (.eps e.special, e.dst)))
      ((((suf.zipIdx pre.length).filter (fun p => !((pre ++ suf).take p.2).contains p.1)).map (·.1)).map
        (fun e => (.eps e.special, e.dst))) := by
    intro suf
    induction suf with
    | nil => intro pre; exact .nil
    | cons e suf ih =>
      intro pre
      have := ih (pre ++ [e])
      rw [List.length_append, List.append_assoc, List.length_singleton] at this
      rw [List.zipIdx_cons, List.filter_cons]
      by_cases he : e ∈ pre
      · rw [if_neg (by simp [he])]
        refine .drop (List.mem_map.mpr ⟨e, he, rfl⟩) (this.mono ?_)
        intro x hx
        rw [List.map_append, List.mem_append] at hx
        rcases hx with hx | hx
        · exact hx
        · simp only [List.map_cons, List.map_nil, List.mem_singleton] at hx
          rw [hx]; exact List.mem_map.mpr ⟨e, he, rfl⟩
      · rw [if_pos (by simp [he])]
        refine .keep (this.mono ?_)
        intro x hx
        rw [List.map_append, List.mem_append] at hx
        rcases hx with hx | hx
        · exact List.mem_cons_of_mem _ hx
        · simp only [List.map_cons, List.map_nil, List.mem_singleton] at hx
          rw [hx]; exact List.mem_cons_self
  exact key l []

theorem dup_outs (N : NFA σ) (q : Nat) : Dup [] (N.outs q) (N.dedupe.1.outs q) := by
  unfold NFA.outs NFA.dedupe
  rw [List.getElem?_map]
  cases N[q]? with
  | none => exact .nil
  | some s =>
    simp only [Option.map_some, State.outs, dedupeTrans_eq]
    exact (dup_dedupeEps _).prepend _

theorem FstL.dup {O O' : Nat → Edges σ} {f : Nat} {K : Cfg α → Option β} (hO : ∀ q, Dup [] (O q) (O' q))
    {es d r} (h : FstL O f K es d r) : ∀ {S es'}, Dup S es es' → (∀ e ∈ S, FstL O f K [e] d none) →
      FstL O' f K es' d r := by
  induction h with
  | nil => intro S es' h _; cases h; exact .nil
  | skip h1 h2 ih =>
    intro S es' h hS
    cases h with
    | keep h =>
      refine .skip h1 (ih h ?_)
      intro e he
      rcases List.mem_cons.mp he with rfl | he
      · exact .skip h1 .nil
      · exact hS e he
    | drop h3 h => exact ih h hS
  | acc h1 h2 =>
    intro S es' h hS
    cases h with
    | keep h => exact .acc h1 h2
    | drop h3 h => exact absurd ((hS _ h3).det (.acc h1 h2)) (by simp)
  | rej h1 h2 _ ih =>
    intro S es' h hS
    cases h with
    | keep h =>
      refine .rej h1 h2 (ih h ?_)
      intro e he
      rcases List.mem_cons.mp he with rfl | he
      · exact .rej h1 h2 .nil
      · exact hS e he
    | drop h3 h => exact ih h hS
  | fail h1 h2 h3 _ ih1 ih2 =>
    intro S es' h hS
    cases h with
    | keep h =>
      refine .fail h1 h2 (ih1 (hO _) (fun _ he => by simp at he)) (ih2 h ?_)
      intro e he
      rcases List.mem_cons.mp he with rfl | he
      · exact .fail h1 h2 h3 .nil
      · exact hS e he
    | drop h3 h => exact ih2 h hS
  | hit h1 h2 h3 ih =>
    intro S es' h hS
    cases h with
    | keep h => exact .hit h1 h2 (ih (hO _) (fun _ he => by simp at he))
    | drop h4 h => exact absurd ((hS _ h4).det (.hit h1 h2 h3)) (by simp)

theorem fst_dedupe {N : NFA σ} {K : Cfg α → Option β} {d r} (h : N.Fst K 0 d r) : N.dedupe.1.Fst K 0 d r := by
  unfold NFA.Fst
  rw [dedupe_length]
  exact FstL.dup (dup_outs N) h (S := []) (.keep .nil) (fun _ he => absurd he List.not_mem_nil)

/-! ### Skipping a state with one plain epsilon -/

theorem fst_skip1 {N : NFA σ} {x c : Nat} {K : Cfg α → Option β} (hx : 1 ≤ x) (hxl : x + 1 < N.length)
    (hxc : x ≠ c) (hs : N[x]? = some ⟨[], [⟨c, .none⟩]⟩) {d r} (h : N.Fst K 0 d r) :
    ((N.redirect x c).clear x).Fst K 0 d r := by
  have key : ∀ es d r, FstL N.outs (N.length - 1) K es d r →
      FstL ((N.redirect x c).clear x).outs (N.length - 1) K (es.map (fun p => (p.1, if p.2 = x then c else p.2))) d r := by
    intro es d r hh
    have hox : N.outs x = [(.eps .none, c)] := by rw [outs_get hs]; rfl
    induction hh with
    | nil => exact .nil
    | skip h1 _ ih => exact .skip h1 ih
    | acc h1 h2 => rw [List.map_cons]; dsimp only; rw [if_neg (by omega)]; exact .acc h1 h2
    | rej h1 h2 _ ih => rw [List.map_cons]; dsimp only; rw [if_neg (by omega)]; exact .rej h1 h2 ih
    | @fail l q es d d1 r h1 h2 h3 _ ih1 ih2 =>
      rw [List.map_cons]; dsimp only
      by_cases hq : q = x
      · subst hq
        rw [if_pos rfl]
        refine .consNone h1 ?_ ih2
        rw [hox, List.map_singleton, if_neg (Ne.symm hxc)] at ih1
        exact ih1
      · rw [if_neg hq]
        refine .fail h1 h2 ?_ ih2
        rw [outs_clear hq, outs_redirect]; exact ih1
    | @hit l q es d d1 y h1 h2 h3 ih =>
      rw [List.map_cons]; dsimp only
      by_cases hq : q = x
      · subst hq
        rw [if_pos rfl]
        refine .consSome h1 ?_
        rw [hox, List.map_singleton, if_neg (Ne.symm hxc)] at ih
        exact ih
      · rw [if_neg hq]
        refine .hit h1 h2 ?_
        rw [outs_clear hq, outs_redirect]; exact ih
  unfold NFA.Fst
  rw [clear_length, redirect_length]
  have := key _ _ _ h
  rw [List.map_singleton, if_neg (by omega)] at this
  exact this

/-! ### Splicing -/

/-- What becomes of an edge. -/
def spliceEdge (N : NFA σ) (x : Nat) (p : Lab σ × Nat) : Edges σ := if p.2 = x then N.outs x else [p]

omit [Sym σ α] in
theorem flatMap_spliceEdge {N : NFA σ} {x} {es : Edges σ} (h : ∀ p ∈ es, p.2 ≠ x) :
    es.flatMap (spliceEdge N x) = es := by
  induction es with
  | nil => rfl
  | cons p es ih =>
    rw [List.flatMap_cons, ih (fun p hp => h p (List.mem_cons_of_mem _ hp)), spliceEdge,
      if_neg (h p List.mem_cons_self)]
    rfl

omit [Sym σ α] in
theorem outs_splice {N : NFA σ} {x a k es} (h : SpliceHyp N x a k es) {q} (hq : q ≠ x) :
    (splice N x a k es).outs q = (N.outs q).flatMap (spliceEdge N x) := by
  have hox : N.outs x = es.map (fun e => (.eps e.special, e.dst)) := by rw [outs_get h.hx]; rfl
  by_cases hqa : q = a
  · subst hqa
    obtain ⟨sa, hsa, hk⟩ := h.hk
    have h1 : (splice N x q k es)[q]? = some ⟨sa.transitions, sa.epsilons.take k ++ es ++ sa.epsilons.drop (k + 1)⟩ := by
      simp [splice, NFA.clear, h.hax.symm, hsa]
    rw [outs_get h1, outs_get hsa]
    have hlt := (List.getElem?_eq_some_iff.mp hk).1
    have hsplit : sa.epsilons = sa.epsilons.take k ++ [⟨x, .none⟩] ++ sa.epsilons.drop (k + 1) := by
      have h2 : sa.epsilons[k] = ⟨x, .none⟩ := (List.getElem?_eq_some_iff.mp hk).2
      rw [List.append_assoc]
      conv_lhs => rw [← List.take_append_drop k sa.epsilons, List.drop_eq_getElem_cons hlt, h2]
      rfl
    have huniq : ∀ j e', sa.epsilons[j]? = some e' → e'.dst = x → j = k := by
      intro j e' h1 h2
      have : (q, j) ∈ N.incomingEps x := mem_incomingEps.mpr ⟨sa, e', hsa, h1, h2⟩
      rw [h.hinE] at this
      simpa using this
    have ht : ∀ p ∈ sa.transitions.map (fun t => ((.sym t.symbol, t.dst) : Lab σ × Nat)), p.2 ≠ x := by
      intro p hp hpx
      obtain ⟨t, h2, rfl⟩ := List.mem_map.mp hp
      have := h.into (q := q) (l := .sym t.symbol) (hasEdge_iff.mpr ⟨sa, hsa, by
        simp only at hpx; subst hpx; exact h2⟩)
      simp at this
    have he1 : ∀ p ∈ (sa.epsilons.take k).map (fun e => ((.eps e.special, e.dst) : Lab σ × Nat)), p.2 ≠ x := by
      intro p hp hpx
      obtain ⟨t, h2, rfl⟩ := List.mem_map.mp hp
      obtain ⟨j, hj⟩ := List.mem_iff_getElem?.mp h2
      rw [List.getElem?_take] at hj
      split at hj
      · have := huniq j _ hj hpx; omega
      · simp at hj
    have he2 : ∀ p ∈ (sa.epsilons.drop (k + 1)).map (fun e => ((.eps e.special, e.dst) : Lab σ × Nat)), p.2 ≠ x := by
      intro p hp hpx
      obtain ⟨t, h2, rfl⟩ := List.mem_map.mp hp
      obtain ⟨j, hj⟩ := List.mem_iff_getElem?.mp h2
      rw [List.getElem?_drop] at hj
      have := huniq _ _ hj hpx; omega
    unfold State.outs
    conv_rhs => rw [hsplit]
    simp only [List.map_append, List.flatMap_append, List.map_singleton, List.flatMap_singleton]
    rw [flatMap_spliceEdge ht, flatMap_spliceEdge he1, flatMap_spliceEdge he2, spliceEdge, if_pos rfl, hox]
  · have h1 : (splice N x a k es).outs q = N.outs q := by
      have h2 : (splice N x a k es)[q]? = (N.clear x)[q]? := List.getElem?_modify_ne _ _ (Ne.symm hqa)
      rw [← outs_clear (N := N) hq]
      unfold NFA.outs; rw [h2]
    rw [h1, flatMap_spliceEdge]
    rintro ⟨l, q'⟩ hp rfl
    exact hqa (h.into (mem_outs.mp hp)).1

theorem fst_splice {N : NFA σ} {x a k es} {K : Cfg α → Option β} (hx : 1 ≤ x) (hxl : x + 1 < N.length)
    (h : SpliceHyp N x a k es) {d r} (hf : N.Fst K 0 d r) : (splice N x a k es).Fst K 0 d r := by
  have hself : (N.outs x).flatMap (spliceEdge N x) = N.outs x := by
    apply flatMap_spliceEdge
    rintro ⟨l, q'⟩ hp rfl
    exact h.hax (h.into (mem_outs.mp hp)).1.symm
  have hin : ∀ q, ∀ p ∈ N.outs q, p.2 = x → p.1 = .eps .none := by
    rintro q ⟨l, q'⟩ hp rfl; exact (h.into (mem_outs.mp hp)).2
  have key : ∀ E d r, FstL N.outs (N.length - 1) K E d r → (∀ p ∈ E, p.2 = x → p.1 = .eps .none) →
      FstL (splice N x a k es).outs (N.length - 1) K (E.flatMap (spliceEdge N x)) d r := by
    intro E d r hh
    induction hh with
    | nil => intro _; exact .nil
    | @skip l q es d r h1 _ ih =>
      intro hE
      have hq : q ≠ x := by
        intro hq
        have := hE _ List.mem_cons_self hq
        simp only at this; subst this; rw [labStep_none] at h1; simp at h1
      rw [List.flatMap_cons, spliceEdge, if_neg hq]
      exact .skip h1 (ih fun p hp => hE p (List.mem_cons_of_mem _ hp))
    | acc h1 h2 =>
      intro hE
      rw [List.flatMap_cons, spliceEdge, if_neg (by show N.length - 1 ≠ x; omega)]
      exact .acc h1 h2
    | rej h1 h2 _ ih =>
      intro hE
      rw [List.flatMap_cons, spliceEdge, if_neg (by show N.length - 1 ≠ x; omega)]
      exact .rej h1 h2 (ih fun p hp => hE p (List.mem_cons_of_mem _ hp))
    | @fail l q es d d1 r h1 h2 h3 _ ih1 ih2 =>
      intro hE
      have i1 := ih1 (hin q)
      have i2 := ih2 fun p hp => hE p (List.mem_cons_of_mem _ hp)
      rw [List.flatMap_cons, spliceEdge]
      by_cases hq : q = x
      · have := hE _ List.mem_cons_self hq
        simp only at this; subst this; rw [labStep_none] at h1; injection h1 with h1; subst h1
        rw [if_pos hq]
        subst hq
        rw [hself] at i1
        exact i1.appendNone rfl i2
      · rw [if_neg hq]
        rw [← outs_splice h hq] at i1
        exact .fail h1 h2 i1 i2
    | @hit l q es d d1 y h1 h2 h3 ih =>
      intro hE
      have i1 := ih (hin q)
      rw [List.flatMap_cons, spliceEdge]
      by_cases hq : q = x
      · have := hE _ List.mem_cons_self hq
        simp only at this; subst this; rw [labStep_none] at h1; injection h1 with h1; subst h1
        rw [if_pos hq]
        subst hq
        rw [hself] at i1
        exact i1.appendSome rfl
      · rw [if_neg hq]
        rw [← outs_splice h hq] at i1
        exact .hit h1 h2 i1
  unfold NFA.Fst
  rw [splice_length]
  have := key _ _ _ hf (by
    intro p hp _
    rw [List.mem_singleton.mp hp])
  rw [List.flatMap_singleton, spliceEdge, if_neg (by show 0 ≠ x; omega)] at this
  exact this

/-! ### Removing states -/

theorem fst_removeDead {N : NFA σ} {ds : List Bool} {K : Cfg α → Option β} (h : Live N ds)
    (h0 : ds[0]? = some false) (hl : ds[N.length - 1]? = some false) {d r} (hf : N.Fst K 0 d r) :
    (N.removeDead ds).Fst K 0 d r := by
  have hpos : 0 < N.length := by rw [← h.len]; exact (List.getElem?_eq_some_iff.mp h0).1
  have hlen := removeDead_length h.len
  have hlast : cnt ds (N.length - 1) = (N.removeDead ds).length - 1 := by
    rw [hlen]; exact cnt_last (by rw [h.len]; omega) hl
  unfold NFA.Fst
  rw [← hlast]
  have := FstQ.embed (O' := (N.removeDead ds).outs) (f' := cnt ds (N.length - 1)) (K' := K)
    (φ := cnt ds) (P := fun q _ => ds[q]? = some false) ?_ ?_ ?_ ?_ hf h0
  · rw [cnt_zero] at this; exact this
  · intro d _; exact fstQ_final
  · intro q d hq hne he; exact hne (cnt_inj hq hl he)
  · intro q d hq _
    rw [outs_removeDead h hq]
    exact edgesSame_map (cnt ds) _
  · intro q d hq _ l q1 hm d1 _; exact h.into _ _ _ (mem_outs.mp hm)

/-! ### All passes -/

theorem Sem.filter {N : NFA σ} {L : Cfg α → List (Cfg α)} {fe ft} (hk : KeepsRuns α N fe ft) (h : Sem N L) :
    Sem (N.filterEdges fe ft) L :=
  fun β K d => fst_filterEdges (fun d' => hk d d') (h β K d)

/-- The passes keep the result of every search. -/
theorem fst_stable (K : Cfg α → Option β) (d r) : Stable α (fun N : NFA σ => N.Fst K 0 d r) where
  merge := fun _ _ h1 h2 h3 h4 h5 h6 h7 h => fst_merge h1 h2 h3 h4 h5 h6 h7 h
  dedupe := fun _ h => fst_dedupe h
  skip1 := fun _ _ h1 h2 h3 h4 h => fst_skip1 h1 h2 h3 h4 h
  splice := fun _ _ h1 h2 h3 h => fst_splice h1 h2 h3 h
  dead := fun h1 h2 h3 h => fst_removeDead h1 h2 h3 h
  trim := fun h1 h2 h => fst_filterEdges (fun d' => trimEdges_keeps h1 h2 d d') h

/-! ### The loops around the pattern -/

/-- The outcomes of the lazy loop. -/
def loopL (a : σ) (d : Cfg α) : List (Cfg α) := optTimes (fun d => (symStep a d).toList) false d.rest.length d

theorem anyLoop_sem (a : σ) : Sem (anyLoop a) (loopL a : Cfg α → List (Cfg α)) := by
  have h := nfaSymbol_shape a
  refine nfaStar_sem h.good h.sink (nfaSymbol_sem a) ?_ false
  intro d d1 hd
  have := ((nfaSymbol_sem (α := α) a).mem_iff h.good.ne h.sink).mpr hd
  obtain ⟨o, r, k⟩ := d
  cases r with
  | nil => simp [symStep] at this
  | cons c r =>
    simp only [symStep, Option.mem_toList] at this
    split at this
    · injection this with this; subst this; simp
    · simp at this

/-- The outcomes with the loops. -/
def searchL (a : σ) (L : Cfg α → List (Cfg α)) : Cfg α → List (Cfg α) := seqL [seqL [loopL a, L], loopL a]

theorem withLoops_sem {N : NFA σ} {L : Cfg α → List (Cfg α)} (hN : Shape N) (h : Sem N L) (a : σ) :
    Sem (N.withLoops a true true) (searchL a L) := by
  have hl := anyLoop_shape (σ := σ) a
  have h1 : Sem (nfaConcat [anyLoop a, N]) (seqL [loopL a, L]) :=
    nfaConcat_sem (.cons ⟨hl.good, hl.sink, anyLoop_sem a⟩ (.cons ⟨hN.good, hN.sink, h⟩ .nil))
  have h2 : Shape (nfaConcat [anyLoop a, N]) := nfaConcat_shape _ (by
    intro n hn
    rcases List.mem_cons.mp hn with rfl | hn
    · exact hl
    · rw [List.mem_singleton.mp hn]; exact hN)
  exact nfaConcat_sem (.cons ⟨h2.good, h2.sink, h1⟩ (.cons ⟨hl.good, hl.sink, anyLoop_sem a⟩ .nil))

/-- The compiled character automaton tries the runs in the order of preference. -/
theorem workingNew_sem {t : Tree} (ht : t.StarOk) (hp : t.Progress) {N : NFA Atom} (h : workingNew t = .ok N)
    (hN : N ≠ []) : Sem N (searchL anyAtom t.tries) := by
  intro β K d
  have hb := build_shape t ht
  have hc1 : Shape (build t).cleanStartAnchors := filterEdges_shape hb
  have hc : Shape (build t).cleanStartAnchors.cleanEndAnchors := filterEdges_shape hc1
  have hl := withLoops_shape hc anyAtom true true
  have h1 := withLoops_sem hc (Sem.filter cleanEndAnchors_keeps (Sem.filter (cleanStartAnchors_keeps hb.good.wf) (build_sem t ht hp)))
    anyAtom
  rw [workingNew, newLoopOpt] at h
  exact (fst_stable K d _).finish hl (fst_filterEdges (fun d' => clearZeroSymbol_keeps hl.good.wf d d') (h1 β K d)) h hN

/-! ### The preferred match -/

/-- What a search over a whole text is after: a run that reads everything. -/
def atEnd (d : Cfg α) : Option Caps := if d.rest.isEmpty then some d.caps else none

theorem symStep_any (o : Nat) (c : Char) (r : List Char) (k : Caps) :
    symStep anyAtom (⟨o, c :: r, k⟩ : Cfg Char) = some ⟨o + charLen c, r, k⟩ := by
  simp only [symStep, anyAtom_check c, if_true]; rfl

theorem loop_atEnd (n : Nat) (d : Cfg Char) (h : d.rest.length ≤ n) :
    (optTimes (fun d : Cfg Char => (symStep anyAtom d).toList) false n d).findSome? atEnd = some d.caps := by
  induction n generalizing d with
  | zero =>
    have : d.rest = [] := List.length_eq_zero_iff.mp (by omega)
    rw [optTimes, findSome?_single]; simp [atEnd, this]
  | succ n ih =>
    rw [optTimes]
    obtain ⟨o, r, k⟩ := d
    cases r with
    | nil => simp [atEnd]
    | cons c r =>
      have hs : symStep anyAtom (⟨o, c :: r, k⟩ : Cfg Char) = some ⟨o + charLen c, r, k⟩ :=
        symStep_any o c r k
      simp only [Bool.false_eq_true, if_false, hs, Option.toList_some, List.flatMap_singleton]
      rw [List.findSome?_cons]
      simp only [atEnd, List.isEmpty_cons, Bool.false_eq_true, if_false]
      exact ih ⟨o + charLen c, r, k⟩ (by simpa using h)

/-- Stretches and the events of a run that matched them. -/
def SameMatch (r : Option Caps) (s : Option (List Span)) : Prop :=
  (r = none ∧ s = none) ∨ ∃ caps S, r = some caps ∧ s = some S ∧ Reads caps S

theorem search_first (e : ERE) (n : Nat) (off : Nat) (rest : List Char) (h : rest.length ≤ n) :
    SameMatch ((optTimes (fun d : Cfg Char => (symStep anyAtom d).toList) false n ⟨off, rest, []⟩).findSome?
      (fun d => ((Tree.fromERE e).1.tries d).head?.map (·.caps))) (e.firstFrom off rest) := by
  have hh : ∀ off rest, SameMatch (((Tree.fromERE e).1.tries ⟨off, rest, []⟩).head?.map (·.caps))
      ((tryERE e 1 ⟨off, rest, []⟩).head?.map fun p => p.spans ++ [⟨0, off, p.off⟩]) := by
    intro off rest
    have := agree_fromERE e off rest
    generalize (Tree.fromERE e).1.tries ⟨off, rest, []⟩ = A at this
    generalize tryERE e 1 ⟨off, rest, []⟩ = B at this
    cases this with
    | nil => exact Or.inl ⟨rfl, rfl⟩
    | cons a _ => exact Or.inr ⟨_, _, rfl, rfl, a.2.2⟩
  induction n generalizing off rest with
  | zero =>
    have : rest = [] := List.length_eq_zero_iff.mp (by omega)
    subst this
    rw [optTimes, findSome?_single, ERE.firstFrom]
    exact hh off []
  | succ n ih =>
    rw [optTimes]
    cases rest with
    | nil =>
      have hs : symStep anyAtom (⟨off, [], []⟩ : Cfg Char) = none := rfl
      simp only [Bool.false_eq_true, if_false, hs, Option.toList_none, List.flatMap_nil]
      rw [findSome?_single, ERE.firstFrom]
      exact hh off []
    | cons c r =>
      have hs : symStep anyAtom (⟨off, c :: r, []⟩ : Cfg Char) = some ⟨off + charLen c, r, []⟩ :=
        symStep_any off c r []
      simp only [Bool.false_eq_true, if_false, hs, Option.toList_some, List.flatMap_singleton]
      rw [List.findSome?_cons, ERE.firstFrom]
      rcases hh off (c :: r) with ⟨h1, h2⟩ | ⟨caps, S, h1, h2, h3⟩
      · rw [h1]
        rw [Option.map_eq_none_iff] at h2
        rw [h2]
        exact ih _ _ (by simpa using h)
      · rw [h1]
        obtain ⟨p, h4, h5⟩ := Option.map_eq_some_iff.mp h2
        rw [h4]
        simp only
        rw [h5]
        exact Or.inr ⟨caps, S, rfl, rfl, h3⟩

/-- The first run of the compiled character automaton over a text is the preferred match. -/
theorem workingNew_first (e : ERE) (he : e.progress = true) {N : NFA Atom} (h : workingNew (Tree.fromERE e).1 = .ok N)
    (hN : N ≠ []) (text : List Char) : ∃ r, N.Fst atEnd 0 ⟨0, text, []⟩ r ∧ SameMatch r (e.first text) := by
  have h1 := workingNew_sem (starOk_fromERE e) (progress_fromERE he) h hN Caps atEnd ⟨0, text, []⟩
  refine ⟨_, h1, ?_⟩
  have h2 : (searchL anyAtom (Tree.fromERE e).1.tries ⟨0, text, []⟩).findSome? atEnd =
      (optTimes (fun d : Cfg Char => (symStep anyAtom d).toList) false text.length ⟨0, text, []⟩).findSome?
      (fun d => ((Tree.fromERE e).1.tries d).head?.map (·.caps)) := by
    unfold searchL
    simp only [seqL]
    rw [findSome?_flatMap', findSome?_flatMap']
    unfold loopL
    refine findSome?_congr' fun d1 _ => ?_
    rw [findSome?_flatMap']
    generalize (Tree.fromERE e).1.tries d1 = A
    cases A with
    | nil => rfl
    | cons d2 A =>
      rw [List.findSome?_cons, findSome?_single]
      have : (List.flatMap (fun d => [d]) (optTimes (fun d : Cfg Char => (symStep anyAtom d).toList) false d2.rest.length d2)).findSome? atEnd
          = some d2.caps := by
        rw [List.flatMap_singleton']
        exact loop_atEnd _ d2 (Nat.le_refl _)
      rw [this]
      rfl
  rw [h2]
  exact search_first e _ 0 text (Nat.le_refl _)

end Ere
