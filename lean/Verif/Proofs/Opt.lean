import Verif.Proofs.Sim

/-! Correctness and termination of the optimisation passes. -/

namespace Ere
variable {σ α : Type} [Sym σ α]

/-! ### Edges after the elementary edits -/

omit [Sym σ α] in
theorem hasEdge_redirect {N : NFA σ} {x y q l q'} :
    (N.redirect x y).HasEdge q l q' ↔ ∃ q1, N.HasEdge q l q1 ∧ q' = if q1 = x then y else q1 := by
  simp only [hasEdge_iff, NFA.redirect, List.getElem?_map, Option.map_eq_some_iff]
  constructor
  · rintro ⟨st, ⟨s, h1, rfl⟩, h2⟩
    cases l with
    | sym a =>
      obtain ⟨t, ht, he⟩ := List.mem_map.mp h2
      refine ⟨t.dst, ⟨s, h1, ?_⟩, ?_⟩
      · have : t.symbol = a := by split at he <;> simp_all
        subst this; exact ht
      · split at he
        · rename_i h; rw [if_pos h]; simp_all
        · rename_i h; rw [if_neg h]; simp_all
    | eps e =>
      obtain ⟨t, ht, he⟩ := List.mem_map.mp h2
      refine ⟨t.dst, ⟨s, h1, ?_⟩, ?_⟩
      · have : t.special = e := by split at he <;> simp_all
        subst this; exact ht
      · split at he
        · rename_i h; rw [if_pos h]; simp_all
        · rename_i h; rw [if_neg h]; simp_all
  · rintro ⟨q1, ⟨s, h1, h2⟩, rfl⟩
    refine ⟨_, ⟨s, h1, rfl⟩, ?_⟩
    cases l with
    | sym a => exact List.mem_map.mpr ⟨⟨q1, a⟩, h2, by dsimp only; split <;> rfl⟩
    | eps e => exact List.mem_map.mpr ⟨⟨q1, e⟩, h2, by dsimp only; split <;> rfl⟩

omit [Sym σ α] in
theorem redirect_length {N : NFA σ} {x y} : (N.redirect x y).length = N.length := by
  simp [NFA.redirect]

omit [Sym σ α] in
theorem hasEdge_modify {N : NFA σ} {x f q l q'} :
    NFA.HasEdge (N.modify x f) q l q' ↔
      ∃ s, N[q]? = some s ∧ (if x = q then f s else s).Has l q' := by
  rw [hasEdge_iff]
  rw [List.getElem?_modify]
  cases hq : N[q]? with
  | none => simp
  | some s => simp

omit [Sym σ α] in
theorem hasEdge_clear {N : NFA σ} {x q l q'} :
    (N.clear x).HasEdge q l q' ↔ q ≠ x ∧ N.HasEdge q l q' := by
  unfold NFA.clear
  rw [hasEdge_modify, hasEdge_iff]
  constructor
  · rintro ⟨s, h1, h2⟩
    split at h2
    · cases l <;> simp [State.Has] at h2
    · rename_i h; exact ⟨Ne.symm h, s, h1, h2⟩
  · rintro ⟨h, s, h1, h2⟩
    exact ⟨s, h1, by rw [if_neg (Ne.symm h)]; exact h2⟩

omit [Sym σ α] in
theorem clear_length {N : NFA σ} {x} : (N.clear x).length = N.length := by simp [NFA.clear]

/-! ### De-duplication -/

theorem dedupeTrans_eq (l : List (Trans σ)) : dedupeTrans l = l := by
  unfold dedupeTrans
  rw [List.filter_eq_self.mpr]
  · exact List.zipIdx_map_fst 0 l
  · rintro ⟨t, i⟩ h
    have h1 := List.mk_mem_zipIdx_iff_getElem?.mp h
    rw [List.any_eq_true]
    refine ⟨t, ?_, by simp [Sym.beq_refl]⟩
    have hlt := (List.getElem?_eq_some_iff.mp h1).1
    refine List.mem_iff_getElem?.mpr ⟨i, ?_⟩
    rw [List.getElem?_take, if_pos (by omega), h1]

omit [Sym σ α] in
theorem mem_dedupeEps {l : List Eps} {e} : e ∈ dedupeEps l ↔ e ∈ l := by
  unfold dedupeEps
  simp only [List.mem_map, List.mem_filter, Prod.exists]
  constructor
  · rintro ⟨a, i, ⟨h, _⟩, rfl⟩
    exact List.mem_iff_getElem?.mpr ⟨i, List.mk_mem_zipIdx_iff_getElem?.mp h⟩
  · intro h
    have hlt := List.idxOf_lt_length_iff.mpr h
    refine ⟨e, l.idxOf e, ⟨List.mk_mem_zipIdx_iff_getElem?.mpr ?_, ?_⟩, rfl⟩
    · rw [List.getElem?_eq_getElem hlt, List.getElem_idxOf]
    · simp only [Bool.not_eq_true', List.contains_eq_mem, decide_eq_false_iff_not]
      intro hm
      have := (List.mem_take_iff_idxOf_lt h).mp hm
      omega

omit [Sym σ α] in
theorem dedupeEps_length (l : List Eps) : (dedupeEps l).length ≤ l.length := by
  unfold dedupeEps
  rw [List.length_map]
  exact (List.length_filter_le _ _).trans (by simp)

theorem hasEdge_dedupe {N : NFA σ} {q l q'} : (N.dedupe.1).HasEdge q l q' ↔ N.HasEdge q l q' := by
  simp only [hasEdge_iff, NFA.dedupe, List.getElem?_map, Option.map_eq_some_iff]
  constructor
  · rintro ⟨_, ⟨s, h1, rfl⟩, h2⟩
    refine ⟨s, h1, ?_⟩
    cases l with
    | sym a => simpa [State.Has, dedupeTrans_eq] using h2
    | eps e => simpa [State.Has, mem_dedupeEps] using h2
  · rintro ⟨s, h1, h2⟩
    refine ⟨_, ⟨s, h1, rfl⟩, ?_⟩
    cases l with
    | sym a => simpa [State.Has, dedupeTrans_eq] using h2
    | eps e => simpa [State.Has, mem_dedupeEps] using h2

theorem dedupe_length {N : NFA σ} : N.dedupe.1.length = N.length := by simp [NFA.dedupe]

/-- Total number of epsilons. -/
def NFA.epsTotal (N : NFA σ) : Nat := (N.map (fun s => s.epsilons.length)).sum

theorem dedupe_epsTotal (N : NFA σ) : N.dedupe.1.epsTotal ≤ N.epsTotal ∧
    (N.dedupe.2 = true → N.dedupe.1.epsTotal < N.epsTotal) := by
  induction N with
  | nil => simp [NFA.dedupe, NFA.epsTotal]
  | cons s N ih =>
    simp only [NFA.dedupe, NFA.epsTotal, List.map_cons, List.sum_cons, List.any_cons, List.map_map,
      Bool.or_eq_true, bne_iff_ne, ne_eq, dedupeTrans_eq, not_true, false_or] at ih ⊢
    have := dedupeEps_length s.epsilons
    refine ⟨by omega, ?_⟩
    rintro (h | h)
    · omega
    · have := ih.2 h; omega

omit [Sym σ α] in
theorem redirect_epsTotal {N : NFA σ} {x y} : (N.redirect x y).epsTotal = N.epsTotal := by
  unfold NFA.epsTotal NFA.redirect
  rw [List.map_map]
  congr 1
  apply List.map_congr_left
  intro s _; simp

omit [Sym σ α] in
theorem modify_epsTotal {N : NFA σ} {x f s} (h : N[x]? = some s) :
    NFA.epsTotal (N.modify x f) + s.epsilons.length = N.epsTotal + (f s).epsilons.length := by
  induction N generalizing x with
  | nil => simp at h
  | cons t N ih =>
    cases x with
    | zero =>
      simp at h; subst h
      simp [NFA.epsTotal]; omega
    | succ x =>
      simp only [List.getElem?_cons_succ] at h
      have := ih h
      simp only [NFA.epsTotal, List.modify_succ_cons, List.map_cons, List.sum_cons] at this ⊢
      omega

omit [Sym σ α] in
theorem clear_epsTotal {N : NFA σ} {x s} (h : N[x]? = some s) :
    (N.clear x).epsTotal + s.epsilons.length = N.epsTotal := by
  have := modify_epsTotal (f := fun _ => (⟨[], []⟩ : State σ)) h
  simpa [NFA.clear] using this

/-! ### Merging -/

theorem transEq_mem {a b : List (Trans σ)} (h : transEq a b = true) {q s} (hm : ⟨q, s⟩ ∈ a) :
    ∃ s', ⟨q, s'⟩ ∈ b ∧ Sym.beq s s' = true := by
  induction a generalizing b with
  | nil => simp at hm
  | cons t a ih =>
    cases b with
    | nil => simp [transEq] at h
    | cons u b =>
      simp only [transEq, Bool.and_eq_true, beq_iff_eq] at h
      rcases List.mem_cons.mp hm with rfl | hm
      · exact ⟨u.symbol, by have := h.1.1; simp only at this; subst this; simp, h.1.2⟩
      · obtain ⟨s', h1, h2⟩ := ih h.2 hm
        exact ⟨s', by simp [h1], h2⟩

/-- transEq is symmetric in effect. -/
theorem transEq_mem' {a b : List (Trans σ)} (h : transEq a b = true) {q s} (hm : ⟨q, s⟩ ∈ b) :
    ∃ s', ⟨q, s'⟩ ∈ a ∧ Sym.beq s' s = true := by
  induction a generalizing b with
  | nil =>
    cases b with
    | nil => simp at hm
    | cons u b => simp [transEq] at h
  | cons t a ih =>
    cases b with
    | nil => simp [transEq] at h
    | cons u b =>
      simp only [transEq, Bool.and_eq_true, beq_iff_eq] at h
      rcases List.mem_cons.mp hm with rfl | hm
      · exact ⟨t.symbol, by have := h.1.1; simp only at this; subst this; simp, h.1.2⟩
      · obtain ⟨s', h1, h2⟩ := ih h.2 hm
        exact ⟨s', by simp [h1], h2⟩

/-- Labels with the same effect. -/
def LabSame : Lab σ → Lab σ → Prop
  | .sym a, .sym b => ∀ c : α, Sym.check a c = Sym.check b c
  | .eps e, .eps f => e = f
  | _, _ => False

theorem labStep_same {l l' : Lab σ} (h : LabSame (α := α) l l') (d : Cfg α) :
    labStep l d = labStep l' d := by
  cases l <;> cases l' <;> simp only [LabSame] at h
  · simp only [labStep, symStep]
    split
    · rfl
    · rw [h]
  · subst h; rfl

theorem sameOut_has {a b : State σ} (h : sameOut a b = true) {l q} (hl : a.Has l q) :
    ∃ l', LabSame (α := α) l l' ∧ b.Has l' q := by
  simp only [sameOut, Bool.and_eq_true, beq_iff_eq] at h
  cases l with
  | sym s =>
    obtain ⟨s', h1, h2⟩ := transEq_mem h.1.2 hl
    exact ⟨.sym s', fun c => Sym.beq_sound _ _ h2 c, h1⟩
  | eps e => exact ⟨.eps e, rfl, by simpa [State.Has, ← h.1.1] using hl⟩

theorem sameOut_has' {a b : State σ} (h : sameOut a b = true) {l q} (hl : b.Has l q) :
    ∃ l', LabSame (α := α) l l' ∧ a.Has l' q := by
  simp only [sameOut, Bool.and_eq_true, beq_iff_eq] at h
  cases l with
  | sym s =>
    obtain ⟨s', h1, h2⟩ := transEq_mem' h.1.2 hl
    exact ⟨.sym s', fun c => (Sym.beq_sound _ _ h2 c).symm, h1⟩
  | eps e => exact ⟨.eps e, rfl, by simpa [State.Has, h.1.1] using hl⟩

theorem findSame_spec {N : NFA σ} {x o} (h : N.findSame x = some o) :
    o < N.length - 1 ∧ x ≠ o ∧ ∃ a b, N[x]? = some a ∧ N[o]? = some b ∧ sameOut a b = true := by
  unfold NFA.findSame at h
  have h1 := List.mem_of_find?_eq_some h
  have h2 := List.find?_some h
  split at h2
  · rename_i a b ha hb
    simp only [Bool.and_eq_true, bne_iff_ne, ne_eq] at h2
    exact ⟨List.mem_range.mp h1, h2.2, a, b, ha, hb, h2.1⟩
  · simp at h2

theorem merge_equiv {N : NFA σ} {x o : Nat} {a b : State σ} (hx0 : x ≠ 0) (hxl : x ≠ N.length - 1)
    (hol : o ≠ N.length - 1) (hxo : x ≠ o) (ha : N[x]? = some a) (hb : N[o]? = some b)
    (hab : sameOut a b = true) (d d' : Cfg α) :
    ((N.clear x).redirect x o).Acc d d' ↔ N.Acc d d' := by
  have hlen : ((N.clear x).redirect x o).length = N.length := by
    rw [redirect_length, clear_length]
  have hne : N ≠ [] := by rintro rfl; simp at ha
  constructor
  · refine acc_of_sim (fun p q => p = if q = x then o else q) hne (by simp [Ne.symm hx0]) ?_ ?_
    · rintro p l p1 q d d1 he rfl hl
      obtain ⟨q1, h1, rfl⟩ := hasEdge_redirect.mp he
      obtain ⟨hpx, h2⟩ := hasEdge_clear.mp h1
      by_cases hq : q = x
      · rw [if_pos hq] at h2
        obtain ⟨s, h3, h4⟩ := hasEdge_iff.mp h2
        rw [hb] at h3; injection h3 with h3; subst h3
        obtain ⟨l', h5, h6⟩ := sameOut_has' (α := α) hab h4
        refine ⟨q1, rfl, reachE_step (l := l') ?_ (by rw [← labStep_same h5]; exact hl)⟩
        exact hasEdge_iff.mpr ⟨a, by rw [hq]; exact ha, h6⟩
      · rw [if_neg hq] at h2
        exact ⟨q1, rfl, reachE_step h2 hl⟩
    · intro q hq
      rw [hlen] at hq
      split at hq
      · exact absurd hq.symm hol
      · exact hq.symm
  · refine acc_of_map (fun q => if q = x then o else q) (ne_nil_of_length hlen hne)
      (by simp [Ne.symm hx0]) ?_ ?_
    · intro q l q1 d d1 he hl
      by_cases hq : q = x
      · obtain ⟨s, h3, h4⟩ := hasEdge_iff.mp he
        rw [hq, ha] at h3; injection h3 with h3; subst h3
        obtain ⟨l', h5, h6⟩ := sameOut_has (α := α) hab h4
        simp only [if_pos hq]
        refine reachE_step (l := l') (hasEdge_redirect.mpr ⟨q1, hasEdge_clear.mpr
          ⟨Ne.symm hxo, hasEdge_iff.mpr ⟨b, hb, h6⟩⟩, rfl⟩) (by rw [← labStep_same h5]; exact hl)
      · simp only [if_neg hq]
        exact reachE_step (hasEdge_redirect.mpr ⟨q1, hasEdge_clear.mpr ⟨hq, he⟩, rfl⟩) hl
    · rw [hlen]; rw [if_neg (Ne.symm hxl)]

/-! ### Skipping a state with a single plain epsilon -/

theorem skip1_equiv {N : NFA σ} {x c : Nat} (hx0 : x ≠ 0) (hxl : x ≠ N.length - 1)
    (hxc : x ≠ c) (hx : N[x]? = some ⟨[], [⟨c, .none⟩]⟩) (d d' : Cfg α) :
    ((N.redirect x c).clear x).Acc d d' ↔ N.Acc d d' := by
  have hlen : ((N.redirect x c).clear x).length = N.length := by
    rw [clear_length, redirect_length]
  have hne : N ≠ [] := by rintro rfl; simp at hx
  have hxe : N.HasEdge x (.eps .none) c := hasEdge_iff.mpr ⟨_, hx, by simp [State.Has]⟩
  constructor
  · refine acc_of_map id hne rfl ?_ (by simp [hlen])
    intro q l q1 d d1 he hl
    obtain ⟨hqx, h1⟩ := hasEdge_clear.mp he
    obtain ⟨q2, h2, rfl⟩ := hasEdge_redirect.mp h1
    by_cases h3 : q2 = x
    · subst h3
      simp only [if_true, id]
      exact reachE_trans (reachE_step h2 hl) (reachE_eps hxe)
    · simp only [if_neg h3, id]
      exact reachE_step h2 hl
  · refine acc_of_map (fun q => if q = x then c else q) (ne_nil_of_length hlen hne)
      (by simp [Ne.symm hx0]) ?_ (by rw [hlen, if_neg (Ne.symm hxl)])
    intro q l q1 d d1 he hl
    by_cases hq : q = x
    · obtain ⟨s, h3, h4⟩ := hasEdge_iff.mp he
      rw [hq, hx] at h3; injection h3 with h3; subst h3
      cases l with
      | sym a => simp [State.Has] at h4
      | eps e =>
        simp only [State.Has, List.mem_singleton, Eps.mk.injEq] at h4
        obtain ⟨rfl, rfl⟩ := h4
        simp only [labStep, epsStep, Option.some.injEq] at hl
        subst hl
        rw [if_pos hq, if_neg (Ne.symm hxc)]
        exact reachE_refl
    · simp only [if_neg hq]
      exact reachE_step (hasEdge_clear.mpr ⟨hq, hasEdge_redirect.mpr ⟨q1, he, rfl⟩⟩) hl

/-! ### Splicing the epsilons of a state into its only predecessor -/

omit [Sym σ α] in
theorem mem_incomingEps {N : NFA σ} {x a k} : (a, k) ∈ N.incomingEps x ↔
    ∃ s e, N[a]? = some s ∧ s.epsilons[k]? = some e ∧ e.dst = x := by
  unfold NFA.incomingEps
  simp only [List.mem_flatMap, List.mem_map, List.mem_filter, Prod.exists, beq_iff_eq,
    Prod.mk.injEq, List.mk_mem_zipIdx_iff_getElem?]
  constructor
  · rintro ⟨s, i, h1, e, j, ⟨h2, h3⟩, rfl, rfl⟩; exact ⟨s, e, h1, h2, h3⟩
  · rintro ⟨s, e, h1, h2, h3⟩; exact ⟨s, a, h1, e, k, ⟨h2, h3⟩, rfl, rfl⟩

omit [Sym σ α] in
theorem mem_incoming {N : NFA σ} {x a k} : (a, k) ∈ N.incoming x ↔
    ∃ s t, N[a]? = some s ∧ s.transitions[k]? = some t ∧ t.dst = x := by
  unfold NFA.incoming
  simp only [List.mem_flatMap, List.mem_map, List.mem_filter, Prod.exists, beq_iff_eq,
    Prod.mk.injEq, List.mk_mem_zipIdx_iff_getElem?]
  constructor
  · rintro ⟨s, i, h1, e, j, ⟨h2, h3⟩, rfl, rfl⟩; exact ⟨s, e, h1, h2, h3⟩
  · rintro ⟨s, e, h1, h2, h3⟩; exact ⟨s, a, h1, e, k, ⟨h2, h3⟩, rfl, rfl⟩

/-- The automaton after splicing. -/
def splice (N : NFA σ) (x a k : Nat) (es : List Eps) : NFA σ :=
  (N.clear x).modify a (fun s => ⟨s.transitions, s.epsilons.take k ++ es ++ s.epsilons.drop (k + 1)⟩)

omit [Sym σ α] in
theorem splice_length {N : NFA σ} {x a k es} : (splice N x a k es).length = N.length := by
  simp [splice, clear_length]

/-- Hypotheses under which `a -e-> x` is the only edge into `x` (at position `k`) and `x` has only
epsilons. -/
structure SpliceHyp (N : NFA σ) (x a k : Nat) (es : List Eps) : Prop where
  hx : N[x]? = some ⟨[], es⟩
  hin : N.incoming x = []
  hinE : N.incomingEps x = [(a, k)]
  hax : a ≠ x
  hk : ∃ sa, N[a]? = some sa ∧ sa.epsilons[k]? = some ⟨x, .none⟩

omit [Sym σ α] in
theorem SpliceHyp.into {N : NFA σ} {x a k es} (h : SpliceHyp N x a k es) {q l}
    (he : N.HasEdge q l x) : q = a ∧ l = .eps .none := by
  obtain ⟨s, h1, h2⟩ := hasEdge_iff.mp he
  cases l with
  | sym b =>
    obtain ⟨j, hj⟩ := List.mem_iff_getElem?.mp h2
    have : (q, j) ∈ N.incoming x := mem_incoming.mpr ⟨s, _, h1, hj, rfl⟩
    rw [h.hin] at this; simp at this
  | eps e =>
    obtain ⟨j, hj⟩ := List.mem_iff_getElem?.mp h2
    have : (q, j) ∈ N.incomingEps x := mem_incomingEps.mpr ⟨s, _, h1, hj, rfl⟩
    rw [h.hinE] at this
    simp only [List.mem_singleton, Prod.mk.injEq] at this
    obtain ⟨rfl, rfl⟩ := this
    obtain ⟨sa, h3, h4⟩ := h.hk
    rw [h1] at h3; injection h3 with h3; subst h3
    rw [hj] at h4; injection h4 with h4
    injection h4 with _ h4
    exact ⟨rfl, by rw [h4]⟩

omit [Sym σ α] in
theorem hasEdge_splice {N : NFA σ} {x a k es} (h : SpliceHyp N x a k es) {q l q'} :
    (splice N x a k es).HasEdge q l q' ↔
      q ≠ x ∧ ((N.HasEdge q l q' ∧ q' ≠ x) ∨ (q = a ∧ N.HasEdge x l q')) := by
  obtain ⟨sa, hsa, hk⟩ := h.hk
  have hca : (N.clear x)[a]? = some sa := by
    simp [NFA.clear, List.getElem?_modify, h.hax.symm, hsa]
  unfold splice
  rw [hasEdge_modify]
  by_cases hqa : a = q
  · subst hqa
    simp only [if_true, hca, Option.some.injEq, exists_eq_left', true_and]
    have hx1 : ∀ l q', N.HasEdge x l q' ↔ (⟨[], es⟩ : State σ).Has l q' := by
      intro l q'; rw [hasEdge_iff, h.hx]; simp
    have ha1 : ∀ l q', N.HasEdge a l q' ↔ sa.Has l q' := by
      intro l q'; rw [hasEdge_iff, hsa]; simp
    have hinto : ∀ l, sa.Has l x → l = .eps .none := fun l hl => (h.into ((ha1 l x).mpr hl)).2
    rw [hx1, ha1]
    cases l with
    | sym b =>
      simp only [State.Has, List.not_mem_nil, or_false, ne_eq, h.hax, not_false_eq_true, true_and]
      constructor
      · intro hm
        refine ⟨hm, ?_⟩
        rintro rfl
        have := hinto (.sym b) hm
        simp at this
      · exact fun hm => hm.1
    | eps e =>
      simp only [State.Has, List.mem_append, ne_eq, h.hax, not_false_eq_true, true_and]
      have huniq : ∀ j e', sa.epsilons[j]? = some e' → e'.dst = x → j = k := by
        intro j e' h1 h2
        have : (a, j) ∈ N.incomingEps x := mem_incomingEps.mpr ⟨sa, e', hsa, h1, h2⟩
        rw [h.hinE] at this
        simpa using this
      constructor
      · rintro ((hm | hm) | hm)
        · obtain ⟨j, hj⟩ := List.mem_iff_getElem?.mp hm
          rw [List.getElem?_take] at hj
          split at hj
          · refine Or.inl ⟨List.mem_iff_getElem?.mpr ⟨j, hj⟩, ?_⟩
            rintro rfl
            have := huniq j _ hj rfl; omega
          · simp at hj
        · exact Or.inr hm
        · obtain ⟨j, hj⟩ := List.mem_iff_getElem?.mp hm
          rw [List.getElem?_drop] at hj
          refine Or.inl ⟨List.mem_iff_getElem?.mpr ⟨_, hj⟩, ?_⟩
          rintro rfl
          have := huniq _ _ hj rfl; omega
      · rintro (⟨hm, hne⟩ | hm)
        · obtain ⟨j, hj⟩ := List.mem_iff_getElem?.mp hm
          have hjk : j ≠ k := by
            rintro rfl
            rw [hj] at hk; injection hk with hk; injection hk with hk _; exact hne hk
          rcases Nat.lt_or_ge j k with hlt | hge
          · refine Or.inl (Or.inl (List.mem_iff_getElem?.mpr ⟨j, ?_⟩))
            rw [List.getElem?_take, if_pos hlt, hj]
          · refine Or.inr (List.mem_iff_getElem?.mpr ⟨j - (k + 1), ?_⟩)
            rw [List.getElem?_drop]
            have : k + 1 + (j - (k + 1)) = j := by omega
            rw [this, hj]
        · exact Or.inl (Or.inr hm)
  · simp only [if_neg hqa]
    have : (∃ s, (N.clear x)[q]? = some s ∧ s.Has l q') ↔ (N.clear x).HasEdge q l q' := hasEdge_iff.symm
    rw [this, hasEdge_clear]
    constructor
    · rintro ⟨h1, h2⟩
      refine ⟨h1, Or.inl ⟨h2, ?_⟩⟩
      rintro rfl
      exact hqa (h.into h2).1.symm
    · rintro ⟨h1, h2 | h2⟩
      · exact ⟨h1, h2.1⟩
      · exact absurd h2.1.symm hqa

theorem splice_equiv {N : NFA σ} {x a k es} (h : SpliceHyp N x a k es) (hx0 : x ≠ 0)
    (hxl : x ≠ N.length - 1) (d d' : Cfg α) :
    (splice N x a k es).Acc d d' ↔ N.Acc d d' := by
  have hlen : (splice N x a k es).length = N.length := splice_length
  have hne : N ≠ [] := by rintro rfl; have := h.hx; simp at this
  have hax : N.HasEdge a (.eps .none) x := by
    obtain ⟨sa, h1, h2⟩ := h.hk
    exact hasEdge_iff.mpr ⟨sa, h1, List.mem_iff_getElem?.mpr ⟨k, h2⟩⟩
  constructor
  · refine acc_of_map id hne rfl ?_ (by simp [hlen])
    intro q l q1 d d1 he hl
    obtain ⟨_, h1 | h1⟩ := (hasEdge_splice h).mp he
    · exact reachE_step h1.1 hl
    · obtain ⟨rfl, h1⟩ := h1
      exact reachE_trans (reachE_eps hax) (reachE_step h1 hl)
  · refine acc_of_map (fun q => if q = x then a else q) (ne_nil_of_length hlen hne)
      (by simp [Ne.symm hx0]) ?_ (by rw [hlen, if_neg (Ne.symm hxl)])
    intro q l q1 d d1 he hl
    by_cases hq1 : q1 = x
    · subst hq1
      obtain ⟨rfl, rfl⟩ := h.into he
      simp only [labStep, epsStep, Option.some.injEq] at hl
      subst hl
      rw [if_neg h.hax]; simp only [if_true]
      exact reachE_refl
    · rw [if_neg hq1]
      by_cases hq : q = x
      · subst hq
        simp only [if_true]
        exact reachE_step ((hasEdge_splice h).mpr ⟨h.hax, Or.inr ⟨rfl, he⟩⟩) hl
      · rw [if_neg hq]
        exact reachE_step ((hasEdge_splice h).mpr ⟨hq, Or.inl ⟨he, hq1⟩⟩) hl

theorem splice_epsTotal {N : NFA σ} {x a k es} (h : SpliceHyp N x a k es) :
    (splice N x a k es).epsTotal + 1 = N.epsTotal := by
  obtain ⟨sa, hsa, hk⟩ := h.hk
  have hca : (N.clear x)[a]? = some sa := by
    simp [NFA.clear, List.getElem?_modify, h.hax.symm, hsa]
  have h1 := clear_epsTotal h.hx
  have h2 := modify_epsTotal (f := fun s : State σ =>
    (⟨s.transitions, s.epsilons.take k ++ es ++ s.epsilons.drop (k + 1)⟩ : State σ)) hca
  have hlt := (List.getElem?_eq_some_iff.mp hk).1
  simp only [List.length_append, List.length_take, List.length_drop] at h2
  unfold splice
  simp only at h1
  omega

/-- What the `match` in `optimize_pass` does. -/
theorem skipRedundant_spec {N : NFA σ} {x : Nat} (hx : x < N.length)
    (hloop : ¬ N.HasEdge x (.eps .none) x) :
    (N.skipRedundant x = .ok none) ∨
    (∃ c, N[x]? = some ⟨[], [⟨c, .none⟩]⟩ ∧ x ≠ c ∧
      N.skipRedundant x = .ok (some ((N.redirect x c).clear x))) ∨
    (∃ a k es, SpliceHyp N x a k es ∧ N.skipRedundant x = .ok (some (splice N x a k es))) := by
  have hs : N[x]? = some N[x] := List.getElem?_eq_getElem hx
  generalize N[x] = s at hs
  obtain ⟨ts, es⟩ := s
  unfold NFA.skipRedundant
  simp only [hs]
  split
  · rename_i c
    refine Or.inr (Or.inl ⟨c, rfl, ?_, rfl⟩)
    rintro rfl
    exact hloop (hasEdge_iff.mpr ⟨_, hs, by simp [State.Has]⟩)
  · split
    · rename_i a k hin hinE
      have hmem : (a, k) ∈ N.incomingEps x := by rw [hinE]; simp
      obtain ⟨sa, e, h1, h2, h3⟩ := mem_incomingEps.mp hmem
      simp only [h1, Option.bind_some, h2]
      obtain ⟨ed, esp⟩ := e
      simp only at h3
      subst h3
      cases esp with
      | none =>
        have hax : a ≠ ed := by
          rintro rfl
          exact hloop (hasEdge_iff.mpr ⟨sa, h1, List.mem_iff_getElem?.mpr ⟨k, h2⟩⟩)
        have hca : (N.clear ed)[a]? = some sa := by
          simp [NFA.clear, List.getElem?_modify, hax.symm, h1]
        have hlt := (List.getElem?_eq_some_iff.mp h2).1
        simp only [hca, Nat.succ_le_iff, hlt, if_true]
        exact Or.inr (Or.inr ⟨a, k, es, ⟨hs, hin, hinE, hax, sa, h1, h2⟩, rfl⟩)
      | _ => exact Or.inl rfl
    · exact Or.inl rfl
  · exact Or.inl rfl

end Ere
