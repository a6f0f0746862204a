import Verif.Proofs.Trace

/-! Removal of dead states, the whole pass, and termination of the optimisation loop. -/

namespace Ere
variable {σ α : Type} [Sym σ α]

/-! ### Removing states -/

/-- Number of live states before `i`. -/
def cnt (ds : List Bool) (i : Nat) : Nat := (ds.take i).count false

theorem cnt_zero (ds) : cnt ds 0 = 0 := by simp [cnt]

theorem cnt_cons_succ (b ds i) : cnt (b :: ds) (i + 1) = cnt ds i + if b then 0 else 1 := by
  cases b <;> simp [cnt, List.count_cons]

theorem cnt_succ {ds : List Bool} {i} (h : ds[i]? = some false) : cnt ds (i + 1) = cnt ds i + 1 := by
  unfold cnt
  rw [List.take_succ, h]
  simp

theorem cnt_mono {ds : List Bool} {i j} (h : i ≤ j) : cnt ds i ≤ cnt ds j := by
  unfold cnt
  have : (ds.take i).Sublist (ds.take j) := by
    rw [show ds.take i = (ds.take j).take i by rw [List.take_take, Nat.min_eq_left h]]
    exact List.take_sublist _ _
  exact this.count_le _

theorem cnt_inj {ds : List Bool} {i j} (hi : ds[i]? = some false) (hj : ds[j]? = some false)
    (h : cnt ds i = cnt ds j) : i = j := by
  rcases Nat.lt_trichotomy i j with hlt | he | hlt
  · have h1 := cnt_mono (ds := ds) (i := i + 1) (j := j) (by omega)
    have := cnt_succ hi; omega
  · exact he
  · have h1 := cnt_mono (ds := ds) (i := j + 1) (j := i) (by omega)
    have := cnt_succ hj; omega

theorem cnt_le (ds : List Bool) (i) : cnt ds i ≤ ds.count false :=
  (List.take_sublist _ _).count_le _

theorem cnt_lt {ds : List Bool} {i} (h : ds[i]? = some false) : cnt ds i < ds.count false := by
  have := cnt_succ h
  have := cnt_le ds (i + 1)
  omega

theorem stateMap_get (k : Nat) (ds : List Bool) {i} (h : ds[i]? = some false) :
    (stateMap k ds)[i]? = some (some (k + cnt ds i)) := by
  induction ds generalizing k i with
  | nil => simp at h
  | cons b ds ih =>
    cases i with
    | zero => simp at h; subst h; simp [stateMap, cnt]
    | succ i =>
      simp only [List.getElem?_cons_succ] at h
      cases b with
      | true => simp only [stateMap, List.getElem?_cons_succ, ih k h, cnt_cons_succ]; simp
      | false =>
        simp only [stateMap, List.getElem?_cons_succ, ih (k + 1) h, cnt_cons_succ]
        congr 2; simp; omega

theorem mapTarget_live {ds : List Bool} {i} (h : ds[i]? = some false) :
    mapTarget (stateMap 0 ds) i = cnt ds i := by
  unfold mapTarget
  rw [stateMap_get 0 ds h]; simp

omit [Sym σ α] in
theorem kept_get (k : Nat) (ds : List Bool) (N : NFA σ) (j : Nat) (s : State σ) :
    (((N.zip (stateMap k ds)).filter (fun p => p.2.isSome)).map (·.1))[j]? = some s ↔
      ∃ i, ds[i]? = some false ∧ N[i]? = some s ∧ j = cnt ds i := by
  induction ds generalizing k N j with
  | nil => simp [stateMap]
  | cons b ds ih =>
    cases N with
    | nil => simp
    | cons t N =>
      cases b with
      | true =>
        simp only [stateMap, List.zip_cons_cons, List.filter_cons]
        simp only [Option.isSome_none, Bool.false_eq_true, if_false, ih k N j]
        constructor
        · rintro ⟨i, h1, h2, h3⟩
          exact ⟨i + 1, by simpa using h1, by simpa using h2, by rw [cnt_cons_succ]; simpa using h3⟩
        · rintro ⟨i, h1, h2, h3⟩
          cases i with
          | zero => simp at h1
          | succ i =>
            exact ⟨i, by simpa using h1, by simpa using h2, by rw [cnt_cons_succ] at h3; simpa using h3⟩
      | false =>
        simp only [stateMap, List.zip_cons_cons, List.filter_cons]
        simp only [Option.isSome_some, if_true, List.map_cons]
        cases j with
        | zero =>
          simp only [List.getElem?_cons_zero, Option.some.injEq]
          constructor
          · rintro rfl; exact ⟨0, by simp, by simp, by simp [cnt]⟩
          · rintro ⟨i, h1, h2, h3⟩
            cases i with
            | zero => simpa using h2
            | succ i => rw [cnt_cons_succ] at h3; simp at h3
        | succ j =>
          simp only [List.getElem?_cons_succ, ih (k + 1) N j]
          constructor
          · rintro ⟨i, h1, h2, h3⟩
            exact ⟨i + 1, by simpa using h1, by simpa using h2, by rw [cnt_cons_succ]; simpa using h3⟩
          · rintro ⟨i, h1, h2, h3⟩
            cases i with
            | zero => simp [cnt] at h3
            | succ i =>
              exact ⟨i, by simpa using h1, by simpa using h2, by
                rw [cnt_cons_succ] at h3; simpa using h3⟩

omit [Sym σ α] in
theorem kept_length (k : Nat) (ds : List Bool) (N : NFA σ) (h : ds.length = N.length) :
    (((N.zip (stateMap k ds)).filter (fun p => p.2.isSome)).map (·.1)).length = ds.count false := by
  induction ds generalizing k N with
  | nil => simp [stateMap]
  | cons b ds ih =>
    cases N with
    | nil => simp at h
    | cons t N =>
      have h' : ds.length = N.length := by simpa using h
      cases b with
      | true =>
        simp only [stateMap, List.zip_cons_cons, List.filter_cons]
        simp only [Option.isSome_none, Bool.false_eq_true, if_false, ih k N h', List.count_cons]
        simp
      | false =>
        simp only [stateMap, List.zip_cons_cons, List.filter_cons]
        simp only [Option.isSome_some, if_true, List.map_cons, List.length_cons, ih (k + 1) N h',
          List.count_cons]
        simp

omit [Sym σ α] in
theorem removeDead_length {N : NFA σ} {ds : List Bool} (h : ds.length = N.length) :
    (N.removeDead ds).length = ds.count false := by
  unfold NFA.removeDead
  rw [List.length_map, kept_length 0 ds N h]

/-- Edges lead to live states only. -/
structure Live (N : NFA σ) (ds : List Bool) : Prop where
  len : ds.length = N.length
  into : ∀ q l q', N.HasEdge q l q' → ds[q']? = some false

omit [Sym σ α] in
theorem Live.wf {N : NFA σ} {ds} (h : Live N ds) : N.WF := by
  intro q l q' he
  rw [← h.len]
  exact (List.getElem?_eq_some_iff.mp (h.into q l q' he)).1

omit [Sym σ α] in
theorem hasEdge_removeDead {N : NFA σ} {ds : List Bool} (h : Live N ds) {j l j'} :
    (N.removeDead ds).HasEdge j l j' ↔
      ∃ i i', ds[i]? = some false ∧ j = cnt ds i ∧ N.HasEdge i l i' ∧ j' = cnt ds i' := by
  unfold NFA.removeDead
  rw [hasEdge_iff]
  simp only [List.getElem?_map, Option.map_eq_some_iff]
  constructor
  · rintro ⟨st, ⟨s, h1, rfl⟩, h2⟩
    have h1' := (kept_get 0 ds N j s).mp (by simpa [List.getElem?_map] using h1)
    obtain ⟨i, h3, h4, rfl⟩ := h1'
    cases l with
    | sym a =>
      obtain ⟨t, ht, he⟩ := List.mem_map.mp h2
      simp only [Trans.mk.injEq] at he
      obtain ⟨rfl, rfl⟩ := he
      have hE : N.HasEdge i (.sym t.symbol) t.dst := hasEdge_iff.mpr ⟨s, h4, ht⟩
      exact ⟨i, t.dst, h3, rfl, hE, mapTarget_live (h.into _ _ _ hE)⟩
    | eps e =>
      obtain ⟨t, ht, he⟩ := List.mem_map.mp h2
      simp only [Eps.mk.injEq] at he
      obtain ⟨rfl, rfl⟩ := he
      have hE : N.HasEdge i (.eps t.special) t.dst := hasEdge_iff.mpr ⟨s, h4, ht⟩
      exact ⟨i, t.dst, h3, rfl, hE, mapTarget_live (h.into _ _ _ hE)⟩
  · rintro ⟨i, i', h1, rfl, hE, rfl⟩
    obtain ⟨s, h2, h3⟩ := hasEdge_iff.mp hE
    have hk := (kept_get 0 ds N (cnt ds i) s).mpr ⟨i, h1, h2, rfl⟩
    refine ⟨_, ⟨s, by simpa [List.getElem?_map] using hk, rfl⟩, ?_⟩
    rw [← mapTarget_live (h.into _ _ _ hE)]
    cases l with
    | sym a => exact List.mem_map.mpr ⟨_, h3, rfl⟩
    | eps e => exact List.mem_map.mpr ⟨_, h3, rfl⟩

omit [Sym σ α] in
theorem removeDead_wf {N : NFA σ} {ds : List Bool} (h : Live N ds) : (N.removeDead ds).WF := by
  intro q l q' he
  obtain ⟨i, i', h1, _, hE, rfl⟩ := (hasEdge_removeDead h).mp he
  rw [removeDead_length h.len]
  exact cnt_lt (h.into _ _ _ hE)

theorem cnt_last {ds : List Bool} {n} (hlen : ds.length = n + 1) (hl : ds[n]? = some false) :
    cnt ds n = ds.count false - 1 := by
  have h1 := cnt_succ hl
  have : cnt ds (n + 1) = ds.count false := by
    unfold cnt; rw [List.take_of_length_le (by omega)]
  omega

theorem removeDead_equiv {N : NFA σ} {ds : List Bool} (h : Live N ds) (h0 : ds[0]? = some false)
    (hl : ds[N.length - 1]? = some false) (d d' : Cfg α) :
    (N.removeDead ds).Acc d d' ↔ N.Acc d d' := by
  have hpos : 0 < N.length := by
    rw [← h.len]; exact (List.getElem?_eq_some_iff.mp h0).1
  have hne : N ≠ [] := by rintro rfl; simp at hpos
  have hlen := removeDead_length h.len
  have hc0 := cnt_lt h0
  have hne' : N.removeDead ds ≠ [] := by
    intro hh; rw [hh] at hlen; simp only [List.length_nil] at hlen; omega
  have hlast : cnt ds (N.length - 1) = (N.removeDead ds).length - 1 := by
    rw [hlen]; exact cnt_last (by rw [h.len]; omega) hl
  constructor
  · refine acc_of_sim (fun p q => ds[q]? = some false ∧ p = cnt ds q) hne ⟨h0, (cnt_zero _).symm⟩ ?_ ?_
    · rintro p l p1 q d d1 he ⟨hq, rfl⟩ hs
      obtain ⟨i, i', h1, h2, h3, rfl⟩ := (hasEdge_removeDead h).mp he
      have := cnt_inj hq h1 h2
      subst this
      exact ⟨i', ⟨h.into _ _ _ h3, rfl⟩, reachE_step h3 hs⟩
    · rintro q ⟨hq, h2⟩
      rw [← hlast] at h2
      exact (cnt_inj hl hq h2).symm
  · refine acc_of_sim (fun q p => ds[q]? = some false ∧ p = cnt ds q) hne' ⟨h0, (cnt_zero _).symm⟩ ?_ ?_
    · rintro q l q1 p d d1 he ⟨hq, rfl⟩ hs
      exact ⟨_, ⟨h.into _ _ _ he, rfl⟩,
        reachE_step ((hasEdge_removeDead h).mpr ⟨q, q1, hq, rfl, he, rfl⟩) hs⟩
    · rintro p ⟨_, rfl⟩; exact hlast

omit [Sym σ α] in
theorem sims_removeDead {N : NFA σ} {ds : List Bool} (h : Live N ds) (h0 : ds[0]? = some false) :
    Sims (N.removeDead ds) N := by
  refine sims_of_map (fun j i => ds[i]? = some false ∧ j = cnt ds i) ⟨h0, (cnt_zero ds).symm⟩ ?_
  rintro p' p l q' ⟨h1, rfl⟩ he
  obtain ⟨i, i', h2, h3, h4, rfl⟩ := (hasEdge_removeDead h).mp he
  have := cnt_inj h1 h2 h3
  subst this
  exact ⟨i', h4, h.into _ _ _ h4, rfl⟩

omit [Sym σ α] in
theorem kept_epsTotal (k : Nat) (ds : List Bool) (N : NFA σ) :
    NFA.epsTotal (((N.zip (stateMap k ds)).filter (fun p => p.2.isSome)).map (·.1)) ≤ N.epsTotal := by
  induction ds generalizing k N with
  | nil => simp [stateMap, NFA.epsTotal]
  | cons b ds ih =>
    cases N with
    | nil => simp [NFA.epsTotal]
    | cons t N =>
      cases b with
      | true =>
        have := ih k N
        simp only [stateMap, List.zip_cons_cons, List.filter_cons, Option.isSome_none,
          Bool.false_eq_true, if_false]
        simp only [NFA.epsTotal, List.map_cons, List.sum_cons] at this ⊢
        omega
      | false =>
        have := ih (k + 1) N
        simp only [stateMap, List.zip_cons_cons, List.filter_cons, Option.isSome_some, if_true]
        simp only [NFA.epsTotal, List.map_cons, List.sum_cons] at this ⊢
        omega

omit [Sym σ α] in
theorem removeDead_epsTotal {N : NFA σ} {ds : List Bool} : (N.removeDead ds).epsTotal ≤ N.epsTotal := by
  have := kept_epsTotal 0 ds N
  unfold NFA.removeDead
  unfold NFA.epsTotal at *
  rw [List.map_map]
  refine le_trans (le_of_eq ?_) this
  congr 1
  apply List.map_congr_left
  intro s _; simp

/-! ### The pass -/

/-- No cycle of plain epsilons, witnessed by a rank. -/
def NFA.Ranked (N : NFA σ) : Prop :=
  ∃ r : Nat → Nat, ∀ q q', N.HasEdge q (.eps .none) q' → r q < r q'

/-- No state has both symbol transitions and epsilons. -/
def NFA.NoMix (N : NFA σ) : Prop := ∀ s ∈ N, s.transitions = [] ∨ s.epsilons = []

/-- The accept state has no outgoing edges. -/
def NFA.Sink (N : NFA σ) : Prop := ∀ l q', ¬ N.HasEdge (N.length - 1) l q'

/-- What one loop iteration of the pass keeps, relative to the automaton `N0` at its start. -/
structure PassInv (α : Type) [Sym σ α] (N0 : NFA σ) (x : Nat) (p : PassSt σ) : Prop where
  len : p.nfa.length = N0.length
  live : Live p.nfa p.dead
  out : ∀ q, p.dead[q]? = some true → ∀ l q', ¬ p.nfa.HasEdge q l q'
  zero : p.dead[0]? = some false
  fresh : ∀ i, x ≤ i → i < N0.length → p.dead[i]? = some false
  rank : p.nfa.Ranked
  acc : ∀ d d' : Cfg α, p.nfa.Acc d d' ↔ N0.Acc d d'
  meas : p.dead.count false + p.nfa.epsTotal ≤ N0.size
  meas_lt : p.changed = true → p.dead.count false + p.nfa.epsTotal < N0.size
  mix : N0.NoMix → p.nfa.NoMix
  sink : N0.Sink → p.nfa.Sink
  unchanged : p.changed = false → p.dead = List.replicate N0.length false
  sims : Sims p.nfa N0

theorem count_false_set {ds : List Bool} {x} (h : ds[x]? = some false) :
    (ds.set x true).count false + 1 = ds.count false := count_set_false h

theorem get_set_true {ds : List Bool} {x i} : (ds.set x true)[i]? = some false ↔
    ds[i]? = some false ∧ i ≠ x := by
  by_cases h : x = i
  · subst h; rw [List.getElem?_set]; simp
  · rw [List.getElem?_set_ne h]; simp [Ne.symm h]

theorem get_set_true' {ds : List Bool} {x i} (hx : x < ds.length) : (ds.set x true)[i]? = some true ↔
    ds[i]? = some true ∨ i = x := by
  by_cases h : x = i
  · subst h; simp [hx]
  · rw [List.getElem?_set_ne h]; simp [Ne.symm h]

omit [Sym σ α] in
theorem noMix_iff {N : NFA σ} : N.NoMix ↔ ∀ q a e q' q'', ¬ (N.HasEdge q (.sym a) q' ∧ N.HasEdge q (.eps e) q'') := by
  constructor
  · rintro h q a e q' q'' ⟨h1, h2⟩
    obtain ⟨s, hs, h1⟩ := hasEdge_iff.mp h1
    obtain ⟨s', hs', h2⟩ := hasEdge_iff.mp h2
    rw [hs] at hs'; injection hs' with hs'; subst hs'
    rcases h s (List.mem_of_getElem? hs) with h | h
    · simp [State.Has, h] at h1
    · simp [State.Has, h] at h2
  · intro h s hs
    obtain ⟨q, hq⟩ := List.mem_iff_getElem?.mp hs
    by_contra hc
    rw [not_or] at hc
    obtain ⟨t, ht⟩ := List.exists_mem_of_ne_nil _ hc.1
    obtain ⟨e, he⟩ := List.exists_mem_of_ne_nil _ hc.2
    exact h q t.symbol e.special t.dst e.dst ⟨hasEdge_iff.mpr ⟨s, hq, ht⟩, hasEdge_iff.mpr ⟨s, hq, he⟩⟩

theorem passInv_merge {N0 : NFA σ} {x : Nat} {p : PassSt σ} (h : PassInv α N0 x p) (hx1 : 1 ≤ x)
    (hx2 : x + 1 < N0.length) {o} (ho : p.nfa.findSame x = some o) :
    PassInv α N0 (x + 1) ⟨(p.nfa.clear x).redirect x o, p.dead.set x true, true⟩ := by
  obtain ⟨hol, hxo, a, b, ha, hb, hab⟩ := findSame_spec ho
  have hlen := h.len
  have hfx := h.fresh x (Nat.le_refl _) (by omega)
  have hxdl : x < p.dead.length := by rw [h.live.len]; omega
  have holive : p.dead[o]? = some false := by
    have hod : o < p.dead.length := by rw [h.live.len]; omega
    rw [List.getElem?_eq_getElem hod]
    cases hdo : p.dead[o] with
    | false => rfl
    | true =>
      exfalso
      have hno := h.out o (by rw [List.getElem?_eq_getElem hod, hdo])
      have h3 := hab
      simp only [sameOut, Bool.and_eq_true, beq_iff_eq, Bool.or_eq_true, Bool.not_eq_true',
        List.isEmpty_eq_false_iff] at h3
      obtain ⟨⟨h4, h5⟩, h6 | h6⟩ := h3
      · obtain ⟨e, he⟩ := List.exists_mem_of_ne_nil _ h6
        exact hno (.eps e.special) e.dst (hasEdge_iff.mpr ⟨b, hb, by rw [h4] at he; exact he⟩)
      · obtain ⟨t, ht⟩ := List.exists_mem_of_ne_nil _ h6
        obtain ⟨s', h7, _⟩ := transEq_mem h5 (q := t.dst) (s := t.symbol) ht
        exact hno (.sym s') t.dst (hasEdge_iff.mpr ⟨b, hb, h7⟩)
  have hsame : ∀ e q', p.nfa.HasEdge x (.eps e) q' ↔ p.nfa.HasEdge o (.eps e) q' := by
    intro e q'
    have h3 := hab
    simp only [sameOut, Bool.and_eq_true, beq_iff_eq] at h3
    rw [hasEdge_iff, hasEdge_iff, ha, hb]
    simp [State.Has, h3.1.1]
  have hedge : ∀ {q l q'}, ((p.nfa.clear x).redirect x o).HasEdge q l q' →
      q ≠ x ∧ ∃ q1, p.nfa.HasEdge q l q1 ∧ q' = if q1 = x then o else q1 := by
    intro q l q' he
    obtain ⟨q1, h1, h2⟩ := hasEdge_redirect.mp he
    obtain ⟨h3, h4⟩ := hasEdge_clear.mp h1
    exact ⟨h3, q1, h4, h2⟩
  have hlen' : ((p.nfa.clear x).redirect x o).length = N0.length := by
    rw [redirect_length, clear_length, hlen]
  have hcount := count_false_set hfx
  have heps := clear_epsTotal ha
  refine { len := hlen', live := ⟨?_, ?_⟩, out := ?_, zero := ?_, fresh := ?_, rank := ?_, acc := ?_,
           meas := ?_, meas_lt := ?_, mix := ?_, sink := ?_, unchanged := ?_, sims := ?_ }
  · simp only [List.length_set]; rw [h.live.len, hlen, hlen']
  · intro q l q' he
    obtain ⟨_, q1, h1, rfl⟩ := hedge he
    rw [get_set_true]
    split
    · exact ⟨holive, Ne.symm hxo⟩
    · rename_i hne; exact ⟨h.live.into _ _ _ h1, hne⟩
  · intro q hq l q' he
    obtain ⟨h1, q1, h2, _⟩ := hedge he
    rcases (get_set_true' hxdl).mp hq with h3 | h3
    · exact h.out q h3 _ _ h2
    · exact h1 h3
  · exact get_set_true.mpr ⟨h.zero, by omega⟩
  · intro i hi hi2
    exact get_set_true.mpr ⟨h.fresh i (by omega) hi2, by omega⟩
  · obtain ⟨r, hr⟩ := h.rank
    refine ⟨fun q => if q = o then max (r o) (r x) else r q, ?_⟩
    intro q q' he
    obtain ⟨hqx, q1, h1, rfl⟩ := hedge he
    have h2 := hr _ _ h1
    beta_reduce
    by_cases hqo : q = o
    · subst hqo
      have h3 := hr _ _ ((hsame .none q1).mpr h1)
      have hq1x : q1 ≠ x := by rintro rfl; omega
      have hq1o : q1 ≠ q := by rintro rfl; omega
      rw [if_neg hq1x, if_pos rfl, if_neg hq1o]
      omega
    · rw [if_neg hqo]
      by_cases hq1 : q1 = x
      · subst hq1; rw [if_pos rfl, if_pos rfl]; omega
      · rw [if_neg hq1]
        split
        · rename_i h3; subst h3; omega
        · exact h2
  · intro d d'
    rw [merge_equiv (by omega) (by omega) (by omega) hxo ha hb hab, h.acc]
  · have := h.meas
    simp only [redirect_epsTotal]; omega
  · intro _
    have := h.meas
    simp only [redirect_epsTotal]; omega
  · intro hm
    rw [noMix_iff]
    rintro q a e q' q'' ⟨h1, h2⟩
    obtain ⟨_, _, h1, _⟩ := hedge h1
    obtain ⟨_, _, h2, _⟩ := hedge h2
    exact noMix_iff.mp (h.mix hm) _ _ _ _ _ ⟨h1, h2⟩
  · intro hs l q' he
    simp only [hlen'] at he
    obtain ⟨_, _, h1, _⟩ := hedge he
    exact h.sink hs l _ (by rw [hlen]; exact h1)
  · intro hf; simp at hf
  · exact (sims_merge (α := α) (by omega) ha hb hab).trans h.sims

theorem passInv_dedupe {N0 : NFA σ} {x : Nat} {p : PassSt σ} (h : PassInv α N0 x p) :
    PassInv α N0 x ⟨p.nfa.dedupe.1, p.dead, p.changed || p.nfa.dedupe.2⟩ := by
  have hd := dedupe_epsTotal p.nfa
  have hm := h.meas
  refine { len := dedupe_length.trans h.len, live := ⟨?_, ?_⟩, out := ?_, zero := h.zero,
           fresh := h.fresh, rank := ?_, acc := ?_, meas := ?_, meas_lt := ?_, mix := ?_, sink := ?_,
           unchanged := ?_, sims := ?_ }
  · simp only [dedupe_length]; exact h.live.len
  · intro q l q' he; exact h.live.into q l q' (hasEdge_dedupe.mp he)
  · intro q hq l q' he; exact h.out q hq l q' (hasEdge_dedupe.mp he)
  · obtain ⟨r, hr⟩ := h.rank
    exact ⟨r, fun q q' he => hr q q' (hasEdge_dedupe.mp he)⟩
  · intro d d'
    rw [← h.acc]
    exact ⟨acc_of_sub dedupe_length.symm (fun _ _ _ => hasEdge_dedupe.mp),
      acc_of_sub dedupe_length (fun _ _ _ => hasEdge_dedupe.mpr)⟩
  · simp only; omega
  · intro hc
    simp only [Bool.or_eq_true] at hc ⊢
    rcases hc with hc | hc
    · have := h.meas_lt hc; omega
    · have := hd.2 hc; omega
  · intro hm
    rw [noMix_iff]
    rintro q a e q' q'' ⟨h1, h2⟩
    exact noMix_iff.mp (h.mix hm) _ _ _ _ _ ⟨hasEdge_dedupe.mp h1, hasEdge_dedupe.mp h2⟩
  · intro hs l q' he
    simp only [dedupe_length] at he
    exact h.sink hs l q' (hasEdge_dedupe.mp he)
  · intro hc
    simp only [Bool.or_eq_false_iff] at hc
    exact h.unchanged hc.1
  · exact (sims_of_sub (fun _ _ _ => hasEdge_dedupe.mp)).trans h.sims

theorem passInv_skip1 {N0 : NFA σ} {x : Nat} {p : PassSt σ} (h : PassInv α N0 x p) (hx1 : 1 ≤ x)
    (hx2 : x + 1 < N0.length) {c} (hxc : x ≠ c) (hc : p.nfa[x]? = some ⟨[], [⟨c, .none⟩]⟩) :
    PassInv α N0 (x + 1) ⟨(p.nfa.redirect x c).clear x, p.dead.set x true, true⟩ := by
  have hlen := h.len
  have hfx := h.fresh x (Nat.le_refl _) (by omega)
  have hxdl : x < p.dead.length := by rw [h.live.len]; omega
  have hxe : p.nfa.HasEdge x (.eps .none) c := hasEdge_iff.mpr ⟨_, hc, by simp [State.Has]⟩
  have hclive := h.live.into _ _ _ hxe
  have hedge : ∀ {q l q'}, ((p.nfa.redirect x c).clear x).HasEdge q l q' →
      q ≠ x ∧ ∃ q1, p.nfa.HasEdge q l q1 ∧ q' = if q1 = x then c else q1 := by
    intro q l q' he
    obtain ⟨h1, h2⟩ := hasEdge_clear.mp he
    obtain ⟨q1, h3, h4⟩ := hasEdge_redirect.mp h2
    exact ⟨h1, q1, h3, h4⟩
  have hlen' : ((p.nfa.redirect x c).clear x).length = N0.length := by
    rw [clear_length, redirect_length, hlen]
  have hcount := count_false_set hfx
  have hR : (p.nfa.redirect x c)[x]? = some ⟨[], [⟨c, .none⟩]⟩ := by
    simp [NFA.redirect, hc, Ne.symm hxc]
  have heps := clear_epsTotal hR
  rw [redirect_epsTotal] at heps
  simp only [List.length_cons, List.length_nil] at heps
  refine { len := hlen', live := ⟨?_, ?_⟩, out := ?_, zero := ?_, fresh := ?_, rank := ?_, acc := ?_,
           meas := ?_, meas_lt := ?_, mix := ?_, sink := ?_, unchanged := ?_, sims := ?_ }
  · simp only [List.length_set]; rw [h.live.len, hlen, hlen']
  · intro q l q' he
    obtain ⟨_, q1, h1, rfl⟩ := hedge he
    rw [get_set_true]
    split
    · exact ⟨hclive, Ne.symm hxc⟩
    · rename_i hne; exact ⟨h.live.into _ _ _ h1, hne⟩
  · intro q hq l q' he
    obtain ⟨h1, q1, h2, _⟩ := hedge he
    rcases (get_set_true' hxdl).mp hq with h3 | h3
    · exact h.out q h3 _ _ h2
    · exact h1 h3
  · exact get_set_true.mpr ⟨h.zero, by omega⟩
  · intro i hi hi2
    exact get_set_true.mpr ⟨h.fresh i (by omega) hi2, by omega⟩
  · obtain ⟨r, hr⟩ := h.rank
    refine ⟨r, ?_⟩
    intro q q' he
    obtain ⟨_, q1, h1, rfl⟩ := hedge he
    have h2 := hr _ _ h1
    split
    · rename_i h3; subst h3; have := hr _ _ hxe; omega
    · exact h2
  · intro d d'
    rw [skip1_equiv (by omega) (by omega) hxc hc, h.acc]
  · have := h.meas
    simp only; omega
  · intro _
    have := h.meas
    simp only; omega
  · intro hm
    rw [noMix_iff]
    rintro q a e q' q'' ⟨h1, h2⟩
    obtain ⟨_, _, h1, _⟩ := hedge h1
    obtain ⟨_, _, h2, _⟩ := hedge h2
    exact noMix_iff.mp (h.mix hm) _ _ _ _ _ ⟨h1, h2⟩
  · intro hs l q' he
    simp only [hlen'] at he
    obtain ⟨_, _, h1, _⟩ := hedge he
    exact h.sink hs l _ (by rw [hlen]; exact h1)
  · intro hf; simp at hf
  · exact (sims_skip1 hxe).trans h.sims

theorem passInv_splice {N0 : NFA σ} {x : Nat} {p : PassSt σ} (h : PassInv α N0 x p) (hx1 : 1 ≤ x)
    (hx2 : x + 1 < N0.length) {a k es} (hs : SpliceHyp p.nfa x a k es) :
    PassInv α N0 (x + 1) ⟨splice p.nfa x a k es, p.dead.set x true, true⟩ := by
  have hlen := h.len
  have hfx := h.fresh x (Nat.le_refl _) (by omega)
  have hxdl : x < p.dead.length := by rw [h.live.len]; omega
  have hax : p.nfa.HasEdge a (.eps .none) x := by
    obtain ⟨sa, h1, h2⟩ := hs.hk
    exact hasEdge_iff.mpr ⟨sa, h1, List.mem_iff_getElem?.mpr ⟨k, h2⟩⟩
  have hxsym : ∀ b q', ¬ p.nfa.HasEdge x (.sym b) q' := by
    intro b q' he
    obtain ⟨s, h1, h2⟩ := hasEdge_iff.mp he
    rw [hs.hx] at h1; injection h1 with h1; subst h1
    simp [State.Has] at h2
  have hxx : ∀ l, ¬ p.nfa.HasEdge x l x := fun l he => hs.hax (hs.into he).1.symm
  have hlen' : (splice p.nfa x a k es).length = N0.length := splice_length.trans hlen
  have hcount := count_false_set hfx
  have heps := splice_epsTotal hs
  refine { len := hlen', live := ⟨?_, ?_⟩, out := ?_, zero := ?_, fresh := ?_, rank := ?_, acc := ?_,
           meas := ?_, meas_lt := ?_, mix := ?_, sink := ?_, unchanged := ?_, sims := ?_ }
  · simp only [List.length_set]; rw [h.live.len, hlen, hlen']
  · intro q l q' he
    rw [get_set_true]
    obtain ⟨_, h1 | h1⟩ := (hasEdge_splice hs).mp he
    · exact ⟨h.live.into _ _ _ h1.1, h1.2⟩
    · refine ⟨h.live.into _ _ _ h1.2, ?_⟩
      rintro rfl
      exact hxx _ h1.2
  · intro q hq l q' he
    obtain ⟨hqx, h1⟩ := (hasEdge_splice hs).mp he
    rcases (get_set_true' hxdl).mp hq with h3 | h3
    · rcases h1 with h1 | h1
      · exact h.out q h3 _ _ h1.1
      · obtain ⟨rfl, _⟩ := h1
        exact h.out q h3 _ _ hax
    · exact hqx h3
  · exact get_set_true.mpr ⟨h.zero, by omega⟩
  · intro i hi hi2
    exact get_set_true.mpr ⟨h.fresh i (by omega) hi2, by omega⟩
  · obtain ⟨r, hr⟩ := h.rank
    refine ⟨r, ?_⟩
    intro q q' he
    obtain ⟨_, h1 | h1⟩ := (hasEdge_splice hs).mp he
    · exact hr _ _ h1.1
    · obtain ⟨rfl, h1⟩ := h1
      have := hr _ _ hax; have := hr _ _ h1; omega
  · intro d d'
    rw [splice_equiv hs (by omega) (by omega), h.acc]
  · have := h.meas
    simp only; omega
  · intro _
    have := h.meas
    simp only; omega
  · intro hm
    have hm' := noMix_iff.mp (h.mix hm)
    rw [noMix_iff]
    rintro q b e q' q'' ⟨g1, g2⟩
    obtain ⟨_, h1 | h1⟩ := (hasEdge_splice hs).mp g1
    · obtain ⟨_, h2 | h2⟩ := (hasEdge_splice hs).mp g2
      · exact hm' _ _ _ _ _ ⟨h1.1, h2.1⟩
      · have h3 := h1.1
        rw [h2.1] at h3
        exact hm' _ _ _ _ _ ⟨h3, hax⟩
    · exact hxsym _ _ h1.2
  · intro hsk l q' he
    simp only [hlen'] at he
    obtain ⟨_, h1 | h1⟩ := (hasEdge_splice hs).mp he
    · exact h.sink hsk l q' (by rw [hlen]; exact h1.1)
    · obtain ⟨rfl, _⟩ := h1
      exact h.sink hsk _ _ (by rw [hlen]; exact hax)
  · intro hf; simp at hf
  · exact (sims_splice hs).trans h.sims

theorem PassInv.next {N0 : NFA σ} {x : Nat} {p : PassSt σ} (h : PassInv α N0 x p) :
    PassInv α N0 (x + 1) p := { h with fresh := fun i hi => h.fresh i (by omega) }

theorem passStep_inv {N0 : NFA σ} {x : Nat} {p : PassSt σ} (h : PassInv α N0 x p) (hx1 : 1 ≤ x)
    (hx2 : x + 1 < N0.length) : ∃ p', passStep x p = .ok p' ∧ PassInv α N0 (x + 1) p' := by
  unfold passStep
  cases ho : p.nfa.findSame x with
  | some o => exact ⟨_, rfl, passInv_merge h hx1 hx2 ho⟩
  | none =>
    simp only
    have h1 := passInv_dedupe h
    have hnl : ¬ p.nfa.dedupe.1.HasEdge x (.eps .none) x := by
      obtain ⟨r, hr⟩ := h1.rank
      intro he; exact absurd (hr _ _ he) (Nat.lt_irrefl _)
    rcases skipRedundant_spec (by rw [h1.len]; omega) hnl with h2 | ⟨c, h2, h3, h4⟩ | ⟨a, k, es, h2, h3⟩
    · rw [h2]; exact ⟨_, rfl, h1.next⟩
    · rw [h4]; exact ⟨_, rfl, passInv_skip1 h1 hx1 hx2 h3 h2⟩
    · rw [h3]; exact ⟨_, rfl, passInv_splice h1 hx1 hx2 h2⟩

theorem passLoop_inv {N0 : NFA σ} (k : Nat) : ∀ (x : Nat) (p : PassSt σ), PassInv α N0 x p → 1 ≤ x →
    x + k + 1 ≤ N0.length → ∃ p', passLoop k x p = .ok p' ∧ PassInv α N0 (x + k) p' := by
  induction k with
  | zero => intro x p h _ _; exact ⟨p, rfl, h⟩
  | succ k ih =>
    intro x p h hx1 hx2
    obtain ⟨p1, h1, h2⟩ := passStep_inv h hx1 (by omega)
    obtain ⟨p2, h3, h4⟩ := ih (x + 1) p1 h2 (by omega) (by omega)
    refine ⟨p2, ?_, by rw [show x + (k + 1) = x + 1 + k by omega]; exact h4⟩
    unfold passLoop; rw [h1]; exact h3

theorem passInv_init {N : NFA σ} (hne : N ≠ []) (hwf : N.WF) (hr : N.Ranked) :
    PassInv α N 1 ⟨N, List.replicate N.length false, false⟩ := by
  have hpos : 0 < N.length := List.length_pos_iff.mpr hne
  refine { len := rfl, live := ⟨by simp, ?_⟩, out := ?_, zero := by simp [List.getElem?_replicate, hpos],
           fresh := ?_, rank := hr, acc := fun _ _ => Iff.rfl, meas := ?_, meas_lt := by simp,
           mix := id, sink := id, unchanged := fun _ => rfl, sims := sims_refl _ }
  · intro q l q' he
    have := hwf _ _ _ he
    simp [List.getElem?_replicate, this]
  · intro q hq
    simp [List.getElem?_replicate] at hq
  · intro i _ hi
    simp [List.getElem?_replicate, hi]
  · simp only [List.count_replicate_self, NFA.size, NFA.epsTotal]; omega

/-- What is kept of an automaton between passes. -/
structure Kept (α : Type) [Sym σ α] (N N' : NFA σ) : Prop where
  ne : N' ≠ []
  wf : N'.WF
  rank : N'.Ranked
  acc : ∀ d d' : Cfg α, N'.Acc d d' ↔ N.Acc d d'
  mix : N.NoMix → N'.NoMix
  sink : N.Sink → N'.Sink
  sims : Sims N' N

theorem optimizePass_spec {N : NFA σ} (hne : N ≠ []) (hwf : N.WF) (hr : N.Ranked) :
    ∃ N' ch, N.optimizePass = .ok (N', ch) ∧ Kept α N N' ∧ (ch = true → N'.size < N.size) := by
  have hpos : 0 < N.length := List.length_pos_iff.mpr hne
  have hloop : ∃ p', passLoop (N.length - 2) 1 ⟨N, List.replicate N.length false, false⟩ = .ok p' ∧
      PassInv α N (1 + (N.length - 2)) p' := by
    rcases Nat.lt_or_ge N.length 2 with h | h
    · have : N.length - 2 = 0 := by omega
      rw [this]; exact ⟨_, rfl, passInv_init hne hwf hr⟩
    · exact passLoop_inv (N.length - 2) 1 _ (passInv_init hne hwf hr) (by omega) (by omega)
  obtain ⟨p, hp, hinv⟩ := hloop
  unfold NFA.optimizePass
  rw [hp]
  simp only
  have hlastlive : p.dead[p.nfa.length - 1]? = some false := by
    rw [hinv.len]
    rcases Nat.lt_or_ge N.length 2 with h | h
    · have : N.length - 1 = 0 := by omega
      rw [this]; exact hinv.zero
    · exact hinv.fresh _ (by omega) (by omega)
  cases hc : p.changed with
  | true =>
    refine ⟨p.nfa.removeDead p.dead, true, by simp, ?_, ?_⟩
    · have hlen := removeDead_length hinv.live.len
      have hc0 := cnt_lt hinv.zero
      refine { ne := ?_, wf := removeDead_wf hinv.live, rank := ?_, acc := ?_, mix := ?_, sink := ?_,
               sims := (sims_removeDead hinv.live hinv.zero).trans hinv.sims }
      · intro hh; rw [hh] at hlen; simp only [List.length_nil] at hlen; omega
      · obtain ⟨r, hr⟩ := hinv.rank
        -- rank of a new index: rank of the live state mapped to it
        refine ⟨fun j => r ((List.range p.nfa.length).find? (fun i =>
          p.dead[i]? == some false && cnt p.dead i == j) |>.getD 0), ?_⟩
        have hfind : ∀ i, p.dead[i]? = some false → ((List.range p.nfa.length).find? (fun i' =>
            p.dead[i']? == some false && cnt p.dead i' == cnt p.dead i)).getD 0 = i := by
          intro i hi
          have hil : i < p.nfa.length := by
            rw [← hinv.live.len]; exact (List.getElem?_eq_some_iff.mp hi).1
          cases hf : (List.range p.nfa.length).find? (fun i' =>
              p.dead[i']? == some false && cnt p.dead i' == cnt p.dead i) with
          | none =>
            have := List.find?_eq_none.mp hf i (List.mem_range.mpr hil)
            simp [hi] at this
          | some i' =>
            have := List.find?_some hf
            simp only [Bool.and_eq_true, beq_iff_eq] at this
            exact cnt_inj this.1 hi this.2
        intro q q' he
        obtain ⟨i, i', h1, rfl, h3, rfl⟩ := (hasEdge_removeDead hinv.live).mp he
        simp only [hfind i h1, hfind i' (hinv.live.into _ _ _ h3)]
        exact hr _ _ h3
      · intro d d'
        rw [removeDead_equiv hinv.live hinv.zero hlastlive, hinv.acc]
      · intro hm
        rw [noMix_iff]
        rintro q a e q' q'' ⟨h1, h2⟩
        obtain ⟨i, i', h1, h3, h4, _⟩ := (hasEdge_removeDead hinv.live).mp h1
        obtain ⟨j, j', h5, h6, h7, _⟩ := (hasEdge_removeDead hinv.live).mp h2
        have := cnt_inj h1 h5 (h3.symm.trans h6)
        subst this
        exact noMix_iff.mp (hinv.mix hm) _ _ _ _ _ ⟨h4, h7⟩
      · intro hs l q' he
        obtain ⟨i, i', h1, h3, h4, _⟩ := (hasEdge_removeDead hinv.live).mp he
        rw [hlen] at h3
        have hpl : 0 < p.nfa.length := by rw [hinv.len]; exact hpos
        have h5 := cnt_last (n := p.nfa.length - 1) (by rw [hinv.live.len]; omega) hlastlive
        have := cnt_inj h1 hlastlive (by omega)
        subst this
        exact hinv.sink hs _ _ h4
    · intro _
      have h1 := hinv.meas_lt hc
      have h2 := removeDead_length hinv.live.len
      have h3 := removeDead_epsTotal (N := p.nfa) (ds := p.dead)
      have h4 : (p.nfa.removeDead p.dead).size =
        (p.nfa.removeDead p.dead).length + (p.nfa.removeDead p.dead).epsTotal := rfl
      omega
  | false =>
    refine ⟨p.nfa, false, by simp, ?_, by simp⟩
    exact { ne := ne_nil_of_length hinv.len hne, wf := hinv.live.wf, rank := hinv.rank,
            acc := hinv.acc, mix := hinv.mix, sink := hinv.sink, sims := hinv.sims }

theorem Kept.trans {N N' N'' : NFA σ} (h : Kept α N N') (h' : Kept α N' N'') : Kept α N N'' :=
  { ne := h'.ne, wf := h'.wf, rank := h'.rank, acc := fun d d' => (h'.acc d d').trans (h.acc d d'),
    mix := fun hm => h'.mix (h.mix hm), sink := fun hs => h'.sink (h.sink hs),
    sims := h'.sims.trans h.sims }

/-- The optimisation loop stops within its bound and keeps the accepting runs. -/
theorem optimizeLoop_spec (k : Nat) : ∀ N : NFA σ, N ≠ [] → N.WF → N.Ranked → N.size < k →
    ∃ N', optimizeLoop k N = .ok N' ∧ Kept α N N' := by
  induction k with
  | zero => intro N _ _ _ h; omega
  | succ k ih =>
    intro N hne hwf hr hk
    obtain ⟨N1, ch, h1, h2, h3⟩ := optimizePass_spec (α := α) hne hwf hr
    unfold optimizeLoop
    rw [h1]
    cases ch with
    | false => exact ⟨N1, rfl, h2⟩
    | true =>
      obtain ⟨N2, h4, h5⟩ := ih N1 h2.ne h2.wf h2.rank (by have := h3 rfl; omega)
      exact ⟨N2, h4, h2.trans h5⟩

end Ere
