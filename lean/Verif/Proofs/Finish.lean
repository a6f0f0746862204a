import Verif.Proofs.Shape

/-! `remove_unreachable`, `new_loop_opt`, and correctness of `test`. -/

namespace Ere
variable {σ α : Type} [Sym σ α]

/-! ### Shape under edge filters -/

omit [Sym σ α] in
theorem filterEdges_shape {N : NFA σ} (h : Shape N) {fe ft} : Shape (N.filterEdges fe ft) := by
  refine ⟨⟨ne_nil_of_length filterEdges_length h.good.ne, filterEdges_wf h.good.wf⟩, ?_, ?_, ?_⟩
  · obtain ⟨r, hr⟩ := h.rank
    exact ⟨r, fun q q' he => hr _ _ (hasEdge_filterEdges.mp he).1⟩
  · rw [noMix_iff]
    rintro q a e q' q'' ⟨h1, h2⟩
    exact noMix_iff.mp h.mix _ _ _ _ _ ⟨(hasEdge_filterEdges.mp h1).1, (hasEdge_filterEdges.mp h2).1⟩
  · intro l q' he
    rw [filterEdges_length] at he
    exact h.sink _ _ (hasEdge_filterEdges.mp he).1

/-! ### Unreachable states -/

/-- Every state is on a path from the start to the accept state. -/
def NFA.Trim (N : NFA σ) : Prop :=
  ∀ q, q < N.length → N.Path (fun _ => true) true 0 q ∧ N.Path (fun _ => true) true q (N.length - 1)

omit [Sym σ α] in
theorem sel_all (l : Lab σ) : Sel (fun _ => true) true l := by cases l <;> rfl

theorem reach_path {N : NFA σ} {q q' : Nat} {d d' : Cfg α} (h : ReachE N.HasEdge (q, d) (q', d')) :
    N.Path (fun _ => true) true q q' := by
  refine reachE_tail_induction (P := fun q' _ => N.Path (fun _ => true) true q q') h .refl ?_
  intro q1 d1 l q2 d2 _ ih he _
  exact ih.tail ⟨l, sel_all l, he⟩

omit [Sym σ α] in
theorem zip_dead {v w : List Bool} {i n} (hv : v.length = n) (hw : w.length = n) (hi : i < n) :
    (List.zipWith (fun a b => !a || !b) v w)[i]? = some false ↔ flag v i = true ∧ flag w i = true := by
  unfold flag
  rw [List.getElem?_zipWith, List.getElem?_eq_getElem (by omega), List.getElem?_eq_getElem (by omega)]
  cases v[i] <;> cases w[i] <;> simp

omit [Sym σ α] in
/-- The states that stay. -/
theorem unreach_live {N : NFA σ} (hne : N ≠ []) (hwf : N.WF) {q} (hq : q < N.length) :
    (List.zipWith (fun a b => !a || !b) N.reachableStart N.reachableEnd)[q]? = some false ↔
      N.Path (fun _ => true) true 0 q ∧ N.Path (fun _ => true) true q (N.length - 1) := by
  have hpos : 0 < N.length := List.length_pos_iff.mpr hne
  have h1 := reachFrom_spec hwf (ke := fun _ => true) (kt := true) (s := 0) hpos
  have h2 := reachTo_spec (N := N) (ke := fun _ => true) (kt := true) (s := N.length - 1) (by omega)
  unfold NFA.reachableStart NFA.reachableEnd
  rw [zip_dead h1.1 h2.1 hq, h1.2, h2.2]

/-- The automaton with the edges to useless states removed. -/
def NFA.trimEdges (N : NFA σ) : NFA σ :=
  N.filterEdges (fun _ e => flag N.reachableStart e.dst && flag N.reachableEnd e.dst)
    (fun _ t => flag N.reachableStart t.dst && flag N.reachableEnd t.dst)

omit [Sym σ α] in
theorem removeUnreachable_eq (N : NFA σ) : N.removeUnreachable = N.trimEdges.removeDead
    (List.zipWith (fun a b => !a || !b) N.reachableStart N.reachableEnd) := rfl

omit [Sym σ α] in
theorem hasEdge_trimEdges {N : NFA σ} (hne : N ≠ []) (hwf : N.WF) {q l q'} :
    N.trimEdges.HasEdge q l q' ↔ N.HasEdge q l q' ∧
      N.Path (fun _ => true) true 0 q' ∧ N.Path (fun _ => true) true q' (N.length - 1) := by
  have hpos : 0 < N.length := List.length_pos_iff.mpr hne
  have h1 := reachFrom_spec hwf (ke := fun _ => true) (kt := true) (s := 0) hpos
  have h2 := reachTo_spec (N := N) (ke := fun _ => true) (kt := true) (s := N.length - 1) (by omega)
  unfold NFA.trimEdges
  rw [hasEdge_filterEdges]
  cases l <;> simp only [keeps, Bool.and_eq_true, NFA.reachableStart, NFA.reachableEnd, h1.2, h2.2]

omit [Sym σ α] in
theorem trim_live {N : NFA σ} (hne : N ≠ []) (hwf : N.WF) :
    Live N.trimEdges (List.zipWith (fun a b => !a || !b) N.reachableStart N.reachableEnd) := by
  have hpos : 0 < N.length := List.length_pos_iff.mpr hne
  have h1 := reachFrom_spec hwf (ke := fun _ => true) (kt := true) (s := 0) hpos
  have h2 := reachTo_spec (N := N) (ke := fun _ => true) (kt := true) (s := N.length - 1) (by omega)
  refine ⟨?_, ?_⟩
  · rw [List.length_zipWith]
    unfold NFA.reachableStart NFA.reachableEnd NFA.trimEdges
    rw [h1.1, h2.1, filterEdges_length, Nat.min_self]
  · intro q l q' he
    have := (hasEdge_trimEdges hne hwf).mp he
    exact (unreach_live hne hwf (hwf _ _ _ this.1)).mpr this.2

theorem trimEdges_keeps {N : NFA σ} (hne : N ≠ []) (hwf : N.WF) :
    KeepsRuns α N (fun _ e => flag N.reachableStart e.dst && flag N.reachableEnd e.dst)
      (fun _ t => flag N.reachableStart t.dst && flag N.reachableEnd t.dst) := by
  have hpos : 0 < N.length := List.length_pos_iff.mpr hne
  have h1 := reachFrom_spec hwf (ke := fun _ => true) (kt := true) (s := 0) hpos
  have h2 := reachTo_spec (N := N) (ke := fun _ => true) (kt := true) (s := N.length - 1) (by omega)
  intro d d' q l q1 c c1 hpre he _ hpost
  have e1 : N.Path (fun _ => true) true 0 q1 := (reach_path hpre).tail ⟨l, sel_all l, he⟩
  have e2 := reach_path hpost
  cases l <;> simp only [keeps, Bool.and_eq_true, NFA.reachableStart, NFA.reachableEnd, h1.2, h2.2] <;>
    exact ⟨e1, e2⟩

theorem trimEdges_equiv {N : NFA σ} (hne : N ≠ []) (hwf : N.WF) (d d' : Cfg α) :
    N.trimEdges.Acc d d' ↔ N.Acc d d' :=
  filterEdges_equiv (trimEdges_keeps hne hwf) d d'

theorem removeUnreachable_spec {N : NFA σ} (h : Shape N) :
    (∀ d d' : Cfg α, N.removeUnreachable.Acc d d' ↔ N.Acc d d') ∧
    N.removeUnreachable.WF ∧ N.removeUnreachable.NoMix ∧ N.removeUnreachable.Sink ∧
    N.removeUnreachable.Trim ∧ N.removeUnreachable.Ranked ∧
    (N.removeUnreachable ≠ [] ↔ N.Path (fun _ => true) true 0 (N.length - 1)) := by
  have hne := h.good.ne
  have hwf := h.good.wf
  have hpos : 0 < N.length := List.length_pos_iff.mpr hne
  have hlive := trim_live hne hwf
  have hsT : Shape N.trimEdges := filterEdges_shape h
  have hlenT : N.trimEdges.length = N.length := filterEdges_length
  rw [removeUnreachable_eq]
  generalize hds : List.zipWith (fun a b => !a || !b) N.reachableStart N.reachableEnd = ds at *
  have hdead : ∀ {q}, q < N.length → (ds[q]? = some false ↔
      N.Path (fun _ => true) true 0 q ∧ N.Path (fun _ => true) true q (N.length - 1)) := by
    intro q hq; rw [← hds]; exact unreach_live hne hwf hq
  have hlen := removeDead_length hlive.len
  by_cases hp : N.Path (fun _ => true) true 0 (N.length - 1)
  · have h0 : ds[0]? = some false := (hdead hpos).mpr ⟨.refl, hp⟩
    have hl : ds[N.length - 1]? = some false := (hdead (by omega)).mpr ⟨hp, .refl⟩
    have hc0 := cnt_lt h0
    have hcl := cnt_last (n := N.length - 1) (by rw [hlive.len, hlenT]; omega) hl
    refine ⟨?_, removeDead_wf hlive, ?_, ?_, ?_, ?_, ?_⟩
    · intro d d'
      rw [removeDead_equiv hlive h0 (by rw [hlenT]; exact hl), trimEdges_equiv hne hwf]
    · rw [noMix_iff]
      rintro q a e q' q'' ⟨h1, h2⟩
      obtain ⟨i, i', h1, h3, h4, _⟩ := (hasEdge_removeDead hlive).mp h1
      obtain ⟨j, j', h5, h6, h7, _⟩ := (hasEdge_removeDead hlive).mp h2
      have := cnt_inj h1 h5 (h3.symm.trans h6)
      subst this
      exact noMix_iff.mp hsT.mix _ _ _ _ _ ⟨h4, h7⟩
    · intro l q' he
      obtain ⟨i, i', h1, h3, h4, _⟩ := (hasEdge_removeDead hlive).mp he
      rw [hlen] at h3
      have := cnt_inj h1 hl (by omega)
      subst this
      exact hsT.sink _ _ (by rw [hlenT]; exact h4)
    · -- trim
      have hstep : ∀ {a b}, a < N.length → b < N.length → ds[a]? = some false → ds[b]? = some false →
          N.Path (fun _ => true) true a b →
          (N.Path (fun _ => true) true 0 a) → (N.Path (fun _ => true) true b (N.length - 1)) →
          (N.trimEdges.removeDead ds).Path (fun _ => true) true (cnt ds a) (cnt ds b) := by
        intro a b ha hb hda hdb hpab h0a hbl
        induction hpab with
        | refl => exact .refl
        | @tail x y h1 h2 ih =>
          obtain ⟨l, _, he⟩ := h2
          have hx : x < N.length := hasEdge_lt he
          have hxl : N.Path (fun _ => true) true x (N.length - 1) :=
            Relation.ReflTransGen.head ⟨l, sel_all l, he⟩ hbl
          have h0x : N.Path (fun _ => true) true 0 x := h0a.trans h1
          have hdx := (hdead hx).mpr ⟨h0x, hxl⟩
          refine (ih hx hdx hxl).tail ⟨l, sel_all l, ?_⟩
          refine (hasEdge_removeDead hlive).mpr ⟨x, y, hdx, rfl, ?_, rfl⟩
          exact (hasEdge_trimEdges hne hwf).mpr ⟨he, h0x.tail ⟨l, sel_all l, he⟩, hbl⟩
      intro j hj
      have hj' : ∃ i, ds[i]? = some false ∧ j = cnt ds i := by
        have hs : (N.trimEdges.removeDead ds)[j]? = some (N.trimEdges.removeDead ds)[j] :=
          List.getElem?_eq_getElem hj
        unfold NFA.removeDead at hs
        simp only [List.getElem?_map, Option.map_eq_some_iff] at hs
        obtain ⟨s, hs, _⟩ := hs
        obtain ⟨i, h1, _, h2⟩ := (kept_get 0 ds N.trimEdges j s).mp
          (by simpa [List.getElem?_map] using hs)
        exact ⟨i, h1, h2⟩
      obtain ⟨i, hi, rfl⟩ := hj'
      have hiN : i < N.length := by
        rw [← hlenT, ← hlive.len]; exact (List.getElem?_eq_some_iff.mp hi).1
      have hpi := (hdead hiN).mp hi
      refine ⟨?_, ?_⟩
      · have := hstep hpos hiN h0 hi hpi.1 .refl hpi.2
        rwa [cnt_zero] at this
      · have := hstep hiN (by omega) hi hl hpi.2 hpi.1 .refl
        rw [hlen, ← hcl]; exact this
    · obtain ⟨r, hr⟩ := hsT.rank
      refine ⟨fun j => r ((List.range N.length).find? (fun i =>
        ds[i]? == some false && cnt ds i == j) |>.getD 0), ?_⟩
      have hfind : ∀ i, ds[i]? = some false → ((List.range N.length).find? (fun i' =>
          ds[i']? == some false && cnt ds i' == cnt ds i)).getD 0 = i := by
        intro i hi
        have hil : i < N.length := by
          rw [← hlenT, ← hlive.len]; exact (List.getElem?_eq_some_iff.mp hi).1
        cases hf : (List.range N.length).find? (fun i' =>
            ds[i']? == some false && cnt ds i' == cnt ds i) with
        | none =>
          have := List.find?_eq_none.mp hf i (List.mem_range.mpr hil)
          simp [hi] at this
        | some i' =>
          have := List.find?_some hf
          simp only [Bool.and_eq_true, beq_iff_eq] at this
          exact cnt_inj this.1 hi this.2
      intro q q' he
      obtain ⟨i, i', h1, rfl, h3, rfl⟩ := (hasEdge_removeDead hlive).mp he
      simp only [hfind i h1, hfind i' (hlive.into _ _ _ h3)]
      exact hr _ _ h3
    · refine ⟨fun _ => hp, fun _ hh => ?_⟩
      rw [hh] at hlen; simp only [List.length_nil] at hlen; omega
  · have hnone : ∀ q : Nat, ds[q]? ≠ some false := by
      intro q hq
      have hqN : q < N.length := by
        rw [← hlenT, ← hlive.len]; exact (List.getElem?_eq_some_iff.mp hq).1
      have := (hdead hqN).mp hq
      exact hp (this.1.trans this.2)
    have hcount : ds.count false = 0 := by
      rw [List.count_eq_zero]
      intro hm
      obtain ⟨q, hq⟩ := List.mem_iff_getElem?.mp hm
      exact hnone q hq
    have hnil : N.trimEdges.removeDead ds = [] := by
      rw [← List.length_eq_zero_iff, hlen, hcount]
    rw [hnil]
    refine ⟨?_, ?_, ?_, ?_, ?_, ?_, ?_⟩
    · intro d d'
      refine ⟨fun hh => absurd rfl hh.1, fun hh => absurd (reach_path hh.2) hp⟩
    · intro q l q' he; exact absurd he hasEdge_nil
    · intro s hs; simp at hs
    · intro l q' he; exact absurd he hasEdge_nil
    · intro q hq; simp at hq
    · exact ⟨fun _ => 0, fun q q' he => absurd he hasEdge_nil⟩
    · exact ⟨fun hh => absurd rfl hh, fun hh => absurd hh hp⟩

omit [Sym σ α] in
theorem sims_removeUnreachable {N : NFA σ} (h : Shape N) : Sims N.removeUnreachable N := by
  have hne := h.good.ne
  have hwf := h.good.wf
  have hpos : 0 < N.length := List.length_pos_iff.mpr hne
  have hlive := trim_live hne hwf
  rw [removeUnreachable_eq]
  refine Sims.trans (B := N.trimEdges) ?_ (sims_of_sub fun _ _ _ he => (hasEdge_filterEdges.mp he).1)
  by_cases hp : N.Path (fun _ => true) true 0 (N.length - 1)
  · exact sims_removeDead hlive ((unreach_live hne hwf hpos).mpr ⟨.refl, hp⟩)
  · refine sims_of_map (fun a b => a = 0 ∧ b = 0) ⟨rfl, rfl⟩ ?_
    rintro p' p l q' _ he
    obtain ⟨i, i', h1, _⟩ := (hasEdge_removeDead hlive).mp he
    have hi : i < N.length := by
      have := (List.getElem?_eq_some_iff.mp h1).1
      rw [hlive.len] at this
      unfold NFA.trimEdges at this
      rwa [filterEdges_length] at this
    have := (unreach_live hne hwf hi).mp h1
    exact absurd (this.1.trans this.2) hp

/-- What a finished automaton satisfies relative to the one it was made from. -/
structure Finished (α : Type) [Sym σ α] (N M : NFA σ) : Prop where
  acc : ∀ d d' : Cfg α, M.Acc d d' ↔ N.Acc d d'
  wf : M.WF
  mix : M.NoMix
  sink : M.Sink
  trim : M.Trim
  rank : M.Ranked
  sims : Sims M N

theorem finish_spec {N : NFA σ} (h : Shape N) : ∃ M, N.finish = .ok M ∧ Finished α N M := by
  have hz : Shape N.clearZeroSymbol := filterEdges_shape h
  obtain ⟨N', h1, h2⟩ := optimizeLoop_spec (α := α) (N.clearZeroSymbol.size + 1) N.clearZeroSymbol
    hz.good.ne hz.good.wf hz.rank (by omega)
  have hs : Shape N' := ⟨⟨h2.ne, h2.wf⟩, h2.rank, h2.mix hz.mix, h2.sink hz.sink⟩
  have hu := removeUnreachable_spec (α := α) hs
  refine ⟨N'.removeUnreachable, ?_, ?_⟩
  · unfold NFA.finish
    rw [if_neg (by simpa using h.good.ne), h1]
  · exact { acc := fun d d' => (hu.1 d d').trans ((h2.acc d d').trans
              (clearZeroSymbol_equiv h.good.wf d d')),
            wf := hu.2.1, mix := hu.2.2.1, sink := hu.2.2.2.1, trim := hu.2.2.2.2.1,
            rank := hu.2.2.2.2.2.1,
            sims := (sims_removeUnreachable hs).trans (h2.sims.trans
              (sims_of_sub fun _ _ _ he => (hasEdge_filterEdges.mp he).1)) }

/-! ### The optional loops -/

/-- Total length of input units. -/
def unitLen (σ : Type) {α : Type} [Sym σ α] (cs : List α) : Nat := (cs.map (Sym.len (σ := σ))).sum

/-- Skipping any stretch of input. -/
def Skip (σ : Type) {α : Type} [Sym σ α] (d d' : Cfg α) : Prop :=
  ∃ s, d.rest = s ++ d'.rest ∧ d'.off = d.off + unitLen σ s ∧ d'.caps = d.caps

theorem anyLoop_acc {a : σ} (ha : ∀ c : α, Sym.check a c = true) (d d' : Cfg α) :
    (anyLoop a).Acc d d' ↔ Skip σ d d' := by
  unfold anyLoop
  rw [nfaStar_acc _ (good_symbol a)]
  constructor
  · intro h
    induction h with
    | nil => exact ⟨[], rfl, rfl, rfl⟩
    | cons h1 _ ih =>
      obtain ⟨c, r, e1, _, rfl⟩ := symStep_iff.mp ((nfaSymbol_acc a _ _).mp h1)
      obtain ⟨s, e2, e3, e4⟩ := ih
      simp only at e2 e3 e4
      refine ⟨c :: s, by rw [e1, e2]; rfl, ?_, e4⟩
      rw [e3]; simp only [unitLen, List.map_cons, List.sum_cons]; omega
  · rintro ⟨s, e1, e2, e3⟩
    obtain ⟨o, r, cp⟩ := d
    obtain ⟨o', r', cp'⟩ := d'
    simp only at e1 e2 e3
    subst e1 e3
    induction s generalizing o with
    | nil => simp [unitLen] at e2; subst e2; exact .nil
    | cons c s ih =>
      refine .cons (d1 := ⟨o + Sym.len (σ := σ) c, s ++ r', cp'⟩) ?_ (ih _ ?_)
      · exact (nfaSymbol_acc a _ _).mpr (symStep_iff.mpr ⟨c, s ++ r', rfl, ha c, rfl⟩)
      · rw [e2]; simp only [unitLen, List.map_cons, List.sum_cons]; omega

omit [Sym σ α] in
theorem anyLoop_shape (a : σ) : Shape (anyLoop a) :=
  nfaStar_shape _ (nfaSymbol_shape a) (by simp [nfaSymbol]) (nfaSymbol_lastIso a) false

omit [Sym σ α] in
theorem withLoops_shape {N : NFA σ} (h : Shape N) (a : σ) (sl el) : Shape (N.withLoops a sl el) := by
  unfold NFA.withLoops
  have h1 : Shape (if sl then nfaConcat [anyLoop a, N] else N) := by
    split
    · refine nfaConcat_shape _ fun n hn => ?_
      simp only [List.mem_cons, List.not_mem_nil, or_false] at hn
      rcases hn with rfl | rfl
      · exact anyLoop_shape a
      · exact h
    · exact h
  dsimp only
  split
  · refine nfaConcat_shape _ fun n hn => ?_
    simp only [List.mem_cons, List.not_mem_nil, or_false] at hn
    rcases hn with rfl | rfl
    · exact h1
    · exact anyLoop_shape a
  · exact h1

theorem withLoops_acc_good {N : NFA σ} (h : Good N) {a : σ} (ha : ∀ c : α, Sym.check a c = true) (sl el)
    (d d' : Cfg α) : (N.withLoops a sl el).Acc d d' ↔
      ∃ d1 d2, (if sl then Skip σ d d1 else d1 = d) ∧ N.Acc d1 d2 ∧
        (if el then Skip σ d2 d' else d2 = d') := by
  have h1 : ∀ d d' : Cfg α, (if sl then nfaConcat [anyLoop a, N] else N).Acc d d' ↔
      ∃ d1, (if sl then Skip σ d d1 else d1 = d) ∧ N.Acc d1 d' := by
    intro d d'
    cases sl with
    | true =>
      simp only [if_true]
      rw [nfaConcat_acc _ (by
        intro n hn
        simp only [List.mem_cons, List.not_mem_nil, or_false] at hn
        rcases hn with rfl | rfl
        · exact (anyLoop_shape a).good
        · exact h)]
      simp only [ChainAcc, exists_eq_right, anyLoop_acc ha]
    | false => simp
  have hs1 : Good (if sl then nfaConcat [anyLoop a, N] else N) := by
    split
    · refine nfaConcat_good _ fun n hn => ?_
      simp only [List.mem_cons, List.not_mem_nil, or_false] at hn
      rcases hn with rfl | rfl
      · exact (anyLoop_shape a).good
      · exact h
    · exact h
  unfold NFA.withLoops
  dsimp only
  cases el with
  | true =>
    simp only [if_true]
    rw [nfaConcat_acc _ (by
        intro n hn
        simp only [List.mem_cons, List.not_mem_nil, or_false] at hn
        rcases hn with rfl | rfl
        · exact hs1
        · exact (anyLoop_shape a).good)]
    simp only [ChainAcc, exists_eq_right, anyLoop_acc ha, h1]
    constructor
    · rintro ⟨d2, ⟨d1, e1, e2⟩, e3⟩; exact ⟨d1, d2, e1, e2, e3⟩
    · rintro ⟨d1, d2, e1, e2, e3⟩; exact ⟨d2, ⟨d1, e1, e2⟩, e3⟩
  | false =>
    simp only [Bool.false_eq_true, if_false, h1]
    constructor
    · rintro ⟨d1, e1, e2⟩; exact ⟨d1, d', e1, e2, rfl⟩
    · rintro ⟨d1, d2, e1, e2, rfl⟩; exact ⟨d1, e1, e2⟩

theorem withLoops_acc {N : NFA σ} (h : Shape N) {a : σ} (ha : ∀ c : α, Sym.check a c = true) (sl el)
    (d d' : Cfg α) : (N.withLoops a sl el).Acc d d' ↔
      ∃ d1 d2, (if sl then Skip σ d d1 else d1 = d) ∧ N.Acc d1 d2 ∧
        (if el then Skip σ d2 d' else d2 = d') := withLoops_acc_good h.good ha sl el d d'

theorem anyAtom_check (c : Char) : Sym.check (σ := Atom) anyAtom c = true := by
  simp [Sym.check, anyAtom, Atom.check]

/-- `new_loop_opt` succeeds on every tree made from a pattern, and its automaton has exactly the
tree's runs with the optional skips around them. -/
theorem newLoopOpt_spec (t : Tree) (ht : t.StarOk) (sl el : Bool) :
    ∃ M, newLoopOpt t sl el = .ok M ∧ M.WF ∧ M.NoMix ∧ M.Sink ∧ M.Trim ∧ M.Ranked ∧
      ∀ d d' : Cfg Char, M.Acc d d' ↔ ∃ d1 d2, (if sl then Skip Atom d d1 else d1 = d) ∧
        t.Run d1 d2 ∧ (if el then Skip Atom d2 d' else d2 = d') := by
  have hb := build_shape t ht
  have hc1 : Shape (build t).cleanStartAnchors := filterEdges_shape hb
  have hc : Shape (build t).cleanStartAnchors.cleanEndAnchors := filterEdges_shape hc1
  obtain ⟨M, h1, h2⟩ := finish_spec (α := Char) (withLoops_shape hc anyAtom sl el)
  refine ⟨M, h1, h2.wf, h2.mix, h2.sink, h2.trim, h2.rank, fun d d' => ?_⟩
  rw [h2.acc, withLoops_acc hc anyAtom_check]
  simp only [cleanEndAnchors_equiv, cleanStartAnchors_equiv hb.good.wf, build_acc]

theorem newLoopOpt_sims {t : Tree} (ht : t.StarOk) {sl el : Bool} {M} (h : newLoopOpt t sl el = .ok M) :
    Sims M ((build t).cleanStartAnchors.cleanEndAnchors.withLoops anyAtom sl el) := by
  have hb := build_shape t ht
  have hc1 : Shape (build t).cleanStartAnchors := filterEdges_shape hb
  have hc : Shape (build t).cleanStartAnchors.cleanEndAnchors := filterEdges_shape hc1
  obtain ⟨M', h1, h2⟩ := finish_spec (α := Char) (withLoops_shape hc anyAtom sl el)
  rw [newLoopOpt, h1] at h
  injection h with h
  subst h
  exact h2.sims

/-! ### `test` -/

/-- Runs over the text from the start. -/
def NFA.At (N : NFA σ) (text : List α) (q off : Nat) (rest : List α) : Prop :=
  ∃ caps, ReachE N.HasEdge (0, ⟨0, text, []⟩) (q, ⟨off, rest, caps⟩)

omit [Sym σ α] in
theorem unitLen_nil [Sym σ α] : unitLen σ ([] : List α) = 0 := rfl

theorem unitLen_append (a b : List α) : unitLen σ (a ++ b) = unitLen σ a + unitLen σ b := by
  simp [unitLen]

theorem unitLen_pos {a : List α} (h : a ≠ []) : 0 < unitLen σ a := by
  cases a with
  | nil => exact absurd rfl h
  | cons c a =>
    have := Sym.len_pos (σ := σ) c
    simp only [unitLen, List.map_cons, List.sum_cons]; omega

/-- Position of a run in the text. -/
theorem reach_pos {E : Nat → Lab σ → Nat → Prop} {q q' : Nat} {d d' : Cfg α}
    (h : ReachE E (q, d) (q', d')) : ∃ s, d.rest = s ++ d'.rest ∧ d'.off = d.off + unitLen σ s := by
  refine reachE_tail_induction (P := fun _ d' => ∃ s, d.rest = s ++ d'.rest ∧
    d'.off = d.off + unitLen σ s) h ⟨[], rfl, rfl⟩ ?_
  rintro q1 d1 l q2 d2 _ ⟨s, e1, e2⟩ _ hl
  cases l with
  | sym a =>
    obtain ⟨c, r, h1, _, rfl⟩ := symStep_iff.mp (show symStep a d1 = some d2 from hl)
    refine ⟨s ++ [c], by rw [e1, h1]; simp, ?_⟩
    simp only [e2, unitLen, List.map_append, List.sum_append, List.map_cons, List.map_nil,
      List.sum_cons, List.sum_nil]
    omega
  | eps e =>
    have := epsStep_shape (show epsStep e d1 = some d2 from hl)
    exact ⟨s, by rw [this.2]; exact e1, by rw [this.1]; exact e2⟩

theorem at_pos {N : NFA σ} {text : List α} {q off rest} (h : N.At text q off rest) :
    ∃ s, text = s ++ rest ∧ off = unitLen σ s := by
  obtain ⟨_, h⟩ := h
  obtain ⟨s, e1, e2⟩ := reach_pos h
  exact ⟨s, e1, by simpa using e2⟩

/-- Epsilon steps allowed at a position. -/
def NFA.EpsPath (N : NFA σ) (off total : Nat) : Nat → Nat → Prop :=
  N.Path (epsGuard off total) false

theorem epsGuard_step {e : EpsType} {off total : Nat} {rest : List α} {caps}
    (ht : off + unitLen σ rest = total) :
    epsGuard off total e = true ↔ ∃ caps', epsStep e ⟨off, rest, caps⟩ = some ⟨off, rest, caps'⟩ := by
  cases e with
  | none => simp [epsGuard, epsStep]
  | startAnchor => by_cases h : off = 0 <;> simp [epsGuard, epsStep, h]
  | endAnchor =>
    simp only [epsGuard, epsStep]
    by_cases h : rest = []
    · subst h; simp [unitLen] at ht; simp [ht]
    · have := unitLen_pos (σ := σ) h
      have h1 : ¬ rest.isEmpty := by simpa using h
      simp only [h1]
      have : off ≠ total := by omega
      simp [this]
  | startCapture g => simp [epsGuard, epsStep]
  | endCapture g => simp [epsGuard, epsStep]

theorem epsStep_guard {e : EpsType} {d d' : Cfg α} {total : Nat}
    (ht : d.off + unitLen σ d.rest = total) (h : epsStep e d = some d') :
    epsGuard d.off total e = true := by
  have hs := epsStep_shape h
  obtain ⟨o, r, c⟩ := d
  obtain ⟨o', r', c'⟩ := d'
  simp only at hs ht
  obtain ⟨rfl, rfl⟩ := hs
  exact (epsGuard_step (σ := σ) ht).mpr ⟨c', h⟩

/-- Where the epsilon steps of a run started: at the start, or after a symbol. -/
def NFA.Seed (N : NFA σ) (text : List α) (s off : Nat) (rest : List α) : Prop :=
  (s = 0 ∧ off = 0 ∧ rest = text) ∨
  ∃ q0 off0 c a, N.At text q0 off0 (c :: rest) ∧ off = off0 + Sym.len (σ := σ) c ∧
    N.HasEdge q0 (.sym a) s ∧ Sym.check a c = true

theorem at_of_seed {N : NFA σ} {text : List α} {s off rest} (h : N.Seed text s off rest) :
    N.At text s off rest := by
  rcases h with ⟨rfl, rfl, rfl⟩ | ⟨q0, off0, c, a, ⟨caps, h1⟩, rfl, h3, h4⟩
  · exact ⟨[], reachE_refl⟩
  · refine ⟨caps, reachE_trans h1 (reachE_step h3
      (show symStep a ⟨off0, c :: rest, caps⟩ = _ from ?_))⟩
    exact symStep_iff.mpr ⟨c, rest, rfl, h4, rfl⟩

theorem at_iff {N : NFA σ} {text : List α} {q off rest} :
    N.At text q off rest ↔ ∃ s, N.Seed text s off rest ∧ N.EpsPath off (unitLen σ text) s q := by
  constructor
  · rintro ⟨caps, h⟩
    have key := reachE_tail_induction (P := fun q d => ∃ s, N.Seed text s d.off d.rest ∧
      N.EpsPath d.off (unitLen σ text) s q) h ⟨0, Or.inl ⟨rfl, rfl, rfl⟩, .refl⟩ ?_
    · exact key
    · rintro q1 d1 l q2 d2 hr ⟨s, hs, hp⟩ he hl
      cases l with
      | sym a =>
        obtain ⟨c, r, h1, h2, rfl⟩ := symStep_iff.mp (show symStep a d1 = some d2 from hl)
        refine ⟨q2, Or.inr ⟨q1, d1.off, c, a, ⟨d1.caps, ?_⟩, rfl, he, h2⟩, .refl⟩
        rw [← h1]; exact hr
      | eps e =>
        have hst : epsStep e d1 = some d2 := hl
        have hsh := epsStep_shape hst
        obtain ⟨s', e1, e2⟩ := reach_pos hr
        simp only at e1 e2
        have hg := epsStep_guard (σ := σ) (total := unitLen σ text) (by
          rw [e1, unitLen_append]; omega) hst
        rw [hsh.1, hsh.2]
        exact ⟨s, hs, hp.tail ⟨.eps e, hg, he⟩⟩
  · rintro ⟨s, hs, hp⟩
    have hat := at_of_seed hs
    obtain ⟨p, e1, e2⟩ := at_pos hat
    induction hp with
    | refl => exact hat
    | tail _ h2 ih =>
      obtain ⟨caps, hr⟩ := ih
      obtain ⟨l, hsel, he⟩ := h2
      cases l with
      | sym a => simp [Sel] at hsel
      | eps e =>
        obtain ⟨caps', hc⟩ := (epsGuard_step (σ := σ) (caps := caps) (rest := rest)
          (by rw [e1, unitLen_append, e2])).mp hsel
        exact ⟨caps', reachE_trans hr (reachE_step he hc)⟩

omit [Sym σ α] in
theorem propagate_spec {N : NFA σ} (hN : N.WF) {total off} {list : List Bool}
    (hl : list.length = N.length) : (N.propagate total off list).length = N.length ∧
    ∀ x, flag (N.propagate total off list) x = true ↔
      ∃ s, flag list s = true ∧ N.EpsPath off total s x := by
  unfold NFA.propagate
  have h := dfs_correct (N.succs (epsGuard off total) false)
    ((list.zipIdx.filter (fun p => p.1)).map (·.2)).reverse list (by
      intro x _ y hy
      obtain ⟨l, _, h⟩ := mem_succs.mp hy
      rw [hl]; exact hN _ _ _ h) (by
      intro x
      simp only [List.mem_reverse, List.mem_map, List.mem_filter, Prod.exists,
        List.mk_mem_zipIdx_iff_getElem?]
      constructor
      · intro h; exact ⟨true, x, ⟨h, rfl⟩, rfl⟩
      · rintro ⟨b, y, ⟨h1, h2⟩, rfl⟩
        subst h2; exact h1)
  refine ⟨h.1.trans hl, fun x => ?_⟩
  rw [flag_iff]
  refine (h.2 x).trans ?_
  simp only [mem_succs, flag_iff, NFA.EpsPath, NFA.Path]

omit [Sym σ α] in
theorem foldl_set_spec (ts : List Nat) (l : List Bool) (h : ∀ t ∈ ts, t < l.length) :
    (ts.foldl (fun l x => l.set x true) l).length = l.length ∧
    ∀ x, flag (ts.foldl (fun l x => l.set x true) l) x = true ↔ flag l x = true ∨ x ∈ ts := by
  induction ts generalizing l with
  | nil => simp
  | cons t ts ih =>
    have hi := ih (l.set t true) (by intro u hu; rw [List.length_set]; exact h u (by simp [hu]))
    simp only [List.foldl_cons]
    refine ⟨by rw [hi.1, List.length_set], fun x => ?_⟩
    rw [hi.2, flag_iff, flag_iff]
    have ht := h t (by simp)
    rw [get_set_true' ht, List.mem_cons]
    constructor
    · rintro ((h | h) | h)
      · exact Or.inl h
      · exact Or.inr (Or.inl h)
      · exact Or.inr (Or.inr h)
    · rintro (h | h | h)
      · exact Or.inl (Or.inl h)
      · exact Or.inl (Or.inr h)
      · exact Or.inr h

theorem symbolStep_spec {N : NFA σ} (hN : N.WF) {list : List Bool} {c : α} :
    (N.symbolStep list c).length = N.length ∧
    ∀ x, flag (N.symbolStep list c) x = true ↔
      ∃ q a, flag list q = true ∧ N.HasEdge q (.sym a) x ∧ Sym.check a c = true := by
  unfold NFA.symbolStep
  have hmem : ∀ x, x ∈ (N.zipIdx.flatMap (fun p =>
      if flag list p.2 then (p.1.transitions.filter (fun t => Sym.check t.symbol c)).map (·.dst)
      else [])) ↔
      ∃ q a, flag list q = true ∧ N.HasEdge q (.sym a) x ∧ Sym.check a c = true := by
    intro x
    simp only [List.mem_flatMap, Prod.exists, List.mk_mem_zipIdx_iff_getElem?]
    constructor
    · rintro ⟨s, q, h1, h2⟩
      split at h2
      · rename_i hf
        obtain ⟨t, ht, rfl⟩ := List.mem_map.mp h2
        obtain ⟨ht1, ht2⟩ := List.mem_filter.mp ht
        exact ⟨q, t.symbol, hf, hasEdge_iff.mpr ⟨s, h1, ht1⟩, ht2⟩
      · simp at h2
    · rintro ⟨q, a, h1, h2, h3⟩
      obtain ⟨s, hs, ht⟩ := hasEdge_iff.mp h2
      refine ⟨s, q, hs, ?_⟩
      rw [if_pos h1]
      exact List.mem_map.mpr ⟨_, List.mem_filter.mpr ⟨ht, h3⟩, rfl⟩
  have h := foldl_set_spec _ (List.replicate N.length false) (by
    intro x hx
    obtain ⟨q, a, _, h2, _⟩ := (hmem x).mp hx
    rw [List.length_replicate]; exact hN _ _ _ h2)
  refine ⟨by rw [h.1, List.length_replicate], fun x => ?_⟩
  rw [h.2, hmem]
  constructor
  · rintro (h | h)
    · rw [flag_iff, List.getElem?_replicate] at h
      split at h <;> simp at h
    · exact h
  · exact Or.inr

theorem testLoop_spec {N : NFA σ} (hN : N.WF) (text : List α) :
    ∀ (rest : List α) (off : Nat) (list : List Bool) (pre : List α), text = pre ++ rest →
      off = unitLen σ pre → list.length = N.length →
      (∀ s, flag list s = true ↔ N.Seed text s off rest) →
      ∀ x, flag (N.testLoop (unitLen σ text) off rest list) x = true ↔
        N.At text x (unitLen σ text) [] := by
  intro rest
  induction rest with
  | nil =>
    intro off list pre h1 h2 h3 h4 x
    simp only [NFA.testLoop]
    have : off = unitLen σ text := by rw [h1, List.append_nil, h2]
    rw [(propagate_spec hN h3).2]
    simp only [h4]
    rw [this, ← at_iff]
  | cons c rest ih =>
    intro off list pre h1 h2 h3 h4 x
    simp only [NFA.testLoop]
    have hp := propagate_spec hN (total := unitLen σ text) (off := off) h3
    have hp2 : ∀ x, flag (N.propagate (unitLen σ text) off list) x = true ↔
        N.At text x off (c :: rest) := by
      intro x; rw [hp.2]; simp only [h4]; rw [at_iff]
    have hs := symbolStep_spec hN (list := N.propagate (unitLen σ text) off list) (c := c)
    refine ih (off + Sym.len (σ := σ) c) _ (pre ++ [c]) (by simp [h1]) ?_ hs.1 ?_ x
    · rw [h2]; simp [unitLen]
    · intro s
      rw [hs.2]
      simp only [hp2]
      constructor
      · rintro ⟨q, a, h5, h6, h7⟩
        exact Or.inr ⟨q, off, c, a, h5, rfl, h6, h7⟩
      · rintro (⟨_, h5, h6⟩ | ⟨q0, off0, c0, a, h5, h6, h7, h8⟩)
        · exfalso
          have := congrArg List.length h6
          rw [h1] at this; simp at this; omega
        · obtain ⟨p0, e1, e2⟩ := at_pos h5
          rw [h1] at e1
          have hlen : pre.length = p0.length := by
            have := congrArg List.length e1; simp at this; omega
          have := List.append_inj e1 hlen
          obtain ⟨rfl, he⟩ := this
          injection he with he _
          subst he
          rw [← h2] at e2
          subst e2
          exact ⟨q0, a, h5, h7, h8⟩

/-- `test` decides whether the automaton has an accepting run over the whole text. -/
theorem test_spec {N : NFA σ} (hN : N.WF) (hne : N ≠ []) (text : List α) :
    ∃ b, N.test text = .ok b ∧
      (b = true ↔ ∃ caps, N.Acc ⟨0, text, []⟩ ⟨unitLen σ text, [], caps⟩) := by
  have hpos : 0 < N.length := List.length_pos_iff.mpr hne
  refine ⟨_, by unfold NFA.test; rw [if_neg (by simpa using hne)], ?_⟩
  have := testLoop_spec hN text text 0 ((List.replicate N.length false).set 0 true) [] rfl rfl
    (by simp) (by
      intro s
      rw [flag_iff, get_set_true' (by simpa using hpos), List.getElem?_replicate]
      constructor
      · rintro (h | rfl)
        · split at h <;> simp at h
        · exact Or.inl ⟨rfl, rfl, rfl⟩
      · rintro (⟨rfl, _, _⟩ | ⟨q0, off0, c0, a, h5, h6, h7, h8⟩)
        · exact Or.inr rfl
        · exfalso
          have := Sym.len_pos (σ := σ) c0; omega) (N.length - 1)
  refine this.trans ?_
  constructor
  · rintro ⟨caps, h⟩; exact ⟨caps, hne, h⟩
  · rintro ⟨caps, _, h⟩; exact ⟨caps, h⟩

end Ere
