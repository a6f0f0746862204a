import Verif.Proofs.Reach
import Verif.Proofs.Dfs
import Verif.Model.Opt

/-! Simulations between automata, and reachability computed by the searches. -/

namespace Ere
variable {σ α : Type} [Sym σ α]

/-- Two automata with the same accepting runs. -/
def NFA.Equiv (N N' : NFA σ) : Prop := ∀ d d' : Cfg α, N.Acc d d' ↔ N'.Acc d d'

theorem acc_of_sim {N N' : NFA σ} (R : Nat → Nat → Prop) (hne : N' ≠ []) (h0 : R 0 0)
    (hstep : ∀ q l q1 p (d d1 : Cfg α), N.HasEdge q l q1 → R q p → labStep l d = some d1 →
      ∃ p1, R q1 p1 ∧ ReachE N'.HasEdge (p, d) (p1, d1))
    (hlast : ∀ p, R (N.length - 1) p → p = N'.length - 1) {d d' : Cfg α} (h : N.Acc d d') :
    N'.Acc d d' := by
  obtain ⟨_, h⟩ := h
  refine ⟨hne, ?_⟩
  have : ∃ p, R (N.length - 1) p ∧ ReachE N'.HasEdge (0, d) (p, d') := by
    refine reachE_tail_induction (P := fun q c => ∃ p, R q p ∧ ReachE N'.HasEdge (0, d) (p, c)) h
      ⟨0, h0, reachE_refl⟩ ?_
    rintro q d1 l q1 d2 _ ⟨p, hp, hr⟩ he hl
    obtain ⟨p1, hp1, hr1⟩ := hstep q l q1 p d1 d2 he hp hl
    exact ⟨p1, hp1, reachE_trans hr hr1⟩
  obtain ⟨p, hp, hr⟩ := this
  rw [hlast p hp] at hr
  exact hr

/-- Functional form: states are mapped by `φ`, every edge is matched by a run. -/
theorem acc_of_map {N N' : NFA σ} (φ : Nat → Nat) (hne : N' ≠ []) (h0 : φ 0 = 0)
    (hstep : ∀ q l q1 (d d1 : Cfg α), N.HasEdge q l q1 → labStep l d = some d1 →
      ReachE N'.HasEdge (φ q, d) (φ q1, d1))
    (hlast : φ (N.length - 1) = N'.length - 1) {d d' : Cfg α} (h : N.Acc d d') :
    N'.Acc d d' := by
  refine acc_of_sim (fun q p => p = φ q) hne h0.symm ?_ ?_ h
  · rintro q l q1 p d d1 he rfl hl
    exact ⟨_, rfl, hstep q l q1 d d1 he hl⟩
  · rintro p rfl; exact hlast

theorem acc_of_sub {N N' : NFA σ} (hlen : N'.length = N.length)
    (h : ∀ q l q', N.HasEdge q l q' → N'.HasEdge q l q') {d d' : Cfg α} (ha : N.Acc d d') :
    N'.Acc d d' := by
  refine ⟨?_, ?_⟩
  · intro h0; rw [h0] at hlen; exact ha.1 (List.length_eq_zero_iff.mp hlen.symm)
  · rw [hlen]; exact reachE_mono h ha.2

/-- Keep only edges that occur on a complete run. -/
theorem reach_filter {E E' : Nat → Lab σ → Nat → Prop} {s f : Nat × Cfg α}
    (h : ∀ q l q1 c c1, ReachE E s (q, c) → E q l q1 → labStep l c = some c1 →
      ReachE E (q1, c1) f → E' q l q1) (hr : ReachE E s f) : ReachE E' s f := by
  have : ∀ x, ReachE E s x → ReachE E x f → ReachE E' x f := by
    intro x hx hxf
    induction hxf using Relation.ReflTransGen.head_induction_on with
    | refl => exact reachE_refl
    | head h1 h2 ih =>
      obtain ⟨l, h3, h4⟩ := h1
      exact Relation.ReflTransGen.head ⟨l, h _ l _ _ _ hx h3 h4 h2, h4⟩ (ih (hx.tail ⟨l, h3, h4⟩))
  exact this s reachE_refl hr

/-! ### How configurations change along runs -/

theorem epsStep_shape {e : EpsType} {d d' : Cfg α} (h : epsStep e d = some d') :
    d'.off = d.off ∧ d'.rest = d.rest := by
  cases e <;> simp only [epsStep] at h
  · injection h with h; subst h; exact ⟨rfl, rfl⟩
  · split at h
    · injection h with h; subst h; exact ⟨rfl, rfl⟩
    · simp at h
  · split at h
    · injection h with h; subst h; exact ⟨rfl, rfl⟩
    · simp at h
  · injection h with h; subst h; exact ⟨rfl, rfl⟩
  · injection h with h; subst h; exact ⟨rfl, rfl⟩

theorem symStep_iff {a : σ} {d d' : Cfg α} : symStep a d = some d' ↔
    ∃ c r, d.rest = c :: r ∧ Sym.check a c = true ∧
      d' = ⟨d.off + Sym.len (σ := σ) c, r, d.caps⟩ := by
  unfold symStep
  constructor
  · intro h
    split at h
    · simp at h
    · rename_i c r hr
      split at h
      · rename_i hc
        injection h with h
        exact ⟨c, r, hr, hc, h.symm⟩
      · simp at h
  · rintro ⟨c, r, h1, h2, rfl⟩
    rw [h1]; simp only [h2, if_true]

theorem symStep_shape {a : σ} {d d' : Cfg α} (h : symStep a d = some d') :
    d.off < d'.off ∧ d'.rest.length < d.rest.length ∧ d'.caps = d.caps := by
  obtain ⟨c, r, h1, _, rfl⟩ := symStep_iff.mp h
  have := Sym.len_pos (σ := σ) c
  rw [h1]; simp; omega

/-- Either nothing was consumed and only epsilons were followed, or the offset has grown. -/
theorem reach_shape {E : Nat → Lab σ → Nat → Prop} {q q' : Nat} {d d' : Cfg α}
    (h : ReachE E (q, d) (q', d')) :
    (Relation.ReflTransGen (fun a b => ∃ e, E a (.eps e) b) q q' ∧ d'.off = d.off ∧ d'.rest = d.rest) ∨
    (d.off < d'.off ∧ d'.rest.length < d.rest.length) := by
  refine reachE_tail_induction (P := fun q' d' =>
    (Relation.ReflTransGen (fun a b => ∃ e, E a (.eps e) b) q q' ∧ d'.off = d.off ∧ d'.rest = d.rest) ∨
    (d.off < d'.off ∧ d'.rest.length < d.rest.length)) h (Or.inl ⟨.refl, rfl, rfl⟩) ?_
  intro q1 d1 l q2 d2 _ ih he hl
  cases l with
  | sym a =>
    have := symStep_shape (show symStep a d1 = some d2 from hl)
    rcases ih with ⟨_, h1, h2⟩ | h1
    · rw [h2] at this; exact Or.inr ⟨by omega, by omega⟩
    · exact Or.inr ⟨by omega, by omega⟩
  | eps e =>
    have h3 := epsStep_shape (show epsStep e d1 = some d2 from hl)
    rcases ih with ⟨h0, h1, h2⟩ | h1
    · exact Or.inl ⟨h0.tail ⟨e, he⟩, h3.1.trans h1, h3.2.trans h2⟩
    · rw [h3.1, h3.2]; exact Or.inr h1

theorem reach_off_le {E : Nat → Lab σ → Nat → Prop} {q q' : Nat} {d d' : Cfg α}
    (h : ReachE E (q, d) (q', d')) : d.off ≤ d'.off := by
  rcases reach_shape h with h | h <;> omega

/-! ### Searches -/

/-- An edge selected by a search. -/
def Sel (ke : EpsType → Bool) (kt : Bool) : Lab σ → Prop
  | .sym _ => kt = true
  | .eps e => ke e = true

omit [Sym σ α] in
theorem mem_state_succs {s : State σ} {ke kt q'} :
    q' ∈ s.succs ke kt ↔ ∃ l, Sel ke kt l ∧ s.Has l q' := by
  unfold State.succs
  simp only [List.mem_append, List.mem_map, List.mem_filter]
  constructor
  · rintro (⟨e, ⟨h1, h2⟩, rfl⟩ | h)
    · exact ⟨.eps e.special, h2, h1⟩
    · split at h
      · rename_i hk
        obtain ⟨t, h1, rfl⟩ := List.mem_map.mp h
        exact ⟨.sym t.symbol, hk, h1⟩
      · simp at h
  · rintro ⟨l, h1, h2⟩
    cases l with
    | sym a =>
      have hk : kt = true := h1
      refine Or.inr ?_
      rw [if_pos hk]
      exact List.mem_map.mpr ⟨⟨q', a⟩, h2, rfl⟩
    | eps e => exact Or.inl ⟨⟨q', e⟩, ⟨h2, h1⟩, rfl⟩

omit [Sym σ α] in
theorem mem_succs {N : NFA σ} {ke kt q q'} :
    q' ∈ N.succs ke kt q ↔ ∃ l, Sel ke kt l ∧ N.HasEdge q l q' := by
  unfold NFA.succs
  cases h : N[q]? with
  | none => simp [hasEdge_iff, h]
  | some s => simp [hasEdge_iff, h, mem_state_succs]

omit [Sym σ α] in
theorem mem_preds {N : NFA σ} {ke kt q q'} :
    q' ∈ N.preds ke kt q ↔ ∃ l, Sel ke kt l ∧ N.HasEdge q' l q := by
  unfold NFA.preds
  rw [← mem_succs]
  simp only [List.mem_flatMap, List.mem_range, List.mem_map, List.mem_filter, beq_iff_eq]
  constructor
  · rintro ⟨i, _, x, ⟨h1, rfl⟩, rfl⟩; exact h1
  · intro h
    refine ⟨q', ?_, q, ⟨h, rfl⟩, rfl⟩
    obtain ⟨l, _, h⟩ := mem_succs.mp h
    exact hasEdge_lt h

/-- Reachability over selected edges. -/
def NFA.Path (N : NFA σ) (ke : EpsType → Bool) (kt : Bool) : Nat → Nat → Prop :=
  Relation.ReflTransGen (fun a b => ∃ l, Sel ke kt l ∧ N.HasEdge a l b)

omit [Sym σ α] in
theorem flag_iff {v : List Bool} {i} : flag v i = true ↔ v[i]? = some true := by
  unfold flag; simp

omit [Sym σ α] in
theorem reachFrom_spec {N : NFA σ} (hN : N.WF) {ke kt s} (hs : s < N.length) :
    (N.reachFrom ke kt s).length = N.length ∧
    ∀ x, flag (N.reachFrom ke kt s) x = true ↔ N.Path ke kt s x := by
  have := dfs_single (N.succs ke kt) N.length s hs (by
    intro x _ y hy
    obtain ⟨l, _, h⟩ := mem_succs.mp hy
    exact hN _ _ _ h)
  refine ⟨this.1, fun x => ?_⟩
  rw [flag_iff]
  refine (this.2 x).trans ?_
  simp only [mem_succs, NFA.Path]

omit [Sym σ α] in
theorem reachTo_spec {N : NFA σ} {ke kt s} (hs : s < N.length) :
    (N.reachTo ke kt s).length = N.length ∧
    ∀ x, flag (N.reachTo ke kt s) x = true ↔ N.Path ke kt x s := by
  have := dfs_single (N.preds ke kt) N.length s hs (by
    intro x _ y hy
    obtain ⟨l, _, h⟩ := mem_preds.mp hy
    exact hasEdge_lt h)
  refine ⟨this.1, fun x => ?_⟩
  rw [flag_iff]
  refine (this.2 x).trans ?_
  simp only [mem_preds, NFA.Path]
  constructor
  · intro h
    induction h with
    | refl => exact .refl
    | tail _ h ih => exact Relation.ReflTransGen.head h ih
  · intro h
    induction h using Relation.ReflTransGen.head_induction_on with
    | refl => exact .refl
    | head h _ ih => exact ih.tail h

/-! ### Filtering edges -/

/-- Does the filter keep the edge? -/
def keeps (fe : Nat → Eps → Bool) (ft : Nat → Trans σ → Bool) (q : Nat) : Lab σ → Nat → Prop
  | .sym a, q' => ft q ⟨q', a⟩ = true
  | .eps e, q' => fe q ⟨q', e⟩ = true

omit [Sym σ α] in
theorem hasEdge_filterEdges {N : NFA σ} {fe ft q l q'} :
    (N.filterEdges fe ft).HasEdge q l q' ↔ N.HasEdge q l q' ∧ keeps fe ft q l q' := by
  simp only [hasEdge_iff, NFA.filterEdges, List.getElem?_mapIdx, Option.map_eq_some_iff]
  constructor
  · rintro ⟨st, ⟨s, h1, rfl⟩, h2⟩
    cases l <;> simp only [State.Has, List.mem_filter] at h2 <;> exact ⟨⟨s, h1, h2.1⟩, h2.2⟩
  · rintro ⟨⟨s, h1, h2⟩, h3⟩
    refine ⟨_, ⟨s, h1, rfl⟩, ?_⟩
    cases l <;> exact List.mem_filter.mpr ⟨h2, h3⟩

omit [Sym σ α] in
theorem filterEdges_length {N : NFA σ} {fe ft} : (N.filterEdges fe ft).length = N.length := by
  simp [NFA.filterEdges]

omit [Sym σ α] in
theorem filterEdges_wf {N : NFA σ} (hN : N.WF) {fe ft} : (N.filterEdges fe ft).WF := by
  intro q l q' h
  rw [filterEdges_length]
  exact hN q l q' (hasEdge_filterEdges.mp h).1

omit [Sym σ α] in
theorem ne_nil_of_length {A B : NFA σ} (h : A.length = B.length) (hB : B ≠ []) : A ≠ [] := by
  intro h0; rw [h0] at h; exact hB (List.length_eq_zero_iff.mp h.symm)

/-- Every edge on an accepting run is kept. -/
def KeepsRuns (α : Type) [Sym σ α] (N : NFA σ) (fe : Nat → Eps → Bool) (ft : Nat → Trans σ → Bool) : Prop :=
  ∀ (d d' : Cfg α) q l q1 c c1, ReachE N.HasEdge (0, d) (q, c) → N.HasEdge q l q1 →
    labStep l c = some c1 → ReachE N.HasEdge (q1, c1) (N.length - 1, d') → keeps fe ft q l q1

/-- Filtering edges keeps the accepting runs if every edge of an accepting run is kept. -/
theorem filterEdges_equiv {N : NFA σ} {fe ft} (h : KeepsRuns α N fe ft)
    (d d' : Cfg α) : (N.filterEdges fe ft).Acc d d' ↔ N.Acc d d' := by
  constructor
  · exact acc_of_sub filterEdges_length.symm (fun q l q' h => (hasEdge_filterEdges.mp h).1)
  · rintro ⟨h0, h1⟩
    refine ⟨ne_nil_of_length filterEdges_length h0, ?_⟩
    rw [filterEdges_length]
    refine reach_filter (fun q l q1 c c1 h2 h3 h4 h5 => ?_) h1
    exact hasEdge_filterEdges.mpr ⟨h3, h d d' q l q1 c c1 h2 h3 h4 h5⟩

theorem cleanStartAnchors_keeps {N : NFA σ} (hN : N.WF) :
    KeepsRuns α N (fun i e => e.special != .startAnchor || flag (N.reachFrom (fun _ => true) false 0) i) (fun _ _ => true) := by
  intro d d' q l q1 c c1 hr he hl _
  cases l with
  | sym a => rfl
  | eps e =>
    simp only [keeps, Bool.or_eq_true, bne_iff_ne, ne_eq]
    by_cases hs : e = .startAnchor
    · right
      have hq := hasEdge_lt he
      rw [(reachFrom_spec hN (by omega)).2]
      subst hs
      have h0 : c.off = 0 := by
        simp only [labStep, epsStep] at hl
        by_contra hne; rw [if_neg hne] at hl; simp at hl
      rcases reach_shape hr with ⟨h, _⟩ | h
      · refine Relation.ReflTransGen.mono (fun a b hab => ?_) _ _ h
        obtain ⟨e, he⟩ := hab
        exact ⟨.eps e, rfl, he⟩
      · omega
    · exact Or.inl hs

theorem cleanStartAnchors_equiv {N : NFA σ} (hN : N.WF) (d d' : Cfg α) :
    N.cleanStartAnchors.Acc d d' ↔ N.Acc d d' :=
  filterEdges_equiv (cleanStartAnchors_keeps hN) d d'

theorem cleanEndAnchors_keeps {N : NFA σ} :
    KeepsRuns α N (fun _ e => e.special != .endAnchor || flag (N.reachTo (fun _ => true) false (N.length - 1)) e.dst) (fun _ _ => true) := by
  intro d d' q l q1 c c1 _ he hl hr
  cases l with
  | sym a => rfl
  | eps e =>
    simp only [keeps, Bool.or_eq_true, bne_iff_ne, ne_eq]
    by_cases hs : e = .endAnchor
    · right
      have hq := hasEdge_lt he
      rw [(reachTo_spec (by omega)).2]
      subst hs
      have h0 : c.rest = [] := by
        simp only [labStep, epsStep] at hl
        by_contra hne; rw [if_neg (by simpa using hne)] at hl; simp at hl
      have h1 := epsStep_shape (show epsStep .endAnchor c = some c1 from hl)
      rcases reach_shape hr with ⟨h, _⟩ | h
      · refine Relation.ReflTransGen.mono (fun a b hab => ?_) _ _ h
        obtain ⟨e, he⟩ := hab
        exact ⟨.eps e, rfl, he⟩
      · rw [h1.2, h0] at h; simp at h
    · exact Or.inl hs

theorem cleanEndAnchors_equiv {N : NFA σ} (d d' : Cfg α) :
    N.cleanEndAnchors.Acc d d' ↔ N.Acc d d' :=
  filterEdges_equiv cleanEndAnchors_keeps d d'

/-! ### Nodes after `$` and before `^` -/

theorem reach_after_end {N : NFA σ} {q : Nat} {d c : Cfg α} (h : ReachE N.HasEdge (0, d) (q, c)) :
    N.Path (· != .endAnchor) true 0 q ∨ c.rest = [] := by
  refine reachE_tail_induction (P := fun q c => N.Path (· != .endAnchor) true 0 q ∨ c.rest = []) h
    (Or.inl .refl) ?_
  intro q c l q1 c1 _ ih he hl
  cases l with
  | sym a =>
    rcases ih with ih | ih
    · exact Or.inl (ih.tail ⟨.sym a, rfl, he⟩)
    · have := symStep_shape (show symStep a c = some c1 from hl)
      rw [ih] at this; simp at this
  | eps e =>
    have hsh := epsStep_shape (show epsStep e c = some c1 from hl)
    rcases ih with ih | ih
    · by_cases hs : e = .endAnchor
      · right
        subst hs
        rw [hsh.2]
        simp only [labStep, epsStep] at hl
        by_contra hne; rw [if_neg (by simpa using hne)] at hl; simp at hl
      · exact Or.inl (ih.tail ⟨.eps e, by simpa [Sel] using hs, he⟩)
    · exact Or.inr (hsh.2.trans ih)

theorem reach_before_start {N : NFA σ} {q f : Nat} {d c : Cfg α} (h : ReachE N.HasEdge (q, c) (f, d)) :
    N.Path (· != .startAnchor) true q f ∨ c.off = 0 := by
  refine reachE_head_induction (P := fun q c => N.Path (· != .startAnchor) true q f ∨ c.off = 0) h
    (Or.inl .refl) ?_
  intro q c l q1 c1 he hl _ ih
  cases l with
  | sym a =>
    rcases ih with ih | ih
    · exact Or.inl (Relation.ReflTransGen.head ⟨.sym a, rfl, he⟩ ih)
    · have := symStep_shape (show symStep a c = some c1 from hl)
      omega
  | eps e =>
    have hsh := epsStep_shape (show epsStep e c = some c1 from hl)
    rcases ih with ih | ih
    · by_cases hs : e = .startAnchor
      · right
        subst hs
        simp only [labStep, epsStep] at hl
        by_contra hne; rw [if_neg hne] at hl; simp at hl
      · exact Or.inl (Relation.ReflTransGen.head ⟨.eps e, by simpa [Sel] using hs, he⟩ ih)
    · exact Or.inr (hsh.1.symm.trans ih)

omit [Sym σ α] in
theorem flag_map_not {v : List Bool} {i} (h : i < v.length) : flag (v.map (!·)) i = !flag v i := by
  unfold flag
  rw [List.getElem?_map, List.getElem?_eq_getElem h]
  cases v[i] <;> rfl

omit [Sym σ α] in
theorem flag_zipWith_or {v w : List Bool} {i} (hv : i < v.length) (hw : i < w.length) :
    flag (List.zipWith (· || ·) v w) i = (flag v i || flag w i) := by
  unfold flag
  rw [List.getElem?_zipWith, List.getElem?_eq_getElem hv, List.getElem?_eq_getElem hw]
  cases v[i] <;> cases w[i] <;> rfl

theorem clearZeroSymbol_keeps {N : NFA σ} (hN : N.WF) :
    KeepsRuns α N (fun _ _ => true) (fun q _ => !flag (List.zipWith (· || ·) N.nodesAfterEnd N.nodesBeforeStart) q) := by
  intro d d' q l q1 c c1 hpre he hl hpost
  cases l with
  | eps e => rfl
  | sym a =>
    have hq := hasEdge_lt he
    have h1 := reachFrom_spec hN (ke := (· != .endAnchor)) (kt := true) (s := 0) (by omega)
    have h2 := reachTo_spec (N := N) (ke := (· != .startAnchor)) (kt := true) (s := N.length - 1)
      (by omega)
    simp only [keeps, NFA.nodesAfterEnd, NFA.nodesBeforeStart]
    rw [flag_zipWith_or (by simpa [h1.1] using hq) (by simpa [h2.1] using hq),
      flag_map_not (by simpa [h1.1] using hq), flag_map_not (by simpa [h2.1] using hq)]
    have hsh := symStep_shape (show symStep a c = some c1 from hl)
    have e1 : flag (N.reachFrom (· != .endAnchor) true 0) q = true := by
      rw [h1.2]
      rcases reach_after_end hpre with h | h
      · exact h
      · rw [h] at hsh; simp at hsh
    have e2 : flag (N.reachTo (· != .startAnchor) true (N.length - 1)) q = true := by
      rw [h2.2]
      rcases reach_before_start hpost with h | h
      · exact Relation.ReflTransGen.head ⟨.sym a, rfl, he⟩ h
      · omega
    simp [e1, e2]

theorem clearZeroSymbol_equiv {N : NFA σ} (hN : N.WF) (d d' : Cfg α) :
    N.clearZeroSymbol.Acc d d' ↔ N.Acc d d' :=
  filterEdges_equiv (clearZeroSymbol_keeps hN) d d'

end Ere
