import Verif.Proofs.Topo
import Verif.Proofs.DfaTop

/-! # `get_fixed_offsets` and `capture_group_is_optional` -/

namespace Ere
variable {σ α : Type}

/-- A step along an edge of the automaton that ignores symbols and anchors, counts the symbols and
records captures. -/
inductive DStep (N : NFA σ) : Nat × Nat × Caps → Nat × Nat × Caps → Prop
  | sym {q o c a q'} : N.HasEdge q (.sym a) q' → DStep N (q, o, c) (q', o + 1, c)
  | eps {q o c e q'} : N.HasEdge q (.eps e) q' → DStep N (q, o, c) (q', o, c ++ walkEvents o [e])

/-- Configurations of such walks from the start state. -/
def NFA.Drift (N : NFA σ) (q o : Nat) (c : Caps) : Prop :=
  Relation.ReflTransGen (DStep N) (0, 0, []) (q, o, c)

theorem edge_iff {N : NFA σ} {a b : Nat} : N.Edge a b ↔ ∃ l, N.HasEdge a l b := by
  constructor
  · rintro ⟨s, hs, ⟨t, ht, rfl⟩ | ⟨e, he, rfl⟩⟩
    · exact ⟨.sym t.symbol, s, hs, ht⟩
    · exact ⟨.eps e.special, s, hs, he⟩
  · rintro ⟨l, s, hs, h⟩
    cases l with
    | sym a => exact ⟨s, hs, .inl ⟨_, h, rfl⟩⟩
    | eps e => exact ⟨s, hs, .inr ⟨_, h, rfl⟩⟩

theorem path_edge {N : NFA σ} {a b : Nat} :
    N.Path (fun _ => true) true a b ↔ Relation.ReflTransGen N.Edge a b := by
  unfold NFA.Path
  have : (fun a b => ∃ l, Sel (fun _ => true) true l ∧ N.HasEdge a l b) = N.Edge := by
    funext a b
    rw [eq_iff_iff, edge_iff]
    exact exists_congr fun l => and_iff_right (sel_all l)
  rw [this]

theorem step_events [Sym σ α] {e : EpsType} {d d' : Cfg α} (h : epsStep e d = some d') :
    d' = ⟨d.off, d.rest, d.caps ++ walkEvents d.off [e]⟩ := by
  obtain ⟨o, r, c⟩ := d
  cases e <;> simp [epsStep, walkEvents, Caps.setStart, Caps.setEnd] at h ⊢
  all_goals first | exact h.symm | exact h.2.symm

/-- A run over bytes is such a walk. -/
theorem run_drift {N : NFA U8Atom} {q off : Nat} {text rest : List UInt8} {caps : Caps}
    (h : ReachE N.HasEdge (0, ⟨0, text, []⟩) (q, ⟨off, rest, caps⟩)) : N.Drift q off caps := by
  refine reachE_tail_induction (P := fun q d => N.Drift q d.off d.caps) h .refl ?_
  intro q1 d1 l q2 d2 _ ih he hl
  cases l with
  | sym a =>
    obtain ⟨c, r, _, _, rfl⟩ := symStep_iff.mp (show symStep a d1 = some d2 from hl)
    exact ih.tail (.sym he)
  | eps e =>
    rw [step_events (σ := U8Atom) (show epsStep e d1 = some d2 from hl)]
    exact ih.tail (.eps he)

theorem mapM_eq_ok {β γ ε : Type} {f : β → Except ε γ} {g : β → γ} {l : List β}
    (h : ∀ x ∈ l, f x = .ok (g x)) : l.mapM f = .ok (l.map g) := by
  induction l with
  | nil => rfl
  | cons a l ih =>
    rw [List.mapM_cons, h a (by simp), ih (fun x hx => h x (by simp [hx]))]; rfl

section
variable {N : NFA σ}

/-- The stack entry for a configuration. -/
def fixItem (k : Nat) (x : Nat × Nat × Caps) : FixItem := ⟨x.1, x.2.1, slotsOf k x.2.2⟩

/-- The successors of a configuration in the order of the pushes. -/
def driftSucc (s : State σ) (x : Nat × Nat × Caps) : List (Nat × Nat × Caps) :=
  s.transitions.map (fun t => (t.dst, x.2.1 + 1, x.2.2)) ++
    s.epsilons.map (fun e => (e.dst, x.2.1, x.2.2 ++ walkEvents x.2.1 [e.special]))

theorem applyTag_eq {k off : Nat} {c : Caps} {e : EpsType} {t : Tag} (ht : e.tag? = some t) (hk : t.group < k) :
    applyTag off (slotsOf k c) t = .ok (slotsOf k (c ++ walkEvents off [e])) := by
  have h := applyTags_walk (k := k) (off := off) (p := 0) (ls := [e]) c (by
    intro t' ht'
    obtain ⟨e', h1, h2⟩ := mem_tags.mp ht'
    rw [List.mem_singleton] at h1
    subst h1
    rw [ht] at h2; injection h2 with h2; subst h2; exact hk)
  have h1 : (walkSummary 0 [e]).tags = [t] := by
    simp only [walkSummary, List.filterMap_cons, ht, List.filterMap_nil]
    rfl
  rw [h1, List.foldlM_cons] at h
  cases ha : applyTag off (slotsOf k c) t with
  | error x => rw [ha] at h; cases h
  | ok y => rw [ha] at h; exact h

theorem fixSucc_eq (hN : Ready N) {q : Nat} {s : State σ} (hs : N[q]? = some s) (o : Nat) (c : Caps) :
    fixSucc s (fixItem N.numCaptureGroups (q, o, c)) =
      .ok ((driftSucc s (q, o, c)).map (fixItem N.numCaptureGroups)) := by
  have key : ∀ e ∈ s.epsilons, fixEps (fixItem N.numCaptureGroups (q, o, c)) e =
      .ok (fixItem N.numCaptureGroups (e.dst, o, c ++ walkEvents o [e.special])) := by
    rintro ⟨d, e⟩ he
    have hedge : N.HasEdge q (.eps e) d := ⟨s, hs, he⟩
    cases e with
    | startCapture g =>
      have h := applyTag_eq (off := o) (c := c) (e := .startCapture g) rfl (hN.tag_lt hedge rfl)
      simp only [fixEps, fixItem, h]
    | endCapture g =>
      have h := applyTag_eq (off := o) (c := c) (e := .endCapture g) rfl (hN.tag_lt hedge rfl)
      simp only [fixEps, fixItem, h]
    | none => simp [fixEps, fixItem, walkEvents]
    | startAnchor => simp [fixEps, fixItem, walkEvents]
    | endAnchor => simp [fixEps, fixItem, walkEvents]
  rw [fixSucc, mapM_eq_ok key]
  simp [driftSucc, fixItem, Function.comp_def]

theorem mem_driftSucc {q : Nat} {s : State σ} (hs : N[q]? = some s) {o : Nat} {c : Caps} {y} :
    y ∈ driftSucc s (q, o, c) ↔ DStep N (q, o, c) y := by
  simp only [driftSucc, List.mem_append, List.mem_map]
  constructor
  · rintro (⟨t, ht, rfl⟩ | ⟨e, he, rfl⟩)
    · exact .sym (a := t.symbol) ⟨s, hs, ht⟩
    · exact .eps ⟨s, hs, he⟩
  · intro h
    cases h with
    | sym h =>
      obtain ⟨s', h1, h2⟩ := h
      rw [hs] at h1; injection h1 with h1; subst h1
      exact .inl ⟨_, h2, rfl⟩
    | eps h =>
      obtain ⟨s', h1, h2⟩ := h
      rw [hs] at h1; injection h1 with h1; subst h1
      exact .inr ⟨_, h2, rfl⟩

theorem maxDeg_le {q : Nat} {s : State σ} (hs : N[q]? = some s) :
    s.transitions.length + s.epsilons.length ≤ N.maxDeg := by
  unfold NFA.maxDeg
  exact (le_foldl_max _ 0).2 _ (List.mem_map.mpr ⟨s, List.mem_of_getElem? hs, rfl⟩)

/-- Weight of a stack. -/
def fixWeight (N : NFA σ) (pos : Nat → Nat) (L : List (Nat × Nat × Caps)) : Nat :=
  (L.map (fun x => (N.maxDeg + 2) ^ (N.length - pos x.1))).sum

theorem fixWeight_append (pos : Nat → Nat) (L1 L2) :
    fixWeight N pos (L1 ++ L2) = fixWeight N pos L1 + fixWeight N pos L2 := by
  simp [fixWeight]

theorem fixWeight_reverse (pos : Nat → Nat) (L) : fixWeight N pos L.reverse = fixWeight N pos L := by
  unfold fixWeight
  rw [List.map_reverse, List.sum_reverse]

theorem fixWeight_bound (pos : Nat → Nat) (p : Nat) (L : List (Nat × Nat × Caps))
    (h : ∀ x ∈ L, p < pos x.1 ∧ p < N.length) :
    fixWeight N pos L ≤ L.length * (N.maxDeg + 2) ^ (N.length - p - 1) := by
  induction L with
  | nil => simp [fixWeight]
  | cons x L ih =>
    have h1 := ih (fun y hy => h y (by simp [hy]))
    have h2 : (N.maxDeg + 2) ^ (N.length - pos x.1) ≤ (N.maxDeg + 2) ^ (N.length - p - 1) :=
      Nat.pow_le_pow_right (by omega) (by have := h x (by simp); omega)
    have e : fixWeight N pos (x :: L) = (N.maxDeg + 2) ^ (N.length - pos x.1) + fixWeight N pos L := by
      simp [fixWeight]
    rw [e, List.length_cons, Nat.succ_mul]
    omega

theorem fixWeight_succ {pos : Nat → Nat} (hpos : ∀ a b, N.Edge a b → pos a < pos b)
    (hlt : ∀ q, q < N.length → pos q < N.length) {q : Nat} {s : State σ} (hs : N[q]? = some s) (o : Nat) (c : Caps) :
    fixWeight N pos (driftSucc s (q, o, c)) < fixWeight N pos [(q, o, c)] := by
  have hq : q < N.length := (List.getElem?_eq_some_iff.mp hs).1
  have h1 := fixWeight_bound (N := N) pos (pos q) (driftSucc s (q, o, c)) (by
    intro y hy
    rw [mem_driftSucc hs] at hy
    refine ⟨?_, hlt q hq⟩
    cases hy with
    | sym h => exact hpos _ _ (edge_iff.mpr ⟨_, h⟩)
    | eps h => exact hpos _ _ (edge_iff.mpr ⟨_, h⟩))
  have h2 : (driftSucc s (q, o, c)).length ≤ N.maxDeg := by
    have := maxDeg_le hs
    simpa [driftSucc] using this
  have h3 : fixWeight N pos [(q, o, c)] = (N.maxDeg + 2) * (N.maxDeg + 2) ^ (N.length - pos q - 1) := by
    have := hlt q hq
    simp only [fixWeight, List.map_cons, List.map_nil, List.sum_cons, List.sum_nil, Nat.add_zero]
    rw [← Nat.pow_succ']
    congr 1
    omega
  have h4 : 0 < (N.maxDeg + 2) ^ (N.length - pos q - 1) := Nat.pow_pos (by omega)
  rw [h3]
  calc _ ≤ _ := h1
    _ ≤ N.maxDeg * (N.maxDeg + 2) ^ (N.length - pos q - 1) := Nat.mul_le_mul_right _ h2
    _ < _ := Nat.mul_lt_mul_of_pos_right (by omega) h4

/-- Two walks to the accept state with different captures. -/
def NFA.Conflict (N : NFA σ) : Prop :=
  ∃ o c o' c', N.Drift (N.length - 1) o c ∧ N.Drift (N.length - 1) o' c' ∧
    slotsOf N.numCaptureGroups c ≠ slotsOf N.numCaptureGroups c'

theorem fixLoop_spec (hN : Ready N) {pos : Nat → Nat} (hpos : ∀ a b, N.Edge a b → pos a < pos b)
    (hlt : ∀ q, q < N.length → pos q < N.length) :
    ∀ (k : Nat) (L : List (Nat × Nat × Caps)) (final : Option Caps),
      (∀ x ∈ L, N.Drift x.1 x.2.1 x.2.2 ∧ x.1 < N.length) →
      (∀ f, final = some f → ∃ o, N.Drift (N.length - 1) o f) →
      fixWeight N pos L < k →
      ∃ r, fixLoop N k (L.map (fixItem N.numCaptureGroups)) (final.map (slotsOf N.numCaptureGroups)) = .ok r ∧
        (r = none → N.Conflict) ∧
        ∀ res, r = some res → (∀ f, final = some f → res = some (slotsOf N.numCaptureGroups f)) ∧
          ∀ x ∈ L, ∀ o c, Relation.ReflTransGen (DStep N) x (N.length - 1, o, c) →
            res = some (slotsOf N.numCaptureGroups c)
  | 0, _, _, _, _, hk => absurd hk (by omega)
  | k + 1, [], final, _, _, _ => by
    refine ⟨some (final.map (slotsOf N.numCaptureGroups)), rfl, by simp, ?_⟩
    rintro res ⟨⟩
    exact ⟨by rintro f rfl; rfl, by simp⟩
  | k + 1, (q, o, c) :: L, final, hL, hf, hk => by
    have hne := List.length_pos_of_ne_nil hN.ne
    obtain ⟨hd, hq⟩ := hL (q, o, c) (by simp)
    simp only at hd hq
    have hs : N[q]? = some N[q] := List.getElem?_eq_getElem hq
    generalize hsq : N[q] = s at hs
    have hnew : ∀ x ∈ (driftSucc s (q, o, c)).reverse ++ L, N.Drift x.1 x.2.1 x.2.2 ∧ x.1 < N.length := by
      intro x hx
      rcases List.mem_append.1 hx with h1 | h1
      · rw [List.mem_reverse, mem_driftSucc hs] at h1
        refine ⟨hd.tail h1, ?_⟩
        cases h1 with
        | sym h => exact hN.wf _ _ _ h
        | eps h => exact hN.wf _ _ _ h
      · exact hL x (by simp [h1])
    have hw : fixWeight N pos ((driftSucc s (q, o, c)).reverse ++ L) < k := by
      rw [fixWeight_append, fixWeight_reverse]
      have h1 := fixWeight_succ hpos hlt hs o c
      have h2 : fixWeight N pos ((q, o, c) :: L) = fixWeight N pos [(q, o, c)] + fixWeight N pos L := by
        rw [← fixWeight_append]; rfl
      omega
    have hmap : ((driftSucc s (q, o, c)).map (fixItem N.numCaptureGroups)).reverse ++
        L.map (fixItem N.numCaptureGroups) =
        ((driftSucc s (q, o, c)).reverse ++ L).map (fixItem N.numCaptureGroups) := by
      rw [List.map_append, List.map_reverse]
    have hunf : fixLoop N (k + 1) (((q, o, c) :: L).map (fixItem N.numCaptureGroups))
        (final.map (slotsOf N.numCaptureGroups)) =
        if q + 1 = N.length then
          match final.map (slotsOf N.numCaptureGroups) with
          | none => fixLoop N k (((driftSucc s (q, o, c)).reverse ++ L).map (fixItem N.numCaptureGroups))
              (some (slotsOf N.numCaptureGroups c))
          | some f => if f ≠ slotsOf N.numCaptureGroups c then .ok none else
              fixLoop N k (((driftSucc s (q, o, c)).reverse ++ L).map (fixItem N.numCaptureGroups)) (some f)
        else fixLoop N k (((driftSucc s (q, o, c)).reverse ++ L).map (fixItem N.numCaptureGroups))
          (final.map (slotsOf N.numCaptureGroups)) := by
      rw [← hmap]
      simp only [List.map_cons, fixLoop]
      have e1 : N[(fixItem N.numCaptureGroups (q, o, c)).state]? = some s := hs
      simp only [e1, fixSucc_eq hN hs o c]
      rfl
    -- a walk from the head is empty or goes through a successor
    have hwalk : ∀ {o' c' res}, Relation.ReflTransGen (DStep N) (q, o, c) (N.length - 1, o', c') →
        (∀ x ∈ (driftSucc s (q, o, c)).reverse ++ L, ∀ o c, Relation.ReflTransGen (DStep N) x (N.length - 1, o, c) →
            res = some (slotsOf N.numCaptureGroups c)) →
        (q = N.length - 1 ∧ c = c') ∨ res = some (slotsOf N.numCaptureGroups c') := by
      intro o' c' res h hres
      rcases Relation.ReflTransGen.cases_head h with h1 | ⟨y, h1, h2⟩
      · simp only [Prod.mk.injEq] at h1; exact .inl ⟨h1.1, h1.2.2⟩
      · exact .inr (hres y (List.mem_append_left _ (List.mem_reverse.2 ((mem_driftSucc hs).2 h1))) _ _ h2)
    rw [hunf]
    by_cases hacc : q + 1 = N.length
    · rw [if_pos hacc]
      have hq1 : q = N.length - 1 := by omega
      cases hfin : final with
      | none =>
        obtain ⟨r, h1, h2, h3⟩ := fixLoop_spec hN hpos hlt k ((driftSucc s (q, o, c)).reverse ++ L)
          (some c) hnew (by rintro f ⟨⟩; exact ⟨o, hq1 ▸ hd⟩) hw
        refine ⟨r, h1, h2, fun res hr => ⟨by simp, ?_⟩⟩
        obtain ⟨h4, h5⟩ := h3 res hr
        intro x hx o' c' hxw
        rcases List.mem_cons.1 hx with h6 | h6
        · subst h6
          rcases hwalk hxw h5 with ⟨_, h7⟩ | h7
          · subst h7; exact h4 _ rfl
          · exact h7
        · exact h5 x (List.mem_append_right _ h6) o' c' hxw
      | some f =>
        obtain ⟨of, hof⟩ := hf f hfin
        simp only [Option.map_some]
        by_cases hfc : slotsOf N.numCaptureGroups f = slotsOf N.numCaptureGroups c
        · rw [if_neg (by simpa using hfc)]
          obtain ⟨r, h1, h2, h3⟩ := fixLoop_spec hN hpos hlt k ((driftSucc s (q, o, c)).reverse ++ L)
            (some f) hnew (by rintro f' ⟨⟩; exact ⟨of, hof⟩) hw
          refine ⟨r, h1, h2, fun res hr => ?_⟩
          obtain ⟨h4, h5⟩ := h3 res hr
          refine ⟨h4, ?_⟩
          intro x hx o' c' hxw
          rcases List.mem_cons.1 hx with h6 | h6
          · subst h6
            rcases hwalk hxw h5 with ⟨_, h7⟩ | h7
            · subst h7; rw [h4 _ rfl, hfc]
            · exact h7
          · exact h5 x (List.mem_append_right _ h6) o' c' hxw
        · rw [if_pos hfc]
          exact ⟨none, rfl, fun _ => ⟨of, f, o, c, hof, hq1 ▸ hd, hfc⟩, by simp⟩
    · rw [if_neg hacc]
      obtain ⟨r, h1, h2, h3⟩ := fixLoop_spec hN hpos hlt k ((driftSucc s (q, o, c)).reverse ++ L)
        final hnew hf hw
      refine ⟨r, h1, h2, fun res hr => ?_⟩
      obtain ⟨h4, h5⟩ := h3 res hr
      refine ⟨h4, ?_⟩
      intro x hx o' c' hxw
      rcases List.mem_cons.1 hx with h6 | h6
      · subst h6
        rcases hwalk hxw h5 with ⟨h7, _⟩ | h7
        · omega
        · exact h7
      · exact h5 x (List.mem_append_right _ h6) o' c' hxw

theorem slotsOf_nil (k : Nat) : slotsOf k [] = List.replicate k (none, none) := by
  unfold slotsOf
  rw [List.eq_replicate_iff]
  simp [Caps.start?, Caps.end?]

/-- There is a walk to every reachable state. -/
theorem drift_of_path {q : Nat} (h : Relation.ReflTransGen N.Edge 0 q) : ∃ o c, N.Drift q o c := by
  induction h with
  | refl => exact ⟨0, [], .refl⟩
  | tail _ he ih =>
    obtain ⟨o, c, h1⟩ := ih
    obtain ⟨l, hl⟩ := edge_iff.1 he
    cases l with
    | sym a => exact ⟨_, _, h1.tail (.sym hl)⟩
    | eps e => exact ⟨_, _, h1.tail (.eps hl)⟩

/-- `get_fixed_offsets` gives an answer exactly when the automaton has no cycle and all walks to the
accept state agree, and then it answers with what they record. -/
theorem fixedOffsets_spec (hN : Ready N) :
    ∃ r, N.fixedOffsets = .ok r ∧
      (r = none ↔ (∃ q, Relation.TransGen N.Edge q q) ∨ N.Conflict) ∧
      ∀ offs, r = some offs → ∀ o c, N.Drift (N.length - 1) o c → offs = slotsOf N.numCaptureGroups c := by
  have hne := List.length_pos_of_ne_nil hN.ne
  obtain ⟨t, h1, h2, h3⟩ := topological_spec N hN.ne
    (fun a b h => by obtain ⟨l, hl⟩ := edge_iff.1 h; exact hN.wf _ _ _ hl)
  have hreach : ∀ q < N.length, Relation.ReflTransGen N.Edge 0 q := fun q hq =>
    path_edge.1 (hN.trim q hq).1
  unfold NFA.fixedOffsets
  cases t with
  | none =>
    refine ⟨none, by rw [h1], ⟨fun _ => .inl ?_, fun _ => rfl⟩, by simp⟩
    rcases h2 rfl with h4 | ⟨q, h4, h5⟩
    · exact h4
    · exact absurd (hreach q h4) h5
  | some ord =>
    obtain ⟨h4, h5, -⟩ := h3 ord rfl
    have hnd : ord.Nodup := h4.nodup_iff.2 List.nodup_range
    have hmem : ∀ q, q ∈ ord ↔ q < N.length := fun q => by rw [h4.mem_iff, List.mem_range]
    have hlen : ord.length = N.length := by rw [h4.length_eq, List.length_range]
    have hpos : ∀ a b, N.Edge a b → ord.idxOf a < ord.idxOf b := by
      intro a b hab
      have ha : a ∈ ord := by
        obtain ⟨l, hl⟩ := edge_iff.1 hab
        exact (hmem a).2 (hasEdge_lt hl)
      obtain ⟨u, v, rfl⟩ := List.append_of_mem ha
      have hb := h5 u a v rfl b hab
      rw [List.nodup_append] at hnd
      obtain ⟨_, n2, n3⟩ := hnd
      rw [List.nodup_cons] at n2
      have hau : a ∉ u := fun h => n3 a h a (by simp) rfl
      have hbu : b ∉ u := fun h => n3 b h b (by simp [hb]) rfl
      have hba : a ≠ b := fun e => n2.1 (e ▸ hb)
      rw [List.idxOf_append_of_notMem hau, List.idxOf_append_of_notMem hbu]
      simp only [List.idxOf_cons_self]
      rw [List.idxOf_cons_ne _ hba]
      omega
    have hacyc : ¬ ∃ q, Relation.TransGen N.Edge q q := by
      rintro ⟨q, hq⟩
      have : ∀ a b, Relation.TransGen N.Edge a b → ord.idxOf a < ord.idxOf b := by
        intro a b h
        induction h with
        | single h => exact hpos _ _ h
        | tail _ h ih => exact ih.trans (hpos _ _ h)
      exact absurd (this q q hq) (by omega)
    obtain ⟨r, g1, g2, g3⟩ := fixLoop_spec hN hpos
      (fun q hq => by rw [← hlen]; exact List.idxOf_lt_length_of_mem ((hmem q).2 hq))
      ((N.maxDeg + 2) ^ N.length + 1) [(0, 0, [])] none (by
        intro x hx; rw [List.mem_singleton] at hx; subst hx; exact ⟨.refl, hne⟩) (by simp) (by
        simp only [fixWeight, List.map_cons, List.map_nil, List.sum_cons, List.sum_nil, Nat.add_zero]
        have := Nat.pow_le_pow_right (n := N.maxDeg + 2) (by omega) (Nat.sub_le N.length (ord.idxOf 0))
        omega)
    have g1' : fixLoop N ((N.maxDeg + 2) ^ N.length + 1)
        [⟨0, 0, List.replicate N.numCaptureGroups (none, none)⟩] none = .ok r := by
      rw [← slotsOf_nil]; exact g1
    rw [h1]
    simp only [g1']
    cases r with
    | none =>
      exact ⟨none, rfl, ⟨fun _ => .inr (g2 rfl), fun _ => rfl⟩, by simp⟩
    | some res =>
      obtain ⟨-, g5⟩ := g3 res rfl
      have g6 : ∀ o c, N.Drift (N.length - 1) o c → res = some (slotsOf N.numCaptureGroups c) :=
        fun o c h => g5 _ (by simp) o c h
      refine ⟨res, rfl, ⟨?_, ?_⟩, ?_⟩
      · rintro rfl
        obtain ⟨o, c, h⟩ := drift_of_path (hreach (N.length - 1) (by omega))
        have := g6 o c h
        simp at this
      · rintro (h | ⟨o, c, o', c', h6, h7, h8⟩)
        · exact absurd h hacyc
        · have e1 := g6 _ _ h6
          have e2 := g6 _ _ h7
          rw [e1] at e2; injection e2 with e2
          exact absurd e2 h8
      · intro offs ho o c h
        have := g6 o c h
        rw [ho] at this; injection this

end

/-- Slicing at offsets that both come from a match. -/
theorem fixedSlot_ok {e : ERE} {text : List Char} {S : List Span} {caps : Caps} (h : e.Captures text S)
    (hr : Reads caps S) (g : Nat) :
    fixedSlot text (caps.start? g, caps.end? g) = .ok (lastSpan S g) := by
  have := finishSlot_ok h hr g
  obtain ⟨h1, h2⟩ := reads_last hr g
  rw [h1, h2] at this ⊢
  cases hl : lastSpan S g with
  | none => rfl
  | some p => rw [hl] at this; exact this

theorem fixed_captures {e : ERE} {text : List Char} {S : List Span} {caps : Caps} (h : e.Captures text S)
    (hr : Reads caps S) {k : Nat} (hk : ∀ g, k ≤ g → caps.start? g = none) :
    ∃ r, (slotsOf k caps).mapM (fixedSlot text) = .ok r ∧ r.length = k ∧ ∀ g, (r[g]?).join = lastSpan S g := by
  obtain ⟨r, h1, h2, h3⟩ := slots_captures h hr hk
  refine ⟨r, ?_, h2, h3⟩
  rw [← h1]
  have key : ∀ l : Slots, (∀ x ∈ l, fixedSlot text x = finishSlot text x) →
      l.mapM (fixedSlot text) = l.mapM (finishSlot text) := by
    intro l
    induction l with
    | nil => intro _; rfl
    | cons a l ih =>
      intro hh
      rw [List.mapM_cons, List.mapM_cons, hh a (by simp), ih (fun x hx => hh x (by simp [hx]))]
  refine key _ fun x hx => ?_
  unfold slotsOf at hx
  obtain ⟨g, _, rfl⟩ := List.mem_map.1 hx
  rw [fixedSlot_ok h hr g, finishSlot_ok h hr g]

/-- The fixed-offset engine of a pattern. -/
theorem fixed_engine (U : Utf8Seqs) {e : ERE} {N : NFA Atom} {M : NFA U8Atom}
    (h1 : workingNew (Tree.fromERE e).1 = .ok N) (h2 : u8New U.seqs N = .ok M) (hne : M ≠ []) :
      ∃ r, M.fixedOffsets = .ok r ∧ ∀ offs, r = some offs → offs.length = M.numCaptureGroups ∧
        ∀ text S, e.Captures text S → ∃ res, fixedExec offs true text = .ok (some res) ∧
          res.length = offs.length ∧ ∀ g, (res[g]?).join = lastSpan S g := by
  obtain ⟨hN, hM, h3, h4⟩ := pipeline_ne U e h1 h2 hne
  obtain ⟨r, h5, _, h6⟩ := fixedOffsets_spec hM
  refine ⟨r, h5, fun offs hr => ?_⟩
  have hrun : ∀ text S, e.Captures text S → ∃ caps, Reads caps S ∧ offs = slotsOf M.numCaptureGroups caps ∧
      ∀ g, M.numCaptureGroups ≤ g → caps.start? g = none := by
    intro text S hS
    obtain ⟨caps, hR, hrun⟩ := captures_run hS
    have hacc := (acc_enc h4 text _ caps).2 ((h3 text caps).2 hrun)
    exact ⟨caps, hR, h6 offs hr _ _ (run_drift hacc.2), fun g hg => reach_start_none hacc.2 hg⟩
  constructor
  · obtain ⟨o, c, hd⟩ := drift_of_path (path_edge.1 (hM.trim (M.length - 1) (by
      have := List.length_pos_of_ne_nil hM.ne; omega)).1)
    rw [h6 offs hr o c hd]; simp [slotsOf]
  · intro text S hS
    obtain ⟨caps, hR, h7, h8⟩ := hrun text S hS
    obtain ⟨res, m1, m2, m3⟩ := fixed_captures hS hR h8
    refine ⟨res, ?_, by rw [m2, h7]; simp [slotsOf], m3⟩
    rw [fixedExec, if_pos rfl, h7, m1]

end Ere
