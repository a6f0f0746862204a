import Verif.Proofs.DrawShows
import Verif.Proofs.DrawBytes

/-!
# A drawing determines its automaton
-/

namespace Ere

theorem filter_blocks {β γ : Type} {f : β × Nat → List (Nat × γ)} (hf : ∀ p, ∀ x ∈ f p, x.1 = p.2) (l : List β)
    (i : Nat) : ∀ k, ((l.zipIdx k).flatMap f).filter (fun x => x.1 == i) =
      if i < k then [] else ((l[i - k]?).map (fun b => f (b, i))).getD [] := by
  induction l with
  | nil => intro k; simp
  | cons b l ih =>
    intro k
    rw [List.zipIdx_cons, List.flatMap_cons, List.filter_append, ih]
    by_cases hik : i = k
    · subst hik
      have : (f (b, i)).filter (fun x => x.1 == i) = f (b, i) := by
        rw [List.filter_eq_self]
        intro x hx
        simpa using hf _ x hx
      rw [this]
      simp
    · have : (f (b, k)).filter (fun x => x.1 == i) = [] := by
        rw [List.filter_eq_nil_iff]
        intro x hx
        have := hf _ x hx
        simp only [beq_iff_eq]
        rw [this]
        exact fun e => hik e.symm
      rw [this, List.nil_append]
      by_cases hlt : i < k
      · rw [if_pos (by omega), if_pos hlt]
      · rw [if_neg (by omega), if_neg hlt]
        have : i - k = (i - (k + 1)) + 1 := by omega
        rw [this, List.getElem?_cons_succ]

/-- Equal concatenations of numbered blocks have equal blocks. -/
theorem blocks_eq {β γ : Type} {f f' : β × Nat → List (Nat × γ)} (hf : ∀ p, ∀ x ∈ f p, x.1 = p.2)
    (hf' : ∀ p, ∀ x ∈ f' p, x.1 = p.2) {l l' : List β} (h : l.zipIdx.flatMap f = l'.zipIdx.flatMap f')
    {i : Nat} {b b' : β} (hb : l[i]? = some b) (hb' : l'[i]? = some b') : f (b, i) = f' (b', i) := by
  have h1 := filter_blocks hf l i 0
  have h2 := filter_blocks hf' l' i 0
  rw [h] at h1
  rw [h1] at h2
  simpa [hb, hb'] using h2

/-- Lists that are told apart by a test. -/
theorem append_parts {β : Type} {p : β → Bool} {a b c d : List β} (ha : ∀ x ∈ a, p x = true)
    (hb : ∀ x ∈ b, p x = false) (hc : ∀ x ∈ c, p x = true) (hd : ∀ x ∈ d, p x = false)
    (h : a ++ b = c ++ d) : a = c ∧ b = d := by
  have e : ∀ {x y : List β}, (∀ z ∈ x, p z = true) → (∀ z ∈ y, p z = false) →
      (x ++ y).filter p = x ∧ (x ++ y).filter (fun z => !p z) = y := by
    intro x y hx hy
    rw [List.filter_append, List.filter_append]
    constructor
    · rw [List.filter_eq_self.2 hx, List.filter_eq_nil_iff.2 (fun z hz => by simp [hy z hz]), List.append_nil]
    · rw [List.filter_eq_nil_iff.2 (fun z hz => by simp [hx z hz]),
        List.filter_eq_self.2 (fun z hz => by simp [hy z hz]), List.nil_append]
  have h1 := e ha hb
  have h2 := e hc hd
  rw [h] at h1
  exact ⟨h1.1.symm.trans h2.1, h1.2.symm.trans h2.2⟩

/-- What two graphs with the same drawing have in common. -/
theorem toTikz_same {g g' : Graph} (ht : Graph.Tidy g) (ht' : Graph.Tidy g') {d d' : Bool} {s : List Char}
    (h : g.toTikz d = .ok s) (h' : g'.toTikz d' = .ok s) :
    g.zipIdx.map (fun p => (p.2, p.1.initial, p.1.accept, some p.1.label)) =
      g'.zipIdx.map (fun p => (p.2, p.1.initial, p.1.accept, some p.1.label)) ∧
    g.zipIdx.flatMap (fun p => p.1.transitions.map (fun t => (p.2, readMark t.label, t.dst))) =
      g'.zipIdx.flatMap (fun p => p.1.transitions.map (fun t => (p.2, readMark t.label, t.dst))) := by
  obtain ⟨lay, _, h1⟩ := toTikz_read h ht
  obtain ⟨lay', _, h2⟩ := toTikz_read h' ht'
  rw [h1] at h2
  have h3 := Option.some.inj h2
  simp only [Picture.mk.injEq] at h3
  refine ⟨?_, ?_⟩
  · rw [← nodesOf_says lay, ← nodesOf_says lay', h3.1]
  · rw [← edgesOf_says lay, ← edgesOf_says lay', h3.2]

/-- A nondeterministic automaton is determined by its drawing if its symbols are by their texts. -/
theorem nfa_drawing_inj {σ : Type} {display : σ → List Char} (hinj : ∀ a b, display a = display b → a = b)
    {N M : NFA σ} {d d' : Bool} {s : List Char} (h : (N.toGraph display).toTikz d = .ok s)
    (h' : (M.toGraph display).toTikz d' = .ok s) : N = M := by
  obtain ⟨h1, h2⟩ := toTikz_same (toGraph_tidy display N) (toGraph_tidy display M) h h'
  have hlen : N.length = M.length := by
    have := congrArg List.length h1
    simpa [toGraph_length] using this
  rw [toGraph_edges, toGraph_edges] at h2
  apply List.ext_getElem hlen
  intro i hi hi'
  have hb := blocks_eq ?_ ?_ h2 (List.getElem?_eq_getElem hi) (List.getElem?_eq_getElem hi')
  · obtain ⟨e1, e2⟩ := append_parts (p := fun x => match x.2.1 with | some (.text _) => true | _ => false)
      (by intro x hx; obtain ⟨t, _, rfl⟩ := List.mem_map.1 hx; rfl)
      (by
        intro x hx
        obtain ⟨k, hk, rfl⟩ := List.mem_mapIdx.1 hx
        rfl)
      (by intro x hx; obtain ⟨t, _, rfl⟩ := List.mem_map.1 hx; rfl)
      (by
        intro x hx
        obtain ⟨k, hk, rfl⟩ := List.mem_mapIdx.1 hx
        rfl) hb
    have t1 : N[i].transitions = M[i].transitions := by
      refine List.map_injective_iff.2 ?_ e1
      intro a b hab
      obtain ⟨a1, a2⟩ := a
      obtain ⟨b1, b2⟩ := b
      simp only [Prod.mk.injEq, Option.some.injEq, Mark.text.injEq, true_and] at hab
      rw [hinj _ _ hab.1, hab.2]
    have t2 : N[i].epsilons = M[i].epsilons := by
      have hl : N[i].epsilons.length = M[i].epsilons.length := by
        have := congrArg List.length e2
        simpa using this
      apply List.ext_getElem hl
      intro k hk hk'
      have := congrArg (fun l => l[k]?) e2
      simp only [List.getElem?_mapIdx, List.getElem?_eq_getElem hk, List.getElem?_eq_getElem hk',
        Option.map_some, Option.some.injEq, Prod.mk.injEq, Mark.eps.injEq, true_and, and_true] at this
      cases hx : N[i].epsilons[k]
      cases hy : M[i].epsilons[k]
      rw [hx, hy] at this
      simp only at this
      rw [this.1, this.2]
    cases hx : N[i]
    cases hy : M[i]
    rw [hx, hy] at t1 t2
    simp only at t1 t2
    rw [t1, t2]
  all_goals
    intro p x hx
    rcases List.mem_append.1 hx with hx | hx
    · obtain ⟨t, _, rfl⟩ := List.mem_map.1 hx; rfl
    · obtain ⟨k, hk, rfl⟩ := List.mem_mapIdx.1 hx; rfl

/-- What two deterministic automata with the same drawing have in common. -/
theorem rows_drawing_inj {rows rows' : List RowD}
    (ha : ∀ r ∈ rows, ∀ l, r.acc = some l → l.length < 3) (ha' : ∀ r ∈ rows', ∀ l, r.acc = some l → l.length < 3)
    {d d' : Bool} {s : List Char} (h : (rowsToGraph rows).toTikz d = .ok s)
    (h' : (rowsToGraph rows').toTikz d' = .ok s) : rows.map (fun r => (r.trans, r.acc)) =
      rows'.map (fun r => (r.trans, r.acc)) := by
  obtain ⟨h1, h2⟩ := toTikz_same (rows_tidy rows) (rows_tidy rows') h h'
  have hlen : rows.length = rows'.length := by
    have := congrArg List.length h1
    simpa [rowsToGraph] using this
  rw [rows_edges, rows_edges] at h2
  apply List.ext_getElem (by simpa using hlen)
  intro i hi hi'
  rw [List.getElem_map, List.getElem_map]
  rw [List.length_map] at hi hi'
  have hb := blocks_eq ?_ ?_ h2 (List.getElem?_eq_getElem hi) (List.getElem?_eq_getElem hi')
  · have hshort : ∀ {r : RowD} {n : Nat}, (∀ l, r.acc = some l → l.length < 3) →
        ∀ x ∈ (r.acc.map (fun l => (i, some (Mark.text l), n))).toList,
          (match x.2.1 with | some (Mark.text t) => decide (3 ≤ t.length) | _ => false) = false := by
      intro r n hr x hx
      cases hacc : r.acc with
      | none => rw [hacc] at hx; cases hx
      | some l =>
        rw [hacc] at hx
        simp only [Option.map_some, Option.toList_some, List.mem_singleton] at hx
        subst hx
        have := hr l hacc
        simp only [decide_eq_false_iff_not]
        omega
    obtain ⟨e1, e2⟩ := append_parts
      (p := fun x => match x.2.1 with | some (Mark.text t) => decide (3 ≤ t.length) | _ => false)
      (by
        intro x hx
        obtain ⟨t, _, rfl⟩ := List.mem_map.1 hx
        simpa using displayRange_length t.1)
      (hshort (ha _ (List.getElem_mem hi)))
      (by
        intro x hx
        obtain ⟨t, _, rfl⟩ := List.mem_map.1 hx
        simpa using displayRange_length t.1)
      (hshort (ha' _ (List.getElem_mem hi'))) hb
    have t1 : rows[i].trans = rows'[i].trans := by
      refine List.map_injective_iff.2 ?_ e1
      intro a b hab
      obtain ⟨a1, a2⟩ := a
      obtain ⟨b1, b2⟩ := b
      simp only [Prod.mk.injEq, Option.some.injEq, Mark.text.injEq, true_and] at hab
      rw [displayRange_inj hab.1, Nat.add_right_cancel hab.2]
    have t2 : rows[i].acc = rows'[i].acc := by
      cases hx : rows[i].acc with
      | none =>
        cases hy : rows'[i].acc with
        | none => rfl
        | some l => simp [hx, hy] at e2
      | some l =>
        cases hy : rows'[i].acc with
        | none => simp [hx, hy] at e2
        | some l' =>
          simp only [hx, hy, Option.map_some, Option.toList_some, List.cons.injEq, Prod.mk.injEq,
            Option.some.injEq, Mark.text.injEq, true_and, and_true] at e2
          rw [e2.1]
    rw [t1, t2]
  all_goals
    intro p x hx
    rcases List.mem_append.1 hx with hx | hx
    · obtain ⟨t, _, rfl⟩ := List.mem_map.1 hx; rfl
    · cases hacc : p.1.acc with
      | none => rw [hacc] at hx; cases hx
      | some l =>
        rw [hacc] at hx
        simp only [Option.map_some, Option.toList_some, List.mem_singleton] at hx
        subst hx
        rfl

theorem dfa_drawing_inj {D D' : DFA} {d d' : Bool} {s : List Char} (h : D.toTikz d = .ok s)
    (h' : D'.toTikz d' = .ok s) : D = D' := by
  unfold DFA.toTikz at h h'
  rw [dfa_rows] at h h'
  have hshort : ∀ (D : DFA), ∀ r ∈ (D.start :: D.states).mapIdx (fun i s =>
      (⟨decimal i, s.trans.map (fun t => (t.symbol, t.dst)), s.accept.shown⟩ : RowD)),
      ∀ l, r.acc = some l → l.length < 3 := by
    intro D r hr l hl
    obtain ⟨k, hk, rfl⟩ := List.mem_mapIdx.1 hr
    simp only at hl
    cases hacc : (D.start :: D.states)[k].accept <;> rw [hacc] at hl <;> cases hl <;> simp
  have key := rows_drawing_inj (hshort D) (hshort D') h h'
  have hl : (D.start :: D.states).length = (D'.start :: D'.states).length := by
    have := congrArg List.length key
    simpa using this
  have hall : D.start :: D.states = D'.start :: D'.states := by
    apply List.ext_getElem hl
    intro i hi hi'
    have := congrArg (fun l => l[i]?) key
    simp only [List.getElem?_map, List.getElem?_mapIdx, List.getElem?_eq_getElem hi,
      List.getElem?_eq_getElem hi', Option.map_some, Option.some.injEq, Prod.mk.injEq] at this
    obtain ⟨e1, e2⟩ := this
    have t1 : (D.start :: D.states)[i].trans = (D'.start :: D'.states)[i].trans := by
      refine List.map_injective_iff.2 ?_ e1
      intro a b hab
      obtain ⟨a1, a2⟩ := a
      obtain ⟨b1, b2⟩ := b
      simp only [Prod.mk.injEq] at hab
      rw [hab.1, hab.2]
    have t2 : (D.start :: D.states)[i].accept = (D'.start :: D'.states)[i].accept := by
      generalize (D.start :: D.states)[i].accept = x at e2
      generalize (D'.start :: D'.states)[i].accept = y at e2
      cases x <;> cases y <;> first | rfl | (simp [DAccept.shown] at e2)
    cases hx : (D.start :: D.states)[i]
    cases hy : (D'.start :: D'.states)[i]
    rw [hx, hy] at t1 t2
    simp only at t1 t2
    rw [t1, t2]
  obtain ⟨e1, e2⟩ := List.cons.inj hall
  cases D
  cases D'
  simp only at e1 e2
  rw [e1, e2]

end Ere
