import Verif.Proofs.DrawLabels
import Verif.Proofs.Minimise

/-!
# What the drawings of automata show
-/

namespace Ere

theorem nodesOf_zipIdx (lay : Option (List (Int × Int))) (g : List GState) : ∀ i,
    nodesOf lay i g = (g.zipIdx i).map (fun p => nodeOf lay p.2 p.1) := by
  induction g with
  | nil => intro i; rfl
  | cons s g ih => intro i; simp only [nodesOf, List.zipIdx_cons, List.map_cons, ih]

theorem edgesOf_zipIdx (lay : Option (List (Int × Int))) (g : List GState) : ∀ i,
    edgesOf lay i g = (g.zipIdx i).flatMap (fun p => p.1.transitions.map (edgeOf lay p.2)) := by
  induction g with
  | nil => intro i; rfl
  | cons s g ih => intro i; simp only [edgesOf, List.zipIdx_cons, List.flatMap_cons, ih]

theorem zipIdx_mapIdx {β γ : Type} (f : Nat → β → γ) (l : List β) :
    (l.mapIdx f).zipIdx = l.zipIdx.map (fun p => (f p.2 p.1, p.2)) := by
  apply List.ext_getElem?
  intro i
  simp only [List.getElem?_zipIdx, List.getElem?_mapIdx, List.getElem?_map]
  cases l[i]? <;> simp

theorem mem_nodesOf {lay : Option (List (Int × Int))} {g : List GState} {n : PNode} :
    n ∈ nodesOf lay 0 g ↔ ∃ (i : Nat) (s : GState), g[i]? = some s ∧ n = nodeOf lay i s := by
  rw [nodesOf_zipIdx, List.mem_map]
  constructor
  · rintro ⟨⟨s, i⟩, h, rfl⟩
    rw [List.mem_zipIdx_iff_getElem?] at h
    exact ⟨i, s, h, rfl⟩
  · rintro ⟨i, s, h, rfl⟩
    exact ⟨(s, i), List.mem_zipIdx_iff_getElem?.2 h, rfl⟩

theorem mem_edgesOf {lay : Option (List (Int × Int))} {g : List GState} {e : PEdge} :
    e ∈ edgesOf lay 0 g ↔ ∃ (i : Nat) (s : GState), g[i]? = some s ∧
      ∃ t ∈ s.transitions, e = edgeOf lay i t := by
  rw [edgesOf_zipIdx, List.mem_flatMap]
  constructor
  · rintro ⟨⟨s, i⟩, h, h2⟩
    rw [List.mem_zipIdx_iff_getElem?] at h
    obtain ⟨t, ht, rfl⟩ := List.mem_map.1 h2
    exact ⟨i, s, h, t, ht, rfl⟩
  · rintro ⟨i, s, h, t, ht, rfl⟩
    exact ⟨(s, i), List.mem_zipIdx_iff_getElem?.2 h, List.mem_map.2 ⟨t, ht, rfl⟩⟩

theorem picture_step {lay : Option (List (Int × Int))} {g : Graph} (a b : Nat) :
    (Picture.mk (nodesOf lay 0 g) (edgesOf lay 0 g)).Step a b ↔ g.Step a b := by
  constructor
  · rintro ⟨e, he, h1, h2, h3⟩
    obtain ⟨i, s, hs, t, ht, rfl⟩ := mem_edgesOf.1 he
    have h1 : i = a := h1
    subst h1
    exact ⟨s, hs, t, ht, h2, h3⟩
  · rintro ⟨s, hs, t, ht, h1, h2⟩
    exact ⟨edgeOf lay a t, mem_edgesOf.2 ⟨a, s, hs, t, ht, rfl⟩, rfl, h1, h2⟩

theorem picture_layered {lay : Option (List (Int × Int))} {g : Graph} :
    (Picture.mk (nodesOf lay 0 g) (edgesOf lay 0 g)).Layered ↔ g.Layered := by
  have hs : (Picture.mk (nodesOf lay 0 g) (edgesOf lay 0 g)).Step = g.Step := by
    funext a b; exact propext (picture_step a b)
  constructor
  · intro h
    refine ⟨?_, ?_, ?_⟩
    · rintro rfl; exact h.ne rfl
    · intro i hi
      have := h.reach (nodeOf lay i g[i])
        (mem_nodesOf.2 ⟨i, g[i], List.getElem?_eq_getElem hi, rfl⟩)
      rw [hs] at this
      exact this
    · have := h.acyclic
      rw [hs] at this
      exact this
  · intro h
    refine ⟨?_, ?_, ?_⟩
    · intro hn
      apply h.ne
      have hn : nodesOf lay 0 g = [] := hn
      rw [nodesOf_zipIdx, List.map_eq_nil_iff] at hn
      have := congrArg List.length hn
      rw [List.length_zipIdx] at this
      exact List.length_eq_zero_iff.1 this
    · intro n hn
      obtain ⟨i, s, hi, rfl⟩ := mem_nodesOf.1 hn
      rw [hs]
      exact h.reach i (List.getElem?_eq_some_iff.1 hi).1
    · rw [hs]; exact h.acyclic

/-- The drawing of a graph: it is made, and the picture shows the graph, in layers if the graph has them,
in a row otherwise. -/
theorem toTikz_picture {g : Graph} (hg : g.InRange) (ht : Graph.Tidy g) (doc : Bool) :
    ∃ s lay, g.toTikz doc = .ok s ∧ readPicture s = some ⟨nodesOf lay 0 g, edgesOf lay 0 g⟩ ∧
      (((Picture.mk (nodesOf lay 0 g) (edgesOf lay 0 g)).Layered ∧
        ∃ pos, (Picture.mk (nodesOf lay 0 g) (edgesOf lay 0 g)).InLayers pos) ∨
       (¬ (Picture.mk (nodesOf lay 0 g) (edgesOf lay 0 g)).Layered ∧
        (Picture.mk (nodesOf lay 0 g) (edgesOf lay 0 g)).InRow ∧
        (Picture.mk (nodesOf lay 0 g) (edgesOf lay 0 g)).LoopsShown)) := by
  obtain ⟨s, hs⟩ := toTikz_ok hg doc
  obtain ⟨lay, h1, h2⟩ := toTikz_read hs ht
  refine ⟨s, lay, hs, h2, ?_⟩
  rw [picture_layered]
  rcases layout_spec hg with ⟨hL, hl⟩ | ⟨hL, ps, hl, hlen, hap, hright⟩
  · rw [hl] at h1
    cases h1
    refine .inr ⟨hL, ?_, ?_⟩
    · intro n hn
      obtain ⟨i, s, hi, rfl⟩ := mem_nodesOf.1 hn
      rfl
    · intro e he hse
      obtain ⟨i, s, hi, t, ht, rfl⟩ := mem_edgesOf.1 he
      have : t.dst = i := hse.symm
      simp [edgeOf, this]
  · rw [hl] at h1
    cases h1
    refine .inl ⟨hL, fun i => (ps[i]?).getD (0, 0), ?_⟩
    refine ⟨?_, ?_, ?_⟩
    · intro n hn
      obtain ⟨i, s, hi, rfl⟩ := mem_nodesOf.1 hn
      have hlt : i < ps.length := by rw [hlen]; exact (List.getElem?_eq_some_iff.1 hi).1
      simp [nodeOf, List.getElem?_eq_getElem hlt]
    · intro n hn m hm he
      obtain ⟨i, s, hi, rfl⟩ := mem_nodesOf.1 hn
      obtain ⟨j, s', hj, rfl⟩ := mem_nodesOf.1 hm
      have hi' := (List.getElem?_eq_some_iff.1 hi).1
      have hlt : i < ps.length := by rw [hlen]; exact hi'
      have hlt' : j < ps.length := by rw [hlen]; exact (List.getElem?_eq_some_iff.1 hj).1
      refine hap i j hi' ?_
      have he : (ps[i]?).getD (0, 0) = (ps[j]?).getD (0, 0) := he
      rw [List.getElem?_eq_getElem hlt, List.getElem?_eq_getElem hlt'] at he ⊢
      exact congrArg some he
    · intro e he hne
      obtain ⟨i, s, hi, t, ht, rfl⟩ := mem_edgesOf.1 he
      have hst : g.Step i t.dst := ⟨s, hi, t, ht, rfl, fun e => hne e.symm⟩
      have hb := hst.lt hg
      rw [← hlen] at hb
      have := hright i t.dst _ _ hst (List.getElem?_eq_getElem hb.1) (List.getElem?_eq_getElem hb.2)
      show ((ps[i]?).getD (0, 0)).1 < ((ps[t.dst]?).getD (0, 0)).1
      rw [List.getElem?_eq_getElem hb.1, List.getElem?_eq_getElem hb.2]
      simp only [Option.getD_some]
      omega

/-- What the nodes of the picture of a graph say. -/
theorem nodesOf_says (lay : Option (List (Int × Int))) (g : Graph) :
    (nodesOf lay 0 g).map (fun n => (n.name, n.initial, n.accepting, texShows n.label)) =
      g.zipIdx.map (fun p => (p.2, p.1.initial, p.1.accept, some p.1.label)) := by
  rw [nodesOf_zipIdx, List.map_map]
  apply List.map_congr_left
  intro p _
  simp [nodeOf, texShows_escapeLatex]

/-- What the edges of the picture of a graph say. -/
theorem edgesOf_says (lay : Option (List (Int × Int))) (g : Graph) :
    (edgesOf lay 0 g).map (fun e => (e.src, readMark e.label, e.dst)) =
      g.zipIdx.flatMap (fun p => p.1.transitions.map (fun t => (p.2, readMark t.label, t.dst))) := by
  rw [edgesOf_zipIdx, List.map_flatMap]
  simp only [List.map_map]
  rfl

/-! ### Nondeterministic automata -/

section
variable {σ : Type} (display : σ → List Char)

theorem mem_toGraph {N : NFA σ} {s : GState} (h : s ∈ N.toGraph display) :
    ∃ (i : Nat) (x : State σ), N[i]? = some x ∧ s = x.toG display N.length i := by
  obtain ⟨i, hi⟩ := List.mem_iff_getElem?.1 h
  rw [NFA.toGraph, List.getElem?_mapIdx] at hi
  cases hx : N[i]? with
  | none => rw [hx] at hi; cases hi
  | some x => rw [hx] at hi; exact ⟨i, x, hx, (Option.some.inj hi).symm⟩

theorem toGraph_length (N : NFA σ) : (N.toGraph display).length = N.length := by
  simp [NFA.toGraph]

theorem toGraph_inRange {N : NFA σ} (hN : ∀ s ∈ N, (∀ t ∈ s.transitions, t.dst < N.length) ∧
    ∀ e ∈ s.epsilons, e.dst < N.length) : (N.toGraph display).InRange := by
  intro s hs t ht
  obtain ⟨i, x, hx, rfl⟩ := mem_toGraph display hs
  rw [toGraph_length]
  have hm := hN x (List.mem_of_getElem? hx)
  rcases List.mem_append.1 ht with ht | ht
  · obtain ⟨t', ht', rfl⟩ := List.mem_map.1 ht
    exact hm.1 t' ht'
  · obtain ⟨k, hk⟩ := List.mem_iff_getElem?.1 ht
    rw [List.getElem?_mapIdx] at hk
    cases he : x.epsilons[k]? with
    | none => rw [he] at hk; cases hk
    | some e =>
      rw [he] at hk
      rw [← Option.some.inj hk]
      exact hm.2 e (List.mem_of_getElem? he)

theorem toGraph_tidy (N : NFA σ) : Graph.Tidy (N.toGraph display) := by
  intro s hs t ht
  obtain ⟨i, x, hx, rfl⟩ := mem_toGraph display hs
  rcases List.mem_append.1 ht with ht | ht
  · obtain ⟨t', ht', rfl⟩ := List.mem_map.1 ht
    exact .escapeLatex _
  · obtain ⟨k, hk⟩ := List.mem_iff_getElem?.1 ht
    rw [List.getElem?_mapIdx] at hk
    cases he : x.epsilons[k]? with
    | none => rw [he] at hk; cases hk
    | some e =>
      rw [he] at hk
      rw [← Option.some.inj hk]
      exact .eps _ _

theorem toGraph_nodes (N : NFA σ) :
    (N.toGraph display).zipIdx.map (fun p => (p.2, p.1.initial, p.1.accept, some p.1.label)) =
      (List.range N.length).map (fun i => (i, decide (i = 0), decide (i + 1 = N.length), some ('q' :: decimal i))) := by
  rw [NFA.toGraph, zipIdx_mapIdx, List.map_map]
  apply List.ext_getElem?
  intro i
  simp only [List.getElem?_map, List.getElem?_zipIdx]
  by_cases h : i < N.length
  · rw [List.getElem?_eq_getElem h, List.getElem?_range h]
    simp only [Option.map_some, Function.comp, State.toG, Nat.zero_add]
    rfl
  · rw [List.getElem?_eq_none (by omega), List.getElem?_eq_none (by simpa using h)]
    rfl

theorem toGraph_edges (N : NFA σ) :
    (N.toGraph display).zipIdx.flatMap (fun p => p.1.transitions.map (fun t => (p.2, readMark t.label, t.dst))) =
      N.zipIdx.flatMap (fun p =>
        p.1.transitions.map (fun t => (p.2, some (Mark.text (display t.symbol)), t.dst)) ++
        p.1.epsilons.mapIdx (fun k e => (p.2, some (Mark.eps e.special k), e.dst))) := by
  rw [NFA.toGraph, zipIdx_mapIdx, List.flatMap_map]
  congr 1
  funext p
  simp only [State.toG, List.map_append, List.map_map]
  congr 1
  · apply List.map_congr_left
    intro t _
    simp [readMark_escape]
  · apply List.ext_getElem?
    intro k
    simp only [List.getElem?_map, List.getElem?_mapIdx]
    cases p.1.epsilons[k]? with
    | none => rfl
    | some e => simp [readMark_eps]

end

/-! ### Deterministic automata -/

/-- The graph of a deterministic automaton, for both kinds of them: what matters of the states is the label,
the transitions and the label of the edge to the accept state. -/
structure RowD where
  label : List Char
  trans : List (U8Atom × Nat)
  acc : Option (List Char)

def RowD.toG (n i : Nat) (r : RowD) : GState :=
  ⟨r.label, r.trans.map (fun t => ⟨t.2 + 1, escapeLatex t.1.displayRange⟩) ++
    (r.acc.map (fun l => (⟨n + 1, escapeLatex l⟩ : GTrans))).toList, i == 0, false⟩

def rowsToGraph (rows : List RowD) : Graph := rows.mapIdx (fun i r => r.toG (rows.length - 1) i) ++ [acceptG]

/-- The label of the edge to the accept state. -/
def TAccept.shown : TAccept → Option (List Char)
  | .anchored _ => some ['$']
  | .both _ _ => some []
  | .unanchored _ => some []
  | .none => Option.none

def DAccept.shown : DAccept → Option (List Char)
  | .anchored => some ['$']
  | .always => some []
  | .none => Option.none

theorem tdfa_rows (D : TDFA) : D.toGraph = rowsToGraph ((D.start :: D.states).map (fun s =>
    ⟨joinComma s.nfa, s.trans.map (fun t => (t.symbol, t.dst)), s.accept.shown⟩)) := by
  unfold TDFA.toGraph rowsToGraph
  congr 1
  apply List.ext_getElem?
  intro i
  simp only [List.getElem?_mapIdx, List.getElem?_map, Option.map_map]
  congr 1
  funext s
  simp only [Function.comp, TState.toG, RowD.toG, List.map_map, List.length_map, List.length_cons,
    Nat.add_sub_cancel]
  congr 2
  cases s.accept <;> rfl

theorem dfa_rows (D : DFA) : D.toGraph = rowsToGraph ((D.start :: D.states).mapIdx (fun i s =>
    ⟨decimal i, s.trans.map (fun t => (t.symbol, t.dst)), s.accept.shown⟩)) := by
  unfold DFA.toGraph rowsToGraph
  congr 1
  apply List.ext_getElem?
  intro i
  simp only [List.getElem?_mapIdx, Option.map_map]
  congr 1
  funext s
  simp only [Function.comp, DState.toG, RowD.toG, List.map_map, List.length_mapIdx, List.length_cons,
    Nat.add_sub_cancel]
  congr 2
  cases s.accept <;> rfl

theorem mem_rowsToGraph {rows : List RowD} {s : GState} (h : s ∈ rowsToGraph rows) :
    s = acceptG ∨ ∃ (i : Nat) (r : RowD), rows[i]? = some r ∧ s = r.toG (rows.length - 1) i := by
  rcases List.mem_append.1 h with h | h
  · right
    obtain ⟨i, hi⟩ := List.mem_iff_getElem?.1 h
    rw [List.getElem?_mapIdx] at hi
    cases hx : rows[i]? with
    | none => rw [hx] at hi; cases hi
    | some x => rw [hx] at hi; exact ⟨i, x, hx, (Option.some.inj hi).symm⟩
  · left
    simpa using h

theorem rows_inRange {rows : List RowD} (hne : rows ≠ [])
    (h : ∀ r ∈ rows, ∀ t ∈ r.trans, t.2 + 1 < rows.length) : (rowsToGraph rows).InRange := by
  have hpos := List.length_pos_of_ne_nil hne
  intro s hs t ht
  have hlen : (rowsToGraph rows).length = rows.length + 1 := by simp [rowsToGraph]
  rw [hlen]
  rcases mem_rowsToGraph hs with rfl | ⟨i, r, hr, rfl⟩
  · cases ht
  · rcases List.mem_append.1 ht with ht | ht
    · obtain ⟨t', ht', rfl⟩ := List.mem_map.1 ht
      have := h r (List.mem_of_getElem? hr) t' ht'
      simp only
      omega
    · cases ha : r.acc with
      | none => rw [ha] at ht; cases ht
      | some l =>
        rw [ha] at ht
        simp only [Option.map_some, Option.toList_some, List.mem_singleton] at ht
        subst ht
        simp only
        omega

theorem rows_tidy (rows : List RowD) : Graph.Tidy (rowsToGraph rows) := by
  intro s hs t ht
  rcases mem_rowsToGraph hs with rfl | ⟨i, r, hr, rfl⟩
  · cases ht
  · rcases List.mem_append.1 ht with ht | ht
    · obtain ⟨t', ht', rfl⟩ := List.mem_map.1 ht
      exact .escapeLatex _
    · cases ha : r.acc with
      | none => rw [ha] at ht; cases ht
      | some l =>
        rw [ha] at ht
        simp only [Option.map_some, Option.toList_some, List.mem_singleton] at ht
        subst ht
        exact .escapeLatex _

theorem rows_nodes (rows : List RowD) :
    (rowsToGraph rows).zipIdx.map (fun p => (p.2, p.1.initial, p.1.accept, some p.1.label)) =
      rows.zipIdx.map (fun p => (p.2, decide (p.2 = 0), false, some p.1.label)) ++
        [(rows.length, false, true, some "accept".toList)] := by
  rw [rowsToGraph, List.zipIdx_append, List.map_append, zipIdx_mapIdx, List.map_map]
  congr 1
  simp [acceptG]

theorem rows_edges (rows : List RowD) :
    (rowsToGraph rows).zipIdx.flatMap (fun p => p.1.transitions.map (fun t => (p.2, readMark t.label, t.dst))) =
      rows.zipIdx.flatMap (fun p =>
        p.1.trans.map (fun t => (p.2, some (Mark.text t.1.displayRange), t.2 + 1)) ++
        (p.1.acc.map (fun l => (p.2, some (Mark.text l), rows.length - 1 + 1))).toList) := by
  rw [rowsToGraph, List.zipIdx_append, List.flatMap_append, zipIdx_mapIdx, List.flatMap_map]
  have : (List.zipIdx [acceptG] (0 + (rows.mapIdx (fun i r => r.toG (rows.length - 1) i)).length)).flatMap
      (fun p => p.1.transitions.map (fun t => (p.2, readMark t.label, t.dst))) = [] := by
    simp [acceptG]
  rw [this, List.append_nil]
  congr 1
  funext p
  simp only [RowD.toG, List.map_append, List.map_map]
  congr 1
  · apply List.map_congr_left
    intro t _
    simp [readMark_escape]
  · cases p.1.acc with
    | none => rfl
    | some l => simp [readMark_escape]

end Ere
