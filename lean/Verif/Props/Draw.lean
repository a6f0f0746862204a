import Verif.Proofs.DrawInj
import Verif.Props.TDFA

/-!
# Property theorems about drawings: C47 (a drawing shows exactly the automaton), C48 (it determines the automaton),
C49 (layout), C50 (loops)

`readPicture` (`Spec/Picture`) reads a drawing back without knowing how it was made.
-/

namespace Ere.Props
open Ere

/-! ## C47 -/

/-- All targets of transitions exist. -/
def InRange {σ : Type} (N : NFA σ) : Prop :=
  ∀ s ∈ N, (∀ t ∈ s.transitions, t.dst < N.length) ∧ ∀ e ∈ s.epsilons, e.dst < N.length

/-- Name, start mark, accept mark and displayed text of the nodes. -/
def nodeFacts (P : Picture) : List (Nat × Bool × Bool × Option (List Char)) :=
  P.nodes.map (fun n => (n.name, n.initial, n.accepting, texShows n.label))

/-- The nodes of a drawing of a nondeterministic automaton with `n` states: the first is the start state, the last
the accept state. -/
def nfaNodes (n : Nat) : List (Nat × Bool × Bool × Option (List Char)) :=
  (List.range n).map (fun i => (i, decide (i = 0), decide (i + 1 = n), some ('q' :: decimal i)))

/-- **C47, automata over characters.** Drawing never panics, and what is drawn is exactly the states and the
transitions, in order; the label of a transition shows the printed atom. -/
theorem C47_draw_char (N : NFA Atom) (hN : InRange N) (doc : Bool) :
    ∃ s P, N.toTikz doc = .ok s ∧ readPicture s = some P ∧ nodeFacts P = nfaNodes N.length ∧
      P.edges.map (fun e => (e.src, readMark e.label, e.dst)) = N.zipIdx.flatMap (fun p =>
        p.1.transitions.map (fun t => (p.2, some (Mark.text t.symbol.display), t.dst)) ++
        p.1.epsilons.mapIdx (fun k e => (p.2, some (Mark.eps e.special k), e.dst))) := by
  obtain ⟨s, lay, h1, h2, _⟩ := toTikz_picture (toGraph_inRange Atom.display hN) (toGraph_tidy Atom.display N) doc
  refine ⟨s, _, h1, h2, ?_, ?_⟩
  · exact (nodesOf_says lay _).trans (toGraph_nodes Atom.display N)
  · exact (edgesOf_says lay _).trans (toGraph_edges Atom.display N)

/-- What is read of a mark of an automaton over bytes. -/
def nfaByte : Option Mark → Option ByteMark
  | some (.eps e k) => some (.eps e k)
  | some (.text t) => (readEscRange t).map (fun r => .bytes r.1 r.2)
  | none => none

theorem readNfaMark_eq (l : List Char) : readNfaMark l = nfaByte (readMark l) := by
  unfold readNfaMark nfaByte
  rfl

/-- **C47, automata over bytes.** -/
theorem C47_draw_byte (N : NFA U8Atom) (hN : InRange N) (doc : Bool) :
    ∃ s P, N.toTikzU8 doc = .ok s ∧ readPicture s = some P ∧ nodeFacts P = nfaNodes N.length ∧
      P.edges.map (fun e => (e.src, readNfaMark e.label, e.dst)) = N.zipIdx.flatMap (fun p =>
        p.1.transitions.map (fun t => (p.2, some (ByteMark.bytes t.symbol.lo t.symbol.hi), t.dst)) ++
        p.1.epsilons.mapIdx (fun k e => (p.2, some (ByteMark.eps e.special k), e.dst))) := by
  obtain ⟨s, lay, h1, h2, _⟩ := toTikz_picture (toGraph_inRange U8Atom.display hN) (toGraph_tidy U8Atom.display N) doc
  refine ⟨s, _, h1, h2, ?_, ?_⟩
  · exact (nodesOf_says lay _).trans (toGraph_nodes U8Atom.display N)
  · have h := (edgesOf_says lay _).trans (toGraph_edges U8Atom.display N)
    have h' := congrArg (List.map (fun x : Nat × Option Mark × Nat => (x.1, nfaByte x.2.1, x.2.2))) h
    rw [List.map_map, List.map_flatMap] at h'
    refine Eq.trans (List.map_congr_left fun e _ => ?_) (h'.trans ?_)
    · simp only [Function.comp, readNfaMark_eq]
    · congr 1
      funext p
      simp only [List.map_append, List.map_map]
      congr 1
      · apply List.map_congr_left
        intro t _
        simp [nfaByte, readEscRange_display]
      · apply List.ext_getElem?
        intro k
        simp only [List.getElem?_map, List.getElem?_mapIdx, Option.map_map]
        rfl

/-- The nodes of a drawing of a deterministic automaton: its states, with the given labels, and a node for
acceptance. -/
def dfaNodes (labels : List (List Char)) : List (Nat × Bool × Bool × Option (List Char)) :=
  labels.zipIdx.map (fun p => (p.2, decide (p.2 = 0), false, some p.1)) ++
    [(labels.length, false, true, some "accept".toList)]

/-- What is read of a mark of a deterministic automaton. -/
def dfaByte : Option Mark → Option ByteMark
  | some (.text []) => some .accept
  | some (.text ['$']) => some .acceptEnd
  | some (.text t) => (readQuotedRange t).map (fun r => .bytes r.1 r.2)
  | _ => none

theorem readDfaMark_eq (l : List Char) : readDfaMark l = dfaByte (readMark l) := rfl

theorem dfaByte_range (a : U8Atom) : dfaByte (some (.text a.displayRange)) = some (.bytes a.lo a.hi) := by
  have h := readQuotedRange_display a
  have hl := displayRange_length a
  unfold dfaByte
  split
  · rename_i e; simp only [Option.some.injEq, Mark.text.injEq] at e; rw [e] at hl; simp at hl
  · rename_i e; simp only [Option.some.injEq, Mark.text.injEq] at e; rw [e] at hl; simp at hl
  · rename_i e; simp only [Option.some.injEq, Mark.text.injEq] at e; rw [← e, h]; rfl
  · rename_i e; exact absurd rfl (e a.displayRange)

theorem rows_draw (rows : List RowD) (hne : rows ≠ []) (hr : ∀ r ∈ rows, ∀ t ∈ r.trans, t.2 + 1 < rows.length)
    (acc : RowD → Option ByteMark)
    (hacc : ∀ r ∈ rows, (r.acc.map (fun l => dfaByte (some (.text l)))) = (acc r).map some) (doc : Bool) :
    ∃ s P, (rowsToGraph rows).toTikz doc = .ok s ∧ readPicture s = some P ∧
      nodeFacts P = dfaNodes (rows.map RowD.label) ∧
      P.edges.map (fun e => (e.src, readDfaMark e.label, e.dst)) = rows.zipIdx.flatMap (fun p =>
        p.1.trans.map (fun t => (p.2, some (ByteMark.bytes t.1.lo t.1.hi), t.2 + 1)) ++
        ((acc p.1).map (fun m => (p.2, some m, rows.length))).toList) := by
  obtain ⟨s, lay, h1, h2, _⟩ := toTikz_picture (rows_inRange hne hr) (rows_tidy rows) doc
  refine ⟨s, _, h1, h2, ?_, ?_⟩
  · refine ((nodesOf_says lay _).trans (rows_nodes rows)).trans ?_
    unfold dfaNodes
    rw [List.zipIdx_map, List.map_map, List.length_map]
    rfl
  · have h := (edgesOf_says lay _).trans (rows_edges rows)
    have h' := congrArg (List.map (fun x : Nat × Option Mark × Nat => (x.1, dfaByte x.2.1, x.2.2))) h
    rw [List.map_map, List.map_flatMap] at h'
    refine Eq.trans (List.map_congr_left fun e _ => ?_) (h'.trans ?_)
    · simp only [Function.comp, readDfaMark_eq]
    · apply List.flatMap_congr
      intro p hp
      simp only [List.map_append, List.map_map]
      congr 1
      · apply List.map_congr_left
        intro t _
        simp only [Function.comp, dfaByte_range]
      · have hlen : rows.length - 1 + 1 = rows.length := by
          have := List.length_pos_of_ne_nil hne; omega
        have := hacc p.1 (List.mem_of_getElem? (List.mem_zipIdx_iff_getElem?.1 hp))
        rw [hlen]
        cases hx : p.1.acc with
        | none =>
          rw [hx] at this
          cases hy : acc p.1 with
          | none => rfl
          | some m => rw [hy] at this; cases this
        | some l =>
          rw [hx] at this
          cases hy : acc p.1 with
          | none => rw [hy] at this; cases this
          | some m =>
            rw [hy] at this
            simp only [Option.map_some, Option.some.injEq] at this
            simp [this]

/-- The mark of the edge to the accept node. -/
def taggedMark : TAccept → Option ByteMark
  | .anchored _ => some .acceptEnd
  | .both _ _ => some .accept
  | .unanchored _ => some .accept
  | .none => Option.none

theorem joinComma_eq (l : List Nat) : joinComma l = [','].intercalate (l.map decimal) := by
  match l with
  | [] => rfl
  | [n] => simp [joinComma, List.intercalate]
  | n :: m :: l =>
    have := joinComma_eq (m :: l)
    simp only [joinComma, this, List.map_cons, List.intercalate, List.intersperse_cons_cons, List.flatten_cons]
    rfl

/-- **C47, tagged automata.** State `i` is node `i` (the start state node 0) and has the numbers of its states of
the nondeterministic automaton as label; an accepting state has an edge to the accept node. -/
theorem C47_draw_tdfa (D : TDFA) (hD : ∀ s ∈ D.start :: D.states, ∀ t ∈ s.trans, t.dst < D.states.length)
    (doc : Bool) :
    ∃ s P, D.toTikz doc = .ok s ∧ readPicture s = some P ∧
      nodeFacts P = dfaNodes ((D.start :: D.states).map (fun x => [','].intercalate (x.nfa.map decimal))) ∧
      P.edges.map (fun e => (e.src, readDfaMark e.label, e.dst)) = (D.start :: D.states).zipIdx.flatMap (fun p =>
        p.1.trans.map (fun t => (p.2, some (ByteMark.bytes t.symbol.lo t.symbol.hi), t.dst + 1)) ++
        ((taggedMark p.1.accept).map (fun m => (p.2, some m, D.states.length + 1))).toList) := by
  have hacc : ∀ a : TAccept, (a.shown.map (fun l => dfaByte (some (.text l)))) = (taggedMark a).map some ∧
      a.shown.bind (fun l => dfaByte (some (.text l))) = taggedMark a := by
    intro a; cases a <;> exact ⟨rfl, rfl⟩
  obtain ⟨s, P, h1, h2, h3, h4⟩ := rows_draw ((D.start :: D.states).map (fun s =>
      (⟨joinComma s.nfa, s.trans.map (fun t => (t.symbol, t.dst)), s.accept.shown⟩ : RowD)))
    (by simp)
    (by
      intro r hr t ht
      obtain ⟨x, hx, rfl⟩ := List.mem_map.1 hr
      obtain ⟨t', ht', rfl⟩ := List.mem_map.1 ht
      have := hD x hx t' ht'
      simpa using this)
    (fun r => r.acc.bind (fun l => dfaByte (some (.text l))))
    (by
      intro r hr
      obtain ⟨x, hx, rfl⟩ := List.mem_map.1 hr
      simp only
      rw [(hacc x.accept).1, (hacc x.accept).2]) doc
  refine ⟨s, P, by rw [TDFA.toTikz, tdfa_rows]; exact h1, h2, ?_, ?_⟩
  · rw [h3, List.map_map]
    congr 2
    funext x
    exact joinComma_eq x.nfa
  · rw [h4, List.zipIdx_map, List.flatMap_map]
    congr 1
    funext ⟨x, i⟩
    simp only [List.map_map, Prod.map_apply, id, (hacc x.accept).2, List.length_map, List.length_cons]
    rfl

/-- The mark of the edge to the accept node. -/
def plainMark : DAccept → Option ByteMark
  | .anchored => some .acceptEnd
  | .always => some .accept
  | .none => Option.none

/-- **C47, deterministic automata.** -/
theorem C47_draw_dfa (D : DFA) (hD : ∀ s ∈ D.start :: D.states, ∀ t ∈ s.trans, t.dst < D.states.length)
    (doc : Bool) :
    ∃ s P, D.toTikz doc = .ok s ∧ readPicture s = some P ∧
      nodeFacts P = dfaNodes ((List.range (D.states.length + 1)).map decimal) ∧
      P.edges.map (fun e => (e.src, readDfaMark e.label, e.dst)) = (D.start :: D.states).zipIdx.flatMap (fun p =>
        p.1.trans.map (fun t => (p.2, some (ByteMark.bytes t.symbol.lo t.symbol.hi), t.dst + 1)) ++
        ((plainMark p.1.accept).map (fun m => (p.2, some m, D.states.length + 1))).toList) := by
  have hacc : ∀ a : DAccept, (a.shown.map (fun l => dfaByte (some (.text l)))) = (plainMark a).map some ∧
      a.shown.bind (fun l => dfaByte (some (.text l))) = plainMark a := by
    intro a; cases a <;> exact ⟨rfl, rfl⟩
  obtain ⟨s, P, h1, h2, h3, h4⟩ := rows_draw ((D.start :: D.states).mapIdx (fun i s =>
      (⟨decimal i, s.trans.map (fun t => (t.symbol, t.dst)), s.accept.shown⟩ : RowD)))
    (by simp)
    (by
      intro r hr t ht
      obtain ⟨i, hi, rfl⟩ := List.mem_mapIdx.1 hr
      obtain ⟨t', ht', rfl⟩ := List.mem_map.1 ht
      have := hD _ (List.getElem_mem hi) t' ht'
      simpa using this)
    (fun r => r.acc.bind (fun l => dfaByte (some (.text l))))
    (by
      intro r hr
      obtain ⟨i, hi, rfl⟩ := List.mem_mapIdx.1 hr
      simp only
      rw [(hacc _).1, (hacc _).2]) doc
  refine ⟨s, P, by rw [DFA.toTikz, dfa_rows]; exact h1, h2, ?_, ?_⟩
  · rw [h3]
    congr 1
    apply List.ext_getElem?
    intro i
    by_cases hi : i < D.states.length + 1
    · have hi' : i < (D.start :: D.states).length := by simpa using hi
      simp only [List.getElem?_map, List.getElem?_mapIdx, List.getElem?_range hi, List.getElem?_eq_getElem hi',
        Option.map_some]
    · rw [List.getElem?_eq_none (by simpa using hi), List.getElem?_eq_none (by simpa using hi)]
  · rw [h4, zipIdx_mapIdx, List.flatMap_map]
    congr 1
    funext p
    simp only [List.map_map, (hacc p.1.accept).2, List.length_mapIdx, List.length_cons]
    rfl

/-- Automata whose edges lead to existing states can be drawn. -/
theorem inRange_of_wf {σ : Type} {N : NFA σ} (h : N.WF) : InRange N := by
  intro s hs
  obtain ⟨q, hq⟩ := List.mem_iff_getElem?.1 hs
  refine ⟨fun t ht => h q (.sym t.symbol) t.dst ⟨s, hq, ?_⟩, fun e he => h q (.eps e.special) e.dst ⟨s, hq, ?_⟩⟩
  · exact ht
  · exact he

theorem inRange_nil {σ : Type} : InRange ([] : NFA σ) := by intro s hs; cases hs

/-- The automaton over characters of every pattern has all its targets, so that `C47_draw_char` applies. -/
theorem C47_pattern_char {e : ERE} {N : NFA Atom} (h : charNFA e = .ok N) : InRange N := by
  by_cases hne : N = []
  · rw [hne]; exact inRange_nil
  · exact inRange_of_wf (workingNew_ne e h hne).1.wf

/-- The same for the automaton over bytes. -/
theorem C47_pattern_byte (U : Utf8Seqs) {e : ERE} {M : NFA U8Atom} (h : byteNFA U.seqs e = .ok M) : InRange M := by
  by_cases hne : M = []
  · rw [hne]; exact inRange_nil
  · obtain ⟨N, h1, h2⟩ := byteNFA_ok h
    exact inRange_of_wf (pipeline_ne U e h1 h2 hne).2.1.wf

/-- The same for the two deterministic automata. -/
theorem C47_pattern_dfa (U : Utf8Seqs) {e : ERE} {G : DfaEngine} (h : compileDfaU8 U.seqs e = .ok (some G)) :
    (∀ s ∈ G.tdfa.start :: G.tdfa.states, ∀ t ∈ s.trans, t.dst < G.tdfa.states.length) ∧
    ∀ s ∈ G.dfa.start :: G.dfa.states, ∀ t ∈ s.trans, t.dst < G.dfa.states.length := by
  unfold compileDfaU8 at h
  split at h
  · simp at h
  · rename_i M hb
    obtain ⟨N, h1, h2⟩ := byteNFA_ok hb
    have hM := (pipeline_ne U e h1 h2 (dfaOf_ne h)).2.1
    rcases fromNFA_spec hM.wf hM.ne (TDFA.defaultBound M.length) with ⟨g1, _⟩ | ⟨D, g1, _, g3⟩
    · rw [dfaOf, g1] at h; simp at h
    obtain ⟨D', d1, d2, _, _⟩ := fromTagged_spec g3
    rw [dfaOf, g1] at h
    simp only [serializeDfa] at h
    rw [d1] at h
    injection h with h
    injection h with h
    subst h
    refine ⟨?_, d2.targets⟩
    intro s hs t ht
    have hl : (namesOf D.states).length = D.states.length := by simp [namesOf]
    rw [← hl]
    rcases List.mem_cons.1 hs with rfl | hs
    · exact (g3.start.sorted.2 t ht).2
    · obtain ⟨i, hi⟩ := List.mem_iff_getElem?.1 hs
      exact ((g3.states i s hi).sorted.2 t ht).2

/-- Every text survives the escaping. -/
theorem C47_escape (t : List Char) : texShows (escapeLatex t) = some t := texShows_escapeLatex t

/-- non-vacuity: a text with special characters. -/
example : escapeLatex "a_{^\\".toList = "a\\_\\{{\\textasciicircum}{\\textbackslash}".toList := by decide +kernel

/-- non-vacuity: a byte automaton with a range, a capture and a self-loop. -/
example : InRange ([⟨[⟨0, ⟨48, 57⟩⟩], [⟨1, .startCapture 0⟩]⟩, ⟨[⟨2, ⟨36, 36⟩⟩], []⟩, ⟨[], []⟩] : NFA U8Atom) := by
  unfold InRange; decide

example : NFA.toTikzU8 [⟨[⟨0, ⟨48, 57⟩⟩], [⟨1, .startCapture 0⟩]⟩, ⟨[⟨2, ⟨36, 36⟩⟩], []⟩, ⟨[], []⟩] false =
    .ok ("\\begin{tikzpicture}[node distance=2cm, auto]\n".toList ++
      "\\node[state, initial](q0) at (0, -1) {q0};\n".toList ++
      "\\node[state](q1) at (2, -1) {q1};\n".toList ++
      "\\node[state, accepting](q2) at (4, -1) {q2};\n".toList ++
      "\\path[->] (q0) edge node {[0-9]} (q0);\n".toList ++
      "\\path[->] (q0) edge node {$0(_{0}$} (q1);\n".toList ++
      "\\path[->] (q1) edge node {\\$} (q2);\n".toList ++
      "\\end{tikzpicture}\n".toList) := by decide +kernel

/-- non-vacuity: a deterministic automaton with a range of unprintable bytes. -/
example : readPicture ("\\begin{tikzpicture}[node distance=2cm, auto]\n".toList ++
      "\\node[state, initial](q0){0};\n".toList ++ "\\node[state, right of=q0](q1){1};\n".toList ++
      "\\node[state, accepting, right of=q1](q2){accept};\n".toList ++
      "\\path[->] (q0) edge [bend left]  node {0x80..=0xbf} (q1);\n".toList ++
      "\\path[->] (q1) edge [bend left]  node {'{\\textasciicircum}'} (q0);\n".toList ++
      "\\path[->] (q1) edge [bend left]  node {\\$} (q2);\n".toList ++
      "\\end{tikzpicture}\n".toList) =
    some ⟨[⟨0, true, false, .origin, ['0']⟩, ⟨1, false, false, .rightOf 0, ['1']⟩,
      ⟨2, false, true, .rightOf 1, "accept".toList⟩],
      [⟨0, .bent, "0x80..=0xbf".toList, 1⟩, ⟨1, .bent, "'{\\textasciicircum}'".toList, 0⟩,
        ⟨1, .bent, "\\$".toList, 2⟩]⟩ := by decide +kernel

example : readDfaMark "0x80..=0xbf".toList = some (.bytes 128 191) ∧
    readDfaMark "'{\\textasciicircum}'".toList = some (.bytes 94 94) ∧ readDfaMark "\\$".toList = some .acceptEnd ∧
    readNfaMark "$0(_{3}$".toList = some (.eps (.startCapture 0) 3) := by decide +kernel

/-! ## C48 -/

/-- **C48, automata over bytes.** Automata with the same drawing are the same. -/
theorem C48_determines_byte {N M : NFA U8Atom} {d d' : Bool} {s : List Char} (h : N.toTikzU8 d = .ok s)
    (h' : M.toTikzU8 d' = .ok s) : N = M := nfa_drawing_inj (fun _ _ => display_inj) h h'

/-- **C48, deterministic automata.** -/
theorem C48_determines_dfa {D D' : DFA} {d d' : Bool} {s : List Char} (h : D.toTikz d = .ok s)
    (h' : D'.toTikz d' = .ok s) : D = D' := dfa_drawing_inj h h'

/-- The tags of a tagged automaton are not shown, so that its drawing does not determine it. -/
theorem C48_tdfa_negation : ∃ D D' : TDFA, D ≠ D' ∧ D.toTikz true = D'.toTikz true ∧ ∃ s, D.toTikz true = .ok s :=
  ⟨⟨⟨[0], [], .unanchored ⟨0, [.startCapture 0]⟩⟩, []⟩, ⟨⟨[0], [], .unanchored ⟨0, []⟩⟩, []⟩, by decide, rfl, by
    obtain ⟨s, _, h, _⟩ := C47_draw_tdfa ⟨⟨[0], [], .unanchored ⟨0, [.startCapture 0]⟩⟩, []⟩ (by decide) true
    exact ⟨s, h⟩⟩

/-- non-vacuity: two automata that differ in one byte have different drawings. -/
example : DFA.toTikz ⟨⟨.none, [⟨0, ⟨97, 97⟩⟩]⟩, [⟨.always, []⟩]⟩ false ≠
    DFA.toTikz ⟨⟨.none, [⟨0, ⟨97, 98⟩⟩]⟩, [⟨.always, []⟩]⟩ false := by
  obtain ⟨s, _, h, _⟩ := C47_draw_dfa ⟨⟨.none, [⟨0, ⟨97, 97⟩⟩]⟩, [⟨.always, []⟩]⟩ (by decide) false
  rw [h]
  intro h'
  exact absurd (C48_determines_dfa h h'.symm) (by decide)

/-! ## C49 -/

/-- Where the nodes of a drawing are: in layers with all edges but loops from left to right if this is possible and
every state can be reached, and otherwise in a row. -/
def WellPlaced (P : Picture) : Prop :=
  (P.Layered ∧ ∃ pos, P.InLayers pos) ∨ (¬ P.Layered ∧ P.InRow)

theorem graph_placed {g : Graph} (hg : g.InRange) (ht : Graph.Tidy g) {doc : Bool} {s : List Char} {P : Picture}
    (h : g.toTikz doc = .ok s) (hP : readPicture s = some P) :
    WellPlaced P ∧ (¬ P.Layered → P.LoopsShown) := by
  obtain ⟨s', lay, h1, h2, h3⟩ := toTikz_picture hg ht doc
  rw [h] at h1
  injection h1 with h1
  subst h1
  rw [hP] at h2
  injection h2 with h2
  subst h2
  rcases h3 with ⟨a, b⟩ | ⟨a, b, c⟩
  · exact ⟨.inl ⟨a, b⟩, fun h => absurd a h⟩
  · exact ⟨.inr ⟨a, b⟩, fun _ => c⟩

theorem tdfa_graph {D : TDFA} (hD : ∀ s ∈ D.start :: D.states, ∀ t ∈ s.trans, t.dst < D.states.length) :
    D.toGraph.InRange ∧ Graph.Tidy D.toGraph := by
  rw [tdfa_rows]
  refine ⟨rows_inRange (by simp) ?_, rows_tidy _⟩
  intro r hr t ht
  obtain ⟨x, hx, rfl⟩ := List.mem_map.1 hr
  obtain ⟨t', ht', rfl⟩ := List.mem_map.1 ht
  have := hD x hx t' ht'
  simpa using this

theorem dfa_graph {D : DFA} (hD : ∀ s ∈ D.start :: D.states, ∀ t ∈ s.trans, t.dst < D.states.length) :
    D.toGraph.InRange ∧ Graph.Tidy D.toGraph := by
  rw [dfa_rows]
  refine ⟨rows_inRange (by simp) ?_, rows_tidy _⟩
  intro r hr t ht
  obtain ⟨i, hi, rfl⟩ := List.mem_mapIdx.1 hr
  obtain ⟨t', ht', rfl⟩ := List.mem_map.1 ht
  have := hD _ (List.getElem_mem hi) t' ht'
  simpa using this

/-- **C49, automata over characters.** -/
theorem C49_layout_char {N : NFA Atom} (hN : InRange N) {doc : Bool} {s : List Char} {P : Picture}
    (h : N.toTikz doc = .ok s) (hP : readPicture s = some P) : WellPlaced P :=
  (graph_placed (toGraph_inRange Atom.display hN) (toGraph_tidy Atom.display N) h hP).1

/-- **C49, automata over bytes.** -/
theorem C49_layout_byte {N : NFA U8Atom} (hN : InRange N) {doc : Bool} {s : List Char} {P : Picture}
    (h : N.toTikzU8 doc = .ok s) (hP : readPicture s = some P) : WellPlaced P :=
  (graph_placed (toGraph_inRange U8Atom.display hN) (toGraph_tidy U8Atom.display N) h hP).1

/-- **C49, tagged automata.** -/
theorem C49_layout_tdfa {D : TDFA} (hD : ∀ s ∈ D.start :: D.states, ∀ t ∈ s.trans, t.dst < D.states.length)
    {doc : Bool} {s : List Char} {P : Picture} (h : D.toTikz doc = .ok s) (hP : readPicture s = some P) :
    WellPlaced P := (graph_placed (tdfa_graph hD).1 (tdfa_graph hD).2 h hP).1

/-- **C49, deterministic automata.** -/
theorem C49_layout_dfa {D : DFA} (hD : ∀ s ∈ D.start :: D.states, ∀ t ∈ s.trans, t.dst < D.states.length)
    {doc : Bool} {s : List Char} {P : Picture} (h : D.toTikz doc = .ok s) (hP : readPicture s = some P) :
    WellPlaced P := (graph_placed (dfa_graph hD).1 (dfa_graph hD).2 h hP).1

/-- non-vacuity: both layouts occur. A cycle through two states: a row. -/
example : ((DFA.toTikz ⟨⟨.always, [⟨0, ⟨97, 97⟩⟩]⟩, [⟨.always, [⟨1, ⟨97, 97⟩⟩]⟩, ⟨.none, [⟨0, ⟨98, 98⟩⟩]⟩]⟩
      false).toOption.bind readPicture).map (fun P => P.nodes.map PNode.place) =
    some [.origin, .rightOf 0, .rightOf 1, .rightOf 2] := by decide +kernel

/-- Two states side by side: layers, with the two at different heights. -/
example : ((DFA.toTikz ⟨⟨.none, [⟨0, ⟨97, 97⟩⟩, ⟨1, ⟨98, 98⟩⟩]⟩, [⟨.always, []⟩, ⟨.anchored, []⟩]⟩
      false).toOption.bind readPicture).map (fun P => P.nodes.map PNode.place) =
    some [.at 0 (-1), .at 2 (-2), .at 2 0, .at 4 (-1)] := by decide +kernel

/-! ## C50 -/

/-- Does some edge from a node to itself not have the shape of a loop? -/
def badLoop (P : Picture) : Bool := P.edges.any (fun e => e.src == e.dst && e.shape != .loop)

/-- Compile a pattern, draw its deterministic automaton, and look for such an edge. -/
def badLoopOf (s : List Char) : Option Bool :=
  match parseStr s with
  | .error _ => none
  | .ok e =>
    match compileDfaU8 utf8Sequences e with
    | .ok (some G) =>
      match G.dfa.toTikz false with
      | .error _ => none
      | .ok t => (readPicture t).map badLoop
    | _ => none

theorem badLoopOf_true {p : List Char} (h : badLoopOf p = some true) :
    ∃ e G s P, parseStr p = .ok e ∧ compileDfaU8 utf8Sequences e = .ok (some G) ∧
      G.dfa.toTikz false = .ok s ∧ readPicture s = some P ∧ ¬ P.LoopsShown := by
  unfold badLoopOf at h
  split at h
  · cases h
  · rename_i e he
    split at h
    · rename_i G hG
      split at h
      · cases h
      · rename_i t ht
        obtain ⟨P, hP, hB⟩ := Option.map_eq_some_iff.1 h
        refine ⟨e, G, t, P, he, hG, ht, hP, fun hl => ?_⟩
        obtain ⟨x, hx, hx'⟩ := List.any_eq_true.1 hB
        simp only [Bool.and_eq_true, beq_iff_eq, bne_iff_ne] at hx'
        exact hx'.2 (hl x hx hx'.1)
    · cases h

/-- **C50 is false.** In the layered layout an edge from a state to itself is drawn as a straight line from the node
to the same node, without `loop below`: the deterministic automaton of `^a*b$`. -/
theorem C50_loops_negation :
    ∃ e G s P, parseStr "^a*b$".toList = .ok e ∧ compileDfaU8 utf8Sequences e = .ok (some G) ∧
      G.dfa.toTikz false = .ok s ∧ readPicture s = some P ∧ ¬ P.LoopsShown := by
  exact badLoopOf_true (by decide +kernel)

/-- **C50, as far as it holds**: in the drawings in a row, which are the drawings of the automata with a cycle through
several states or with a state that cannot be reached. (The full claim has no condition on the picture; it is false:
`C50_loops_negation`.) -/
theorem C50_loops_partial {doc : Bool} {s : List Char} {P : Picture} (hP : readPicture s = some P) (hl : ¬ P.Layered) :
    (∀ {N : NFA Atom}, InRange N → N.toTikz doc = .ok s → P.LoopsShown) ∧
    (∀ {N : NFA U8Atom}, InRange N → N.toTikzU8 doc = .ok s → P.LoopsShown) ∧
    (∀ {D : TDFA}, (∀ s ∈ D.start :: D.states, ∀ t ∈ s.trans, t.dst < D.states.length) → D.toTikz doc = .ok s →
      P.LoopsShown) ∧
    ∀ {D : DFA}, (∀ s ∈ D.start :: D.states, ∀ t ∈ s.trans, t.dst < D.states.length) → D.toTikz doc = .ok s →
      P.LoopsShown :=
  ⟨fun hN h => (graph_placed (toGraph_inRange Atom.display hN) (toGraph_tidy Atom.display _) h hP).2 hl,
    fun hN h => (graph_placed (toGraph_inRange U8Atom.display hN) (toGraph_tidy U8Atom.display _) h hP).2 hl,
    fun hD h => (graph_placed (tdfa_graph hD).1 (tdfa_graph hD).2 h hP).2 hl,
    fun hD h => (graph_placed (dfa_graph hD).1 (dfa_graph hD).2 h hP).2 hl⟩

end Ere.Props
