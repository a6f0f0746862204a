import Verif.Proofs.DrawRead

/-!
# The picture that a drawing shows
-/

namespace Ere

/-- The node drawn for a state. -/
def nodeOf (lay : Option (List (Int × Int))) (i : Nat) (s : GState) : PNode :=
  ⟨i, s.initial, s.accept,
    match lay with
    | none => if i = 0 then .origin else .rightOf (i - 1)
    | some l => match l[i]? with
      | some p => .at p.1 p.2
      | none => .origin,
    escapeLatex s.label⟩

/-- The edge drawn for a transition. -/
def edgeOf (lay : Option (List (Int × Int))) (i : Nat) (t : GTrans) : PEdge :=
  ⟨i,
    match lay with
    | none => if t.dst = i then .loop else .bent
    | some l => match l[i]?, l[t.dst]? with
      | some p, some q => if q.1 - p.1 > 2 then .bent else .straight
      | _, _ => .straight,
    t.label, t.dst⟩

/-- The nodes drawn for a list of states, numbered from `i`. -/
def nodesOf (lay : Option (List (Int × Int))) : Nat → List GState → List PNode
  | _, [] => []
  | i, s :: ss => nodeOf lay i s :: nodesOf lay (i + 1) ss

/-- The edges drawn for a list of states, numbered from `i`. -/
def edgesOf (lay : Option (List (Int × Int))) : Nat → List GState → List PEdge
  | _, [] => []
  | i, s :: ss => s.transitions.map (edgeOf lay i) ++ edgesOf lay (i + 1) ss

/-- Every label of the graph may stand in braces. -/
def Graph.Tidy (g : List GState) : Prop := ∀ s ∈ g, ∀ t ∈ s.transitions, Neutral t.label

theorem readMany_all {β : Type} {item : List Char → Option (β × List Char)} {l : List (List Char × β)}
    (h : ∀ p ∈ l, ∀ r, item (p.1 ++ r) = some (p.2, r)) {R : List Char} (hR : item R = none) :
    ∀ {n : Nat}, l.length ≤ n → readMany item n ((l.map (·.1)).flatten ++ R) = (l.map (·.2), R) := by
  induction l with
  | nil =>
    intro n _
    cases n with
    | zero => rfl
    | succ n => simp [readMany, hR]
  | cons p l ih =>
    intro n hn
    cases n with
    | zero => simp at hn
    | succ n =>
      have := ih (fun q hq => h q (by simp [hq])) (n := n) (by simpa using hn)
      simp only [List.map_cons, List.flatten_cons, List.append_assoc]
      rw [readMany, h p (by simp)]
      simp only [this]

theorem nodeText_read {lay : Option (List (Int × Int))} {i : Nat} {s : GState} {n : List Char}
    (h : nodeText lay i s = .ok n) (r : List Char) : readNode (n ++ r) = some (nodeOf lay i s, r) := by
  unfold nodeText at h
  cases lay with
  | none => rw [← Except.ok.inj h, readNode_inLine]; rfl
  | some l =>
    simp only at h
    cases hp : l[i]? with
    | none => rw [hp] at h; cases h
    | some p => rw [hp] at h; rw [← Except.ok.inj h, readNode_at]; simp only [nodeOf, hp]

theorem edgeText_read {lay : Option (List (Int × Int))} {i : Nat} {t : GTrans} {n : List Char}
    (h : edgeText lay i t = .ok n) (ht : Neutral t.label) (r : List Char) :
    readEdge (n ++ r) = some (edgeOf lay i t, r) := by
  unfold edgeText at h
  cases lay with
  | none => rw [← Except.ok.inj h, readEdge_inLine _ _ _ ht]; rfl
  | some l =>
    simp only at h
    cases hp : l[i]? with
    | none => rw [hp] at h; cases h
    | some p =>
      cases hq : l[t.dst]? with
      | none => rw [hp, hq] at h; cases h
      | some q =>
        rw [hp, hq] at h
        rw [← Except.ok.inj h]
        by_cases hc : q.1 - p.1 > 2
        · rw [if_pos hc, readEdge_inLine _ _ _ ht]
          have hne : t.dst ≠ i := by
            rintro rfl
            rw [hp] at hq
            cases hq
            omega
          simp [edgeOf, hp, hq, hc, hne]
        · rw [if_neg hc, readEdge_straight _ _ _ ht]
          simp [edgeOf, hp, hq, hc]

theorem edges_read {lay : Option (List (Int × Int))} {i : Nat} {ts : List GTrans} {e : List (List Char)}
    (h : ts.mapM (edgeText lay i) = .ok e) (ht : ∀ t ∈ ts, Neutral t.label) :
    ∃ l : List (List Char × PEdge), l.map (·.1) = e ∧ l.map (·.2) = ts.map (edgeOf lay i) ∧
      ∀ p ∈ l, ∀ r, readEdge (p.1 ++ r) = some (p.2, r) := by
  induction ts generalizing e with
  | nil =>
    rw [List.mapM_nil] at h
    cases h
    exact ⟨[], rfl, rfl, by simp⟩
  | cons t ts ih =>
    rw [List.mapM_cons] at h
    cases h1 : edgeText lay i t with
    | error x => rw [h1] at h; cases h
    | ok n =>
      rw [h1] at h
      cases h2 : ts.mapM (edgeText lay i) with
      | error x => rw [h2] at h; cases h
      | ok e' =>
        rw [h2] at h
        cases h
        obtain ⟨l, a, b, c⟩ := ih h2 (fun t ht' => ht t (by simp [ht']))
        refine ⟨(n, edgeOf lay i t) :: l, by simp [a], by simp [b], ?_⟩
        intro p hp r
        rcases List.mem_cons.1 hp with rfl | hp
        · exact edgeText_read h1 (ht t (by simp)) r
        · exact c p hp r

theorem drawLoop_read {lay : Option (List (Int × Int))} {ss : List GState} : ∀ {i : Nat}
    {ns es : List Char}, drawLoop lay i ss = .ok (ns, es) → Graph.Tidy ss →
    (∃ l : List (List Char × PNode), (l.map (·.1)).flatten = ns ∧ l.map (·.2) = nodesOf lay i ss ∧
      ∀ p ∈ l, ∀ r, readNode (p.1 ++ r) = some (p.2, r)) ∧
    (∃ l : List (List Char × PEdge), (l.map (·.1)).flatten = es ∧ l.map (·.2) = edgesOf lay i ss ∧
      ∀ p ∈ l, ∀ r, readEdge (p.1 ++ r) = some (p.2, r)) := by
  induction ss with
  | nil =>
    intro i ns es h _
    cases h
    exact ⟨⟨[], rfl, rfl, by simp⟩, ⟨[], rfl, rfl, by simp⟩⟩
  | cons s ss ih =>
    intro i ns es h ht
    rw [drawLoop] at h
    cases h1 : nodeText lay i s with
    | error x => rw [h1] at h; cases h
    | ok n =>
      rw [h1] at h
      cases h2 : s.transitions.mapM (edgeText lay i) with
      | error x => rw [h2] at h; cases h
      | ok e =>
        rw [h2] at h
        cases h3 : drawLoop lay (i + 1) ss with
        | error x => rw [h3] at h; cases h
        | ok p =>
          obtain ⟨ns', es'⟩ := p
          rw [h3] at h
          cases h
          obtain ⟨⟨l, a, b, c⟩, ⟨l', a', b', c'⟩⟩ := ih h3 (fun s hs => ht s (by simp [hs]))
          obtain ⟨le, ae, be, ce⟩ := edges_read h2 (ht s (by simp))
          refine ⟨⟨(n, nodeOf lay i s) :: l, by simp [a], by simp [b, nodesOf], ?_⟩,
            ⟨le ++ l', by rw [List.map_append, List.flatten_append, ae, a'],
              by rw [List.map_append, be, b', edgesOf], ?_⟩⟩
          · intro p hp r
            rcases List.mem_cons.1 hp with rfl | hp
            · exact nodeText_read h1 r
            · exact c p hp r
          · intro p hp r
            rcases List.mem_append.1 hp with hp | hp
            · exact ce p hp r
            · exact c' p hp r

theorem length_le_flatten {β : Type} {l : List (List Char × β)} (h : ∀ p ∈ l, p.1 ≠ []) : l.length ≤ ((l.map (·.1)).flatten).length := by
  induction l with
  | nil => simp
  | cons p l ih =>
    have := ih (fun q hq => h q (by simp [hq]))
    have hp := List.length_pos_of_ne_nil (h p (by simp))
    simp only [List.map_cons, List.flatten_cons, List.length_append, List.length_cons]
    omega

theorem expect_some {p s r : List Char} (h : expect p s = some r) : s = p ++ r := by
  induction p generalizing s with
  | nil => simpa [expect] using h
  | cons c p ih =>
    cases s with
    | nil => cases h
    | cons d s =>
      rw [expect] at h
      split at h
      · rename_i hc; rw [hc, ih h]; rfl
      · cases h

/-- A node begins with the word for nodes. -/
theorem readNode_start {s : List Char} {p : PNode × List Char} (h : readNode s = some p) :
    ∃ r, s = "\\node[state".toList ++ r := by
  unfold readNode at h
  cases he : expect "\\node[state".toList s with
  | none => rw [he] at h; cases h
  | some r => exact ⟨r, expect_some he⟩

theorem readEdge_start {s : List Char} {p : PEdge × List Char} (h : readEdge s = some p) :
    ∃ r, s = "\\path[->] (q".toList ++ r := by
  unfold readEdge at h
  cases he : expect "\\path[->] (q".toList s with
  | none => rw [he] at h; cases h
  | some r => exact ⟨r, expect_some he⟩

theorem node_ne_nil {t : List Char} {b : PNode} (h : ∀ r, readNode (t ++ r) = some (b, r)) : t ≠ [] := by
  rintro rfl
  obtain ⟨r, hr⟩ := readNode_start (h [])
  have := congrArg List.length hr
  simp at this

theorem edge_ne_nil {t : List Char} {b : PEdge} (h : ∀ r, readEdge (t ++ r) = some (b, r)) : t ≠ [] := by
  rintro rfl
  obtain ⟨r, hr⟩ := readEdge_start (h [])
  have := congrArg List.length hr
  simp at this

theorem readNode_none_of {s : List Char} (h : expect "\\node[state".toList s = none) : readNode s = none := by
  unfold readNode; rw [h]; rfl

theorem readEdge_none_of {s : List Char} (h : expect "\\path[->] (q".toList s = none) :
    readEdge s = none := by
  unfold readEdge; rw [h]; rfl

/-- A drawing shows the states and the transitions of its graph. -/
theorem toTikz_read {g : Graph} {doc : Bool} {s : List Char} (h : g.toTikz doc = .ok s)
    (ht : Graph.Tidy g) : ∃ lay, g.layout = .ok lay ∧
      readPicture s = some ⟨nodesOf lay 0 g, edgesOf lay 0 g⟩ := by
  unfold Graph.toTikz at h
  cases h1 : g.layout with
  | error x => rw [h1] at h; cases h
  | ok lay =>
    rw [h1] at h
    refine ⟨lay, rfl, ?_⟩
    cases h2 : drawLoop lay 0 g with
    | error x =>
      have h' : (drawLoop lay 0 g >>= fun p => _) = Except.ok s := h
      rw [h2] at h'; cases h'
    | ok p =>
      obtain ⟨ns, es⟩ := p
      have h' : (drawLoop lay 0 g >>= fun p => _) = Except.ok s := h
      rw [h2] at h'
      have h3 := (Except.ok.inj h').symm
      obtain ⟨⟨l, a, b, c⟩, ⟨l', a', b', c'⟩⟩ := drawLoop_read h2 ht
      have key : ∀ tail : List Char,
          readMany readNode (ns ++ (es ++ ("\\end{tikzpicture}\n".toList ++ tail))).length
            (ns ++ (es ++ ("\\end{tikzpicture}\n".toList ++ tail))) =
            (nodesOf lay 0 g, es ++ ("\\end{tikzpicture}\n".toList ++ tail)) ∧
          readMany readEdge (es ++ ("\\end{tikzpicture}\n".toList ++ tail)).length
            (es ++ ("\\end{tikzpicture}\n".toList ++ tail)) =
            (edgesOf lay 0 g, "\\end{tikzpicture}\n".toList ++ tail) := by
        intro tail
        constructor
        · rw [← a, ← b]
          refine readMany_all c ?_ ?_
          · apply readNode_none_of
            cases l' with
            | nil =>
              have : es = [] := by rw [← a']; rfl
              rw [this]; rfl
            | cons q l' =>
              have hq := c' q (by simp) []
              obtain ⟨r, hr⟩ := readEdge_start hq
              rw [List.append_nil] at hr
              have : es = "\\path[->] (q".toList ++ (r ++ (l'.map (·.1)).flatten) := by
                rw [← a', List.map_cons, List.flatten_cons, hr, List.append_assoc]
              rw [this, List.append_assoc]; rfl
          · have := length_le_flatten (fun p hp => node_ne_nil (c p hp))
            rw [List.length_append]
            omega
        · rw [← a', ← b']
          refine readMany_all c' (readEdge_none_of rfl) ?_
          have := length_le_flatten (fun p hp => edge_ne_nil (c' p hp))
          rw [List.length_append]
          omega
      rw [h3]
      unfold readPicture
      cases doc with
      | true =>
        simp only [if_true, List.append_assoc]
        rw [optional_append]
        simp only [expect_append, Option.bind_eq_bind, Option.bind_some, (key _).1, (key _).2, if_true]
        have he := expect_append "\\end{document}\n".toList []
        rw [List.append_nil] at he
        rw [he]
        rfl
      | false =>
        simp only [Bool.false_eq_true, if_false, List.append_assoc, List.nil_append]
        rw [optional_none (by rfl)]
        simp only [expect_append, Option.bind_eq_bind, Option.bind_some, (key _).1, (key _).2,
          Bool.false_eq_true, if_false]
        rfl

end Ere
