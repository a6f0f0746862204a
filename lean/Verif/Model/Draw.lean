import Verif.Model.Opt
import Verif.Model.Parse
import Verif.Model.TDFA

/-!
# Drawings of automata

Model of `/repo/ere-core/src/visualization/latex_graph.rs`, `/repo/ere-core/src/visualization/layout.rs`
and of the four public `to_tikz` methods (working_nfa.rs 898-932, working_u8_nfa.rs 890-922,
working_u8_dfa.rs 461-520 and 650-704). Texts are lists of characters, a failed index is
`Except.error .panic`.

Simplification: the code computes coordinates in `f64`. All of them are halves of integers, and the
printed ones (`x * 2.0`, `y * 2.0`) are integers, which Rust prints without a fraction; the model
computes the doubled coordinates in `Int`. This differs from the code only beyond 2^53 states.
-/

namespace Ere

/-- One arm of the `match` of `escape_latex`, latex_graph.rs 7-19. -/
def escapeLatexChar (c : Char) : List Char :=
  match c with
  | '\\' => "{\\textbackslash}".toList
  | '&' => ['\\', '&']
  | '%' => ['\\', '%']
  | '$' => ['\\', '$']
  | '#' => ['\\', '#']
  | '_' => ['\\', '_']
  | '{' => ['\\', '{']
  | '}' => ['\\', '}']
  | '~' => "{\\textasciitilde}".toList
  | '^' => "{\\textasciicircum}".toList
  | c => [c]

/-- `escape_latex`, latex_graph.rs 3-21. -/
def escapeLatex (s : List Char) : List Char := s.flatMap escapeLatexChar

/-- `LatexGraphTransition`, latex_graph.rs 23-27. -/
structure GTrans where
  dst : Nat
  label : List Char
deriving DecidableEq, Repr

/-- `LatexGraphState`, latex_graph.rs 50-56. -/
structure GState where
  label : List Char
  transitions : List GTrans
  initial : Bool
  accept : Bool
deriving DecidableEq, Repr

/-- `LatexGraph`, latex_graph.rs 90-93. -/
abbrev Graph := List GState

/-- `LatexGraphTransition::display_in_line`, latex_graph.rs 29-40. -/
def GTrans.displayInLine (t : GTrans) (src : Nat) : List Char :=
  let bend := if t.dst = src then "[loop below]".toList else "[bend left] ".toList
  "\\path[->] (q".toList ++ decimal src ++ ") edge ".toList ++ bend ++ " node {".toList ++ t.label ++
    "} (q".toList ++ decimal t.dst ++ ");\n".toList

/-- `LatexGraphTransition::display_straight`, latex_graph.rs 41-47. -/
def GTrans.displayStraight (t : GTrans) (src : Nat) : List Char :=
  "\\path[->] (q".toList ++ decimal src ++ ") edge node {".toList ++ t.label ++
    "} (q".toList ++ decimal t.dst ++ ");\n".toList

/-- The `modifiers` of a node, latex_graph.rs 60-66 and 79-85. -/
def GState.modifiers (s : GState) : List Char :=
  (if s.initial then ", initial".toList else []) ++ (if s.accept then ", accepting".toList else [])

/-- `LatexGraphState::display_in_line`, latex_graph.rs 58-76. -/
def GState.displayInLine (s : GState) (idx : Nat) : List Char :=
  if idx = 0 then
    "\\node[state".toList ++ s.modifiers ++ "](q0){".toList ++ escapeLatex s.label ++ "};\n".toList
  else
    "\\node[state".toList ++ s.modifiers ++ ", right of=q".toList ++ decimal (idx - 1) ++ "](q".toList ++
      decimal idx ++ "){".toList ++ escapeLatex s.label ++ "};\n".toList

/-- An integral `f64` as `Display` prints it. -/
def signed : Int → List Char
  | .ofNat n => decimal n
  | .negSucc n => '-' :: decimal (n + 1)

/-- `LatexGraphState::display_at`, latex_graph.rs 78-89; the coordinates are the doubled ones. -/
def GState.displayAt (s : GState) (idx : Nat) (x y : Int) : List Char :=
  "\\node[state".toList ++ s.modifiers ++ "](q".toList ++ decimal idx ++ ") at (".toList ++ signed x ++
    ", ".toList ++ signed y ++ ") {".toList ++ escapeLatex s.label ++ "};\n".toList

/-- `StackItem` of `check_dag`, layout.rs 25-29. -/
inductive Visit
  | pre (node depth : Nat)
  | post (node : Nat)
deriving DecidableEq, Repr

/-- The items pushed for the transitions of a state, layout.rs 42-49; the last one pushed is popped
first. -/
def pushed (s : GState) (node depth : Nat) : List Visit :=
  ((s.transitions.filter (fun t => t.dst != node)).map (fun t => Visit.pre t.dst (depth + 1))).reverse

/-- The loop of `check_dag`, layout.rs 32-56, with the stack as a list, top first. The bound on the
number of rounds is the model's; it is never reached (`checkDag_iff`). -/
def checkDagLoop (g : Graph) : Nat → List Bool → List Bool → List Visit → Except Err Bool
  | _, done, _, [] => .ok (done.all id)
  | 0, _, _, _ :: _ => .error .fuel
  | f + 1, done, active, .pre node depth :: stack =>
    match done[node]? with
    | none => .error .panic
    | some true => checkDagLoop g f done active stack
    | some false =>
      match active[node]? with
      | none => .error .panic
      | some true => .ok false
      | some false =>
        match g[node]? with
        | none => .error .panic
        | some s =>
          checkDagLoop g f done (active.set node true) (pushed s node depth ++ .post node :: stack)
  | f + 1, done, active, .post node :: stack =>
    if node < done.length then checkDagLoop g f (done.set node true) active stack
    else .error .panic

/-- The number of transitions of a graph. -/
def Graph.size (g : Graph) : Nat := (g.map (fun s => s.transitions.length)).sum

/-- `DAGLayout::check_dag`, layout.rs 19-59. -/
def checkDag (g : Graph) : Except Err Bool :=
  if g.length = 0 then .ok false
  else checkDagLoop g (g.length + g.size + 1) (List.replicate g.length false)
    (List.replicate g.length false) [.pre 0 0]

/-- `depth > depths[node] || depths[node] == usize::MAX`, layout.rs 70. -/
def deeper (depth : Nat) : Option Nat → Bool
  | none => true
  | some d => decide (d < depth)

/-- The loop of `DAGLayout::new`, layout.rs 67-80; `usize::MAX` is `none`. The bound on the number of
rounds is the model's; it is never reached (`dagNew_spec`). -/
def depthLoop (g : Graph) : Nat → List (Option Nat) → Nat → List (Nat × Nat) →
    Except Err (List (Option Nat) × Nat)
  | _, depths, maxDepth, [] => .ok (depths, maxDepth)
  | 0, _, _, _ :: _ => .error .fuel
  | f + 1, depths, maxDepth, (node, depth) :: stack =>
    match depths[node]? with
    | none => .error .panic
    | some old =>
      if deeper depth old then
        match g[node]? with
        | none => .error .panic
        | some s =>
          depthLoop g f (depths.set node (some depth)) (max maxDepth depth)
            (((s.transitions.filter (fun t => t.dst != node)).map (fun t => (t.dst, depth + 1))).reverse
              ++ stack)
      else depthLoop g f depths maxDepth stack

/-- `DAGLayout::new`, layout.rs 60-88: the depths and the greatest depth. -/
def dagNew (g : Graph) : Except Err (Option (List (Option Nat) × Nat)) := do
  if ← checkDag g then
    return some (← depthLoop g (g.length * g.size + 1) (List.replicate g.length none) 0 [(0, 0)])
  else return none

/-- `v[*depth] += 1`; the index `usize::MAX` is out of range. -/
def bump (v : List Nat) (depth : Option Nat) : Except Err (List Nat) :=
  match depth with
  | none => .error .panic
  | some d =>
    match v[d]? with
    | none => .error .panic
    | some k => .ok (v.set d (k + 1))

/-- The loop that counts the nodes of each depth, layout.rs 101-104. -/
def depthSizes : List (Option Nat) → List Nat → Except Err (List Nat)
  | [], v => .ok v
  | d :: ds, v => do depthSizes ds (← bump v d)

/-- The closure of `layout` that places the nodes, layout.rs 107-115; doubled coordinates. -/
def place (sizes : List Nat) : List (Option Nat) → List Nat → Except Err (List (Int × Int))
  | [], _ => .ok []
  | none :: _, _ => .error .panic
  | some d :: ds, used =>
    match sizes[d]?, used[d]? with
    | some n, some u => do
      let used ← bump used (some d)
      return (2 * (d : Int), -(n : Int) + 2 * (u : Int)) :: (← place sizes ds used)
    | _, _ => .error .panic

/-- `DAGLayout::layout`, layout.rs 91-117. -/
def dagLayout (depths : List (Option Nat)) (maxDepth : Nat) : Except Err (List (Int × Int)) := do
  let sizes ← depthSizes depths (List.replicate (maxDepth + 2) 0)
  place sizes depths (List.replicate (maxDepth + 2) 0)

/-- `self.pick_layout().map(|layout| layout.layout())`, latex_graph.rs 100 and 143-151. -/
def Graph.layout (g : Graph) : Except Err (Option (List (Int × Int))) := do
  match ← dagNew g with
  | none => return none
  | some (depths, maxDepth) => return some (← dagLayout depths maxDepth)

/-- The line of one transition, latex_graph.rs 122-133. The test `x_next - x > 1.0` is on the
coordinates that are not doubled. -/
def edgeText (lay : Option (List (Int × Int))) (i : Nat) (t : GTrans) : Except Err (List Char) :=
  match lay with
  | none => .ok (t.displayInLine i)
  | some l =>
    match l[i]?, l[t.dst]? with
    | some p, some q => .ok (if q.1 - p.1 > 2 then t.displayInLine i else t.displayStraight i)
    | _, _ => .error .panic

/-- The line of one state, latex_graph.rs 114-119. -/
def nodeText (lay : Option (List (Int × Int))) (i : Nat) (s : GState) : Except Err (List Char) :=
  match lay with
  | none => .ok (s.displayInLine i)
  | some l =>
    match l[i]? with
    | some p => .ok (s.displayAt i p.1 p.2)
    | none => .error .panic

/-- The loop over the states, latex_graph.rs 113-135: the node lines and the transition lines. -/
def drawLoop (lay : Option (List (Int × Int))) : Nat → List GState →
    Except Err (List Char × List Char)
  | _, [] => .ok ([], [])
  | i, s :: ss => do
    let n ← nodeText lay i s
    let e ← s.transitions.mapM (edgeText lay i)
    let (ns, es) ← drawLoop lay (i + 1) ss
    return (n ++ ns, e.flatten ++ es)

/-- `LatexGraph::to_tikz`, latex_graph.rs 99-141. -/
def Graph.toTikz (g : Graph) (includeDoc : Bool) : Except Err (List Char) := do
  let lay ← g.layout
  let (ns, es) ← drawLoop lay 0 g
  return (if includeDoc then
      "\\documentclass{standalone}\n\\usepackage{tikz}\n\\usetikzlibrary{automata, positioning}\n\\begin{document}\n".toList
      else []) ++
    "\\begin{tikzpicture}[node distance=2cm, auto]\n".toList ++ ns ++ es ++
    "\\end{tikzpicture}\n".toList ++ (if includeDoc then "\\end{document}\n".toList else [])

/-! ### The automata as graphs -/

/-- The label of an epsilon transition at position `i` of its state, working_nfa.rs 911-917 and
working_u8_nfa.rs 902-908. -/
def EpsType.tikz (i : Nat) : EpsType → List Char
  | .none => "$\\epsilon_{".toList ++ decimal i ++ "}$".toList
  | .startAnchor => "{\\textasciicircum}$_{".toList ++ decimal i ++ "}$".toList
  | .endAnchor => "$\\$_{".toList ++ decimal i ++ "}$".toList
  | .startCapture g => "$".toList ++ decimal g ++ "(_{".toList ++ decimal i ++ "}$".toList
  | .endCapture g => "$)".toList ++ decimal g ++ "_{".toList ++ decimal i ++ "}$".toList

/-- `map_state`, working_nfa.rs 899-926 and working_u8_nfa.rs 891-916; `display` is the `Display`
implementation of the symbols and `len` the number of states. -/
def State.toG {σ : Type} (display : σ → List Char) (len i : Nat) (s : State σ) : GState :=
  ⟨'q' :: decimal i,
    s.transitions.map (fun t => ⟨t.dst, escapeLatex (display t.symbol)⟩) ++
      s.epsilons.mapIdx (fun k e => ⟨e.dst, e.special.tikz k⟩),
    i == 0, i + 1 == len⟩

/-- The graph of a nondeterministic automaton, working_nfa.rs 928-930 and working_u8_nfa.rs 918-920. -/
def NFA.toGraph {σ : Type} (display : σ → List Char) (N : NFA σ) : Graph :=
  N.mapIdx (fun i s => s.toG display N.length i)

/-- A hexadecimal digit, lower case. -/
def hexDigit (n : Nat) : Char := if n < 10 then Char.ofNat (48 + n) else Char.ofNat (87 + n)

/-- `u8::escape_ascii` of the standard library. -/
def escapeAscii (b : UInt8) : List Char :=
  let n := b.toNat
  if n = 9 then ['\\', 't'] else if n = 13 then ['\\', 'r'] else if n = 10 then ['\\', 'n']
  else if n = 39 then ['\\', '\''] else if n = 34 then ['\\', '"'] else if n = 92 then ['\\', '\\']
  else if 32 ≤ n ∧ n ≤ 126 then [Char.ofNat n]
  else ['\\', 'x', hexDigit (n / 16), hexDigit (n % 16)]

/-- `Display for U8Atom`, working_u8_nfa.rs 28-41. -/
def U8Atom.display (a : U8Atom) : List Char :=
  if a.lo = a.hi then escapeAscii a.lo
  else '[' :: (escapeAscii a.lo ++ '-' :: (escapeAscii a.hi ++ [']']))

/-- `Display for DisplayByteChar`, working_u8_dfa.rs 797-812. Debug-printed characters carry single
quotes; among the ASCII graphic characters only `'` and `\` are escaped, and the only other white
space is the form feed. -/
def displayByteChar (b : UInt8) : List Char :=
  let n := b.toNat
  if 33 ≤ n ∧ n ≤ 126 then
    if n = 39 then ['\'', '\\', '\'', '\''] else if n = 92 then ['\'', '\\', '\\', '\'']
    else ['\'', Char.ofNat n, '\'']
  else if n = 9 then ['\'', '\\', 't', '\''] else if n = 10 then ['\'', '\\', 'n', '\'']
  else if n = 13 then ['\'', '\\', 'r', '\''] else if n = 32 then ['\'', ' ', '\'']
  else if n = 12 then ['\'', '\\', 'u', '{', 'c', '}', '\'']
  else ['0', 'x', hexDigit (n / 16), hexDigit (n % 16)]

/-- `Display for DisplayRange`, working_u8_dfa.rs 816-826. -/
def U8Atom.displayRange (a : U8Atom) : List Char :=
  if a.lo = a.hi then displayByteChar a.lo
  else displayByteChar a.lo ++ '.' :: '.' :: '=' :: displayByteChar a.hi

/-- `make_label`, working_u8_dfa.rs 468-471: the indices joined with commas. -/
def joinComma : List Nat → List Char
  | [] => []
  | [n] => decimal n
  | n :: m :: l => decimal n ++ ',' :: joinComma (m :: l)

/-- The transition to the drawn accept state, working_u8_dfa.rs 484-501; `n` is the number of
states besides the start state. -/
def TAccept.toG (n : Nat) : TAccept → List GTrans
  | .anchored _ => [⟨n + 1, ['\\', '$']⟩]
  | .both _ _ => [⟨n + 1, []⟩]
  | .unanchored _ => [⟨n + 1, []⟩]
  | .none => []

/-- The transition to the drawn accept state, working_u8_dfa.rs 675-685. -/
def DAccept.toG (n : Nat) : DAccept → List GTrans
  | .anchored => [⟨n + 1, ['\\', '$']⟩]
  | .always => [⟨n + 1, []⟩]
  | .none => []

/-- The drawn accept state, working_u8_dfa.rs 462-467 and 651-656. -/
def acceptG : GState := ⟨"accept".toList, [], false, true⟩

/-- `map_state` of `U8TDFA::to_tikz`, working_u8_dfa.rs 472-511. -/
def TState.toG (n i : Nat) (s : TState) : GState :=
  ⟨joinComma s.nfa, s.trans.map (fun t => ⟨t.dst + 1, escapeLatex t.symbol.displayRange⟩) ++
    s.accept.toG n, i == 0, false⟩

/-- The graph of a tagged automaton, working_u8_dfa.rs 513-520. -/
def TDFA.toGraph (D : TDFA) : Graph :=
  (D.start :: D.states).mapIdx (fun i s => s.toG D.states.length i) ++ [acceptG]

/-- `map_state` of `U8DFA::to_tikz`, working_u8_dfa.rs 661-694. -/
def DState.toG (n i : Nat) (s : DState) : GState :=
  ⟨decimal i, s.trans.map (fun t => ⟨t.dst + 1, escapeLatex t.symbol.displayRange⟩) ++
    s.accept.toG n, i == 0, false⟩

/-- The graph of a plain automaton, working_u8_dfa.rs 696-703. -/
def DFA.toGraph (D : DFA) : Graph :=
  (D.start :: D.states).mapIdx (fun i s => s.toG D.states.length i) ++ [acceptG]

/-- `WorkingNFA::to_tikz`, working_nfa.rs 898-932. -/
def NFA.toTikz (N : NFA Atom) (includeDoc : Bool) : Except Err (List Char) :=
  (N.toGraph Atom.display).toTikz includeDoc

/-- `U8NFA::to_tikz`, working_u8_nfa.rs 890-922. -/
def NFA.toTikzU8 (N : NFA U8Atom) (includeDoc : Bool) : Except Err (List Char) :=
  (N.toGraph U8Atom.display).toTikz includeDoc

/-- `U8TDFA::to_tikz`, working_u8_dfa.rs 461-520. -/
def TDFA.toTikz (D : TDFA) (includeDoc : Bool) : Except Err (List Char) :=
  D.toGraph.toTikz includeDoc

/-- `U8DFA::to_tikz`, working_u8_dfa.rs 650-704. -/
def DFA.toTikz (D : DFA) (includeDoc : Bool) : Except Err (List Char) :=
  D.toGraph.toTikz includeDoc

end Ere
