import Mathlib.Logic.Relation
import Verif.Model.NFA
import Verif.Spec.Grammar

/-!
# Specification of drawings

A reader for the fragment of TikZ that draws automata: `readPicture` takes the text of a picture and
returns the nodes and edges that it shows. It knows nothing of how the text was produced. Numbers are
read as decimal numbers, and the text of a label is whatever stands between a brace and its partner,
where a backslash protects the character after it.
-/

namespace Ere

/-- Where a node is put. -/
inductive Place
  /-- no position: where the drawing begins -/
  | origin
  /-- one step to the right of another node -/
  | rightOf (node : Nat)
  /-- at given coordinates -/
  | at (x y : Int)
deriving DecidableEq, Repr

/-- A node of a picture. -/
structure PNode where
  name : Nat
  initial : Bool
  accepting : Bool
  place : Place
  label : List Char
deriving DecidableEq, Repr

/-- The shape of an edge. -/
inductive EdgeShape
  | straight
  | bent
  | loop
deriving DecidableEq, Repr

/-- An edge of a picture. -/
structure PEdge where
  src : Nat
  shape : EdgeShape
  label : List Char
  dst : Nat
deriving DecidableEq, Repr

/-- What a picture shows. -/
structure Picture where
  nodes : List PNode
  edges : List PEdge
deriving DecidableEq, Repr

/-- Read the given text. -/
def expect : List Char → List Char → Option (List Char)
  | [], s => some s
  | c :: p, d :: s => if c = d then expect p s else none
  | _ :: _, [] => none

/-- Read the given text if it is there. -/
def optional (p s : List Char) : Bool × List Char :=
  match expect p s with
  | some s => (true, s)
  | none => (false, s)

/-- Read a decimal number. -/
def readNum (s : List Char) : Option (Nat × List Char) :=
  match s.takeWhile Char.isDigit with
  | [] => none
  | c :: ds => some (decValue (c :: ds), s.dropWhile Char.isDigit)

/-- Read a decimal number that may have a minus sign. -/
def readInt : List Char → Option (Int × List Char)
  | '-' :: s => (readNum s).map (fun p => (-(p.1 : Int), p.2))
  | s => (readNum s).map (fun p => ((p.1 : Int), p.2))

/-- Read to the brace that closes the group; `d` is the number of groups open inside of it. -/
def readGroup : Nat → List Char → Option (List Char × List Char)
  | _, [] => none
  | d, '\\' :: c :: s => (readGroup d s).map (fun p => ('\\' :: c :: p.1, p.2))
  | d, '{' :: s => (readGroup (d + 1) s).map (fun p => ('{' :: p.1, p.2))
  | 0, '}' :: s => some ([], s)
  | d + 1, '}' :: s => (readGroup d s).map (fun p => ('}' :: p.1, p.2))
  | d, c :: s => (readGroup d s).map (fun p => (c :: p.1, p.2))

/-- Read the position of a node that follows its name. -/
def readAt (before : Place) (s : List Char) : Option (Place × List Char) :=
  match expect " at (".toList s with
  | none => some (before, s)
  | some s => do
    let (x, s) ← readInt s
    let s ← expect ", ".toList s
    let (y, s) ← readInt s
    let s ← expect ") ".toList s
    return (.at x y, s)

/-- Read the position of a node among its options. -/
def readRight (s : List Char) : Option (Place × List Char) :=
  match expect ", right of=q".toList s with
  | none => some (.origin, s)
  | some s => do
    let (k, s) ← readNum s
    return (.rightOf k, s)

/-- Read `\node[state, …](q…) …{label};`. -/
def readNode (s : List Char) : Option (PNode × List Char) := do
  let s ← expect "\\node[state".toList s
  let (ini, s) := optional ", initial".toList s
  let (acc, s) := optional ", accepting".toList s
  let (pl, s) ← readRight s
  let s ← expect "](q".toList s
  let (name, s) ← readNum s
  let s ← expect ")".toList s
  let (pl, s) ← readAt pl s
  let s ← expect "{".toList s
  let (label, s) ← readGroup 0 s
  let s ← expect ";\n".toList s
  return (⟨name, ini, acc, pl, label⟩, s)

/-- Read the shape of an edge. -/
def readShape (s : List Char) : EdgeShape × List Char :=
  match expect "[bend left] ".toList s with
  | some s => (.bent, s)
  | none =>
    match expect "[loop below]".toList s with
    | some s => (.loop, s)
    | none => (.straight, s)

/-- Read `\path[->] (q…) edge … node {label} (q…);`. -/
def readEdge (s : List Char) : Option (PEdge × List Char) := do
  let s ← expect "\\path[->] (q".toList s
  let (src, s) ← readNum s
  let s ← expect ") edge ".toList s
  let (sh, s) := readShape s
  let (_, s) := optional " ".toList s
  let s ← expect "node {".toList s
  let (label, s) ← readGroup 0 s
  let s ← expect " (q".toList s
  let (dst, s) ← readNum s
  let s ← expect ");\n".toList s
  return (⟨src, sh, label, dst⟩, s)

/-- Read items as long as there are any; `n` bounds their number. -/
def readMany {β : Type} (item : List Char → Option (β × List Char)) : Nat → List Char → List β × List Char
  | 0, s => ([], s)
  | n + 1, s =>
    match item s with
    | none => ([], s)
    | some (b, s) => ((b :: (readMany item n s).1), (readMany item n s).2)

/-- Read a picture, with or without the document around it. -/
def readPicture (s : List Char) : Option Picture := do
  let (doc, s) := optional
    "\\documentclass{standalone}\n\\usepackage{tikz}\n\\usetikzlibrary{automata, positioning}\n\\begin{document}\n".toList s
  let s ← expect "\\begin{tikzpicture}[node distance=2cm, auto]\n".toList s
  let (nodes, s) := readMany readNode s.length s
  let (edges, s) := readMany readEdge s.length s
  let s ← expect "\\end{tikzpicture}\n".toList s
  let s ← if doc then expect "\\end{document}\n".toList s else some s
  if s = [] then return ⟨nodes, edges⟩ else none

/-- The characters that LaTeX does not print as themselves. -/
def texSpecials : List Char := ['\\', '&', '%', '$', '#', '_', '{', '}', '~', '^']

/-- The text that a piece of LaTeX text shows: escaped special characters, the three that are written as words,
and all others as themselves; `none` if a special character stands alone. -/
def texShows : List Char → Option (List Char)
  | [] => some []
  | '{' :: '\\' :: 't' :: 'e' :: 'x' :: 't' :: 'b' :: 'a' :: 'c' :: 'k' :: 's' :: 'l' :: 'a' :: 's' :: 'h' ::
      '}' :: s => (texShows s).map ('\\' :: ·)
  | '{' :: '\\' :: 't' :: 'e' :: 'x' :: 't' :: 'a' :: 's' :: 'c' :: 'i' :: 'i' :: 't' :: 'i' :: 'l' :: 'd' ::
      'e' :: '}' :: s => (texShows s).map ('~' :: ·)
  | '{' :: '\\' :: 't' :: 'e' :: 'x' :: 't' :: 'a' :: 's' :: 'c' :: 'i' :: 'i' :: 'c' :: 'i' :: 'r' :: 'c' ::
      'u' :: 'm' :: '}' :: s => (texShows s).map ('^' :: ·)
  | '\\' :: c :: s =>
    if c ∈ ['&', '%', '$', '#', '_', '{', '}'] then (texShows s).map (c :: ·) else none
  | c :: s => if c ∈ texSpecials then none else (texShows s).map (c :: ·)

/-- What the label of an edge says: the kind of an epsilon transition and its number in its state, or
some text. -/
inductive Mark
  | eps (e : EpsType) (k : Nat)
  | text (t : List Char)
deriving DecidableEq, Repr

/-- Read the end of the label of an epsilon transition: its number. -/
def readIndex (s : List Char) : Option Nat := do
  let (k, s) ← readNum s
  let s ← expect "}$".toList s
  if s = [] then return k else none

/-- Read a label. -/
def readMark (l : List Char) : Option Mark :=
  match expect "$\\epsilon_{".toList l with
  | some s => (readIndex s).map (.eps .none)
  | none =>
    match expect "{\\textasciicircum}$_{".toList l with
    | some s => (readIndex s).map (.eps .startAnchor)
    | none =>
      match expect "$\\$_{".toList l with
      | some s => (readIndex s).map (.eps .endAnchor)
      | none =>
        match expect "$)".toList l with
        | some s => do
          let (g, s) ← readNum s
          let s ← expect "_{".toList s
          (readIndex s).map (.eps (.endCapture g))
        | none =>
          match expect "$".toList l with
          | some s => do
            let (g, s) ← readNum s
            let s ← expect "(_{".toList s
            (readIndex s).map (.eps (.startCapture g))
          | none => (texShows l).map .text

/-! ### Bytes in labels -/

/-- The value of a hexadecimal digit. -/
def hexVal (c : Char) : Nat := if c.toNat < 58 then c.toNat - 48 else c.toNat - 87

/-- Read a byte that is written as itself or with a backslash: `\t`, `\r`, `\n`, `\x` and two digits, or a
backslash before the character itself. -/
def readEscByte : List Char → Option (UInt8 × List Char)
  | '\\' :: 'x' :: a :: b :: s => some (UInt8.ofNat (hexVal a * 16 + hexVal b), s)
  | '\\' :: 't' :: s => some (9, s)
  | '\\' :: 'r' :: s => some (13, s)
  | '\\' :: 'n' :: s => some (10, s)
  | '\\' :: c :: s => some (UInt8.ofNat c.toNat, s)
  | c :: s => some (UInt8.ofNat c.toNat, s)
  | [] => none

/-- Read a byte or a range of bytes in brackets, in labels of nondeterministic automata. -/
def readEscRange (t : List Char) : Option (UInt8 × UInt8) :=
  match readEscByte t with
  | some (b, []) => some (b, b)
  | _ => do
    let t ← expect ['['] t
    let (a, t) ← readEscByte t
    let t ← expect ['-'] t
    let (b, t) ← readEscByte t
    let t ← expect [']'] t
    if t = [] then return (a, b) else none

/-- Read a byte that is written as a character in quotes or as `0x` and two digits. -/
def readQuotedByte : List Char → Option (UInt8 × List Char)
  | '\'' :: '\\' :: 'u' :: '{' :: 'c' :: '}' :: '\'' :: s => some (12, s)
  | '\'' :: '\\' :: 't' :: '\'' :: s => some (9, s)
  | '\'' :: '\\' :: 'r' :: '\'' :: s => some (13, s)
  | '\'' :: '\\' :: 'n' :: '\'' :: s => some (10, s)
  | '\'' :: '\\' :: c :: '\'' :: s => some (UInt8.ofNat c.toNat, s)
  | '\'' :: c :: '\'' :: s => some (UInt8.ofNat c.toNat, s)
  | '0' :: 'x' :: a :: b :: s => some (UInt8.ofNat (hexVal a * 16 + hexVal b), s)
  | _ => none

/-- Read a byte or a range of bytes `…..=…`, in labels of deterministic automata. -/
def readQuotedRange (t : List Char) : Option (UInt8 × UInt8) := do
  let (a, t) ← readQuotedByte t
  if t = [] then return (a, a) else
    let t ← expect ['.', '.', '='] t
    let (b, t) ← readQuotedByte t
    if t = [] then return (a, b) else none

/-- What a label of an automaton over bytes means. -/
inductive ByteMark
  /-- an epsilon transition of a kind, with its number in its state -/
  | eps (e : EpsType) (k : Nat)
  /-- the bytes from one to another -/
  | bytes (lo hi : UInt8)
  /-- acceptance, anywhere -/
  | accept
  /-- acceptance at the end of the text -/
  | acceptEnd
deriving DecidableEq, Repr

/-- Read a label of a nondeterministic automaton over bytes. -/
def readNfaMark (l : List Char) : Option ByteMark :=
  match readMark l with
  | some (.eps e k) => some (.eps e k)
  | some (.text t) => (readEscRange t).map (fun r => .bytes r.1 r.2)
  | none => none

/-- Read a label of a deterministic automaton. -/
def readDfaMark (l : List Char) : Option ByteMark :=
  match readMark l with
  | some (.text []) => some .accept
  | some (.text ['$']) => some .acceptEnd
  | some (.text t) => (readQuotedRange t).map (fun r => .bytes r.1 r.2)
  | _ => none

/-! ### Where things are -/

/-- An edge of the picture from one node to another. -/
def Picture.Step (P : Picture) (a b : Nat) : Prop := ∃ e ∈ P.edges, e.src = a ∧ e.dst = b ∧ b ≠ a

/-- Every node can be reached from the first one and, apart from loops at a node, there are no cycles. -/
structure Picture.Layered (P : Picture) : Prop where
  ne : P.nodes ≠ []
  reach : ∀ n ∈ P.nodes, Relation.ReflTransGen P.Step 0 n.name
  acyclic : ∀ i, ¬ Relation.TransGen P.Step i i

/-- Nodes at coordinates: no two at the same ones, and every edge between two nodes goes from left to right. -/
structure Picture.InLayers (P : Picture) (pos : Nat → Int × Int) : Prop where
  place : ∀ n ∈ P.nodes, n.place = .at (pos n.name).1 (pos n.name).2
  apart : ∀ n ∈ P.nodes, ∀ m ∈ P.nodes, pos n.name = pos m.name → n.name = m.name
  right : ∀ e ∈ P.edges, e.src ≠ e.dst → (pos e.src).1 < (pos e.dst).1

/-- Nodes in a row: every node but the first is placed to the right of the one before. -/
def Picture.InRow (P : Picture) : Prop :=
  ∀ n ∈ P.nodes, n.place = if n.name = 0 then .origin else .rightOf (n.name - 1)

/-- Edges from a node to itself have the shape of a loop. -/
def Picture.LoopsShown (P : Picture) : Prop := ∀ e ∈ P.edges, e.src = e.dst → e.shape = .loop

end Ere
