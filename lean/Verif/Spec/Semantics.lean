import Verif.Model.SymAtom
import Mathlib.Logic.Relation

/-!
# Specifications

* `Matches…` — what a parsed pattern matches, with no reference to trees or automata.
* `Tree.Run` — runs of a simplified tree, with byte offsets and captures.
* `NFA.Acc` — accepting runs of an automaton, with byte offsets and captures.
-/

namespace Ere

/-! ## Patterns -/

mutual
/-- `MatchesERE e pre mid post`: in the text `pre ++ mid ++ post` the pattern `e` matches exactly the
stretch `mid`. A pattern matches what one of its branches matches. -/
inductive MatchesERE : ERE → List Char → List Char → List Char → Prop
  | intro {bs b pre mid post} : b ∈ bs → MatchesBranch b pre mid post →
      MatchesERE (.mk bs) pre mid post
/-- A branch matches the concatenation of what its parts match. -/
inductive MatchesBranch : EREBranch → List Char → List Char → List Char → Prop
  | nil {pre post} : MatchesBranch (.mk []) pre [] post
  | cons {p ps pre m1 m2 post} : MatchesPart p pre m1 (m2 ++ post) →
      MatchesBranch (.mk ps) (pre ++ m1) m2 post → MatchesBranch (.mk (p :: ps)) pre (m1 ++ m2) post
/-- A part: an expression, a counted expression, `^` (only at the start of the text) or `$` (only at
its end). -/
inductive MatchesPart : EREPart → List Char → List Char → List Char → Prop
  | single {e pre mid post} : MatchesExpr e pre mid post → MatchesPart (.single e) pre mid post
  | quantified {e q n pre mid post} : q.q.min ≤ n → (∀ m, q.q.max = some m → n ≤ m) →
      MatchesTimes e n pre mid post → MatchesPart (.quantified e q) pre mid post
  | start {post} : MatchesPart .start [] [] post
  | end_ {pre} : MatchesPart .end_ pre [] []
/-- `n` consecutive matches of an expression. -/
inductive MatchesTimes : EREExpr → Nat → List Char → List Char → List Char → Prop
  | zero {e pre post} : MatchesTimes e 0 pre [] post
  | succ {e n pre m1 m2 post} : MatchesExpr e pre m1 (m2 ++ post) →
      MatchesTimes e n (pre ++ m1) m2 post → MatchesTimes e (n + 1) pre (m1 ++ m2) post
/-- An expression: one character or a group. -/
inductive MatchesExpr : EREExpr → List Char → List Char → List Char → Prop
  | atom {a c pre post} : a.check c = true → MatchesExpr (.atom a) pre [c] post
  | sub {e pre mid post} : MatchesERE e pre mid post → MatchesExpr (.sub e) pre mid post
end

/-- The pattern matches some stretch of the text (what `Regex::test` is documented to decide). -/
def ERE.MatchesIn (e : ERE) (text : List Char) : Prop :=
  ∃ pre mid post, text = pre ++ mid ++ post ∧ MatchesERE e pre mid post

/-- Byte length of a text. -/
def byteLen (cs : List Char) : Nat := (cs.map charLen).sum

/-! ## Trees -/

/-- Runs of a simplified tree: from a configuration (byte offset, remaining text, captures) to a
configuration. -/
inductive Tree.Run : Tree → Cfg Char → Cfg Char → Prop
  | empty {d} : Run .empty d d
  | symbol {a c off rest caps} : a.check c = true →
      Run (.symbol a) ⟨off, c :: rest, caps⟩ ⟨off + charLen c, rest, caps⟩
  | union {ts t d d'} : t ∈ ts → Run t d d' → Run (.union ts) d d'
  | capture {t g d d'} : Run t ⟨d.off, d.rest, d.caps.setStart g d.off⟩ d' →
      Run (.capture t g) d ⟨d'.off, d'.rest, d'.caps.setEnd g d'.off⟩
  | concatNil {d} : Run (.concat []) d d
  | concatCons {t ts d d1 d'} : Run t d d1 → Run (.concat ts) d1 d' → Run (.concat (t :: ts)) d d'
  | repOne {t d d'} : Run t d d' → Run (.rep t 0) d d'
  | repSucc {t n d d1 d'} : Run t d d1 → Run (.rep t n) d1 d' → Run (.rep t (n + 1)) d d'
  | upToNone {t n l d} : Run (.upTo t n l) d d
  | upToLast {t l d d'} : Run t d d' → Run (.upTo t 0 l) d d'
  | upToSucc {t n l d d1 d'} : Run t d d1 → Run (.upTo t n l) d1 d' → Run (.upTo t (n + 1) l) d d'
  | starNil {t l d} : Run (.star t l) d d
  | starCons {t l d d1 d'} : Run t d d1 → Run (.star t l) d1 d' → Run (.star t l) d d'
  | start {rest caps} : Run .start ⟨0, rest, caps⟩ ⟨0, rest, caps⟩
  | end_ {off caps} : Run .end_ ⟨off, [], caps⟩ ⟨off, [], caps⟩

/-! ## Automata -/

section
variable {σ α : Type} [Sym σ α]

/-- One step of a run over an edge relation. -/
def StepE (E : Nat → Lab σ → Nat → Prop) (x y : Nat × Cfg α) : Prop :=
  ∃ l, E x.1 l y.1 ∧ labStep l x.2 = some y.2

/-- Runs over an edge relation. -/
def ReachE (E : Nat → Lab σ → Nat → Prop) : Nat × Cfg α → Nat × Cfg α → Prop :=
  Relation.ReflTransGen (StepE E)

/-- Runs of an automaton from the start state to the accept state. -/
def NFA.Acc (N : NFA σ) (d d' : Cfg α) : Prop :=
  N ≠ [] ∧ ReachE N.HasEdge (0, d) (N.length - 1, d')

/-- Every edge leads to an existing state. -/
def NFA.WF (N : NFA σ) : Prop := ∀ q l q', N.HasEdge q l q' → q' < N.length

end

end Ere

namespace Ere

/-- In the text `pre ++ mid ++ post` the tree matches exactly the stretch `mid`, for whatever
capture positions. -/
def Tree.MatchesText (t : Tree) (pre mid post : List Char) : Prop :=
  ∃ caps caps', t.Run ⟨byteLen pre, mid ++ post, caps⟩ ⟨byteLen (pre ++ mid), post, caps'⟩

/-- `n` consecutive matches of a tree. -/
inductive Tree.MatchesTimes (t : Tree) : Nat → List Char → List Char → List Char → Prop
  | zero {pre post} : MatchesTimes t 0 pre [] post
  | succ {n pre m1 m2 post} : t.MatchesText pre m1 (m2 ++ post) →
      MatchesTimes t n (pre ++ m1) m2 post → MatchesTimes t (n + 1) pre (m1 ++ m2) post

end Ere
