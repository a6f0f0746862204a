import Verif.Spec.Semantics

/-!
# Specification of captures

What the groups of a pattern capture, with no reference to trees or automata. Groups are numbered by
their opening parentheses from left to right, starting with 1; group 0 is the whole match.
-/

namespace Ere

/-- A stretch of the text (byte offsets) matched by a group. -/
structure Span where
  group : Nat
  lo : Nat
  hi : Nat
deriving DecidableEq, Repr

mutual
/-- Number of parentheses of a pattern. -/
def ERE.groups : ERE → Nat
  | .mk bs => groupsBranches bs
/-- … of branches. -/
def groupsBranches : List EREBranch → Nat
  | [] => 0
  | b :: bs => b.groups + groupsBranches bs
/-- … of a branch. -/
def EREBranch.groups : EREBranch → Nat
  | .mk ps => groupsParts ps
/-- … of parts. -/
def groupsParts : List EREPart → Nat
  | [] => 0
  | p :: ps => p.groups + groupsParts ps
/-- … of a part. -/
def EREPart.groups : EREPart → Nat
  | .single e => e.groups
  | .quantified e _ => e.groups
  | .start => 0
  | .end_ => 0
/-- … of an expression. -/
def EREExpr.groups : EREExpr → Nat
  | .atom _ => 0
  | .sub e => 1 + e.groups
end

mutual
/-- `CapERE e g pre mid post S`: in the text `pre ++ mid ++ post` the pattern `e`, whose first group
has number `g`, can match the stretch `mid` in such a way that its groups match the stretches `S`, in
the order in which they are completed. -/
inductive CapERE : ERE → Nat → List Char → List Char → List Char → List Span → Prop
  | intro {bs bs1 b bs2 g pre mid post S} : bs = bs1 ++ b :: bs2 →
      CapBranch b (g + groupsBranches bs1) pre mid post S → CapERE (.mk bs) g pre mid post S
/-- The same for a branch. -/
inductive CapBranch : EREBranch → Nat → List Char → List Char → List Char → List Span → Prop
  | nil {g pre post} : CapBranch (.mk []) g pre [] post []
  | cons {p ps g pre m1 m2 post S1 S2} : CapPart p g pre m1 (m2 ++ post) S1 →
      CapBranch (.mk ps) (g + p.groups) (pre ++ m1) m2 post S2 →
      CapBranch (.mk (p :: ps)) g pre (m1 ++ m2) post (S1 ++ S2)
/-- The same for a part. -/
inductive CapPart : EREPart → Nat → List Char → List Char → List Char → List Span → Prop
  | single {e g pre mid post S} : CapExpr e g pre mid post S → CapPart (.single e) g pre mid post S
  | quantified {e q n g pre mid post S} : q.q.min ≤ n → (∀ m, q.q.max = some m → n ≤ m) →
      CapTimes e n g pre mid post S → CapPart (.quantified e q) g pre mid post S
  | start {g post} : CapPart .start g [] [] post []
  | end_ {g pre} : CapPart .end_ g pre [] [] []
/-- `n` consecutive matches; the group numbers are the same every time. -/
inductive CapTimes : EREExpr → Nat → Nat → List Char → List Char → List Char → List Span → Prop
  | zero {e g pre post} : CapTimes e 0 g pre [] post []
  | succ {e n g pre m1 m2 post S1 S2} : CapExpr e g pre m1 (m2 ++ post) S1 →
      CapTimes e n g (pre ++ m1) m2 post S2 → CapTimes e (n + 1) g pre (m1 ++ m2) post (S1 ++ S2)
/-- The same for an expression: a parenthesis records what it matched. -/
inductive CapExpr : EREExpr → Nat → List Char → List Char → List Char → List Span → Prop
  | atom {a c g pre post} : a.check c = true → CapExpr (.atom a) g pre [c] post []
  | sub {e g pre mid post S} : CapERE e (g + 1) pre mid post S →
      CapExpr (.sub e) g pre mid post (S ++ [⟨g, byteLen pre, byteLen (pre ++ mid)⟩])
end

/-- The last stretch matched by group `g`, if it took part. -/
def lastSpan (S : List Span) (g : Nat) : Option (Nat × Nat) :=
  (S.reverse.find? (fun s => s.group == g)).map (fun s => (s.lo, s.hi))

/-- `e.Captures text S`: there is a way of matching the pattern somewhere in the text in which the
groups, including group 0 for the whole match, matched the stretches `S`. -/
def ERE.Captures (e : ERE) (text : List Char) (S : List Span) : Prop :=
  ∃ pre mid post S', text = pre ++ mid ++ post ∧ CapERE e 1 pre mid post S' ∧
    S = S' ++ [⟨0, byteLen pre, byteLen (pre ++ mid)⟩]

end Ere
