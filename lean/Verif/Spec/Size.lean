import Verif.Model.Tree

/-!
# The size of a pattern (specification)

How many positions a pattern has once its repetitions are written out: `a{3}` counts like `aaa`, `a+`
like `aa*`, `a{2,5}` like five copies.
-/

namespace Ere

/-- How many copies of its operand a repetition stands for. -/
def QType.copies : QType → Nat
  | .star => 1
  | .plus => 2
  | .question => 1
  | .multiple n => n
  | .range n none => n + 1
  | .range _ (some m) => m

mutual
/-- Size of a pattern; an atom `a` counts `1 + w a`. -/
def ERE.expanded (w : Atom → Nat) : ERE → Nat
  | .mk bs => expandedBranches w bs
/-- … of a list of branches: one for each branch. -/
def expandedBranches (w : Atom → Nat) : List EREBranch → Nat
  | [] => 0
  | b :: bs => 1 + b.expanded w + expandedBranches w bs
/-- … of a branch. -/
def EREBranch.expanded (w : Atom → Nat) : EREBranch → Nat
  | .mk ps => expandedParts w ps
/-- … of a list of parts. -/
def expandedParts (w : Atom → Nat) : List EREPart → Nat
  | [] => 0
  | p :: ps => p.expanded w + expandedParts w ps
/-- … of a part: one for a repetition, and its operand as often as it is copied. -/
def EREPart.expanded (w : Atom → Nat) : EREPart → Nat
  | .single e => e.expanded w
  | .quantified e q => 1 + q.q.copies * e.expanded w
  | .start => 1
  | .end_ => 1
/-- … of an expression. -/
def EREExpr.expanded (w : Atom → Nat) : EREExpr → Nat
  | .atom a => 1 + w a
  | .sub e => 1 + e.expanded w
end

end Ere
