import Verif.Spec.Captures

/-!
# Nesting of the groups of a pattern
-/

namespace Ere

mutual
/-- No expression with groups is repeated: quantifiers around groups allow one repetition at most. -/
def ERE.once : ERE → Bool
  | .mk bs => branchesOnce bs
/-- … of branches. -/
def branchesOnce : List EREBranch → Bool
  | [] => true
  | b :: bs => b.once && branchesOnce bs
/-- … of a branch. -/
def EREBranch.once : EREBranch → Bool
  | .mk ps => partsOnce ps
/-- … of parts. -/
def partsOnce : List EREPart → Bool
  | [] => true
  | p :: ps => p.once && partsOnce ps
/-- … of a part. -/
def EREPart.once : EREPart → Bool
  | .single e => e.once
  | .quantified e q => e.groups == 0 || (q.q.max.any (· ≤ 1) && e.once)
  | .start => true
  | .end_ => true
/-- … of an expression. -/
def EREExpr.once : EREExpr → Bool
  | .atom _ => true
  | .sub e => e.once
end

mutual
/-- Every group with the innermost group around it, if the pattern is inside of group `p` and its first group has
number `g`. -/
def ERE.nest (p : Nat) : ERE → Nat → List (Nat × Nat)
  | .mk bs, g => nestBranches p bs g
/-- … of branches. -/
def nestBranches (p : Nat) : List EREBranch → Nat → List (Nat × Nat)
  | [], _ => []
  | b :: bs, g => b.nest p g ++ nestBranches p bs (g + b.groups)
/-- … of a branch. -/
def EREBranch.nest (p : Nat) : EREBranch → Nat → List (Nat × Nat)
  | .mk ps, g => nestParts p ps g
/-- … of parts. -/
def nestParts (p : Nat) : List EREPart → Nat → List (Nat × Nat)
  | [], _ => []
  | x :: ps, g => x.nest p g ++ nestParts p ps (g + x.groups)
/-- … of a part. -/
def EREPart.nest (p : Nat) : EREPart → Nat → List (Nat × Nat)
  | .single e, g => e.nest p g
  | .quantified e _, g => e.nest p g
  | .start, _ => []
  | .end_, _ => []
/-- … of an expression. -/
def EREExpr.nest (p : Nat) : EREExpr → Nat → List (Nat × Nat)
  | .atom _, _ => []
  | .sub e, g => (g, p) :: e.nest g (g + 1)
end

end Ere
