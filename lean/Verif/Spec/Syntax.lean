import Verif.Spec.Semantics

/-! Simple syntactic facts about patterns. -/

namespace Ere

mutual
/-- `^` occurs in the pattern. -/
def ERE.hasStart : ERE → Bool
  | .mk bs => branchesHaveStart bs
/-- … in one of the branches. -/
def branchesHaveStart : List EREBranch → Bool
  | [] => false
  | b :: bs => b.hasStart || branchesHaveStart bs
/-- … in a branch. -/
def EREBranch.hasStart : EREBranch → Bool
  | .mk ps => partsHaveStart ps
/-- … in one of the parts. -/
def partsHaveStart : List EREPart → Bool
  | [] => false
  | p :: ps => p.hasStart || partsHaveStart ps
/-- … in a part. -/
def EREPart.hasStart : EREPart → Bool
  | .single e => e.hasStart
  | .quantified e _ => e.hasStart
  | .start => true
  | .end_ => false
/-- … in an expression. -/
def EREExpr.hasStart : EREExpr → Bool
  | .atom _ => false
  | .sub e => e.hasStart
end

mutual
/-- The pattern with every `^` taken out. -/
def ERE.dropStart : ERE → ERE
  | .mk bs => .mk (branchesDropStart bs)
/-- … in the branches. -/
def branchesDropStart : List EREBranch → List EREBranch
  | [] => []
  | b :: bs => b.dropStart :: branchesDropStart bs
/-- … in a branch. -/
def EREBranch.dropStart : EREBranch → EREBranch
  | .mk ps => .mk (partsDropStart ps)
/-- … in the parts. -/
def partsDropStart : List EREPart → List EREPart
  | [] => []
  | p :: ps => p.dropStart ++ partsDropStart ps
/-- … in a part: nothing is left of `^`. -/
def EREPart.dropStart : EREPart → List EREPart
  | .single e => [.single e.dropStart]
  | .quantified e q => [.quantified e.dropStart q]
  | .start => []
  | .end_ => [.end_]
/-- … in an expression. -/
def EREExpr.dropStart : EREExpr → EREExpr
  | .atom a => .atom a
  | .sub e => .sub e.dropStart
end

mutual
/-- `$` occurs in the pattern. -/
def ERE.hasEnd : ERE → Bool
  | .mk bs => branchesHaveEnd bs
/-- … in one of the branches. -/
def branchesHaveEnd : List EREBranch → Bool
  | [] => false
  | b :: bs => b.hasEnd || branchesHaveEnd bs
/-- … in a branch. -/
def EREBranch.hasEnd : EREBranch → Bool
  | .mk ps => partsHaveEnd ps
/-- … in one of the parts. -/
def partsHaveEnd : List EREPart → Bool
  | [] => false
  | p :: ps => p.hasEnd || partsHaveEnd ps
/-- … in a part. -/
def EREPart.hasEnd : EREPart → Bool
  | .single e => e.hasEnd
  | .quantified e _ => e.hasEnd
  | .start => false
  | .end_ => true
/-- … in an expression. -/
def EREExpr.hasEnd : EREExpr → Bool
  | .atom _ => false
  | .sub e => e.hasEnd
end

mutual
/-- Number of parenthesised groups. -/
def ERE.groupCount : ERE → Nat
  | .mk bs => branchesGroups bs
/-- … in the branches. -/
def branchesGroups : List EREBranch → Nat
  | [] => 0
  | b :: bs => b.groupCount + branchesGroups bs
/-- … in a branch. -/
def EREBranch.groupCount : EREBranch → Nat
  | .mk ps => partsGroups ps
/-- … in the parts. -/
def partsGroups : List EREPart → Nat
  | [] => 0
  | p :: ps => p.groupCount + partsGroups ps
/-- … in a part. -/
def EREPart.groupCount : EREPart → Nat
  | .single e => e.groupCount
  | .quantified e _ => e.groupCount
  | .start => 0
  | .end_ => 0
/-- … in an expression. -/
def EREExpr.groupCount : EREExpr → Nat
  | .atom _ => 0
  | .sub e => e.groupCount + 1
end

mutual
/-- Every atom of the pattern satisfies `P`. -/
def ERE.atomsAll (P : Atom → Bool) : ERE → Bool
  | .mk bs => branchesAtoms P bs
/-- … of the branches. -/
def branchesAtoms (P : Atom → Bool) : List EREBranch → Bool
  | [] => true
  | b :: bs => b.atomsAll P && branchesAtoms P bs
/-- … of a branch. -/
def EREBranch.atomsAll (P : Atom → Bool) : EREBranch → Bool
  | .mk ps => partsAtoms P ps
/-- … of the parts. -/
def partsAtoms (P : Atom → Bool) : List EREPart → Bool
  | [] => true
  | p :: ps => p.atomsAll P && partsAtoms P ps
/-- … of a part. -/
def EREPart.atomsAll (P : Atom → Bool) : EREPart → Bool
  | .single e => e.atomsAll P
  | .quantified e _ => e.atomsAll P
  | .start => true
  | .end_ => true
/-- … of an expression. -/
def EREExpr.atomsAll (P : Atom → Bool) : EREExpr → Bool
  | .atom a => P a
  | .sub e => e.atomsAll P
end

mutual
/-- Every way to match the pattern passes a `^` after which no other `^` occurs. -/
def ERE.leads : ERE → Bool
  | .mk bs => branchesLead bs
/-- … each branch. -/
def branchesLead : List EREBranch → Bool
  | [] => true
  | b :: bs => b.leads && branchesLead bs
/-- … a branch. -/
def EREBranch.leads : EREBranch → Bool
  | .mk ps => partsLead ps
/-- … the parts in sequence. -/
def partsLead : List EREPart → Bool
  | [] => false
  | p :: ps => (p.leads && !partsHaveStart ps) || partsLead ps
/-- … a part. -/
def EREPart.leads : EREPart → Bool
  | .single e => e.leads
  | .quantified _ _ => false
  | .start => true
  | .end_ => false
/-- … an expression. -/
def EREExpr.leads : EREExpr → Bool
  | .atom _ => false
  | .sub e => e.leads
end

/-- The patterns for which the DFA engine handles `^` correctly: without `^`; beginning with `^` in every way
and nowhere else, as `^a*$`; not matching the empty text. -/
def ERE.StartSimple (e : ERE) : Prop := e.hasStart = false ∨ e.leads = true ∨ ¬ e.MatchesIn []

end Ere
