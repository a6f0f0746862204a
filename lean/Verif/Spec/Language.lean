import Verif.Spec.Posix
import Mathlib.Computability.Language

/-!
# Specification: patterns as formal languages

The language of a pattern in Mathlib's Kleene algebra of languages: alternatives are sums, juxtaposition is the product,
`*` is the Kleene star, counts are powers. This does not use the inductive relation of `Spec/Semantics`. Anchors are
left out (they stand for the language of the empty text).
-/

namespace Ere

open scoped Computability

/-- What a quantifier does to a language. -/
def QType.lang (L : Language Char) : QType → Language Char
  | .star => L∗
  | .plus => L * L∗
  | .question => 1 + L
  | .multiple n => L ^ n
  | .range n none => L ^ n * L∗
  | .range n (some m) => if n ≤ m then L ^ n * (1 + L) ^ (m - n) else 0

/-- The texts of one character that an atom stands for. -/
def Atom.lang (a : Atom) : Language Char := {w | ∃ c, a.Means c ∧ w = [c]}

mutual
/-- The language of a pattern. -/
def ERE.lang : ERE → Language Char
  | .mk bs => branchesLang bs
/-- … of alternatives. -/
def branchesLang : List EREBranch → Language Char
  | [] => 0
  | b :: bs => b.lang + branchesLang bs
/-- … of a branch. -/
def EREBranch.lang : EREBranch → Language Char
  | .mk ps => partsLang ps
/-- … of parts one after the other. -/
def partsLang : List EREPart → Language Char
  | [] => 1
  | p :: ps => p.lang * partsLang ps
/-- … of a part. -/
def EREPart.lang : EREPart → Language Char
  | .single x => x.lang
  | .quantified x q => q.q.lang x.lang
  | .start => 1
  | .end_ => 1
/-- … of an expression. -/
def EREExpr.lang : EREExpr → Language Char
  | .atom a => a.lang
  | .sub e => e.lang
end

/-- What may stand beside a match: nothing at the side of an anchor, anything otherwise. -/
def beside (anchored : Bool) : Language Char := if anchored then 1 else ⊤

end Ere
