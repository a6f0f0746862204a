import Verif.Spec.Semantics

/-!
# Laws of patterns

Ways of writing a pattern differently that, by what the POSIX constructs mean, do not change what it matches. Groups are
only regarded as parentheses here.
-/

namespace Ere

/-- The parts of a branch. -/
def EREBranch.parts : EREBranch → List EREPart
  | .mk ps => ps

/-- A greedy quantifier. -/
def QType.greedy (q : QType) : Quantifier := ⟨q, false⟩

mutual
/-- Patterns that differ by laws. -/
inductive LawERE : ERE → ERE → Prop
  | refl {e} : LawERE e e
  | symm {e e'} : LawERE e e' → LawERE e' e
  | trans {e e' e''} : LawERE e e' → LawERE e' e'' → LawERE e e''
  /-- Alternatives may be reordered and repeated. -/
  | alternatives {bs bs'} : (∀ b, b ∈ bs ↔ b ∈ bs') → LawERE (.mk bs) (.mk bs')
  /-- An alternative may be changed by a law. -/
  | branch {bs1 b b' bs2} : LawBranch b b' → LawERE (.mk (bs1 ++ b :: bs2)) (.mk (bs1 ++ b' :: bs2))
  /-- `x(a|b)y` is `xay|xby`; in particular parentheses around one alternative may be left out. -/
  | distribute {bs1 ps1 bs ps2 bs2} :
      LawERE (.mk (bs1 ++ .mk (ps1 ++ .single (.sub (.mk bs)) :: ps2) :: bs2))
        (.mk (bs1 ++ (bs.map (fun b => .mk (ps1 ++ b.parts ++ ps2)) ++ bs2)))
/-- Branches that differ by laws. -/
inductive LawBranch : EREBranch → EREBranch → Prop
  | parts {ps1 ps ps' ps2} : LawParts ps ps' → LawBranch (.mk (ps1 ++ (ps ++ ps2))) (.mk (ps1 ++ (ps' ++ ps2)))
/-- Pieces of a branch that differ by laws. -/
inductive LawParts : List EREPart → List EREPart → Prop
  /-- `x+` is `xx*`. -/
  | plus {e} : LawParts [.quantified e QType.plus.greedy] [.single e, .quantified e QType.star.greedy]
  /-- `x?` is `x{0,1}`. -/
  | question {e} : LawParts [.quantified e QType.question.greedy] [.quantified e (QType.range 0 (some 1)).greedy]
  /-- `x*` is `x{0,}`. -/
  | star {e} : LawParts [.quantified e QType.star.greedy] [.quantified e (QType.range 0 none).greedy]
  /-- `x{n}` is `x{n,n}`. -/
  | exact {e n} : LawParts [.quantified e (QType.multiple n).greedy] [.quantified e (QType.range n (some n)).greedy]
  /-- A lazy quantifier matches the same texts. -/
  | lazy {e q} : LawParts [.quantified e ⟨q, true⟩] [.quantified e ⟨q, false⟩]
  /-- `x{0}` is nothing. -/
  | none {e} : LawParts [.quantified e (QType.multiple 0).greedy] []
  /-- `x{1}` is `x`. -/
  | one {e} : LawParts [.quantified e (QType.multiple 1).greedy] [.single e]
  /-- `x{m+n}` is `x{m}x{n}`. -/
  | split {e m n} : LawParts [.quantified e (QType.multiple (m + n)).greedy]
      [.quantified e (QType.multiple m).greedy, .quantified e (QType.multiple n).greedy]
  /-- `x{n,}` is `x{n}x*`. -/
  | atLeast {e n} : LawParts [.quantified e (QType.range n Option.none).greedy]
      [.quantified e (QType.multiple n).greedy, .quantified e QType.star.greedy]
  /-- `x{m,m+n}` is `x{m}x{0,n}`. -/
  | range {e m n} : LawParts [.quantified e (QType.range m (some (m + n))).greedy]
      [.quantified e (QType.multiple m).greedy, .quantified e (QType.range 0 (some n)).greedy]
  /-- `(x*)*` is `x*`. -/
  | starStar {e} : LawParts
      [.quantified (.sub (.mk [.mk [.quantified e QType.star.greedy]])) QType.star.greedy] [.quantified e QType.star.greedy]
  /-- Doubled anchors. -/
  | start : LawParts [.start, .start] [.start]
  | end_ : LawParts [.end_, .end_] [.end_]
  /-- An expression may be changed by a law, with or without quantifier. -/
  | single {e e'} : LawExpr e e' → LawParts [.single e] [.single e']
  | quantified {e e' q} : LawExpr e e' → LawParts [.quantified e q] [.quantified e' q]
/-- Expressions that differ by laws. -/
inductive LawExpr : EREExpr → EREExpr → Prop
  /-- Sets with the same characters, as `[ab]` and `[ba]`. -/
  | atom {a b : Atom} : (∀ c, a.check c = b.check c) → LawExpr (.atom a) (.atom b)
  | sub {e e'} : LawERE e e' → LawExpr (.sub e) (.sub e')
end

end Ere
