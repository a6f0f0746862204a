import Verif.Spec.Laws
import Verif.Spec.Priority

/-!
# Laws of patterns that do not change which match is preferred

Among the laws of `Spec/Laws` are some that change which of several matches is preferred (reordering alternatives, making
a quantifier lazy, distributing over alternatives from the left). Here are the ones that do not. Each is stated for greedy
and lazy quantifiers alike, where there is a quantifier.

There are two kinds: with `keep = true` the groups of the pattern stay what they are, with `keep = false` groups may come
and go, and only the whole match is of interest.
-/

namespace Ere

/-- A quantifier, lazy or not. -/
def QType.at (q : QType) (lazy : Bool) : Quantifier := ⟨q, lazy⟩

/-- `x` or nothing, `x` first. (`(x|)`, and for a lazy quantifier `(|x)`.) -/
def orNothing (lazy : Bool) (ps : List EREPart) : EREExpr :=
  if lazy then .sub (.mk [.mk [], .mk ps]) else .sub (.mk [.mk ps, .mk []])

mutual
/-- Patterns that differ by laws. -/
inductive OrdERE : Bool → ERE → ERE → Prop
  | refl {keep e} : OrdERE keep e e
  | symm {keep e e'} : OrdERE keep e e' → OrdERE keep e' e
  | trans {keep e e' e''} : OrdERE keep e e' → OrdERE keep e' e'' → OrdERE keep e e''
  /-- An alternative may be changed by a law. -/
  | branch {keep bs1 b b' bs2} : OrdBranch keep b b' → OrdERE keep (.mk (bs1 ++ b :: bs2)) (.mk (bs1 ++ b' :: bs2))
  /-- `(a|b)y` is `ay|by` (but `x(a|b)` is not `xa|xb`). -/
  | distribute {bs1 bs ps2 bs2} : OrdERE false (.mk (bs1 ++ .mk (.single (.sub (.mk bs)) :: ps2) :: bs2))
        (.mk (bs1 ++ (bs.map (fun b => .mk (b.parts ++ ps2)) ++ bs2)))
/-- Branches that differ by laws. -/
inductive OrdBranch : Bool → EREBranch → EREBranch → Prop
  | parts {keep ps1 ps ps' ps2} : OrdParts keep ps ps' →
      OrdBranch keep (.mk (ps1 ++ (ps ++ ps2))) (.mk (ps1 ++ (ps' ++ ps2)))
/-- Pieces of a branch that differ by laws. -/
inductive OrdParts : Bool → List EREPart → List EREPart → Prop
  /-- `x?` is `x{0,1}`. -/
  | question {keep e z} : OrdParts keep [.quantified e (QType.question.at z)] [.quantified e ((QType.range 0 (some 1)).at z)]
  /-- `x*` is `x{0,}`. -/
  | star {keep e z} : OrdParts keep [.quantified e (QType.star.at z)] [.quantified e ((QType.range 0 none).at z)]
  /-- `x+` is `x{1,}`. -/
  | plus {keep e z} : OrdParts keep [.quantified e (QType.plus.at z)] [.quantified e ((QType.range 1 none).at z)]
  /-- `x{n}` is `x{n,n}`. -/
  | exact {keep e n z} : OrdParts keep [.quantified e ((QType.multiple n).at z)] [.quantified e ((QType.range n (some n)).at z)]
  /-- It makes no difference whether `x{n}` is lazy. -/
  | exactLazy {keep e n} : OrdParts keep [.quantified e ((QType.multiple n).at true)] [.quantified e ((QType.multiple n).at false)]
  /-- `x{1}` is `x`. -/
  | one {keep e z} : OrdParts keep [.quantified e ((QType.multiple 1).at z)] [.single e]
  /-- `x{0}` is nothing. -/
  | none {keep e z} : (keep = true → e.groups = 0) → OrdParts keep [.quantified e ((QType.multiple 0).at z)] []
  /-- `x{m+n}` is `x{m}x{n}`. -/
  | split {keep e m n z} : (keep = true → e.groups = 0) → OrdParts keep [.quantified e ((QType.multiple (m + n)).at z)]
      [.quantified e ((QType.multiple m).at z), .quantified e ((QType.multiple n).at z)]
  /-- `x{n,}` is `x{n}x*`. -/
  | atLeast {keep e n z} : (keep = true → e.groups = 0) → OrdParts keep [.quantified e ((QType.range n Option.none).at z)]
      [.quantified e ((QType.multiple n).at z), .quantified e (QType.star.at z)]
  /-- `x{m,m+n}` is `x{m}x{0,n}`. -/
  | range {keep e m n z} : (keep = true → e.groups = 0) → OrdParts keep [.quantified e ((QType.range m (some (m + n))).at z)]
      [.quantified e ((QType.multiple m).at z), .quantified e ((QType.range 0 (some n)).at z)]
  /-- `x{0,n+1}` is `(xx{0,n}|)`. -/
  | upto {e n z} : OrdParts false [.quantified e ((QType.range 0 (some (n + 1))).at z)]
      [.single (orNothing z [.single e, .quantified e ((QType.range 0 (some n)).at z)])]
  /-- `x*` is `(xx*|)`, if `x` does not match the empty text. -/
  | unroll {e z} : e.nullable = false → OrdParts false [.quantified e (QType.star.at z)]
      [.single (orNothing z [.single e, .quantified e (QType.star.at z)])]
  /-- Parentheses around one alternative may be left out. -/
  | parens {ps} : OrdParts false [.single (.sub (.mk [.mk ps]))] ps
  /-- Doubled anchors. -/
  | start {keep} : OrdParts keep [.start, .start] [.start]
  | end_ {keep} : OrdParts keep [.end_, .end_] [.end_]
  /-- An expression may be changed by a law, with or without quantifier. -/
  | single {keep e e'} : OrdExpr keep e e' → OrdParts keep [.single e] [.single e']
  | quantified {keep e e' q} : OrdExpr keep e e' → OrdParts keep [.quantified e q] [.quantified e' q]
/-- Expressions that differ by laws. -/
inductive OrdExpr : Bool → EREExpr → EREExpr → Prop
  /-- Sets with the same characters, as `[ab]` and `[ba]`. -/
  | atom {keep} {a b : Atom} : (∀ c, a.check c = b.check c) → OrdExpr keep (.atom a) (.atom b)
  | sub {keep e e'} : OrdERE keep e e' → OrdExpr keep (.sub e) (.sub e')
  /-- Parentheses may be put around an expression, also under a quantifier. -/
  | wrap {e} : OrdExpr false e (.sub (.mk [.mk [.single e]]))
  /-- … and left out. -/
  | unwrap {e} : OrdExpr false (.sub (.mk [.mk [.single e]])) e
end

end Ere
