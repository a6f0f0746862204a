import Verif.Spec.Captures

/-! Patterns of the kind for which the fixed-offset macro is documented: no variable quantifiers, alternatives of equal
length, no groups inside of alternatives, and the whole text is matched. -/

namespace Ere

/-- The atom accepts some character, and all that it accepts take `w` bytes. -/
def Atom.HasWidth (a : Atom) (w : Nat) : Prop :=
  (∃ c, a.check c = true) ∧ ∀ c, a.check c = true → charLen c = w

mutual
/-- A pattern of a fixed width: one branch, or several of equal width without groups. -/
inductive WidthERE : ERE → Nat → Prop
  | one {b w} : WidthBranch b w → WidthERE (.mk [b]) w
  | alt {b bs w} : groupsBranches (b :: bs) = 0 → WidthBranches (b :: bs) w → WidthERE (.mk (b :: bs)) w
/-- All branches have the width `w`. -/
inductive WidthBranches : List EREBranch → Nat → Prop
  | nil {w} : WidthBranches [] w
  | cons {b bs w} : WidthBranch b w → WidthBranches bs w → WidthBranches (b :: bs) w
/-- A branch: the widths of the parts are added. -/
inductive WidthBranch : EREBranch → Nat → Prop
  | nil : WidthBranch (.mk []) 0
  | cons {p ps w v} : WidthPart p w → WidthBranch (.mk ps) v → WidthBranch (.mk (p :: ps)) (w + v)
/-- A part: an expression, or a number of copies of one. -/
inductive WidthPart : EREPart → Nat → Prop
  | single {e w} : WidthExpr e w → WidthPart (.single e) w
  | times {e q n w} : q.q.min = n → q.q.max = some n → WidthExpr e w → WidthPart (.quantified e q) (n * w)
/-- An expression. -/
inductive WidthExpr : EREExpr → Nat → Prop
  | atom {a w} : a.HasWidth w → WidthExpr (.atom a) w
  | sub {e w} : WidthERE e w → WidthExpr (.sub e) w
end

/-- A branch `^…$` with something of width `w` between the anchors. -/
def EREBranch.Anchored (b : EREBranch) (w : Nat) : Prop :=
  ∃ ps, b = .mk (.start :: ps ++ [.end_]) ∧ WidthBranch (.mk ps) w

/-- A pattern of the documented kind: `^…$`, or alternatives of this form and of equal width without groups. -/
def ERE.Anchored (e : ERE) (w : Nat) : Prop :=
  ∃ bs, e = .mk bs ∧ bs ≠ [] ∧ (∀ b ∈ bs, b.Anchored w) ∧ (bs.length = 1 ∨ groupsBranches bs = 0)

end Ere
