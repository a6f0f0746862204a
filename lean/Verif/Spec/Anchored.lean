import Verif.Spec.Semantics

/-!
# Specification: where the first `a` stands, and how

In the whole text, at its beginning, at its end, or inside: the four branches of `(^a$)|(^a)|(a$)|(a)` in this order.
-/

namespace Ere

/-- The number of the first branch that says how the `a` between `pre` and `post` stands. -/
def standing (pre post : List Char) : Nat :=
  if pre.isEmpty then (if post.isEmpty then 1 else 2) else if post.isEmpty then 3 else 4

/-- The first `a`, reported as the whole match and as the group of its branch. -/
def firstA (text : List Char) : Option (List (Option (Nat × Nat))) :=
  let pre := text.takeWhile (· != 'a')
  match text.drop pre.length with
  | [] => none
  | _ :: post => some ((List.range 5).map fun k =>
      if k = 0 ∨ k = standing pre post then some (byteLen pre, byteLen pre + 1) else none)

end Ere
