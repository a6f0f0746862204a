import Verif.Spec.Semantics

/-!
# Specification: the runs of characters of a class in a text

What a program that goes through a text once, character by character, would find, for instance words or numbers. `cur` is
the byte offset where the present run began, if there is one.
-/

namespace Ere

/-- The byte offsets of the runs, in order. -/
def runsFrom (p : Char → Bool) (cur : Option Nat) (off : Nat) : List Char → List (Nat × Nat)
  | [] => match cur with
    | none => []
    | some i => [(i, off)]
  | c :: r =>
    if p c then runsFrom p (some (cur.getD off)) (off + charLen c) r
    else match cur with
      | none => runsFrom p none (off + charLen c) r
      | some i => (i, off) :: runsFrom p none (off + charLen c) r

/-- The runs of characters for which `p` holds, as long as possible. -/
def runsOf (p : Char → Bool) (text : List Char) : List (Nat × Nat) := runsFrom p none 0 text

end Ere
