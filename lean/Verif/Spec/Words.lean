import Verif.Spec.Semantics

/-!
# Specification: searching for fixed strings

What `str::find`, `starts_with`, `ends_with` and `==` of the standard library say, for several strings at once: the first
place where one of them stands, and there the first of them in the order in which they are given.
-/

namespace Ere

/-- The string `w` stands at the beginning of `rest` (and is all of it, if `t`). -/
def stands (t : Bool) (w rest : List Char) : Bool := if t then w == rest else w.isPrefixOf rest

/-- The first of the strings that stands at the beginning of `rest`, which is at byte `off` of the text. -/
def findHere (t : Bool) (ws : List (List Char)) (off : Nat) (rest : List Char) : Option (Nat × Nat) :=
  (ws.find? fun w => stands t w rest).map fun w => (off, off + byteLen w)

/-- The first place in `rest` where one of the strings stands. -/
def findIn (t : Bool) (ws : List (List Char)) (off : Nat) : List Char → Option (Nat × Nat)
  | [] => findHere t ws off []
  | c :: r =>
    match findHere t ws off (c :: r) with
    | some p => some p
    | none => findIn t ws (off + charLen c) r

/-- The first occurrence of one of the strings in a text, as byte offsets; only at the beginning of the text if `s`, only up
to its end if `t`. -/
def findWord (s t : Bool) (ws : List (List Char)) (text : List Char) : Option (Nat × Nat) :=
  if s then findHere t ws 0 text else findIn t ws 0 text

end Ere
