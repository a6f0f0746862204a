/-!
What the two patterns of the README are for, written down without regular expressions: telephone numbers and colours. The
answers are lists of the places, in bytes, of the whole match and of the groups.
-/

namespace Ere

/-- Decimal digits. -/
def docDigit (c : Char) : Bool := c ∈ ['0', '1', '2', '3', '4', '5', '6', '7', '8', '9']

/-- Hexadecimal digits. -/
def docHex (c : Char) : Bool :=
  docDigit c || c ∈ ['a', 'b', 'c', 'd', 'e', 'f'] || c ∈ ['A', 'B', 'C', 'D', 'E', 'F']

/-- A number such as `012-345-6789`. -/
def phoneNumber (text : List Char) : Bool :=
  match text with
  | [a, b, c, x, d, e, f, y, g, h, i, j] =>
    [a, b, c, d, e, f, g, h, i, j].all docDigit && x == '-' && y == '-'
  | _ => false

/-- README lines 12-24: a number, possibly after `+1 `; group 1 is the `+1 `. -/
def phoneAnswer (text : List Char) : Option (List (Option (Nat × Nat))) :=
  if phoneNumber text then some [some (0, 12), none]
  else match text with
    | '+' :: '1' :: ' ' :: rest => if phoneNumber rest then some [some (0, 15), some (0, 3)] else none
    | _ => none

/-- Six or eight hexadecimal digits, after `k` other bytes, in groups of two. -/
def colorDigits (k : Nat) (ds : List Char) : Option (List (Option (Nat × Nat))) :=
  if ds.all docHex && ds.length == 6 then
    some [some (0, k + 6), some (k, k + 2), some (k + 2, k + 4), some (k + 4, k + 6), none]
  else if ds.all docHex && ds.length == 8 then
    some [some (0, k + 8), some (k, k + 2), some (k + 2, k + 4), some (k + 4, k + 6), some (k + 6, k + 8)]
  else none

/-- README lines 26-64: red, green, blue and possibly opacity, with or without `#`. -/
def colorAnswer (text : List Char) : Option (List (Option (Nat × Nat))) :=
  match text with
  | '#' :: ds => colorDigits 1 ds
  | ds => colorDigits 0 ds

end Ere
