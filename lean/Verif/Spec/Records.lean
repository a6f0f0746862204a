import Verif.Spec.Language
import Verif.Spec.Captures

/-!
# Specification: records

Cutting a text by hand into the fields of a record: up to the first separator, from there up to the first occurrence of the next
separator, and so on; what is left is the last field. Then decimal numbers, for the fields of the patterns of the repository.
-/

namespace Ere

/-- Cuts the text at the first `s`, what follows at the first occurrence of the next separator, and so on. -/
def cutAt : List Char → List Char → Option (List (List Char))
  | [], text => some [text]
  | s :: seps, text =>
    match text.dropWhile (· != s) with
    | [] => none
    | _ :: rest => (cutAt seps rest).map (text.takeWhile (· != s) :: ·)

/-- The byte ranges of pieces between which there are separators, if the first piece begins at byte `off`. -/
def stretches : Nat → List Char → List (List Char) → List (Nat × Nat)
  | off, s :: seps, w :: ws => (off, off + byteLen w) :: stretches (off + byteLen w + charLen s) seps ws
  | off, [], w :: _ => [(off, off + byteLen w)]
  | _, _, [] => []

/-- The pieces are strings of these languages, one for each. -/
def Each : List (Language Char) → List (List Char) → Prop
  | [], [] => True
  | L :: Ls, w :: ws => w ∈ L ∧ Each Ls ws
  | _, _ => False

/-- A number in decimal notation, without leading zeros. -/
def digitsOf (n : Nat) : List Char := Nat.toDigits 10 n

/-- A number below `10 ^ k` with `k` decimal digits, so with leading zeros (of larger numbers the last `k` digits). -/
def padded : Nat → Nat → List Char
  | 0, _ => []
  | k + 1, n => padded k (n / 10) ++ [Nat.digitChar (n % 10)]

/-- An IPv4 address as its four numbers are written. -/
def dotted (a b c d : Nat) : List Char := digitsOf a ++ '.' :: (digitsOf b ++ '.' :: (digitsOf c ++ '.' :: digitsOf d))

/-- A date as year, month and day. -/
def isoDate (y m d : Nat) : List Char := padded 4 y ++ '-' :: (padded 2 m ++ '-' :: padded 2 d)

end Ere
