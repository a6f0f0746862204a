import Verif.Spec.Semantics

/-!
# Specification: reading a time of day

ISO 8601, extended format, as one would read it by hand: `T` if there is one, two digits up to 23, a colon, two digits up to 59, a
colon, two digits up to 59, and a fraction if there is one.
-/

namespace Ere

/-- Reads two characters. -/
def twoChars (ok : Char → Char → Bool) : List Char → Option (List Char)
  | a :: b :: r => if ok a b then some r else none
  | _ => none

/-- A decimal digit up to `m`. -/
def digitTo (m : Char) (c : Char) : Bool := decide ('0' ≤ c) && decide (c ≤ m)

/-- 00 to 23. -/
def hourDigits (a b : Char) : Bool := (a == '0' || a == '1') && digitTo '9' b || a == '2' && digitTo '3' b

/-- 00 to 59. -/
def sixtyDigits (a b : Char) : Bool := digitTo '5' a && digitTo '9' b

/-- Reads a colon. -/
def readColon : List Char → Option (List Char)
  | c :: r => if c = ':' then some r else none
  | [] => none

/-- The length of the fraction that the rest of the text is: nothing, or a point or comma and at least one digit. -/
def fractionLen : List Char → Option Nat
  | [] => some 0
  | c :: ds => if (c == '.' || c == ',') && !ds.isEmpty && ds.all (digitTo '9') then some (ds.length + 1) else none

/-- Reads a time that begins at byte `o`: the places of all of the text, hour, minute, second with fraction, fraction. -/
def clockAt (o : Nat) (text : List Char) : Option (List (Option (Nat × Nat))) :=
  (twoChars hourDigits text).bind fun r => (readColon r).bind fun r => (twoChars sixtyDigits r).bind fun r =>
    (readColon r).bind fun r => (twoChars sixtyDigits r).bind fun r => (fractionLen r).map fun n =>
      [some (0, o + 8 + n), some (o, o + 2), some (o + 3, o + 5), some (o + 6, o + 8 + n),
        if n = 0 then none else some (o + 8, o + 8 + n)]

/-- … with or without `T`. -/
def clock : List Char → Option (List (Option (Nat × Nat)))
  | [] => none
  | c :: r => if c = 'T' then clockAt 1 r else clockAt 0 (c :: r)

end Ere
