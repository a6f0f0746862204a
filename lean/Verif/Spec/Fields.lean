import Verif.Spec.Semantics

/-!
# Specification: reading a text field by field

How one would read, by hand, identifiers, numbers, `key=value`, dates or addresses: a field is a run of characters of one
class; the fields are read from left to right, each of them as long as possible, and never given back.
-/

namespace Ere

/-- A field: which characters it consists of, how many at least and at most, and whether its place is to be reported. -/
structure Field where
  ok : Char → Bool
  least : Nat
  most : Option Nat
  group : Bool

/-- The longest run of characters of the field (not longer than it may be). -/
def Field.run (f : Field) (rest : List Char) : List Char :=
  (match f.most with
    | none => rest
    | some m => rest.take m).takeWhile f.ok

/-- Reads the fields one after the other, beginning at byte `off`, and up to the end of the text if `t`. Returns the places
to be reported and the byte offset behind the last field. -/
def readFields (t : Bool) : List Field → Nat → List Char → Option (List (Nat × Nat) × Nat)
  | [], off, rest => if t && !rest.isEmpty then none else some ([], off)
  | f :: fs, off, rest =>
    if (f.run rest).length < f.least then none
    else (readFields t fs (off + byteLen (f.run rest)) (rest.drop (f.run rest).length)).map fun r =>
      (if f.group then (off, off + byteLen (f.run rest)) :: r.1 else r.1, r.2)

/-- The place of all fields together, and the places to be reported. -/
def readHere (t : Bool) (fs : List Field) (off : Nat) (rest : List Char) : Option (List (Option (Nat × Nat))) :=
  (readFields t fs off rest).map fun r => some (off, r.2) :: r.1.map some

/-- … at the first place where the fields can be read. -/
def readIn (t : Bool) (fs : List Field) (off : Nat) : List Char → Option (List (Option (Nat × Nat)))
  | [] => readHere t fs off []
  | c :: r =>
    match readHere t fs off (c :: r) with
    | some a => some a
    | none => readIn t fs (off + charLen c) r

/-- The fields in a text: only at the beginning of the text if `s`, only up to its end if `t`. -/
def readText (s t : Bool) (fs : List Field) (text : List Char) : Option (List (Option (Nat × Nat))) :=
  if s then readHere t fs 0 text else readIn t fs 0 text

/-- The fields may begin with the character `c`. -/
def mayBegin : List Field → Char → Bool
  | [], _ => false
  | f :: fs, c => f.ok c || (f.least == 0 && mayBegin fs c)

/-- A field of variable length consists of other characters than those with which the fields behind it may begin. -/
def separated : List Field → Prop
  | [] => True
  | f :: fs => (f.most = some f.least ∨ ∀ c, f.ok c = true → mayBegin fs c = false) ∧ separated fs

/-- A field that can be there: its bounds are in order, and there are characters for it if it needs any. -/
def Field.possible (f : Field) : Prop := (∀ m, f.most = some m → f.least ≤ m) ∧ (f.least ≠ 0 → ∃ c, f.ok c = true)

/-- The string is one for the field. -/
def Field.fits (f : Field) (w : List Char) : Prop :=
  (∀ c ∈ w, f.ok c = true) ∧ f.least ≤ w.length ∧ ∀ m, f.most = some m → w.length ≤ m

/-- The text consists of strings for the fields, one after the other. -/
inductive Consists : List Field → List Char → Prop
  | nil : Consists [] []
  | cons {f fs w rest} : f.fits w → Consists fs rest → Consists (f :: fs) (w ++ rest)

end Ere
