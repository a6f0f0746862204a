import Verif.Spec.Delimited

/-!
# Specification: quoted strings with escaped quotation marks

How one would read a quoted string by hand, character by character, when a backslash in front of a quotation mark takes away its
meaning.
-/

namespace Ere

/-- The pieces of the string up to its closing quotation mark: single characters and `\"`. If only escaped quotation marks are
left, the last of them has to do as the closing one. -/
def quotedBody : List Char → Option (List (List Char))
  | [] => none
  | x :: r =>
    if x = '"' then some []
    else if x = '\\' then
      match r with
      | [] => none
      | y :: r' =>
        if y = '"' then ((quotedBody r').map (['\\', '"'] :: ·)).or (some [['\\']])
        else (quotedBody (y :: r')).map (['\\'] :: ·)
    else (quotedBody r).map ([x] :: ·)

/-- Where the last piece is, if the first one is at byte `off`. -/
def lastPiece (off : Nat) : List (List Char) → Option (Nat × Nat)
  | [] => none
  | [w] => some (off, off + byteLen w)
  | w :: v :: ps => lastPiece (off + byteLen w) (v :: ps)

/-- The first quoted string of a text: all of it, what is between the quotation marks, the last piece. -/
def quotedIn (text : List Char) : Option (List (Option (Nat × Nat))) :=
  (onceSplit ['"'] text).bind fun ab => (quotedBody ab.2).map fun ps =>
    let lo := byteLen ab.1 + 1
    let hi := lo + byteLen ps.flatten
    [some (byteLen ab.1, hi + 1), some (lo, hi), lastPiece lo ps]

end Ere
