import Verif.Spec.Semantics

/-!
# Specification: lists with a separator

Splitting a text at a character, as one would do it by hand before checking the pieces one by one.
-/

namespace Ere

/-- The pieces of the text between the separators (one piece more than there are separators). -/
def pieces (sep : Char) : List Char → List (List Char)
  | [] => [[]]
  | c :: r =>
    if c = sep then [] :: pieces sep r
    else
      match pieces sep r with
      | [] => [[c]]
      | w :: ws => (c :: w) :: ws

/-- Where the last separator is (byte offset) in a text that begins at byte `off`. -/
def lastSep (sep : Char) : Nat → List Char → Option Nat
  | _, [] => none
  | off, c :: r =>
    match lastSep sep (off + charLen c) r with
    | some i => some i
    | none => if c = sep then some off else none

end Ere
