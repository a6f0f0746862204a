import Verif.Spec.Semantics

/-!
# Specification: text between two delimiters

How one would look for a comment, a string or a tag by hand: find the opening string, then the closing one, the first one
(`.*?`) or the last one (`.*`), with nothing but allowed characters between.
-/

namespace Ere

/-- The allowed characters in front of the closing string, up to its first (`lazy`) or last place. -/
def bodyOf (lazy : Bool) (ok : Char → Bool) (close : List Char) : List Char → Option (List Char)
  | [] => if close.isEmpty then some [] else none
  | c :: r =>
    let here := if close.isPrefixOf (c :: r) then some [] else none
    let further := if ok c then (bodyOf lazy ok close r).map (c :: ·) else none
    if lazy then here.or further else further.or here

/-- The delimited text at the beginning of `rest`, which is at byte `off`: the place of all of it and, if `grp`, of what is
between the delimiters. -/
def enclosedHere (lazy grp : Bool) (ok : Char → Bool) (opening close : List Char) (off : Nat) (rest : List Char) :
    Option (List (Option (Nat × Nat))) :=
  if opening.isPrefixOf rest then
    (bodyOf lazy ok close (rest.drop opening.length)).map fun w =>
      some (off, off + byteLen (opening ++ w ++ close)) ::
        if grp then [some (off + byteLen opening, off + byteLen (opening ++ w))] else []
  else none

/-- … at the first place where there is any. -/
def enclosedIn (lazy grp : Bool) (ok : Char → Bool) (opening close : List Char) (off : Nat) :
    List Char → Option (List (Option (Nat × Nat)))
  | [] => enclosedHere lazy grp ok opening close off []
  | c :: r =>
    match enclosedHere lazy grp ok opening close off (c :: r) with
    | some a => some a
    | none => enclosedIn lazy grp ok opening close (off + charLen c) r

/-- What stands in front of the first place of `w` and what stands behind it: `str::split_once` of the standard library. -/
def onceSplit (w : List Char) : List Char → Option (List Char × List Char)
  | [] => if w.isEmpty then some ([], []) else none
  | c :: r =>
    if w.isPrefixOf (c :: r) then some ([], (c :: r).drop w.length)
    else (onceSplit w r).map fun p => (c :: p.1, p.2)

/-- All stretches from an opening string to the next closing one, cut off one after the other, as byte offsets. (At most `k` of
them.) -/
def allEnclosed (opening close : List Char) : Nat → Nat → List Char → List (Nat × Nat)
  | 0, _, _ => []
  | k + 1, off, text =>
    match onceSplit opening text with
    | none => []
    | some (a, b) =>
      match onceSplit close b with
      | none => []
      | some (m, d) =>
        (off + byteLen a, off + byteLen (a ++ (opening ++ m ++ close))) ::
          allEnclosed opening close k (off + byteLen (a ++ (opening ++ m ++ close))) d

end Ere
