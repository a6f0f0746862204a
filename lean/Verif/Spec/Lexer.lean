import Verif.Spec.Fields

/-!
# Specification: a lexer

Several kinds of tokens, each given by its fields. At a place of the text the first kind that can be read there counts; the
reported places tell which kind it was.
-/

namespace Ere

/-- How many places are reported for these fields. -/
def reported (fs : List Field) : Nat := (fs.filter Field.group).length

/-- How many places there are for all kinds together. -/
def reportedAll (kinds : List (List Field)) : Nat := (kinds.map reported).sum

/-- The first kind that can be read at byte `off`: its places, `none` for all other kinds, and the offset behind it. -/
def lexHere : List (List Field) → Nat → List Char → Option (List (Option (Nat × Nat)) × Nat)
  | [], _, _ => none
  | fs :: kinds, off, rest =>
    match readFields false fs off rest with
    | some r => some (r.1.map some ++ List.replicate (reportedAll kinds) none, r.2)
    | none => (lexHere kinds off rest).map fun r => (List.replicate (reported fs) none ++ r.1, r.2)

/-- The place of the token and the places within it. -/
def tokenHere (kinds : List (List Field)) (off : Nat) (rest : List Char) : Option (List (Option (Nat × Nat))) :=
  (lexHere kinds off rest).map fun r => some (off, r.2) :: r.1

/-- … at the first place where there is a token. -/
def tokenIn (kinds : List (List Field)) (off : Nat) : List Char → Option (List (Option (Nat × Nat)))
  | [] => tokenHere kinds off []
  | c :: r =>
    match tokenHere kinds off (c :: r) with
    | some a => some a
    | none => tokenIn kinds (off + charLen c) r

/-- The first token of a text; only at its beginning if `s`. -/
def nextToken (s : Bool) (kinds : List (List Field)) (text : List Char) : Option (List (Option (Nat × Nat))) :=
  if s then tokenHere kinds 0 text else tokenIn kinds 0 text

end Ere
