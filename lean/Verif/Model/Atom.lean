import Mathlib.Data.List.Sort

/-!
# Model of atoms (parts of a pattern that match one character)

Source: `/repo/ere-core/src/parse_tree.rs` (`CharClass`, `Atom`, `BracketCharClass`,
`BracketExpressionTerm`).  A Rust `char` is a Lean `Char` (Unicode scalar value).
-/

namespace Ere

/-- `RangeInclusive<char>` as start and end; only non-exhausted ranges occur in `to_ranges`
(parse_tree.rs 500-580). -/
structure CRange where
  lo : Char
  hi : Char
deriving DecidableEq, Repr, Inhabited

/-- `RangeInclusive::contains`; used only in statements and in `serialize_check`
(parse_tree.rs 480-489: `#start <= c && c <= #end`). -/
def CRange.contains (r : CRange) (c : Char) : Bool := decide (r.lo ≤ c) && decide (c ≤ r.hi)

/-- `RangeInclusive::is_empty` as used in parse_tree.rs 514. -/
def CRange.isEmpty (r : CRange) : Bool := ! decide (r.lo ≤ r.hi)

/-- `<char as Step>::forward(c, 1)`: what `RangeInclusive<char>::next` does to the start
(parse_tree.rs 568). The surrogate gap is skipped. -/
def charSucc (c : Char) : Char :=
  if c.toNat = 0xD7FF then Char.ofNat 0xE000 else Char.ofNat (c.toNat + 1)

/-- `<char as Step>::backward(c, 1)`: what `RangeInclusive<char>::next_back` does to the end
(parse_tree.rs 563). -/
def charPred (c : Char) : Char :=
  if c.toNat = 0xE000 then Char.ofNat 0xD7FF else Char.ofNat (c.toNat - 1)

/-- `std::cmp::max` on chars; parse_tree.rs 519. -/
def charMaxOf (a b : Char) : Char := if a ≤ b then b else a

/-- `char::MAX`. -/
def charMax : Char := Char.ofNat 0x10FFFF

/-- `(a..=b).count()` for chars (`Step::steps_between` plus one); parse_tree.rs 516. -/
def charCount (a b : Char) : Nat :=
  if b.toNat < a.toNat then 0
  else b.toNat - a.toNat + 1 - (if a.toNat < 0xD800 ∧ 0xE000 ≤ b.toNat then 0x800 else 0)

/-- `BracketCharClass`, parse_tree.rs 626-651. -/
inductive BracketCharClass
  | alphanumeric | control | lower | space | alphabet | digit
  | print | upper | blank | graphic | punctuation | hexDigit
deriving DecidableEq, Repr, Inhabited

namespace BracketCharClass

/-- `BracketCharClass::to_ranges`, parse_tree.rs 653-673. -/
def toRanges : BracketCharClass → List CRange
  | alphanumeric => [⟨'0', '9'⟩, ⟨'A', 'Z'⟩, ⟨'a', 'z'⟩]
  | control => [⟨'\x00', '\x1f'⟩, ⟨'\x7f', '\x7f'⟩]
  | lower => [⟨'a', 'z'⟩]
  | space => [⟨'\t', '\t'⟩, ⟨'\x0a', '\x0d'⟩, ⟨' ', ' '⟩]
  | alphabet => [⟨'A', 'Z'⟩, ⟨'a', 'z'⟩]
  | digit => [⟨'0', '9'⟩]
  | print => [⟨'\x20', '\x7e'⟩]
  | upper => [⟨'A', 'Z'⟩]
  | blank => [⟨'\t', '\t'⟩, ⟨' ', ' '⟩]
  | graphic => [⟨'\x21', '\x7e'⟩]
  | punctuation => [⟨'\x21', '\x2f'⟩, ⟨'\x3a', '\x40'⟩, ⟨'\x5b', '\x60'⟩, ⟨'\x7b', '\x7e'⟩]
  | hexDigit => [⟨'0', '9'⟩, ⟨'A', 'F'⟩, ⟨'a', 'f'⟩]

/-- std `char::is_ascii_digit`. -/
def isAsciiDigit (c : Char) : Bool := decide (0x30 ≤ c.toNat ∧ c.toNat ≤ 0x39)
/-- std `char::is_ascii_uppercase`. -/
def isAsciiUpper (c : Char) : Bool := decide (0x41 ≤ c.toNat ∧ c.toNat ≤ 0x5a)
/-- std `char::is_ascii_lowercase`. -/
def isAsciiLower (c : Char) : Bool := decide (0x61 ≤ c.toNat ∧ c.toNat ≤ 0x7a)

/-- `BracketCharClass::check_ascii`, parse_tree.rs 675-690 (the std predicates are written out:
whitespace is tab, LF, FF, CR, space; control is below 0x20 or 0x7f; graphic is `!`..`~`;
punctuation is `!`../ `:`..`@` `[`..backtick `{`..`~`). -/
def checkAscii : BracketCharClass → Char → Bool
  | alphanumeric, c => isAsciiDigit c || isAsciiUpper c || isAsciiLower c
  | control, c => decide (c.toNat < 0x20) || decide (c.toNat = 0x7f)
  | lower, c => isAsciiLower c
  | space, c => (c == ' ' || c == '\t' || c == '\n' || c == '\x0c' || c == '\r') || c == '\x0b'
  | alphabet, c => isAsciiUpper c || isAsciiLower c
  | digit, c => isAsciiDigit c
  | print, c => decide (0x20 ≤ c.toNat ∧ c.toNat ≤ 0x7e)
  | upper, c => isAsciiUpper c
  | blank, c => c == ' ' || c == '\t'
  | graphic, c => decide (0x21 ≤ c.toNat ∧ c.toNat ≤ 0x7e)
  | punctuation, c =>
      decide (0x21 ≤ c.toNat ∧ c.toNat ≤ 0x2f) || decide (0x3a ≤ c.toNat ∧ c.toNat ≤ 0x40) ||
      decide (0x5b ≤ c.toNat ∧ c.toNat ≤ 0x60) || decide (0x7b ≤ c.toNat ∧ c.toNat ≤ 0x7e)
  | hexDigit, c => isAsciiDigit c || decide (0x41 ≤ c.toNat ∧ c.toNat ≤ 0x46) ||
      decide (0x61 ≤ c.toNat ∧ c.toNat ≤ 0x66)

end BracketCharClass

/-- `BracketExpressionTerm`, parse_tree.rs 771-775. -/
inductive Term
  | single (c : Char)
  | range (a b : Char)
  | cls (k : BracketCharClass)
deriving DecidableEq, Repr, Inhabited

/-- `BracketExpressionTerm::check`, parse_tree.rs 777-783. -/
def Term.check : Term → Char → Bool
  | .single a, c => a == c
  | .range a b, c => decide (a ≤ c) && decide (c ≤ b)
  | .cls k, c => k.checkAscii c

/-- `BracketExpressionTerm::to_ranges`, parse_tree.rs 784-792. -/
def Term.toRanges : Term → List CRange
  | .single c => [⟨c, c⟩]
  | .range a b => [⟨a, b⟩]
  | .cls k => k.toRanges

/-- `Atom` (with `CharClass::Dot` inlined as `dot`), parse_tree.rs 331-334 and 373-381. -/
inductive Atom
  | normal (c : Char)
  | dot
  | matching (ts : List Term)
  | nonmatching (ts : List Term)
deriving DecidableEq, Repr, Inhabited

namespace Atom

/-- `Atom::check` and `CharClass::check`, parse_tree.rs 336-340 and 472-479. -/
def check : Atom → Char → Bool
  | normal a, c => a == c
  | dot, c => c != '\x00'
  | matching ts, c => ts.any (fun t => t.check c)
  | nonmatching ts, c => ! ts.any (fun t => t.check c)

/-- Stable sort by start: `sort_by_key(|range| *range.start())`, parse_tree.rs 505 and 576
(a stable insertion sort; any two stable sorts give the same list). -/
def sortRanges (rs : List CRange) : List CRange :=
  rs.insertionSort (fun a b => a.lo ≤ b.lo)

/-- The loop of `combine_ranges_chars`, parse_tree.rs 513-527, with the loop state
`(current_start, current_end)` in `cur` and the terms still to visit. The pushes to
`reduced_terms` are emitted in front of the recursive call. -/
def combineLoop (cur : CRange) : List CRange → List CRange
  | [] => [cur]
  | t :: ts =>
    if t.isEmpty then combineLoop cur ts
    else if t.lo ≤ cur.hi ∨ charCount cur.hi t.lo = 2 then
      combineLoop ⟨cur.lo, charMaxOf cur.hi t.hi⟩ ts
    else cur :: combineLoop t ts

/-- `combine_ranges_chars`, parse_tree.rs 502-528. -/
def combine (rs : List CRange) : List CRange :=
  match sortRanges rs with
  | [] => []
  | r :: ts => combineLoop r ts

/-- The closure of `flat_map` at parse_tree.rs 556-572: remove `term` from one range. -/
def subtractOne (term range : CRange) : List CRange :=
  if term.hi < range.lo ∨ range.hi < term.lo then [range]
  else
    (if range.lo < term.lo then [⟨range.lo, charPred term.lo⟩] else []) ++
    (if term.hi < range.hi then [⟨charSucc term.hi, range.hi⟩] else [])

/-- One iteration of the loop at parse_tree.rs 553-574. -/
def subtract (ranges : List CRange) (term : CRange) : List CRange :=
  ranges.flatMap (subtractOne term)

/-- `Atom::to_ranges`, parse_tree.rs 500-580. -/
def toRanges : Atom → List CRange
  | normal c => [⟨c, c⟩]
  | dot => [⟨'\x01', charMax⟩]
  | matching ts => combine (ts.flatMap Term.toRanges)
  | nonmatching ts =>
      sortRanges ((ts.flatMap Term.toRanges).foldl subtract [⟨'\x00', charMax⟩])

/-- `impl PartialEq for Atom`, parse_tree.rs 617-621. -/
def beq (a b : Atom) : Bool := decide (a.toRanges = b.toRanges)

/-- `char::len_utf8` (std). -/
def _root_.Ere.charLen (c : Char) : Nat :=
  if c.toNat < 0x80 then 1 else if c.toNat < 0x800 then 2 else if c.toNat < 0x10000 then 3 else 4

/-- `Atom::max_bytes`, parse_tree.rs 581-586. -/
def maxBytes (a : Atom) : Nat :=
  match a.toRanges.getLast? with
  | none => 0
  | some r => charLen r.hi

/-- `Atom::min_bytes`, parse_tree.rs 587-592. -/
def minBytes (a : Atom) : Nat :=
  match a.toRanges.head? with
  | none => 0
  | some r => charLen r.lo

/-- `Atom::serialize_check`, parse_tree.rs 480-489: the meaning of the emitted expression
`(s <= c && c <= e) || … || false`. -/
def serializeCheck (a : Atom) (c : Char) : Bool :=
  a.toRanges.foldr (fun r acc => (decide (r.lo ≤ c) && decide (c ≤ r.hi)) || acc) false

end Atom
end Ere
