import Verif.Spec.Grammar

/-!
# Specification: what POSIX says about extended regular expressions

`/repo/README.md` 5 and `/repo/ere-core/src/parse_tree.rs` 60 promise the extended regular expressions of POSIX (the
latter points to chapter 9 of the base definitions, XBD, of IEEE Std 1003.1-2017). This file writes down, from the
standard and without reference to the crate's code,

* which texts are extended regular expressions and how they are to be read (the grammar of XBD 9.5.3), and
* which characters an atom accepts (XBD 9.3.2, 9.3.5; the classes of the POSIX locale are listed in XBD 7.3.1).

What the standard leaves undefined is not in the grammar: empty alternatives, quantifiers after `^`, `$`, `(`, `|` or
another quantifier, a backslash before an ordinary character, reversed ranges, more than `RE_DUP_MAX` = 255 repetitions.

The grammar is written for two sets of constructs. With `full = true` it has everything the standard defines for the
POSIX locale. With `full = false` it leaves out four things: a `)` with no matching `(` (which stands for itself,
XBD 9.4.3), collating symbols `[.c.]`, equivalence classes `[=c=]`, and `]` in the first place of a list as the start
of a range.
-/

namespace Ere

/-! ## Which characters an atom accepts -/

/-- The members of the character classes in the POSIX locale (XBD 7.3.1, `LC_CTYPE`). -/
def posixMembers : BracketCharClass → List Char
  | .upper => "ABCDEFGHIJKLMNOPQRSTUVWXYZ".toList
  | .lower => "abcdefghijklmnopqrstuvwxyz".toList
  | .alphabet => "ABCDEFGHIJKLMNOPQRSTUVWXYZabcdefghijklmnopqrstuvwxyz".toList
  | .digit => "0123456789".toList
  | .alphanumeric => "0123456789ABCDEFGHIJKLMNOPQRSTUVWXYZabcdefghijklmnopqrstuvwxyz".toList
  | .space => [' ', '\t', '\n', '\x0b', '\x0c', '\r']
  | .control => (List.range 32).map Char.ofNat ++ ['\x7f']
  | .punctuation => "!\"#$%&'()*+,-./:;<=>?@[\\]^_`{|}~".toList
  | .graphic => "0123456789ABCDEFGHIJKLMNOPQRSTUVWXYZabcdefghijklmnopqrstuvwxyz".toList ++
      "!\"#$%&'()*+,-./:;<=>?@[\\]^_`{|}~".toList
  | .print => ' ' :: ("0123456789ABCDEFGHIJKLMNOPQRSTUVWXYZabcdefghijklmnopqrstuvwxyz".toList ++
      "!\"#$%&'()*+,-./:;<=>?@[\\]^_`{|}~".toList)
  | .hexDigit => "0123456789ABCDEFabcdef".toList
  | .blank => [' ', '\t']

/-- What an element of a bracket expression stands for. -/
def Term.Means : Term → Char → Prop
  | .single a, c => c = a
  | .range a b, c => a.toNat ≤ c.toNat ∧ c.toNat ≤ b.toNat
  | .cls k, c => c ∈ posixMembers k

/-- What an atom stands for: a character; any character but NUL; one of a list; none of a list. -/
def Atom.Means : Atom → Char → Prop
  | .normal a, c => c = a
  | .dot, c => c.toNat ≠ 0
  | .matching ts, c => ∃ t ∈ ts, t.Means c
  | .nonmatching ts, c => ¬ ∃ t ∈ ts, t.Means c

/-! ## Bracket expressions -/

/-- A text whose first character, coming after a `[`, would start a class, a collating symbol or an equivalence
class. -/
def OpensSpecial (w : List Char) : Prop := ∃ c, (c = '.' ∨ c = '=' ∨ c = ':') ∧ w.head? = some c

/-- A character as an element of the list or as the start of a range, `w` being what comes after it: `]` and `-` only
in the first place of the list, `[` not before `.`, `=`, `:`. -/
def PosixChar (first : Bool) (c : Char) (w : List Char) : Prop :=
  (c = ']' → first = true) ∧ (c = '-' → first = true) ∧ (c = '[' → ¬ OpensSpecial w)

/-- A collating symbol, `[.c.]`. -/
def collating (c : Char) : List Char := ['[', '.', c, '.', ']']

/-- An equivalence class, `[=c=]`. -/
def equivalence (c : Char) : List Char := ['[', '=', c, '=', ']']

/-- `PosixEnd full c v w`: `v`, with `w` after it, is an end point of a range standing for `c` (a `-` may end a range). -/
inductive PosixEnd (full : Bool) (c : Char) : List Char → List Char → Prop
  | plain {w} : c ≠ ']' → (c = '[' → ¬ OpensSpecial w) → PosixEnd full c [c] w
  | symbol {w} : full = true → PosixEnd full c (collating c) w

/-- `PosixItems full first ts w`: `w` is the rest of a bracket expression, up to and including the closing bracket, and
its elements are `ts`; `first`: it is the whole list. The list is not empty. A `-` stands for itself in the first place,
in the last place and as the end of a range. -/
inductive PosixItems (full : Bool) : Bool → List Term → List Char → Prop
  | close : PosixItems full false [] [']']
  | dash : PosixItems full false [.single '-'] ['-', ']']
  | single {first c ts w} : PosixChar first c w → PosixItems full false ts w →
      PosixItems full first (.single c :: ts) (c :: w)
  | range {first a b ts v w} : PosixChar first a ('-' :: (v ++ w)) → (a = ']' → full = true) → PosixEnd full b v w →
      a ≤ b → PosixItems full false ts w → PosixItems full first (.range a b :: ts) (a :: '-' :: (v ++ w))
  | cls {first k ts w} : PosixItems full false ts w → PosixItems full first (.cls k :: ts) (classText k ++ w)
  | symbol {first c ts w} : full = true → PosixItems full false ts w →
      PosixItems full first (.single c :: ts) (collating c ++ w)
  | symbolRange {first a b ts v w} : full = true → PosixEnd full b v w → a ≤ b → PosixItems full false ts w →
      PosixItems full first (.range a b :: ts) (collating a ++ '-' :: (v ++ w))
  | equiv {first c ts w} : full = true → PosixItems full false ts w →
      PosixItems full first (.single c :: ts) (equivalence c ++ w)

/-! ## Extended regular expressions -/

/-- A number in a quantifier: decimal digits, at most `RE_DUP_MAX`. -/
def PosixNum (n : Nat) (w : List Char) : Prop :=
  w ≠ [] ∧ (∀ c ∈ w, c.isDigit = true) ∧ decValue w = n ∧ n ≤ 255

/-- Quantifiers (`ERE_dupl_symbol`). -/
inductive PosixDup : QType → List Char → Prop
  | star : PosixDup .star ['*']
  | plus : PosixDup .plus ['+']
  | question : PosixDup .question ['?']
  | multiple {n w} : PosixNum n w → PosixDup (.multiple n) ('{' :: (w ++ ['}']))
  | atLeast {n w} : PosixNum n w → PosixDup (.range n none) ('{' :: (w ++ [',', '}']))
  | between {n m w v} : PosixNum n w → PosixNum m v → n ≤ m →
      PosixDup (.range n (some m)) ('{' :: (w ++ ',' :: (v ++ ['}'])))

/-- Expressions for one character (`one_char_or_coll_elem_ERE`); `top`: outside of all groups. -/
inductive PosixAtom (full top : Bool) : Atom → List Char → Prop
  | ordinary {c} : c ∉ specials → PosixAtom full top (.normal c) [c]
  | paren : full = true → top = true → PosixAtom full top (.normal ')') [')']
  | quoted {c} : c ∈ specials → PosixAtom full top (.normal c) ['\\', c]
  | dot : PosixAtom full top .dot ['.']
  | matching {ts w} : w.head? ≠ some '^' → PosixItems full true ts w → PosixAtom full top (.matching ts) ('[' :: w)
  | nonmatching {ts w} : PosixItems full true ts w → PosixAtom full top (.nonmatching ts) ('[' :: '^' :: w)

mutual
/-- `PosixERE full top e w`: `w` is an extended regular expression and is to be read as `e`. -/
inductive PosixERE (full : Bool) : Bool → ERE → List Char → Prop
  | one {top b w} : PosixBranch full top b w → PosixERE full top (.mk [b]) w
  | more {top b bs w v} : PosixBranch full top b w → PosixERE full top (.mk bs) v →
      PosixERE full top (.mk (b :: bs)) (w ++ '|' :: v)
/-- Branches: at least one expression. -/
inductive PosixBranch (full : Bool) : Bool → EREBranch → List Char → Prop
  | one {top p w} : PosixPart full top p w → PosixBranch full top (.mk [p]) w
  | more {top p ps w v} : PosixPart full top p w → PosixBranch full top (.mk ps) v →
      PosixBranch full top (.mk (p :: ps)) (w ++ v)
/-- Expressions: an anchor, or an atom or group with at most one quantifier. -/
inductive PosixPart (full : Bool) : Bool → EREPart → List Char → Prop
  | start {top} : PosixPart full top .start ['^']
  | end_ {top} : PosixPart full top .end_ ['$']
  | single {top x w} : PosixExpr full top x w → PosixPart full top (.single x) w
  | quantified {top x q w v} : PosixExpr full top x w → PosixDup q v →
      PosixPart full top (.quantified x ⟨q, false⟩) (w ++ v)
/-- Atoms and groups. -/
inductive PosixExpr (full : Bool) : Bool → EREExpr → List Char → Prop
  | atom {top a w} : PosixAtom full top a w → PosixExpr full top (.atom a) w
  | sub {top e w} : PosixERE full false e w → PosixExpr full top (.sub e) ('(' :: (w ++ [')']))
end

/-- `w` is a POSIX extended regular expression and is to be read as `e`. -/
def IsPosix (e : ERE) (w : List Char) : Prop := PosixERE true true e w

/-- The same without unmatched `)`, collating symbols, equivalence classes and ranges that start with `]`. -/
def IsPlainPosix (e : ERE) (w : List Char) : Prop := PosixERE false true e w

end Ere
