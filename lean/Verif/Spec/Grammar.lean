import Verif.Model.Tree

/-!
# Specification of the pattern syntax

`Spells… x w`: the text `w` is a spelling of `x`. This is a plain grammar, with no reference to the
parser (no rest of the input, no look-ahead outside brackets).
-/

namespace Ere

/-- Characters that stand for themselves only when escaped. -/
def specials : List Char := ['^', '.', '[', '$', '(', ')', '|', '*', '+', '?', '{', '\\']

/-- Characters that may be escaped. -/
def escapables : List Char := specials ++ [']', '}']

/-- The value of a string of decimal digits. -/
def decValue (ds : List Char) : Nat := ds.foldl (fun n c => n * 10 + (c.toNat - '0'.toNat)) 0

/-- Spellings of a number: decimal digits, possibly with leading zeros and a leading `+`; below 2^32. -/
inductive SpellsNum (n : Nat) : List Char → Prop
  | digits {ds} : ds ≠ [] → (∀ c ∈ ds, c.isDigit = true) → decValue ds = n → n < 2 ^ 32 → SpellsNum n ds
  | plus {ds} : ds ≠ [] → (∀ c ∈ ds, c.isDigit = true) → decValue ds = n → n < 2 ^ 32 →
      SpellsNum n ('+' :: ds)

/-- Spellings of a quantifier without its laziness mark. -/
inductive SpellsQType : QType → List Char → Prop
  | star : SpellsQType .star ['*']
  | plus : SpellsQType .plus ['+']
  | question : SpellsQType .question ['?']
  | multiple {n w} : SpellsNum n w → SpellsQType (.multiple n) ('{' :: (w ++ ['}']))
  | atLeast {n w} : SpellsNum n w → SpellsQType (.range n none) ('{' :: (w ++ [',', '}']))
  | between {n m w v} : SpellsNum n w → SpellsNum m v →
      SpellsQType (.range n (some m)) ('{' :: (w ++ ',' :: (v ++ ['}'])))

/-- Spellings of a quantifier. -/
inductive SpellsQuant : Quantifier → List Char → Prop
  | greedy {q w} : SpellsQType q w → SpellsQuant ⟨q, false⟩ w
  | lazy {q w} : SpellsQType q w → SpellsQuant ⟨q, true⟩ (w ++ ['?'])

/-- POSIX names of the character classes. -/
def posixName : BracketCharClass → String
  | .alphanumeric => "alnum"
  | .control => "cntrl"
  | .lower => "lower"
  | .space => "space"
  | .alphabet => "alpha"
  | .digit => "digit"
  | .print => "print"
  | .upper => "upper"
  | .blank => "blank"
  | .graphic => "graph"
  | .punctuation => "punct"
  | .hexDigit => "xdigit"

/-- Spelling of a class inside a bracket expression: `[:name:]`. -/
def classText (k : BracketCharClass) : List Char := '[' :: ':' :: ((posixName k).toList ++ [':', ']'])

/-- A text that begins with the spelling of a class. -/
def StartsClass (s : List Char) : Prop := ∃ k, classText k <+: s

/-- Spellings of the inside of a bracket expression up to and including the closing bracket (after a
leading `^` or `]`, if any). A `-` between two characters makes a range unless the second one is the
closing bracket; `[:name:]` is always a class; everything else but `]` stands for itself. -/
inductive SpellsItems : List Term → List Char → Prop
  | close : SpellsItems [] [']']
  | cls {k ts w} : SpellsItems ts w → SpellsItems (.cls k :: ts) (classText k ++ w)
  | range {a b ts w} : a ≠ ']' → b ≠ ']' → SpellsItems ts w →
      SpellsItems (.range a b :: ts) (a :: '-' :: b :: w)
  | dash {a} : a ≠ ']' → SpellsItems [.single a, .single '-'] [a, '-', ']']
  | single {a ts w} : a ≠ ']' → w.head? ≠ some '-' → ¬ StartsClass (a :: w) → SpellsItems ts w →
      SpellsItems (.single a :: ts) (a :: w)

/-- Spellings of the list of a bracket expression: a `]` in the first place stands for itself. -/
inductive SpellsList : List Term → List Char → Prop
  | plain {ts w} : w.head? ≠ some ']' → SpellsItems ts w → SpellsList ts w
  | bracket {ts w} : SpellsItems ts w → SpellsList (.single ']' :: ts) (']' :: w)

/-- Spellings of an atom. -/
inductive SpellsAtom : Atom → List Char → Prop
  | escaped {c} : c ∈ escapables → SpellsAtom (.normal c) ['\\', c]
  | plain {c} : c ∉ specials → SpellsAtom (.normal c) [c]
  | dot : SpellsAtom .dot ['.']
  | matching {ts w} : w.head? ≠ some '^' → SpellsList ts w → SpellsAtom (.matching ts) ('[' :: w)
  | nonmatching {ts w} : SpellsList ts w → SpellsAtom (.nonmatching ts) ('[' :: '^' :: w)

mutual
/-- Spellings of a pattern: spellings of its branches (at least one) with `|` between them. -/
inductive SpellsERE : ERE → List Char → Prop
  | one {b w} : SpellsBranch b w → SpellsERE (.mk [b]) w
  | more {b bs w v} : SpellsBranch b w → SpellsERE (.mk bs) v → SpellsERE (.mk (b :: bs)) (w ++ '|' :: v)
/-- Spellings of a branch: one after the other the spellings of its parts. -/
inductive SpellsBranch : EREBranch → List Char → Prop
  | nil : SpellsBranch (.mk []) []
  | cons {p ps w v} : SpellsPart p w → SpellsBranch (.mk ps) v → SpellsBranch (.mk (p :: ps)) (w ++ v)
/-- Spellings of a part. -/
inductive SpellsPart : EREPart → List Char → Prop
  | start : SpellsPart .start ['^']
  | end_ : SpellsPart .end_ ['$']
  | single {e w} : SpellsExpr e w → SpellsPart (.single e) w
  | quantified {e q w v} : SpellsExpr e w → SpellsQuant q v → SpellsPart (.quantified e q) (w ++ v)
/-- Spellings of an expression. -/
inductive SpellsExpr : EREExpr → List Char → Prop
  | atom {a w} : SpellsAtom a w → SpellsExpr (.atom a) w
  | sub {e w} : SpellsERE e w → SpellsExpr (.sub e) ('(' :: (w ++ [')']))
end

end Ere
