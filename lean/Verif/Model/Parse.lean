import Verif.Model.Tree

/-!
# The parser and the printer of patterns

Source: `/repo/ere-core/src/parse_tree.rs`. A `&str` is a list of characters; `take` functions return
the rest of the text and what they have read.
-/

namespace Ere

/-- `RegexParseError`, parse_tree.rs 42-59. `fuel` is not in the Rust type: it says that the recursion
bound of the model is exhausted (shown never to happen: `C05_parser_total`). -/
inductive ParseError
  | unterminatedCaptureGroup
  | unterminatedCharSet
  | invalidEscapedChar (c : Char)
  | invalidAtom (c : Char)
  | unexpectedEOF
  | fuel
deriving DecidableEq, Repr

/-- Result of a `take` function. -/
abbrev Taken (β : Type) := Except ParseError (List Char × β)

/-- `is_special_character`, parse_tree.rs 831-844. -/
def isSpecial (c : Char) : Bool :=
  c == '^' || c == '.' || c == '[' || c == '$' || c == '(' || c == ')' || c == '|' || c == '*' ||
  c == '+' || c == '?' || c == '{' || c == '\\'

/-- `is_escapable_character`, parse_tree.rs 848-850. -/
def isEscapable (c : Char) : Bool := isSpecial c || c == ']' || c == '}'

/-! ## Quantifiers -/

/-- Value of a decimal digit, `char::to_digit(10)`. -/
def digitVal (c : Char) : Option Nat :=
  if 48 ≤ c.toNat ∧ c.toNat ≤ 57 then some (c.toNat - 48) else none

/-- The loop of `u32::from_str` of the standard library over the digits. The model tests the bound
once at the end (values only grow, so an overflow on the way is an overflow at the end). -/
def digitsVal : Nat → List Char → Option Nat
  | acc, [] => some acc
  | acc, c :: cs =>
    match digitVal c with
    | some d => digitsVal (acc * 10 + d) cs
    | none => none

/-- … without sign. -/
def parseDigits (ds : List Char) : Option Nat :=
  if ds.isEmpty then none
  else
    match digitsVal 0 ds with
    | some n => if n < 2 ^ 32 then some n else none
    | none => none

/-- `str::parse::<u32>` of the standard library: an optional `+`, at least one digit, no overflow. -/
def parseU32 (s : List Char) : Option Nat :=
  parseDigits (if s.head? = some '+' then s.tail else s)

/-- `str::split_once` at a character: the parts before and after its first occurrence. -/
def splitOnce (c : Char) : List Char → Option (List Char × List Char)
  | [] => none
  | x :: xs =>
    if x = c then some ([], xs)
    else
      match splitOnce c xs with
      | some (a, b) => some (x :: a, b)
      | none => none

/-- The text inside braces, parse_tree.rs 282-292. -/
def parseBraces (inside : List Char) : Option QType :=
  match splitOnce ',' inside with
  | none => (parseU32 inside).map .multiple
  | some (mn, mx) =>
    if mx.isEmpty then (parseU32 mn).map (fun n => .range n none)
    else
      match parseU32 mn with
      | none => none
      | some n => (parseU32 mx).map (fun m => .range n (some m))

/-- The first `match` of `Quantifier::take`, parse_tree.rs 276-295. -/
def takeQType : List Char → Option (List Char × QType)
  | [] => none
  | c :: r =>
    if c = '*' then some (r, .star)
    else if c = '+' then some (r, .plus)
    else if c = '?' then some (r, .question)
    else if c = '{' then
      match splitOnce '}' r with
      | none => none
      | some (inside, rest) => (parseBraces inside).map (fun q => (rest, q))
    else none

/-- `Quantifier::take`, parse_tree.rs 274-313. -/
def takeQuantifier (s : List Char) : Option (List Char × Quantifier) :=
  match takeQType s with
  | none => none
  | some (r, q) => if r.head? = some '?' then some (r.tail, ⟨q, true⟩) else some (r, ⟨q, false⟩)

/-! ## Atoms -/

/-- The names of the classes, parse_tree.rs 693-706, in this order. -/
def classNames : List (List Char × BracketCharClass) :=
  [("alnum:]".toList, .alphanumeric), ("cntrl:]".toList, .control), ("lower:]".toList, .lower),
   ("space:]".toList, .space), ("alpha:]".toList, .alphabet), ("digit:]".toList, .digit),
   ("print:]".toList, .print), ("upper:]".toList, .upper), ("blank:]".toList, .blank),
   ("graph:]".toList, .graphic), ("punct:]".toList, .punctuation), ("xdigit:]".toList, .hexDigit)]

/-- `str::strip_prefix`. -/
def stripPrefix (p s : List Char) : Option (List Char) :=
  if p.isPrefixOf s then some (s.drop p.length) else none

/-- `match_prefix!`, parse_tree.rs 26-40. -/
def matchPrefix (s : List Char) : List (List Char × BracketCharClass) →
    Option (List Char × BracketCharClass)
  | [] => none
  | (p, k) :: ps =>
    match stripPrefix p s with
    | some r => some (r, k)
    | none => matchPrefix s ps

/-- `BracketCharClass::take`, parse_tree.rs 691-707. -/
def takeClass (s : List Char) : Option (List Char × BracketCharClass) :=
  match stripPrefix "[:".toList s with
  | none => none
  | some r => matchPrefix r classNames

/-- Put an item in front of a result. -/
def consItem (i : Term) (r : Taken (List Term)) : Taken (List Term) :=
  r.map (fun p => (p.1, i :: p.2))

/-- The loop in `Atom::take`, parse_tree.rs 430-459. The first argument bounds the number of
iterations. -/
def takeItems : Nat → List Char → Taken (List Term)
  | 0, _ => .error .fuel
  | k + 1, s =>
    if s.head? = some ']' then .ok (s.tail, [])
    else
      match takeClass s with
      | some (r, c) => consItem (.cls c) (takeItems k r)
      | none =>
        match s with
        | [] => .error .unterminatedCharSet
        | [_] => .error .unterminatedCharSet
        | first :: c :: r =>
          if c = '-' then
            match r with
            | [] => .error .unterminatedCharSet
            | second :: r' =>
              if second = ']' then .ok (r', [.single first, .single '-'])
              else consItem (.range first second) (takeItems k r')
          else consItem (.single first) (takeItems k (c :: r))

/-- The bracket expression after `[`, parse_tree.rs 416-465. -/
def takeBracket (s : List Char) : Taken Atom :=
  let noneOf := s.head? = some '^'
  let s1 := if noneOf then s.tail else s
  let items :=
    if s1.head? = some ']' then consItem (.single ']') (takeItems (s1.length + 1) s1.tail)
    else takeItems (s1.length + 1) s1
  items.map (fun p => (p.1, if noneOf then .nonmatching p.2 else .matching p.2))

/-- `Atom::take`, parse_tree.rs 407-471. -/
def takeAtom : List Char → Taken Atom
  | [] => .error .unexpectedEOF
  | c :: r =>
    if c = '\\' then
      match r with
      | [] => .error (.invalidAtom '\\')
      | d :: r' => if isEscapable d then .ok (r', .normal d) else .error (.invalidEscapedChar d)
    else if c = '.' then .ok (r, .dot)
    else if c = '[' then takeBracket r
    else if isSpecial c then .error (.invalidAtom c)
    else .ok (r, .normal c)

/-- `impl FromStr for Atom`, parse_tree.rs 392-401. -/
def Atom.fromStr (s : List Char) : Option Atom :=
  match takeAtom s with
  | .ok ([], a) => some a
  | _ => none

/-! ## Patterns -/

/-- The end of `EREPart::take`, parse_tree.rs 182-187. -/
def quantify (r : List Char) (e : EREExpr) : List Char × EREPart :=
  match takeQuantifier r with
  | some (r', q) => (r', .quantified e q)
  | none => (r, .single e)

mutual
/-- `ERE::take`, parse_tree.rs 69-86. The first argument of these functions bounds the recursion
depth. -/
def takeERE : Nat → List Char → Taken ERE
  | 0, _ => .error .fuel
  | k + 1, s =>
    match takeBranch k s with
    | .error e => .error e
    | .ok (r, b) =>
      match takeMore k r with
      | .error e => .error e
      | .ok (r', bs) => .ok (r', .mk (.mk b :: bs))
/-- The loop of `ERE::take`, parse_tree.rs 73-84. -/
def takeMore : Nat → List Char → Taken (List EREBranch)
  | 0, _ => .error .fuel
  | k + 1, s =>
    if s.isEmpty || s.head? == some ')' then .ok (s, [])
    else if s.head? = some '|' then
      match takeBranch k s.tail with
      | .error e => .error e
      | .ok (r, b) =>
        match takeMore k r with
        | .error e => .error e
        | .ok (r', bs) => .ok (r', .mk b :: bs)
    else .ok (s, [])
/-- `EREBranch::take`, parse_tree.rs 138-146. -/
def takeBranch : Nat → List Char → Taken (List EREPart)
  | 0, _ => .error .fuel
  | k + 1, s =>
    if s.isEmpty || s.head? == some ')' || s.head? == some '|' then .ok (s, [])
    else
      match takePart k s with
      | .error e => .error e
      | .ok (r, p) =>
        match takeBranch k r with
        | .error e => .error e
        | .ok (r', ps) => .ok (r', p :: ps)
/-- `EREPart::take`, parse_tree.rs 165-188. -/
def takePart : Nat → List Char → Taken EREPart
  | 0, _ => .error .fuel
  | k + 1, s =>
    if s.head? = some '^' then .ok (s.tail, .start)
    else if s.head? = some '$' then .ok (s.tail, .end_)
    else if s.head? = some '(' then
      match takeERE k s.tail with
      | .error e => .error e
      | .ok (r, e) =>
        if r.head? = some ')' then .ok (quantify r.tail (.sub e))
        else .error .unterminatedCaptureGroup
    else
      match takeAtom s with
      | .error e => .error e
      | .ok (r, a) => .ok (quantify r (.atom a))
end

/-- Recursion bound that is always enough. -/
def parseFuel (s : List Char) : Nat := 3 * s.length + 3

/-- `ERE::parse_str`, parse_tree.rs 87-94: every failure becomes the same error. -/
def parseStr (s : List Char) : Except ParseError ERE :=
  match takeERE (parseFuel s) s with
  | .ok ([], e) => .ok e
  | .error .fuel => .error .fuel
  | _ => .error (.invalidAtom ')')

/-! ## Printing -/

/-- `Display for BracketCharClass`, parse_tree.rs 709-726. -/
def BracketCharClass.display : BracketCharClass → List Char
  | alphanumeric => "[:alnum:]".toList
  | control => "[:cntrl:]".toList
  | lower => "[:lower:]".toList
  | space => "[:space:]".toList
  | alphabet => "[:alpha:]".toList
  | digit => "[:digit:]".toList
  | print => "[:print:]".toList
  | upper => "[:upper:]".toList
  | blank => "[:blank:]".toList
  | graphic => "[:graph:]".toList
  | punctuation => "[:punct:]".toList
  | hexDigit => "[:xdigit:]".toList

/-- `Display for BracketExpressionTerm`, parse_tree.rs 794-802. -/
def Term.display : Term → List Char
  | .single c => [c]
  | .range a b => [a, '-', b]
  | .cls k => k.display

/-- `Display for Atom`, parse_tree.rs 594-616. -/
def Atom.display : Atom → List Char
  | .normal c => if isEscapable c then ['\\', c] else [c]
  | .dot => ['.']
  | .matching ts => '[' :: (ts.flatMap Term.display ++ [']'])
  | .nonmatching ts => '[' :: '^' :: (ts.flatMap Term.display ++ [']'])

/-- Decimal digits, `Display for u32` of the standard library. -/
def decimal (n : Nat) : List Char :=
  if n < 10 then [Char.ofNat (48 + n)] else decimal (n / 10) ++ [Char.ofNat (48 + n % 10)]
decreasing_by omega

/-- `Display for QuantifierType`, parse_tree.rs 250-261. -/
def QType.display : QType → List Char
  | .star => ['*']
  | .plus => ['+']
  | .question => ['?']
  | .multiple n => '{' :: (decimal n ++ ['}'])
  | .range n none => '{' :: (decimal n ++ [',', '}'])
  | .range n (some m) => '{' :: (decimal n ++ ',' :: (decimal m ++ ['}']))

/-- `Display for Quantifier`, parse_tree.rs 315-324. -/
def Quantifier.display (q : Quantifier) : List Char :=
  q.q.display ++ (if q.alt then ['?'] else [])

mutual
/-- `Display for ERE`, parse_tree.rs 111-123. -/
def ERE.display : ERE → List Char
  | .mk bs => displayBranches bs
/-- The loop of `Display for ERE`. -/
def displayBranches : List EREBranch → List Char
  | [] => []
  | [b] => b.display
  | b :: b' :: bs => b.display ++ '|' :: displayBranches (b' :: bs)
/-- `Display for EREBranch`, parse_tree.rs 148-155. -/
def EREBranch.display : EREBranch → List Char
  | .mk ps => displayParts ps
/-- The loop of `Display for EREBranch`. -/
def displayParts : List EREPart → List Char
  | [] => []
  | p :: ps => p.display ++ displayParts ps
/-- `Display for EREPart`, parse_tree.rs 190-199. -/
def EREPart.display : EREPart → List Char
  | .single e => e.display
  | .quantified e q => e.display ++ q.display
  | .start => ['^']
  | .end_ => ['$']
/-- `Display for EREExpression`, parse_tree.rs 206-213. -/
def EREExpr.display : EREExpr → List Char
  | .atom a => a.display
  | .sub e => '(' :: (e.display ++ [')'])
end

end Ere
