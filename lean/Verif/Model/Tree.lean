import Verif.Model.Atom

/-!
# Parse tree and simplified tree

Sources: `/repo/ere-core/src/parse_tree.rs` (datatypes), `/repo/ere-core/src/simplified_tree.rs`.
-/

namespace Ere

/-- `QuantifierType`, parse_tree.rs 216-224 (`u32` counts as `Nat`; the parser only produces
values below 2^32). -/
inductive QType
  | star | plus | question
  | multiple (n : Nat)
  | range (n : Nat) (m : Option Nat)
deriving DecidableEq, Repr, Inhabited

/-- `QuantifierType::min`, parse_tree.rs 229-237. -/
def QType.min : QType → Nat
  | star => 0
  | plus => 1
  | question => 0
  | multiple n => n
  | range n _ => n

/-- `QuantifierType::max`, parse_tree.rs 240-248. -/
def QType.max : QType → Option Nat
  | star => none
  | plus => none
  | question => some 1
  | multiple n => some n
  | range _ m => m

/-- `Quantifier`, parse_tree.rs 264-270. -/
structure Quantifier where
  q : QType
  alt : Bool
deriving DecidableEq, Repr, Inhabited

mutual
/-- `ERE` (parse_tree.rs 63-66), a list of branches. -/
inductive ERE
  | mk (branches : List EREBranch)
/-- `EREBranch` (parse_tree.rs 126-129), a list of parts. -/
inductive EREBranch
  | mk (parts : List EREPart)
/-- `EREPart` (parse_tree.rs 158-163). -/
inductive EREPart
  | single (e : EREExpr)
  | quantified (e : EREExpr) (q : Quantifier)
  | start
  | end_
/-- `EREExpression` (parse_tree.rs 202-205). -/
inductive EREExpr
  | atom (a : Atom)
  | sub (e : ERE)
end

deriving instance Repr for ERE, EREBranch, EREPart, EREExpr

/-- `SimplifiedTreeNode`, simplified_tree.rs 9-26. The `NonZeroUsize` counts of `Repeat` and `UpTo`
are stored as predecessor: `repeat t n` is `Repeat(t, n+1)` and `upTo t n l` is
`UpTo(t, n+1, l)`. -/
inductive Tree
  | empty
  | symbol (a : Atom)
  | union (ts : List Tree)
  | capture (t : Tree) (g : Nat)
  | concat (ts : List Tree)
  | rep (t : Tree) (n : Nat)
  | upTo (t : Tree) (n : Nat) (longest : Bool)
  | star (t : Tree) (longest : Bool)
  | start
  | end_
  | never
deriving Repr, Inhabited

namespace Tree

/-- `SimplifiedTreeNode::concat`, simplified_tree.rs 41-47. -/
def concat' : Tree → Tree → Tree
  | .concat c, other => .concat (c ++ [other])
  | self, other => .concat [self, other]

/-- `SimplifiedTreeNode::union`, simplified_tree.rs 31-37. -/
def union' : Tree → Tree → Tree
  | .union u, other => .union (u ++ [other])
  | self, other => .union [self, other]

/-- `SimplifiedTreeNode::repeat`, simplified_tree.rs 48-53. -/
def repeat' (self : Tree) : Nat → Tree
  | 0 => .empty
  | n + 1 => .rep self n

/-- `SimplifiedTreeNode::upto`, simplified_tree.rs 54-59. -/
def upto' (self : Tree) (count : Nat) (longest : Bool) : Tree :=
  match count with
  | 0 => .empty
  | n + 1 => .upTo self n longest

/-- `SimplifiedTreeNode::optional`, simplified_tree.rs 28-30. -/
def optional' (self : Tree) (longest : Bool) : Tree := self.upto' 1 longest

/-- The quantifier part of `from_ere_part`, simplified_tree.rs 205-226;
`longest = config.quantifiers_prefer_longest() ^ quantifier.alt` with the only configuration
`Greedy` (config.rs 28-32), hence `!alt`. -/
def applyQuantifier (child : Tree) (q : Quantifier) : Tree :=
  let longest := true ^^ q.alt
  match q.q with
  | .star => .star child longest
  | .plus => child.concat' (.star child longest)
  | .question => child.optional' longest
  | .multiple n => child.repeat' n
  | .range n none => (child.repeat' n).concat' (.star child longest)
  | .range n (some m) =>
    if m < n then .never
    else if m - n = 0 then child.repeat' n
    else (child.repeat' n).concat' (child.upto' (m - n) longest)

mutual
/-- `SimplifiedTreeNode::from_sub_ere`, simplified_tree.rs 165-181. -/
def fromSubERE : ERE → Nat → Tree × Nat
  | .mk bs, g => let r := fromBranches bs g; (.union r.1, r.2)
/-- The `map` of `from_sub_ere` over branches, simplified_tree.rs 170-179. -/
def fromBranches : List EREBranch → Nat → List Tree × Nat
  | [], g => ([], g)
  | b :: bs, g =>
    let r := fromBranch b g
    let rs := fromBranches bs r.2
    (r.1 :: rs.1, rs.2)
/-- `SimplifiedTreeNode::from_ere_branch`, simplified_tree.rs 182-198. -/
def fromBranch : EREBranch → Nat → Tree × Nat
  | .mk ps, g => let r := fromParts ps g; (.concat r.1, r.2)
/-- The `map` of `from_ere_branch` over parts, simplified_tree.rs 187-196. -/
def fromParts : List EREPart → Nat → List Tree × Nat
  | [], g => ([], g)
  | p :: ps, g =>
    let r := fromPart p g
    let rs := fromParts ps r.2
    (r.1 :: rs.1, rs.2)
/-- `SimplifiedTreeNode::from_ere_part`, simplified_tree.rs 199-232. -/
def fromPart : EREPart → Nat → Tree × Nat
  | .single e, g => fromExpr e g
  | .quantified e q, g => let r := fromExpr e g; (applyQuantifier r.1 q, r.2)
  | .start, g => (.start, g)
  | .end_, g => (.end_, g)
/-- `SimplifiedTreeNode::from_ere_expression`, simplified_tree.rs 233-250. -/
def fromExpr : EREExpr → Nat → Tree × Nat
  | .atom a, g => (.symbol a, g)
  | .sub e, g => let r := fromSubERE e (g + 1); (.capture r.1 g, r.2)
end

/-- `SimplifiedTreeNode::from_ere`, simplified_tree.rs 252-255. -/
def fromERE (e : ERE) : Tree × Nat :=
  let r := fromSubERE e 1
  (.capture r.1 0, r.2)

/-- Sum of `Option<usize>` values, `None` if any is `None` (`Iterator::sum` for `Option`). -/
def optAdd : Option Nat → Option Nat → Option Nat
  | some a, some b => some (a + b)
  | _, _ => none

/-- `|a, b| Some(std::cmp::max(a?, b?))`, simplified_tree.rs 121. -/
def optMax : Option Nat → Option Nat → Option Nat
  | some a, some b => some (Nat.max a b)
  | _, _ => none

mutual
/-- `SimplifiedTreeNode::max_bytes`, simplified_tree.rs 110-134. -/
def maxBytes : Tree → Option Nat
  | .empty => some 0
  | .symbol a => a.toRanges.getLast?.map (fun r => charLen r.hi)
  | .union [] => some 0
  | .union (t :: ts) => maxBytesUnion (maxBytes t) ts
  | .capture t _ => maxBytes t
  | .concat ts => maxBytesConcat ts
  | .rep t n => (maxBytes t).map (· * (n + 1))
  | .upTo t n _ => (maxBytes t).map (· * (n + 1))
  | .star _ _ => none
  | .start => some 0
  | .end_ => some 0
  | .never => some 0
/-- `.map(max_bytes).reduce(..)`, simplified_tree.rs 118-121 (accumulator first). -/
def maxBytesUnion (acc : Option Nat) : List Tree → Option Nat
  | [] => acc
  | t :: ts => maxBytesUnion (optMax acc (maxBytes t)) ts
/-- `.map(max_bytes).sum()`, simplified_tree.rs 123-126. -/
def maxBytesConcat : List Tree → Option Nat
  | [] => some 0
  | t :: ts => optAdd (maxBytes t) (maxBytesConcat ts)
end

mutual
/-- `SimplifiedTreeNode::min_bytes`, simplified_tree.rs 137-162. -/
def minBytes : Tree → Nat
  | .empty => 0
  | .symbol a => match a.toRanges.head? with
    | none => 0
    | some r => charLen r.lo
  | .union ts => minBytesUnion ts
  | .capture t _ => minBytes t
  | .concat ts => minBytesConcat ts
  | .rep t n => minBytes t * (n + 1)
  | .upTo t n _ => minBytes t * (n + 1)
  | .star _ _ => 0
  | .start => 0
  | .end_ => 0
  | .never => 0
/-- `.map(min_bytes).min().unwrap_or(0)`, simplified_tree.rs 146-150. -/
def minBytesUnion : List Tree → Nat
  | [] => 0
  | [t] => minBytes t
  | t :: ts => Nat.min (minBytes t) (minBytesUnion ts)
/-- `.map(min_bytes).sum()`, simplified_tree.rs 152-154. -/
def minBytesConcat : List Tree → Nat
  | [] => 0
  | t :: ts => minBytes t + minBytesConcat ts
end

end Tree
end Ere
