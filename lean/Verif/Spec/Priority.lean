import Verif.Spec.Captures
import Verif.Spec.Syntax

/-!
# Specification: which match is reported

Among several ways to match, `Regex::exec` is documented to follow "the popular Perl regex rules"
(`AmbiguousSubmatchMode::Greedy`, `/repo/ere-core/src/config.rs` 3-10; `/repo/README.md` 69; the lazy
quantifiers are those of `/repo/ere-core/src/parse_tree.rs` 266-268). This file says what that means, with no reference to trees or automata: all
ways to match are enumerated in order of preference, as a backtracking matcher would try them.

* of two alternatives the left one is preferred,
* a quantified expression is matched its minimal number of times; after that a greedy quantifier prefers
  another round over stopping and a lazy one prefers stopping,
* what comes earlier in the pattern decides first,
* a match that starts further left is preferred over everything else.
-/

namespace Ere

/-- `k` rounds, all ways. -/
def times {γ : Type} (L : γ → List γ) : Nat → γ → List γ
  | 0, d => [d]
  | k + 1, d => (L d).flatMap (times L k)

/-- At most `k` rounds, all ways; a greedy quantifier tries another round before stopping. -/
def optTimes {γ : Type} (L : γ → List γ) (greedy : Bool) : Nat → γ → List γ
  | 0, d => [d]
  | k + 1, d =>
    if greedy then (L d).flatMap (optTimes L greedy k) ++ [d]
    else d :: (L d).flatMap (optTimes L greedy k)

/-- A position of a matcher: byte offset, text to come, stretches matched by groups so far. -/
structure Pos where
  off : Nat
  rest : List Char
  spans : List Span
deriving DecidableEq, Repr

mutual
/-- All ways to match a pattern whose first group has number `g`, most preferred first. -/
def tryERE : ERE → Nat → Pos → List Pos
  | .mk bs, g, p => tryBranches bs g p
/-- Alternatives from left to right. -/
def tryBranches : List EREBranch → Nat → Pos → List Pos
  | [], _, _ => []
  | b :: bs, g, p => tryBranch b g p ++ tryBranches bs (g + b.groups) p
/-- A branch. -/
def tryBranch : EREBranch → Nat → Pos → List Pos
  | .mk ps, g, p => tryParts ps g p
/-- Parts in sequence. -/
def tryParts : List EREPart → Nat → Pos → List Pos
  | [], _, p => [p]
  | x :: ps, g, p => (tryPart x g p).flatMap (tryParts ps (g + x.groups))
/-- A part. Without an upper bound there is no need for more rounds than characters, as every round is
required to consume something (see `ERE.progress`). -/
def tryPart : EREPart → Nat → Pos → List Pos
  | .single e, g, p => tryExpr e g p
  | .quantified e q, g, p => (times (tryExpr e g) q.q.min p).flatMap fun p1 =>
      match q.q.max with
      | none => optTimes (tryExpr e g) (!q.alt) p1.rest.length p1
      | some m => if m < q.q.min then [] else optTimes (tryExpr e g) (!q.alt) (m - q.q.min) p1
  | .start, _, p => if p.off = 0 then [p] else []
  | .end_, _, p => if p.rest.isEmpty then [p] else []
/-- An expression; a parenthesis records what it matched. -/
def tryExpr : EREExpr → Nat → Pos → List Pos
  | .atom a, _, p =>
    match p.rest with
    | [] => []
    | c :: r => if a.check c then [⟨p.off + charLen c, r, p.spans⟩] else []
  | .sub e, g, p => (tryERE e (g + 1) p).map fun p1 => ⟨p1.off, p1.rest, p1.spans ++ [⟨g, p.off, p1.off⟩]⟩
end

/-- The preferred match in `rest`, which starts at byte `off` of the text: the most preferred one at the
first position where there is any. The result are the stretches matched by the groups, with group 0 for
the whole match last. -/
def ERE.firstFrom (e : ERE) (off : Nat) : List Char → Option (List Span)
  | [] => (tryERE e 1 ⟨off, [], []⟩).head?.map fun p => p.spans ++ [⟨0, off, p.off⟩]
  | c :: r =>
    match (tryERE e 1 ⟨off, c :: r, []⟩).head? with
    | some p => some (p.spans ++ [⟨0, off, p.off⟩])
    | none => e.firstFrom (off + charLen c) r

/-- The preferred match in a text. -/
def ERE.first (e : ERE) (text : List Char) : Option (List Span) := e.firstFrom 0 text

mutual
/-- The pattern could match the empty string as far as its shape tells. -/
def ERE.nullable : ERE → Bool
  | .mk bs => nullableBranches bs
/-- … one of several branches. -/
def nullableBranches : List EREBranch → Bool
  | [] => false
  | b :: bs => b.nullable || nullableBranches bs
/-- … a branch. -/
def EREBranch.nullable : EREBranch → Bool
  | .mk ps => nullableParts ps
/-- … all of several parts. -/
def nullableParts : List EREPart → Bool
  | [] => true
  | p :: ps => p.nullable && nullableParts ps
/-- … a part. -/
def EREPart.nullable : EREPart → Bool
  | .single e => e.nullable
  | .quantified e q => q.q.min == 0 || e.nullable
  | .start => true
  | .end_ => true
/-- … an expression. -/
def EREExpr.nullable : EREExpr → Bool
  | .atom _ => false
  | .sub e => e.nullable
end

mutual
/-- Every expression that is quantified without an upper bound consumes at least one character per
round. -/
def ERE.progress : ERE → Bool
  | .mk bs => progressBranches bs
/-- The same for branches. -/
def progressBranches : List EREBranch → Bool
  | [] => true
  | b :: bs => b.progress && progressBranches bs
/-- The same for a branch. -/
def EREBranch.progress : EREBranch → Bool
  | .mk ps => progressParts ps
/-- The same for parts. -/
def progressParts : List EREPart → Bool
  | [] => true
  | p :: ps => p.progress && progressParts ps
/-- The same for a part. -/
def EREPart.progress : EREPart → Bool
  | .single e => e.progress
  | .quantified e q => e.progress && (q.q.max.isSome || !e.nullable)
  | .start => true
  | .end_ => true
/-- The same for an expression. -/
def EREExpr.progress : EREExpr → Bool
  | .atom _ => true
  | .sub e => e.progress
end

mutual
/-- What a pattern crosses: the argument says whether `^` and `$` have been crossed before, the result
whether they have afterwards. `none` if that depends on the way taken, if one of them is crossed twice,
or if one of them stands under a quantifier. -/
def ERE.crosses : ERE → Bool × Bool → Option (Bool × Bool)
  | .mk bs, x => branchesCross bs x
/-- … all branches alike. -/
def branchesCross : List EREBranch → Bool × Bool → Option (Bool × Bool)
  | [], _ => none
  | [b], x => b.crosses x
  | b :: b' :: bs, x => if b.crosses x = branchesCross (b' :: bs) x then b.crosses x else none
/-- … a branch. -/
def EREBranch.crosses : EREBranch → Bool × Bool → Option (Bool × Bool)
  | .mk ps, x => partsCross ps x
/-- … parts in sequence. -/
def partsCross : List EREPart → Bool × Bool → Option (Bool × Bool)
  | [], x => some x
  | p :: ps, x => (p.crosses x).bind (partsCross ps)
/-- … a part. -/
def EREPart.crosses : EREPart → Bool × Bool → Option (Bool × Bool)
  | .single e, x => e.crosses x
  | .quantified e _, x => if e.hasStart || e.hasEnd then none else some x
  | .start, x => if x.1 then none else some (true, x.2)
  | .end_, x => if x.2 then none else some (x.1, true)
/-- … an expression. -/
def EREExpr.crosses : EREExpr → Bool × Bool → Option (Bool × Bool)
  | .atom _, x => some x
  | .sub e, x => e.crosses x
end

/-- All ways through the pattern cross the same anchors (for example `ab|c`, `^(a|b)*$`, `^a|^b`; not
`^a|b`). -/
def ERE.evenAnchors (e : ERE) : Bool := (e.crosses (false, false)).isSome

end Ere
