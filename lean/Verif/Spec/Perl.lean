import Verif.Spec.Priority

/-!
# Specification: repetitions with empty rounds

`ERE.first` (Spec/Priority.lean) gives the preferred match for patterns in which every round of an unbounded
repetition consumes something. This file extends it to all patterns with the rule of Perl (perlre, "Repeated
Patterns Matching a Zero-length Substring"): a loop is broken when a round has matched the empty text, that
is, such a round is kept but is the last one. The documentation of the crate names "the popular Perl regex rules"
(`/repo/ere-core/src/config.rs` 3-10) without saying anything about empty rounds.
-/

namespace Ere

/-- Further rounds of an unbounded repetition, most preferred first. A round which consumes nothing is the last
one. There are at most as many others as characters, so `k` is only there to make the definition total. -/
def perlRounds (L : Pos → List Pos) (greedy : Bool) : Nat → Pos → List Pos
  | 0, d => [d]
  | k + 1, d =>
    if greedy then (L d).flatMap (fun d1 => if d1.off = d.off then [d1] else perlRounds L greedy k d1) ++ [d]
    else d :: (L d).flatMap (fun d1 => if d1.off = d.off then [d1] else perlRounds L greedy k d1)

mutual
/-- All ways to match a pattern whose first group has number `g`, most preferred first. -/
def perlERE : ERE → Nat → Pos → List Pos
  | .mk bs, g, p => perlBranches bs g p
/-- Alternatives from left to right. -/
def perlBranches : List EREBranch → Nat → Pos → List Pos
  | [], _, _ => []
  | b :: bs, g, p => perlBranch b g p ++ perlBranches bs (g + b.groups) p
/-- A branch. -/
def perlBranch : EREBranch → Nat → Pos → List Pos
  | .mk ps, g, p => perlParts ps g p
/-- Parts in sequence. -/
def perlParts : List EREPart → Nat → Pos → List Pos
  | [], _, p => [p]
  | x :: ps, g, p => (perlPart x g p).flatMap (perlParts ps (g + x.groups))
/-- A part: the minimal number of rounds, then further ones as the quantifier prefers. -/
def perlPart : EREPart → Nat → Pos → List Pos
  | .single e, g, p => perlExpr e g p
  | .quantified e q, g, p => (times (perlExpr e g) q.q.min p).flatMap fun p1 =>
      match q.q.max with
      | none => perlRounds (perlExpr e g) (!q.alt) (p1.rest.length + 1) p1
      | some m => if m < q.q.min then [] else optTimes (perlExpr e g) (!q.alt) (m - q.q.min) p1
  | .start, _, p => if p.off = 0 then [p] else []
  | .end_, _, p => if p.rest.isEmpty then [p] else []
/-- An expression; a parenthesis records what it matched. -/
def perlExpr : EREExpr → Nat → Pos → List Pos
  | .atom a, _, p =>
    match p.rest with
    | [] => []
    | c :: r => if a.check c then [⟨p.off + charLen c, r, p.spans⟩] else []
  | .sub e, g, p => (perlERE e (g + 1) p).map fun p1 => ⟨p1.off, p1.rest, p1.spans ++ [⟨g, p.off, p1.off⟩]⟩
end

/-- The preferred match in `rest`, which starts at byte `off` of the text. -/
def ERE.perlFrom (e : ERE) (off : Nat) : List Char → Option (List Span)
  | [] => (perlERE e 1 ⟨off, [], []⟩).head?.map fun p => p.spans ++ [⟨0, off, p.off⟩]
  | c :: r =>
    match (perlERE e 1 ⟨off, c :: r, []⟩).head? with
    | some p => some (p.spans ++ [⟨0, off, p.off⟩])
    | none => e.perlFrom (off + charLen c) r

/-- The match that Perl prefers in a text, for any pattern. -/
def ERE.perl (e : ERE) (text : List Char) : Option (List Span) := e.perlFrom 0 text

end Ere
