import Verif.Spec.Semantics

/-!
# Specification: the longest of the leftmost matches

POSIX demands that the match reported by a search is the longest of those that start furthest left (XBD 9.1).
`/repo/README.md` 5 and 69 promise POSIX extended regular expressions with other rules for
submatches only. This file says what the rule for the whole match is, and names patterns that can be recognised to obey it.
-/

namespace Ere

/-- Bytes `i` to `j` of the text are matched, no match starts before `i`, and no match that starts at `i` ends behind `j`. -/
def ERE.LeftLongest (e : ERE) (text : List Char) (i j : Nat) : Prop :=
  (∃ pre mid post, text = pre ++ mid ++ post ∧ MatchesERE e pre mid post ∧ byteLen pre = i ∧ byteLen (pre ++ mid) = j) ∧
  ∀ pre mid post, text = pre ++ mid ++ post → MatchesERE e pre mid post →
    i < byteLen pre ∨ (byteLen pre = i ∧ byteLen (pre ++ mid) ≤ j)

/-- From each place there is at most one stretch that the part matches. -/
def EREPart.SameEnd (x : EREPart) : Prop :=
  ∀ pre m r m' r', m ++ r = m' ++ r' → MatchesPart x pre m r → MatchesPart x pre m' r' → m = m'

/-- From each place there is at most one stretch that the expression matches. -/
def EREExpr.SameEnd (x : EREExpr) : Prop :=
  ∀ pre m r m' r', m ++ r = m' ++ r' → MatchesExpr x pre m r → MatchesExpr x pre m' r' → m = m'

/-- From each place there is at most one stretch that the pattern matches. -/
def ERE.SameEnd (e : ERE) : Prop :=
  ∀ pre m r m' r', m ++ r = m' ++ r' → MatchesERE e pre m r → MatchesERE e pre m' r' → m = m'

/-- Where the expression matches, what follows matches the empty stretch at most. -/
def Apart (x : EREExpr) (ps : List EREPart) : Prop :=
  ∀ pre m r m' r', m ++ r = m' ++ r' → MatchesExpr x pre m r → MatchesBranch (.mk ps) pre m' r' → m' = []

/-- No two of the branches match from the same place. -/
def Exclusive (bs : List EREBranch) : Prop :=
  bs.Pairwise fun b b' => ∀ pre m r m' r', m ++ r = m' ++ r' → MatchesBranch b pre m r → ¬ MatchesBranch b' pre m' r'

/-- The branch with more parts behind. -/
def EREBranch.andThen : EREBranch → List EREPart → EREBranch
  | .mk ps, qs => .mk (ps ++ qs)

mutual
/-- Patterns in which one can see at each place how to go on: a pattern with at most one match from each place, or branches that
exclude one another, each of them … -/
inductive SteadyERE : ERE → Prop
  | same {e} : e.SameEnd → SteadyERE e
  | alt {bs} : Exclusive bs → (∀ b ∈ bs, SteadyBranch b) → SteadyERE (.mk bs)
/-- … a sequence of parts with at most one match from each place, of greedily repeated expressions with at most one match from each
place that are followed by something that begins differently, and of groups that are such patterns when what follows is appended to
their branches. -/
inductive SteadyBranch : EREBranch → Prop
  | nil : SteadyBranch (.mk [])
  | fixed {x ps} : x.SameEnd → SteadyBranch (.mk ps) → SteadyBranch (.mk (x :: ps))
  | run {x q ps} : q.alt = false → x.SameEnd → Apart x ps → SteadyBranch (.mk ps) → SteadyBranch (.mk (.quantified x q :: ps))
  | group {bs qs} : SteadyERE (.mk (bs.map (·.andThen qs))) → SteadyBranch (.mk (.single (.sub (.mk bs)) :: qs))
end

end Ere
