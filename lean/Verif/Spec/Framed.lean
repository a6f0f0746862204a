import Verif.Spec.Captures
import Verif.Spec.Syntax

/-! Patterns in which anchors occur only around the branches, and how many ways there are to match a pattern. -/

namespace Ere

/-- A branch without anchors except for a `^` in front (if `s`) and a `$` behind (if `t`). -/
def EREBranch.Framed (s t : Bool) (b : EREBranch) : Prop :=
  ∃ ps, b = .mk ((if s then [.start] else []) ++ ps ++ (if t then [.end_] else [])) ∧
    partsHaveStart ps = false ∧ partsHaveEnd ps = false

/-- All branches of the pattern have this form, with the same `s` and `t`. -/
def ERE.Framed (s t : Bool) (e : ERE) : Prop := ∃ bs, e = .mk bs ∧ ∀ b ∈ bs, b.Framed s t

/-- The pattern matches texts of any length, or goes through groups any number of times. -/
def ERE.Unbounded (e : ERE) : Prop := ∀ n, ∃ text S, e.Captures text S ∧ n ≤ text.length + S.length

/-- The text determines what the groups capture. -/
def ERE.OneReading (e : ERE) : Prop :=
  ∀ text S S', e.Captures text S → e.Captures text S' → ∀ g, lastSpan S g = lastSpan S' g

end Ere
