import Verif.Spec.Captures

/-!
# Patterns for which the next character decides

At each place where there is a choice – between branches, or between one more round and going on – the next character
(or the end of the text) tells which way may succeed. There is no reference to trees, automata or an order of preference.
-/

namespace Ere

/-- What one sees at a place in a text: the next character, or (`none`) the end of the text. -/
abbrev Sight := Option Char

mutual
/-- What may be seen where the pattern begins to match, if what is seen behind the match satisfies `F`. -/
def ERE.sees : ERE → (Sight → Prop) → Sight → Prop
  | .mk bs, F, l => branchesSee bs F l
/-- … for one of the branches. -/
def branchesSee : List EREBranch → (Sight → Prop) → Sight → Prop
  | [], _, _ => False
  | b :: bs, F, l => b.sees F l ∨ branchesSee bs F l
/-- … for a branch. -/
def EREBranch.sees : EREBranch → (Sight → Prop) → Sight → Prop
  | .mk ps, F, l => partsSee ps F l
/-- … for parts one after the other. -/
def partsSee : List EREPart → (Sight → Prop) → Sight → Prop
  | [], F, l => F l
  | p :: ps, F, l => p.sees (partsSee ps F) l
/-- … for a part. -/
def EREPart.sees : EREPart → (Sight → Prop) → Sight → Prop
  | .single e, F, l => e.sees F l
  | .quantified e q, F, l => (q.q.min = 0 ∧ F l) ∨ (q.q.max ≠ some 0 ∧ e.sees (fun _ => True) l)
  | .start, F, l => F l
  | .end_, F, l => l = none ∧ F l
/-- … for an expression. -/
def EREExpr.sees : EREExpr → (Sight → Prop) → Sight → Prop
  | .atom a, _, l => ∃ c, l = some c ∧ a.check c = true
  | .sub e, F, l => e.sees F l
end

mutual
/-- The next character decides which branch may match, if what is seen behind the match satisfies `F`, … -/
def ERE.Decided : ERE → (Sight → Prop) → Prop
  | .mk bs, F => (bs.Pairwise fun b b' => ∀ l, ¬ (b.sees F l ∧ b'.sees F l)) ∧ branchesDecided bs F
/-- … and so in all branches. -/
def branchesDecided : List EREBranch → (Sight → Prop) → Prop
  | [], _ => True
  | b :: bs, F => b.Decided F ∧ branchesDecided bs F
/-- The same for a branch. -/
def EREBranch.Decided : EREBranch → (Sight → Prop) → Prop
  | .mk ps, F => partsDecided ps F
/-- The same for parts one after the other. -/
def partsDecided : List EREPart → (Sight → Prop) → Prop
  | [], _ => True
  | p :: ps, F => p.Decided (partsSee ps F) ∧ partsDecided ps F
/-- The same for a part: the number of rounds of a repetition is given, or the next character decides whether there is a
further round. -/
def EREPart.Decided : EREPart → (Sight → Prop) → Prop
  | .single e, F => e.Decided F
  | .quantified e q, F => e.Decided (fun l => F l ∨ e.sees (fun _ => True) l) ∧
      (q.q.max = some q.q.min ∨ ∀ l, ¬ (F l ∧ e.sees (fun _ => True) l))
  | .start, _ => True
  | .end_, _ => True
/-- The same for an expression. -/
def EREExpr.Decided : EREExpr → (Sight → Prop) → Prop
  | .atom _, _ => True
  | .sub e, F => e.Decided F
end

/-- `S` is the only way of matching the pattern in the text that starts as far left as any. -/
def ERE.Only (e : ERE) (text : List Char) (S : List Span) : Prop :=
  e.Captures text S ∧ ∀ S', e.Captures text S' → ∃ i j i' j', lastSpan S 0 = some (i, j) ∧ lastSpan S' 0 = some (i', j') ∧
    (i < i' ∨ S' = S)

end Ere
