import Verif.Spec.Semantics

/-!
# All occurrences, one after the other

What a program that looks for all occurrences of a pattern in a text is to find: the first one, then the first one behind
it, and so on.
-/

namespace Ere

/-- The stretch `mid` of the text `before ++ rest` is matched, it begins within `rest`, behind `pre`, and nothing that begins
within `rest` is matched further left. -/
def ERE.Next (e : ERE) (before rest pre mid post : List Char) : Prop :=
  rest = pre ++ mid ++ post ∧ MatchesERE e (before ++ pre) mid post ∧
  ∀ pre' mid' post', rest = pre' ++ mid' ++ post' → MatchesERE e (before ++ pre') mid' post' → pre.length ≤ pre'.length

/-- Nothing that begins within `rest` is matched. -/
def ERE.NoMore (e : ERE) (before rest : List Char) : Prop :=
  ∀ pre mid post, rest = pre ++ mid ++ post → ¬ MatchesERE e (before ++ pre) mid post

/-- The list holds the byte offsets of occurrences in `before ++ rest`: the first one in `rest`, and so on behind it.
(Behind an empty occurrence one goes on a character further.) -/
inductive ERE.Scans (e : ERE) : List Char → List Char → List (Nat × Nat) → Prop
  | done {before rest} : e.NoMore before rest → e.Scans before rest []
  | more {before rest pre mid post l} : e.Next before rest pre mid post → mid ≠ [] →
      e.Scans (before ++ (pre ++ mid)) post l →
      e.Scans before rest ((byteLen (before ++ pre), byteLen (before ++ (pre ++ mid))) :: l)
  | empty {before rest pre c post l} : e.Next before rest pre [] (c :: post) → e.Scans (before ++ (pre ++ [c])) post l →
      e.Scans before rest ((byteLen (before ++ pre), byteLen (before ++ pre)) :: l)
  | last {before rest pre} : e.Next before rest pre [] [] →
      e.Scans before rest [(byteLen (before ++ pre), byteLen (before ++ pre))]

end Ere
