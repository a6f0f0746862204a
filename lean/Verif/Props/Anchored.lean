import Verif.Spec.Anchored
import Verif.Props.AnchoredProgram
import Verif.Props.Clock

/-!
# C91: the pattern of the tests with anchored branches

`(^a$)|(^a)|(a$)|(a)` (`tests/pure_regex.rs` 683–699).
-/

namespace Ere.Props

theorem parse_anchored : parseStr "(^a$)|(^a)|(a$)|(a)".toList = .ok anchoredERE := by
  have ha : SpellsPart (.single (.atom (.normal 'a'))) ['a'] := .single (.atom (.plain (by decide)))
  have h1 : SpellsBranch (anchoredA true true) "(^a$)".toList := .cons (w := "(^a$)".toList) (v := []) (.single (.sub (w := "^a$".toList)
    (.one (.cons (w := ['^']) .start (.cons (w := ['a']) ha (.cons (w := ['$']) (v := []) .end_ .nil)))))) .nil
  have h2 : SpellsBranch (anchoredA true false) "(^a)".toList := .cons (w := "(^a)".toList) (v := []) (.single (.sub (w := "^a".toList)
    (.one (.cons (w := ['^']) .start (.cons (w := ['a']) (v := []) ha .nil))))) .nil
  have h3 : SpellsBranch (anchoredA false true) "(a$)".toList := .cons (w := "(a$)".toList) (v := []) (.single (.sub (w := "a$".toList)
    (.one (.cons (w := ['a']) ha (.cons (w := ['$']) (v := []) .end_ .nil))))) .nil
  have h4 : SpellsBranch (anchoredA false false) "(a)".toList := .cons (w := "(a)".toList) (v := []) (.single (.sub (w := ['a'])
    (.one (.cons (w := ['a']) (v := []) ha .nil)))) .nil
  exact parseStr_iff.mpr (.more (w := "(^a$)".toList) h1 (.more (w := "(^a)".toList) h2 (.more (w := "(a$)".toList) h3 (.one h4))))

theorem try_anchored (off : Nat) (rest : List Char) : (tryERE anchoredERE 1 ⟨off, rest, []⟩).head? =
    match rest with
    | [] => none
    | c :: r => if c = 'a' then
        let g := if off = 0 then (if r = [] then 1 else 2) else if r = [] then 3 else 4
        some ⟨off + 1, r, [⟨g, off, off + 1⟩]⟩
      else none := by
  have h1 : charLen 'a' = 1 := by decide
  cases rest with
  | nil =>
    by_cases h0 : off = 0 <;>
    simp [anchoredERE, anchoredA, tryERE, tryBranches, tryBranch, tryParts, tryPart, tryExpr, h0]
  | cons c r =>
    by_cases hc : c = 'a'
    · subst hc
      by_cases h0 : off = 0 <;> by_cases hr : r = [] <;>
        simp [anchoredERE, anchoredA, tryERE, tryBranches, tryBranch, tryParts, tryPart, tryExpr, h0, hr, h1, Atom.check] <;> rfl
    · by_cases h0 : off = 0 <;>
        simp [anchoredERE, anchoredA, tryERE, tryBranches, tryBranch, tryParts, tryPart, tryExpr, h0, Atom.check, Ne.symm hc, hc]

theorem firstFrom_anchored : ∀ (rest : List Char) (off : Nat), anchoredERE.firstFrom off rest =
    (fun (pre : List Char) => match rest.drop pre.length with
      | [] => none
      | _ :: post =>
        let i := off + byteLen pre
        some [⟨if i = 0 then (if post = [] then 1 else 2) else if post = [] then 3 else 4, i, i + 1⟩, ⟨0, i, i + 1⟩])
      (rest.takeWhile (· != 'a'))
  | [], off => by rw [ERE.firstFrom, try_anchored]; rfl
  | c :: r, off => by
    rw [ERE.firstFrom, try_anchored]
    by_cases hc : c = 'a'
    · subst hc
      simp [byteLen]
    · have ht : (c :: r).takeWhile (· != 'a') = c :: r.takeWhile (· != 'a') := List.takeWhile_cons_of_pos (by simpa using hc)
      simp only [if_neg hc, ht, List.length_cons, List.drop_succ_cons, byteLen_cons]
      rw [firstFrom_anchored r]
      simp only [Nat.add_assoc]

theorem first_anchored (text : List Char) : (anchoredERE.first text).map (answerOf 5) = firstA text := by
  rw [ERE.first, firstFrom_anchored, firstA]
  simp only [Nat.zero_add]
  generalize text.takeWhile (· != 'a') = pre
  cases text.drop pre.length with
  | nil => rfl
  | cons c post =>
    simp only [Option.map_some, answerOf, standing, show List.range 5 = [0, 1, 2, 3, 4] from rfl]
    have hb : byteLen pre = 0 ↔ pre.isEmpty = true := by rw [byteLen_eq_zero, List.isEmpty_iff]
    by_cases h1 : pre.isEmpty = true <;> by_cases h2 : post = [] <;> simp [hb, h1, h2, lastSpan]

theorem anchored_shape : anchoredERE.progress = true ∧ anchoredERE.groups = 4 := by decide +kernel

theorem anchored_lastUsed : LastUsed anchoredERE := by
  have h : anchoredERE.first "bab".toList = some [⟨4, 1, 2⟩, ⟨0, 1, 2⟩] := by decide +kernel
  exact ⟨_, _, h, by rw [anchored_shape.2]; decide⟩

theorem anchored_startSimple : anchoredERE.StartSimple := by
  refine .inr (.inr fun h => ?_)
  have := (first_isSome anchored_shape.1 []).mpr h
  revert this
  decide +kernel

/-- **C91 (partial: the DFA engine).** The pattern `(^a$)|(^a)|(a$)|(a)` of the tests: on every text, `exec` of the program of
`compile_regex_dfa_u8!` reports the first `a`, and as group the first branch that fits: the `a` is the text, at its beginning, at its
end, or inside. Missing: the flat engines, for which the order of branches with different anchors is not proved. -/
theorem C91_dfa_partial (U : Utf8Seqs) {G : DfaEngine} (h : compileDfaU8 U.seqs anchoredERE = .ok (some G)) (text : List Char) :
    G.tdfa.exec text (encode text) = .ok (firstA text) := by
  have hG := C29_dfa_exact_partial U anchored_shape.1 anchored_startSimple anchored_lastUsed h
  rw [anchored_shape.2] at hG
  rw [← first_anchored]
  rcases C46_dfa_partial U anchored_shape.1 anchored_startSimple h text with ⟨h1, h2⟩ | ⟨r, S, h1, h2, h3, h4⟩
  · rw [h1, h2]; rfl
  · rw [h1, h2, answerOf_eq (h3.trans hG) h4]; rfl

/-- non-vacuity: there is such a program (`anchored_program`), and the texts of the test. -/
example : ∃ G, compileDfaU8 utf8Crate.seqs anchoredERE = .ok (some G) := anchored_program

example : firstA "a".toList = some [some (0, 1), some (0, 1), none, none, none] ∧
    firstA "ax".toList = some [some (0, 1), none, some (0, 1), none, none] ∧
    firstA "xa".toList = some [some (1, 2), none, none, some (1, 2), none] ∧
    firstA "xax".toList = some [some (1, 2), none, none, none, some (1, 2)] ∧ firstA "x".toList = none := by decide +kernel

end Ere.Props
