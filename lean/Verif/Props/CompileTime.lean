import Verif.Proofs.FixedTime
import Verif.Props.Pick

/-!
# Properties: how long the macros run (C64)
-/

namespace Ere.Props
open Ere

/-! ## C64: the search for fixed offsets -/

/-- The search for fixed offsets of `^[0-9a-f]…[0-9a-f]$`, with the class written `n` times, takes at least `2^n`
iterations: it follows each of the two byte ranges of the class separately at every place. -/
theorem C64_exponential (U : Utf8Seqs) (n : Nat) : ∃ text e M, text.length = 8 * n + 2 ∧ parseStr text = .ok e ∧
    byteNFA U.seqs e = .ok M ∧ (∃ E, compileRegex U.seqs text = .ok (some E)) ∧ 2 ^ n ≤ M.fixedWork := by
  have hm : (manyHex n).MatchesIn (List.replicate n 'a') := by
    have := manyHex_matches (text := List.replicate n 'a') (fun c hc => by rw [(List.mem_replicate.mp hc).2]; decide)
    rwa [List.length_replicate] at this
  have hp := (C43_parser_grammar _ _).2 (spells_manyHex n)
  obtain ⟨N, M, h1, h2, h3⟩ := C16_exists U (manyHex n) ⟨_, hm⟩
  have hb : byteNFA U.seqs (manyHex n) = .ok M := by unfold byteNFA charNFA; rw [h1]; exact h2
  refine ⟨manyHexText n, manyHex n, M, manyHexText_length n, hp, hb, ?_, hex_work U (manyHex_framed n) (manyHex_anchored n)
    (manyHex_all n) (fun _ => matches_manyHex) h1 h2 h3⟩
  obtain ⟨E, hE⟩ := (C17_pick_returns_iff U _).mpr ⟨M, hb, h3⟩
  exact ⟨E, by unfold compileRegex; rw [hp]; simp only [hE]⟩

/-- The same for `^[0-9a-f]{n}$`, whatever `n` is. -/
theorem C64_repeated (U : Utf8Seqs) {n : Nat} {w : List Char} (hw : SpellsNum n w) : ∃ e M,
    parseStr ("^[0-9a-f]{".toList ++ w ++ "}$".toList) = .ok e ∧ byteNFA U.seqs e = .ok M ∧ 2 ^ n ≤ M.fixedWork := by
  have hp : SpellsERE (hexTimes n) ("^[0-9a-f]{".toList ++ w ++ "}$".toList) := by
    have h1 : SpellsExpr (.atom lowHex) "[0-9a-f]".toList :=
      .atom (.matching (w := ['0', '-', '9', 'a', '-', 'f', ']']) (by decide) (.plain (by decide)
        (.range (by decide) (by decide) (.range (by decide) (by decide) .close))))
    have h2 : SpellsPart (.quantified (.atom lowHex) ⟨.multiple n, false⟩) ("[0-9a-f]".toList ++ '{' :: (w ++ ['}'])) :=
      .quantified h1 (.greedy (.multiple hw))
    have h3 := SpellsERE.one (.cons (w := ['^']) .start (.cons h2 (.cons (w := ['$']) (v := []) .end_ .nil)))
    have e : "^[0-9a-f]{".toList ++ w ++ "}$".toList = ['^'] ++ (("[0-9a-f]".toList ++ '{' :: (w ++ ['}'])) ++ (['$'] ++ [])) := by
      simp
    rw [e]
    exact h3
  have hm := hexTimes_all n (List.replicate n true) (by simp)
  obtain ⟨N, M, h1, h2, h3⟩ := C16_exists U (hexTimes n) ⟨_, hm⟩
  exact ⟨hexTimes n, M, (C43_parser_grammar _ _).2 hp, by unfold byteNFA charNFA; rw [h1]; exact h2,
    hex_work U (hexTimes_framed n) (hexTimes_anchored n) (hexTimes_all n) (hexTimes_only n) h1 h2 h3⟩

/-- For the pattern `^[0-9a-f]{64}$` of a SHA-256 digest the macros run for at least `2^64` iterations. -/
theorem C64_digest (U : Utf8Seqs) : ∃ e M, parseStr "^[0-9a-f]{64}$".toList = .ok e ∧ byteNFA U.seqs e = .ok M ∧
    2 ^ 64 ≤ M.fixedWork :=
  C64_repeated U (w := ['6', '4']) (.digits (by simp) (by decide) (by decide) (by decide))

/-- **C64 fails.** The number of iterations that the macros spend on the search for fixed offsets is not bounded by any
polynomial in the length of the pattern. -/
theorem C64_negation (U : Utf8Seqs) : ¬ ∃ c k, ∀ text e M, parseStr text = .ok e → byteNFA U.seqs e = .ok M →
    M.fixedWork ≤ c * (text.length + 1) ^ k := by
  rintro ⟨c, k, h⟩
  obtain ⟨n, hn⟩ := poly_lt_exp (c * 3 ^ k) k
  obtain ⟨text, e, M, h1, h2, h3, _, h4⟩ := C64_exponential U n
  have h5 := h text e M h2 h3
  have h6 : (text.length + 1) ^ k ≤ (3 * (7 * n + 1)) ^ k := Nat.pow_le_pow_left (by omega) k
  rw [Nat.mul_pow] at h6
  have h7 := Nat.mul_le_mul_left c h6
  rw [← Nat.mul_assoc] at h7
  omega

/-- The search is not even begun if there are infinitely many ways of matching. -/
theorem fixedWork_unbounded (U : Utf8Seqs) {e : ERE} (hu : e.Unbounded) {M : NFA U8Atom} (h : byteNFA U.seqs e = .ok M)
    (hne : M ≠ []) : M.fixedWork = 0 := by
  unfold byteNFA charNFA at h
  split at h
  · simp at h
  · rename_i N h1
    obtain ⟨_, hM, _, _⟩ := pipeline_ne U e h1 h hne
    have hc := unbounded_cyclic U h1 h hne hu
    obtain ⟨r, k1, _, k2⟩ := topological_spec M hne
      (fun a b h => by obtain ⟨l, hl⟩ := edge_iff.1 h; exact hM.wf _ _ _ hl)
    unfold NFA.fixedWork
    rw [k1]
    cases r with
    | none => rfl
    | some ord =>
      exfalso
      obtain ⟨k3, k4, _⟩ := k2 ord rfl
      exact no_cycle_of_order k3 k4 hc

/-- **C64, partial.** If there are infinitely many ways of matching the pattern, no iterations are spent on the search; in
particular if the pattern has no `^` or no `$` but matches some text. (Missing: patterns that only match finitely many
texts, for which there is no polynomial bound.) -/
theorem C64_search_partial (U : Utf8Seqs) {e : ERE} {M : NFA U8Atom} (h : byteNFA U.seqs e = .ok M)
    (hm : ∃ text, e.MatchesIn text) (hu : e.Unbounded ∨ e.hasStart = false ∨ e.hasEnd = false) : M.fixedWork = 0 := by
  have hne : M ≠ [] := by
    obtain ⟨N, M', h1, h2, h3⟩ := C16_exists U e hm
    unfold byteNFA charNFA at h
    rw [h1] at h
    simp only [h2, Except.ok.injEq] at h
    rw [← h]
    exact h3
  refine fixedWork_unbounded U ?_ h hne
  rcases hu with hu | hu
  · exact hu
  · exact unbounded_of_open hu hm

/-- The number of iterations is at most exponential in the number of states of the automaton. -/
theorem C64_bound (M : NFA U8Atom) : M.fixedWork ≤ (M.maxDeg + 2) ^ M.length + 1 := by
  unfold NFA.fixedWork
  split
  · exact Nat.zero_le _
  · exact Nat.zero_le _
  · exact fixLoopC_le _ _ _ _

/-- non-vacuity: the search for `^[0-9a-f][0-9a-f]$` takes 17 iterations, and that for `^a*$` none. -/
example : (parseStr "^[0-9a-f][0-9a-f]$".toList).toOption.map (fun e => (byteNFA utf8Sequences e).toOption.map
    NFA.fixedWork) = some (some 17) := by decide +kernel
example : (parseStr "^a*$".toList).toOption.map (fun e => (byteNFA utf8Sequences e).toOption.map NFA.fixedWork) =
    some (some 0) := by decide +kernel
example : manyHexText 2 = "^[0-9a-f][0-9a-f]$".toList := by decide

end Ere.Props
