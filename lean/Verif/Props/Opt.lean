import Verif.Proofs.Search

/-!
# Property theorems about automaton optimisation and the direct simulation: C13, C14, C15, C37
-/

namespace Ere.Props
open Ere

section passes
variable {σ α : Type} [Sym σ α]

/-- **C13, anchors.** Dropping unusable `^` and `$` epsilons keeps every accepting run (start and end
configuration, with all capture events). Generic: character and byte automata. -/
theorem C13_clean_anchors (N : NFA σ) (hN : N.WF) (d d' : Cfg α) :
    (N.cleanStartAnchors.Acc d d' ↔ N.Acc d d') ∧ (N.cleanEndAnchors.Acc d d' ↔ N.Acc d d') :=
  ⟨cleanStartAnchors_equiv hN d d', cleanEndAnchors_equiv d d'⟩

/-- **C13, zero-width states.** Clearing the symbol transitions of states that only occur after `$` or
before `^` keeps every accepting run. -/
theorem C13_clear_zero_symbol (N : NFA σ) (hN : N.WF) (d d' : Cfg α) :
    N.clearZeroSymbol.Acc d d' ↔ N.Acc d d' := clearZeroSymbol_equiv hN d d'

/-- **C13, one optimisation pass** (merging, de-duplication, epsilon skipping, dead states): it does
not panic, keeps every accepting run, and leaves no dangling edge. `Ranked`: no cycle of plain
epsilons, true for every automaton made from a pattern (`C13_ranked`). -/
theorem C13_optimize_pass (N : NFA σ) (hne : N ≠ []) (hN : N.WF) (hr : N.Ranked) :
    ∃ M ch, N.optimizePass = .ok (M, ch) ∧ M.WF ∧ M ≠ [] ∧ M.Ranked ∧
      ∀ d d' : Cfg α, M.Acc d d' ↔ N.Acc d d' := by
  obtain ⟨M, ch, h1, h2, _⟩ := optimizePass_spec (α := α) hne hN hr
  exact ⟨M, ch, h1, h2.wf, h2.ne, h2.rank, h2.acc⟩

/-- **C13, unreachable states.** -/
theorem C13_remove_unreachable (N : NFA σ) (h : Shape N) (d d' : Cfg α) :
    N.removeUnreachable.Acc d d' ↔ N.Acc d d' := (removeUnreachable_spec h).1 d d'

end passes

/-- Automata built from patterns have no cycle of plain epsilons (hypothesis of
`C13_optimize_pass`), neither before nor after adding the loops. -/
theorem C13_ranked (e : ERE) (sl el : Bool) :
    (build (Tree.fromERE e).1).Ranked ∧
    ((build (Tree.fromERE e).1).withLoops anyAtom sl el).Ranked :=
  have h := build_shape _ (starOk_fromERE e)
  ⟨h.rank, (withLoops_shape h anyAtom sl el).rank⟩

/-- **C13, the whole of it.** For every pattern the optimised automaton exists and has exactly the
accepting runs (text, offsets, capture events) of the automaton built without any optimisation. -/
theorem C13_optimisation_exact (e : ERE) (sl el : Bool) :
    ∃ M, newLoopOpt (Tree.fromERE e).1 sl el = .ok M ∧ ∀ d d' : Cfg Char,
      M.Acc d d' ↔ ((build (Tree.fromERE e).1).withLoops anyAtom sl el).Acc d d' := by
  obtain ⟨M, h1, _, _, _, _, _, h2⟩ := newLoopOpt_spec _ (starOk_fromERE e) sl el
  refine ⟨M, h1, fun d d' => ?_⟩
  rw [h2, withLoops_acc (build_shape _ (starOk_fromERE e)) anyAtom_check]
  simp only [build_acc]

/-- **C13, seen from the pattern.** The compiled automaton runs over a whole text with a list of
capture events exactly when the tree matches some stretch of it with those events. -/
theorem C13_compiled_captures (e : ERE) : ∃ M, workingNew (Tree.fromERE e).1 = .ok M ∧
    ∀ text caps, M.Acc ⟨0, text, []⟩ ⟨byteLen text, [], caps⟩ ↔
      ∃ pre mid post, text = pre ++ mid ++ post ∧ (Tree.fromERE e).1.Run
        ⟨byteLen pre, mid ++ post, []⟩ ⟨byteLen (pre ++ mid), post, caps⟩ := by
  obtain ⟨M, h1, _, _, _, _, _, h2⟩ := workingNew_spec _ (starOk_fromERE e)
  exact ⟨M, h1, h2⟩

/-- `(a|ba*)` as a parsed pattern. -/
def sampleERE : ERE := .mk [.mk [.single (.sub (.mk [.mk [.single (.atom (.normal 'a'))],
  .mk [.single (.atom (.normal 'b')), .quantified (.atom (.normal 'a')) ⟨.star, false⟩]]))]]

/-- non-vacuity of the pass theorems: on the automaton of `(a|ba*)` a pass does change something (it
removes states), so that equality of runs is not trivial. -/
example : (build (Tree.fromERE sampleERE).1).length = 22 ∧
    ((build (Tree.fromERE sampleERE).1).optimizePass.toOption.map (fun p => p.1.length)) = some 10 := by
  decide +kernel

/-- **C14.** The optimisation loop ends after at most `size + 1` passes (states plus epsilons), for
every automaton without dangling edges and plain epsilon cycles; allowing more passes does not
change the result. -/
theorem C14_optimize_terminates {σ α : Type} [Sym σ α] (N : NFA σ) (hne : N ≠ []) (hN : N.WF)
    (hr : N.Ranked) : ∃ M, ∀ k, N.size < k → optimizeLoop k N = .ok M := by
  obtain ⟨M, h1, _⟩ := optimizeLoop_spec (α := α) (N.size + 1) N hne hN hr (by omega)
  refine ⟨M, fun k hk => ?_⟩
  have mono : ∀ (k : Nat) (N M : NFA σ), optimizeLoop k N = .ok M → ∀ j, optimizeLoop (k + j) N = .ok M := by
    intro k
    induction k with
    | zero => intro N M h; simp [optimizeLoop] at h
    | succ k ih =>
      intro N M h j
      rw [show k + 1 + j = (k + j) + 1 by omega]
      unfold optimizeLoop at h ⊢
      split at h
      · simp at h
      · exact ih _ _ h j
      · exact h
  obtain ⟨j, rfl⟩ : ∃ j, k = N.size + 1 + j := ⟨k - (N.size + 1), by omega⟩
  exact mono _ _ _ h1 j

/-- C14 for patterns: neither compilation of the character automaton runs out of passes or panics. -/
theorem C14_patterns (e : ERE) (sl el : Bool) : ∃ M, newLoopOpt (Tree.fromERE e).1 sl el = .ok M := by
  obtain ⟨M, h, _⟩ := C13_optimisation_exact e sl el; exact ⟨M, h⟩

/-- **C15.** If the pattern can match at all, the compiled automaton exists, is not empty, and its
`test` returns (without panicking) true exactly when some stretch of the text matches. -/
theorem C15_test_eq_search (e : ERE) (hm : ∃ text, e.MatchesIn text) :
    ∃ M, workingNew (Tree.fromERE e).1 = .ok M ∧ M ≠ [] ∧
      ∀ text, ∃ b, M.test text = .ok b ∧ (b = true ↔ e.MatchesIn text) := by
  obtain ⟨M, h1, h2, _, _, _, _, h3⟩ := workingNew_spec _ (starOk_fromERE e)
  have hne : M ≠ [] := by
    obtain ⟨text, h⟩ := hm
    obtain ⟨caps, hh⟩ := (exists_run_iff e text).mpr h
    exact ((h3 text caps).mpr hh).1
  refine ⟨M, h1, hne, fun text => ?_⟩
  obtain ⟨b, h4, h5⟩ := test_spec h2 hne text
  refine ⟨b, h4, ?_⟩
  rw [h5, ← exists_run_iff]
  simp only [unitLen_char, h3]

/-- C15 without the assumption that the pattern can match: the automaton always exists, and unless
it has lost all its states `test` is right; if it has lost them, no text matches. -/
theorem C15_test_or_empty (e : ERE) :
    ∃ M, workingNew (Tree.fromERE e).1 = .ok M ∧
      ((M = [] ∧ ∀ text, ¬ e.MatchesIn text) ∨
       ∀ text, ∃ b, M.test text = .ok b ∧ (b = true ↔ e.MatchesIn text)) := by
  obtain ⟨M, h1, h2, _, _, _, _, h3⟩ := workingNew_spec _ (starOk_fromERE e)
  refine ⟨M, h1, ?_⟩
  by_cases hne : M = []
  · left
    refine ⟨hne, fun text h => ?_⟩
    obtain ⟨caps, hh⟩ := (exists_run_iff e text).mpr h
    exact ((h3 text caps).mpr hh).1 hne
  · right
    intro text
    obtain ⟨b, h4, h5⟩ := test_spec h2 hne text
    refine ⟨b, h4, ?_⟩
    rw [h5, ← exists_run_iff]
    simp only [unitLen_char, h3]

/-- C15: why the assumption is there. For `a{2,1}` the automaton has no states and `test` panics on
every text (it should be false). -/
theorem C15_test_panics_on_unmatchable :
    ∃ e : ERE, workingNew (Tree.fromERE e).1 = .ok [] ∧ ∀ text, NFA.test (σ := Atom) [] text = .error .panic :=
  ⟨.mk [.mk [.quantified (.atom (.normal 'a')) ⟨.range 2 (some 1), false⟩]],
    by decide +kernel, fun _ => rfl⟩

/-- non-vacuity: `(a|ba*)` can match. -/
example : ∃ text, sampleERE.MatchesIn text :=
  ⟨['x', 'a'], ['x'], ['a'], [], rfl, .intro (.head _) (.cons (m1 := ['a']) (.single (.sub
    (.intro (.head _) (.cons (m1 := ['a']) (.single (.atom (by decide))) .nil)))) .nil)⟩

/-- non-vacuity: both answers occur. -/
example : ((workingNew (Tree.fromERE sampleERE).1).bind (·.test ['x', 'b'])) = .ok true ∧
    ((workingNew (Tree.fromERE sampleERE).1).bind (·.test ['x', 'é'])) = .ok false := by
  decide +kernel

/-- **C37.** Two patterns that differ only in lazy markers have the same `test` result on every text:
if both compile to usable automata, the answers agree, and otherwise neither can match. -/
theorem C37_lazy_irrelevant (e e' : ERE) (h : e.greedy = e'.greedy) (text : List Char) :
    (e.MatchesIn text ↔ e'.MatchesIn text) ∧
    ∀ M M' b b', workingNew (Tree.fromERE e).1 = .ok M → workingNew (Tree.fromERE e').1 = .ok M' →
      M.test text = .ok b → M'.test text = .ok b' → b = b' := by
  have key : e.MatchesIn text ↔ e'.MatchesIn text := by
    have h1 : ∀ e : ERE, e.MatchesIn text ↔ e.greedy.MatchesIn text := by
      intro e; unfold ERE.MatchesIn; simp only [greedy_ere]
    rw [h1 e, h1 e', h]
  refine ⟨key, fun M M' b b' h1 h2 h3 h4 => ?_⟩
  have solve : ∀ (e : ERE) (M : NFA Atom) (b : Bool), workingNew (Tree.fromERE e).1 = .ok M →
      M.test text = .ok b → (b = true ↔ e.MatchesIn text) := by
    intro e M b h1 h3
    obtain ⟨M2, h5, h6⟩ := C15_test_or_empty e
    rw [h1] at h5; cases h5
    rcases h6 with ⟨rfl, _⟩ | h6
    · simp [NFA.test] at h3
    · obtain ⟨b2, h7, h8⟩ := h6 text
      rw [h3] at h7; cases h7
      exact h8
  have a1 := solve e M b h1 h3
  have a2 := solve e' M' b' h2 h4
  rw [Bool.eq_iff_iff, a1, a2, key]

/-- non-vacuity: `a*?` and `a*` are different patterns that agree up to the marker. -/
example : (ERE.mk [.mk [.quantified (.atom (.normal 'a')) ⟨.star, true⟩]]).greedy =
    (ERE.mk [.mk [.quantified (.atom (.normal 'a')) ⟨.star, false⟩]]).greedy := by
  simp [ERE.greedy, greedyBranches, EREBranch.greedy, greedyParts, EREPart.greedy, EREExpr.greedy]

end Ere.Props
