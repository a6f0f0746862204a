import Verif.Proofs.Thompson
import Verif.Proofs.Bytes

/-!
# Property theorems about trees and the automaton construction: C08, C09, C10, C11, C12
-/

namespace Ere.Props
open Ere

/-- **C08.** A quantified tree matches a stretch exactly when the stretch is a concatenation of an
allowed number of matches of the body: at least `min` and, if there is a `max`, at most `max`
(`min`/`max` of `*`, `+`, `?`, `{n}`, `{n,}`, `{n,m}` are spelled out in the corollary below).
All bounds, all texts, all positions. -/
theorem C08_quantifier_counts (t : Tree) (q : Quantifier) (pre mid post : List Char) :
    (t.applyQuantifier q).MatchesText pre mid post ↔
      ∃ n, q.q.min ≤ n ∧ (∀ m, q.q.max = some m → n ≤ m) ∧ t.MatchesTimes n pre mid post :=
  t.mt_applyQuantifier q pre mid post

/-- C08 spelled out for each quantifier. -/
theorem C08_quantifier_table (t : Tree) (alt : Bool) (n m : Nat) (pre mid post : List Char) :
    ((t.applyQuantifier ⟨.star, alt⟩).MatchesText pre mid post ↔ ∃ k, t.MatchesTimes k pre mid post) ∧
    ((t.applyQuantifier ⟨.plus, alt⟩).MatchesText pre mid post ↔
      ∃ k, 1 ≤ k ∧ t.MatchesTimes k pre mid post) ∧
    ((t.applyQuantifier ⟨.question, alt⟩).MatchesText pre mid post ↔
      mid = [] ∨ t.MatchesText pre mid post) ∧
    ((t.applyQuantifier ⟨.multiple n, alt⟩).MatchesText pre mid post ↔ t.MatchesTimes n pre mid post) ∧
    ((t.applyQuantifier ⟨.range n none, alt⟩).MatchesText pre mid post ↔
      ∃ k, n ≤ k ∧ t.MatchesTimes k pre mid post) ∧
    ((t.applyQuantifier ⟨.range n (some m), alt⟩).MatchesText pre mid post ↔
      ∃ k, n ≤ k ∧ k ≤ m ∧ t.MatchesTimes k pre mid post) := by
  simp only [C08_quantifier_counts, QType.min, QType.max]
  refine ⟨by simp, by simp, ?_, ?_, by simp, by simp⟩
  · constructor
    · rintro ⟨k, -, h, h1⟩
      have := h 1 rfl
      rcases (by omega : k = 0 ∨ k = 1) with rfl | rfl
      · exact Or.inl (Tree.times_zero.mp h1)
      · exact Or.inr (Tree.times_one.mp h1)
    · rintro (h | h)
      · exact ⟨0, by omega, by simp, Tree.times_zero.mpr h⟩
      · exact ⟨1, by omega, by simp, Tree.times_one.mpr h⟩
  · constructor
    · rintro ⟨k, h1, h2, h3⟩
      have := h2 n rfl
      have : k = n := by omega
      subst this; exact h3
    · intro h; exact ⟨n, by omega, by simp, h⟩

/-- non-vacuity: `a{2,3}` matches `aaa` in `xaaay`. -/
example : ((Tree.symbol (.normal 'a')).applyQuantifier ⟨.range 2 (some 3), false⟩).MatchesText
    ['x'] ['a', 'a', 'a'] ['y'] :=
  (C08_quantifier_counts _ _ _ _ _).mpr ⟨3, by decide, by simp [QType.max], by
    have h : ∀ pre post, (Tree.symbol (.normal 'a')).MatchesText pre ['a'] post :=
      fun pre post => (Tree.mt_symbol _ _ _ _).mpr ⟨'a', rfl, by decide⟩
    exact .succ (m1 := ['a']) (h _ _) (.succ (m1 := ['a']) (h _ _) (.succ (m1 := ['a']) (h _ _) .zero))⟩

/-- **C09.** The tree built from a parsed pattern matches a stretch of text exactly when the pattern
does (`MatchesERE`, a specification over the pattern's syntax only). -/
theorem C09_tree_eq_pattern (e : ERE) (pre mid post : List Char) :
    (Tree.fromERE e).1.MatchesText pre mid post ↔ MatchesERE e pre mid post :=
  Tree.mt_fromERE e pre mid post

/-- non-vacuity: `(a|b)$` matches `b` in `ab`, on the pattern side and hence on the tree side. -/
example : (Tree.fromERE (.mk [.mk [.single (.sub (.mk [.mk [.single (.atom (.normal 'a'))],
    .mk [.single (.atom (.normal 'b'))]])), .end_]])).1.MatchesText ['a'] ['b'] [] :=
  (C09_tree_eq_pattern _ _ _ _).mpr (.intro (.head _) (.cons (m1 := ['b'])
    (.single (.sub (.intro (b := .mk [.single (.atom (.normal 'b'))]) (.tail _ (.head _))
      (.cons (m1 := ['b']) (.single (.atom (by decide))) .nil)))) (.cons (m1 := []) .end_ .nil)))

/-- **C10.** If the reported maximum length is a number `m`, no match is longer than `m` bytes.
Every tree, also with reversed character ranges. -/
theorem C10_max_bytes (t : Tree) (m : Nat) (h : t.maxBytes = some m) (pre mid post : List Char)
    (hm : t.MatchesText pre mid post) : byteLen mid ≤ m := by
  obtain ⟨c, c', hr⟩ := hm
  have := Tree.run_maxBytes hr h
  rw [byteLen_append] at this
  simp only at this; omega

/-- C10 for a single character: `Atom::max_bytes` bounds the encoded length of every accepted
character. -/
theorem C10_atom_max_bytes (a : Atom) (c : Char) (h : a.check c = true) : charLen c ≤ a.maxBytes := by
  obtain ⟨r, h1, h2⟩ := Atom.le_last_hi h
  unfold Atom.maxBytes
  rw [h1]; exact charLen_mono h2

/-- non-vacuity: the bound of `(é|ab){2}` is 4, and it is reached. -/
example : (Tree.rep (.union [.symbol (.normal 'é'), .concat [.symbol (.normal 'a'),
    .symbol (.normal 'b')]]) 1).maxBytes = some 4 ∧ byteLen ['é', 'a', 'b'] = 4 := by decide

/-- **C11 (false as stated).** The reported minimum length of `a?` is 1 although it matches the empty
string: `min_bytes` multiplies the minimum of the body by the *maximal* number of repetitions of an
`UpTo` node. -/
theorem C11_min_bytes_false :
    ¬ ∀ (t : Tree) (pre mid post : List Char), t.MatchesText pre mid post → t.minBytes ≤ byteLen mid := by
  intro h
  have := h (.upTo (.symbol (.normal 'a')) 0 true) [] [] [] ⟨[], [], .upToNone⟩
  revert this; decide

/-- C11 for patterns as written: `a?` and `a{0,3}` report minimum lengths 1 and 3. -/
theorem C11_min_bytes_false_pattern :
    ¬ ∀ (e : ERE) (pre mid post : List Char), MatchesERE e pre mid post →
      (Tree.fromERE e).1.minBytes ≤ byteLen mid := by
  intro h
  have := h (.mk [.mk [.quantified (.atom (.normal 'a')) ⟨.range 0 (some 3), false⟩]]) [] [] []
    (.intro (.head _) (.cons (m1 := []) (.quantified (n := 0) (by decide) (by simp) .zero) .nil))
  revert this; decide

/-- C11, partial. Missing: trees with an `UpTo` node (from `x?` or `x{n,m}`) over a body whose own
bound is positive; for those the bound is wrong (`C11_min_bytes_false`). -/
theorem C11_min_bytes_partial (t : Tree) (hf : t.UpToFree) (pre mid post : List Char)
    (hm : t.MatchesText pre mid post) : t.minBytes ≤ byteLen mid := by
  obtain ⟨c, c', hr⟩ := hm
  have := Tree.run_minBytes hr hf
  rw [byteLen_append] at this
  simp only at this; omega

/-- C11 for a single character, full strength. -/
theorem C11_atom_min_bytes (a : Atom) (c : Char) (h : a.check c = true) : a.minBytes ≤ charLen c := by
  obtain ⟨r, h1, h2⟩ := Atom.first_lo_le h
  unfold Atom.minBytes
  rw [h1]; exact charLen_mono h2

/-- non-vacuity: `(a|é)+(b*)?` satisfies the hypothesis of the partial theorem and has bound 1. -/
example : (Tree.concat [.concat [.union [.symbol (.normal 'a'), .symbol (.normal 'é')],
      .star (.union [.symbol (.normal 'a'), .symbol (.normal 'é')]) true],
      .upTo (.star (.symbol (.normal 'b')) true) 0 true]).UpToFree ∧
    (Tree.concat [.concat [.union [.symbol (.normal 'a'), .symbol (.normal 'é')],
      .star (.union [.symbol (.normal 'a'), .symbol (.normal 'é')]) true],
      .upTo (.star (.symbol (.normal 'b')) true) 0 true]).minBytes = 1 := by
  refine ⟨?_, by decide⟩
  simp [Tree.UpToFree, Tree.UpToFreeList, Tree.minBytes]

/-- **C12.** The automaton built from a tree has an accepting run from one configuration (offset,
remaining text, captures) to another exactly when the tree has a run between them. -/
theorem C12_build_correct (t : Tree) (d d' : Cfg Char) : (build t).Acc d d' ↔ t.Run d d' :=
  build_acc t d d'

/-- C12, well-formedness: no automaton built has a dangling edge or no states. -/
theorem C12_build_wf (t : Tree) : (build t).WF ∧ build t ≠ [] := ⟨(build_good t).wf, (build_good t).ne⟩

/-- non-vacuity: `(a*)` run over `aa` records the capture (0, 2). -/
example : (build (.capture (.star (.symbol (.normal 'a')) true) 0)).Acc
    ⟨0, ['a', 'a'], []⟩ ⟨2, [], [.opened 0 0, .closed 0 2]⟩ :=
  (C12_build_correct _ _ _).mpr
    (.capture (d := ⟨0, ['a', 'a'], []⟩) (d' := ⟨2, [], [.opened 0 0]⟩)
      (.starCons (d1 := ⟨1, ['a'], [.opened 0 0]⟩) (.symbol (by decide))
        (.starCons (d1 := ⟨2, [], [.opened 0 0]⟩) (.symbol (by decide)) .starNil)))

end Ere.Props
