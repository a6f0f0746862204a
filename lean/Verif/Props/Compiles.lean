import Verif.Props.Pick
import Verif.Proofs.Framed

/-!
# Property theorems about which invocations of `compile_regex!` give a program, and one that compiles: C17, C62
-/

namespace Ere.Props
open Ere

/-! ## C17 -/

/-- **C17 for patterns with anchors only around the branches.** Let every branch begin with `^` (if `s`), end with `$`
(if `t`) and contain no other anchors. Then `compile_regex!` returns exactly if the pattern matches some text. -/
theorem C17_framed_returns_iff (U : Utf8Seqs) {s t : Bool} {p : List Char} {e : ERE} (hp : parseStr p = .ok e)
    (he : e.Framed s t) : (∃ E, compileRegex U.seqs p = .ok (some E)) ↔ ∃ text, e.MatchesIn text := by
  refine ⟨?_, C17_compile_returns_partial U hp⟩
  rintro ⟨E, h⟩
  unfold compileRegex at h
  rw [hp] at h
  simp only at h
  split at h
  · simp at h
  · rename_i E' hE
    obtain ⟨M, hb, hne⟩ := (C17_pick_returns_iff U e).mp ⟨E', hE⟩
    obtain ⟨N, h1, h2⟩ := byteNFA_ok hb
    exact framed_matches U h1 h2 hne he

/-! ## C62 -/

theorem pickEngine_onePass {U : Utf8Seqs} {e : ERE} {E : Engine} (h : pickEngine U.seqs e = .ok E) {P : OnePass}
    (hP : E.base = .onePass P) : compileOnePassU8 U.seqs e = .ok (some P) := by
  obtain ⟨b, hb, hbe⟩ := pickEngine_base h
  obtain ⟨h1, h2, h3⟩ := pickBase_ok hb
  rw [hP] at hbe
  rw [← hbe] at h3
  have hbn : byteNFA U.seqs e = .ok b.u8nfa := by unfold byteNFA charNFA; rw [h1]; exact h2
  unfold compileOnePassU8
  rw [hbn]
  unfold pickInner at h3
  split at h3
  · simp at h3
  · rename_i P' hP'
    have := BaseEngine.onePass.inj (Except.ok.inj h3)
    subst this
    exact hP'
  · split at h3
    · simp at h3
    · split at h3 <;> simp at h3
    · split at h3
      · split at h3 <;> simp at h3
      · split at h3 <;> simp at h3

/-- Only programs of the one-pass engine and of the flat engine over characters can fail to compile. -/
theorem compiles_iff (U : Utf8Seqs) {e : ERE} {E : Engine} (h : pickEngine U.seqs e = .ok E) (cr : List String) :
    E.compiles cr = true ↔ (∀ P, E.base = .onePass P → P.compiles = true) ∧
      ∀ F, E.base = .flatChar F → F.symbolsCompile cr = true := by
  obtain ⟨b, hb, hbe⟩ := pickEngine_base h
  obtain ⟨h1, h2, h3⟩ := pickBase_ok hb
  have hbn : byteNFA U.seqs e = .ok b.u8nfa := by unfold byteNFA charNFA; rw [h1]; exact h2
  have hf : E.compiles cr = E.base.compiles cr := by
    unfold pickEngine at h
    rw [hb] at h
    simp only at h
    split at h
    · simp at h
    · rename_i offs ho
      rw [← Except.ok.inj h]
      simp [Engine.compiles, (C23_fixed_exec U hbn ho).1]
    · rw [← Except.ok.inj h]
      simp [Engine.compiles]
  rw [hf, hbe]
  constructor
  · intro hc
    refine ⟨fun P hP => ?_, fun F hF => ?_⟩
    · rw [hP] at hc
      exact hc
    · rw [hF] at hc
      exact hc
  · rintro ⟨hP, hF⟩
    cases hE : b.engine with
    | onePass P => exact hP P hE
    | flatU8 F => rfl
    | flatChar F => exact hF F hE
    | dfa G =>
      cases G with
      | some G => rfl
      | none =>
        exfalso
        rw [hE] at h3
        have hne := pickInner_ne h3 ⟨_, rfl⟩
        unfold pickInner at h3
        split at h3
        · simp at h3
        · simp at h3
        · split at h3
          · simp at h3
          · rename_i T hT
            have hM := (pipeline_ne U e h1 h2 hne).2.1
            rcases fromNFA_spec hM.wf hM.ne (TDFA.defaultBound b.u8nfa.length) with ⟨g1, _⟩ | ⟨T', g1, _, g2⟩
            · rw [hT] at g1
              simp at g1
            · rw [hT] at g1
              have := Option.some.inj (Except.ok.inj g1)
              subst this
              obtain ⟨D, g3, _⟩ := fromTagged_spec g2
              simp only [serializeDfa, g3] at h3
              simp at h3
          · split at h3
            · split at h3 <;> simp at h3
            · split at h3 <;> simp at h3

/-- The flat engine over characters is chosen only if some symbol of the automaton is not ASCII. -/
theorem pickEngine_flatChar {U : Utf8Seqs} {e : ERE} {E : Engine} (h : pickEngine U.seqs e = .ok E) {F : Flat Atom}
    (hF : E.base = .flatChar F) : ∃ N, charNFA e = .ok N ∧ N.isAscii = false ∧ compileFlatChar e = .ok F := by
  obtain ⟨b, hb, hbe⟩ := pickEngine_base h
  obtain ⟨h1, h2, h3⟩ := pickBase_ok hb
  rw [hF] at hbe
  rw [← hbe] at h3
  have hc : charNFA e = .ok b.nfa := h1
  unfold pickInner at h3
  unfold compileFlatChar
  rw [hc]
  split at h3
  · simp at h3
  · simp at h3
  · split at h3
    · simp at h3
    · split at h3 <;> simp at h3
    · split at h3
      · split at h3 <;> simp at h3
      · rename_i ha
        split at h3
        · simp at h3
        · rename_i F' hF'
          have := BaseEngine.flatChar.inj (Except.ok.inj h3)
          subst this
          exact ⟨_, rfl, by simpa using ha, hF'⟩

/-- **C62, except for the one-pass engine.** If no atom of the pattern mentions `[:graph:]` or `[:xdigit:]` and the caller
depends on `ere`, the program emitted by `compile_regex!` compiles unless it is one of the one-pass engine that does not.
(For the two classes it is false, `C38_negation`.) -/
theorem C62_only_one_pass (U : Utf8Seqs) {e : ERE} (he : e.atomsAll plainAtom = true) {E : Engine}
    (h : pickEngine U.seqs e = .ok E) {cr : List String} (hcr : "ere" ∈ cr) :
    E.compiles cr = true ↔ ∀ P, E.base = .onePass P → P.compiles = true := by
  rw [compiles_iff U h]
  refine ⟨fun h => h.1, fun h' => ⟨h', fun F hF => ?_⟩⟩
  obtain ⟨N, _, _, hc⟩ := pickEngine_flatChar h hF
  exact C38_flat_char_compiles_partial he hc cr hcr

/-- **C62 (partial).** If no atom of the pattern mentions `[:graph:]` or `[:xdigit:]`, the caller depends on `ere`, and
the pattern matches some text and has no `^`, or does not match the empty text but texts of any length, then
`compile_regex!` returns a program and it compiles. Missing: the other patterns, for some of which it is false
(`C62_negation`). -/
theorem C62_emitted_compiles_partial (U : Utf8Seqs) {p : List Char} {e : ERE} (hp : parseStr p = .ok e)
    (he : e.atomsAll plainAtom = true) {cr : List String} (hcr : "ere" ∈ cr)
    (hm : (e.hasStart = false ∧ ∃ text, e.MatchesIn text) ∨ (¬ e.MatchesIn [] ∧ e.Unbounded)) :
    ∃ E, compileRegex U.seqs p = .ok (some E) ∧ E.compiles cr = true := by
  have hex : ∃ text, e.MatchesIn text := by
    rcases hm with h | h
    · exact h.2
    · obtain ⟨text, S, hS, _⟩ := h.2 0
      exact ⟨text, captures_matchesIn.mp ⟨S, hS⟩⟩
  obtain ⟨E, hE⟩ := C17_compile_returns_partial U hp hex
  refine ⟨E, hE, ?_⟩
  have hE' : pickEngine U.seqs e = .ok E := by
    unfold compileRegex at hE
    rw [hp] at hE
    simp only at hE
    split at hE
    · simp at hE
    · rename_i E' h'
      rw [h', Option.some.inj (Except.ok.inj hE)]
  refine (C62_only_one_pass U he hE' hcr).mpr fun P hP => ?_
  have hone := pickEngine_onePass hE' hP
  rcases hm with h | h
  · exact C39_no_start_compiles U h.1 h.2 hone
  · exact (C39_unbounded_compiles U h.2 hone).1 h.1

/-- What remains if only the one-pass engine can fail. -/
theorem framed_compiles_iff (U : Utf8Seqs) {s t : Bool} {e : ERE} (he : e.Framed s t) {E : Engine}
    (hE' : pickEngine U.seqs e = .ok E) {cr : List String}
    (honly : E.compiles cr = true ↔ ∀ P, E.base = .onePass P → P.compiles = true) :
    E.compiles cr = false ↔ (∃ P, E.base = .onePass P) ∧
      ((e.Unbounded ∧ s = true ∧ e.MatchesIn []) ∨ (¬ e.Unbounded ∧ ¬ e.OneReading)) := by
  rw [← Bool.not_eq_true, honly]
  constructor
  · intro hn
    rw [Classical.not_forall] at hn
    obtain ⟨P, hn⟩ := hn
    rw [Classical.not_imp] at hn
    obtain ⟨hP, hn⟩ := hn
    obtain ⟨k1, k2⟩ := C39_framed_compiles_iff U he (pickEngine_onePass hE' hP)
    refine ⟨⟨P, hP⟩, ?_⟩
    by_cases hu : e.Unbounded
    · rw [k1 hu, Classical.not_not] at hn
      exact .inl ⟨hu, hn⟩
    · rw [k2 hu] at hn
      exact .inr ⟨hu, hn⟩
  · rintro ⟨⟨P, hP⟩, hd⟩ hall
    obtain ⟨k1, k2⟩ := C39_framed_compiles_iff U he (pickEngine_onePass hE' hP)
    rcases hd with ⟨hu, hd⟩ | ⟨hu, hd⟩
    · exact (k1 hu).mp (hall P hP) hd
    · exact hd ((k2 hu).mp (hall P hP))

/-- The engine is the one chosen for the parsed pattern. -/
theorem compileRegex_pick {U : Utf8Seqs} {p : List Char} {e : ERE} (hp : parseStr p = .ok e) {E : Engine}
    (h : compileRegex U.seqs p = .ok (some E)) : pickEngine U.seqs e = .ok E := by
  unfold compileRegex at h
  rw [hp] at h
  simp only at h
  split at h
  · simp at h
  · rename_i E' h'
    rw [h', Option.some.inj (Except.ok.inj h)]

/-- **C62 for patterns with anchors only around the branches, exactly.** Let every branch begin with `^` (if `s`), end with
`$` (if `t`) and contain no other anchors. The program emitted by `compile_regex!` does not compile exactly if it is one of
the one-pass engine and either the pattern matches texts of any length (or goes through groups any number of times), begins
with `^` and matches the empty text, or the pattern does not match texts of any length and for some text what its groups
capture is not determined. -/
theorem C62_framed_compiles_iff (U : Utf8Seqs) {s t : Bool} {p : List Char} {e : ERE} (hp : parseStr p = .ok e)
    (he : e.Framed s t) (ha : e.atomsAll plainAtom = true) {E : Engine} (h : compileRegex U.seqs p = .ok (some E))
    {cr : List String} (hcr : "ere" ∈ cr) :
    E.compiles cr = false ↔ (∃ P, E.base = .onePass P) ∧
      ((e.Unbounded ∧ s = true ∧ e.MatchesIn []) ∨ (¬ e.Unbounded ∧ ¬ e.OneReading)) :=
  framed_compiles_iff U he (compileRegex_pick hp h) (C62_only_one_pass U ha (compileRegex_pick hp h) hcr)

/-- **C62 is false**: `compile_regex!` accepts `^`, `^[0-9]*$` and `^(|())$` and emits programs that do not compile. -/
theorem C62_negation : ∀ s ∈ ["^", "^[0-9]*$", "^(|())$"], ∃ E,
    compileRegex utf8Sequences s.toList = .ok (some E) ∧ E.compiles ["ere", "ere_core"] = false := by
  have key : ∀ s : String, (compileRegex utf8Sequences s.toList).map (·.map (·.compiles ["ere", "ere_core"])) = .ok (some false) →
      ∃ E, compileRegex utf8Sequences s.toList = .ok (some E) ∧ E.compiles ["ere", "ere_core"] = false := by
    intro s h
    cases hs : compileRegex utf8Sequences s.toList with
    | error x => rw [hs] at h; simp [Except.map] at h
    | ok o =>
      cases o with
      | none => rw [hs] at h; simp [Except.map] at h
      | some E => rw [hs] at h; simp [Except.map] at h; exact ⟨E, rfl, h⟩
  intro s hs
  simp only [List.mem_cons, List.not_mem_nil, or_false] at hs
  rcases hs with rfl | rfl | rfl
  · exact key _ (by decide +kernel)
  · exact key _ (by decide +kernel)
  · exact key _ (by decide +kernel)

/-! non-vacuity: `ab*c` has no `^` and matches `ac`; its program compiles. `^a*b$` does not match the empty text but texts
of any length, and is of the form required by `C62_framed_compiles_iff` and `C17_framed_returns_iff`; its program is one of
the one-pass engine and compiles. -/

/-- The pattern `ab*c`. -/
def patOpen : ERE := .mk [.mk [.single (.atom (.normal 'a')), .quantified (.atom (.normal 'b')) ⟨.star, false⟩,
  .single (.atom (.normal 'c'))]]

example : parseStr "ab*c".toList = .ok patOpen ∧ patOpen.atomsAll plainAtom = true ∧ patOpen.hasStart = false ∧
    ∃ text, patOpen.MatchesIn text := by
  refine ⟨(C43_parser_grammar _ _).2 ?_, by decide, by decide, ['a', 'c'], [], ['a', 'c'], [], rfl, ?_⟩
  · exact .one (.cons (w := ['a']) (.single (.atom (.plain (by decide))))
      (.cons (w := ['b', '*']) (.quantified (w := ['b']) (.atom (.plain (by decide))) (.greedy .star))
        (.cons (w := ['c']) (v := []) (.single (.atom (.plain (by decide)))) .nil)))
  · exact .intro (List.mem_singleton.mpr rfl) (.cons (m1 := ['a']) (m2 := ['c']) (.single (.atom (by decide)))
      (.cons (m1 := []) (m2 := ['c']) (.quantified (n := 0) (by decide) (by simp [QType.max]) .zero)
        (.cons (m1 := ['c']) (m2 := []) (.single (.atom (by decide))) .nil)))

/-- The pattern `^a*b$`. -/
def patLong : ERE := .mk [.mk [.start, .quantified (.atom (.normal 'a')) ⟨.star, false⟩, .single (.atom (.normal 'b')), .end_]]

theorem patLong_spells : parseStr "^a*b$".toList = .ok patLong := by
  refine (C43_parser_grammar _ _).2 (.one (.cons (w := ['^']) .start (.cons (w := ['a', '*']) ?_
    (.cons (w := ['b']) (.single (.atom (.plain (by decide)))) (.cons (w := ['$']) (v := []) .end_ .nil)))))
  exact .quantified (w := ['a']) (.atom (.plain (by decide))) (.greedy .star)

theorem patLong_matches (n : Nat) : patLong.MatchesIn (List.replicate n 'a' ++ ['b']) := by
  have h : MatchesBranch (.mk [.start, .quantified (.atom (.normal 'a')) ⟨.star, false⟩, .single (.atom (.normal 'b')), .end_]) []
      ([] ++ (List.replicate n 'a' ++ (['b'] ++ ([] ++ [])))) [] :=
    .cons .start (.cons (.quantified (n := n) (by simp [QType.min]) (by simp [QType.max]) (aTimes n _ _))
      (.cons (.single (.atom (by decide))) (.cons .end_ .nil)))
  exact ⟨[], _, [], by simp, .intro (List.mem_singleton.mpr rfl) h⟩

example : patLong.Framed true true ∧ patLong.atomsAll plainAtom = true ∧ ¬ patLong.MatchesIn [] ∧ patLong.Unbounded := by
  refine ⟨⟨_, rfl, fun b hb => ⟨[.quantified (.atom (.normal 'a')) ⟨.star, false⟩, .single (.atom (.normal 'b'))], ?_, rfl, rfl⟩⟩,
    by decide, fun h => ?_, fun n => ?_⟩
  · exact List.mem_singleton.mp hb
  · obtain ⟨F, h1⟩ := (C17_flat_returns utf8Crate patLong ⟨_, patLong_matches 0⟩).2
    have h2 := C19_flat_u8_test utf8Crate h1 []
    have hF : (compileFlatU8 utf8Sequences patLong).map (fun F => F.test (encode [])) = .ok false := by decide +kernel
    have e1 : compileFlatU8 utf8Sequences patLong = .ok F := h1
    rw [e1] at hF
    simp only [Except.map, Except.ok.injEq] at hF
    rw [hF] at h2
    exact absurd (h2.mpr h) (by simp)
  · obtain ⟨S, h⟩ := captures_matchesIn.mpr (patLong_matches n)
    exact ⟨_, S, h, by simp; omega⟩

example : (compileRegex utf8Sequences "^a*b$".toList).map (·.map fun E =>
    (match E.base with | .onePass _ => true | _ => false, E.compiles ["ere"])) = .ok (some (true, true)) := by decide +kernel
example : (compileRegex utf8Sequences "ab*c".toList).map (·.map fun E => E.compiles ["ere"]) = .ok (some true) := by
  decide +kernel

end Ere.Props
