import Verif.Proofs.Laws
import Verif.Props.Pick

/-!
# Property theorems about the surroundings of a match and about rewriting patterns: C53, C54; C20, C22 and C41 for
patterns without `$`
-/

namespace Ere.Props
open Ere

/-! ## Patterns without `$` -/

/-- The patterns for which every engine is right about whether there is a match: excepted are those that match the empty
text, have a `$`, and have a `^` that is not crossed first. -/
def TestSimple (e : ERE) : Prop := e.hasEnd = false ∨ e.StartSimple

/-- The engine is not a DFA without fixed offsets, or the pattern is `TestSimple`. -/
def TestOk (e : ERE) (E : Engine) : Prop :=
  E.fixed = none → (∃ G, E.base = .dfa G) → TestSimple e

/-- C20 and C22 for the DFA engine: if the pattern has no `$`, or is `StartSimple`, then `test` and `exec` find
something exactly if the pattern matches. (Stronger than `C20_dfa_test_partial`. Missing: patterns that match the empty
text, have a `$`, and have a `^` that is not crossed first; false there, `C20_dfa_test_negation`, `C22_negation`. What
`exec` reports can be wrong also without `$`: `C23_no_end_negation`.) -/
theorem C20_dfa_no_end_partial (U : Utf8Seqs) {e : ERE} (hs : TestSimple e) {G : DfaEngine}
    (h : compileDfaU8 U.seqs e = .ok (some G)) (text : List Char) :
    (G.dfa.test (encode text) = true ↔ e.MatchesIn text) ∧
      ((∃ r, G.tdfa.exec text (encode text) = .ok (some r)) ↔ e.MatchesIn text) := by
  have key : e.StartSimple ∨ e.MatchesIn text := by
    rcases hs with hs | hs
    · by_cases hm : e.MatchesIn []
      · exact Or.inr (matchesIn_after hs hm text)
      · exact Or.inl (Or.inr (Or.inr hm))
    · exact Or.inl hs
  rcases key with hs | hm
  · exact ⟨C20_dfa_test_partial U hs h text, C22_exec_some_iff (C23_dfa_exec_partial U hs h text)⟩
  · obtain ⟨h1, h2⟩ := C20_dfa_complete_partial U h hm
    exact ⟨⟨fun _ => hm, fun _ => h1⟩, fun _ => hm, fun _ => h2⟩

/-- C41 and C22 for `compile_regex!`: if the emitted program compiles, then `test` and `exec` find something exactly if
the pattern matches. (Missing: as in `C20_dfa_no_end_partial`.) -/
theorem C41_test_partial (U : Utf8Seqs) {e : ERE} {E : Engine} (h : pickEngine U.seqs e = .ok E)
    {cr : List String} (hc : E.compiles cr = true) (hs : TestOk e E) (text : List Char) :
    (∃ b, E.test text = .ok b ∧ (b = true ↔ e.MatchesIn text)) ∧
      ((∃ r, E.exec text = .ok (some r)) ↔ e.MatchesIn text) := by
  rcases pickEngine_cases U h hc with ⟨G, hf, hG, hd⟩ | hX
  · obtain ⟨h1, h2⟩ := C20_dfa_no_end_partial U (hs hf ⟨_, hG⟩) hd text
    unfold Engine.test Engine.exec
    rw [hf, hG]
    exact ⟨⟨_, rfl, h1⟩, h2⟩
  · exact ⟨hX.test text, C22_exec_some_iff (hX.exec text)⟩

/-- `x*(^|b)`. -/
def patLateNoEnd : ERE := .mk [.mk [.quantified (.atom (.normal 'x')) ⟨.star, false⟩,
  .single (.sub (.mk [.mk [.start], .mk [.single (.atom (.normal 'b'))]]))]]

theorem patLateNoEnd_spec : ¬ MatchesERE patLateNoEnd [] ['x', 'x'] [] := by
  intro h
  obtain ⟨b, hb, h⟩ := matchesERE_iff.mp h
  rw [List.mem_singleton] at hb
  subst hb
  obtain ⟨m1, m2, hm, _, h2⟩ := matchesParts_cons.mp h
  rw [matchesParts_single, matchesPart_single, matchesExpr_sub, matchesERE_iff] at h2
  obtain ⟨b, hb, h2⟩ := h2
  simp only [List.mem_cons, List.not_mem_nil, or_false] at hb
  rcases hb with rfl | rfl
  · replace h2 := matchesParts_single.mp h2
    generalize hp : [] ++ m1 = p at h2
    cases h2
    simp at hp
    subst hp
    simp at hm
  · replace h2 := matchesParts_single.mp h2
    rw [matchesPart_single] at h2
    cases h2 with
    | @atom _ c _ _ hc =>
      have hl := congrArg List.getLast? hm
      simp at hl
      subst hl
      simp [Atom.check] at hc

/-- C23 is false for the DFA engine also for patterns without `$`: on `xx` the pattern `x*(^|b)` matches only the
empty text at the beginning, and `exec` reports all of `xx`. -/
theorem C23_no_end_negation :
    ∃ G, compileDfaU8 utf8Sequences patLateNoEnd = .ok (some G) ∧ patLateNoEnd.hasEnd = false ∧
      G.tdfa.exec ['x', 'x'] (encode ['x', 'x']) = .ok (some [some (0, 2), some (2, 2)]) ∧
      ¬ MatchesERE patLateNoEnd [] ['x', 'x'] [] := by
  have hX : (compileDfaU8 utf8Sequences patLateNoEnd).map (·.map (fun G =>
      decide (G.tdfa.exec ['x', 'x'] (encode ['x', 'x']) = .ok (some [some (0, 2), some (2, 2)])))) = .ok (some true) := by
    decide +kernel
  cases hc : compileDfaU8 utf8Sequences patLateNoEnd with
  | error x => rw [hc] at hX; simp [Except.map] at hX
  | ok o =>
    cases o with
    | none => rw [hc] at hX; simp [Except.map] at hX
    | some G =>
      rw [hc] at hX
      simp only [Except.map, Option.map_some, Except.ok.injEq, Option.some.injEq, decide_eq_true_eq] at hX
      exact ⟨G, rfl, by decide, hX, patLateNoEnd_spec⟩

/-- non-vacuity: `x*(^|b)` is `TestSimple`, has a `^`, and matches the empty text. -/
example : TestSimple patLateNoEnd ∧ patLateNoEnd.hasStart = true ∧ patLateNoEnd.leads = false ∧
    patLateNoEnd.MatchesIn [] :=
  ⟨Or.inl (by decide), by decide, by decide, [], [], [], rfl, .intro (List.mem_singleton.mpr rfl) (.cons (m1 := []) (m2 := [])
    (.quantified (n := 0) (by decide) (by simp [QType.max]) .zero) (.cons (m1 := []) (m2 := []) (.single (.sub
      (.intro (b := .mk [.start]) (by simp) (.cons (m1 := []) (m2 := []) .start .nil)))) .nil))⟩

/-! ## C53: text around a match

A pattern without `^` that is found in a text is also found if something is put before the text; a pattern without `$`,
if something is put after it. -/

/-- **C53 (flat engine over characters).** -/
theorem C53_flat_char {e : ERE} {F : Flat Atom} (h : compileFlatChar e = .ok F) {text : List Char}
    (ht : F.test text = true) : (e.hasStart = false → ∀ a, F.test (a ++ text) = true) ∧
      (e.hasEnd = false → ∀ b, F.test (text ++ b) = true) := by
  rw [C18_flat_char_test h] at ht
  exact ⟨fun hs a => (C18_flat_char_test h _).mpr (matchesIn_before hs ht a),
    fun hs b => (C18_flat_char_test h _).mpr (matchesIn_after hs ht b)⟩

/-- **C53 (flat engine over bytes).** -/
theorem C53_flat_u8 (U : Utf8Seqs) {e : ERE} {F : Flat U8Atom} (h : compileFlatU8 U.seqs e = .ok F) {text : List Char}
    (ht : F.test (encode text) = true) : (e.hasStart = false → ∀ a, F.test (encode (a ++ text)) = true) ∧
      (e.hasEnd = false → ∀ b, F.test (encode (text ++ b)) = true) := by
  rw [C19_flat_u8_test U h] at ht
  exact ⟨fun hs a => (C19_flat_u8_test U h _).mpr (matchesIn_before hs ht a),
    fun hs b => (C19_flat_u8_test U h _).mpr (matchesIn_after hs ht b)⟩

/-- **C53 (one-pass engine).** If the emitted program compiles. -/
theorem C53_one_pass (U : Utf8Seqs) {e : ERE} {P : OnePass} (h : compileOnePassU8 U.seqs e = .ok (some P))
    (hc : P.compiles = true) {text : List Char} (ht : P.test (encode text) = .ok true) :
    (e.hasStart = false → ∀ a, P.test (encode (a ++ text)) = .ok true) ∧
      (e.hasEnd = false → ∀ b, P.test (encode (text ++ b)) = .ok true) := by
  have key : ∀ t, P.test (encode t) = .ok true ↔ e.MatchesIn t := by
    intro t
    obtain ⟨b, h1, h2⟩ := C21_one_pass_test U h hc t
    rw [h1, ← h2, Except.ok.injEq]
  rw [key] at ht
  exact ⟨fun hs a => (key _).mpr (matchesIn_before hs ht a), fun hs b => (key _).mpr (matchesIn_after hs ht b)⟩

/-- **C53 (DFA engine).** -/
theorem C53_dfa (U : Utf8Seqs) {e : ERE} {G : DfaEngine} (h : compileDfaU8 U.seqs e = .ok (some G)) {text : List Char}
    (ht : G.dfa.test (encode text) = true) : (e.hasStart = false → ∀ a, G.dfa.test (encode (a ++ text)) = true) ∧
      (e.hasEnd = false → ∀ b, G.dfa.test (encode (text ++ b)) = true) := by
  constructor
  · intro hs a
    have key := C20_dfa_test_partial U (Or.inl hs) h
    rw [key] at ht ⊢
    exact matchesIn_before hs ht a
  · intro hs b
    have key := fun t => (C20_dfa_no_end_partial U (Or.inl hs) h t).1
    rw [key] at ht ⊢
    exact matchesIn_after hs ht b

/-- **C53 (`compile_regex!`).** If the emitted program compiles, whatever engine is chosen. -/
theorem C53_compile_regex (U : Utf8Seqs) {e : ERE} {E : Engine} (h : pickEngine U.seqs e = .ok E)
    {cr : List String} (hc : E.compiles cr = true) {text : List Char} (ht : E.test text = .ok true) :
    (e.hasStart = false → ∀ a, E.test (a ++ text) = .ok true) ∧
      (e.hasEnd = false → ∀ b, E.test (text ++ b) = .ok true) := by
  have key : TestSimple e → ∀ t, E.test t = .ok true ↔ e.MatchesIn t := by
    intro hs t
    obtain ⟨b, h1, h2⟩ := (C41_test_partial U h hc (fun _ _ => hs) t).1
    rw [h1, ← h2, Except.ok.injEq]
  constructor
  · intro hs a
    have key := key (Or.inr (Or.inl hs))
    rw [key] at ht ⊢
    exact matchesIn_before hs ht a
  · intro hs b
    have key := key (Or.inl hs)
    rw [key] at ht ⊢
    exact matchesIn_after hs ht b

/-- non-vacuity: `a(b$|c)` has no `^`, `(^a|b)c` has no `$`; both are found in `ac`. With the anchors the texts may not be
extended: `a(b$|c)` is found in `ab` and not in `abx`, `(^a|b)c` in `ac` and not in `xac`. -/
example :
    (parseStr "a(b$|c)".toList).toOption.map (fun e => (e.hasStart, e.hasEnd, (compileFlatChar e).map (fun F =>
      [F.test "ab".toList, F.test "xab".toList, F.test "abx".toList]))) = some (false, true, .ok [true, true, false]) ∧
    (parseStr "(^a|b)c".toList).toOption.map (fun e => (e.hasStart, e.hasEnd, (compileFlatChar e).map (fun F =>
      [F.test "ac".toList, F.test "acx".toList, F.test "xac".toList]))) = some (true, false, .ok [true, true, false]) :=
  ⟨by decide +kernel, by decide +kernel⟩

/-! ## C54: patterns that differ by laws

`LawERE` (Spec/Laws.lean): alternatives reordered or repeated, parentheses multiplied out, quantifiers written
differently, sets written differently; anywhere in the pattern and any number of times. -/

/-- **C54.** The laws do not change what a pattern matches. -/
theorem C54_laws {e e' : ERE} (h : LawERE e e') (pre mid post : List Char) :
    MatchesERE e pre mid post ↔ MatchesERE e' pre mid post := h.sound pre mid post

/-- **C54 (flat engine over characters).** -/
theorem C54_flat_char {e e' : ERE} (h : LawERE e e') {F F' : Flat Atom} (h1 : compileFlatChar e = .ok F)
    (h2 : compileFlatChar e' = .ok F') (text : List Char) : F.test text = F'.test text := by
  rw [Bool.eq_iff_iff, C18_flat_char_test h1, C18_flat_char_test h2, h.matchesIn]

/-- **C54 (flat engine over bytes).** -/
theorem C54_flat_u8 (U : Utf8Seqs) {e e' : ERE} (h : LawERE e e') {F F' : Flat U8Atom} (h1 : compileFlatU8 U.seqs e = .ok F)
    (h2 : compileFlatU8 U.seqs e' = .ok F') (text : List Char) : F.test (encode text) = F'.test (encode text) := by
  rw [Bool.eq_iff_iff, C19_flat_u8_test U h1, C19_flat_u8_test U h2, h.matchesIn]

/-- **C54 (one-pass engine).** If the emitted programs compile. -/
theorem C54_one_pass (U : Utf8Seqs) {e e' : ERE} (h : LawERE e e') {P P' : OnePass}
    (h1 : compileOnePassU8 U.seqs e = .ok (some P)) (hc1 : P.compiles = true)
    (h2 : compileOnePassU8 U.seqs e' = .ok (some P')) (hc2 : P'.compiles = true) (text : List Char) :
    P.test (encode text) = P'.test (encode text) := by
  obtain ⟨b, k1, k2⟩ := C21_one_pass_test U h1 hc1 text
  obtain ⟨b', k3, k4⟩ := C21_one_pass_test U h2 hc2 text
  rw [k1, k3, Except.ok.injEq, Bool.eq_iff_iff, k2, k4, h.matchesIn]

/-- **C54 (`compile_regex!`, partial).** If the emitted programs compile, whatever engines are chosen. (Missing: the
patterns for which `test` of the DFA can be wrong, see `C20_dfa_no_end_partial`; false there, `C54_negation`.) -/
theorem C54_compile_regex_partial (U : Utf8Seqs) {e e' : ERE} (h : LawERE e e') {E E' : Engine}
    (h1 : pickEngine U.seqs e = .ok E) {cr : List String} (hc1 : E.compiles cr = true) (hs1 : TestOk e E)
    (h2 : pickEngine U.seqs e' = .ok E') {cr' : List String} (hc2 : E'.compiles cr' = true) (hs2 : TestOk e' E')
    (text : List Char) : E.test text = E'.test text := by
  obtain ⟨b, k1, k2⟩ := (C41_test_partial U h1 hc1 hs1 text).1
  obtain ⟨b', k3, k4⟩ := (C41_test_partial U h2 hc2 hs2 text).1
  rw [k1, k3, Except.ok.injEq, Bool.eq_iff_iff, k2, k4, h.matchesIn]

/-- `(a|b)x+`. -/
def patLaw : ERE := .mk [.mk [.single (.sub (.mk [.mk [.single (.atom (.normal 'a'))], .mk [.single (.atom (.normal 'b'))]])),
  .quantified (.atom (.normal 'x')) QType.plus.greedy]]

/-- `bxx*|axx{0,}|axx*`. -/
def patLaw' : ERE :=
  let x : EREExpr := .atom (.normal 'x')
  let a : EREPart := .single (.atom (.normal 'a'))
  let b : EREPart := .single (.atom (.normal 'b'))
  .mk [.mk [b, .single x, .quantified x QType.star.greedy], .mk [a, .single x, .quantified x (QType.range 0 none).greedy],
    .mk [a, .single x, .quantified x QType.star.greedy]]

/-- non-vacuity: `(a|b)x+` and `bxx*|axx{0,}|axx*` differ by laws, and both are compiled. -/
example : LawERE patLaw patLaw' ∧ (compileFlatChar patLaw).map (fun F => F.test "bx".toList) = .ok true ∧
    (compileFlatChar patLaw').map (fun F => F.test "bx".toList) = .ok true := by
  let x : EREExpr := .atom (.normal 'x')
  let a : EREPart := .single (.atom (.normal 'a'))
  let b : EREPart := .single (.atom (.normal 'b'))
  let ab : EREPart := .single (.sub (.mk [.mk [a], .mk [b]]))
  let s : EREPart := .quantified x QType.star.greedy
  refine ⟨?_, by decide +kernel, by decide +kernel⟩
  have l1 : LawERE patLaw (.mk [.mk [ab, .single x, s]]) :=
    .branch (bs1 := []) (bs2 := []) (.parts (ps1 := [ab]) (ps2 := []) .plus)
  have l2 : LawERE (.mk [.mk [ab, .single x, s]]) (.mk [.mk [a, .single x, s], .mk [b, .single x, s]]) :=
    .distribute (bs1 := []) (bs2 := []) (ps1 := []) (ps2 := [.single x, s])
  have l3 : LawERE (.mk [.mk [a, .single x, s], .mk [b, .single x, s]])
      (.mk [.mk [b, .single x, s], .mk [a, .single x, s], .mk [a, .single x, s]]) :=
    .alternatives (by intro b; simp only [List.mem_cons, List.not_mem_nil, or_false]; tauto)
  have l4 : LawERE (.mk [.mk [b, .single x, s], .mk [a, .single x, s], .mk [a, .single x, s]]) patLaw' :=
    .branch (bs1 := [.mk [b, .single x, s]]) (bs2 := [.mk [a, .single x, s]])
      (.parts (ps1 := [a, .single x]) (ps2 := []) .star)
  exact .trans l1 (.trans l2 (.trans l3 l4))

/-- `^a(^|b)|^$(^|b)`: the first parentheses of `^(a|$)(^|b)` multiplied out. -/
def patLateOut : ERE :=
  let r : EREPart := .single (.sub (.mk [.mk [.start], .mk [.single (.atom (.normal 'b'))]]))
  .mk [.mk [.start, .single (.atom (.normal 'a')), r], .mk [.start, .end_, r]]

/-- **C54 is false** for `compile_regex!`: `^(a|$)(^|b)` and `^a(^|b)|^$(^|b)` differ by a law, both programs compile (to
DFAs), and on `a` the `test` of the first says yes and that of the second says no. (The first is wrong, by the error of
C20.) -/
theorem C54_negation :
    LawERE patLate patLateOut ∧ ∃ E E', pickEngine utf8Sequences patLate = .ok E ∧
      pickEngine utf8Sequences patLateOut = .ok E' ∧ E.compiles [] = true ∧ E'.compiles [] = true ∧
      E.test ['a'] = .ok true ∧ E'.test ['a'] = .ok false := by
  let r : EREPart := .single (.sub (.mk [.mk [.start], .mk [.single (.atom (.normal 'b'))]]))
  refine ⟨.distribute (bs1 := []) (ps1 := [.start]) (bs := [.mk [.single (.atom (.normal 'a'))], .mk [.end_]])
    (ps2 := [r]) (bs2 := []), ?_⟩
  have h1 : (pickEngine utf8Sequences patLate).map (fun E => E.compiles [] && decide (E.test ['a'] = .ok true)) =
      .ok true := by decide +kernel
  have h2 : (pickEngine utf8Sequences patLateOut).map (fun E => E.compiles [] && decide (E.test ['a'] = .ok false)) =
      .ok true := by decide +kernel
  cases k1 : pickEngine utf8Sequences patLate with
  | error x => rw [k1] at h1; simp [Except.map] at h1
  | ok E =>
    cases k2 : pickEngine utf8Sequences patLateOut with
    | error x => rw [k2] at h2; simp [Except.map] at h2
    | ok E' =>
      rw [k1] at h1
      rw [k2] at h2
      simp only [Except.map, Except.ok.injEq, Bool.and_eq_true, decide_eq_true_eq] at h1 h2
      exact ⟨E, E', rfl, rfl, h1.1, h2.1, h1.2, h2.2⟩

end Ere.Props
