import Verif.Model.Pick
import Verif.Props.Tokens
import Verif.Props.Bytes
import Verif.Props.Meta
import Verif.Props.OnePass
import Verif.Props.Parser
import Verif.Proofs.FixedSafe

/-!
# Property theorems about `compile_regex!`, the choice of the engine and the attribute macro:
C17, C41, C23 for the chosen engine, C44, C45
-/

namespace Ere.Props
open Ere

/-! ## The chosen engine is right -/

/-- What it means for a pair of functions `(test, exec)` to be right. -/
structure EngineOk (e : ERE) (groups : Nat) (test : List Char → Except Err Bool)
    (exec : List Char → Except Err (Option (List (Option (Nat × Nat))))) : Prop where
  test : ∀ text, ∃ b, test text = .ok b ∧ (b = true ↔ e.MatchesIn text)
  exec : ∀ text, ExecOk e text groups (exec text)

/-- The start anchor is treated correctly: for an engine that is a DFA without fixed offsets the pattern has no
`^`, or crosses a last `^` first in every branch, or does not match the empty text. -/
def StartOk (e : ERE) (E : Engine) : Prop :=
  E.fixed = none → (∃ G, E.base = .dfa G) → e.StartSimple

theorem pickInner_ok (U : Utf8Seqs) {e : ERE} {N : NFA Atom} {M : NFA U8Atom} {ascii : Bool} {b : BaseEngine}
    (h1 : workingNew (Tree.fromERE e).1 = .ok N) (h2 : u8New U.seqs N = .ok M)
    (h : pickInner ascii N M = .ok b) {cr : List String} (hc : b.compiles cr = true)
    (hs : (∃ G, b = .dfa G) → StartSafe M) : EngineOk e b.groups b.test b.exec := by
  have hb : byteNFA U.seqs e = .ok M := by unfold byteNFA charNFA; rw [h1]; exact h2
  have hcn : charNFA e = .ok N := h1
  unfold pickInner at h
  split at h
  · simp at h
  · rename_i P hP
    injection h with h; subst h
    have := ((onePass_engine U hb hP).2 P rfl).2 hc
    refine ⟨fun text => ?_, this.exec⟩
    rcases this.test text with ⟨h3, h4⟩ | ⟨h3, h4⟩
    · exact ⟨true, h3, by simp [h4]⟩
    · exact ⟨false, h3, by simp [h4]⟩
  · rename_i hone
    have hne := compileOnePass_ne hone
    split at h
    · simp at h
    · rename_i T hT
      split at h
      · simp at h
      · rename_i G hG
        injection h with h; subst h
        cases G with
        | none => simp [BaseEngine.compiles] at hc
        | some G =>
          have hd : compileDfaU8 U.seqs e = .ok (some G) := by
            unfold compileDfaU8; rw [hb]; simp only [dfaOf]; rw [hT]; exact hG
          have := dfa_compiled_safe U hb (hs ⟨_, rfl⟩) hd
          exact ⟨fun text => ⟨_, rfl, this.1 text⟩, this.2⟩
    · split at h
      · split at h
        · simp at h
        · rename_i F hF
          injection h with h; subst h
          have hf : compileFlatU8 U.seqs e = .ok F := by unfold compileFlatU8; rw [hb]; exact hF
          exact ⟨fun text => ⟨_, rfl, C19_flat_u8_test U hf text⟩, C23_flat_u8_exec U hf⟩
      · split at h
        · simp at h
        · rename_i F hF
          injection h with h; subst h
          have hf : compileFlatChar e = .ok F := by unfold compileFlatChar; rw [hcn]; exact hF
          exact ⟨fun text => ⟨_, rfl, C18_flat_char_test hf text⟩, C23_flat_char_exec hf⟩

theorem pickBase_ok {seqs : Char → Char → List (List U8Atom)} {e : ERE} {b : BasePick} (h : pickBase seqs e = .ok b) :
    workingNew (Tree.fromERE e).1 = .ok b.nfa ∧ u8New seqs b.nfa = .ok b.u8nfa ∧
      pickInner b.nfa.isAscii b.nfa b.u8nfa = .ok b.engine := by
  unfold pickBase at h
  simp only at h
  split at h
  · simp at h
  · rename_i N h1
    split at h
    · simp at h
    · rename_i M h2
      split at h
      · simp at h
      · rename_i x h3
        injection h with h; subst h
        exact ⟨h1, h2, h3⟩

theorem pickInner_ne {N : NFA Atom} {M : NFA U8Atom} {ascii : Bool} {b : BaseEngine}
    (h : pickInner ascii N M = .ok b) (hb : ∃ G, b = .dfa G) : M ≠ [] := by
  obtain ⟨G, rfl⟩ := hb
  unfold pickInner at h
  split at h
  · simp at h
  · simp at h
  · rename_i hone; exact compileOnePass_ne hone

/-- The engine made by `pick_engine` from a base engine. -/
theorem plain_ok (U : Utf8Seqs) {e : ERE} {b : BasePick} (h : pickBase U.seqs e = .ok b) {cr : List String}
    (hc : b.engine.compiles cr = true) (hs : StartOk e ⟨b.engine, none⟩) :
    EngineOk e b.engine.groups b.engine.test b.engine.exec := by
  obtain ⟨h1, h2, h3⟩ := pickBase_ok h
  refine pickInner_ok U h1 h2 h3 hc fun hG => ?_
  have hne := pickInner_ne h3 hG
  exact startSafe_pipeline U e (hs rfl hG) h1 (pipeline_ne U e h1 h2 hne).1 h2 hne

/-- The engine made by `pick_engine` and by the fixed-offset macro from a base engine with fixed offsets. -/
theorem wrap_ok (U : Utf8Seqs) {e : ERE} {b : BasePick} (h : pickBase U.seqs e = .ok b) {cr : List String}
    (hc : b.engine.compiles cr = true) {offs : Slots} (ho : b.u8nfa.fixedOffsets = .ok (some offs)) :
    EngineOk e (Engine.mk b.engine (some (offs, b.u8nfa.numCaptureGroups))).groups
      (Engine.mk b.engine (some (offs, b.u8nfa.numCaptureGroups))).test
      (Engine.mk b.engine (some (offs, b.u8nfa.numCaptureGroups))).exec := by
  obtain ⟨h1, h2, h3⟩ := pickBase_ok h
  have hI := pickInner_ok U h1 h2 h3 hc (fun _ => fixed_startSafe U e h1 h2 (fixedOffsets_ne ho) ho)
  refine ⟨hI.test, fun text => ?_⟩
  have hb : byteNFA U.seqs e = .ok b.u8nfa := by unfold byteNFA charNFA; rw [h1]; exact h2
  obtain ⟨g1, g2⟩ := C23_fixed_exec U hb ho
  obtain ⟨x, h4, h5⟩ := hI.test text
  have : Engine.exec (Engine.mk b.engine (some (offs, b.u8nfa.numCaptureGroups))) text = fixedExec offs x text := by
    simp only [Engine.exec]; rw [h4]
  rw [this]
  have := g2 text x h5
  rw [g1] at this
  exact this

/-- **C22-C25, C41 for `compile_regex!`.** If the program emitted for a pattern compiles, then `test` and
`exec` of the regex are right. (`StartOk`: excepted is only the DFA without fixed offsets for patterns that match
the empty text and have a `^` not crossed first; false there, `C41_negation`.) -/
theorem C41_compile_regex_partial (U : Utf8Seqs) {e : ERE} {E : Engine} (h : pickEngine U.seqs e = .ok E)
    {cr : List String} (hc : E.compiles cr = true) (hs : StartOk e E) :
    EngineOk e E.groups E.test E.exec := by
  unfold pickEngine at h
  split at h
  · simp at h
  · rename_i b hb
    split at h
    · simp at h
    · rename_i offs ho
      injection h with h; subst h
      simp only [Engine.compiles, Bool.and_eq_true] at hc
      exact wrap_ok U hb hc.1 ho
    · injection h with h; subst h
      simp only [Engine.compiles, Bool.and_eq_true] at hc
      exact plain_ok U hb hc.1 hs

/-- C22-C25 and C41 for the fixed-offset macro: whenever its program compiles, for every pattern. (If the offsets are
fixed, the DFA inside is right too.) -/
theorem C41_fixed_offset (U : Utf8Seqs) {e : ERE} {E : Engine} (h : compileFixed U.seqs e = .ok (some E))
    {cr : List String} (hc : E.compiles cr = true) : EngineOk e E.groups E.test E.exec := by
  unfold compileFixed at h
  split at h
  · simp at h
  · rename_i b hb
    split at h
    · simp at h
    · rename_i offs ho
      injection h with h; injection h with h; subst h
      simp only [Engine.compiles, Bool.and_eq_true] at hc
      exact wrap_ok U hb hc.1 ho
    · simp at h

theorem pickInner_dfaOf {N : NFA Atom} {M : NFA U8Atom} {ascii : Bool} {G : DfaEngine}
    (h : pickInner ascii N M = .ok (.dfa (some G))) : dfaOf M = .ok (some G) := by
  unfold pickInner at h
  unfold dfaOf
  split at h
  · simp at h
  · simp at h
  · split at h
    · simp at h
    · rename_i T hT
      rw [hT]
      split at h
      · simp at h
      · rename_i G' hG'
        have := BaseEngine.dfa.inj (Except.ok.inj h)
        rw [this] at hG'
        exact hG'
    · split at h
      · split at h <;> simp at h
      · split at h <;> simp at h

theorem pickEngine_base {seqs : Char → Char → List (List U8Atom)} {e : ERE} {E : Engine}
    (h : pickEngine seqs e = .ok E) : ∃ b, pickBase seqs e = .ok b ∧ E.base = b.engine := by
  unfold pickEngine at h
  split at h
  · simp at h
  · rename_i b hb
    refine ⟨b, hb, ?_⟩
    split at h
    · simp at h
    · exact (congrArg Engine.base (Except.ok.inj h)).symm
    · exact (congrArg Engine.base (Except.ok.inj h)).symm

theorem pickEngine_dfa {seqs : Char → Char → List (List U8Atom)} {e : ERE} {E : Engine}
    (h : pickEngine seqs e = .ok E) {G : DfaEngine} (hG : E.base = .dfa (some G)) : compileDfaU8 seqs e = .ok (some G) := by
  obtain ⟨b, hb, hbe⟩ := pickEngine_base h
  obtain ⟨h1, h2, h3⟩ := pickBase_ok hb
  have hbn : byteNFA seqs e = .ok b.u8nfa := by unfold byteNFA charNFA; rw [h1]; exact h2
  rw [← hbe, hG] at h3
  unfold compileDfaU8
  rw [hbn]
  exact pickInner_dfaOf h3

/-- What `compile_regex!` produces is a DFA without fixed offsets, or right for every pattern. -/
theorem pickEngine_cases (U : Utf8Seqs) {e : ERE} {E : Engine} (h : pickEngine U.seqs e = .ok E)
    {cr : List String} (hc : E.compiles cr = true) :
    (∃ G, E.fixed = none ∧ E.base = .dfa (some G) ∧ compileDfaU8 U.seqs e = .ok (some G)) ∨
      EngineOk e E.groups E.test E.exec := by
  by_cases hd : E.fixed = none ∧ ∃ G, E.base = .dfa G
  · obtain ⟨hf, G, hG⟩ := hd
    cases G with
    | none => simp [Engine.compiles, hG, BaseEngine.compiles] at hc
    | some G => exact Or.inl ⟨G, hf, hG, pickEngine_dfa h hG⟩
  · exact Or.inr (C41_compile_regex_partial U h hc (fun h1 h2 => absurd ⟨h1, h2⟩ hd))

/-- C22, C23, C25, C41 for `compile_regex!` and every pattern, as far as they hold: if the program compiles, every text
that the pattern matches is found by `test`, and `exec` is right but for the matches at the end of the text described in
`ExecLate`. (The full claim is false: `C41_negation`.) -/
theorem C41_late_partial (U : Utf8Seqs) {e : ERE} {E : Engine} (h : pickEngine U.seqs e = .ok E)
    {cr : List String} (hc : E.compiles cr = true) (text : List Char) :
    (∃ b, E.test text = .ok b ∧ (e.MatchesIn text → b = true)) ∧ ExecLate e text E.groups (E.exec text) := by
  rcases pickEngine_cases U h hc with ⟨G, hf, hG, hd⟩ | hX
  · obtain ⟨h1, h3⟩ := dfa_bounds U hd text
    unfold Engine.test Engine.exec Engine.groups
    rw [hf, hG]
    exact ⟨⟨_, rfl, h1⟩, h3⟩
  · obtain ⟨b, h1, h2⟩ := hX.test text
    exact ⟨⟨b, h1, h2.mpr⟩, Or.inl (hX.exec text)⟩

/-- **C24 (`compile_regex!`).** If the program emitted for a pattern compiles, `exec` never panics and every group
reported is a stretch of the text, for every pattern. -/
theorem C24_compile_regex (U : Utf8Seqs) {e : ERE} {E : Engine} (h : pickEngine U.seqs e = .ok E)
    {cr : List String} (hc : E.compiles cr = true) (text : List Char) :
    ∃ o, E.exec text = .ok o ∧ ∀ r, o = some r → r.length = E.groups ∧
      ∀ i j, some (i, j) ∈ r → ∃ a b c, text = a ++ b ++ c ∧ i = byteLen a ∧ j = byteLen (a ++ b) := by
  rcases pickEngine_cases U h hc with ⟨G, hf, hG, hd⟩ | hX
  · have := C24_dfa U hd text
    unfold Engine.exec Engine.groups
    rw [hf, hG]
    exact this
  · replace hX := hX.exec text
    obtain ⟨o, h1, h2⟩ := C24_exec_slices hX
    refine ⟨o, h1, fun r hr => ⟨?_, h2 r hr⟩⟩
    rcases hX with ⟨h3, _⟩ | ⟨r', S, h3, _, h4, _⟩
    · rw [h1, hr] at h3; simp at h3
    · rw [h1, hr] at h3; simp at h3; rw [h3]; exact h4

/-- **C28 (`compile_regex!`).** For every pattern: mandatory groups are set in whatever `exec` reports. -/
theorem C28_compile_regex (U : Utf8Seqs) {e : ERE} {E : Engine} (h : pickEngine U.seqs e = .ok E)
    {cr : List String} (hc : E.compiles cr = true) {N : NFA Atom} (hN : charNFA e = .ok N) {text : List Char} {r}
    (hr : E.exec text = .ok (some r)) {g : Nat} (hg : g < E.groups) (hopt : N.groupIsOptional g = false) :
    ∃ i j, r[g]? = some (some (i, j)) := by
  rcases pickEngine_cases U h hc with ⟨G, hf, hG, hd⟩ | hX
  · unfold Engine.exec at hr
    unfold Engine.groups at hg
    rw [hf, hG] at hr hg
    obtain ⟨x, hx⟩ := C28_dfa U hd hN hr hg hopt
    exact ⟨x.1, x.2, hx⟩
  · replace hX := hX.exec text
    rw [hr] at hX
    exact C28_expect_never_fires hX hN hopt

/-- **C41 (partial).** `test` of the engine chosen by `compile_regex!` answers on every text what `test` of
every other engine for the pattern answers. Missing: programs that do not compile (`C38_negation`,
`C39_negation`) and the DFA for patterns that match the empty text and have a `^` other than at
their beginning, where it is false (`C41_negation`). -/
theorem C41_choice_invisible_partial (U : Utf8Seqs) {e : ERE} {E : Engine} (h : pickEngine U.seqs e = .ok E)
    {cr : List String} (hc : E.compiles cr = true) (hs : StartOk e E) (text : List Char) :
    ∃ b, E.test text = .ok b ∧
      (∀ F, compileFlatChar e = .ok F → F.test text = b) ∧
      (∀ F, compileFlatU8 U.seqs e = .ok F → F.test (encode text) = b) ∧
      (∀ P, compileOnePassU8 U.seqs e = .ok (some P) → P.compiles = true → P.test (encode text) = .ok b) ∧
      (∀ G, compileDfaU8 U.seqs e = .ok (some G) → e.StartSimple →
        G.dfa.test (encode text) = b) ∧
      (∀ E' cr', compileFixed U.seqs e = .ok (some E') → E'.compiles cr' = true → E'.test text = .ok b) := by
  obtain ⟨b, h1, h2⟩ := (C41_compile_regex_partial U h hc hs).test text
  refine ⟨b, h1, fun F hF => ?_, fun F hF => ?_, fun P hP hcp => ?_, fun G hG hsG => ?_, fun E' cr' hE hce => ?_⟩
  · rw [Bool.eq_iff_iff, C18_flat_char_test hF, h2]
  · rw [Bool.eq_iff_iff, C19_flat_u8_test U hF, h2]
  · obtain ⟨b', h3, h4⟩ := C21_one_pass_test U hP hcp text
    rw [h3, Except.ok.injEq, Bool.eq_iff_iff, h4, h2]
  · rw [Bool.eq_iff_iff, C20_dfa_test_partial U hsG hG, h2]
  · obtain ⟨b', h3, h4⟩ := (C41_fixed_offset U hE hce).test text
    rw [h3, Except.ok.injEq, Bool.eq_iff_iff, h4, h2]

def BaseEngine.kind : BaseEngine → Nat
  | .onePass _ => 0
  | .dfa _ => 1
  | .flatU8 _ => 2
  | .flatChar _ => 3

/-- non-vacuity: `compile_regex!` wraps the one-pass engine for `^(é|ab)c$`, uses the one-pass engine for
`^a+(b|c)?$` and the DFA for `a(é|$)`. All three compile. -/
example : (pickEngine utf8Sequences patFixed).map (fun E => (BaseEngine.kind E.base, E.fixed.isSome, E.compiles ["ere"], E.groups,
    decide (E.test ['é', 'c'] = .ok true), decide (E.exec ['é', 'c'] = .ok (some [some (0, 3), some (0, 2)])))) =
    .ok (0, true, true, 2, true, true) := by decide +kernel
example : (pickEngine utf8Sequences patLoopOpt).map (fun E => (BaseEngine.kind E.base, E.fixed.isSome, E.compiles ["ere"], E.groups,
    decide (E.test ['a', 'c'] = .ok true), decide (E.exec ['a', 'c'] = .ok (some [some (0, 2), some (1, 2)])))) =
    .ok (0, false, true, 2, true, true) := by decide +kernel
example : (pickEngine utf8Sequences patAE).map (fun E => (BaseEngine.kind E.base, E.fixed.isSome, E.compiles ["ere"], E.groups,
    decide (E.test ['a', 'c'] = .ok false), decide (E.exec ['x', 'a'] = .ok (some [some (1, 2), some (2, 2)])))) =
    .ok (1, false, true, 2, true, true) := by decide +kernel

/-- **C41 is false**: for `(^|b)$` the macro `compile_regex!` chooses the DFA, whose `test` is true on `x`,
while `test` of the flat engine (over characters and over bytes) is false. -/
theorem C41_negation :
    (compileRegex utf8Sequences "(^|b)$".toList).map (·.map (fun E => (BaseEngine.kind E.base, E.compiles ["ere"],
      decide (E.test ['x'] = .ok true)))) = .ok (some (1, true, true)) ∧
    (parseStr "(^|b)$".toList).toOption.map (fun e => ((compileFlatChar e).map (fun F => F.test ['x']),
      (compileFlatU8 utf8Sequences e).map (fun F => F.test (encode ['x'])))) = some (.ok false, .ok false) := by
  exact ⟨by decide +kernel, by decide +kernel⟩

/-! ## C17 -/

theorem pickInner_returns {N : NFA Atom} {M : NFA U8Atom} {ascii : Bool} (hN : Ready N) (hM : Ready M)
    (hs : SymP (fun a : U8Atom => a.lo ≤ a.hi) M) : ∃ b, pickInner ascii N M = .ok b := by
  unfold pickInner
  obtain ⟨o, h1, _⟩ := compileOnePass_spec hM hs
  rw [h1]
  cases o with
  | some P => exact ⟨_, rfl⟩
  | none =>
    simp only
    rcases fromNFA_spec hM.wf hM.ne (TDFA.defaultBound M.length) with ⟨g1, _⟩ | ⟨T, g1, _, g2⟩
    · rw [g1]
      simp only
      split
      · obtain ⟨F, f1, _⟩ := compileFlat_spec hM.wf hM.ne
        rw [f1]; exact ⟨_, rfl⟩
      · obtain ⟨F, f1, _⟩ := compileFlat_spec hN.wf hN.ne
        rw [f1]; exact ⟨_, rfl⟩
    · rw [g1]
      obtain ⟨D, g3, _⟩ := fromTagged_spec g2
      simp only [serializeDfa]
      rw [g3]
      exact ⟨_, rfl⟩

/-- **C17, exactly.** `compile_regex!` panics if and only if the byte automaton of the pattern has lost all
its states (or could not be built because the character automaton has lost them). In particular no bound,
assertion or index of the analyses and generators is ever exceeded. -/
theorem C17_pick_returns_iff (U : Utf8Seqs) (e : ERE) :
    (∃ E, pickEngine U.seqs e = .ok E) ↔ ∃ M, byteNFA U.seqs e = .ok M ∧ M ≠ [] := by
  constructor
  · rintro ⟨E, h⟩
    unfold pickEngine at h
    split at h
    · simp at h
    · rename_i b hb
      obtain ⟨h1, h2, h3⟩ := pickBase_ok hb
      refine ⟨b.u8nfa, by unfold byteNFA charNFA; rw [h1]; exact h2, ?_⟩
      unfold pickInner at h3
      split at h3
      · simp at h3
      · exact compileOnePass_ne (by assumption)
      · exact compileOnePass_ne (by assumption)
  · rintro ⟨M, hb, hne⟩
    obtain ⟨N, h1, h2⟩ := byteNFA_ok hb
    obtain ⟨hN, hM, _, _⟩ := pipeline_ne U e h1 h2 hne
    obtain ⟨b, h3⟩ := pickInner_returns (ascii := N.isAscii) hN hM (u8New_symP U hN h2 hne)
    have hp : pickBase U.seqs e = .ok ⟨b, (Tree.fromERE e).1, N, M⟩ := by
      unfold pickBase; simp only; rw [h1]; simp only; rw [h2]; simp only; rw [h3]
    obtain ⟨r, h4, _⟩ := fixedOffsets_spec hM
    unfold pickEngine
    rw [hp]
    simp only
    rw [h4]
    cases r with
    | none => exact ⟨_, rfl⟩
    | some offs => exact ⟨_, rfl⟩

/-- **C17 (partial).** For every pattern text that the parser accepts and that matches some text,
`compile_regex!` returns an engine without panicking. Missing: the patterns that match no text at all, for
which the macro can panic (`C17_negation`). -/
theorem C17_compile_returns_partial (U : Utf8Seqs) {s : List Char} {e : ERE} (hs : parseStr s = .ok e)
    (hm : ∃ text, e.MatchesIn text) : ∃ E, compileRegex U.seqs s = .ok (some E) := by
  obtain ⟨N, M, h1, h2, h3⟩ := C16_exists U e hm
  obtain ⟨E, hE⟩ := (C17_pick_returns_iff U e).mpr ⟨M, by unfold byteNFA charNFA; rw [h1]; exact h2, h3⟩
  refine ⟨E, ?_⟩
  unfold compileRegex
  rw [hs]
  simp only
  rw [hE]

/-- **C17 is false**: `a{2,1}`, `a^b` and `[b-a]` are accepted by the parser, and `compile_regex!` panics. -/
theorem C17_negation : ∀ s ∈ ["a{2,1}", "a^b", "[b-a]"],
    (parseStr s.toList).toOption.isSome = true ∧ compileRegex utf8Sequences s.toList = .error .panic := by
  have key : ∀ s : String, (parseStr s.toList).toOption.isSome = true →
      (compileRegex utf8Sequences s.toList).map (fun _ => ()) = .error .panic →
      (parseStr s.toList).toOption.isSome = true ∧ compileRegex utf8Sequences s.toList = .error .panic := by
    intro s h1 h2
    refine ⟨h1, ?_⟩
    cases h : compileRegex utf8Sequences s.toList with
    | error x => rw [h] at h2; simpa [Except.map] using h2
    | ok o => rw [h] at h2; simp [Except.map] at h2
  intro s hs
  simp only [List.mem_cons, List.not_mem_nil, or_false] at hs
  rcases hs with rfl | rfl | rfl
  · exact key _ (by decide +kernel) (by decide +kernel)
  · exact key _ (by decide +kernel) (by decide +kernel)
  · exact key _ (by decide +kernel) (by decide +kernel)

/-- non-vacuity of `C17_compile_returns_partial`: the text of `patFixed`, for which a match was shown
above. -/
example : patFixed.display = "^(é|ab)c$".toList := by decide +kernel
example : (parseStr "^(é|ab)c$".toList).toOption.map ERE.display = some "^(é|ab)c$".toList := by decide +kernel
example : (compileRegex utf8Sequences "^(é|ab)c$".toList).map (·.isSome) = .ok true := by decide +kernel

/-! ## The attribute macro -/

theorem mapM_get {β γ ε : Type} {f : β → Except ε γ} {l : List β} {ys : List γ} (h : l.mapM f = .ok ys) :
    ys.length = l.length ∧ ∀ (i : Nat) x, l[i]? = some x → ∃ y, ys[i]? = some y ∧ f x = .ok y := by
  have hall : ∀ x ∈ l, ∃ y, f x = .ok y := by
    induction l generalizing ys with
    | nil => simp
    | cons a l ih =>
      rw [List.mapM_cons] at h
      intro x hx
      cases ha : f a with
      | error z => rw [ha] at h; simp [bind, Except.bind] at h
      | ok y =>
        rw [ha] at h
        cases hl : l.mapM f with
        | error z => rw [hl] at h; simp [bind, Except.bind] at h
        | ok zs =>
          rcases List.mem_cons.mp hx with rfl | hx
          · exact ⟨y, ha⟩
          · exact ih hl x hx
  obtain ⟨ys', h1, h2, h3⟩ := mapM_ok hall
  rw [h] at h1
  injection h1 with h1
  subst h1
  exact ⟨h2, h3⟩

theorem mapM_eq {β γ ε : Type} {f : β → Except ε γ} {l : List β} {r : List γ} (hl : l.length = r.length)
    (h : ∀ (i : Nat) x, l[i]? = some x → ∃ y, r[i]? = some y ∧ f x = .ok y) : l.mapM f = .ok r := by
  obtain ⟨ys, h1, h2, h3⟩ := mapM_ok (f := f) (l := l) (by
    intro x hx
    obtain ⟨i, hi⟩ := List.mem_iff_getElem?.mp hx
    obtain ⟨y, _, hy⟩ := h i x hi
    exact ⟨y, hy⟩)
  rw [h1]
  congr 1
  apply List.ext_getElem?
  intro i
  cases hx : l[i]? with
  | none =>
    have : l.length ≤ i := List.getElem?_eq_none_iff.mp hx
    rw [List.getElem?_eq_none (by omega), List.getElem?_eq_none (by omega)]
  | some x =>
    obtain ⟨y, e1, e2⟩ := h i x hx
    obtain ⟨z, e3, e4⟩ := h3 i x hx
    rw [e1, e3]
    rw [e2] at e4
    injection e4 with e4
    rw [e4]

theorem compileAttr_ok {seqs : Char → Char → List (List U8Atom)} {s : List Char} {k : Nat} {A : Attr}
    (h : compileAttr seqs s k = .ok (some A)) :
    ∃ e N, parseStr s = .ok e ∧ charNFA e = .ok N ∧ pickEngine seqs e = .ok A.engine ∧
      A.fields = N.numCaptureGroups ∧ k = A.optional.length ∧
      (List.range N.numCaptureGroups).mapM N.groupIsOptionalDebug = .ok A.optional := by
  unfold compileAttr at h
  split at h
  · simp at h
  · rename_i e he
    split at h
    · simp at h
    · rename_i N hN
      split at h
      · simp at h
      · rename_i opt hopt
        split at h
        · rename_i hk
          split at h
          · simp at h
          · rename_i E hE
            injection h with h; injection h with h; subst h
            exact ⟨e, N, he, hN, hE, rfl, hk, hopt⟩
        · simp at h

theorem optional_get {e : ERE} {N : NFA Atom} (hN : charNFA e = .ok N) (hne : N ≠ []) {opt : List Bool} {k : Nat}
    (h : (List.range k).mapM N.groupIsOptionalDebug = .ok opt) :
    opt.length = k ∧ ∀ (i : Nat) b, opt[i]? = some b → N.groupIsOptional i = b := by
  obtain ⟨h1, h2⟩ := mapM_get h
  rw [List.length_range] at h1
  refine ⟨h1, fun i b hb => ?_⟩
  have hi := (List.getElem?_eq_some_iff.mp hb).1
  obtain ⟨b', hb1, hb2⟩ := h2 i i (List.getElem?_range (by omega))
  rw [hb] at hb1
  rw [Option.some.inj hb1]
  exact ok_unique (C28_mandatory_groups hN hne i).1 hb2

theorem attrFields {k : Nat} {r : List (Option (Nat × Nat))} (hr : r.length = k) {opt : List Bool}
    (hl : opt.length = k) (hset : ∀ i : Nat, opt[i]? = some false → ∃ a c, r[i]? = some (some (a, c))) :
    opt.zipIdx.mapM (attrField r) = .ok r := by
  refine mapM_eq (by simp [hl, hr]) ?_
  intro i x hx'
  obtain ⟨b, hb, rfl⟩ : ∃ b, opt[i]? = some b ∧ x = (b, i) := by
    rw [List.getElem?_zipIdx] at hx'
    obtain ⟨b, hb, hb'⟩ := Option.map_eq_some_iff.mp hx'
    exact ⟨b, hb, by rw [← hb']; simp⟩
  have hi : i < r.length := by
    rw [hr, ← hl]; exact (List.getElem?_eq_some_iff.mp hb).1
  obtain ⟨y, hy⟩ : ∃ y, r[i]? = some y := ⟨r[i], List.getElem?_eq_getElem hi⟩
  refine ⟨y, hy, ?_⟩
  unfold attrField
  simp only [hy]
  cases b with
  | true => simp
  | false =>
    obtain ⟨a, c, hac⟩ := hset i hb
    rw [hy] at hac
    rw [Option.some.inj hac]
    simp

/-- **C45 (fields).** If the program written by the attribute macro compiles, `exec` never panics (none of its
`expect`s fires, no index is out of range, every slice can be made), and it returns in the fields of the struct exactly
the array that the chosen engine returns, one field for each entry; for every pattern and text. -/
theorem C45_attribute_fields (U : Utf8Seqs) {s : List Char} {k : Nat} {A : Attr}
    (h : compileAttr U.seqs s k = .ok (some A)) {cr : List String} (hc : A.compiles cr = true) (text : List Char) :
    A.exec text = A.engine.exec text ∧ ∃ o, A.exec text = .ok o ∧ ∀ r, o = some r → r.length = k ∧
      ∀ i j, some (i, j) ∈ r → ∃ a b c, text = a ++ b ++ c ∧ i = byteLen a ∧ j = byteLen (a ++ b) := by
  obtain ⟨e, N, he, hN, hE, hf, hk, hopt⟩ := compileAttr_ok h
  simp only [Attr.compiles, Bool.and_eq_true, beq_iff_eq] at hc
  have hne : N ≠ [] := by
    obtain ⟨M, hM, _⟩ := (C17_pick_returns_iff U e).mp ⟨_, hE⟩
    intro h0
    unfold byteNFA at hM
    rw [hN, h0] at hM
    simp only [u8New_nil] at hM
    simp at hM
  obtain ⟨ho1, ho2⟩ := optional_get hN hne hopt
  have hlen : A.optional.length = A.engine.groups := by rw [hc.2, hf, ho1]
  obtain ⟨o, h1, h2⟩ := C24_compile_regex U hE hc.1 text
  have hx : A.exec text = A.engine.exec text := by
    unfold Attr.exec
    rw [h1]
    cases o with
    | none => rfl
    | some r =>
      simp only
      rw [attrFields (h2 r rfl).1 hlen fun i hi => C28_compile_regex U hE hc.1 hN h1
        (by rw [← hlen]; exact (List.getElem?_eq_some_iff.mp hi).1) (ho2 i false hi)]
  refine ⟨hx, o, by rw [hx]; exact h1, fun r hr => ?_⟩
  rw [hk, hlen]
  exact h2 r hr

/-- **C45 (partial).** The functions written by the attribute macro: if the program compiles, `test` is
right, and `exec` returns `None` exactly if the text does not match and otherwise the captures of a match. (That `exec`
never panics and returns what the engine returns holds without condition, `C45_attribute_fields`.)
Missing: as for `C41_compile_regex_partial`. -/
theorem C45_attribute_partial (U : Utf8Seqs) {s : List Char} {k : Nat} {A : Attr}
    (h : compileAttr U.seqs s k = .ok (some A)) {cr : List String} (hc : A.compiles cr = true) :
    ∃ e, parseStr s = .ok e ∧ (StartOk e A.engine → EngineOk e k A.test A.exec ∧
      ∀ text, A.exec text = A.engine.exec text) := by
  obtain ⟨e, N, he, hN, hE, hf, hk, hopt⟩ := compileAttr_ok h
  refine ⟨e, he, fun hs => ?_⟩
  have hx := fun text => (C45_attribute_fields U h hc text).1
  simp only [Attr.compiles, Bool.and_eq_true, beq_iff_eq] at hc
  have hI := C41_compile_regex_partial U hE hc.1 hs
  refine ⟨⟨hI.test, fun text => ?_⟩, hx⟩
  have hl : k = A.engine.groups := by
    rw [hk, hc.2, hf, (mapM_get hopt).1, List.length_range]
  rw [hx, hl]
  exact hI.exec text

/-- non-vacuity: `(a)(b)?` needs a struct with three fields, of which the last is optional. -/
example : (compileAttr utf8Sequences "(a)(b)?".toList 3).map (·.map (fun A => (A.fields, A.optional,
    A.compiles ["ere"], decide (A.exec ['x', 'a'] = .ok (some [some (1, 2), some (1, 2), none]))))) =
    .ok (some (3, [false, false, true], true, true)) := by decide +kernel

/-- non-vacuity of `C45_attribute_fields` where the engine is wrong: `(^|b)$` on `x`. -/
example : (compileAttr utf8Sequences "(^|b)$".toList 2).map (·.map (fun A => (A.optional, A.compiles ["ere"],
    decide (A.exec ['x'] = .ok (some [some (1, 1), some (1, 1)]))))) = .ok (some ([false, false], true, true)) := by
  decide +kernel

/-- **C45 is false**: for `(^|b)$` `exec` returns a struct for the text `x`, which does not match. -/
theorem C45_negation :
    ∃ A r, compileAttr utf8Sequences "(^|b)$".toList 2 = .ok (some A) ∧ A.compiles ["ere"] = true ∧
      A.exec ['x'] = .ok (some r) ∧ parseStr "(^|b)$".toList = .ok patStartOrB ∧ ¬ patStartOrB.MatchesIn ['x'] := by
  have hX : (compileAttr utf8Sequences "(^|b)$".toList 2).map (·.map (fun A => (A.compiles ["ere"],
      decide (A.exec ['x'] = .ok (some [some (1, 1), some (1, 1)]))))) = .ok (some (true, true)) := by decide +kernel
  obtain ⟨G, _, _, hm, _⟩ := C20_dfa_test_negation
  cases hc : compileAttr utf8Sequences "(^|b)$".toList 2 with
  | error x => rw [hc] at hX; simp [Except.map] at hX
  | ok o =>
    cases o with
    | none => rw [hc] at hX; simp [Except.map] at hX
    | some A =>
      rw [hc] at hX
      simp only [Except.map, Option.map_some, Except.ok.injEq, Option.some.injEq, Prod.mk.injEq, decide_eq_true_eq] at hX
      exact ⟨A, _, rfl, hX.1, hX.2, by rfl, hm⟩

/-- **C44 is false**: for `|()` the struct must have two fields, but the emitted program does not
type-check, because the chosen DFA engine returns arrays of length 1. -/
theorem C44_negation :
    (compileAttr utf8Sequences "|()".toList 2).map (·.map (fun A => (A.fields, A.engine.groups,
      A.engine.compiles ["ere"], A.compiles ["ere"]))) = .ok (some (2, 1, true, false)) := by decide +kernel

end Ere.Props
