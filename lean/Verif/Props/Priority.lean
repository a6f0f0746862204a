import Verif.Model.Engines
import Verif.Proofs.FirstTop
import Verif.Proofs.FirstTDFA
import Verif.Proofs.FirstOnePass
import Verif.Proofs.OpenReading
import Verif.Props.Flat
import Verif.Props.TDFA
import Verif.Props.OnePass
import Verif.Props.Pick

/-!
# Property theorems about the choice among several matches: C46, C27

`ERE.first` (Spec/Priority.lean) is the match that a backtracking matcher following the rules of Perl finds
first. Two hypotheses appear:

* `e.progress`: what is repeated without bound consumes at least one character per round (otherwise Perl,
  other matchers and the engines differ in how they cut off empty rounds),
* `e.evenAnchors`: all ways through the pattern cross the same anchors. Without it the flat engines
  prefer an alternative with an anchor (`C46_negation`).
-/

namespace Ere.Props
open Ere

/-- The preferred match is a match, and there is one exactly if the pattern matches somewhere; it starts as
far left as any match. (About the specification; no engine involved.) -/
theorem C46_first_sound {e : ERE} (hp : e.progress = true) (text : List Char) :
    (∀ S, e.first text = some S → e.Captures text S) ∧
    ((e.first text).isSome = true ↔ e.MatchesIn text) ∧
    ∀ S, e.first text = some S → ∃ i j, lastSpan S 0 = some (i, j) ∧
      ∀ S' i' j', e.Captures text S' → lastSpan S' 0 = some (i', j') → i ≤ i' :=
  ⟨fun _ => first_captures, first_isSome hp text, fun _ => first_left hp⟩

/-- **C46 (flat engine over characters).** `exec` reports the preferred match: every group holds what it
captured last in that match, and groups that did not take part are unset. -/
theorem C46_flat_char_partial {e : ERE} (hp : e.progress = true) (ha : e.evenAnchors = true) {F : Flat Atom}
    (h : compileFlatChar e = .ok F) (text : List Char) : FirstOk e text F.groups (F.exec text text) :=
  flat_char_first hp ha h text

/-- **C46 (flat engine over bytes).** -/
theorem C46_flat_u8_partial (U : Utf8Seqs) {e : ERE} (hp : e.progress = true) (ha : e.evenAnchors = true) {F : Flat U8Atom}
    (h : compileFlatU8 U.seqs e = .ok F) (text : List Char) : FirstOk e text F.groups (F.exec text (encode text)) :=
  flat_u8_first U hp ha h text

/-- **C27.** Two engines that report the preferred match report the same captures. -/
theorem firstOk_agree {e : ERE} {text : List Char} {k k' : Nat} {res res'} (h : FirstOk e text k res)
    (h' : FirstOk e text k' res') :
    (res = .ok none ∧ res' = .ok none) ∨
    ∃ r r', res = .ok (some r) ∧ res' = .ok (some r') ∧ ∀ g : Nat, (r[g]?).join = (r'[g]?).join := by
  rcases h with ⟨h, h1⟩ | ⟨r, S, h, h1, _, h2⟩
  · rcases h' with ⟨h', _⟩ | ⟨r', S', _, h3, _⟩
    · exact Or.inl ⟨h, h'⟩
    · rw [h1] at h3; simp at h3
  · rcases h' with ⟨_, h3⟩ | ⟨r', S', h', h3, _, h4⟩
    · rw [h1] at h3; simp at h3
    · rw [h1] at h3
      injection h3 with h3
      subst h3
      exact Or.inr ⟨r, r', h, h', fun g => by rw [h2, h4]⟩

/-- **C27 (both flat engines).** -/
theorem C27_flat_agree_partial (U : Utf8Seqs) {e : ERE} (hp : e.progress = true) (ha : e.evenAnchors = true)
    {F : Flat Atom} {G : Flat U8Atom} (h : compileFlatChar e = .ok F) (h' : compileFlatU8 U.seqs e = .ok G)
    (text : List Char) :
    (F.exec text text = .ok none ∧ G.exec text (encode text) = .ok none) ∨
    ∃ r r', F.exec text text = .ok (some r) ∧ G.exec text (encode text) = .ok (some r') ∧
      ∀ g : Nat, (r[g]?).join = (r'[g]?).join :=
  firstOk_agree (C46_flat_char_partial hp ha h text) (C46_flat_u8_partial U hp ha h' text)

/-- The pattern `^(a|ab)(b|é)*?é*$`. -/
def patFirst : ERE := .mk [.mk [.start,
  .single (.sub (.mk [.mk [.single (.atom (.normal 'a'))],
    .mk [.single (.atom (.normal 'a')), .single (.atom (.normal 'b'))]])),
  .quantified (.sub (.mk [.mk [.single (.atom (.normal 'b'))], .mk [.single (.atom (.normal 'é'))]])) ⟨.star, true⟩,
  .quantified (.atom (.normal 'é')) ⟨.star, false⟩, .end_]]

/-- non-vacuity: the hypotheses hold, and on `abéé` there are several ways to match of which `a`, `b` is preferred. -/
example : patFirst.progress = true ∧ patFirst.evenAnchors = true ∧
    (patFirst.first ['a', 'b', 'é', 'é']) = some [⟨1, 0, 1⟩, ⟨2, 1, 2⟩, ⟨0, 0, 6⟩] ∧
    (tryERE patFirst 1 ⟨0, ['a', 'b', 'é', 'é'], []⟩).length = 6 := by decide +kernel
example : (do
    let F ← compileFlatU8 utf8Sequences patFirst
    F.exec ['a', 'b', 'é', 'é'] (encode ['a', 'b', 'é', 'é'])) =
    (.ok (some [some (0, 6), some (0, 1), some (1, 2)]) : Except Err _) := by decide +kernel
example : (do
    let F ← compileFlatChar patFirst
    F.exec ['a', 'b', 'é', 'é'] ['a', 'b', 'é', 'é']) =
    (.ok (some [some (0, 6), some (0, 1), some (1, 2)]) : Except Err _) := by decide +kernel

/-- The pattern `(()|(^))a`. -/
def patAnchorLast : ERE := .mk [.mk [.single (.sub (.mk [.mk [.single (.sub (.mk [.mk []]))],
  .mk [.single (.sub (.mk [.mk [.start]]))]])), .single (.atom (.normal 'a'))]]

/-- **C46 is false in general:** for `(()|(^))a` on `a` the left alternative is preferred (groups 1 and 2),
but both flat engines report the right one (groups 1 and 3). -/
theorem C46_negation : patAnchorLast.progress = true ∧
    patAnchorLast.first ['a'] = some [⟨2, 0, 0⟩, ⟨1, 0, 0⟩, ⟨0, 0, 1⟩] ∧
    (do let F ← compileFlatChar patAnchorLast; F.exec ['a'] ['a']) =
      (.ok (some [some (0, 1), some (0, 0), none, some (0, 0)]) : Except Err _) ∧
    (do let F ← compileFlatU8 utf8Sequences patAnchorLast; F.exec ['a'] (encode ['a'])) =
      (.ok (some [some (0, 1), some (0, 0), none, some (0, 0)]) : Except Err _) := by
  decide +kernel

/-- **C27 is false in general:** for the same pattern and text the DFA engine reports the left alternative. -/
theorem C27_negation :
    (compileDfaU8 utf8Sequences patAnchorLast).map (·.map (fun G => decide (G.tdfa.exec ['a'] (encode ['a']) =
      .ok (some [some (0, 1), some (0, 0), some (0, 0)])))) = .ok (some true) ∧
    (do let F ← compileFlatU8 utf8Sequences patAnchorLast; F.exec ['a'] (encode ['a'])) =
      (.ok (some [some (0, 1), some (0, 0), none, some (0, 0)]) : Except Err _) := by
  decide +kernel

/-! ## The DFA engine -/

/-- **C46 (DFA engine).** No condition on the anchors, other than the one of C20. -/
theorem C46_dfa_partial (U : Utf8Seqs) {e : ERE} (hp : e.progress = true)
    (hs : e.StartSimple) {G : DfaEngine}
    (h : compileDfaU8 U.seqs e = .ok (some G)) (text : List Char) :
    FirstOk e text G.tdfa.numCaptureGroups (G.tdfa.exec text (encode text)) := by
  unfold compileDfaU8 at h
  split at h
  · simp at h
  · rename_i M hb
    obtain ⟨N, h1, h2⟩ := byteNFA_ok hb
    have hne := dfaOf_ne h
    rcases dfa_engine U e h1 h2 hne hs (TDFA.defaultBound M.length) with h4 | ⟨T, D, h4, h5, h6, h7⟩
    · rw [dfaOf, h4] at h; simp at h
    · rw [dfaOf, h4] at h
      simp only [serializeDfa] at h
      rw [h5] at h
      injection h with h
      injection h with h
      subst h
      exact dfa_first U hp hs h1 h2 hne h4 text

/-- **C27 (DFA engine and flat engine).** -/
theorem C27_dfa_flat_agree_partial (U : Utf8Seqs) {e : ERE} (hp : e.progress = true) (ha : e.evenAnchors = true)
    (hs : e.StartSimple)
    {F : Flat U8Atom} {G : DfaEngine} (h : compileFlatU8 U.seqs e = .ok F) (h' : compileDfaU8 U.seqs e = .ok (some G))
    (text : List Char) :
    (F.exec text (encode text) = .ok none ∧ G.tdfa.exec text (encode text) = .ok none) ∨
    ∃ r r', F.exec text (encode text) = .ok (some r) ∧ G.tdfa.exec text (encode text) = .ok (some r') ∧
      ∀ g : Nat, (r[g]?).join = (r'[g]?).join :=
  firstOk_agree (C46_flat_u8_partial U hp ha h text) (C46_dfa_partial U hp hs h' text)

/-- non-vacuity: both patterns above do not match the empty text; the DFA engine compiles and reports the
preferred match, for the second pattern other than the flat engines. -/
example : ¬ patFirst.MatchesIn [] ∧ ¬ patAnchorLast.MatchesIn [] := by
  constructor <;> rw [← first_isSome (by decide +kernel)] <;> decide +kernel
example : (compileDfaU8 utf8Sequences patFirst).map (·.map (fun G =>
    decide (G.tdfa.exec ['a', 'b', 'é', 'é'] (encode ['a', 'b', 'é', 'é']) =
      .ok (some [some (0, 6), some (0, 1), some (1, 2)])))) = .ok (some true) := by decide +kernel

/-! ## The one-pass engine -/

/-- If the text determines what the groups capture, a right answer of `exec` is the preferred one. -/
theorem firstOk_of_reading {e : ERE} (hp : e.progress = true) (h1 : e.OneReading) {k : Nat} {text : List Char} {res}
    (h : ExecOk e text k res) : FirstOk e text k res := by
  rcases h with ⟨hx, hn⟩ | ⟨r, S, r1, r2, r3, r4⟩
  · refine .inl ⟨hx, ?_⟩
    cases hf : e.first text with
    | none => rfl
    | some S => exact absurd (captures_matchesIn.mp ⟨S, first_captures hf⟩) hn
  · cases hf : e.first text with
    | none =>
      have := (first_isSome hp text).mpr (captures_matchesIn.mp ⟨S, r2⟩)
      simp [hf] at this
    | some S' => exact .inr ⟨r, S', r1, hf, r3, fun g => by rw [r4 g]; exact h1 _ _ _ r2 (first_captures hf) g⟩

/-- If a pattern without `$` is accepted by the one-pass engine, the text determines what its groups capture. -/
theorem onePass_open_reading (U : Utf8Seqs) {e : ERE} {P : OnePass} (h : compileOnePassU8 U.seqs e = .ok (some P))
    (ho : e.hasEnd = false) : e.OneReading := by
  obtain ⟨M, hb, hM, hP, _⟩ := onePass_compiled U h
  obtain ⟨N, h1, h2⟩ := byteNFA_ok hb
  obtain ⟨rows, hT, _⟩ := hP.table
  exact oneReading_open U h1 h2 hM.ne ho hT

/-- **C46 (one-pass engine).** The program compiles, and the pattern has no `$` or no state of the program has two final
arms. -/
theorem C46_one_pass_partial (U : Utf8Seqs) {e : ERE} (hp : e.progress = true) {P : OnePass}
    (h : compileOnePassU8 U.seqs e = .ok (some P)) (hc : P.compiles = true) (ho : P.OneEnd ∨ e.hasEnd = false)
    (text : List Char) : FirstOk e text P.groups (P.exec text (encode text)) := by
  obtain ⟨M, hb, hM, hP, hok⟩ := onePass_compiled U h
  obtain ⟨N, h1, h2⟩ := byteNFA_ok hb
  rcases ho with ho | ho
  · exact onePass_first U hp h1 h2 hM.ne hP hc ho text
  · exact firstOk_of_reading hp (onePass_open_reading U h ho) ((hok hc).exec text)

/-- **C27 (one-pass engine and flat engine).** -/
theorem C27_one_pass_flat_agree_partial (U : Utf8Seqs) {e : ERE} (hp : e.progress = true) (ha : e.evenAnchors = true)
    {F : Flat U8Atom} {P : OnePass} (h : compileFlatU8 U.seqs e = .ok F)
    (h' : compileOnePassU8 U.seqs e = .ok (some P)) (hc : P.compiles = true) (ho : P.OneEnd ∨ e.hasEnd = false)
    (text : List Char) :
    (F.exec text (encode text) = .ok none ∧ P.exec text (encode text) = .ok none) ∨
    ∃ r r', F.exec text (encode text) = .ok (some r) ∧ P.exec text (encode text) = .ok (some r') ∧
      ∀ g : Nat, (r[g]?).join = (r'[g]?).join :=
  firstOk_agree (C46_flat_u8_partial U hp ha h text) (C46_one_pass_partial U hp h' hc ho text)

/-- **C27 (one-pass engine and DFA engine).** -/
theorem C27_one_pass_dfa_agree_partial (U : Utf8Seqs) {e : ERE} (hp : e.progress = true)
    (hs : e.StartSimple) {G : DfaEngine} {P : OnePass}
    (h : compileDfaU8 U.seqs e = .ok (some G))
    (h' : compileOnePassU8 U.seqs e = .ok (some P)) (hc : P.compiles = true) (ho : P.OneEnd ∨ e.hasEnd = false)
    (text : List Char) :
    (G.tdfa.exec text (encode text) = .ok none ∧ P.exec text (encode text) = .ok none) ∨
    ∃ r r', G.tdfa.exec text (encode text) = .ok (some r) ∧ P.exec text (encode text) = .ok (some r') ∧
      ∀ g : Nat, (r[g]?).join = (r'[g]?).join :=
  firstOk_agree (C46_dfa_partial U hp hs h text) (C46_one_pass_partial U hp h' hc ho text)

instance (P : OnePass) : Decidable P.OneEnd := by
  cases P <;> unfold OnePass.OneEnd <;> infer_instance

/-- non-vacuity: `^a+(b|c)?$` gives a program with a loop, and the condition holds. -/
example : patLoopOpt.progress = true ∧ (compileOnePassU8 utf8Sequences patLoopOpt).map (·.map (fun P =>
    (OnePass.isVm P, P.compiles, decide P.OneEnd))) = .ok (some (true, true, true)) := by decide +kernel
example : patRun.progress = true ∧ (compileOnePassU8 utf8Sequences patRun).map (·.map (fun P =>
    (OnePass.isVm P, P.compiles, decide P.OneEnd))) = .ok (some (false, true, true)) := by decide +kernel

/-- The pattern `^a(b)`. -/
def patOpenEnd : ERE := .mk [.mk [.start, .single (.atom (.normal 'a')),
  .single (.sub (.mk [.mk [.single (.atom (.normal 'b'))]]))]]

example : patOpenEnd.progress = true ∧ patOpenEnd.hasEnd = false ∧ (compileOnePassU8 utf8Sequences patOpenEnd).map (·.map (fun P =>
    (P.compiles, decide (P.exec ['a', 'b', 'c'] (encode ['a', 'b', 'c']) = .ok (some [some (0, 2), some (1, 2)]))))) =
      .ok (some (true, true)) := by decide +kernel

/-- The pattern `^a+(|())$`. -/
def patTwoEnds : ERE := .mk [.mk [.start, .quantified (.atom (.normal 'a')) ⟨.plus, false⟩,
  .single (.sub (.mk [.mk [], .mk [.single (.sub (.mk [.mk []]))]])), .end_]]

/-- **C46 and C27 are false for the one-pass engine in general:** the program for `^a+(|())$` compiles, and
on `a` it reports the second alternative, with group 2 set; the first is preferred, and the flat and
DFA engines report it. -/
theorem C46_one_pass_negation : patTwoEnds.progress = true ∧ patTwoEnds.evenAnchors = true ∧
    patTwoEnds.first ['a'] = some [⟨1, 1, 1⟩, ⟨0, 0, 1⟩] ∧
    (compileOnePassU8 utf8Sequences patTwoEnds).map (·.map (fun P => P.compiles && decide (
      P.exec ['a'] (encode ['a']) = .ok (some [some (0, 1), some (1, 1), some (1, 1)])))) = .ok (some true) ∧
    (do let F ← compileFlatU8 utf8Sequences patTwoEnds; F.exec ['a'] (encode ['a'])) =
      (.ok (some [some (0, 1), some (1, 1), none]) : Except Err _) ∧
    (compileDfaU8 utf8Sequences patTwoEnds).map (·.map (fun G => (G.tdfa.exec ['a'] (encode ['a'])).map (·.map
      (fun r => decide ((r[0]?).join = some (0, 1) ∧ (r[1]?).join = some (1, 1) ∧ (r[2]?).join = none))))) =
      .ok (some (.ok (some true))) := by
  decide +kernel

/-! ## `compile_regex!` -/

/-- The order of preference is kept by the engine in use: always with fixed offsets and for a DFA. -/
def OrderOk (e : ERE) (E : Engine) : Prop :=
  match E.fixed, E.base with
  | none, .onePass P => P.OneEnd ∨ e.hasEnd = false
  | none, .flatU8 _ => e.evenAnchors = true
  | none, .flatChar _ => e.evenAnchors = true
  | _, _ => True

theorem pickInner_first (U : Utf8Seqs) {e : ERE} (hp : e.progress = true) {N : NFA Atom} {M : NFA U8Atom}
    {ascii : Bool} {b : BaseEngine}
    (h1 : workingNew (Tree.fromERE e).1 = .ok N) (h2 : u8New U.seqs N = .ok M)
    (h : pickInner ascii N M = .ok b) {cr : List String} (hc : b.compiles cr = true) (hs : StartOk e ⟨b, none⟩)
    (ho : OrderOk e ⟨b, none⟩) (text : List Char) : FirstOk e text b.groups (b.exec text) := by
  have hb : byteNFA U.seqs e = .ok M := by unfold byteNFA charNFA; rw [h1]; exact h2
  have hcn : charNFA e = .ok N := h1
  unfold pickInner at h
  split at h
  · simp at h
  · rename_i P hP
    injection h with h; subst h
    have hq : compileOnePassU8 U.seqs e = .ok (some P) := by unfold compileOnePassU8; rw [hb]; exact hP
    exact C46_one_pass_partial U hp hq hc ho text
  · split at h
    · simp at h
    · rename_i T hT
      split at h
      · simp at h
      · rename_i G hG
        injection h with h; subst h
        cases G with
        | none => simp [BaseEngine.compiles] at hc
        | some G =>
          have hd : compileDfaU8 U.seqs e = .ok (some G) := by
            unfold compileDfaU8; rw [hb]; simp only [dfaOf]; rw [hT]; exact hG
          exact C46_dfa_partial U hp (hs rfl ⟨_, rfl⟩) hd text
    · split at h
      · split at h
        · simp at h
        · rename_i F hF
          injection h with h; subst h
          have hf : compileFlatU8 U.seqs e = .ok F := by unfold compileFlatU8; rw [hb]; exact hF
          exact C46_flat_u8_partial U hp ho hf text
      · split at h
        · simp at h
        · rename_i F hF
          injection h with h; subst h
          have hf : compileFlatChar e = .ok F := by unfold compileFlatChar; rw [hcn]; exact hF
          exact C46_flat_char_partial hp ho hf text

/-- **C46 (fixed-offset engine).** With an inner engine whose `test` is right. No match is ambiguous here. -/
theorem C46_fixed_partial (U : Utf8Seqs) {e : ERE} (hp : e.progress = true) {M : NFA U8Atom}
    (hM : byteNFA U.seqs e = .ok M) {offs : Slots} (h : M.fixedOffsets = .ok (some offs)) (text : List Char)
    (test : Bool) (ht : test = true ↔ e.MatchesIn text) :
    FirstOk e text M.numCaptureGroups (fixedExec offs test text) := by
  have hi := first_isSome hp text
  rw [← ht] at hi
  cases test with
  | false =>
    refine Or.inl ⟨rfl, ?_⟩
    cases hf : e.first text with
    | none => rfl
    | some S => rw [hf] at hi; simp at hi
  | true =>
    obtain ⟨S, hS⟩ := Option.isSome_iff_exists.mp (hi.mpr rfl)
    obtain ⟨res, r1, r2, r3⟩ := C31_fixed_offsets U hM h text S (first_captures hS)
    exact Or.inr ⟨res, S, r1, hS, by rw [r2, (C23_fixed_exec U hM h).1], r3⟩

/-- **C46 (`compile_regex!`).** If the emitted program compiles, `exec` of the regex reports the preferred
match. -/
theorem C46_compile_regex_partial (U : Utf8Seqs) {e : ERE} (hp : e.progress = true) {E : Engine}
    (h : pickEngine U.seqs e = .ok E) {cr : List String} (hc : E.compiles cr = true) (hs : StartOk e E)
    (ho : OrderOk e E) (text : List Char) : FirstOk e text E.groups (E.exec text) := by
  have hok := (C41_compile_regex_partial U h hc hs).test text
  unfold pickEngine at h
  split at h
  · simp at h
  · rename_i b hb
    obtain ⟨h1, h2, h3⟩ := pickBase_ok hb
    have hbn : byteNFA U.seqs e = .ok b.u8nfa := by unfold byteNFA charNFA; rw [h1]; exact h2
    split at h
    · simp at h
    · rename_i offs hof
      injection h with h; subst h
      obtain ⟨x, h4, h5⟩ := hok
      simp only [Engine.test] at h4
      simp only [Engine.exec, Engine.groups]
      rw [h4]
      exact C46_fixed_partial U hp hbn hof text x h5
    · injection h with h; subst h
      simp only [Engine.compiles, Bool.and_eq_true] at hc
      exact pickInner_first U hp h1 h2 h3 hc.1 hs ho text

/-- non-vacuity: `compile_regex!` uses the DFA for `^(a|ab)(b|é)*?é*$`; the hypotheses hold and the preferred
match is reported. -/
example : patFirst.progress = true ∧ (pickEngine utf8Sequences patFirst).map (fun E => (BaseEngine.kind E.base,
    E.fixed.isSome, E.compiles ["ere"], decide (E.exec ['a', 'b', 'é', 'é'] =
      .ok (some [some (0, 6), some (0, 1), some (1, 2)])))) = .ok (1, false, true, true) := by decide +kernel

end Ere.Props
