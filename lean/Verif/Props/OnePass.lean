import Verif.Proofs.OnePassTop
import Verif.Proofs.Framed
import Verif.Props.Flat

/-!
# Property theorems about the one-pass engine: C21 (`test`), C39 (the program compiles: false in general;
exact characterisation), C23 and C30 for the one-pass engine
-/

namespace Ere.Props
open Ere

theorem compileOnePass_ne {M : NFA U8Atom} {o : Option OnePass} (h : compileOnePass M = .ok o) : M ≠ [] := by
  rintro rfl
  have : compileOnePass [] = .error .panic := rfl
  rw [this] at h; simp at h

/-- The engine of a byte automaton. -/
theorem onePass_engine (U : Utf8Seqs) {e : ERE} {M : NFA U8Atom} (hb : byteNFA U.seqs e = .ok M) {o}
    (h : compileOnePass M = .ok o) : Ready M ∧ ∀ P, o = some P → OnePassOk M P ∧
      (P.compiles = true → OnePassCorrect P e) := by
  obtain ⟨N, h1, h2⟩ := byteNFA_ok hb
  obtain ⟨hN, hM, h3, h4⟩ := pipeline_ne U e h1 h2 (compileOnePass_ne h)
  obtain ⟨o', h5, h6⟩ := compileOnePass_spec hM (u8New_symP U hN h2 hM.ne)
  obtain rfl : o' = o := by rw [h5] at h; injection h
  refine ⟨hM, fun P hP => ⟨h6 P hP, fun hc => ?_⟩⟩
  refine onePassCorrect hM (h6 P hP) hc ?_
  intro text caps
  rw [unitLen_u8, encode_length, acc_enc h4, h3]

/-- The engine of a pattern. -/
theorem onePass_compiled (U : Utf8Seqs) {e : ERE} {P : OnePass} (h : compileOnePassU8 U.seqs e = .ok (some P)) :
    ∃ M, byteNFA U.seqs e = .ok M ∧ Ready M ∧ OnePassOk M P ∧ (P.compiles = true → OnePassCorrect P e) := by
  unfold compileOnePassU8 at h
  split at h
  · simp at h
  · rename_i M hb
    obtain ⟨h1, h2⟩ := onePass_engine U hb h
    exact ⟨M, hb, h1, h2 P rfl⟩

/-- C17 for this macro: it returns if the pattern can match at all. -/
theorem C17_one_pass_returns (U : Utf8Seqs) (e : ERE) (hm : ∃ text, e.MatchesIn text) :
    ∃ o, compileOnePassU8 U.seqs e = .ok o := by
  obtain ⟨N, M, h1, h2, hN, hM, h3, h4⟩ := pipeline_spec U e hm
  obtain ⟨o, h5, h6⟩ := compileOnePass_spec hM (u8New_symP U hN h2 hM.ne)
  have hb : byteNFA U.seqs e = .ok M := by unfold byteNFA charNFA; rw [h1]; exact h2
  exact ⟨o, by unfold compileOnePassU8; rw [hb]; exact h5⟩

/-- **C21.** If the macro emits a program and the program compiles, its `test` neither panics nor loops and
is true exactly for the texts that contain a match. -/
theorem C21_one_pass_test (U : Utf8Seqs) {e : ERE} {P : OnePass} (h : compileOnePassU8 U.seqs e = .ok (some P))
    (hc : P.compiles = true) (text : List Char) :
    ∃ b, P.test (encode text) = .ok b ∧ (b = true ↔ e.MatchesIn text) := by
  obtain ⟨M, _, _, _, h2⟩ := onePass_compiled U h
  rcases (h2 hc).test text with ⟨h3, h4⟩ | ⟨h3, h4⟩
  · exact ⟨true, h3, by simp [h4]⟩
  · exact ⟨false, h3, by simp [h4]⟩

/-- **C23 (one-pass engine).** -/
theorem C23_one_pass_exec (U : Utf8Seqs) {e : ERE} {P : OnePass} (h : compileOnePassU8 U.seqs e = .ok (some P))
    (hc : P.compiles = true) (text : List Char) : ExecOk e text P.groups (P.exec text (encode text)) := by
  obtain ⟨M, _, _, _, h2⟩ := onePass_compiled U h
  exact (h2 hc).exec text

/-- The pattern `^a+(b|c)?$`. -/
def patLoopOpt : ERE := .mk [.mk [.start, .quantified (.atom (.normal 'a')) ⟨.plus, false⟩,
  .quantified (.sub (.mk [.mk [.single (.atom (.normal 'b'))], .mk [.single (.atom (.normal 'c'))]])) ⟨.question, false⟩,
  .end_]]

/-- The pattern `^ab(c|é)?$`. -/
def patRun : ERE := .mk [.mk [.start, .single (.atom (.normal 'a')), .single (.atom (.normal 'b')),
  .quantified (.sub (.mk [.mk [.single (.atom (.normal 'c'))], .mk [.single (.atom (.normal 'é'))]])) ⟨.question, false⟩,
  .end_]]

def OnePass.isVm : OnePass → Bool
  | .vm _ => true
  | .fn _ => false

/-- non-vacuity: a pattern with a loop (the vm-like program) and one without (functions, with a run). -/
example : (compileOnePassU8 utf8Sequences patLoopOpt).map (·.map (fun P => (OnePass.isVm P, P.compiles &&
    decide (P.test (encode ['a', 'a', 'c']) = .ok true) && decide (P.test (encode ['a', 'a', 'c', 'c']) = .ok false) &&
    decide (P.exec ['a', 'a', 'c'] (encode ['a', 'a', 'c']) = .ok (some [some (0, 3), some (2, 3)])) &&
    decide (P.exec ['a'] (encode ['a']) = .ok (some [some (0, 1), none]))))) =
    .ok (some (true, true)) := by decide +kernel

example : (compileOnePassU8 utf8Sequences patRun).map (·.map (fun P => (OnePass.isVm P, P.compiles &&
    decide (P.test (encode ['a', 'b', 'é']) = .ok true) && decide (P.test (encode ['a']) = .ok false) &&
    decide (P.exec ['a', 'b', 'é'] (encode ['a', 'b', 'é']) = .ok (some [some (0, 4), some (2, 4)])) &&
    decide (P.exec ['a', 'b'] (encode ['a', 'b']) = .ok (some [some (0, 2), none]))))) =
    .ok (some (false, true)) := by decide +kernel

theorem patLoopOpt_matches : patLoopOpt.MatchesIn ['a'] :=
  ⟨[], ['a'], [], rfl, .intro (List.mem_singleton.mpr rfl) (.cons (m1 := []) (m2 := ['a']) .start
    (.cons (m1 := ['a']) (m2 := []) (.quantified (n := 1) (by decide) (by simp [QType.max])
        (.succ (m1 := ['a']) (m2 := []) (.atom (by decide)) .zero))
      (.cons (m1 := []) (m2 := []) (.quantified (n := 0) (by decide) (by simp [QType.max]) .zero)
        (.cons (m1 := []) (m2 := []) .end_ .nil))))⟩

/-- The pattern with a loop does not match the empty text (the hypothesis of
`C39_one_pass_compiles_partial`). -/
example : ¬ patLoopOpt.MatchesIn [] := by
  obtain ⟨F, h1⟩ := (C17_flat_returns utf8Crate patLoopOpt ⟨_, patLoopOpt_matches⟩).2
  have h2 := C19_flat_u8_test utf8Crate h1
  have hF : (compileFlatU8 utf8Sequences patLoopOpt).map (fun F => F.test (encode [])) = .ok false := by
    decide +kernel
  have e1 : compileFlatU8 utf8Sequences patLoopOpt = .ok F := h1
  rw [e1] at hF
  simp only [Except.map, Except.ok.injEq] at hF
  rw [← h2, hF]; simp

/-- **C30 (one-pass engine).** No assignment addresses a slot outside the array. -/
theorem C30_one_pass_slots (U : Utf8Seqs) {e : ERE} {P : OnePass} (h : compileOnePassU8 U.seqs e = .ok (some P)) :
    ∀ t ∈ P.tags, t.group < P.groups := by
  obtain ⟨M, _, _, h2, _⟩ := onePass_compiled U h
  intro t ht
  rw [h2.groups]
  exact h2.tags t ht

/-! ## C39 -/

/-- **C39, exactly.** A program emitted for a pattern fails to compile in two cases only: its automaton has
a cycle and the accept state can be reached without reading over a start anchor from the start or from
the target of a symbol; or its automaton has no cycle and the accept state can be reached without reading
from the same such state in two ways that set different marks. -/
theorem C39_one_pass_compiles_iff (U : Utf8Seqs) {e : ERE} {P : OnePass}
    (h : compileOnePassU8 U.seqs e = .ok (some P)) :
    ∃ M, byteNFA U.seqs e = .ok M ∧
      (M.Cyclic → (P.compiles = true ↔ ¬ M.AnchoredEnd)) ∧
      (¬ M.Cyclic → (P.compiles = true ↔ ¬ M.TwoEnds)) := by
  obtain ⟨M, hb, _, h2, _⟩ := onePass_compiled U h
  exact ⟨M, hb, h2.cyclic, h2.acyclic⟩

/-- **C39 (partial).** If the pattern does not match the empty text, the only programs that do not compile
are those of automata without cycles in which the accept state can be reached without reading from the same
state in two ways that set different marks. Missing: the patterns that match the empty text, and the
automata excepted here, for some of which it is false (`C39_negation`). -/
theorem C39_one_pass_compiles_partial (U : Utf8Seqs) {e : ERE} (h0 : ¬ e.MatchesIn []) {P : OnePass}
    (h : compileOnePassU8 U.seqs e = .ok (some P)) :
    ∃ M, byteNFA U.seqs e = .ok M ∧ ((M.Cyclic ∨ ¬ M.TwoEnds) → P.compiles = true) := by
  obtain ⟨M, hb, hR, h6, _⟩ := onePass_compiled U h
  obtain ⟨N, h1, h2⟩ := byteNFA_ok hb
  obtain ⟨hN, hM, h3, h4⟩ := pipeline_ne U e h1 h2 hR.ne
  have hsafe := startSafe_pipeline U e (.inr (.inr h0)) h1 hN h2 hM.ne
  have hna : ¬ M.AnchoredEnd := by
    rintro ⟨q, ls, hq | ⟨p, a, hq⟩, hw, hm⟩
    · subst hq
      apply h0
      have hg : ∀ l ∈ ls, epsGuard 0 0 l = true := by
        intro l _; cases l <;> simp [epsGuard]
      have hr := walkRun (α := UInt8) (rest := []) hw hg (by simp [unitLen]) []
      have hacc : M.Acc (α := UInt8) ⟨0, encode [], []⟩ ⟨0, [], walkEvents 0 ls⟩ := ⟨hM.ne, hr⟩
      rw [← exists_run_iff]
      exact ⟨_, (h3 [] _).mp ((acc_enc h4 [] 0 _).mp hacc)⟩
    · exact hsafe p a q ls hq hw hm
  refine ⟨M, hb, fun hc => ?_⟩
  by_cases hcyc : M.Cyclic
  · exact (h6.cyclic hcyc).mpr hna
  · exact (h6.acyclic hcyc).mpr (hc.resolve_left hcyc)

/-- **C39 for patterns with anchors only around the branches, in terms of the pattern.** Let every branch of the pattern
begin with `^` (if `s`), end with `$` (if `t`) and contain no other anchors. If the pattern matches texts of any length
(or goes through groups any number of times), the emitted program compiles exactly if there is no `^` or the empty text is
not matched. Otherwise it compiles exactly if every text determines what the groups capture. -/
theorem C39_framed_compiles_iff (U : Utf8Seqs) {s t : Bool} {e : ERE} (he : e.Framed s t) {P : OnePass}
    (h : compileOnePassU8 U.seqs e = .ok (some P)) :
    (e.Unbounded → (P.compiles = true ↔ ¬ (s = true ∧ e.MatchesIn []))) ∧
    (¬ e.Unbounded → (P.compiles = true ↔ e.OneReading)) := by
  obtain ⟨M, hb, hR, h6, _⟩ := onePass_compiled U h
  obtain ⟨N, h1, h2⟩ := byteNFA_ok hb
  obtain ⟨rows, hT, _⟩ := h6.table
  rw [← cyclic_iff U h1 h2 hR.ne he, ← anchoredEnd_matches U h1 h2 hR.ne he, ← twoEnds_iff U h1 h2 hR.ne he hT]
  exact ⟨h6.cyclic, h6.acyclic⟩

/-- **C39 for patterns without `^`.** If the pattern has no `^` and matches some text, the emitted program compiles. -/
theorem C39_no_start_compiles (U : Utf8Seqs) {e : ERE} (hs : e.hasStart = false) (hm : ∃ text, e.MatchesIn text) {P : OnePass}
    (h : compileOnePassU8 U.seqs e = .ok (some P)) : P.compiles = true := by
  obtain ⟨M, hb, hR, h6, _⟩ := onePass_compiled U h
  obtain ⟨N, h1, h2⟩ := byteNFA_ok hb
  refine (h6.cyclic (unbounded_cyclic U h1 h2 hR.ne (unbounded_of_open (.inl hs) hm))).mpr ?_
  rintro ⟨q, ls, _, hw, hm⟩
  obtain ⟨a, b, he⟩ := ewalk_label hw _ hm
  exact noStart_byte U h1 h2 hR.ne hs he

/-- **C39 for patterns of unbounded length.** If the pattern matches texts of any length (or goes through groups any
number of times) and does not match the empty text, the emitted program compiles; if in addition a `^` comes first in
every branch, this is the only case in which it does. -/
theorem C39_unbounded_compiles (U : Utf8Seqs) {e : ERE} (hu : e.Unbounded) {P : OnePass}
    (h : compileOnePassU8 U.seqs e = .ok (some P)) :
    (¬ e.MatchesIn [] → P.compiles = true) ∧ (e.leads = true → (P.compiles = true ↔ ¬ e.MatchesIn [])) := by
  have k1 : ¬ e.MatchesIn [] → P.compiles = true := fun h0 => by
    obtain ⟨M, hb, k⟩ := C39_one_pass_compiles_partial U h0 h
    obtain ⟨N, h1, h2⟩ := byteNFA_ok hb
    obtain ⟨M', hb', hR, _⟩ := onePass_compiled U h
    obtain rfl := Except.ok.inj (hb.symm.trans hb')
    exact k (.inl (unbounded_cyclic U h1 h2 hR.ne hu))
  refine ⟨k1, fun hl => ⟨fun hc h0 => ?_, k1⟩⟩
  obtain ⟨M, hb, hR, h6, _⟩ := onePass_compiled U h
  obtain ⟨N, h1, h2⟩ := byteNFA_ok hb
  refine (h6.cyclic (unbounded_cyclic U h1 h2 hR.ne hu)).mp hc ?_
  obtain ⟨S, hS⟩ := captures_matchesIn.mpr h0
  obtain ⟨caps, _, ha⟩ := captures_acc U h1 h2 hR.ne hS
  obtain ⟨ls, hw⟩ := acc_nil_walk ha
  exact ⟨0, ls, .inl rfl, hw, lead_byte U h1 h2 hR.ne hl hw⟩

/-- The pattern `^a*$`. -/
def patStar : ERE := .mk [.mk [.start, .quantified (.atom (.normal 'a')) ⟨.star, false⟩, .end_]]

/-- The pattern `^(|())$`. -/
def patTwoEmpty : ERE := .mk [.mk [.start, .single (.sub (.mk [.mk [], .mk [.single (.sub (.mk [.mk []]))]])), .end_]]

/-- **C39 is false**: the one-pass engine accepts `^a*$` and emits a program with loops that uses `i`
outside the loop that binds it; it accepts `^(|())$` and emits `compile_error!`. -/
theorem C39_negation :
    (∃ text, patStar.MatchesIn text) ∧ (∃ text, patTwoEmpty.MatchesIn text) ∧
    (compileOnePassU8 utf8Sequences patStar).map (·.map (fun P => (OnePass.isVm P, P.compiles))) =
      .ok (some (true, false)) ∧
    (compileOnePassU8 utf8Sequences patTwoEmpty).map (·.map (fun P => (OnePass.isVm P, P.compiles))) =
      .ok (some (false, false)) := by
  refine ⟨⟨[], [], [], [], rfl, ?_⟩, ⟨[], [], [], [], rfl, ?_⟩, by decide +kernel, by decide +kernel⟩
  · exact .intro (List.mem_singleton.mpr rfl) (.cons (m1 := []) (m2 := []) .start
      (.cons (m1 := []) (m2 := []) (.quantified (n := 0) (by decide) (by simp [QType.max]) .zero)
        (.cons (m1 := []) (m2 := []) .end_ .nil)))
  · exact .intro (List.mem_singleton.mpr rfl) (.cons (m1 := []) (m2 := []) .start
      (.cons (m1 := []) (m2 := []) (.single (.sub (.intro (b := .mk []) (by simp) .nil)))
        (.cons (m1 := []) (m2 := []) .end_ .nil)))

/-! non-vacuity of `C39_framed_compiles_iff`: `^a*$` is of the first kind and matches the empty text; `^(|())$` is of the
required form and does not determine its captures. -/

theorem aTimes : ∀ (n : Nat) (pre post : List Char),
    MatchesTimes (.atom (.normal 'a')) n pre (List.replicate n 'a') post
  | 0, _, _ => .zero
  | n + 1, pre, post => .succ (m1 := ['a']) (.atom (by decide)) (aTimes n _ post)

theorem patStar_matches (n : Nat) : patStar.MatchesIn (List.replicate n 'a') := by
  have h : MatchesBranch (.mk [.start, .quantified (.atom (.normal 'a')) ⟨.star, false⟩, .end_]) []
      ([] ++ (List.replicate n 'a' ++ ([] ++ []))) [] :=
    .cons .start (.cons (.quantified (n := n) (by simp [QType.min]) (by simp [QType.max]) (aTimes n _ _))
      (.cons .end_ .nil))
  exact ⟨[], _, [], by simp, .intro (List.mem_singleton.mpr rfl) h⟩

example : patStar.Framed true true ∧ patStar.Unbounded ∧ patStar.MatchesIn [] := by
  refine ⟨⟨_, rfl, fun b hb => ⟨[.quantified (.atom (.normal 'a')) ⟨.star, false⟩], ?_, rfl, rfl⟩⟩, fun n => ?_,
    patStar_matches 0⟩
  · exact List.mem_singleton.mp hb
  · obtain ⟨S, h⟩ := captures_matchesIn.mpr (patStar_matches n)
    exact ⟨_, S, h, by simp⟩

example : patTwoEmpty.Framed true true ∧ ¬ patTwoEmpty.OneReading := by
  refine ⟨⟨_, rfl, fun b hb => ⟨[.single (.sub (.mk [.mk [], .mk [.single (.sub (.mk [.mk []]))]]))], ?_, rfl, rfl⟩⟩, fun h => ?_⟩
  · exact List.mem_singleton.mp hb
  · have h1 : patTwoEmpty.Captures [] [⟨1, 0, 0⟩, ⟨0, 0, 0⟩] := by
      refine ⟨[], [], [], [⟨1, 0, 0⟩], rfl, ?_, rfl⟩
      refine .intro (bs1 := []) (bs2 := []) rfl (.cons (m1 := []) (m2 := []) (S1 := []) (S2 := [⟨1, 0, 0⟩]) .start
        (.cons (m1 := []) (m2 := []) (S1 := [⟨1, 0, 0⟩]) (S2 := []) (.single ?_)
          (.cons (m1 := []) (m2 := []) (S1 := []) (S2 := []) .end_ .nil)))
      exact .sub (S := []) (.intro (b := .mk []) (bs1 := []) rfl .nil)
    have h2 : patTwoEmpty.Captures [] [⟨2, 0, 0⟩, ⟨1, 0, 0⟩, ⟨0, 0, 0⟩] := by
      refine ⟨[], [], [], [⟨2, 0, 0⟩, ⟨1, 0, 0⟩], rfl, ?_, rfl⟩
      refine .intro (bs1 := []) (bs2 := []) rfl (.cons (m1 := []) (m2 := []) (S1 := []) (S2 := [⟨2, 0, 0⟩, ⟨1, 0, 0⟩]) .start
        (.cons (m1 := []) (m2 := []) (S1 := [⟨2, 0, 0⟩, ⟨1, 0, 0⟩]) (S2 := []) (.single ?_)
          (.cons (m1 := []) (m2 := []) (S1 := []) (S2 := []) .end_ .nil)))
      refine .sub (S := [⟨2, 0, 0⟩]) (.intro (b := .mk [.single (.sub (.mk [.mk []]))]) (bs1 := [.mk []]) rfl ?_)
      exact .cons (m1 := []) (m2 := []) (S1 := [⟨2, 0, 0⟩]) (S2 := [])
        (.single (.sub (S := []) (.intro (b := .mk []) (bs1 := []) rfl .nil))) .nil
    have := h [] _ _ h1 h2 2
    simp [lastSpan] at this

end Ere.Props
