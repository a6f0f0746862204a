import Verif.Proofs.Blowup
import Verif.Model.Parse
import Verif.Props.Parser
import Verif.Props.TDFA

/-!
# Properties: size of the generated programs (C57, C58, C59)
-/

namespace Ere.Props
open Ere

/-! ## C57: the number of states is linear in the size of the pattern -/

/-- **C57.** The flat engine over characters has at most `6 * size + 16` states, where the size counts
repetitions as often as they say. -/
theorem C57_flat_char {e : ERE} {F : Flat Atom} (h : compileFlatChar e = .ok F) :
    F.nfa.length ≤ 6 * e.expanded (fun _ => 0) + 16 := by
  unfold compileFlatChar at h
  split at h
  · cases h
  · rename_i N hN
    have h1 := wt_charNFA (fun _ => 0) hN
    rw [wt_zero] at h1
    have h2 : F.nfa = N := by
      unfold compileFlat at h
      split at h
      · cases h
      · split at h
        · cases h
        · cases h; rfl
    rw [h2]; omega

/-- **C57.** The flat engine over bytes: an atom may need up to three more states for each of its
sequences of byte ranges. -/
theorem C57_flat_u8 (U : Utf8Seqs) {e : ERE} {F : Flat U8Atom} (h : compileFlatU8 U.seqs e = .ok F) :
    F.nfa.length ≤ 6 * e.expanded (fun a => 3 * (atomSeqs U.seqs a).length) + 17 +
      6 * (atomSeqs U.seqs anyAtom).length := by
  unfold compileFlatU8 at h
  split at h
  · cases h
  · rename_i M hM
    have h1 := byteNFA_count U hM
    have h2 : F.nfa = M := by
      unfold compileFlat at h
      split at h
      · cases h
      · split at h
        · cases h
        · cases h; rfl
    rw [h2]
    unfold atomCost at h1
    exact Nat.le_trans h1 (by omega)

theorem anyAtom_ranges : anyAtom.toRanges.length = 1 := by decide +kernel

theorem crate_size (e : ERE) : 6 * e.expanded (atomCost utf8Crate) + 17 + 2 * atomCost utf8Crate anyAtom ≤
    6 * e.expanded (fun a => 105 * a.toRanges.length) + 227 := by
  have h1 := ERE.expanded_mono atomCost_crate e
  have h2 := atomCost_crate anyAtom
  rw [anyAtom_ranges] at h2
  omega

/-- **C57.** With the algorithm of the crate `utf8_ranges` an atom needs at most 105 more states for each
of its ranges of characters. -/
theorem C57_flat_u8_crate {e : ERE} {F : Flat U8Atom} (h : compileFlatU8 utf8Sequences e = .ok F) :
    F.nfa.length ≤ 6 * e.expanded (fun a => 105 * a.toRanges.length) + 227 := by
  have h1 := C57_flat_u8 utf8Crate h
  have h2 := crate_size e
  unfold atomCost at h2
  exact Nat.le_trans h1 (Nat.le_trans (by omega) h2)

/-- **C57.** The DFA engine is only made if it has at most twice as many states as the byte automaton (or
at most 100), so it is linear, too; its `test` never has more states than its `exec`. -/
theorem C57_dfa {e : ERE} {E : DfaEngine} (h : compileDfaU8 utf8Sequences e = .ok (some E)) :
    E.dfa.states.length ≤ E.tdfa.states.length ∧
      E.tdfa.states.length ≤ max 100 (12 * e.expanded (fun a => 105 * a.toRanges.length) + 454) := by
  unfold compileDfaU8 at h
  split at h
  · cases h
  · rename_i M hM
    have h1 := dfaOf_count h
    have h2 := byteNFA_count utf8Crate hM
    have h3 := crate_size e
    refine ⟨h1.1, Nat.le_trans h1.2 ?_⟩
    omega

/-- Not vacuous: `a{3}|b` counts 7 and has an automaton. -/
example : (ERE.mk [.mk [.quantified (.atom (.normal 'a')) ⟨.multiple 3, false⟩], .mk [.single (.atom (.normal 'b'))]]).expanded
    (fun _ => 0) = 7 := by decide
example : (compileFlatChar (.mk [.mk [.quantified (.atom (.normal 'a')) ⟨.multiple 3, false⟩],
    .mk [.single (.atom (.normal 'b'))]])).toOption.map (fun F => F.nfa.length) = some 12 := by decide +kernel

/-! ## C58: the size of the emitted program -/

/-- **C58 fails.** The programs of the two flat engines are not bounded by any polynomial in the length of the
pattern: `(()|())` written `n` times needs at least `2^n` thread updates. -/
theorem C58_negation (U : Utf8Seqs) :
    (¬ ∃ c k, ∀ text e F, parseStr text = .ok e → compileFlatChar e = .ok F →
      F.updateCount ≤ c * (text.length + 1) ^ k) ∧
    ¬ ∃ c k, ∀ text e F, parseStr text = .ok e → compileFlatU8 U.seqs e = .ok F →
      F.updateCount ≤ c * (text.length + 1) ^ k := by
  constructor
  · rintro ⟨c, k, h⟩
    obtain ⟨n, hn⟩ := poly_lt_exp c k
    obtain ⟨⟨F, f1, f2⟩, _⟩ := manyWays_flat U n
    have := h (manyWaysText n) (manyWays n) F ((C43_parser_grammar _ _).2 (spells_manyWays n)) f1
    rw [manyWaysText_length] at this
    omega
  · rintro ⟨c, k, h⟩
    obtain ⟨n, hn⟩ := poly_lt_exp c k
    obtain ⟨_, F, f1, f2⟩ := manyWays_flat U n
    have := h (manyWaysText n) (manyWays n) F ((C43_parser_grammar _ _).2 (spells_manyWays n)) f1
    rw [manyWaysText_length] at this
    omega

/-- The patterns of the negation, for every `n`. -/
theorem C58_exponential (U : Utf8Seqs) (n : Nat) :
    ∃ text e, text.length = 7 * n ∧ parseStr text = .ok e ∧
      (∃ F, compileFlatChar e = .ok F ∧ 2 ^ n ≤ F.updateCount) ∧
      ∃ F, compileFlatU8 U.seqs e = .ok F ∧ 2 ^ n ≤ F.updateCount :=
  ⟨manyWaysText n, manyWays n, manyWaysText_length n, (C43_parser_grammar _ _).2 (spells_manyWays n), manyWays_flat U n⟩

/-- **C58, partial.** For a fixed number of groups the number of thread updates is quadratic in the size of the
pattern. (Missing: a bound that is polynomial in the number of groups, which does not exist.) -/
theorem C58_flat_char_partial {e : ERE} {F : Flat Atom} (h : compileFlatChar e = .ok F) :
    F.updateCount ≤ 4 * (2 * e.groups + 3) ^ (2 * e.groups + 2) * (6 * e.expanded (fun _ => 0) + 16) ^ 2 := by
  have hsize := C57_flat_char h
  obtain ⟨N, h1, h2, hN, _⟩ := flat_char h
  have hg := groups_le_char e h1 hN
  have hc : compileFlat N = .ok F := by
    unfold compileFlatChar charNFA at h
    rw [h1] at h
    exact h
  have h3 := compileFlat_count hN hg hc
  rw [h2.nfa] at hsize
  refine Nat.le_trans h3 ?_
  rw [show 2 * (e.groups + 1) = 2 * e.groups + 2 by omega]
  exact Nat.mul_le_mul_left _ (Nat.pow_le_pow_left hsize 2)

/-- **C58, partial.** The same for the flat engine over bytes. -/
theorem C58_flat_u8_partial {e : ERE} {F : Flat U8Atom} (h : compileFlatU8 utf8Sequences e = .ok F) :
    F.updateCount ≤ 4 * (2 * e.groups + 3) ^ (2 * e.groups + 2) *
      (6 * e.expanded (fun a => 105 * a.toRanges.length) + 227) ^ 2 := by
  have hsize := C57_flat_u8_crate h
  obtain ⟨N, M, h1, h2, hF, hM, _⟩ := flat_u8 utf8Crate h
  have hN := (pipeline_ne utf8Crate e h1 h2 hM.ne).1
  have hg := (groups_le utf8Crate e h1 hN h2 hM.ne).2
  have hc : compileFlat M = .ok F := by
    unfold compileFlatU8 byteNFA charNFA at h
    rw [h1] at h
    simp only at h
    rw [show u8New utf8Sequences N = .ok M from h2] at h
    exact h
  have h3 := compileFlat_count hM hg hc
  rw [hF.nfa] at hsize
  refine Nat.le_trans h3 ?_
  rw [show 2 * (e.groups + 1) = 2 * e.groups + 2 by omega]
  exact Nat.mul_le_mul_left _ (Nat.pow_le_pow_left hsize 2)

/-- Not vacuous: two copies of `(()|())` already have more than four updates. -/
example : (compileFlatChar (manyWays 2)).toOption.map (fun F => decide (4 ≤ F.updateCount)) = some true := by
  decide +kernel

/-! ## C59: minimal DFAs -/

/-- Two states of a DFA are alike if they accept the same byte strings. -/
def Alike (D : DFA) (i j : Nat) : Prop :=
  ∃ s t, D.states[i]? = some s ∧ D.states[j]? = some t ∧ ∀ bs, DFA.Accepts D s bs ↔ DFA.Accepts D t bs

/-- The DFA of `^ac*$|^bc*$`. -/
def exTwins : DFA :=
  ⟨⟨.none, [⟨0, ⟨97, 97⟩⟩, ⟨1, ⟨98, 98⟩⟩]⟩,
    [⟨.anchored, [⟨0, ⟨99, 99⟩⟩]⟩, ⟨.anchored, [⟨1, ⟨99, 99⟩⟩]⟩]⟩

/-- Its pattern. -/
def exTwinsERE : ERE :=
  .mk [.mk [.start, .single (.atom (.normal 'a')), .quantified (.atom (.normal 'c')) ⟨.star, false⟩, .end_],
    .mk [.start, .single (.atom (.normal 'b')), .quantified (.atom (.normal 'c')) ⟨.star, false⟩, .end_]]

theorem exTwins_accepts (k : Nat) (hk : k < 2) (bs : List UInt8) :
    DFA.Accepts exTwins ⟨.anchored, [⟨k, ⟨99, 99⟩⟩]⟩ bs ↔ ∀ b ∈ bs, b = 99 := by
  have hget : exTwins.states[k]? = some ⟨.anchored, [⟨k, ⟨99, 99⟩⟩]⟩ := by
    match k, hk with
    | 0, _ => rfl
    | 1, _ => rfl
  induction bs with
  | nil => simp only [List.not_mem_nil, false_implies, implies_true, iff_true]; exact .anchored rfl
  | cons b bs ih =>
    constructor
    · intro h
      cases h with
      | always h => cases h
      | step ht h1 h2 h3 h4 =>
        simp only [List.mem_singleton] at ht
        subst ht
        rw [hget] at h3
        cases h3
        intro x hx
        rcases List.mem_cons.1 hx with rfl | hx
        · exact UInt8.le_antisymm h2 h1
        · exact ih.1 h4 x hx
    · intro h
      obtain rfl := h b List.mem_cons_self
      exact .step (t := ⟨k, ⟨99, 99⟩⟩) (by simp) (UInt8.le_refl _) (UInt8.le_refl _) hget
        (ih.2 fun x hx => h x (List.mem_cons_of_mem _ hx))

/-- **C59 fails.** The DFA of `^ac*$|^bc*$` has two different states that accept the same byte strings. -/
theorem C59_negation : ¬ ∀ (text : List Char) (e : ERE) (E : DfaEngine), parseStr text = .ok e →
    compileDfaU8 utf8Sequences e = .ok (some E) → ∀ i j, Alike E.dfa i j → i = j := by
  intro h
  have hp : parseStr "^ac*$|^bc*$".toList = .ok exTwinsERE := by
    refine (C43_parser_grammar _ _).2 ?_
    have hb : ∀ c : Char, c ∉ specials → SpellsBranch
        (.mk [.start, .single (.atom (.normal c)), .quantified (.atom (.normal 'c')) ⟨.star, false⟩, .end_])
        ['^', c, 'c', '*', '$'] := by
      intro c hc
      refine .cons (w := ['^']) .start (.cons (w := [c]) (.single (.atom (.plain hc)))
        (.cons (w := ['c', '*']) ?_ (.cons (w := ['$']) (v := []) .end_ .nil)))
      exact .quantified (w := ['c']) (.atom (.plain (by decide))) (.greedy .star)
    exact .more (w := ['^', 'a', 'c', '*', '$']) (hb 'a' (by decide)) (.one (hb 'b' (by decide)))
  have hd : (compileDfaU8 utf8Sequences exTwinsERE).toOption.map (fun o => o.map (·.dfa)) = some (some exTwins) := by
    decide +kernel
  cases hE : compileDfaU8 utf8Sequences exTwinsERE with
  | error x => rw [hE] at hd; simp [Except.toOption] at hd
  | ok o =>
    rw [hE] at hd
    cases o with
    | none => simp [Except.toOption] at hd
    | some E =>
      have hD : E.dfa = exTwins := by simpa [Except.toOption] using hd
      have := h _ _ _ hp hE 0 1 (by
        rw [hD]
        exact ⟨_, _, rfl, rfl, fun bs => (exTwins_accepts 0 (by omega) bs).trans (exTwins_accepts 1 (by omega) bs).symm⟩)
      omega

/-- **C59, partial.** Two states of the DFA that accept alike and have the same transitions are the same state.
(Missing: states that are alike but lead to different states, which exist.) -/
theorem C59_distinct_partial {seqs : Char → Char → List (List U8Atom)} {e : ERE} {E : DfaEngine}
    (h : compileDfaU8 seqs e = .ok (some E)) {i j : Nat} {s : DState}
    (hi : E.dfa.states[i]? = some s) (hj : E.dfa.states[j]? = some s) : i = j := by
  have hn : E.dfa.states.Nodup := by
    unfold compileDfaU8 at h
    split at h
    · cases h
    · unfold dfaOf at h
      split at h
      · cases h
      · cases h
      · unfold serializeDfa at h
        split at h
        · cases h
        · cases h
        · rename_i D hD
          cases h
          unfold DFA.fromTagged at hD
          dsimp only at hD
          split at hD
          · split at hD
            · cases hD
            · rename_i h1
              cases hD
              exact minimiseLoop_nodup h1
          · cases hD
  have h1 : i < E.dfa.states.length := (List.getElem?_eq_some_iff.1 hi).1
  exact (List.getElem?_inj h1 hn).1 (hi.trans hj.symm)

/-- Not vacuous: for `^(a)$|^b$` two states of `exec` are one state of `test`. -/
example : (compileDfaU8 utf8Sequences (.mk [.mk [.start, .single (.sub (.mk [.mk [.single (.atom (.normal 'a'))]])), .end_],
    .mk [.start, .single (.atom (.normal 'b')), .end_]])).toOption.map
      (fun o => o.map (fun E => (E.dfa.states.length, E.tdfa.states.length))) = some (some (1, 2)) := by
  decide +kernel

end Ere.Props
