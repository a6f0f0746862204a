import Verif.Proofs.Spans
import Verif.Props.Pick

/-!
# Property theorems about where the groups lie: C52, C55, C56
-/

namespace Ere.Props
open Ere

/-- What `exec` returned. -/
abbrev Exec := Except Err (Option (List (Option (Nat × Nat))))

/-- Every group that is set lies inside of group 0, which is set and lies in the text. -/
def Inside (text : List Char) (res : Exec) : Prop :=
  ∀ r, res = .ok (some r) → ∃ i j, r[0]? = some (some (i, j)) ∧ j ≤ byteLen text ∧
    ∀ (g : Nat) a b, r[g]? = some (some (a, b)) → i ≤ a ∧ a ≤ b ∧ b ≤ j

/-- A group begins after the groups with smaller numbers, and is inside of them or behind them. -/
def InOrder (res : Exec) : Prop :=
  ∀ r, res = .ok (some r) → ∀ (k l : Nat) a b c d, k < l → r[k]? = some (some (a, b)) → r[l]? = some (some (c, d)) →
    a ≤ c ∧ (d ≤ b ∨ b ≤ c)

/-- A group lies inside of the group around it. -/
def Nested (e : ERE) (res : Exec) : Prop :=
  ∀ r, res = .ok (some r) → ∀ c q : Nat, (c, q) ∈ e.nest 0 1 → ∀ a b, r[c]? = some (some (a, b)) →
    ∃ i j, r[q]? = some (some (i, j)) ∧ i ≤ a ∧ b ≤ j

/-- If a group is set, so is the group around it. -/
def ParentsSet (e : ERE) (res : Exec) : Prop :=
  ∀ r, res = .ok (some r) → ∀ c q : Nat, (c, q) ∈ e.nest 0 1 → (∃ p, r[c]? = some (some p)) → ∃ p, r[q]? = some (some p)

theorem join_iff {r : List (Option (Nat × Nat))} {S : List Span} (h : ∀ g : Nat, (r[g]?).join = lastSpan S g) (g : Nat)
    (p : Nat × Nat) : r[g]? = some (some p) ↔ lastSpan S g = some p := by
  rw [← h g, Option.join_eq_some_iff]

/-- What holds of every engine. -/
theorem execLate_spans {e : ERE} {text : List Char} {k : Nat} {res : Exec} (h : ExecLate e text k res) :
    Inside text res ∧ (e.once = true → InOrder res ∧ Nested e res) ∧ ParentsSet e res := by
  have key : ∀ (e' : ERE) (r : List (Option (Nat × Nat))) (S : List Span), e'.Captures text S →
      (∀ g : Nat, (r[g]?).join = lastSpan S g) → res = .ok (some r) → e'.once = e.once → e'.nest 0 1 = e.nest 0 1 →
      Inside text res ∧ (e.once = true → InOrder res ∧ Nested e res) ∧ ParentsSet e res := by
    intro e' r S hc hr hres ho hn
    have hj := join_iff hr
    have hu : ∀ r', res = .ok (some r') → r' = r := fun r' h' =>
      (Option.some.inj (Except.ok.inj (h'.symm.trans hres)))
    refine ⟨?_, ?_, ?_⟩
    · intro r' h'
      rw [hu r' h']
      obtain ⟨i, j, h0, h1, h2, h3⟩ := captures_spans hc
      refine ⟨i, j, (hj 0 _).mpr h0, h2, fun g a b hg => ?_⟩
      exact h3 _ (lastSpan_mem ((hj g _).mp hg))
    · refine fun honce => ⟨?_, ?_⟩
      · intro r' h' k l a b c d hkl hk hl
        rw [hu r' h'] at hk hl
        exact captures_order hc (ho.trans honce) k l a b c d hkl ((hj k _).mp hk) ((hj l _).mp hl)
      · intro r' h' c q hm a b hk
        rw [hu r' h'] at hk ⊢
        obtain ⟨i, j, k1, k2⟩ := captures_nested hc (ho.trans honce) (hn ▸ hm) ((hj c _).mp hk)
        exact ⟨i, j, (hj q _).mpr k1, k2⟩
    · intro r' h' c q hm ⟨p, hp⟩
      rw [hu r' h'] at hp ⊢
      obtain ⟨p', hp'⟩ := captures_enclosed hc (hn ▸ hm) ⟨p, (hj c _).mp hp⟩
      exact ⟨p', (hj q _).mpr hp'⟩
  rcases h with (⟨h1, _⟩ | ⟨r, S, h1, h2, _, h3⟩) | ⟨r, S, _, h1, _, h2, _, _, h3⟩
  · have hf : ∀ r, res ≠ .ok (some r) := fun r hr => by rw [h1] at hr; simp at hr
    exact ⟨fun r hr => absurd hr (hf r), fun _ => ⟨fun r hr => absurd hr (hf r), fun r hr => absurd hr (hf r)⟩,
      fun r hr => absurd hr (hf r)⟩
  · exact key e r S h2 h3 h1 rfl rfl
  · exact key e.dropStart r S h2 h3 h1 (ERE.dropStart_once e) (ERE.dropStart_nest 0 e 1)

/-! ## C52 -/

/-- **C52 (`compile_regex!`).** -/
theorem C52_compile_regex (U : Utf8Seqs) {e : ERE} {E : Engine} (h : pickEngine U.seqs e = .ok E) {cr : List String}
    (hc : E.compiles cr = true) (text : List Char) : Inside text (E.exec text) :=
  (execLate_spans (C41_late_partial U h hc text).2).1

/-- C52 (flat engine over characters). -/
theorem C52_flat_char {e : ERE} {F : Flat Atom} (h : compileFlatChar e = .ok F) (text : List Char) :
    Inside text (F.exec text text) :=
  (execLate_spans (Or.inl (C23_flat_char_exec h text))).1

/-- C52 (flat engine over bytes). -/
theorem C52_flat_u8 (U : Utf8Seqs) {e : ERE} {F : Flat U8Atom} (h : compileFlatU8 U.seqs e = .ok F) (text : List Char) :
    Inside text (F.exec text (encode text)) :=
  (execLate_spans (Or.inl (C23_flat_u8_exec U h text))).1

/-- C52 (one-pass engine). -/
theorem C52_one_pass (U : Utf8Seqs) {e : ERE} {P : OnePass} (h : compileOnePassU8 U.seqs e = .ok (some P))
    (hc : P.compiles = true) (text : List Char) : Inside text (P.exec text (encode text)) :=
  (execLate_spans (Or.inl (C23_one_pass_exec U h hc text))).1

/-- C52 (DFA engine), for every pattern. -/
theorem C52_dfa (U : Utf8Seqs) {e : ERE} {G : DfaEngine} (h : compileDfaU8 U.seqs e = .ok (some G)) (text : List Char) :
    Inside text (G.tdfa.exec text (encode text)) :=
  (execLate_spans (C23_dfa_late_partial U h text)).1

/-- C52 (fixed-offset engine). -/
theorem C52_fixed_offset (U : Utf8Seqs) {e : ERE} {E : Engine} (h : compileFixed U.seqs e = .ok (some E))
    {cr : List String} (hc : E.compiles cr = true) (text : List Char) : Inside text (E.exec text) :=
  (execLate_spans (Or.inl ((C41_fixed_offset U h hc).exec text))).1

/-- non-vacuity: `x(a|(b))+` on `yxab`: the whole match, the last repetition, the group inside. -/
example : ((parseStr "x(a|(b))+".toList).toOption.bind (fun e => (compileFlatChar e).toOption)).map (fun F =>
    F.exec "yxab".toList "yxab".toList) = some (.ok (some [some (1, 4), some (3, 4), some (3, 4)])) := by decide +kernel

/-! ## C55 -/

/-- **C55 (partial, `compile_regex!`).** If no group is repeated. (The full claim has no such condition and is false:
`C55_negation`.) -/
theorem C55_compile_regex_partial (U : Utf8Seqs) {e : ERE} {E : Engine} (h : pickEngine U.seqs e = .ok E)
    {cr : List String} (hc : E.compiles cr = true) (ho : e.once = true) (text : List Char) :
    InOrder (E.exec text) ∧ Nested e (E.exec text) :=
  (execLate_spans (C41_late_partial U h hc text).2).2.1 ho

/-- C55 (flat engine over characters), if no group is repeated. -/
theorem C55_flat_char_partial {e : ERE} {F : Flat Atom} (h : compileFlatChar e = .ok F) (ho : e.once = true)
    (text : List Char) : InOrder (F.exec text text) ∧ Nested e (F.exec text text) :=
  (execLate_spans (Or.inl (C23_flat_char_exec h text))).2.1 ho

/-- C55 (flat engine over bytes), if no group is repeated. -/
theorem C55_flat_u8_partial (U : Utf8Seqs) {e : ERE} {F : Flat U8Atom} (h : compileFlatU8 U.seqs e = .ok F)
    (ho : e.once = true) (text : List Char) :
    InOrder (F.exec text (encode text)) ∧ Nested e (F.exec text (encode text)) :=
  (execLate_spans (Or.inl (C23_flat_u8_exec U h text))).2.1 ho

/-- C55 (one-pass engine), if no group is repeated. -/
theorem C55_one_pass_partial (U : Utf8Seqs) {e : ERE} {P : OnePass} (h : compileOnePassU8 U.seqs e = .ok (some P))
    (hc : P.compiles = true) (ho : e.once = true) (text : List Char) :
    InOrder (P.exec text (encode text)) ∧ Nested e (P.exec text (encode text)) :=
  (execLate_spans (Or.inl (C23_one_pass_exec U h hc text))).2.1 ho

/-- C55 (DFA engine), if no group is repeated. -/
theorem C55_dfa_partial (U : Utf8Seqs) {e : ERE} {G : DfaEngine} (h : compileDfaU8 U.seqs e = .ok (some G))
    (ho : e.once = true) (text : List Char) :
    InOrder (G.tdfa.exec text (encode text)) ∧ Nested e (G.tdfa.exec text (encode text)) :=
  (execLate_spans (C23_dfa_late_partial U h text)).2.1 ho

/-- non-vacuity: `((a)?b*)(c)` on `xabbc`; no group is repeated. -/
example : (parseStr "((a)?b*)(c)".toList).toOption.map ERE.once = some true := by decide +kernel
example : ((parseStr "((a)?b*)(c)".toList).toOption.bind (fun e => (compileFlatChar e).toOption)).map (fun F =>
    F.exec "xabbc".toList "xabbc".toList) = some (.ok (some [some (1, 5), some (1, 4), some (1, 2), some (4, 5)])) := by
  decide +kernel

/-- **C55 is false**: for `((b)|a)*` and the text `ba` group 1 is `a` and group 2, which is inside of its parentheses,
is `b`, before it. -/
theorem C55_negation : ∃ e F, parseStr "((b)|a)*".toList = .ok e ∧ compileFlatChar e = .ok F ∧
    F.exec "ba".toList "ba".toList = .ok (some [some (0, 2), some (1, 2), some (0, 1)]) ∧
    (2, 1) ∈ e.nest 0 1 ∧ ¬ InOrder (F.exec "ba".toList "ba".toList) ∧ ¬ Nested e (F.exec "ba".toList "ba".toList) := by
  have key : ((parseStr "((b)|a)*".toList).toOption.bind (fun e => (compileFlatChar e).toOption.map (fun F => (e, F)))).any
      (fun p => decide (p.2.exec "ba".toList "ba".toList = .ok (some [some (0, 2), some (1, 2), some (0, 1)]) ∧
        p.1.nest 0 1 = [(1, 0), (2, 1)])) = true := by
    decide +kernel
  rw [Option.any_eq_true] at key
  obtain ⟨⟨e, F⟩, h1, h2⟩ := key
  obtain ⟨h3, hn⟩ := of_decide_eq_true h2
  have hn : (2, 1) ∈ e.nest 0 1 := by rw [hn]; simp
  rw [Option.bind_eq_some_iff] at h1
  obtain ⟨e', h4, h5⟩ := h1
  rw [Option.map_eq_some_iff] at h5
  obtain ⟨F', h6, h7⟩ := h5
  have he : e' = e := congrArg Prod.fst h7
  have hF : F' = F := congrArg Prod.snd h7
  rw [he] at h4 h6
  rw [hF] at h6
  refine ⟨e, F, ?_, ?_, h3, hn, ?_, ?_⟩
  · cases h : parseStr "((b)|a)*".toList with
    | error x => rw [h] at h4; cases h4
    | ok o => rw [h] at h4; exact congrArg Except.ok (Option.some.inj h4)
  · cases h : compileFlatChar e with
    | error x => rw [h] at h6; cases h6
    | ok o => rw [h] at h6; exact congrArg Except.ok (Option.some.inj h6)
  · intro h
    have := h _ h3 1 2 1 2 0 1 (by decide) rfl rfl
    omega
  · intro h
    obtain ⟨i, j, h8, h9, _⟩ := h _ h3 2 1 hn 0 1 rfl
    have := congrArg Prod.fst (Option.some.inj (Option.some.inj h8))
    dsimp only at this
    omega

/-! ## C56 -/

/-- **C56 (`compile_regex!`).** -/
theorem C56_compile_regex (U : Utf8Seqs) {e : ERE} {E : Engine} (h : pickEngine U.seqs e = .ok E) {cr : List String}
    (hc : E.compiles cr = true) (text : List Char) : ParentsSet e (E.exec text) :=
  (execLate_spans (C41_late_partial U h hc text).2).2.2

/-- C56 (flat engine over characters). -/
theorem C56_flat_char {e : ERE} {F : Flat Atom} (h : compileFlatChar e = .ok F) (text : List Char) :
    ParentsSet e (F.exec text text) :=
  (execLate_spans (Or.inl (C23_flat_char_exec h text))).2.2

/-- C56 (flat engine over bytes). -/
theorem C56_flat_u8 (U : Utf8Seqs) {e : ERE} {F : Flat U8Atom} (h : compileFlatU8 U.seqs e = .ok F) (text : List Char) :
    ParentsSet e (F.exec text (encode text)) :=
  (execLate_spans (Or.inl (C23_flat_u8_exec U h text))).2.2

/-- C56 (one-pass engine). -/
theorem C56_one_pass (U : Utf8Seqs) {e : ERE} {P : OnePass} (h : compileOnePassU8 U.seqs e = .ok (some P))
    (hc : P.compiles = true) (text : List Char) : ParentsSet e (P.exec text (encode text)) :=
  (execLate_spans (Or.inl (C23_one_pass_exec U h hc text))).2.2

/-- C56 (DFA engine), for every pattern. -/
theorem C56_dfa (U : Utf8Seqs) {e : ERE} {G : DfaEngine} (h : compileDfaU8 U.seqs e = .ok (some G)) (text : List Char) :
    ParentsSet e (G.tdfa.exec text (encode text)) :=
  (execLate_spans (C23_dfa_late_partial U h text)).2.2

/-- non-vacuity: in `(a(b)?)|(c)` group 2 is inside of group 1; 1 and 3 are inside of group 0 only. On `ab` groups 1 and 2
are set, on `c` only group 3. -/
example : (parseStr "(a(b)?)|(c)".toList).toOption.map (fun e => e.nest 0 1) = some [(1, 0), (2, 1), (3, 0)] := by
  decide +kernel
example : ((parseStr "(a(b)?)|(c)".toList).toOption.bind (fun e => (compileFlatChar e).toOption)).map (fun F =>
    (decide (F.exec "ab".toList "ab".toList = .ok (some [some (0, 2), some (0, 2), some (1, 2), none])),
      decide (F.exec "c".toList "c".toList = .ok (some [some (0, 1), none, none, some (0, 1)])))) = some (true, true) := by
  decide +kernel

end Ere.Props
