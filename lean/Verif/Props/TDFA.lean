import Verif.Model.Engines
import Verif.Proofs.DfaMandatory
import Verif.Proofs.DropStart
import Verif.Props.Flat

/-!
# Property theorems about the DFA: C32 (determinisation), C33 (minimisation), C34 (splitting of ranges),
C20 (`test` of the DFA engine: false in general, proved for the patterns without `^`, for those that begin
with `^` and have no other one, and for those that do not match the empty text), C23 and C30 for the DFA engine
-/

namespace Ere.Props
open Ere

/-! ## C34 -/

/-- **C34.** Splitting the ranges gives increasing disjoint non-empty ranges; a byte is in a range with
the values `vs` exactly when `vs` is the list of values of the original ranges that contain the byte,
in the original order, and this list is not empty. -/
theorem C34_split_ranges {β : Type} (items : List (U8Atom × β)) :
    (splitRanges items).Pairwise (fun x y => x.1.hi < y.1.lo) ∧
    (∀ x ∈ splitRanges items, x.1.lo ≤ x.1.hi) ∧
    ∀ (b : UInt8) vs, (∃ r, (r, vs) ∈ splitRanges items ∧ r.lo ≤ b ∧ b ≤ r.hi) ↔
      vs = (items.filter (fun p => decide (p.1.lo ≤ b ∧ b ≤ p.1.hi))).map (·.2) ∧ vs ≠ [] := by
  obtain ⟨h1, h2, h3⟩ := splitRanges_spec items
  refine ⟨h1, fun x hx => (h2 x hx).1, fun b vs => ?_⟩
  have := h3 b vs
  simp only [U8Atom.check, Bool.and_eq_true, decide_eq_true_eq] at this
  rw [this, itemsAt]
  have : (fun p : U8Atom × β => decide (p.1.lo ≤ b ∧ b ≤ p.1.hi)) = (fun p => p.1.check b) := by
    funext p; simp [U8Atom.check]
  rw [this]

/-- non-vacuity: overlapping ranges 1-5, 3-9 and 4-4. -/
example : splitRanges [(⟨1, 5⟩, 'x'), (⟨3, 9⟩, 'y'), (⟨4, 4⟩, 'z')] =
    [(⟨1, 2⟩, ['x']), (⟨3, 3⟩, ['x', 'y']), (⟨4, 4⟩, ['x', 'y', 'z']), (⟨5, 5⟩, ['x', 'y']),
      (⟨6, 9⟩, ['y'])] := by decide +kernel

/-! ## C32 -/

/-- Distinct lists of distinct states: there are finitely many. -/
theorem names_bound {N : NFA U8Atom} {names : List (List Nat)} (h : names.Nodup) (hn : NamesOk N names) :
    names.length ≤ cntLists N.length N.length := by
  have hsub : names ⊆ listsUpTo (List.range N.length) N.length := by
    intro l hl
    have h1 : ∀ x ∈ l, x ∈ List.range N.length := fun x hx => List.mem_range.mpr ((hn l hl).1 x hx)
    refine mem_listsUpTo ?_ h1
    have := ((hn l hl).2.subperm h1).length_le
    simpa using this
  have := (h.subperm hsub).length_le
  rw [listsUpTo_length] at this
  simpa using this

/-- **C32.** Determinisation of a byte automaton has one result `D` that does not depend on the bound:
with a bound of at least the number of states of `D` the result is `D`, with a smaller bound it is
`None`. In particular it terminates without a panic, and a result is within the bound. -/
theorem C32_determinise (N : NFA U8Atom) (hN : N.WF) (hne : N ≠ []) :
    ∃ D, ∀ maxStates, TDFA.fromNFA N maxStates =
      if D.states.length ≤ maxStates then .ok (some D) else .ok none := by
  rcases fromNFA_spec hN hne (cntLists N.length N.length) with ⟨_, names, h1, h2, h3⟩ | ⟨D, h1, h2, h3⟩
  · have := names_bound h1 h2; omega
  · refine ⟨D, fun m => ?_⟩
    split
    · rename_i hm
      exact fromNFA_bound hN hne h1 hm
    · rename_i hm
      rcases fromNFA_spec hN hne m with ⟨h4, _⟩ | ⟨D', h4, h5, _⟩
      · exact h4
      · exfalso
        by_cases hc : D'.states.length ≤ cntLists N.length N.length
        · have := fromNFA_bound hN hne h4 hc
          rw [h1] at this
          injection this with this; injection this with this
          subst this; omega
        · have := fromNFA_bound hN hne h1 (m := m) (by omega)
          rw [h4] at this
          injection this with this; injection this with this
          subst this; omega

/-- non-vacuity: the automaton of `.*a` over two letters needs two states. -/
def exNFA : NFA U8Atom := [⟨[⟨0, ⟨97, 98⟩⟩, ⟨1, ⟨97, 97⟩⟩], []⟩, ⟨[], []⟩]

example : TDFA.fromNFA exNFA 1 = .ok none := by decide +kernel
example : (TDFA.fromNFA exNFA 2).map (·.map (fun D => D.states.map (·.nfa))) =
    .ok (some [[0, 1], [0]]) := by decide +kernel
example : exNFA.WF := by
  intro q l q' h
  obtain ⟨s, h1, h2⟩ := hasEdge_iff.mp h
  match q with
  | 0 =>
    simp only [exNFA, List.getElem?_cons_zero, Option.some.injEq] at h1
    subst h1
    cases l <;> simp [State.Has] at h2
    show q' < 2
    omega
  | 1 =>
    simp only [exNFA, List.getElem?_cons_succ, List.getElem?_cons_zero, Option.some.injEq] at h1
    subst h1
    cases l <;> simp [State.Has] at h2
  | n + 2 => simp [exNFA] at h1

/-! ## C33 -/

/-- Acceptance by a DFA, independent of the emitted program: follow the transitions to the end, or stop
early in a state that accepts everywhere. -/
inductive DFA.Accepts (D : DFA) : DState → List UInt8 → Prop
  | always {s bs} : s.accept = .always → DFA.Accepts D s bs
  | anchored {s} : s.accept = .anchored → DFA.Accepts D s []
  | step {s t s' b bs} : t ∈ s.trans → t.symbol.lo ≤ b → b ≤ t.symbol.hi → D.states[t.dst]? = some s' →
      DFA.Accepts D s' bs → DFA.Accepts D s (b :: bs)

/-- All targets exist and the ranges of each state are sorted and disjoint (this is what `validate`
checks). -/
def DFA.Proper (D : DFA) : Prop :=
  ∀ s ∈ D.start :: D.states, s.trans.Pairwise (fun t u => t.symbol.hi < u.symbol.lo) ∧
    ∀ t ∈ s.trans, t.dst < D.states.length

theorem testLoop_accepts {D : DFA} (hD : DFA.Proper D) : ∀ (bs : List UInt8) (v : VState) (s : DState),
    D.get v = some s → (D.testLoop v bs = true ↔ DFA.Accepts D s bs) := by
  intro bs
  induction bs with
  | nil =>
    intro v s hs
    rw [DFA.testLoop, hs]
    simp only
    constructor
    · intro h
      cases ha : s.accept with
      | anchored => exact .anchored ha
      | always => exact .always ha
      | none => simp [ha] at h
    · intro h; cases h with
      | always h => simp [h]
      | anchored h => simp [h]
  | cons c cs ih =>
    intro v s hs
    have hmem : s ∈ D.start :: D.states := by
      cases v with
      | start => simp only [DFA.get, Option.some.injEq] at hs; simp [hs]
      | normal i => exact List.mem_cons_of_mem _ (List.mem_of_getElem? hs)
    obtain ⟨hp, ht⟩ := hD s hmem
    rw [DFA.testLoop, hs]
    simp only
    split
    · rename_i ha; simp only [true_iff]; exact .always ha
    · rename_i ha
      cases hf : s.trans.find? (fun t => t.symbol.check c) with
      | none =>
        simp only [Bool.false_eq_true, false_iff]
        intro h; cases h with
        | always h => exact ha h
        | step h1 h2 h3 _ _ =>
          have := List.find?_eq_none.mp hf _ h1
          simp [U8Atom.check, h2, h3] at this
      | some t =>
        have h1 := List.mem_of_find?_eq_some hf
        have h2 := List.find?_some hf
        simp only [U8Atom.check, Bool.and_eq_true, decide_eq_true_eq] at h2
        have hlt := ht t h1
        have hg : D.get (.normal t.dst) = some D.states[t.dst] := List.getElem?_eq_getElem hlt
        rw [ih _ _ hg]
        constructor
        · intro h; exact .step h1 h2.1 h2.2 hg h
        · intro h; cases h with
          | always h => exact absurd h ha
          | step g1 g2 g3 g4 g5 =>
            have := check_unique (f := DTrans.symbol) hp g1 h1 (b := c) (by simp [U8Atom.check, g2, g3])
              (by simp [U8Atom.check, h2])
            subst this
            rw [show D.get _ = D.states[_]? from rfl] at hg
            rw [hg] at g4; injection g4 with g4; subst g4
            exact g5

theorem test_accepts {D : DFA} (hD : DFA.Proper D) (bs : List UInt8) :
    D.test bs = true ↔ DFA.Accepts D D.start bs := by
  unfold DFA.test
  split
  · rename_i h; simp only [true_iff]; exact .always h
  · exact testLoop_accepts hD bs .start D.start rfl

/-- **C33.** Merging equal states until none are left terminates without a panic; the result has no two
equal states, is a proper DFA and accepts exactly the same byte strings. -/
theorem C33_minimise (D : DFA) (hD : DFA.Proper D) :
    ∃ D', minimiseLoop (D.states.length + 1) D = .ok D' ∧ DFA.Proper D' ∧ D'.states.Nodup ∧
      D'.states.length ≤ D.states.length ∧
      ∀ bs, DFA.Accepts D' D'.start bs ↔ DFA.Accepts D D.start bs := by
  have hT : D.TargetsOk := fun s hs t ht => (hD s hs).2 t ht
  obtain ⟨D', h1, h2, h3, h4⟩ := minimiseLoop_spec (D.states.length + 1) D hT (by omega)
  have hP : DFA.Proper D' := by
    intro s hs
    refine ⟨?_, fun t ht => h2.targets s hs t ht⟩
    obtain ⟨s0, g1, g2, _⟩ := h2.symbols s hs
    have := (hD s0 g1).1
    have e : s.trans.map DTrans.symbol = s0.trans.map DTrans.symbol := g2
    have p0 : (s0.trans.map DTrans.symbol).Pairwise (fun a b => a.hi < b.lo) := by
      rw [List.pairwise_map]; exact this
    rw [← e, List.pairwise_map] at p0
    exact p0
  refine ⟨D', h1, hP, h4, h3, fun bs => ?_⟩
  rw [← test_accepts hP, ← test_accepts hD, h2.test]

/-- non-vacuity: two equal accepting states are merged, which makes two more equal. -/
example : minimiseLoop 5 ⟨⟨.none, [⟨0, ⟨97, 97⟩⟩, ⟨1, ⟨98, 98⟩⟩]⟩,
      [⟨.none, [⟨2, ⟨97, 97⟩⟩]⟩, ⟨.none, [⟨3, ⟨97, 97⟩⟩]⟩, ⟨.anchored, []⟩, ⟨.anchored, []⟩]⟩ =
    .ok ⟨⟨.none, [⟨0, ⟨97, 97⟩⟩, ⟨0, ⟨98, 98⟩⟩]⟩, [⟨.none, [⟨1, ⟨97, 97⟩⟩]⟩, ⟨.anchored, []⟩]⟩ := by
  decide +kernel

/-! ## C20 is false -/

/-- The pattern `(^|b)$`. -/
def patStartOrB : ERE := .mk [.mk [.single (.sub (.mk [.mk [.start], .mk [.single (.atom (.normal 'b'))]])), .end_]]

/-- **C20 is false**: for `(^|b)$` the DFA engine says that the text `x` matches, and reports a match,
although no stretch of `x` matches. (`expand` ignores `start_only` when it looks for the accepting
state, working_u8_dfa.rs 277-283.) -/
theorem C20_dfa_test_negation :
    ∃ G, compileDfaU8 utf8Sequences patStartOrB = .ok (some G) ∧ G.dfa.test (encode ['x']) = true ∧
      ¬ patStartOrB.MatchesIn ['x'] ∧ (∃ r, G.tdfa.exec ['x'] (encode ['x']) = .ok (some r)) := by
  have hm : patStartOrB.MatchesIn ['b'] :=
    ⟨[], ['b'], [], rfl, .intro (List.mem_singleton.mpr rfl) (.cons (m1 := ['b']) (m2 := [])
      (.single (.sub (.intro (b := .mk [.single (.atom (.normal 'b'))]) (by simp)
        (.cons (m1 := ['b']) (m2 := []) (.single (.atom (by decide))) .nil))))
      (.cons (m1 := []) (m2 := []) .end_ .nil))⟩
  obtain ⟨F, h1⟩ := (C17_flat_returns utf8Crate patStartOrB ⟨_, hm⟩).2
  have h2 := C19_flat_u8_test utf8Crate h1
  have hF : (compileFlatU8 utf8Sequences patStartOrB).map (fun F => F.test (encode ['x'])) = .ok false := by
    decide +kernel
  have hG : (compileDfaU8 utf8Sequences patStartOrB).map (·.map (fun G => (G.dfa.test (encode ['x'])))) =
      .ok (some true) := by
    decide +kernel
  have hX : (compileDfaU8 utf8Sequences patStartOrB).map (·.map (fun G =>
      decide (G.tdfa.exec ['x'] (encode ['x']) = .ok (some [some (1, 1), some (1, 1)])))) = .ok (some true) := by
    decide +kernel
  cases hc : compileDfaU8 utf8Sequences patStartOrB with
  | error x => rw [hc] at hG; simp [Except.map] at hG
  | ok o =>
    cases o with
    | none => rw [hc] at hG; simp [Except.map] at hG
    | some G =>
      rw [hc] at hG hX
      simp only [Except.map, Option.map_some, Except.ok.injEq, Option.some.injEq, decide_eq_true_eq] at hG hX
      refine ⟨G, rfl, hG, ?_, _, hX⟩
      have e1 : compileFlatU8 utf8Sequences patStartOrB = .ok F := h1
      rw [e1] at hF
      simp only [Except.map, Except.ok.injEq] at hF
      rw [← h2, hF]; simp

/-! ## C20 and C23 where they hold -/

theorem dfaOf_ne {M : NFA U8Atom} {o : Option DfaEngine} (h : dfaOf M = .ok o) : M ≠ [] := by
  rintro rfl
  rw [dfaOf] at h
  simp [TDFA.fromNFA, TDFA.defaultBound, newStartState] at h

theorem dfa_compiled_safe (U : Utf8Seqs) {e : ERE} {M : NFA U8Atom} (hb : byteNFA U.seqs e = .ok M) (hs : StartSafe M)
    {G : DfaEngine} (h : compileDfaU8 U.seqs e = .ok (some G)) :
      (∀ text, G.dfa.test (encode text) = true ↔ e.MatchesIn text) ∧
      ∀ text, ExecOk e text G.tdfa.numCaptureGroups (G.tdfa.exec text (encode text)) := by
  unfold compileDfaU8 at h
  rw [hb] at h
  simp only at h
  obtain ⟨N, h1, h2⟩ := byteNFA_ok hb
  rcases dfa_engine_safe U e h1 h2 (dfaOf_ne h) hs (TDFA.defaultBound M.length) with h4 | ⟨T, D, h4, h5, h6, h7⟩
  · rw [dfaOf, h4] at h; simp at h
  · rw [dfaOf, h4] at h
    simp only [serializeDfa] at h
    rw [h5] at h
    injection h with h
    injection h with h
    subst h
    exact ⟨h6, h7⟩

theorem dfa_compiled (U : Utf8Seqs) {e : ERE} (hs : e.StartSimple) {G : DfaEngine}
    (h : compileDfaU8 U.seqs e = .ok (some G)) :
      (∀ text, G.dfa.test (encode text) = true ↔ e.MatchesIn text) ∧
      ∀ text, ExecOk e text G.tdfa.numCaptureGroups (G.tdfa.exec text (encode text)) := by
  have h' := h
  unfold compileDfaU8 at h
  split at h
  · simp at h
  · rename_i M hb
    obtain ⟨N, h1, h2⟩ := byteNFA_ok hb
    have hne := dfaOf_ne h
    exact dfa_compiled_safe U hb (startSafe_pipeline U e hs h1 (pipeline_ne U e h1 h2 hne).1 h2 hne) h'

/-- What `exec` of the DFA engine may return for any pattern: `None` if the pattern does not match; the groups of a
match; or (wrongly) the groups of a match of the pattern without its `^`, at the end of the text and for a pattern that
matches the empty text. -/
def ExecLate (e : ERE) (text : List Char) (groups : Nat)
    (res : Except Err (Option (List (Option (Nat × Nat))))) : Prop :=
  ExecOk e text groups res ∨
  ∃ r S i, res = .ok (some r) ∧ e.MatchesIn [] ∧ e.dropStart.Captures text S ∧ lastSpan S 0 = some (i, byteLen text) ∧
    r.length = groups ∧ ∀ g, (r[g]?).join = lastSpan S g

theorem dfa_bounds (U : Utf8Seqs) {e : ERE} {G : DfaEngine} (h : compileDfaU8 U.seqs e = .ok (some G)) (text : List Char) :
    (e.MatchesIn text → G.dfa.test (encode text) = true) ∧
      ExecLate e text G.tdfa.numCaptureGroups (G.tdfa.exec text (encode text)) := by
  by_cases hm : e.MatchesIn []
  · unfold compileDfaU8 at h
    split at h
    · simp at h
    · rename_i M hb
      obtain ⟨N, h1, h2⟩ := byteNFA_ok hb
      rcases dfa_engine_bounds U e h1 h2 (dfaOf_ne h) (TDFA.defaultBound M.length) with h4 | ⟨T, D, h4, h5, h6⟩
      · rw [dfaOf, h4] at h; simp at h
      · rw [dfaOf, h4] at h
        simp only [serializeDfa] at h
        rw [h5] at h
        injection h with h
        injection h with h
        subst h
        obtain ⟨h7, h8⟩ := h6 text
        refine ⟨h7, ?_⟩
        rcases h8 with h8 | ⟨r, S, k1, k2 | ⟨k2, i, k3⟩, k4, k5⟩
        · exact Or.inl (Or.inl h8)
        · exact Or.inl (Or.inr ⟨r, S, k1, k2, k4, k5⟩)
        · exact Or.inr ⟨r, S, i, k1, hm, k2, k3, k4, k5⟩
  · obtain ⟨h1, h2⟩ := dfa_compiled U (Or.inr (Or.inr hm)) h
    exact ⟨(h1 text).mpr, Or.inl (h2 text)⟩

/-- C20 and C22 for the DFA engine and every pattern, as far as they hold: every text that the pattern matches is found by
`test` and by `exec`. (The converse is false: `C20_dfa_test_negation`; it holds under `StartSimple`, in particular if
the pattern does not match the empty text: `C20_dfa_test_partial`.) -/
theorem C20_dfa_complete_partial (U : Utf8Seqs) {e : ERE} {G : DfaEngine} (h : compileDfaU8 U.seqs e = .ok (some G))
    {text : List Char} (hm : e.MatchesIn text) :
    G.dfa.test (encode text) = true ∧ ∃ r, G.tdfa.exec text (encode text) = .ok (some r) := by
  obtain ⟨h1, h3⟩ := dfa_bounds U h text
  refine ⟨h1 hm, ?_⟩
  rcases h3 with (⟨_, h4⟩ | ⟨r, S, h4, _⟩) | ⟨r, S, i, h4, _⟩
  · exact absurd hm h4
  · exact ⟨r, h4⟩
  · exact ⟨r, h4⟩

/-- C23 and C25 for the DFA engine and every pattern, as far as they hold: see `ExecLate`. (The full claim is false:
`C23_negation`.) -/
theorem C23_dfa_late_partial (U : Utf8Seqs) {e : ERE} {G : DfaEngine} (h : compileDfaU8 U.seqs e = .ok (some G))
    (text : List Char) : ExecLate e text G.tdfa.numCaptureGroups (G.tdfa.exec text (encode text)) :=
  (dfa_bounds U h text).2

/-- non-vacuity: `(^|b)$` is compiled to a DFA; on `bxb` it reports the match `b` at the end (first case of `ExecLate`),
on `x` the empty match at the end, which is a match of `(|b)$` (second case). -/
example : patStartOrB.dropStart =
    .mk [.mk [.single (.sub (.mk [.mk [], .mk [.single (.atom (.normal 'b'))]])), .end_]] ∧
    (compileDfaU8 utf8Sequences patStartOrB).map (·.map (fun G =>
      (decide (G.tdfa.exec ['b', 'x', 'b'] (encode ['b', 'x', 'b']) = .ok (some [some (2, 3), some (2, 3)])),
        decide (G.tdfa.exec ['x'] (encode ['x']) = .ok (some [some (1, 1), some (1, 1)]))))) = .ok (some (true, true)) :=
  ⟨by simp [patStartOrB, ERE.dropStart, branchesDropStart, EREBranch.dropStart, partsDropStart, EREPart.dropStart,
    EREExpr.dropStart], by decide +kernel⟩

/-- **C24 (DFA engine).** For every pattern, also those for which the engine is wrong: `exec` never panics, and every
group reported is a stretch of the text (in order, on character boundaries). -/
theorem C24_dfa (U : Utf8Seqs) {e : ERE} {G : DfaEngine} (h : compileDfaU8 U.seqs e = .ok (some G)) (text : List Char) :
    ∃ o, G.tdfa.exec text (encode text) = .ok o ∧ ∀ r, o = some r → r.length = G.tdfa.numCaptureGroups ∧
      ∀ i j, some (i, j) ∈ r → ∃ a b c, text = a ++ b ++ c ∧ i = byteLen a ∧ j = byteLen (a ++ b) := by
  unfold compileDfaU8 at h
  split at h
  · simp at h
  · rename_i M hb
    obtain ⟨N, h1, h2⟩ := byteNFA_ok hb
    obtain ⟨_, hM, _, _⟩ := pipeline_ne U e h1 h2 (dfaOf_ne h)
    rcases fromNFA_spec hM.wf hM.ne (TDFA.defaultBound M.length) with ⟨g1, _⟩ | ⟨T, g1, _, g2⟩
    · rw [dfaOf, g1] at h; simp at h
    rw [dfaOf, g1] at h
    obtain ⟨D, g3, _⟩ := fromTagged_spec g2
    simp only [serializeDfa] at h
    rw [g3] at h
    injection h with h
    injection h with h
    subst h
    exact tdfa_exec_safe U e h1 h2 hM.ne g2 text

/-- **C28 (DFA engine).** For every pattern: a group that the compiler declares mandatory is set in whatever `exec` of
the DFA engine reports. -/
theorem C28_dfa (U : Utf8Seqs) {e : ERE} {G : DfaEngine} (h : compileDfaU8 U.seqs e = .ok (some G)) {N : NFA Atom}
    (hN : charNFA e = .ok N) {text : List Char} {r} (hr : G.tdfa.exec text (encode text) = .ok (some r)) {g : Nat}
    (hg : g < G.tdfa.numCaptureGroups) (hopt : N.groupIsOptional g = false) : ∃ x, r[g]? = some (some x) := by
  unfold compileDfaU8 at h
  split at h
  · simp at h
  · rename_i M hb
    obtain ⟨N', h1, h2⟩ := byteNFA_ok hb
    have hNN : N' = N := ok_unique h1 hN
    rw [hNN] at h1 h2
    obtain ⟨_, hM, _, _⟩ := pipeline_ne U e h1 h2 (dfaOf_ne h)
    rcases fromNFA_spec hM.wf hM.ne (TDFA.defaultBound M.length) with ⟨g1, _⟩ | ⟨T, g1, _, g2⟩
    · rw [dfaOf, g1] at h; simp at h
    rw [dfaOf, g1] at h
    obtain ⟨D, g3, _⟩ := fromTagged_spec g2
    simp only [serializeDfa] at h
    rw [g3] at h
    have hG := (Option.some.inj (Except.ok.inj h)).symm
    rw [hG] at hr hg
    exact tdfa_exec_mandatory U e h1 h2 hM.ne g2 hr hg hopt

/-- non-vacuity: `(^|b)$` on `éx`, where the DFA engine reports something that is no match. -/
example : (compileDfaU8 utf8Sequences patStartOrB).map (·.map (fun G =>
    decide (G.tdfa.exec ['é', 'x'] (encode ['é', 'x']) = .ok (some [some (3, 3), some (3, 3)])))) = .ok (some true) := by
  decide +kernel

/-- The pattern `^(a|$)(^|b)`. -/
def patLate : ERE := .mk [.mk [.start, .single (.sub (.mk [.mk [.single (.atom (.normal 'a'))], .mk [.end_]])),
  .single (.sub (.mk [.mk [.start], .mk [.single (.atom (.normal 'b'))]]))]]

/-- **C22 is false**: for `^(a|$)(^|b)` the DFA engine says that `ac` matches, and `exec` returns `None`. (`test`
stops at an accepting state that needs no end of the text; that state accepts because `expand` ignores
`start_only`, working_u8_dfa.rs 277-283; `exec` reads the whole text and there is no way to go on.) -/
theorem C22_negation :
    ∃ G, compileDfaU8 utf8Sequences patLate = .ok (some G) ∧ G.dfa.test (encode ['a', 'c']) = true ∧
      G.tdfa.exec ['a', 'c'] (encode ['a', 'c']) = .ok none := by
  have hX : (compileDfaU8 utf8Sequences patLate).map (·.map (fun G => (G.dfa.test (encode ['a', 'c']),
      decide (G.tdfa.exec ['a', 'c'] (encode ['a', 'c']) = .ok none)))) = .ok (some (true, true)) := by
    decide +kernel
  cases hc : compileDfaU8 utf8Sequences patLate with
  | error x => rw [hc] at hX; simp [Except.map] at hX
  | ok o =>
    cases o with
    | none => rw [hc] at hX; simp [Except.map] at hX
    | some G =>
      rw [hc] at hX
      simp only [Except.map, Option.map_some, Except.ok.injEq, Option.some.injEq, Prod.mk.injEq, decide_eq_true_eq] at hX
      exact ⟨G, rfl, hX.1, hX.2⟩

/-- **C23 and C25 are false**: for `(^|b)$` `exec` of the DFA engine reports a match of `x`, although there is
none (`C20_dfa_test_negation`): no way of matching gives these captures, and group 0 is no match. -/
theorem C23_negation :
    ∃ G r, compileDfaU8 utf8Sequences patStartOrB = .ok (some G) ∧
      G.tdfa.exec ['x'] (encode ['x']) = .ok (some r) ∧
      (¬ ∃ S, patStartOrB.Captures ['x'] S ∧ ∀ g, (r[g]?).join = lastSpan S g) ∧
      ¬ ∃ pre mid post, ['x'] = pre ++ mid ++ post ∧ MatchesERE patStartOrB pre mid post ∧
        r[0]? = some (some (byteLen pre, byteLen (pre ++ mid))) := by
  obtain ⟨G, h1, _, h2, r, h3⟩ := C20_dfa_test_negation
  refine ⟨G, r, h1, h3, ?_, ?_⟩
  · rintro ⟨S, hS, _⟩
    exact h2 (captures_matchesIn.mp ⟨S, hS⟩)
  · rintro ⟨pre, mid, post, e1, e2, _⟩
    exact h2 ⟨pre, mid, post, e1, e2⟩

/-- C17 for this macro: it returns if the pattern can match at all. -/
theorem C17_dfa_returns (U : Utf8Seqs) (e : ERE) (hm : ∃ text, e.MatchesIn text) :
    ∃ o, compileDfaU8 U.seqs e = .ok o := by
  obtain ⟨N, M, h1, h2, hN, hM, _, _⟩ := pipeline_spec U e hm
  have hb : byteNFA U.seqs e = .ok M := by
    unfold byteNFA charNFA; rw [h1]; exact h2
  unfold compileDfaU8
  rw [hb]
  simp only [dfaOf]
  rcases fromNFA_spec hM.wf hM.ne (TDFA.defaultBound M.length) with ⟨g1, _⟩ | ⟨T, g1, _, g2⟩
  · rw [g1]; exact ⟨none, rfl⟩
  rw [g1]
  obtain ⟨D, g3, _⟩ := fromTagged_spec g2
  simp only [serializeDfa]
  rw [g3]
  exact ⟨_, rfl⟩

/-- **C20 (partial).** For a pattern without `^`, one that begins with `^` in every branch and has no other
`^`, or one that does not match the empty text (`StartSimple`): if the macro returns an engine, its `test`
answers true exactly when the pattern matches somewhere in the text. Missing: the other patterns, for which
the claim is false in general (`C20_dfa_test_negation`). -/
theorem C20_dfa_test_partial (U : Utf8Seqs) {e : ERE} (hs : e.StartSimple) {G : DfaEngine}
    (h : compileDfaU8 U.seqs e = .ok (some G)) (text : List Char) :
    G.dfa.test (encode text) = true ↔ e.MatchesIn text := (dfa_compiled U hs h).1 text

/-- **C23 (DFA engine, partial).** Under the same condition `exec` of the DFA engine is right; with
`C22_exec_some_iff`, `C24_exec_slices` and `C25_exec_group0` this gives C22, C24 and C25. -/
theorem C23_dfa_exec_partial (U : Utf8Seqs) {e : ERE} (hs : e.StartSimple) {G : DfaEngine}
    (h : compileDfaU8 U.seqs e = .ok (some G)) (text : List Char) :
    ExecOk e text G.tdfa.numCaptureGroups (G.tdfa.exec text (encode text)) := (dfa_compiled U hs h).2 text

/-- The pattern `^a(b|$)`: it has a `^` and does not match the empty text. -/
def patStartAB : ERE := .mk [.mk [.start, .single (.atom (.normal 'a')),
  .single (.sub (.mk [.mk [.single (.atom (.normal 'b'))], .mk [.end_]]))]]

/-- non-vacuity: `a(é|$)` has no `^`; `^a(b|$)` has one and does not match the empty text. Both compile. -/
example : patAE.hasStart = false := by decide
example : (compileDfaU8 utf8Sequences patAE).map (·.map (fun G => (G.dfa.test (encode ['x', 'a', 'é']),
    G.dfa.test (encode ['a', 'x']), decide (G.tdfa.exec ['x', 'a', 'é', 'b'] (encode ['x', 'a', 'é', 'b']) =
      .ok (some [some (1, 4), some (2, 4)]))))) = .ok (some (true, false, true)) := by decide +kernel
example : ¬ patStartAB.MatchesIn [] := by
  have hm : patStartAB.MatchesIn ['a', 'b'] :=
    ⟨[], ['a', 'b'], [], rfl, .intro (List.mem_singleton.mpr rfl) (.cons (m1 := []) (m2 := ['a', 'b']) .start
      (.cons (m1 := ['a']) (m2 := ['b']) (.single (.atom (by decide))) (.cons (m1 := ['b']) (m2 := [])
        (.single (.sub (.intro (b := .mk [.single (.atom (.normal 'b'))]) (by simp)
          (.cons (m1 := ['b']) (m2 := []) (.single (.atom (by decide))) .nil)))) .nil)))⟩
  obtain ⟨F, h1⟩ := (C17_flat_returns utf8Crate patStartAB ⟨_, hm⟩).2
  have h2 := C19_flat_u8_test utf8Crate h1
  have hF : (compileFlatU8 utf8Sequences patStartAB).map (fun F => F.test (encode [])) = .ok false := by
    decide +kernel
  have e1 : compileFlatU8 utf8Sequences patStartAB = .ok F := h1
  rw [e1] at hF
  simp only [Except.map, Except.ok.injEq] at hF
  rw [← h2, hF]; simp
example : (compileDfaU8 utf8Sequences patStartAB).map (·.map (fun G => (G.dfa.test (encode ['a', 'b', 'c']),
    G.dfa.test (encode ['x', 'a', 'b'])))) = .ok (some (true, false)) := by decide +kernel

/-- The pattern `^(a|b)*$|^(^c$)`: it matches the empty text; every branch passes a `^` after which there is none. -/
def patLeads : ERE := .mk [.mk [.start, .quantified (.sub (.mk [.mk [.single (.atom (.normal 'a'))],
    .mk [.single (.atom (.normal 'b'))]])) ⟨.star, false⟩, .end_],
  .mk [.start, .single (.sub (.mk [.mk [.start, .single (.atom (.normal 'c')), .end_]]))]]

/-- non-vacuity: `^(a|b)*$|^(^c$)` is of the second kind, and it compiles. -/
example : patLeads.StartSimple := .inr (.inl (by decide))
example : (compileDfaU8 utf8Sequences patLeads).map (·.map (fun G => (G.dfa.test (encode []), G.dfa.test (encode ['c']),
    G.dfa.test (encode ['x']), decide (G.tdfa.exec ['a', 'b'] (encode ['a', 'b']) =
      .ok (some [some (0, 2), some (1, 2), none]))))) = .ok (some (true, true, false, true)) := by decide +kernel

/-- **C30 (DFA engine).** Every tag of the generated program names a slot inside the array, every thread
copied exists in the state before, every tag is added to a thread that exists in the state after. -/
theorem C30_dfa_slots (U : Utf8Seqs) {e : ERE} {G : DfaEngine} (h : compileDfaU8 U.seqs e = .ok (some G)) :
    ∀ s ∈ G.tdfa.start :: G.tdfa.states,
      (∀ a, s.accept.final = some a → a.state < s.nfa.length ∧ ∀ t ∈ a.add, t.group < G.tdfa.numCaptureGroups) ∧
      ∀ t ∈ s.trans, (∀ i ∈ t.copy, i < s.nfa.length) ∧
        (∃ s', G.tdfa.states[t.dst]? = some s' ∧ t.copy.length = s'.nfa.length) ∧
        ∀ p ∈ t.add, p.1 < t.copy.length ∧ p.2.group < G.tdfa.numCaptureGroups := by
  unfold compileDfaU8 at h
  split at h
  · simp at h
  rename_i M hb
  obtain ⟨N, h1, h2⟩ := byteNFA_ok hb
  obtain ⟨_, hM, _, _⟩ := pipeline_ne U e h1 h2 (dfaOf_ne h)
  rcases fromNFA_spec hM.wf hM.ne (TDFA.defaultBound M.length) with ⟨g1, _⟩ | ⟨T, g1, _, g2⟩
  · rw [dfaOf, g1] at h; simp at h
  rw [dfaOf, g1] at h
  obtain ⟨D, g3, _⟩ := fromTagged_spec g2
  simp only [serializeDfa] at h
  rw [g3] at h
  injection h with h
  injection h with h
  subst h
  intro s hs
  have hmem : s ∈ T.states ++ [T.start] := by
    rcases List.mem_cons.mp hs with h | h
    · simp [h]
    · simp [h]
  obtain ⟨first, hE⟩ : ∃ first, Expanded M first s.nfa (namesOf T.states) s := by
    rcases List.mem_cons.mp hs with h | h
    · subst h
      have := g2.start
      rw [← this.nfa] at this
      exact ⟨_, this⟩
    · obtain ⟨x, hx⟩ := List.mem_iff_getElem?.mp h
      exact ⟨_, g2.states x s hx⟩
  constructor
  · intro a ha
    obtain ⟨q, ls, k1, _, _⟩ := hE.accept.some a ha
    refine ⟨(List.getElem?_eq_some_iff.mp k1).1, fun t ht => group_lt hmem ?_⟩
    unfold TState.groups
    refine List.mem_append_right _ ?_
    have hg : t.group ∈ a.add.map Tag.group := List.mem_map.mpr ⟨t, ht, rfl⟩
    cases hacc : s.accept with
    | none => rw [hacc] at ha; simp [TAccept.final] at ha
    | anchored x => rw [hacc] at ha; simp [TAccept.final] at ha; subst ha; exact hg
    | both x y =>
      rw [hacc] at ha; simp [TAccept.final] at ha; subst ha
      exact List.mem_append_left _ hg
    | unanchored x => rw [hacc] at ha; simp [TAccept.final] at ha; subst ha; exact hg
  · intro t ht
    obtain ⟨items, k1, k2, _⟩ := hE.trans
    obtain ⟨r, k3, k4⟩ := forall2_left k2 ht
    refine ⟨?_, ?_, ?_⟩
    · intro i hi
      rw [k4.copy] at hi
      obtain ⟨it, k5, rfl⟩ := List.mem_map.mp hi
      have k6 := (dedupByKey_sub _ _ _ it k5).1
      obtain ⟨_, s2, s3⟩ := splitRanges_spec items
      obtain ⟨rr, vs⟩ := r
      have hle := (s2 _ k3).1
      have k7 := ((s3 rr.lo vs).mp ⟨rr, k3, by simp [U8Atom.check]; exact hle⟩).1
      have k8 : it ∈ itemsAt items rr.lo := by rw [← k7]; exact k6
      obtain ⟨a, k9, _⟩ := mem_itemsAt.mp k8
      obtain ⟨q, _, _, k10, _⟩ := (k1 a it).mp k9
      exact (List.getElem?_eq_some_iff.mp k10).1
    · have := k4.dst
      simp only [namesOf, List.getElem?_map, Option.map_eq_some_iff] at this
      obtain ⟨s', e1, e2⟩ := this
      exact ⟨s', e1, by rw [e2, k4.copy]; simp⟩
    · intro p hp
      constructor
      · rw [k4.add] at hp
        obtain ⟨x, k5, k6⟩ := List.mem_flatMap.mp hp
        obtain ⟨tg, _, rfl⟩ := List.mem_map.mp k6
        obtain ⟨it, i⟩ := x
        have := List.mem_zipIdx k5
        rw [k4.copy, List.length_map]
        simp only; omega
      · refine group_lt hmem ?_
        unfold TState.groups
        exact List.mem_append_left _ (List.mem_flatMap.mpr ⟨t, ht, List.mem_map.mpr ⟨p, hp, rfl⟩⟩)

end Ere.Props
