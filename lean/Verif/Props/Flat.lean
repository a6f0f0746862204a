import Verif.Model.Engines
import Verif.Proofs.FlatTop

/-!
# Property theorems about the flat lockstep engines: C18, C19, C22-C25, C30, and epsilon closures C36

The hypothesis `∃ text, e.MatchesIn text` (the pattern can match at all) is necessary: for other
patterns the macros panic (C17).
-/

namespace Ere.Props
open Ere

/-- **C36.** The precomputed epsilon propagation of a state terminates, has no duplicates and lists
exactly the summaries of the walks of epsilon edges from the state: target, set of tags set in order
of first occurrence, whether a start anchor and whether an end anchor was crossed. -/
theorem C36_epsilon_closure {σ : Type} (N : NFA σ) (hN : N.WF) (q : Nat) (hq : q < N.length) :
    ∃ R, N.epsProps q = .ok R ∧ R.Nodup ∧ ∀ t, t ∈ R ↔ ∃ ls, EWalk N q ls t.state ∧
      t.tags = (ls.filterMap EpsType.tag?).eraseDups ∧
      (t.startOnly = true ↔ .startAnchor ∈ ls) ∧ (t.endOnly = true ↔ .endAnchor ∈ ls) := by
  obtain ⟨R, h1, h2, h3⟩ := epsProps_spec hN hq
  refine ⟨R, h1, h2, fun t => ?_⟩
  rw [h3]
  constructor
  · rintro ⟨p, ls, h4, rfl⟩
    exact ⟨ls, h4, rfl, by simp [walkSummary], by simp [walkSummary]⟩
  · rintro ⟨ls, h4, h5, h6, h7⟩
    refine ⟨t.state, ls, h4, ?_⟩
    obtain ⟨s, ts, a, b⟩ := t
    simp only [walkSummary, EpsProp.mk.injEq] at *
    refine ⟨trivial, h5, ?_, ?_⟩
    · rw [Bool.eq_iff_iff, h6]; simp
    · rw [Bool.eq_iff_iff, h7]; simp

/-- non-vacuity: a cycle of two epsilon edges with a tag and an anchor. -/
example : NFA.epsProps ([⟨[], [⟨1, .startCapture 0⟩]⟩, ⟨[], [⟨0, .startAnchor⟩]⟩] : NFA Atom) 0 =
    .ok [⟨0, [], false, false⟩, ⟨1, [.startCapture 0], false, false⟩,
      ⟨0, [.startCapture 0], true, false⟩, ⟨1, [.startCapture 0], true, false⟩] := by
  decide +kernel

/-- **C18.** `test` of the regex made by `compile_regex_flat_lockstep_nfa!` answers true exactly when
the pattern matches somewhere in the text. -/
theorem C18_flat_char_test {e : ERE} {F : Flat Atom} (h : compileFlatChar e = .ok F) (text : List Char) :
    F.test text = true ↔ e.MatchesIn text := by
  obtain ⟨_, _, _, _, h5⟩ := flat_char h
  exact h5.test text

/-- **C19.** The same for `compile_regex_flat_lockstep_nfa_u8!`, which reads the bytes of the text. -/
theorem C19_flat_u8_test (U : Utf8Seqs) {e : ERE} {F : Flat U8Atom} (h : compileFlatU8 U.seqs e = .ok F)
    (text : List Char) : F.test (encode text) = true ↔ e.MatchesIn text := by
  obtain ⟨_, _, _, _, _, _, h5⟩ := flat_u8 U h
  exact h5.test text

/-- C17 for these macros: they return if the pattern can match at all. -/
theorem C17_flat_returns (U : Utf8Seqs) (e : ERE) (hm : ∃ text, e.MatchesIn text) :
    (∃ F, compileFlatChar e = .ok F) ∧ ∃ F, compileFlatU8 U.seqs e = .ok F := flat_returns U hm

/-- The pattern `a(é|$)`. -/
def patAE : ERE := .mk [.mk [.single (.atom (.normal 'a')), .single (.sub
  (.mk [.mk [.single (.atom (.normal 'é'))], .mk [.end_]]))]]

/-- non-vacuity for C18, C19 and the theorems below: `a(é|$)` matches `xaé` and `xa`, not `ax`. -/
example : (do
    let F ← compileFlatChar patAE
    return (F.test ['x', 'a', 'é'], F.test ['x', 'a'], F.test ['a', 'x'])) =
    (.ok (true, true, false) : Except Err _) := by decide +kernel
example : (do
    let F ← compileFlatU8 utf8Sequences patAE
    return (F.test (encode ['x', 'a', 'é']), F.test (encode ['x', 'a']), F.test (encode ['a', 'x']))) =
    (.ok (true, true, false) : Except Err _) := by decide +kernel
example : (do
    let F ← compileFlatU8 utf8Sequences patAE
    F.exec ['x', 'a', 'é', 'b'] (encode ['x', 'a', 'é', 'b'])) =
    (.ok (some [some (1, 4), some (2, 4)]) : Except Err _) := by decide +kernel
example : (do
    let F ← compileFlatChar patAE
    F.exec ['x', 'a'] ['x', 'a']) = (.ok (some [some (1, 2), some (2, 2)]) : Except Err _) := by
  decide +kernel

/-- The result of an `exec` is right for a pattern and a text: it is `None` only without a match;
otherwise there is one way of matching in which every reported group is the last stretch matched by
that group, and groups not reported did not take part. -/
def ExecOk (e : ERE) (text : List Char) (groups : Nat)
    (res : Except Err (Option (List (Option (Nat × Nat))))) : Prop :=
  (res = .ok none ∧ ¬ e.MatchesIn text) ∨
  ∃ r S, res = .ok (some r) ∧ e.Captures text S ∧ r.length = groups ∧ ∀ g, (r[g]?).join = lastSpan S g

/-- **C23 (flat engines over characters).** -/
theorem C23_flat_char_exec {e : ERE} {F : Flat Atom} (h : compileFlatChar e = .ok F) (text : List Char) :
    ExecOk e text F.groups (F.exec text text) := by
  obtain ⟨_, _, _, _, h5⟩ := flat_char h
  exact h5.exec text

/-- **C23 (flat engines over bytes).** -/
theorem C23_flat_u8_exec (U : Utf8Seqs) {e : ERE} {F : Flat U8Atom} (h : compileFlatU8 U.seqs e = .ok F)
    (text : List Char) : ExecOk e text F.groups (F.exec text (encode text)) := by
  obtain ⟨_, _, _, _, _, _, h5⟩ := flat_u8 U h
  exact h5.exec text

/-- **C22, C24, C25 from C23**, for any engine: `exec` succeeds exactly when there is a match, never
panics, the slices are in order and on character boundaries, and group 0 is a match of the pattern. -/
theorem C22_exec_some_iff {e text k res} (h : ExecOk e text k res) :
    (∃ r, res = .ok (some r)) ↔ e.MatchesIn text := by
  rcases h with ⟨h1, h2⟩ | ⟨r, S, h1, h2, _, _⟩
  · rw [h1]
    exact ⟨fun ⟨r, hr⟩ => by simp at hr, fun hh => absurd hh h2⟩
  · exact ⟨fun _ => captures_matchesIn.mp ⟨S, h2⟩, fun _ => ⟨r, h1⟩⟩

theorem C24_exec_slices {e text k res} (h : ExecOk e text k res) :
    ∃ o, res = .ok o ∧ ∀ r, o = some r → ∀ i j, some (i, j) ∈ r →
      ∃ a b c, text = a ++ b ++ c ∧ i = byteLen a ∧ j = byteLen (a ++ b) := by
  rcases h with ⟨h1, h2⟩ | ⟨r, S, h1, h2, h3, h4⟩
  · exact ⟨_, h1, by simp⟩
  · refine ⟨_, h1, ?_⟩
    rintro r' hr i j hij
    injection hr with hr; subst hr
    obtain ⟨g, hg⟩ := List.mem_iff_getElem?.mp hij
    have := h4 g
    rw [hg] at this
    obtain ⟨_, a, b, c, h⟩ := captures_slice h2 _ (lastSpan_mem this.symm)
    exact ⟨a, b, c, h⟩

theorem C25_exec_group0 {e text k r} (h : ExecOk e text k (.ok (some r))) :
    ∃ pre mid post, text = pre ++ mid ++ post ∧ MatchesERE e pre mid post ∧
      r[0]? = some (some (byteLen pre, byteLen (pre ++ mid))) := by
  rcases h with ⟨h1, h2⟩ | ⟨r', S, h1, h2, h3, h4⟩
  · simp at h1
  · injection h1 with h1; injection h1 with h1; subst h1
    obtain ⟨pre, mid, post, S', e1, e2, rfl⟩ := h2
    refine ⟨pre, mid, post, e1, ?_, ?_⟩
    · refine (Tree.mt_sub e 1 _ _ _).mp ?_
      obtain ⟨L, _, h⟩ := Tree.sp_run ((Tree.sp_sub e 1 _ _ _ _).mpr e2) (Tree.gok_sub e 1) []
      exact ⟨_, _, h⟩
    · have := h4 0
      rw [lastSpan_append] at this
      simp only [lastSpan, List.reverse_cons, List.reverse_nil, List.nil_append, List.find?_cons,
        beq_self_eq_true, Option.map_some, Option.some_or] at this
      cases h0 : r[0]? with
      | none => rw [h0] at this; simp at this
      | some x => rw [h0] at this; simp only [Option.join_some] at this; rw [this]

/-- **C30 (flat engines).** No thread update of the generated program addresses a slot outside the
array. -/
theorem C30_flat_slots (U : Utf8Seqs) (e : ERE) :
    (∀ F, compileFlatChar e = .ok F → ∀ q u, u ∈ F.at q → ∀ t ∈ u.tags, t.group < F.groups) ∧
    (∀ G, compileFlatU8 U.seqs e = .ok G → ∀ q u, u ∈ G.at q → ∀ t ∈ u.tags, t.group < G.groups) := by
  have key : ∀ {σ : Type} {N : NFA σ} {F : Flat σ}, Ready N → FlatOk N F →
      ∀ q u, u ∈ F.at q → ∀ t ∈ u.tags, t.group < F.groups := by
    intro σ N F hN hF q u hu
    by_cases hc : N.excludedFlat q = true ∨ N.length ≤ q
    · rw [hF.none q hc] at hu; simp at hu
    · rw [not_or] at hc
      obtain ⟨hc1, hc2⟩ := hc
      obtain ⟨_, ls, h5, h6⟩ := (hF.mem q (by omega) (by simpa using hc1) u).mp hu
      rw [hF.groups, h6]
      exact walk_tag_lt hN h5
  constructor
  · intro F h
    obtain ⟨_, _, hF, hN, _⟩ := flat_char h
    exact key hN hF
  · intro G h
    obtain ⟨_, _, _, _, hG, hM, _⟩ := flat_u8 U h
    exact key hM hG

end Ere.Props
