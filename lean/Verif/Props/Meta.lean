import Verif.Proofs.Meta
import Verif.Props.TDFA

/-!
# Property theorems about group metadata, fixed offsets and topological ordering: C28, C29, C31, C35
-/

namespace Ere.Props
open Ere

/-- **C35.** `topological_ordering` of any automaton without dangling edges terminates without panic. If it
returns an order, the order lists every state once and every edge points forward. It returns an order
exactly when there is no cycle and every state can be reached from the start. -/
theorem C35_topological_order {σ : Type} (N : NFA σ) (hne : N ≠ []) (hwf : N.WF) :
    ∃ r, N.topologicalOrdering = .ok r ∧
      (∀ o, r = some o → o.Perm (List.range N.length) ∧
        ∀ p l q, N.HasEdge p l q → ∃ (i j : Nat), o[i]? = some p ∧ o[j]? = some q ∧ i < j) ∧
      (r ≠ none ↔ (¬ ∃ q, Relation.TransGen (fun a b => ∃ l, N.HasEdge a l b) q q) ∧
        ∀ q < N.length, Relation.ReflTransGen (fun a b => ∃ l, N.HasEdge a l b) 0 q) := by
  have hE : (fun a b => ∃ l, N.HasEdge a l b) = N.Edge := by
    funext a b; exact propext edge_iff.symm
  rw [hE]
  obtain ⟨r, h1, h2, h3⟩ := topological_spec N hne
    (fun a b h => by obtain ⟨l, hl⟩ := edge_iff.1 h; exact hwf _ _ _ hl)
  have hfwd : ∀ o, r = some o → ∀ p q, N.Edge p q → ∃ (i j : Nat), o[i]? = some p ∧ o[j]? = some q ∧ i < j := by
    intro o ho p q he
    obtain ⟨h4, h5, _⟩ := h3 o ho
    have hp : p ∈ o := by
      obtain ⟨l, hl⟩ := edge_iff.1 he
      exact h4.mem_iff.2 (List.mem_range.2 (hasEdge_lt hl))
    obtain ⟨a, b, rfl⟩ := List.append_of_mem hp
    obtain ⟨j, hj⟩ := List.mem_iff_getElem?.1 (h5 a p b rfl q he)
    refine ⟨a.length, a.length + (j + 1), by simp, ?_, by omega⟩
    rw [List.getElem?_append_right (by omega), Nat.add_sub_cancel_left, List.getElem?_cons_succ, hj]
  refine ⟨r, h1, fun o ho => ⟨(h3 o ho).1, fun p l q he => hfwd o ho p q (edge_iff.2 ⟨l, he⟩)⟩, ?_, ?_⟩
  · intro hr
    cases r with
    | none => exact absurd rfl hr
    | some o =>
      refine ⟨?_, (h3 o rfl).2.2⟩
      rintro ⟨q, hq⟩
      have hnd : o.Nodup := (h3 o rfl).1.nodup_iff.2 List.nodup_range
      have key : ∀ a b, Relation.TransGen N.Edge a b → ∃ (i j : Nat), o[i]? = some a ∧ o[j]? = some b ∧ i < j := by
        intro a b h
        induction h with
        | single h => exact hfwd o rfl _ _ h
        | tail _ h ih =>
          obtain ⟨i, j, e1, e2, e3⟩ := ih
          obtain ⟨i', j', f1, f2, f3⟩ := hfwd o rfl _ _ h
          have hi := (List.getElem?_eq_some_iff.1 e2).1
          have := (List.getElem?_inj hi hnd).1 (e2.trans f1.symm)
          exact ⟨i, j', e1, f2, by omega⟩
      obtain ⟨i, j, e1, e2, e3⟩ := key q q hq
      have hi := (List.getElem?_eq_some_iff.1 e1).1
      have := (List.getElem?_inj hi hnd).1 (e1.trans e2.symm)
      omega
  · rintro ⟨g1, g2⟩ hr
    rcases h2 hr with h | ⟨q, h4, h5⟩
    · exact g1 h
    · exact h5 (g2 q h4)

/-- non-vacuity: a diamond, a cycle, an unreachable state. -/
example : NFA.topologicalOrdering ([⟨[⟨2, .normal 'a'⟩], [⟨1, .none⟩]⟩, ⟨[], [⟨3, .none⟩]⟩,
    ⟨[⟨1, .normal 'b'⟩, ⟨3, .normal 'c'⟩], []⟩, ⟨[], []⟩] : NFA Atom) = .ok (some [0, 2, 1, 3]) := by decide +kernel
example : NFA.topologicalOrdering ([⟨[], [⟨1, .none⟩]⟩, ⟨[⟨0, .normal 'a'⟩], []⟩] : NFA Atom) = .ok none := by
  decide +kernel
example : NFA.topologicalOrdering ([⟨[], [⟨2, .none⟩]⟩, ⟨[], []⟩, ⟨[], []⟩] : NFA Atom) = .ok none := by
  decide +kernel

/-- **C31 (the analysis).** For every automaton the compiler produces, `get_fixed_offsets` terminates; it
gives up exactly if there is a cycle or two walks from the start to the accept state record different
offsets (whatever the symbols and anchors on the way); otherwise it returns what all of them record. -/
theorem C31_fixed_offsets_analysis {σ : Type} {N : NFA σ} (hN : Ready N) :
    ∃ r, N.fixedOffsets = .ok r ∧
      (r = none ↔ (∃ q, Relation.TransGen (fun a b => ∃ l, N.HasEdge a l b) q q) ∨ N.Conflict) ∧
      ∀ offs, r = some offs → ∀ o c, N.Drift (N.length - 1) o c → offs = slotsOf N.numCaptureGroups c := by
  have hE : (fun a b => ∃ l, N.HasEdge a l b) = N.Edge := by
    funext a b; exact propext edge_iff.symm
  rw [hE]
  exact fixedOffsets_spec hN

theorem fixedOffsets_ne {σ : Type} {M : NFA σ} {r} (h : M.fixedOffsets = .ok r) : M ≠ [] := by
  rintro rfl
  have : NFA.fixedOffsets ([] : NFA σ) = .error .panic := rfl
  rw [this] at h; simp at h

/-- **C31.** If the compiler finds fixed offsets for a pattern, then for every text and *every* way of
matching the pattern in it, the constant offsets are exactly the captures of that match, and slicing at
them does not panic. -/
theorem C31_fixed_offsets (U : Utf8Seqs) {e : ERE} {M : NFA U8Atom} (hM : byteNFA U.seqs e = .ok M) {offs : Slots}
    (h : M.fixedOffsets = .ok (some offs)) (text : List Char) (S : List Span) (hS : e.Captures text S) :
    ∃ res, fixedExec offs true text = .ok (some res) ∧
      res.length = offs.length ∧ ∀ g, (res[g]?).join = lastSpan S g := by
  obtain ⟨N, h1, h2⟩ := byteNFA_ok hM
  obtain ⟨r, h3, h4⟩ := fixed_engine U h1 h2 (fixedOffsets_ne h)
  rw [h] at h3
  injection h3 with h3
  exact (h4 offs h3.symm).2 text S hS

/-- **C22-C25 for the fixed-offset engine**: with an inner engine whose `test` is right, `exec` is right. -/
theorem C23_fixed_exec (U : Utf8Seqs) {e : ERE} {M : NFA U8Atom} (hM : byteNFA U.seqs e = .ok M) {offs : Slots}
    (h : M.fixedOffsets = .ok (some offs)) :
      offs.length = M.numCaptureGroups ∧
      ∀ text test, (test = true ↔ e.MatchesIn text) → ExecOk e text offs.length (fixedExec offs test text) := by
  obtain ⟨N, h1, h2⟩ := byteNFA_ok hM
  obtain ⟨r, h3, h4⟩ := fixed_engine U h1 h2 (fixedOffsets_ne h)
  rw [h] at h3
  injection h3 with h3
  refine ⟨(h4 offs h3.symm).1, fun text test ht => ?_⟩
  cases test with
  | false => exact .inl ⟨rfl, fun h => absurd (ht.2 h) (by simp)⟩
  | true =>
    obtain ⟨S, hS⟩ := captures_matchesIn.2 (ht.1 rfl)
    obtain ⟨res, r1, r2, r3⟩ := (h4 offs h3.symm).2 text S hS
    exact .inr ⟨res, S, r1, hS, r2, r3⟩

/-- The pattern `^(é|ab)c$`. -/
def patFixed : ERE := .mk [.mk [.start, .single (.sub (.mk [.mk [.single (.atom (.normal 'é'))],
  .mk [.single (.atom (.normal 'a')), .single (.atom (.normal 'b'))]])), .single (.atom (.normal 'c')), .end_]]
/-- The pattern `^a(b?)$`. -/
def patNotFixed : ERE := .mk [.mk [.start, .single (.atom (.normal 'a')), .single (.sub (.mk [.mk
  [.quantified (.atom (.normal 'b')) ⟨.question, false⟩]])), .end_]]

/-- non-vacuity: both alternatives of `^(é|ab)c$` have two bytes, so its offsets are fixed; those of
`^a(b?)$` are not. -/
example : ((byteNFA utf8Sequences patFixed).bind (·.fixedOffsets)) =
    .ok (some [(some 0, some 3), (some 0, some 2)]) := by decide +kernel
example : ((byteNFA utf8Sequences patNotFixed).bind (·.fixedOffsets)) = .ok none := by decide +kernel
example : fixedExec [(some 0, some 3), (some 0, some 2)] true ['é', 'c'] =
    .ok (some [some (0, 3), some (0, 2)]) := by decide +kernel
example : patFixed.MatchesIn ['é', 'c'] :=
  ⟨[], ['é', 'c'], [], rfl, .intro (List.mem_singleton.mpr rfl) (.cons (m1 := []) (m2 := ['é', 'c']) .start
    (.cons (m1 := ['é']) (m2 := ['c']) (.single (.sub (.intro (b := .mk [.single (.atom (.normal 'é'))]) (by simp)
      (.cons (m1 := ['é']) (m2 := []) (.single (.atom (by decide))) .nil))))
      (.cons (m1 := ['c']) (m2 := []) (.single (.atom (by decide))) (.cons (m1 := []) (m2 := []) .end_ .nil))))⟩

/-- **C28.** If the compiler declares a group non-optional, every way of matching the pattern in any text
captures it; the assertion in the analysis never fires. -/
theorem C28_mandatory_groups {e : ERE} {N : NFA Atom} (h1 : charNFA e = .ok N) (hne : N ≠ []) (g : Nat) :
    N.groupIsOptionalDebug g = .ok (N.groupIsOptional g) ∧
      (N.groupIsOptional g = false → ∀ text S, e.Captures text S → ∃ i j, lastSpan S g = some (i, j)) := by
  obtain ⟨hN, h3⟩ := workingNew_ne e h1 hne
  refine ⟨optionalDebug_eq hN g, fun hopt text S hS => ?_⟩
  obtain ⟨caps, hR, hrun⟩ := captures_run hS
  have hacc := (h3 text caps).2 hrun
  cases hl : lastSpan S g with
  | some p => exact ⟨p.1, p.2, rfl⟩
  | none =>
    exfalso
    have hs : caps.start? g = none := by rw [(reads_last hR g).1, hl]; rfl
    have hp := run_unset_path hacc.2 hs
    have := ((reachFrom_spec hN.wf (List.length_pos_of_ne_nil hN.ne)).2 _).2 hp
    rw [NFA.groupIsOptional] at hopt
    rw [hopt] at this; simp at this

/-- **C28 for `exec`**: whatever engine is used, if its `exec` is right and reports a match, a non-optional
group is set, so that the `expect` of the attribute macro does not fire. -/
theorem C28_expect_never_fires {e : ERE} {text : List Char} {k : Nat} {r : List (Option (Nat × Nat))}
    (h : ExecOk e text k (.ok (some r))) {N : NFA Atom} (hN : charNFA e = .ok N) {g : Nat}
    (hg : N.groupIsOptional g = false) : ∃ i j, r[g]? = some (some (i, j)) := by
  rcases h with ⟨h1, _⟩ | ⟨r', S, h1, h2, _, h4⟩
  · simp at h1
  · injection h1 with h1; injection h1 with h1; subst h1
    obtain ⟨N', e1, hR, _⟩ := workingNew_ready e ⟨text, captures_matchesIn.1 ⟨S, h2⟩⟩
    have hN' : N' = N := by
      rw [charNFA] at hN; exact ok_unique e1 hN
    subst hN'
    obtain ⟨i, j, e3⟩ := (C28_mandatory_groups hN hR.ne g).2 hg text S h2
    have := h4 g
    rw [e3] at this
    cases hr : r[g]? with
    | none => rw [hr] at this; simp at this
    | some x => rw [hr] at this; simp only [Option.join_some] at this; exact ⟨i, j, by rw [this]⟩

/-- non-vacuity: in `(a)(b)?` group 1 is mandatory, group 2 is optional. -/
def patOpt : ERE := .mk [.mk [.single (.sub (.mk [.mk [.single (.atom (.normal 'a'))]])),
  .quantified (.sub (.mk [.mk [.single (.atom (.normal 'b'))]])) ⟨.question, false⟩]]
example : (charNFA patOpt).map (fun N => (N.groupIsOptional 0, N.groupIsOptional 1, N.groupIsOptional 2)) =
    .ok (false, false, true) := by decide +kernel
example : (do
    let F ← compileFlatChar patOpt
    F.exec ['x', 'a'] ['x', 'a']) = (.ok (some [some (1, 2), some (1, 2), none]) : Except Err _) := by decide +kernel

/-- **C29 (bound).** The array length of the regex is at most one more than the number of parentheses. -/
theorem C29_groups_bound (U : Utf8Seqs) {e : ERE} {N : NFA Atom} {M : NFA U8Atom} (hN : charNFA e = .ok N)
    (hM : byteNFA U.seqs e = .ok M) (hne : M ≠ []) :
      N.numCaptureGroups ≤ e.groups + 1 ∧ M.numCaptureGroups ≤ e.groups + 1 := by
  obtain ⟨N', h1, h2⟩ := byteNFA_ok hM
  have hN' : N' = N := by
    rw [charNFA] at hN; exact ok_unique h1 hN
  subst hN'
  exact groups_le U e h1 (pipeline_ne U e h1 h2 hne).1 h2 hne

/-- **C29 (partial).** For the array lengths taken from the character automaton and the byte automaton
(flat engines, one-pass engine, fixed offsets): they equal one plus the number of parentheses if some match in some text captures
the last group. Missing: patterns in which the last group can never take part (false there:
`C29_negation`) and the DFA engine (false: `C29_dfa_negation`). -/
theorem C29_groups_exact_partial (U : Utf8Seqs) (e : ERE)
    (hl : ∃ text S i j, e.Captures text S ∧ lastSpan S e.groups = some (i, j)) :
    ∃ N M, charNFA e = .ok N ∧ byteNFA U.seqs e = .ok M ∧
      N.numCaptureGroups = e.groups + 1 ∧ M.numCaptureGroups = e.groups + 1 := by
  obtain ⟨text, S, i, j, hS, hij⟩ := hl
  obtain ⟨N, M, h1, h2, hN, hM, h3, h4⟩ := pipeline_spec U e ⟨text, captures_matchesIn.1 ⟨S, hS⟩⟩
  obtain ⟨h5, h6⟩ := groups_le U e h1 hN h2 hM.ne
  obtain ⟨caps, hR, hrun⟩ := captures_run hS
  have hacc := (h3 text caps).2 hrun
  have hacc' := (acc_enc h4 text _ caps).2 hacc
  have hs : caps.start? e.groups ≠ none := by rw [(reads_last hR _).1, hij]; simp
  have h7 := run_set_edge hacc.2 hs
  have h8 := run_set_edge hacc'.2 hs
  refine ⟨N, M, h1, ?_, by omega, by omega⟩
  unfold byteNFA charNFA; rw [h1]; exact h2

/-- The pattern `(a){0}b`. -/
def patGroupGone : ERE := .mk [.mk [.quantified (.sub (.mk [.mk [.single (.atom (.normal 'a'))]])) ⟨.multiple 0, false⟩,
  .single (.atom (.normal 'b'))]]

/-- **C29 is false**: `(a){0}b` has one group, but its regex has array length 1, not 2. -/
theorem C29_negation : patGroupGone.groups = 1 ∧ (∃ text, patGroupGone.MatchesIn text) ∧
    (charNFA patGroupGone).map (·.numCaptureGroups) = .ok 1 ∧
    (byteNFA utf8Sequences patGroupGone).map (·.numCaptureGroups) = .ok 1 := by
  refine ⟨by decide, ⟨['b'], [], ['b'], [], rfl, .intro (List.mem_singleton.mpr rfl)
    (.cons (m1 := []) (m2 := ['b']) (.quantified (n := 0) (by decide) (by simp [QType.max]) .zero)
      (.cons (m1 := ['b']) (m2 := []) (.single (.atom (by decide))) .nil))⟩, by decide +kernel, by decide +kernel⟩

/-- The pattern `|()`. -/
def patEmptyOr : ERE := .mk [.mk [], .mk [.single (.sub (.mk [.mk []]))]]

/-- **C29 is false for the DFA engine even if every group can be captured**: for `|()` the character and
byte automata have two groups but the array returned by the DFA engine has length 1. (As the attribute
macro declares the array with the length of the character automaton, the generated program does not
type-check.) -/
theorem C29_dfa_negation : patEmptyOr.groups = 1 ∧
    (∃ S, patEmptyOr.Captures [] S ∧ lastSpan S 1 = some (0, 0)) ∧
    (charNFA patEmptyOr).map (·.numCaptureGroups) = .ok 2 ∧
    (compileDfaU8 utf8Sequences patEmptyOr).map (·.map (·.tdfa.numCaptureGroups)) = .ok (some 1) := by
  refine ⟨by decide, ⟨_, ⟨[], [], [], _, rfl, .intro (bs1 := [.mk []]) (bs2 := []) rfl
    (.cons (m1 := []) (m2 := []) (.single (.sub (.intro (bs1 := []) (bs2 := []) rfl .nil))) .nil), rfl⟩, by decide⟩,
    by decide +kernel, by decide +kernel⟩

/-- non-vacuity of `C29_groups_exact_partial`: `|()`. -/
example : (byteNFA utf8Sequences patEmptyOr).map (·.numCaptureGroups) = .ok 2 := by decide +kernel

end Ere.Props
