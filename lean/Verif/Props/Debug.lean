import Verif.Model.Debug
import Verif.Props.Pick

/-!
# C79: debug assertions never fail

Whether the macro crate is built with or without debug assertions makes no difference: on every pattern the
macros give the same result.
-/

namespace Ere.Props
open Ere

variable {σ α : Type} [Sym σ α]

/-! ### working_nfa.rs 658 -/

theorem two_of_ends {ds : List Bool} {n : Nat} (h0 : ds[0]? = some false)
    (h1 : ds[n + 1]? = some false) : 2 ≤ ds.count false := by
  have e1 := cnt_succ h0
  have e2 := cnt_succ h1
  have e3 : cnt ds 0 = 0 := cnt_zero ds
  have e4 : cnt ds (0 + 1) ≤ cnt ds (n + 1) := cnt_mono (by omega)
  have e5 := cnt_le ds (n + 1 + 1)
  omega

theorem optimizePass_two {N : NFA σ} (hwf : N.WF) (hr : N.Ranked) (h2 : 2 ≤ N.length) {N' : NFA σ} {ch : Bool}
    (h : N.optimizePass = .ok (N', ch)) : 2 ≤ N'.length := by
  have hne : N ≠ [] := by rintro rfl; simp at h2
  obtain ⟨p, hp, hinv⟩ := passLoop_inv (α := α) (N.length - 2) 1 _ (passInv_init hne hwf hr) (by omega) (by omega)
  unfold NFA.optimizePass at h
  rw [hp] at h
  simp only at h
  split at h
  · simp only [Except.ok.injEq, Prod.mk.injEq] at h
    rw [← h.1, removeDead_length hinv.live.len]
    obtain ⟨n, hn⟩ := Nat.exists_eq_add_of_le' h2
    exact two_of_ends (n := n) hinv.zero (hinv.fresh _ (by omega) (by omega))
  · simp only [Except.ok.injEq, Prod.mk.injEq] at h
    rw [← h.1, hinv.len]; exact h2

theorem optimizeLoop_debug (k : Nat) : ∀ N : NFA σ, N.WF → N.Ranked → 2 ≤ N.length →
    optimizeLoopDebug k N = optimizeLoop k N := by
  induction k with
  | zero => intro N _ _ _; rfl
  | succ k ih =>
    intro N hwf hr h2
    have hne : N ≠ [] := by rintro rfl; simp at h2
    obtain ⟨N1, ch, h1, hk, _⟩ := optimizePass_spec (α := α) hne hwf hr
    unfold optimizeLoopDebug optimizeLoop NFA.optimizePassDebug
    rw [if_pos h2, h1]
    cases ch with
    | false => rfl
    | true => exact ih N1 hk.wf hk.rank (optimizePass_two hwf hr h2 h1)

theorem finish_debug {N : NFA σ} (h : Shape N) (h2 : 2 ≤ N.length) : N.finishDebug = N.finish := by
  have hz : Shape N.clearZeroSymbol := filterEdges_shape h
  unfold NFA.finishDebug NFA.finish
  rw [optimizeLoop_debug _ _ hz.good.wf hz.rank (by
    unfold NFA.clearZeroSymbol; simp only [filterEdges_length]; exact h2)]
  split
  · rfl
  · cases optimizeLoop (N.clearZeroSymbol.size + 1) N.clearZeroSymbol <;> rfl

/-- `optimize_pass` is only ever called with two states or more. -/
theorem C79_optimize (e : ERE) : newLoopOptDebug (Tree.fromERE e).1 true true = charNFA e := by
  have hb := build_shape _ (starOk_fromERE e)
  have hc1 : Shape (build (Tree.fromERE e).1).cleanStartAnchors := filterEdges_shape hb
  have hc : Shape (build (Tree.fromERE e).1).cleanStartAnchors.cleanEndAnchors := filterEdges_shape hc1
  refine finish_debug (withLoops_shape hc anyAtom true true) ?_
  simp only [NFA.withLoops, if_true, nfaConcat, List.length_cons, List.length_append, List.length_nil]
  omega

/-! ### working_u8_dfa.rs 770 and 771 -/

theorem splitApart_of {β : Type} : ∀ l : List (U8Atom × List β), l.Pairwise (fun x y => x.1.hi < y.1.lo) →
    splitApart l = true
  | [], _ => rfl
  | [_], _ => rfl
  | x :: y :: l, h => by
    rw [List.pairwise_cons] at h
    simp only [splitApart, Bool.and_eq_true, decide_eq_true_eq]
    exact ⟨h.1 y (by simp), splitApart_of (y :: l) h.2⟩

/-- The assertions of `split_ranges_u8` hold for all lists of ranges. -/
theorem C79_split {β : Type} (items : List (U8Atom × β)) : splitRangesDebug items = .ok (splitRanges items) := by
  obtain ⟨h1, h2, _⟩ := splitRanges_spec items
  unfold splitRangesDebug
  simp only
  rw [if_pos, if_pos (splitApart_of _ h1)]
  rw [List.all_eq_true]
  intro x hx
  exact decide_eq_true (List.length_pos_of_ne_nil (h2 x hx).2)

theorem tdfaLoop_debug (N : NFA U8Atom) (m : Nat) : ∀ (k : Nat) (states : List TState) (stack : List Nat),
    tdfaLoopDebug N m k states stack = tdfaLoop N m k states stack := by
  intro k
  induction k with
  | zero => intro states stack; cases stack <;> rfl
  | succ k ih =>
    intro states stack
    cases stack with
    | nil => rfl
    | cons x stack =>
      unfold tdfaLoopDebug tdfaLoop
      cases states[x]? with
      | none => rfl
      | some s =>
        have he : expandStateDebug N s.nfa (states.map (·.nfa)) = expandState N s.nfa (states.map (·.nfa)) := by
          unfold expandStateDebug expandState
          cases s.nfa.zipIdx.foldlM (expandThread N) (.none, []) with
          | error x => rfl
          | ok r => simp only [C79_split]
        simp only [he]
        cases expandState N s.nfa (states.map (·.nfa)) with
        | error x => rfl
        | ok r =>
          simp only
          cases addStates m r.2 (states.set x r.1) stack with
          | none => rfl
          | some q => exact ih _ _

/-- … so the tagged DFA is the same. -/
theorem C79_determinise (N : NFA U8Atom) (m : Nat) : TDFA.fromNFADebug N m = TDFA.fromNFA N m := by
  have he : newStartStateDebug N = newStartState N := by
    unfold newStartStateDebug newStartState
    split
    · rfl
    · cases N.epsProps 0 with
      | error x => rfl
      | ok props => simp only [C79_split]
  unfold TDFA.fromNFADebug TDFA.fromNFA
  rw [he]
  cases newStartState N with
  | error x => rfl
  | ok r =>
    simp only
    split
    · rfl
    · rw [tdfaLoop_debug]
      cases tdfaLoop N m m (r.2.map .stub) (List.range r.2.length).reverse with
      | error x => rfl
      | ok o => cases o <;> rfl

/-! ### working_u8_dfa.rs 608, 610 and 622 -/

theorem pairsSorted_of : ∀ l : List (Nat × Nat), l.Pairwise (fun p q => p.1 < q.1) → pairsSorted l = true
  | [], _ => rfl
  | [_], _ => rfl
  | p :: q :: l, h => by
    rw [List.pairwise_cons] at h
    simp only [pairsSorted, Bool.and_eq_true, decide_eq_true_eq]
    exact ⟨.inl (h.1 q (by simp)), pairsSorted_of (q :: l) h.2⟩

theorem mergeFold_debug : ∀ (ps : List (Nat × Nat)) (D : DFA), (∀ p ∈ ps, p.2 < p.1) →
    ps.foldlM mergeOneDebug D = ps.foldlM (fun D p => D.mergeStates p.2 p.1) D
  | [], _, _ => rfl
  | p :: ps, D, h => by
    rw [List.foldlM_cons, List.foldlM_cons, mergeOneDebug, if_pos (h p (by simp))]
    cases D.mergeStates p.2 p.1 with
    | error x => rfl
    | ok D' => exact mergeFold_debug ps D' fun q hq => h q (by simp [hq])

theorem minimiseLoop_debug : ∀ (k : Nat) (D : DFA), minimiseLoopDebug k D = minimiseLoop k D := by
  intro k
  induction k with
  | zero => intro D; rfl
  | succ k ih =>
    intro D
    obtain ⟨h1, h2, _⟩ := mergePairs_spec D
    unfold minimiseLoopDebug minimiseLoop
    have e1 := pairsSorted_of _ (List.pairwise_reverse.mp h1)
    have e2 := mergeFold_debug D.mergePairs.reverse D fun p hp => (h2 p (List.mem_reverse.mp hp)).1
    cases hm : D.mergePairs with
    | nil => rfl
    | cons p ps =>
      rw [hm] at e1 e2
      simp only
      rw [if_pos e1, e2]
      cases (p :: ps).reverse.foldlM (fun D p => D.mergeStates p.2 p.1) D with
      | error x => rfl
      | ok D' => exact ih D'

/-- The order of the ranges alone. -/
def validSyms : Nat → List U8Atom → Bool
  | _, [] => true
  | prev, a :: l => decide (prev ≤ a.lo.toNat) && validSyms (a.hi.toNat + 1) l

theorem validTrans_iff {n : Nat} : ∀ (l : List DTrans) (prev : Nat), validTrans n prev l = true ↔
    (∀ t ∈ l, t.dst < n) ∧ validSyms prev (l.map DTrans.symbol) = true
  | [], prev => by simp [validTrans, validSyms]
  | t :: ts, prev => by
    simp only [validTrans, validSyms, List.map_cons, Bool.and_eq_true, decide_eq_true_eq, validTrans_iff ts,
      List.forall_mem_cons]
    tauto

theorem valid_iff (D : DFA) : D.valid = true ↔
    D.TargetsOk ∧ ∀ s ∈ D.start :: D.states, validSyms 0 (s.trans.map DTrans.symbol) = true := by
  unfold DFA.valid DFA.TargetsOk
  rw [List.all_eq_true]
  simp only [validTrans_iff]
  exact ⟨fun h => ⟨fun s hs => (h s hs).1, fun s hs => (h s hs).2⟩, fun h s hs => ⟨h.1 s hs, h.2 s hs⟩⟩

/-- The assertions of `from_tagged` hold for every tagged DFA, a valid one or not. -/
theorem C79_minimise (T : TDFA) : DFA.fromTaggedDebug T = DFA.fromTagged T := by
  unfold DFA.fromTaggedDebug DFA.fromTagged
  simp only
  split
  · rename_i hv
    obtain ⟨hT, hs⟩ := (valid_iff _).mp hv
    obtain ⟨D', h1, h2, _⟩ := minimiseLoop_spec (List.length (List.map TState.untag T.states) + 1) _ hT (by simp)
    rw [minimiseLoop_debug, h1]
    simp only
    rw [if_pos]
    refine (valid_iff _).mpr ⟨h2.targets, fun s hs' => ?_⟩
    obtain ⟨s0, g1, g2, _⟩ := h2.symbols s hs'
    have e : s.trans.map DTrans.symbol = s0.trans.map DTrans.symbol := g2
    rw [e]
    exact hs s0 g1
  · rfl

/-! ### The macros -/

theorem mapM_all_ok {β γ : Type} {f : β → Except Err γ} {g : β → γ} : ∀ l : List β, (∀ x ∈ l, f x = .ok (g x)) →
    l.mapM f = .ok (l.map g)
  | [], _ => rfl
  | x :: l, h => by
    rw [List.mapM_cons, h x (by simp), mapM_all_ok l fun y hy => h y (by simp [hy])]
    rfl


theorem serializeDfa_debug (T : TDFA) : serializeDfaDebug T = serializeDfa T := by
  unfold serializeDfaDebug serializeDfa
  rw [C79_minimise]
  cases DFA.fromTagged T with
  | error x => rfl
  | ok o => cases o <;> rfl

theorem pickInner_debug (b : Bool) (N : NFA Atom) (M : NFA U8Atom) :
    pickInnerDebug b N M = pickInner b N M := by
  unfold pickInnerDebug pickInner
  cases compileOnePass M with
  | error x => rfl
  | ok o =>
    cases o with
    | some P => rfl
    | none =>
      simp only
      rw [C79_determinise]
      cases TDFA.fromNFA M (TDFA.defaultBound M.length) with
      | error x => rfl
      | ok o =>
        cases o with
        | some T =>
          simp only
          rw [serializeDfa_debug]
          cases serializeDfa T <;> rfl
        | none =>
          cases b with
          | true => cases compileFlat M <;> simp
          | false => cases compileFlat N <;> simp

theorem pickBase_debug (seqs : Char → Char → List (List U8Atom)) (e : ERE) :
    pickBaseDebug seqs e = pickBase seqs e := by
  unfold pickBaseDebug pickBase
  simp only
  rw [C79_optimize, charNFA]
  cases workingNew (Tree.fromERE e).1 with
  | error x => rfl
  | ok N =>
    simp only
    cases u8New seqs N with
    | error x => rfl
    | ok M =>
      simp only
      rw [pickInner_debug]
      cases pickInner N.isAscii N M <;> rfl

theorem pickEngine_debug (seqs : Char → Char → List (List U8Atom)) (e : ERE) :
    pickEngineDebug seqs e = pickEngine seqs e := by
  unfold pickEngineDebug pickEngine
  rw [pickBase_debug]
  cases pickBase seqs e with
  | error x => rfl
  | ok b =>
    simp only
    cases b.u8nfa.fixedOffsets with
    | error x => rfl
    | ok o => cases o <;> rfl

/-- **C79.** `compile_regex!` gives the same result with and without debug assertions: none of them can fail,
whatever the pattern. -/
theorem C79_debug (seqs : Char → Char → List (List U8Atom)) (s : List Char) :
    compileRegexDebug seqs s = compileRegex seqs s := by
  unfold compileRegexDebug compileRegex
  cases parseStr s with
  | error x => rfl
  | ok e =>
    simp only
    rw [pickEngine_debug]
    cases pickEngine seqs e <;> rfl

/-- **C79.** The same for the attribute macro. -/
theorem C79_attribute (seqs : Char → Char → List (List U8Atom)) (s : List Char) (fields : Nat) :
    compileAttrDebug seqs s fields = compileAttrRelease seqs s fields := by
  unfold compileAttrDebug compileAttrRelease
  cases parseStr s with
  | error x => rfl
  | ok e =>
    simp only
    rw [C79_optimize]
    cases hN : charNFA e with
    | error x => rfl
    | ok N =>
      simp only
      by_cases hne : N = []
      · subst hne; rfl
      · rw [if_neg (by simpa using hne), mapM_all_ok _ fun g _ => (C28_mandatory_groups hN hne g).1, pickEngine_debug]

/-- … so the model of the attribute macro used elsewhere, which has one of the assertions, is the macro as it
runs in either build. -/
theorem C79_attribute_model (seqs : Char → Char → List (List U8Atom)) (s : List Char) (fields : Nat) :
    compileAttr seqs s fields = compileAttrRelease seqs s fields := by
  unfold compileAttr compileAttrRelease
  cases parseStr s with
  | error x => rfl
  | ok e =>
    simp only
    cases hN : charNFA e with
    | error x => rfl
    | ok N =>
      simp only
      by_cases hne : N = []
      · subst hne; rfl
      · rw [if_neg (by simpa using hne), mapM_all_ok _ fun g _ => (C28_mandatory_groups hN hne g).1]
        simp only
        split
        · cases pickEngine seqs e <;> rfl
        · rfl

/-! ### The assertions are not idle -/

/-- The character automaton with one state would be rejected. -/
example : NFA.optimizePassDebug (σ := Atom) [State.new] = .error .panic := rfl

/-- Ranges that overlap, or that are out of order, would be rejected. -/
example : splitApart [((⟨1, 5⟩ : U8Atom), ['x']), (⟨5, 9⟩, ['y'])] = false ∧
    splitApart [((⟨1, 4⟩ : U8Atom), ['x']), (⟨5, 9⟩, ['y'])] = true ∧
    splitApart [((⟨5, 9⟩ : U8Atom), ['x']), (⟨1, 4⟩, ['y'])] = false := by decide

/-- Overlapping ranges are taken apart. -/
example : splitRangesDebug [(⟨1, 5⟩, 'x'), (⟨3, 9⟩, 'y')] =
    .ok [(⟨1, 2⟩, ['x']), (⟨3, 5⟩, ['x', 'y']), (⟨6, 9⟩, ['y'])] := by
  rw [C79_split]; decide +kernel

/-- Pairs out of order, or a pair that would keep the later state, would be rejected. -/
example : pairsSorted [(3, 1), (2, 0)] = false ∧ pairsSorted [(2, 1), (2, 0)] = false ∧
    pairsSorted [(2, 0), (3, 1)] = true ∧
    mergeOneDebug ⟨⟨.none, []⟩, [⟨.none, []⟩, ⟨.none, []⟩]⟩ (0, 1) = .error .panic := by decide

/-- A tagged DFA with two pairs of states that differ in nothing but their names; in two rounds both are
merged. -/
example : DFA.fromTaggedDebug ⟨⟨[0], [⟨0, ⟨97, 97⟩, [0], []⟩, ⟨1, ⟨98, 98⟩, [0], []⟩], .none⟩,
      [⟨[1], [⟨2, ⟨97, 97⟩, [0], []⟩], .none⟩, ⟨[2], [⟨3, ⟨97, 97⟩, [0], []⟩], .none⟩,
        ⟨[3], [], .anchored ⟨0, []⟩⟩, ⟨[4], [], .anchored ⟨0, []⟩⟩]⟩ =
    .ok (some ⟨⟨.none, [⟨0, ⟨97, 97⟩⟩, ⟨0, ⟨98, 98⟩⟩]⟩, [⟨.none, [⟨1, ⟨97, 97⟩⟩]⟩, ⟨.anchored, []⟩]⟩) := by
  decide +kernel

end Ere.Props
