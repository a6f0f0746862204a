import Verif.Model.Engines
import Verif.Spec.Size
import Verif.Proofs.Thompson
import Verif.Proofs.OptPass
import Verif.Proofs.Lead

/-!
# How many states the automata have

`NFA.wt w` counts the states, and for every symbol transition the weight `w` of its symbol. No step of
the optimiser increases it.
-/

namespace Ere
variable {σ α : Type}

/-- Weight of a state: one, and the weights of the symbols on its transitions. -/
def State.wt (w : σ → Nat) (s : State σ) : Nat := 1 + (s.transitions.map (fun t => w t.symbol)).sum

/-- Weight of an automaton. -/
def NFA.wt (w : σ → Nat) (N : NFA σ) : Nat := (N.map (State.wt w)).sum

theorem wt_nil (w : σ → Nat) : NFA.wt w [] = 0 := rfl
theorem wt_cons (w : σ → Nat) (s : State σ) (N : NFA σ) : NFA.wt w (s :: N) = s.wt w + NFA.wt w N := by
  simp [NFA.wt]
theorem wt_append (w : σ → Nat) (A B : NFA σ) : NFA.wt w (A ++ B) = NFA.wt w A + NFA.wt w B := by
  simp [NFA.wt]

theorem length_le_wt (w : σ → Nat) (N : NFA σ) : N.length ≤ N.wt w := by
  induction N with
  | nil => simp
  | cons s N ih => rw [wt_cons, List.length_cons]; simp only [State.wt]; omega

theorem wt_zero (N : NFA σ) : N.wt (fun _ => 0) = N.length := by
  induction N with
  | nil => rfl
  | cons s N ih => rw [wt_cons, ih, List.length_cons]; simp [State.wt]; omega

theorem wt_eps (w : σ → Nat) (es : List Eps) : State.wt w ⟨[], es⟩ = 1 := rfl

theorem wt_map_le (w : σ → Nat) (f : State σ → State σ) (h : ∀ s, (f s).wt w ≤ s.wt w) (N : NFA σ) :
    NFA.wt w (N.map f) ≤ N.wt w := by
  induction N with
  | nil => simp
  | cons s N ih => rw [List.map_cons, wt_cons, wt_cons]; have := h s; omega

theorem wt_sublist {w : σ → Nat} {A B : NFA σ} (h : A.Sublist B) : A.wt w ≤ B.wt w := by
  induction h with
  | slnil => simp
  | cons a _ ih => rw [wt_cons]; omega
  | cons_cons a _ ih => rw [wt_cons, wt_cons]; omega

theorem wt_modify_le (w : σ → Nat) (f : State σ → State σ) (h : ∀ s, (f s).wt w ≤ s.wt w) (N : NFA σ) (x : Nat) :
    NFA.wt w (N.modify x f) ≤ N.wt w := by
  induction N generalizing x with
  | nil => simp
  | cons s N ih =>
    cases x with
    | zero => rw [List.modify_zero_cons, wt_cons, wt_cons]; have := h s; omega
    | succ x => rw [List.modify_succ_cons, wt_cons, wt_cons]; have := ih x; omega

theorem sum_sublist_le {A B : List Nat} (h : A.Sublist B) : A.sum ≤ B.sum := by
  induction h with
  | slnil => simp
  | cons a _ ih => rw [List.sum_cons]; omega
  | cons_cons a _ ih => rw [List.sum_cons, List.sum_cons]; omega

theorem state_wt_sublist {w : σ → Nat} {s t : State σ} (h : s.transitions.Sublist t.transitions) :
    s.wt w ≤ t.wt w := by
  have := sum_sublist_le (h.map (fun t => w t.symbol))
  simp only [State.wt]; omega

theorem wt_filterEdges (w : σ → Nat) (N : NFA σ) (fe ft) : (N.filterEdges fe ft).wt w ≤ N.wt w := by
  unfold NFA.filterEdges
  induction N generalizing fe ft with
  | nil => simp
  | cons s N ih =>
    rw [List.mapIdx_cons, wt_cons, wt_cons]
    have h1 := ih (fun q => fe (q + 1)) (fun q => ft (q + 1))
    have h2 : State.wt w ⟨s.transitions.filter (ft 0), s.epsilons.filter (fe 0)⟩ ≤ s.wt w :=
      state_wt_sublist List.filter_sublist
    omega

theorem wt_redirect (w : σ → Nat) (N : NFA σ) (x y) : (N.redirect x y).wt w = N.wt w := by
  unfold NFA.redirect
  induction N with
  | nil => rfl
  | cons s N ih =>
    rw [List.map_cons, wt_cons, wt_cons, ih]
    congr 1
    simp only [State.wt, List.map_map]
    congr 2
    apply List.map_congr_left
    intro t _
    simp only [Function.comp]
    split <;> rfl

theorem wt_clear (w : σ → Nat) (N : NFA σ) (x) : (N.clear x).wt w ≤ N.wt w :=
  wt_modify_le w _ (fun s => by simp [State.wt]) N x

theorem zipIdx_filter_sublist {β : Type} (l : List β) (p : β × Nat → Bool) (k : Nat) :
    ((l.zipIdx k).filter p |>.map (·.1)).Sublist l := by
  have h : ((l.zipIdx k).filter p).Sublist (l.zipIdx k) := List.filter_sublist
  have h2 := h.map (·.1)
  simpa using h2

theorem zip_fst_sublist {β γ : Type} : ∀ (l : List β) (m : List γ), ((l.zip m).map (·.1)).Sublist l
  | [], _ => by simp
  | _ :: _, [] => by simp
  | b :: l, c :: m => by
    rw [List.zip_cons_cons, List.map_cons]
    exact (zip_fst_sublist l m).cons_cons b

theorem wt_dedupe [Sym σ α] (w : σ → Nat) (N : NFA σ) : N.dedupe.1.wt w ≤ N.wt w :=
  wt_map_le w _ (fun _ => state_wt_sublist (zipIdx_filter_sublist _ _ _)) N

theorem wt_removeDead (w : σ → Nat) (N : NFA σ) (ds : List Bool) : (N.removeDead ds).wt w ≤ N.wt w := by
  unfold NFA.removeDead
  refine Nat.le_trans (wt_map_le w _ (fun s => ?_) _) (wt_sublist ?_)
  · simp [State.wt, Function.comp_def]
  · have h : ((N.zip (stateMap 0 ds)).filter (fun p => p.2.isSome)).Sublist (N.zip (stateMap 0 ds)) :=
      List.filter_sublist
    exact (h.map (·.1)).trans (zip_fst_sublist _ _)

theorem wt_skipRedundant {w : σ → Nat} {N N' : NFA σ} {x} (h : N.skipRedundant x = .ok (some N')) :
    N'.wt w ≤ N.wt w := by
  unfold NFA.skipRedundant at h
  split at h
  · cases h
  · split at h
    · simp only [Except.ok.injEq, Option.some.injEq] at h
      subst h
      exact Nat.le_trans (wt_clear w _ x) (Nat.le_of_eq (wt_redirect w N x _))
    · split at h
      · split at h
        · dsimp only at h
          split at h
          · cases h
          · split at h
            · simp only [Except.ok.injEq, Option.some.injEq] at h
              subst h
              refine Nat.le_trans (wt_modify_le w _ (fun s => ?_) _ _) (wt_clear w N x)
              simp [State.wt]
            · cases h
        · cases h
      · cases h
    · cases h

theorem wt_passStep [Sym σ α] {w : σ → Nat} {x} {p p' : PassSt σ} (h : passStep x p = .ok p') :
    p'.nfa.wt w ≤ p.nfa.wt w := by
  unfold passStep at h
  split at h
  · cases h
    exact Nat.le_trans (Nat.le_of_eq (wt_redirect w _ x _)) (wt_clear w _ x)
  · dsimp only at h
    split at h
    · cases h
    · rename_i N2 h2
      cases h
      exact Nat.le_trans (wt_skipRedundant h2) (wt_dedupe w _)
    · cases h
      exact wt_dedupe w _

theorem wt_passLoop [Sym σ α] {w : σ → Nat} : ∀ {k x} {p p' : PassSt σ}, passLoop k x p = .ok p' →
    p'.nfa.wt w ≤ p.nfa.wt w
  | 0, _, _, _, h => by cases h; exact Nat.le_refl _
  | k + 1, x, p, p', h => by
    unfold passLoop at h
    split at h
    · cases h
    · rename_i q hq
      exact Nat.le_trans (wt_passLoop h) (wt_passStep hq)

theorem wt_optimizePass [Sym σ α] {w : σ → Nat} {N N' : NFA σ} {b} (h : N.optimizePass = .ok (N', b)) :
    N'.wt w ≤ N.wt w := by
  unfold NFA.optimizePass at h
  split at h
  · cases h
  · rename_i p hp
    have hl := wt_passLoop (w := w) hp
    split at h <;> cases h
    · exact Nat.le_trans (wt_removeDead w _ _) hl
    · exact hl

theorem wt_optimizeLoop [Sym σ α] {w : σ → Nat} : ∀ {k} {N N' : NFA σ}, optimizeLoop k N = .ok N' →
    N'.wt w ≤ N.wt w
  | 0, _, _, h => by cases h
  | k + 1, N, N', h => by
    unfold optimizeLoop at h
    split at h
    · cases h
    · rename_i q hq
      exact Nat.le_trans (wt_optimizeLoop h) (wt_optimizePass hq)
    · rename_i q hq
      cases h
      exact wt_optimizePass hq

/-- The optimiser never makes an automaton larger. -/
theorem wt_finish [Sym σ α] {w : σ → Nat} {N N' : NFA σ} (h : N.finish = .ok N') : N'.wt w ≤ N.wt w := by
  unfold NFA.finish at h
  split at h
  · cases h
  · split at h
    · cases h
    · rename_i M hM
      cases h
      refine Nat.le_trans (wt_removeDead w _ _) (Nat.le_trans (wt_filterEdges w _ _ _)
        (Nat.le_trans (wt_optimizeLoop hM) ?_))
      exact wt_filterEdges w _ _ _

/-! ## Construction -/

theorem state_wt_addOffset (w : σ → Nat) (s : State σ) (k : Nat) : (s.addOffset k).wt w = s.wt w := by
  simp [State.wt, State.addOffset, Function.comp_def, Trans.addOffset]

theorem wt_shift (w : σ → Nat) (N : NFA σ) (k : Nat) : (N.shift k).wt w = N.wt w := by
  unfold NFA.shift
  induction N with
  | nil => rfl
  | cons s N ih => rw [List.map_cons, wt_cons, wt_cons, ih, state_wt_addOffset]

theorem wt_pushLast (w : σ → Nat) : ∀ (N : NFA σ) (e : Eps), (N.pushLast e).wt w = N.wt w
  | [], _ => rfl
  | [s], _ => by simp [NFA.pushLast, wt_cons, State.wt]
  | s :: t :: ss, e => by rw [NFA.pushLast, wt_cons, wt_cons, wt_pushLast w (t :: ss) e]

theorem wt_unionBody (w : σ → Nat) : ∀ (ns : List (NFA σ)) (off e : Nat),
    (unionBody off e ns).wt w = (ns.map (NFA.wt w)).sum
  | [], _, _ => rfl
  | n :: ns, off, e => by
    rw [unionBody, wt_append, wt_pushLast, wt_shift, wt_unionBody w ns]; simp

theorem wt_concatBody (w : σ → Nat) : ∀ (ns : List (NFA σ)) (off : Nat),
    (concatBody off ns).wt w = (ns.map (NFA.wt w)).sum
  | [], _ => rfl
  | n :: ns, off => by
    rw [concatBody, wt_append, wt_pushLast, wt_shift, wt_concatBody w ns]; simp

theorem wt_new (w : σ → Nat) : NFA.wt w [State.new] = 1 := rfl

theorem wt_union (w : σ → Nat) (ns : List (NFA σ)) : (nfaUnion ns).wt w = 2 + (ns.map (NFA.wt w)).sum := by
  unfold nfaUnion
  dsimp only
  rw [List.cons_append, wt_cons, wt_append, wt_unionBody, wt_new, wt_eps]; omega

theorem wt_concat (w : σ → Nat) (ns : List (NFA σ)) : (nfaConcat ns).wt w = 2 + (ns.map (NFA.wt w)).sum := by
  unfold nfaConcat
  rw [List.cons_append, wt_cons, wt_append, wt_concatBody, wt_new, wt_eps]; omega

theorem wt_capture (w : σ → Nat) (n : NFA σ) (g) : (nfaCapture n g).wt w = 2 + n.wt w := by
  unfold nfaCapture
  dsimp only
  rw [List.cons_append, wt_cons, wt_append, wt_pushLast, wt_shift, wt_new, wt_eps]; omega

theorem wt_star (w : σ → Nat) (n : NFA σ) (l) : (nfaStar n l).wt w = 2 + n.wt w := by
  unfold nfaStar
  dsimp only
  rw [List.cons_append, wt_cons, wt_append, wt_pushLast, wt_shift, wt_new, wt_eps]; omega

theorem wt_symbol (w : σ → Nat) (a : σ) : (nfaSymbol a).wt w = 2 + w a := by
  simp [nfaSymbol, wt_cons, wt_nil, State.wt, State.new]; omega

theorem wt_repeat (w : σ → Nat) (n : NFA σ) (k) : (nfaRepeat n k).wt w = 2 + k * n.wt w := by
  rw [nfaRepeat, wt_concat]; simp

theorem wt_uptoBody (w : σ → Nat) (n : NFA σ) (e : Nat) (l : Bool) : ∀ (k off : Nat),
    (uptoBody n e l off k).wt w = (k + 1) * (n.wt w + 1)
  | 0, off => by rw [uptoBody, wt_append, wt_pushLast, wt_shift, wt_new]; omega
  | k + 1, off => by
    rw [uptoBody, wt_append, wt_pushLast, wt_shift, wt_cons, wt_uptoBody w n e l k, wt_eps, Nat.add_mul (k + 1) 1]
    omega

theorem wt_upto (w : σ → Nat) (n : NFA σ) (k) (l : Bool) : (nfaUpto n k l).wt w = 1 + (k + 1) * (n.wt w + 1) := by
  unfold nfaUpto
  dsimp only
  rw [wt_cons, wt_uptoBody]
  cases l <;> rfl

theorem wt_withLoops (w : σ → Nat) (N : NFA σ) (a : σ) (b1 b2 : Bool) :
    (N.withLoops a b1 b2).wt w ≤ N.wt w + 12 + 2 * w a := by
  have hl : (anyLoop a).wt w = 4 + w a := by rw [anyLoop, wt_star, wt_symbol]; omega
  unfold NFA.withLoops
  cases b1 <;> cases b2 <;> simp [wt_concat, hl] <;> omega

/-! ## Patterns -/

/-- What `from_ere_expression` returns: a symbol or a group, never a concatenation. -/
def Tree.Solid : Tree → Prop
  | .concat _ => False
  | _ => True

theorem fromExpr_solid (e : EREExpr) (g : Nat) : (Tree.fromExpr e g).1.Solid := by
  cases e <;> simp [Tree.fromExpr, Tree.Solid]

theorem concat'_solid {t : Tree} (h : t.Solid) (u : Tree) : t.concat' u = .concat [t, u] := by
  cases t <;> first | rfl | exact absurd h (by simp [Tree.Solid])

theorem repeat'_solid (t : Tree) (n : Nat) : (t.repeat' n).Solid := by
  cases n <;> simp [Tree.repeat', Tree.Solid]

theorem wt_build_concat (w : Atom → Nat) (t u : Tree) :
    (build (.concat [t, u])).wt w = 2 + ((build t).wt w + (build u).wt w) := by
  simp [build, buildList, wt_concat]

theorem wt_build_repeat' (w : Atom → Nat) (t : Tree) (n : Nat) :
    (build (t.repeat' n)).wt w ≤ 2 + n * (build t).wt w := by
  cases n with
  | zero => simp [Tree.repeat', build, nfaEmpty, wt_cons, wt_nil, State.wt, State.new]
  | succ n => rw [Tree.repeat', build, wt_repeat]

theorem wt_never (w : σ → Nat) : (nfaNever : NFA σ).wt w = 2 := rfl

/-- A quantifier needs at most as much as its copies. -/
theorem wt_applyQuantifier (w : Atom → Nat) (t : Tree) (ht : t.Solid) (q : Quantifier) (x : Nat)
    (hx : (build t).wt w + 1 ≤ 6 * x) :
    (build (t.applyQuantifier q)).wt w + 1 ≤ 6 * (1 + q.q.copies * x) := by
  generalize hL : (build t).wt w = L at hx
  obtain ⟨q, alt⟩ := q
  cases q with
  | star => simp only [Tree.applyQuantifier, build, wt_star, QType.copies, hL]; omega
  | plus =>
    simp only [Tree.applyQuantifier, concat'_solid ht, wt_build_concat, QType.copies]
    simp only [build, wt_star, hL]; omega
  | question =>
    simp only [Tree.applyQuantifier, Tree.optional', Tree.upto', build, wt_upto, QType.copies, hL]; omega
  | multiple n =>
    have h := wt_build_repeat' w t n
    have h2 := Nat.mul_le_mul_left n hx
    rw [hL] at h
    simp only [Tree.applyQuantifier, QType.copies]
    have e1 : n * (L + 1) = n * L + n := by rw [Nat.mul_add]; omega
    have e2 : n * (6 * x) = 6 * (n * x) := by rw [Nat.mul_left_comm]
    omega
  | range n m =>
    cases m with
    | none =>
      have h := wt_build_repeat' w t n
      have h2 := Nat.mul_le_mul_left (n + 1) hx
      rw [hL] at h
      simp only [Tree.applyQuantifier, concat'_solid (repeat'_solid t n), wt_build_concat, QType.copies]
      simp only [build, wt_star, hL]
      have e1 : (n + 1) * (L + 1) = n * L + L + n + 1 := by rw [Nat.mul_add, Nat.add_mul]; omega
      have e2 : (n + 1) * (6 * x) = 6 * ((n + 1) * x) := by rw [Nat.mul_left_comm]
      omega
    | some m =>
      simp only [Tree.applyQuantifier, QType.copies]
      by_cases h1 : m < n
      · rw [if_pos h1]
        simp only [build, wt_never]; omega
      · rw [if_neg h1]
        have h := wt_build_repeat' w t n
        rw [hL] at h
        have h2 := Nat.mul_le_mul_left m hx
        have e1 : m * (L + 1) = m * L + m := by rw [Nat.mul_add]; omega
        have e2 : m * (6 * x) = 6 * (m * x) := by rw [Nat.mul_left_comm]
        by_cases h3 : m - n = 0
        · rw [if_pos h3]
          have h4 : m = n := by omega
          subst h4
          omega
        · rw [if_neg h3]
          obtain ⟨d, hd⟩ : ∃ d, m - n = d + 1 := ⟨m - n - 1, by omega⟩
          have hm : m = n + (d + 1) := by omega
          rw [concat'_solid (repeat'_solid t n), wt_build_concat, hd]
          simp only [Tree.upto', build, wt_upto, hL]
          have e3 : m * L = n * L + (d + 1) * L := by rw [hm, Nat.add_mul]
          have e4 : (d + 1) * (L + 1) = (d + 1) * L + (d + 1) := by rw [Nat.mul_add]; omega
          omega

mutual
theorem wt_fromSubERE (w : Atom → Nat) : ∀ (e : ERE) (g : Nat),
    (build (Tree.fromSubERE e g).1).wt w ≤ 2 + 6 * e.expanded w
  | .mk bs, g => by
    have h := wt_fromBranches w bs g
    simp only [Tree.fromSubERE, build, wt_union, ERE.expanded]
    omega
theorem wt_fromBranches (w : Atom → Nat) : ∀ (bs : List EREBranch) (g : Nat),
    ((buildList (Tree.fromBranches bs g).1).map (NFA.wt w)).sum ≤ 6 * expandedBranches w bs
  | [], g => by simp [Tree.fromBranches, buildList]
  | b :: bs, g => by
    have h := wt_fromBranch w b g
    have h2 := wt_fromBranches w bs (Tree.fromBranch b g).2
    simp only [Tree.fromBranches, buildList, List.map_cons, List.sum_cons, expandedBranches]
    omega
theorem wt_fromBranch (w : Atom → Nat) : ∀ (b : EREBranch) (g : Nat),
    (build (Tree.fromBranch b g).1).wt w ≤ 2 + 6 * b.expanded w
  | .mk ps, g => by
    have h := wt_fromParts w ps g
    simp only [Tree.fromBranch, build, wt_concat, EREBranch.expanded]
    omega
theorem wt_fromParts (w : Atom → Nat) : ∀ (ps : List EREPart) (g : Nat),
    ((buildList (Tree.fromParts ps g).1).map (NFA.wt w)).sum ≤ 6 * expandedParts w ps
  | [], g => by simp [Tree.fromParts, buildList]
  | p :: ps, g => by
    have h := wt_fromPart w p g
    have h2 := wt_fromParts w ps (Tree.fromPart p g).2
    simp only [Tree.fromParts, buildList, List.map_cons, List.sum_cons, expandedParts]
    omega
theorem wt_fromPart (w : Atom → Nat) : ∀ (p : EREPart) (g : Nat),
    (build (Tree.fromPart p g).1).wt w + 1 ≤ 6 * p.expanded w
  | .single e, g => by
    have h := wt_fromExpr w e g
    simpa only [Tree.fromPart, EREPart.expanded] using h
  | .quantified e q, g => by
    simp only [Tree.fromPart, EREPart.expanded]
    exact wt_applyQuantifier w _ (fromExpr_solid e g) q _ (wt_fromExpr w e g)
  | .start, g => by
    simp [Tree.fromPart, EREPart.expanded, build, nfaStart, wt_cons, wt_nil, State.wt, State.new]
  | .end_, g => by
    simp [Tree.fromPart, EREPart.expanded, build, nfaEnd, wt_cons, wt_nil, State.wt, State.new]
theorem wt_fromExpr (w : Atom → Nat) : ∀ (e : EREExpr) (g : Nat),
    (build (Tree.fromExpr e g).1).wt w + 1 ≤ 6 * e.expanded w
  | .atom a, g => by
    simp only [Tree.fromExpr, EREExpr.expanded, build, wt_symbol]; omega
  | .sub e, g => by
    have h := wt_fromSubERE w e (g + 1)
    simp only [Tree.fromExpr, EREExpr.expanded, build, wt_capture]; omega
end

theorem wt_cleanAnchors (w : Atom → Nat) (N : NFA Atom) : N.cleanStartAnchors.cleanEndAnchors.wt w ≤ N.wt w :=
  Nat.le_trans (wt_filterEdges w _ _ _) (wt_filterEdges w _ _ _)

/-- The automaton of a pattern is linear in the size of the pattern. -/
theorem wt_charNFA (w : Atom → Nat) {e : ERE} {N : NFA Atom} (h : charNFA e = .ok N) :
    N.wt w ≤ 6 * e.expanded w + 16 + 2 * w anyAtom := by
  unfold charNFA workingNew newLoopOpt at h
  have h1 := wt_finish (w := w) h
  have h2 := wt_withLoops w (build (Tree.fromERE e).1).cleanStartAnchors.cleanEndAnchors anyAtom true true
  have h3 := wt_cleanAnchors w (build (Tree.fromERE e).1)
  have h4 : (build (Tree.fromERE e).1).wt w ≤ 4 + 6 * e.expanded w := by
    have := wt_fromSubERE w e 1
    simp only [Tree.fromERE, build, wt_capture]; omega
  omega

end Ere
