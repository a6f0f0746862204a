import Verif.Proofs.FramedFixed
import Verif.Proofs.Symbols

/-! Patterns with anchors only around the branches: every walk of an automaton whose symbols can all be read is a run
over some text, so the marks on the walks are the groups that matches set. -/

namespace Ere
variable {σ α : Type} [Sym σ α]

/-- The phases of the character automaton. -/
theorem frS_char {s t : Bool} {e : ERE} (he : e.Framed s t) {N : NFA Atom}
    (h1 : workingNew (Tree.fromERE e).1 = .ok N) (hN : N ≠ []) : LabG frS N (phaseIn s) (phaseOut t) := by
  have hb := build_shape _ (starOk_fromERE e)
  have hc1 : Shape (build (Tree.fromERE e).1).cleanStartAnchors := filterEdges_shape hb
  have hc : Shape (build (Tree.fromERE e).1).cleanStartAnchors.cleanEndAnchors := filterEdges_shape hc1
  have hl := withLoops_shape hc anyAtom true true
  have h0 : LabG frC (build (Tree.fromERE e).1).cleanStartAnchors.cleanEndAnchors (phaseIn s) (phaseOut t) :=
    labG_filter (labG_filter he.lab _ _) _ _
  have hL := labG_withLoops (C := frC) (fun _ => rfl) hc.good h0 anyAtom rfl rfl
  have hS := frS_clear hl.good.wf hl.good.ne (by cases s <;> decide) (by cases t <;> decide) hL
  rw [workingNew, newLoopOpt] at h1
  exact (labG_stable (α := Char) frS_rule _ _).finish hl hS h1 hN

/-- A state is reached over some text, with marks that satisfy `P`. -/
def Comes (M : NFA σ) (A : Nat → Nat) (P : Caps → Prop) (q : Nat) : Prop :=
  ∃ (xs : List α) (caps : Caps), (A q = 0 → xs = []) ∧ P caps ∧
    ∀ rest, (A q = 2 → rest = []) →
      ReachE M.HasEdge (0, (⟨0, xs ++ rest, []⟩ : Cfg α)) (q, ⟨unitLen σ xs, rest, caps⟩)

theorem comes_start {M : NFA σ} {A : Nat → Nat} {P : Caps → Prop} (h : P []) : Comes (α := α) M A P 0 :=
  ⟨[], [], fun _ => rfl, h, fun _ _ => by simpa [unitLen] using reachE_refl⟩

theorem comes_step {M : NFA σ} {A : Nat → Nat} (hA : GOkL frS A 0 M) (hs : SymP (fun a => ∃ x, Sym.check a x = true) M)
    {P Q : Caps → Prop} {p l q} (he : M.HasEdge p l q) (hs' : ∀ a, l = .sym a → ∀ c, P c → Q c)
    (hq : ∀ m, l = .eps m → ∀ c o, P c → Q (c ++ walkEvents o [m])) (h : Comes (α := α) M A P p) :
    Comes (α := α) M A Q q := by
  obtain ⟨xs, caps, h0, hP, hr⟩ := h
  have hph := hA _ _ _ he
  rw [Nat.zero_add] at hph
  cases l with
  | sym a =>
    obtain ⟨x, hx⟩ := hs _ _ _ he
    obtain ⟨hp1, hq1⟩ := hph
    refine ⟨xs ++ [x], caps, by omega, hs' a rfl _ hP, fun rest _ => ?_⟩
    rw [List.append_assoc, List.singleton_append]
    refine reachE_trans (hr (x :: rest) (by omega)) (reachE_step he ?_)
    unfold labStep
    exact symStep_iff.mpr ⟨x, rest, rfl, hx, by simp [unitLen]⟩
  | eps m =>
    have hrest : ∀ rest : List α, (A q = 2 → rest = []) → (A p = 2 → rest = []) := by
      intro rest h h2
      apply h
      cases m <;> simp only [frS, frE] at hph <;> omega
    refine ⟨xs, caps ++ walkEvents (unitLen σ xs) [m], ?_, hq m rfl _ _ hP, fun rest h => ?_⟩
    · intro hq0
      apply h0
      cases m <;> simp only [frS, frE] at hph <;> omega
    · refine reachE_trans (hr rest (hrest rest h)) (reachE_step he ?_)
      show epsStep m _ = some _
      cases m with
      | none => simp [epsStep, walkEvents]
      | startAnchor => rw [h0 hph.1]; simp [epsStep, walkEvents, unitLen]
      | endAnchor => rw [h hph.2]; simp [epsStep, walkEvents]
      | startCapture g => simp [epsStep, walkEvents, Caps.setStart]
      | endCapture g => simp [epsStep, walkEvents, Caps.setEnd]

/-- A walk that does not open the group is a run that leaves it unset. -/
theorem comes_unset {M : NFA σ} {A : Nat → Nat} (hA : GOkL frS A 0 M) (hs : SymP (fun a => ∃ x, Sym.check a x = true) M)
    {g q : Nat} (h : M.Path (· != .startCapture g) true 0 q) : Comes (α := α) M A (fun c => c.start? g = none) q := by
  induction h with
  | refl => exact comes_start rfl
  | tail _ he ih =>
    obtain ⟨l, h5, he⟩ := he
    refine comes_step hA hs he (fun _ _ _ h => h) ?_ ih
    rintro m rfl c o hc
    rw [start?_append, walkEvents_start, hc]
    simp only [Sel, bne_iff_ne, ne_eq] at h5
    simp only [List.mem_singleton]
    rw [if_neg (fun h => h5 h.symm)]
    rfl

theorem comes_any {M : NFA σ} {A : Nat → Nat} (hA : GOkL frS A 0 M) (hs : SymP (fun a => ∃ x, Sym.check a x = true) M)
    {q : Nat} (h : M.Path (fun _ => true) true 0 q) : Comes (α := α) M A (fun _ => True) q := by
  induction h with
  | refl => exact comes_start trivial
  | tail _ he ih =>
    obtain ⟨l, _, he⟩ := he
    exact comes_step hA hs he (fun _ _ _ h => h) (fun _ _ _ _ _ => trivial) ih

/-- A walk over a mark that opens the group is a run that sets it. -/
theorem comes_set {M : NFA σ} (hM : Ready M) {A : Nat → Nat} (hA : GOkL frS A 0 M)
    (hs : SymP (fun a => ∃ x, Sym.check a x = true) M) {g p q : Nat} (he : M.HasEdge p (.eps (.startCapture g)) q) :
    Comes (α := α) M A (fun c => c.start? g ≠ none) (M.length - 1) := by
  have hp : p < M.length := hasEdge_lt he
  have h2 : Comes (α := α) M A (fun c => c.start? g ≠ none) q := by
    refine comes_step hA hs he (by simp) ?_ (comes_any hA hs (hM.trim p hp).1)
    rintro m hm c o _
    injection hm with hm
    subst hm
    rw [start?_append, walkEvents_start]
    simp
  have h3 : ∀ {r}, M.Path (fun _ => true) true q r → Comes (α := α) M A (fun c => c.start? g ≠ none) r := by
    intro r hr
    induction hr with
    | refl => exact h2
    | tail _ he ih =>
      obtain ⟨l, _, he⟩ := he
      refine comes_step hA hs he (fun _ _ _ h => h) ?_ ih
      rintro m rfl c o hc
      rw [start?_append]
      intro h
      simp only [Option.or_eq_none_iff] at h
      exact hc h.2
  exact h3 (hM.trim q (hM.wf _ _ _ he)).2

/-- The number of groups is the greatest index of a mark that opens a group. -/
theorem numCaptureGroups_edge {N : NFA σ} {g : Nat} (h : g < N.numCaptureGroups) (hg : g ≠ 0) :
    ∃ g' p q, g ≤ g' ∧ N.HasEdge p (.eps (.startCapture g')) q := by
  by_contra hc
  push Not at hc
  have : N.numCaptureGroups ≤ (g - 1) + 1 := numCaptureGroups_le fun p g' q he => by
    by_contra h'
    exact hc g' p q (by omega) he
  omega

/-- What the automaton accepts over some text. -/
theorem Comes.acc {M : NFA σ} (hM : M ≠ []) {A : Nat → Nat} {P : Caps → Prop} (h : Comes (α := α) M A P (M.length - 1)) :
    ∃ (xs : List α) (caps : Caps), P caps ∧ M.Acc ⟨0, xs, []⟩ ⟨unitLen σ xs, [], caps⟩ := by
  obtain ⟨xs, caps, _, hP, hr⟩ := h
  refine ⟨xs, caps, hP, hM, ?_⟩
  have := hr [] (fun _ => rfl)
  rw [List.append_nil] at this
  exact this

/-- Group 0 is always set. -/
theorem lastSpan_zero {e : ERE} {text : List Char} {S : List Span} (h : e.Captures text S) : ∃ i j, lastSpan S 0 = some (i, j) := by
  obtain ⟨pre, mid, post, S', _, _, rfl⟩ := h
  exact ⟨byteLen pre, byteLen (pre ++ mid), by simp [lastSpan]⟩

end Ere
