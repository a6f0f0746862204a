import Verif.Proofs.Stable
import Verif.Proofs.Marks
import Verif.Proofs.Pipeline
import Verif.Proofs.FlatTop

/-! After a byte has been read no start anchor lies on the way to the accept state, for patterns that
do not match the empty text and for patterns without `^`. -/

namespace Ere
variable {σ α : Type}

/-- Start anchors are never crossed on the way to the accept state after a symbol has been read. -/
def StartSafe (N : NFA σ) : Prop :=
  ∀ p a q ls, N.HasEdge p (.sym a) q → EWalk N q ls (N.length - 1) → EpsType.startAnchor ∉ ls

theorem mem_of_filter_none {ls ls' : List EpsType} (h : ls'.filter (· ≠ .none) = ls.filter (· ≠ .none)) {e}
    (he : e ≠ .none) (hm : e ∈ ls) : e ∈ ls' := by
  have : e ∈ ls.filter (· ≠ .none) := List.mem_filter.mpr ⟨hm, by simpa using he⟩
  rw [← h] at this
  exact (List.mem_filter.mp this).1

theorem IsSimS.startSafe {N' N : NFA σ} {R} (h : IsSimS N' N R) (hs : StartSafe N) : StartSafe N' := by
  intro p' a q' ls he hw hm
  obtain ⟨p, hp⟩ := h.total _ _ _ he
  obtain ⟨p1, b, q, _, h2, h3⟩ := h.sym _ _ _ _ hp he
  obtain ⟨ls', h4, h5⟩ := h.walkLast hw h3
  exact hs _ _ _ _ h2 h4 (mem_of_filter_none h5 (by simp) hm)

theorem startSafe_filter {N : NFA σ} (h : StartSafe N) (fe ft) : StartSafe (N.filterEdges fe ft) :=
  (isSimS_sub filterEdges_length fun _ _ _ he => (hasEdge_filterEdges.mp he).1).startSafe h

theorem startSafe_stable [Sym σ α] : Stable α (StartSafe (σ := σ)) :=
  stable_of_sim (fun _ h => h.startSafe) (fun fe ft h => startSafe_filter h fe ft)

/-- Without `^` there is nothing to cross. -/
theorem startSafe_of_epsQ {N : NFA σ} (h : EpsQ (· ≠ .startAnchor) N) : StartSafe N := by
  intro p a q ls he0 hw hm
  clear he0
  generalize N.length - 1 = r at hw
  induction hw with
  | refl => simp at hm
  | tail _ he ih =>
    rcases List.mem_append.mp hm with h1 | h1
    · exact ih h1
    · simp only [List.mem_singleton] at h1
      subst h1
      rcases h.edge he with h2 | h2
      · simp at h2
      · exact h2 rfl

/-- A walk of epsilons is a run on the empty text. -/
theorem ewalk_reach [Sym σ α] {N : NFA σ} {q ls p} (h : EWalk N q ls p) (caps : Caps) :
    ∃ caps', ReachE (α := α) N.HasEdge (q, ⟨0, [], caps⟩) (p, ⟨0, [], caps'⟩) := by
  induction h with
  | refl => exact ⟨caps, reachE_refl⟩
  | @tail ls p e r _ he ih =>
    obtain ⟨c1, h1⟩ := ih
    have : ∃ c2, epsStep (α := α) e ⟨0, [], c1⟩ = some ⟨0, [], c2⟩ := by
      cases e <;> simp [epsStep]
    obtain ⟨c2, h2⟩ := this
    exact ⟨c2, reachE_trans h1 (reachE_step (l := .eps e) he h2)⟩

theorem ewalk_split {N : NFA σ} {q ls p} (h : EWalk N q ls p) {e} (he : e ∈ ls) :
    ∃ l1 u v l2, EWalk N q l1 u ∧ N.HasEdge u (.eps e) v ∧ EWalk N v l2 p := by
  induction h with
  | refl => simp at he
  | @tail ls p f r h0 hf ih =>
    rcases List.mem_append.mp he with h1 | h1
    · obtain ⟨l1, u, v, l2, h2, h3, h4⟩ := ih h1
      exact ⟨l1, u, v, _, h2, h3, h4.tail hf⟩
    · simp only [List.mem_singleton] at h1
      subst h1
      exact ⟨_, p, r, [], h0, hf, .refl⟩

theorem path_ewalk {N : NFA σ} {p q} (h : N.Path (fun _ => true) false p q) : ∃ ls, EWalk N p ls q := by
  unfold NFA.Path at h
  induction h with
  | refl => exact ⟨[], .refl⟩
  | tail _ he ih =>
    obtain ⟨ls, h1⟩ := ih
    obtain ⟨l, h2, h3⟩ := he
    cases l with
    | sym a => simp [Sel] at h2
    | eps e => exact ⟨_, h1.tail h3⟩

theorem pushLast_append {A B : NFA σ} (hB : B ≠ []) (e : Eps) : NFA.pushLast (A ++ B) e = A ++ NFA.pushLast B e := by
  induction A with
  | nil => rfl
  | cons s A ih =>
    rw [List.cons_append, List.cons_append]
    cases hc : A ++ B with
    | nil => simp at hc; exact absurd hc.2 hB
    | cons t C => rw [NFA.pushLast, ← hc, ih]

theorem shift_append (A B : NFA σ) (k) : NFA.shift (A ++ B) k = NFA.shift A k ++ NFA.shift B k := by
  simp [NFA.shift]

theorem shift_shift (A : NFA σ) (k m) : NFA.shift (NFA.shift A k) m = NFA.shift A (k + m) := by
  simp [NFA.shift, State.addOffset, Trans.addOffset, Eps.addOffset, Nat.add_assoc, Function.comp_def]

theorem shift_pushLast (A : NFA σ) (e : Eps) (k) : NFA.shift (NFA.pushLast A e) k = NFA.pushLast (NFA.shift A k) ⟨e.dst + k, e.special⟩ := by
  induction A with
  | nil => rfl
  | cons s A ih =>
    cases A with
    | nil => simp [NFA.pushLast, NFA.shift, State.addOffset, Eps.addOffset]
    | cons t C =>
      simp only [NFA.pushLast, NFA.shift, List.map_cons] at ih ⊢
      rw [ih]

theorem concat2_eq (A B : NFA σ) : nfaConcat [A, B] = [⟨[], [Eps.new 1]⟩] ++ (block A 1 (Eps.new (1 + A.length)) ++
    (block B (1 + A.length) (Eps.new (1 + A.length + B.length)) ++ [State.new])) := by
  simp [nfaConcat, concatBody, block]

theorem anyLoop_eq (a : σ) : anyLoop a = [⟨[], [Eps.new 3, Eps.new 1]⟩, ⟨[⟨2, a⟩], []⟩, ⟨[], [Eps.new 0]⟩, State.new] := rfl

theorem withLoops_eq (N : NFA σ) (a : σ) : N.withLoops a true true =
    [⟨[], [Eps.new 1]⟩, ⟨[], [Eps.new 2]⟩, ⟨[], [Eps.new 5, Eps.new 3]⟩, ⟨[⟨4, a⟩], []⟩, ⟨[], [Eps.new 2]⟩,
      ⟨[], [Eps.new 6]⟩] ++ block N 6 (Eps.new (6 + N.length)) ++
    [⟨[], [Eps.new (7 + N.length)]⟩, ⟨[], [Eps.new (10 + N.length), Eps.new (8 + N.length)]⟩,
      ⟨[⟨9 + N.length, a⟩], []⟩, ⟨[], [Eps.new (7 + N.length)]⟩, ⟨[], [Eps.new (11 + N.length)]⟩, State.new] := by
  have h1 : nfaConcat [anyLoop a, N] = [⟨[], [Eps.new 1]⟩, ⟨[], [Eps.new 4, Eps.new 2]⟩, ⟨[⟨3, a⟩], []⟩, ⟨[], [Eps.new 1]⟩,
      ⟨[], [Eps.new 5]⟩] ++ block N 5 (Eps.new (5 + N.length)) ++ [State.new] := by
    rw [concat2_eq, anyLoop_eq]; rfl
  have hl : (nfaConcat [anyLoop a, N]).length = 6 + N.length := by
    rw [h1]; simp [block_length]; omega
  have h2 : block (nfaConcat [anyLoop a, N]) 1 (Eps.new (7 + N.length)) =
      [⟨[], [Eps.new 2]⟩, ⟨[], [Eps.new 5, Eps.new 3]⟩, ⟨[⟨4, a⟩], []⟩, ⟨[], [Eps.new 2]⟩,
      ⟨[], [Eps.new 6]⟩] ++ block N 6 (Eps.new (6 + N.length)) ++ [⟨[], [Eps.new (7 + N.length)]⟩] := by
    rw [h1]
    unfold block
    rw [shift_append, shift_append, pushLast_append (by simp [NFA.shift]), shift_pushLast, shift_shift]
    rw [show Eps.new (6 + N.length) = ⟨(Eps.new (5 + N.length)).dst + 1, (Eps.new (5 + N.length)).special⟩ by simp [Eps.new]; omega]
    rfl
  unfold NFA.withLoops
  simp only [if_true]
  rw [concat2_eq, hl, show 1 + (6 + N.length) = 7 + N.length by omega, h2, anyLoop_eq]
  simp [block, NFA.shift, NFA.pushLast, State.addOffset, Trans.addOffset, Eps.addOffset, State.new, Eps.new]
  omega

/-- A `^` that lies on the way to the accept state after a symbol gives a run on the empty text. -/
theorem startSafe_withLoops [Sym σ α] {B : NFA σ} (hB : B.WF) (hne : B ≠ []) (a : σ)
    (hno : ∀ caps, ¬ B.Acc (α := α) ⟨0, [], []⟩ ⟨0, [], caps⟩) :
    StartSafe (B.cleanStartAnchors.cleanEndAnchors.withLoops a true true) := by
  have hpos : 0 < B.length := List.length_pos_iff.mpr hne
  intro p b q ls _ hw hm
  obtain ⟨l1, u, v, l2, _, h2, h3⟩ := ewalk_split hw hm
  generalize hN : B.cleanStartAnchors.cleanEndAnchors = N at h2 h3
  have hlen : N.length = B.length := by
    rw [← hN]; unfold NFA.cleanEndAnchors; rw [filterEdges_length]; unfold NFA.cleanStartAnchors; rw [filterEdges_length]
  have hNne : N ≠ [] := by rw [← List.length_pos_iff, hlen]; exact hpos
  have hsub1 : ∀ p l q, N.HasEdge p l q → B.cleanStartAnchors.HasEdge p l q := by
    intro p l q h; rw [← hN] at h; exact (hasEdge_filterEdges.mp h).1
  have hsub : ∀ p l q, N.HasEdge p l q → B.HasEdge p l q := fun p l q h =>
    (hasEdge_filterEdges.mp (hsub1 p l q h)).1
  have hNw : N.WF := fun p l q h => by rw [hlen]; exact hB _ _ _ (hsub _ _ _ h)
  have hLL : (N.withLoops a true true).length = 12 + N.length := by
    rw [withLoops_eq]; simp [block_length]; omega
  rw [hLL] at h3
  rw [withLoops_eq] at h2 h3
  set A : NFA σ := [⟨[], [Eps.new 1]⟩, ⟨[], [Eps.new 2]⟩, ⟨[], [Eps.new 5, Eps.new 3]⟩, ⟨[⟨4, a⟩], []⟩, ⟨[], [Eps.new 2]⟩,
      ⟨[], [Eps.new 6]⟩] with hA
  set C : NFA σ := [⟨[], [Eps.new (7 + N.length)]⟩, ⟨[], [Eps.new (10 + N.length), Eps.new (8 + N.length)]⟩,
      ⟨[⟨9 + N.length, a⟩], []⟩, ⟨[], [Eps.new (7 + N.length)]⟩, ⟨[], [Eps.new (11 + N.length)]⟩, State.new] with hC
  have hAl : 6 = A.length := rfl
  have hbl : IsBlock (NFA.HasEdge (A ++ block N 6 (Eps.new (6 + N.length)) ++ C)) N 6 (Eps.new (6 + N.length)) :=
    isBlock_append hNne hAl
  have hux : ∃ x x', u = 6 + x ∧ v = 6 + x' ∧ x < N.length ∧ N.HasEdge x (.eps .startAnchor) x' := by
    rcases hasEdge_append.mp h2 with h4 | ⟨y, rfl, h4⟩
    · rcases hasEdge_append.mp h4 with h5 | ⟨y, rfl, h5⟩
      · exfalso
        have : EpsQ (fun _ => False) A := by rw [hA]; simp [EpsQ, Eps.new]
        simpa using this.edge h5
      · have hy := hasEdge_lt h5
        rw [block_length] at hy
        rw [← hAl] at h2
        rcases (hbl y hy _ _).mp h2 with ⟨x', h6, h7⟩ | ⟨_, h6, _⟩
        · exact ⟨y, x', rfl, h6, hy, h7⟩
        · simp [Eps.new] at h6
    · exfalso
      have : EpsQ (fun _ => False) C := by rw [hC]; simp [EpsQ, Eps.new, State.new]
      simpa using this.edge h4
  obtain ⟨x, x', rfl, rfl, hx, he⟩ := hux
  have hx' := hNw _ _ _ he
  -- the part after the anchor
  obtain ⟨caps0, h0⟩ : ∃ caps0, ReachE (α := α) B.HasEdge (0, ⟨0, [], []⟩) (x, ⟨0, [], caps0⟩) := by
    have hk := (hasEdge_filterEdges.mp (hsub1 _ _ _ he)).2
    simp only [keeps, bne_self_eq_false, Bool.false_or] at hk
    rw [(reachFrom_spec hB hpos).2] at hk
    obtain ⟨ls0, hw0⟩ := path_ewalk hk
    exact ewalk_reach hw0 []
  obtain ⟨caps2, h4⟩ := ewalk_reach (α := α) h3 caps0
  obtain ⟨d1, d2, h5, h6, h7⟩ := block_backward' hbl hNw hx' (by intro y hy; omega) h4
  have hd1 : ∃ c, d1 = ⟨0, [], c⟩ := by
    rcases reach_shape h5 with ⟨_, e1, e2⟩ | ⟨_, e2⟩
    · obtain ⟨o, r, c⟩ := d1
      simp only at e1 e2
      subst e1 e2; exact ⟨c, rfl⟩
    · simp at e2
  obtain ⟨c, rfl⟩ := hd1
  refine hno c ⟨hne, reachE_trans h0 (reachE_trans (reachE_step (l := .eps .startAnchor) (hsub _ _ _ he)
    (show labStep _ _ = some ⟨0, [], caps0⟩ by simp [labStep, epsStep])) ?_)⟩
  rw [← hlen]; exact reachE_mono hsub h5

/-- Through the byte expansion. -/
theorem startSafe_u8Build {U : Utf8Seqs} {N : NFA Atom} (hN : N.WF) (hne : N ≠ []) {M ms ss I}
    (hB : BuildSpec U N M ms ss I) (hs : StartSafe N) : StartSafe M := by
  have hsubs := hB.st.subs
  have hpos : 0 < N.length := List.length_pos_iff.mpr hne
  have hnoeps : ∀ q e y, ¬ SubE N.length ss q (.eps e) y := by
    rintro q e y ⟨j, _, h⟩
    obtain ⟨s, h1, h2⟩ := hasEdge_iff.mp h
    have := hsubs.noeps s (List.mem_of_getElem? h1)
    simp [State.Has, this] at h2
  have hmslt : ∀ q l y, ms.HasEdge q l y → q < N.length := fun q l y h => by
    have := hasEdge_lt h; rw [hB.st.len] at this; exact this
  have hwalk : ∀ q ls r, EWalk M q ls r → q < N.length → (r < N.length ∧ EWalk N q ls r) ∨
      (N.length ≤ r ∧ ∃ ls', ls = ls' ++ [.none] ∧ EWalk N q ls' (N.length - 1)) := by
    intro q ls r hw hq
    induction hw with
    | refl => exact Or.inl ⟨hq, .refl⟩
    | @tail ls p e r _ he ih =>
      rcases ih with ⟨h1, h2⟩ | ⟨h1, _⟩
      · rcases (hB.edge _ _ _).mp he with h3 | ⟨h3, h4, h5⟩ | h3
        · have h4 := (hB.st.eps _ _ _).mp h3
          exact Or.inl ⟨hN _ _ _ h4, h2.tail h4⟩
        · injection h4 with h4
          subst h4
          have : p = N.length - 1 := by omega
          subst this
          exact Or.inr ⟨by omega, ls, rfl, h2⟩
        · exact absurd h3 (hnoeps _ _ _)
      · rcases (hB.edge _ _ _).mp he with h3 | ⟨h3, _⟩ | h3
        · have := hmslt _ _ _ h3; omega
        · omega
        · exact absurd h3 (hnoeps _ _ _)
  have hstuck : ∀ q ls r, EWalk M q ls r → N.length ≤ q → ls = [] := by
    intro q ls r hw hq
    have : ls = [] ∧ r = q := by
      induction hw with
      | refl => exact ⟨rfl, rfl⟩
      | @tail ls p e r _ he ih =>
        obtain ⟨_, rfl⟩ := ih
        rcases (hB.edge _ _ _).mp he with h3 | ⟨h3, _⟩ | h3
        · have := hmslt _ _ _ h3; omega
        · omega
        · exact absurd h3 (hnoeps _ _ _)
    exact this.1
  -- a symbol leads to a state inside a sequence or to the target of a symbol
  have htgt : ∀ p b q, M.HasEdge p (.sym b) q → N.length ≤ q ∨ ∃ p a, N.HasEdge p (.sym a) q := by
    intro p b q he
    rcases (hB.edge _ _ _).mp he with h1 | ⟨_, h2, _⟩ | h1
    · obtain ⟨a, d, h2, h3 | h3⟩ := hB.st.root _ _ _ h1
      · exact Or.inr ⟨p, a, by rw [h3.1]; exact h2⟩
      · exact Or.inl (hsubs.range _ _ _ _ h3).1
    · simp at h2
    · have hlt := subE_lt h1
      obtain ⟨d, a, w, h2⟩ := hsubs.cover p hlt.1 hlt.2
      rcases hsubs.step _ _ _ _ _ _ h2 h1 with ⟨rfl, _⟩ | h3
      · obtain ⟨p0, h4⟩ := (hsubs.range _ _ _ _ h2).2.2
        exact Or.inr ⟨p0, a, h4⟩
      · exact Or.inl (hsubs.range _ _ _ _ h3).1
  intro p b q ls he hw hm
  rcases htgt p b q he with h1 | ⟨p0, a, h1⟩
  · rw [hstuck _ _ _ hw h1] at hm; simp at hm
  · rcases hwalk _ _ _ hw (hN _ _ _ h1) with ⟨h2, _⟩ | ⟨_, ls', h2, h3⟩
    · rw [hB.len] at h2; omega
    · rw [h2] at hm
      rcases List.mem_append.mp hm with h4 | h4
      · exact hs _ _ _ _ h1 h3 h4
      · simp at h4

end Ere
