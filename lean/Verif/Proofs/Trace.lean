import Verif.Proofs.Opt

/-! Forward simulations that keep the order of anchors and capture marks along a path, ignoring which
symbols are read. Unlike runs they also speak about paths that no text can take. -/

namespace Ere
variable {σ τ ρ : Type}

/-- A step over a plain epsilon or a symbol. -/
def Sil (N : NFA σ) (p q : Nat) : Prop := ∃ l, (∀ e, l = .eps e → e = .none) ∧ N.HasEdge p l q

/-- Any number of such steps. -/
abbrev SilStar (N : NFA σ) : Nat → Nat → Prop := Relation.ReflTransGen (Sil N)

/-- `R` relates each state of `N'` to states of `N` that can do what it does. -/
structure IsSim (N' : NFA τ) (N : NFA σ) (R : Nat → Nat → Prop) : Prop where
  zero : R 0 0
  sil : ∀ p' p q', R p' p → Sil N' p' q' → ∃ q, SilStar N p q ∧ R q' q
  mark : ∀ p' p e q', R p' p → e ≠ .none → N'.HasEdge p' (.eps e) q' →
    ∃ p1 q, SilStar N p p1 ∧ N.HasEdge p1 (.eps e) q ∧ R q' q

/-- Everything `N'` can do from its start, `N` can do. -/
def Sims (N' : NFA τ) (N : NFA σ) : Prop := ∃ R, IsSim N' N R

theorem sil_eps {N : NFA σ} {p q} (h : N.HasEdge p (.eps .none) q) : Sil N p q :=
  ⟨_, by intro e he; injection he with he; exact he.symm, h⟩

theorem sil_sym {N : NFA σ} {p q a} (h : N.HasEdge p (.sym a) q) : Sil N p q :=
  ⟨_, by intro e he; simp at he, h⟩

theorem sims_refl (N : NFA σ) : Sims N N :=
  ⟨Eq, rfl, fun p' p q' h hs => ⟨q', by subst h; exact .single hs, rfl⟩,
    fun p' p e q' h _ he => ⟨p', q', by subst h; exact .refl, he, rfl⟩⟩

theorem IsSim.star {N' : NFA τ} {N : NFA σ} {R} (h : IsSim N' N R) {p' p q'} (hr : R p' p)
    (hs : SilStar N' p' q') : ∃ q, SilStar N p q ∧ R q' q := by
  induction hs with
  | refl => exact ⟨p, .refl, hr⟩
  | tail _ h2 ih =>
    obtain ⟨q, h3, h4⟩ := ih
    obtain ⟨q2, h5, h6⟩ := h.sil _ _ _ h4 h2
    exact ⟨q2, h3.trans h5, h6⟩

theorem Sims.trans {A : NFA ρ} {B : NFA τ} {C : NFA σ} (h1 : Sims A B) (h2 : Sims B C) : Sims A C := by
  obtain ⟨R, hR⟩ := h1
  obtain ⟨S, hS⟩ := h2
  refine ⟨fun a c => ∃ b, R a b ∧ S b c, ⟨0, hR.zero, hS.zero⟩, ?_, ?_⟩
  · rintro a c a' ⟨b, hab, hbc⟩ hs
    obtain ⟨b', h3, h4⟩ := hR.sil _ _ _ hab hs
    obtain ⟨c', h5, h6⟩ := hS.star hbc h3
    exact ⟨c', h5, b', h4, h6⟩
  · rintro a c e a' ⟨b, hab, hbc⟩ hne he
    obtain ⟨b1, b2, h3, h4, h5⟩ := hR.mark _ _ _ _ hab hne he
    obtain ⟨c1, h6, h7⟩ := hS.star hbc h3
    obtain ⟨c2, c3, h8, h9, h10⟩ := hS.mark _ _ _ _ h7 hne h4
    exact ⟨c2, c3, h6.trans h8, h9, b2, h5, h10⟩

/-- Fewer edges. -/
theorem sims_of_sub {N' N : NFA σ} (h : ∀ p l q, N'.HasEdge p l q → N.HasEdge p l q) : Sims N' N :=
  ⟨Eq, rfl, fun p' p q' e hs => ⟨q', by
      subst e; obtain ⟨l, h1, h2⟩ := hs; exact .single ⟨l, h1, h _ _ _ h2⟩, rfl⟩,
    fun p' p e q' e' _ he => ⟨p', q', by subst e'; exact .refl, h _ _ _ he, rfl⟩⟩

/-- Renaming of states. -/
theorem sims_of_map {N' : NFA σ} {N : NFA σ} (R : Nat → Nat → Prop) (h0 : R 0 0)
    (h : ∀ p' p l q', R p' p → N'.HasEdge p' l q' → ∃ q, N.HasEdge p l q ∧ R q' q) : Sims N' N := by
  refine ⟨R, h0, ?_, ?_⟩
  · rintro p' p q' hr ⟨l, h1, h2⟩
    obtain ⟨q, h3, h4⟩ := h _ _ _ _ hr h2
    exact ⟨q, .single ⟨l, h1, h3⟩, h4⟩
  · intro p' p e q' hr _ he
    obtain ⟨q, h3, h4⟩ := h _ _ _ _ hr he
    exact ⟨p, q, .refl, h3, h4⟩

/-- From `q` an end of group `g` can be reached without passing a start of that group. -/
inductive CanClose (N : NFA σ) (g : Nat) : Nat → Prop
  | here {q q'} : N.HasEdge q (.eps (.endCapture g)) q' → CanClose N g q
  | step {q l q'} : N.HasEdge q l q' → l ≠ .eps (.startCapture g) → CanClose N g q' → CanClose N g q

theorem canClose_star {N : NFA σ} {g p q} (h : SilStar N p q) (hc : CanClose N g q) : CanClose N g p := by
  induction h using Relation.ReflTransGen.head_induction_on with
  | refl => exact hc
  | head h1 _ ih =>
    obtain ⟨l, h2, h3⟩ := h1
    refine .step h3 ?_ ih
    intro hl; have := h2 _ hl; simp at this

theorem IsSim.canClose {N' : NFA τ} {N : NFA σ} {R} (h : IsSim N' N R) {g p'} (hc : CanClose N' g p') :
    ∀ p, R p' p → CanClose N g p := by
  induction hc with
  | here he =>
    intro p hr
    obtain ⟨p1, q, h1, h2, _⟩ := h.mark _ _ _ _ hr (by simp) he
    exact canClose_star h1 (.here h2)
  | @step a l b he hl _ ih =>
    intro p hr
    by_cases hs : ∀ e, l = .eps e → e = .none
    · obtain ⟨q, h1, h2⟩ := h.sil _ _ _ hr ⟨l, hs, he⟩
      exact canClose_star h1 (ih _ h2)
    · simp only [not_forall] at hs
      obtain ⟨e, rfl, hne⟩ := hs
      obtain ⟨p1, q, h1, h2, h3⟩ := h.mark _ _ _ _ hr hne he
      exact canClose_star h1 (.step h2 (by simpa using hl) (ih _ h3))

theorem Sims.canClose {N' : NFA τ} {N : NFA σ} (h : Sims N' N) {g} (hc : CanClose N' g 0) :
    CanClose N g 0 := by
  obtain ⟨R, hR⟩ := h
  exact hR.canClose hc 0 hR.zero

/-- Every mark of a reachable state of `N'` occurs in `N`. -/
theorem Sims.mark {N' : NFA τ} {N : NFA σ} (h : Sims N' N) {p' e q'}
    (hp : N'.Path (fun _ => true) true 0 p') (hne : e ≠ .none) (he : N'.HasEdge p' (.eps e) q') :
    ∃ p q, N.HasEdge p (.eps e) q := by
  obtain ⟨R, hR⟩ := h
  have : ∃ p, R p' p := by
    clear he
    induction hp with
    | refl => exact ⟨0, hR.zero⟩
    | tail _ h2 ih =>
      obtain ⟨p, hr⟩ := ih
      obtain ⟨l, _, h3⟩ := h2
      by_cases hs : ∀ e, l = .eps e → e = .none
      · obtain ⟨q, _, h2⟩ := hR.sil _ _ _ hr ⟨l, hs, h3⟩
        exact ⟨q, h2⟩
      · simp only [not_forall] at hs
        obtain ⟨e, rfl, hne⟩ := hs
        obtain ⟨p1, q, h1, h2, h3⟩ := hR.mark _ _ _ _ hr hne h3
        exact ⟨q, h3⟩
  obtain ⟨p, hr⟩ := this
  obtain ⟨p1, q, _, h2, _⟩ := hR.mark _ _ _ _ hr hne he
  exact ⟨p1, q, h2⟩

section
variable {α : Type} [Sym σ α]

theorem sims_merge {N : NFA σ} {x o : Nat} {a b : State σ} (hx0 : x ≠ 0)
    (ha : N[x]? = some a) (hb : N[o]? = some b)
    (hab : sameOut a b = true) : Sims ((N.clear x).redirect x o) N := by
  have hedge : ∀ {q l q'}, ((N.clear x).redirect x o).HasEdge q l q' →
      q ≠ x ∧ ∃ q1, N.HasEdge q l q1 ∧ q' = if q1 = x then o else q1 := by
    intro q l q' he
    obtain ⟨q1, h1, h2⟩ := hasEdge_redirect.mp he
    obtain ⟨h3, h4⟩ := hasEdge_clear.mp h1
    exact ⟨h3, q1, h4, h2⟩
  have hout : ∀ l q, N.HasEdge o l q → ∃ l', LabSame (α := α) l l' ∧ N.HasEdge x l' q := by
    intro l q he
    obtain ⟨s, h1, h2⟩ := hasEdge_iff.mp he
    rw [hb] at h1; injection h1 with h1; subst h1
    obtain ⟨l', h3, h4⟩ := sameOut_has' (α := α) hab h2
    refine ⟨l', ?_, hasEdge_iff.mpr ⟨a, ha, h4⟩⟩
    exact h3
  have key : ∀ p' p l q', (p = p' ∨ (p' = o ∧ p = x)) → ((N.clear x).redirect x o).HasEdge p' l q' →
      ∃ l' q, LabSame (α := α) l l' ∧ N.HasEdge p l' q ∧ (q = q' ∨ (q' = o ∧ q = x)) := by
    intro p' p l q' hr he
    obtain ⟨_, q1, h1, h2⟩ := hedge he
    have hq : q1 = q' ∨ (q' = o ∧ q1 = x) := by
      split at h2
      · exact Or.inr ⟨h2, by assumption⟩
      · exact Or.inl h2.symm
    rcases hr with rfl | ⟨rfl, rfl⟩
    · refine ⟨l, q1, ?_, h1, hq⟩
      cases l <;> simp [LabSame]
    · obtain ⟨l', h3, h4⟩ := hout _ _ h1
      exact ⟨l', q1, h3, h4, hq⟩
  refine ⟨fun p' p => p = p' ∨ (p' = o ∧ p = x), Or.inl rfl, ?_, ?_⟩
  · rintro p' p q' hr ⟨l, h1, h2⟩
    obtain ⟨l', q, h3, h4, h5⟩ := key _ _ _ _ hr h2
    refine ⟨q, .single ⟨l', ?_, h4⟩, h5⟩
    rintro e rfl
    cases l with
    | sym a => simp [LabSame] at h3
    | eps f => simp only [LabSame] at h3; subst h3; exact h1 _ rfl
  · intro p' p e q' hr _ he
    obtain ⟨l', q, h3, h4, h5⟩ := key _ _ _ _ hr he
    cases l' with
    | sym a => simp [LabSame] at h3
    | eps f => simp only [LabSame] at h3; subst h3; exact ⟨p, q, .refl, h4, h5⟩

omit [Sym σ α] in
theorem sims_skip1 {N : NFA σ} {x c : Nat} (hx : N.HasEdge x (.eps .none) c) :
    Sims ((N.redirect x c).clear x) N := by
  have hedge : ∀ {q l q'}, ((N.redirect x c).clear x).HasEdge q l q' →
      ∃ q1, N.HasEdge q l q1 ∧ SilStar N q1 q' := by
    intro q l q' he
    obtain ⟨_, h2⟩ := hasEdge_clear.mp he
    obtain ⟨q1, h3, h4⟩ := hasEdge_redirect.mp h2
    refine ⟨q1, h3, ?_⟩
    split at h4
    · rename_i h5; subst h4 h5; exact .single (sil_eps hx)
    · subst h4; exact .refl
  refine ⟨fun p' p => SilStar N p p', .refl, ?_, ?_⟩
  · rintro p' p q' hr ⟨l, h1, h2⟩
    obtain ⟨q1, h3, h4⟩ := hedge h2
    exact ⟨q1, hr.tail ⟨l, h1, h3⟩, h4⟩
  · intro p' p e q' hr _ he
    obtain ⟨q1, h3, h4⟩ := hedge he
    exact ⟨p', q1, hr, h3, h4⟩

omit [Sym σ α] in
theorem sims_splice {N : NFA σ} {x a k es} (h : SpliceHyp N x a k es) :
    Sims (splice N x a k es) N := by
  have hax : N.HasEdge a (.eps .none) x := by
    obtain ⟨sa, h1, h2⟩ := h.hk
    exact hasEdge_iff.mpr ⟨sa, h1, List.mem_iff_getElem?.mpr ⟨k, h2⟩⟩
  have hedge : ∀ {q l q'}, (splice N x a k es).HasEdge q l q' →
      ∃ p, SilStar N q p ∧ N.HasEdge p l q' := by
    intro q l q' he
    obtain ⟨_, h1 | ⟨rfl, h1⟩⟩ := (hasEdge_splice h).mp he
    · exact ⟨q, .refl, h1.1⟩
    · exact ⟨x, .single (sil_eps hax), h1⟩
  refine ⟨Eq, rfl, ?_, ?_⟩
  · rintro p' p q' rfl ⟨l, h1, h2⟩
    obtain ⟨p, h3, h4⟩ := hedge h2
    exact ⟨q', h3.tail ⟨l, h1, h4⟩, rfl⟩
  · rintro p' p e q' rfl _ he
    obtain ⟨p, h3, h4⟩ := hedge he
    exact ⟨p, q', h3, h4, rfl⟩

end

end Ere
