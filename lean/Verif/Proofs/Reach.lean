import Verif.Spec.Semantics

/-! Runs over edge relations; edges of composed state lists. -/

namespace Ere
variable {σ α : Type} [Sym σ α]

/-- Edges leaving one state. -/
def State.Has (st : State σ) (l : Lab σ) (q' : Nat) : Prop :=
  match l with
  | .sym a => ⟨q', a⟩ ∈ st.transitions
  | .eps e => ⟨q', e⟩ ∈ st.epsilons

theorem hasEdge_iff {N : NFA σ} {q l q'} : N.HasEdge q l q' ↔ ∃ st, N[q]? = some st ∧ st.Has l q' := by
  unfold NFA.HasEdge State.Has
  cases l <;> rfl

theorem hasEdge_lt {N : NFA σ} {q l q'} (h : N.HasEdge q l q') : q < N.length := by
  obtain ⟨st, h, _⟩ := h
  exact (List.getElem?_eq_some_iff.mp h).1

theorem hasEdge_nil {q l q'} : ¬ NFA.HasEdge ([] : NFA σ) q l q' := by
  rintro ⟨st, h, _⟩
  simp at h

theorem hasEdge_append {A B : NFA σ} {q l q'} :
    NFA.HasEdge (A ++ B) q l q' ↔ A.HasEdge q l q' ∨ ∃ x, q = A.length + x ∧ B.HasEdge x l q' := by
  simp only [hasEdge_iff]
  rcases Nat.lt_or_ge q A.length with h | h
  · rw [List.getElem?_append_left h]
    constructor
    · exact fun h => Or.inl h
    · rintro (h1 | ⟨x, hx, _⟩)
      · exact h1
      · omega
  · rw [List.getElem?_append_right h]
    constructor
    · intro h1; exact Or.inr ⟨q - A.length, by omega, h1⟩
    · rintro (⟨st, h1, _⟩ | ⟨x, hx, h1⟩)
      · have := (List.getElem?_eq_some_iff.mp h1).1; omega
      · have : q - A.length = x := by omega
        rwa [this]

theorem hasEdge_cons {s : State σ} {B : NFA σ} {q l q'} :
    NFA.HasEdge (s :: B) q l q' ↔ (q = 0 ∧ s.Has l q') ∨ ∃ x, q = x + 1 ∧ B.HasEdge x l q' := by
  simp only [hasEdge_iff]
  cases q with
  | zero => simp
  | succ q => simp

theorem hasEdge_single {s : State σ} {q l q'} :
    NFA.HasEdge [s] q l q' ↔ q = 0 ∧ s.Has l q' := by
  rw [hasEdge_cons]; simp [hasEdge_nil]

theorem has_new {l : Lab σ} {q'} : ¬ State.Has State.new l q' := by
  cases l <;> simp [State.Has, State.new]

theorem shift_length (N : NFA σ) (k : Nat) : (N.shift k).length = N.length := by simp [NFA.shift]

theorem has_addOffset {s : State σ} {k l q'} :
    (s.addOffset k).Has l q' ↔ ∃ x', q' = x' + k ∧ s.Has l x' := by
  cases l with
  | sym a =>
    simp only [State.Has, State.addOffset, List.mem_map]
    constructor
    · rintro ⟨t, ht, he⟩
      cases t; simp [Trans.addOffset] at he
      obtain ⟨h1, h2⟩ := he
      subst h1 h2
      exact ⟨_, rfl, ht⟩
    · rintro ⟨x', h1, h2⟩
      exact ⟨_, h2, by simp [Trans.addOffset, h1]⟩
  | eps e =>
    simp only [State.Has, State.addOffset, List.mem_map]
    constructor
    · rintro ⟨t, ht, he⟩
      cases t; simp [Eps.addOffset] at he
      obtain ⟨h1, h2⟩ := he
      subst h1 h2
      exact ⟨_, rfl, ht⟩
    · rintro ⟨x', h1, h2⟩
      exact ⟨_, h2, by simp [Eps.addOffset, h1]⟩

theorem hasEdge_shift {N : NFA σ} {k q l q'} :
    (N.shift k).HasEdge q l q' ↔ ∃ x', q' = x' + k ∧ N.HasEdge q l x' := by
  simp only [hasEdge_iff, NFA.shift, List.getElem?_map, Option.map_eq_some_iff]
  constructor
  · rintro ⟨st, ⟨s, h1, h2⟩, h3⟩
    subst h2
    obtain ⟨x', h4, h5⟩ := has_addOffset.mp h3
    exact ⟨x', h4, s, h1, h5⟩
  · rintro ⟨x', h4, s, h1, h5⟩
    exact ⟨_, ⟨s, h1, rfl⟩, has_addOffset.mpr ⟨x', h4, h5⟩⟩

theorem pushLast_length (N : NFA σ) (e : Eps) : (N.pushLast e).length = N.length := by
  induction N with
  | nil => rfl
  | cons s N ih =>
    cases N with
    | nil => rfl
    | cons t N => simp only [NFA.pushLast, List.length_cons] at *; omega

theorem hasEdge_pushLast {N : NFA σ} (hN : N ≠ []) {e : Eps} {q l q'} :
    (N.pushLast e).HasEdge q l q' ↔
      N.HasEdge q l q' ∨ (q + 1 = N.length ∧ l = .eps e.special ∧ q' = e.dst) := by
  induction N generalizing q with
  | nil => exact absurd rfl hN
  | cons s N ih =>
    cases N with
    | nil =>
      simp only [NFA.pushLast, hasEdge_single, List.length_cons, List.length_nil]
      cases l with
      | sym a => simp [State.Has]
      | eps x =>
        obtain ⟨ed, es⟩ := e
        simp only [State.Has, List.mem_append, List.mem_singleton, Eps.mk.injEq, Lab.eps.injEq]
        constructor
        · rintro ⟨rfl, h | ⟨rfl, rfl⟩⟩
          · exact Or.inl ⟨rfl, h⟩
          · exact Or.inr ⟨rfl, rfl, rfl⟩
        · rintro (⟨rfl, h⟩ | ⟨h, rfl, rfl⟩)
          · exact ⟨rfl, Or.inl h⟩
          · exact ⟨by omega, Or.inr ⟨rfl, rfl⟩⟩
    | cons t N =>
      have ih' : ∀ {q : Nat}, _ := fun {q} => ih (by simp) (q := q)
      rw [NFA.pushLast, hasEdge_cons, hasEdge_cons]
      simp only [ih']
      constructor
      · rintro (h | ⟨x, rfl, h | ⟨h, h2⟩⟩)
        · exact Or.inl (Or.inl h)
        · exact Or.inl (Or.inr ⟨x, rfl, h⟩)
        · exact Or.inr ⟨by simp at *; omega, h2⟩
      · rintro ((h | ⟨x, rfl, h⟩) | ⟨h, h2⟩)
        · exact Or.inl h
        · exact Or.inr ⟨x, rfl, Or.inl h⟩
        · refine Or.inr ⟨q - 1, by simp at h; omega, Or.inr ⟨by simp at *; omega, h2⟩⟩

/-- A sub-automaton placed at `off` whose last state gets one more epsilon. -/
def block (n : NFA σ) (off : Nat) (e : Eps) : NFA σ := NFA.pushLast (NFA.shift n off) e

theorem block_length (n : NFA σ) (off e) : (block n off e).length = n.length := by
  simp [block, pushLast_length, shift_length]

theorem shift_ne_nil {n : NFA σ} (h : n ≠ []) (k) : n.shift k ≠ [] := by
  simpa [NFA.shift] using h

theorem hasEdge_block {n : NFA σ} (hn : n ≠ []) {off e q l q'} :
    (block n off e).HasEdge q l q' ↔
      (∃ x', q' = x' + off ∧ n.HasEdge q l x') ∨
      (q + 1 = n.length ∧ l = .eps e.special ∧ q' = e.dst) := by
  rw [block, hasEdge_pushLast (shift_ne_nil hn off), hasEdge_shift, shift_length]

/-- Edges at a block inside a larger automaton. -/
theorem hasEdge_at_block {A C : NFA σ} {n : NFA σ} (hn : n ≠ []) {e x l q'} (hx : x < n.length) :
    NFA.HasEdge (A ++ block n A.length e ++ C) (A.length + x) l q' ↔
      (∃ x', q' = A.length + x' ∧ n.HasEdge x l x') ∨
      (x + 1 = n.length ∧ l = .eps e.special ∧ q' = e.dst) := by
  rw [List.append_assoc, hasEdge_append]
  simp only [hasEdge_append]
  constructor
  · rintro (h | ⟨y, hy, h | ⟨z, hz, h⟩⟩)
    · have := hasEdge_lt h; omega
    · have : y = x := by omega
      subst this
      rw [hasEdge_block hn] at h
      rcases h with ⟨x', h1, h2⟩ | h
      · exact Or.inl ⟨x', by omega, h2⟩
      · exact Or.inr h
    · rw [block_length] at hz; omega
  · intro h
    refine Or.inr ⟨x, rfl, Or.inl ?_⟩
    rw [hasEdge_block hn]
    rcases h with ⟨x', h1, h2⟩ | h
    · exact Or.inl ⟨x', by omega, h2⟩
    · exact Or.inr h

theorem hasEdge_at_mid {A C : NFA σ} {s : State σ} {l q'} :
    NFA.HasEdge (A ++ s :: C) A.length l q' ↔ s.Has l q' := by
  rw [hasEdge_append]
  simp only [hasEdge_cons]
  constructor
  · rintro (h | ⟨y, hy, ⟨_, h⟩ | ⟨z, hz, h⟩⟩)
    · have := hasEdge_lt h; omega
    · exact h
    · omega
  · intro h; exact Or.inr ⟨0, by omega, Or.inl ⟨rfl, h⟩⟩

theorem reachE_mono {E E' : Nat → Lab σ → Nat → Prop} (h : ∀ q l q', E q l q' → E' q l q')
    {x y : Nat × Cfg α} (hr : ReachE E x y) : ReachE E' x y := by
  induction hr with
  | refl => exact Relation.ReflTransGen.refl
  | tail _ h2 ih =>
    obtain ⟨l, h3, h4⟩ := h2
    exact Relation.ReflTransGen.tail ih ⟨l, h _ _ _ h3, h4⟩

theorem reachE_step {E : Nat → Lab σ → Nat → Prop} {q l q'} {d d' : Cfg α} (h : E q l q')
    (hd : labStep l d = some d') : ReachE E (q, d) (q', d') :=
  Relation.ReflTransGen.single ⟨l, h, hd⟩

theorem reachE_eps {E : Nat → Lab σ → Nat → Prop} {q q'} {d : Cfg α} (h : E q (.eps .none) q') :
    ReachE E (q, d) (q', d) := reachE_step h rfl

theorem reachE_trans {E : Nat → Lab σ → Nat → Prop} {x y z : Nat × Cfg α} (h : ReachE E x y)
    (h' : ReachE E y z) : ReachE E x z := Relation.ReflTransGen.trans h h'

theorem reachE_refl {E : Nat → Lab σ → Nat → Prop} {x : Nat × Cfg α} : ReachE E x x :=
  Relation.ReflTransGen.refl

/-- Head induction for runs with a fixed end. -/
theorem reachE_head_induction {E : Nat → Lab σ → Nat → Prop} {f : Nat} {d' : Cfg α}
    {P : Nat → Cfg α → Prop} {q : Nat} {d : Cfg α} (h : ReachE E (q, d) (f, d'))
    (refl : P f d')
    (step : ∀ q d l q1 d1, E q l q1 → labStep l d = some d1 → ReachE E (q1, d1) (f, d') →
      P q1 d1 → P q d) : P q d := by
  have : ∀ x : Nat × Cfg α, ReachE E x (f, d') → P x.1 x.2 := by
    intro x hx
    induction hx using Relation.ReflTransGen.head_induction_on with
    | refl => exact refl
    | head h1 h2 ih => obtain ⟨l, h3, h4⟩ := h1; exact step _ _ l _ _ h3 h4 h2 ih
  exact this _ h

/-- Tail induction for runs with a fixed start. -/
theorem reachE_tail_induction {E : Nat → Lab σ → Nat → Prop} {s : Nat} {d : Cfg α}
    {P : Nat → Cfg α → Prop} {q : Nat} {d' : Cfg α} (h : ReachE E (s, d) (q, d'))
    (refl : P s d)
    (step : ∀ q d1 l q1 d2, ReachE E (s, d) (q, d1) → P q d1 → E q l q1 → labStep l d1 = some d2 →
      P q1 d2) : P q d' := by
  have : ∀ x : Nat × Cfg α, ReachE E (s, d) x → P x.1 x.2 := by
    intro x hx
    induction hx with
    | refl => exact refl
    | tail h1 h2 ih => obtain ⟨l, h3, h4⟩ := h2; exact step _ _ l _ _ h1 ih h3 h4
  exact this _ h

/-- A state without outgoing edges is left by no run. -/
theorem reachE_sink {E : Nat → Lab σ → Nat → Prop} {q} (hq : ∀ l q', ¬ E q l q') {d d' : Cfg α} {q'}
    (h : ReachE E (q, d) (q', d')) : q = q' ∧ d = d' := by
  rcases Relation.ReflTransGen.cases_head h with h | ⟨y, ⟨l, h1, _⟩, _⟩
  · exact ⟨congrArg Prod.fst h, congrArg Prod.snd h⟩
  · exact absurd h1 (hq l _)

/-- Edges of a block at `off` inside an edge relation. -/
def IsBlock (E : Nat → Lab σ → Nat → Prop) (n : NFA σ) (off : Nat) (e : Eps) : Prop :=
  ∀ x, x < n.length → ∀ l q', E (off + x) l q' ↔
      (∃ x', q' = off + x' ∧ n.HasEdge x l x') ∨
      (x + 1 = n.length ∧ l = .eps e.special ∧ q' = e.dst)

theorem block_reach {E : Nat → Lab σ → Nat → Prop} {n : NFA σ} {off e} (hb : IsBlock E n off e)
    (hwf : n.WF) {x y} (hx : x < n.length) {d d' : Cfg α} (h : ReachE n.HasEdge (x, d) (y, d')) :
    ReachE E (off + x, d) (off + y, d') ∧ y < n.length := by
  refine reachE_tail_induction (P := fun y d' => ReachE E (off + x, d) (off + y, d') ∧ y < n.length)
    h ⟨reachE_refl, hx⟩ ?_
  intro q d1 l q1 d2 _ ih he hd
  refine ⟨reachE_trans ih.1 (reachE_step ?_ hd), hwf _ _ _ he⟩
  exact (hb q ih.2 l (off + q1)).mpr (Or.inl ⟨q1, rfl, he⟩)

/-- Passing through a whole block. -/
theorem block_forward {E : Nat → Lab σ → Nat → Prop} {n : NFA σ} {off e} (hb : IsBlock E n off e)
    (hwf : n.WF) {d d1 d2 : Cfg α} (h : n.Acc d d1) (hd : epsStep e.special d1 = some d2) :
    ReachE E (off, d) (e.dst, d2) := by
  obtain ⟨hne, h⟩ := h
  have hpos : 0 < n.length := List.length_pos_iff.mpr hne
  have h1 := block_reach hb hwf hpos h
  refine reachE_trans h1.1 (reachE_step (l := .eps e.special) ?_ hd)
  exact (hb _ h1.2 _ _).mpr (Or.inr ⟨by omega, rfl, rfl⟩)

/-- A run from inside a block to a state outside it leaves through the block's last state. -/
theorem block_backward' {E : Nat → Lab σ → Nat → Prop} {n : NFA σ} {off e} (hb : IsBlock E n off e)
    (hwf : n.WF) {x} (hx : x < n.length) {f} (hf : ∀ x, x < n.length → f ≠ off + x) {d d' : Cfg α}
    (h : ReachE E (off + x, d) (f, d')) :
    ∃ d1 d2, ReachE n.HasEdge (x, d) (n.length - 1, d1) ∧ epsStep e.special d1 = some d2 ∧
      ReachE E (e.dst, d2) (f, d') := by
  refine reachE_head_induction (P := fun q d => ∀ x, q = off + x → x < n.length →
    ∃ d1 d2, ReachE n.HasEdge (x, d) (n.length - 1, d1) ∧ epsStep e.special d1 = some d2 ∧
      ReachE E (e.dst, d2) (f, d')) h ?_ ?_ x rfl hx
  · intro x h1 h2; exact absurd h1 (hf x h2)
  · intro q d l q1 d1 he hd hr ih x hq hx
    subst hq
    rcases (hb x hx l q1).mp he with ⟨x', h1, h2⟩ | ⟨h1, h2, h3⟩
    · obtain ⟨e1, e2, r1, r2, r3⟩ := ih x' h1 (hwf _ _ _ h2)
      exact ⟨e1, e2, reachE_trans (reachE_step h2 hd) r1, r2, r3⟩
    · subst h2 h3
      have : n.length - 1 = x := by omega
      exact ⟨d, d1, by rw [this]; exact reachE_refl, hd, hr⟩

theorem block_backward {E : Nat → Lab σ → Nat → Prop} {n : NFA σ} {off e} (hb : IsBlock E n off e)
    (hwf : n.WF) (hne : n ≠ []) {f} (hf : ∀ x, x < n.length → f ≠ off + x) {d d' : Cfg α}
    (h : ReachE E (off, d) (f, d')) :
    ∃ d1 d2, n.Acc d d1 ∧ epsStep e.special d1 = some d2 ∧ ReachE E (e.dst, d2) (f, d') := by
  obtain ⟨d1, d2, h1, h2, h3⟩ := block_backward' hb hwf (List.length_pos_iff.mpr hne) hf
    (d := d) (by simpa using h)
  exact ⟨d1, d2, ⟨hne, h1⟩, h2, h3⟩

theorem isBlock_append {A C n : NFA σ} (hn : n ≠ []) {off e} (hoff : off = A.length) :
    IsBlock (NFA.HasEdge (A ++ block n off e ++ C)) n off e := by
  subst hoff
  intro x hx l q'
  exact hasEdge_at_block hn hx

end Ere
