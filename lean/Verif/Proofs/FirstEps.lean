import Verif.Proofs.FirstOpt
import Verif.Proofs.FlatExec

/-! Epsilon propagation lists the epsilon walks in the order of preference. -/

namespace Ere
variable {σ α β γ : Type} [Sym σ α]

/-! ### Searches with their size -/

/-- `FstL` with the size of the search. -/
inductive FstN (O : Nat → Edges σ) (f : Nat) (K : Cfg α → Option β) : Edges σ → Nat → Cfg α → Option β → Prop
  | nil {d} : FstN O f K [] 0 d none
  | skip {l q es d n r} : labStep l d = none → FstN O f K es n d r → FstN O f K ((l, q) :: es) (n + 1) d r
  | acc {l es d d1 y} : labStep l d = some d1 → K d1 = some y → FstN O f K ((l, f) :: es) 1 d (some y)
  | rej {l es d d1 n r} : labStep l d = some d1 → K d1 = none → FstN O f K es n d r →
      FstN O f K ((l, f) :: es) (n + 1) d r
  | fail {l q es d d1 m n r} : labStep l d = some d1 → q ≠ f → FstN O f K (O q) m d1 none →
      FstN O f K es n d r → FstN O f K ((l, q) :: es) (m + n + 1) d r
  | hit {l q es d d1 m y} : labStep l d = some d1 → q ≠ f → FstN O f K (O q) m d1 (some y) →
      FstN O f K ((l, q) :: es) (m + 1) d (some y)

variable {O : Nat → Edges σ} {f : Nat} {K : Cfg α → Option β}

theorem FstL.size {es} {d : Cfg α} {r} (h : FstL O f K es d r) : ∃ n, FstN O f K es n d r := by
  induction h with
  | nil => exact ⟨_, .nil⟩
  | skip h1 _ ih => obtain ⟨n, h⟩ := ih; exact ⟨_, .skip h1 h⟩
  | acc h1 h2 => exact ⟨_, .acc h1 h2⟩
  | rej h1 h2 _ ih => obtain ⟨n, h⟩ := ih; exact ⟨_, .rej h1 h2 h⟩
  | fail h1 h2 _ _ ih1 ih2 => obtain ⟨m, h3⟩ := ih1; obtain ⟨n, h4⟩ := ih2; exact ⟨_, .fail h1 h2 h3 h4⟩
  | hit h1 h2 _ ih => obtain ⟨m, h3⟩ := ih; exact ⟨_, .hit h1 h2 h3⟩

theorem FstN.first {es n} {d : Cfg α} {r} (h : FstN O f K es n d r) : FstL O f K es d r := by
  induction h with
  | nil => exact .nil
  | skip h1 _ ih => exact .skip h1 ih
  | acc h1 h2 => exact .acc h1 h2
  | rej h1 h2 _ ih => exact .rej h1 h2 ih
  | fail h1 h2 _ _ ih1 ih2 => exact .fail h1 h2 ih1 ih2
  | hit h1 h2 _ ih => exact .hit h1 h2 ih

theorem FstN.det {es n m} {d : Cfg α} {r r'} (h : FstN O f K es n d r) (h' : FstN O f K es m d r') : n = m ∧ r = r' := by
  refine ⟨?_, h.first.det h'.first⟩
  induction h generalizing m r' with
  | nil => cases h'; rfl
  | skip h1 _ ih =>
    cases h' with
    | skip _ h3 => rw [ih h3]
    | acc h3 => rw [h1] at h3; simp at h3
    | rej h3 => rw [h1] at h3; simp at h3
    | fail h3 => rw [h1] at h3; simp at h3
    | hit h3 => rw [h1] at h3; simp at h3
  | acc h1 h2 =>
    cases h' with
    | skip h3 => rw [h1] at h3; simp at h3
    | acc h3 h4 => rfl
    | rej h3 h4 => rw [h1] at h3; injection h3 with h3; subst h3; rw [h2] at h4; simp at h4
    | fail _ h4 => exact absurd rfl h4
    | hit _ h4 => exact absurd rfl h4
  | rej h1 h2 _ ih =>
    cases h' with
    | skip h3 => rw [h1] at h3; simp at h3
    | acc h3 h4 => rw [h1] at h3; injection h3 with h3; subst h3; rw [h2] at h4; simp at h4
    | rej _ _ h5 => rw [ih h5]
    | fail _ h4 => exact absurd rfl h4
    | hit _ h4 => exact absurd rfl h4
  | fail h1 h2 g3 _ ih1 ih2 =>
    cases h' with
    | skip h3 => rw [h1] at h3; simp at h3
    | acc => exact absurd rfl h2
    | rej => exact absurd rfl h2
    | fail h3 _ h5 h6 => rw [h1] at h3; injection h3 with h3; subst h3; rw [ih2 h6, ih1 h5]
    | hit h3 _ h5 =>
      rw [h1] at h3; injection h3 with h3; subst h3; have := g3.first.det h5.first; simp at this
  | hit h1 h2 g3 ih1 =>
    cases h' with
    | skip h3 => rw [h1] at h3; simp at h3
    | acc => exact absurd rfl h2
    | rej => exact absurd rfl h2
    | fail h3 _ h5 => rw [h1] at h3; injection h3 with h3; subst h3; have := g3.first.det h5.first; simp at this
    | hit h3 _ h5 => rw [h1] at h3; injection h3 with h3; subst h3; rw [ih1 h5]

/-- A search from a related configuration goes the same way. -/
theorem FstN.congr {K' : Cfg α → Option γ} {Rel : Cfg α → Cfg α → Prop} {RR : Option β → Option γ → Prop}
    (hRR : RR none none) (hlab : ∀ (l : Lab σ) d d', Rel d d' → (labStep l d = none ∧ labStep l d' = none) ∨
      ∃ d1 d1', labStep l d = some d1 ∧ labStep l d' = some d1' ∧ Rel d1 d1')
    (hK : ∀ d d', Rel d d' → (K d = none ∧ K' d' = none) ∨ ∃ y y', K d = some y ∧ K' d' = some y' ∧ RR (some y) (some y'))
    (hnone : ∀ y, ¬ RR none (some y)) (hsome : ∀ y, ¬ RR (some y) none)
    {es n} {d d' : Cfg α} {r} (h : FstN O f K es n d r) (hr : Rel d d') : ∃ r', FstN O f K' es n d' r' ∧ RR r r' := by
  induction h generalizing d' with
  | nil => exact ⟨none, .nil, hRR⟩
  | skip h1 _ ih =>
    obtain ⟨r', h2, h3⟩ := ih hr
    rcases hlab _ _ _ hr with ⟨_, h5⟩ | ⟨d1, d1', h4, _⟩
    · exact ⟨r', .skip h5 h2, h3⟩
    · rw [h1] at h4; simp at h4
  | acc h1 h2 =>
    rcases hlab _ _ _ hr with ⟨h4, _⟩ | ⟨e1, e1', h4, h5, h6⟩
    · rw [h1] at h4; simp at h4
    · rw [h1] at h4; injection h4 with h4; subst h4
      rcases hK _ _ h6 with ⟨h7, _⟩ | ⟨y, y', h7, h8, h9⟩
      · rw [h2] at h7; simp at h7
      · rw [h2] at h7; injection h7 with h7; subst h7
        exact ⟨_, .acc h5 h8, h9⟩
  | rej h1 h2 _ ih =>
    rcases hlab _ _ _ hr with ⟨h4, _⟩ | ⟨e1, e1', h4, h5, h6⟩
    · rw [h1] at h4; simp at h4
    · rw [h1] at h4; injection h4 with h4; subst h4
      rcases hK _ _ h6 with ⟨_, h8⟩ | ⟨y, y', h7, _⟩
      · obtain ⟨r', g2, g3⟩ := ih hr
        exact ⟨r', .rej h5 h8 g2, g3⟩
      · rw [h2] at h7; simp at h7
  | fail h1 h2 _ _ ih1 ih2 =>
    rcases hlab _ _ _ hr with ⟨h4, _⟩ | ⟨e1, e1', h4, h5, h6⟩
    · rw [h1] at h4; simp at h4
    · rw [h1] at h4; injection h4 with h4; subst h4
      obtain ⟨r', g2, g3⟩ := ih2 hr
      obtain ⟨r1, g4, g5⟩ := ih1 h6
      cases r1 with
      | none => exact ⟨r', .fail h5 h2 g4 g2, g3⟩
      | some y => exact absurd g5 (hnone y)
  | hit h1 h2 _ ih1 =>
    rcases hlab _ _ _ hr with ⟨h4, _⟩ | ⟨e1, e1', h4, h5, h6⟩
    · rw [h1] at h4; simp at h4
    · rw [h1] at h4; injection h4 with h4; subst h4
      obtain ⟨r1, g4, g5⟩ := ih1 h6
      cases r1 with
      | none => exact absurd g5 (hsome _)
      | some y => exact ⟨_, .hit h5 h2 g4, g5⟩

/-- Slots of a run that has read everything. -/
def slotEnd (k : Nat) (d : Cfg α) : Option Slots := if d.rest.isEmpty then some (slotsOf k d.caps) else none

/-- Configurations that differ in the events only. -/
theorem labStep_caps (l : Lab σ) {d d' : Cfg α} (h1 : d.off = d'.off) (h2 : d.rest = d'.rest) :
    (labStep l d = none ∧ labStep l d' = none) ∨
      ∃ d1 d1' ev, labStep l d = some d1 ∧ labStep l d' = some d1' ∧ d1.off = d1'.off ∧ d1.rest = d1'.rest ∧
        d1.caps = d.caps ++ ev ∧ d1'.caps = d'.caps ++ ev := by
  obtain ⟨o, r, c⟩ := d
  obtain ⟨o', r', c'⟩ := d'
  simp only at h1 h2; subst h1 h2
  cases l with
  | sym a =>
    cases r with
    | nil => exact Or.inl ⟨rfl, rfl⟩
    | cons x r =>
      by_cases hc : Sym.check a x = true
      · exact Or.inr ⟨⟨o + Sym.len σ x, r, c⟩, ⟨o + Sym.len σ x, r, c'⟩, [], by simp [labStep, symStep, hc],
          by simp [labStep, symStep, hc], rfl, rfl, by simp, by simp⟩
      · exact Or.inl ⟨by simp [labStep, symStep, hc], by simp [labStep, symStep, hc]⟩
  | eps e =>
    cases e with
    | none => exact Or.inr ⟨_, _, [], rfl, rfl, rfl, rfl, by simp, by simp⟩
    | startAnchor =>
      by_cases ho : o = 0
      · exact Or.inr ⟨⟨o, r, c⟩, ⟨o, r, c'⟩, [], by simp [labStep, epsStep, ho],
          by simp [labStep, epsStep, ho], rfl, rfl, by simp, by simp⟩
      · exact Or.inl ⟨by simp [labStep, epsStep, ho], by simp [labStep, epsStep, ho]⟩
    | endAnchor =>
      by_cases ho : r = []
      · exact Or.inr ⟨⟨o, r, c⟩, ⟨o, r, c'⟩, [], by simp [labStep, epsStep, ho],
          by simp [labStep, epsStep, ho], rfl, rfl, by simp, by simp⟩
      · exact Or.inl ⟨by simp [labStep, epsStep, ho], by simp [labStep, epsStep, ho]⟩
    | startCapture g => exact Or.inr ⟨_, _, [.opened g o], rfl, rfl, rfl, rfl, rfl, rfl⟩
    | endCapture g => exact Or.inr ⟨_, _, [.closed g o], rfl, rfl, rfl, rfl, rfl, rfl⟩

omit [Sym σ α] in
theorem slotsOf_append {k : Nat} {c c' : Caps} (h : slotsOf k c = slotsOf k c') (ev : Caps) :
    slotsOf k (c ++ ev) = slotsOf k (c' ++ ev) := by
  refine List.ext_getElem? fun g => ?_
  by_cases hg : g < k
  · have := congrArg (fun l => l[g]?) h
    simp only [slotsOf_get hg, Option.some.injEq, Prod.mk.injEq] at this
    rw [slotsOf_get hg, slotsOf_get hg, start?_append, end?_append, start?_append, end?_append, this.1, this.2]
  · rw [List.getElem?_eq_none (by simp [slotsOf]; omega), List.getElem?_eq_none (by simp [slotsOf]; omega)]

/-- The result depends on the slots only. -/
theorem FstN.slots {k : Nat} {es n} {d d' : Cfg α} {r} (h : FstN O f (slotEnd k) es n d r) (h1 : d.off = d'.off)
    (h2 : d.rest = d'.rest) (h3 : slotsOf k d.caps = slotsOf k d'.caps) : FstN O f (slotEnd k) es n d' r := by
  obtain ⟨r', g1, g2⟩ := h.congr (K' := slotEnd k) (RR := Eq)
    (Rel := fun d d' => d.off = d'.off ∧ d.rest = d'.rest ∧ slotsOf k d.caps = slotsOf k d'.caps) rfl (by
      rintro l d d' ⟨a1, a2, a3⟩
      rcases labStep_caps l a1 a2 with h | ⟨d1, d1', ev, b1, b2, b3, b4, b5, b6⟩
      · exact Or.inl h
      · exact Or.inr ⟨d1, d1', b1, b2, b3, b4, by rw [b5, b6]; exact slotsOf_append a3 ev⟩) (by
      rintro d d' ⟨a1, a2, a3⟩
      unfold slotEnd
      rw [← a2, ← a3]
      by_cases hh : d.rest.isEmpty = true
      · rw [if_pos hh]; exact Or.inr ⟨_, _, rfl, rfl, rfl⟩
      · rw [if_neg hh]; exact Or.inl ⟨rfl, rfl⟩) (by simp) (by simp) ⟨h1, h2, h3⟩
  rw [g2]; exact g1

/-- Whether there is a result does not depend on the events at all. -/
theorem FstN.caps {k : Nat} {es n} {d d' : Cfg α} {r} (h : FstN O f (slotEnd k) es n d r) (h1 : d.off = d'.off)
    (h2 : d.rest = d'.rest) : ∃ r', FstN O f (slotEnd k) es n d' r' ∧ r.isSome = r'.isSome :=
  h.congr (K' := slotEnd k) (RR := fun a b => a.isSome = b.isSome)
    (Rel := fun d d' => d.off = d'.off ∧ d.rest = d'.rest) rfl (by
      rintro l d d' ⟨a1, a2⟩
      rcases labStep_caps l a1 a2 with h | ⟨d1, d1', ev, b1, b2, b3, b4, b5, b6⟩
      · exact Or.inl h
      · exact Or.inr ⟨d1, d1', b1, b2, b3, b4⟩) (by
      rintro d d' ⟨a1, a2⟩
      unfold slotEnd
      rw [← a2]
      by_cases hh : d.rest.isEmpty = true
      · rw [if_pos hh, if_pos hh]; exact Or.inr ⟨_, _, rfl, rfl, rfl⟩
      · rw [if_neg hh, if_neg hh]; exact Or.inl ⟨rfl, rfl⟩) (by simp) (by simp) ⟨h1, h2⟩

/-- From events to slots. -/
theorem FstL.toSlots (k : Nat) {es} {d : Cfg α} {r} (h : FstL O f atEnd es d r) :
    FstL O f (slotEnd k) es d (r.map (slotsOf k)) := by
  obtain ⟨n, h⟩ := h.size
  obtain ⟨r', g1, g2⟩ := h.congr (K' := slotEnd k) (RR := fun a b => b = a.map (slotsOf k)) (Rel := Eq) rfl (by
      rintro l d _ rfl
      cases labStep l d with
      | none => exact Or.inl ⟨rfl, rfl⟩
      | some d1 => exact Or.inr ⟨d1, d1, rfl, rfl, rfl⟩) (by
      rintro d _ rfl
      unfold slotEnd atEnd
      by_cases hh : d.rest.isEmpty = true
      · rw [if_pos hh, if_pos hh]; exact Or.inr ⟨_, _, rfl, rfl, rfl⟩
      · rw [if_neg hh, if_neg hh]; exact Or.inl ⟨rfl, rfl⟩) (by simp) (by simp) rfl
  rw [← g2]; exact g1.first

/-! ### Order of the epsilon walks -/

/-- The search from a state with its size. -/
abbrev NFA.FstN (N : NFA σ) (K : Cfg α → Option β) (q n : Nat) (d : Cfg α) (r : Option β) : Prop :=
  Ere.FstN N.outs (N.length - 1) K [(.eps .none, q)] n d r

theorem fstNQ_final {n : Nat} {d : Cfg α} {r} (h : FstN O f K [(.eps .none, f)] n d r) : r = K d := by
  have := fstQ_iff.mp (show FstQ O f K f d r from h.first)
  rcases this with ⟨_, h⟩ | ⟨h, _⟩
  · exact h
  · exact absurd rfl h

theorem fstNQ_step {q n : Nat} {d : Cfg α} {r} (hq : q ≠ f) (h : FstN O f K [(.eps .none, q)] n d r) :
    ∃ m, n = m + 1 ∧ FstN O f K (O q) m d r := by
  cases h with
  | skip h _ => rw [labStep_none] at h; simp at h
  | acc => exact absurd rfl hq
  | rej => exact absurd rfl hq
  | fail h1 _ h3 h4 =>
    rw [labStep_none] at h1; injection h1 with h1; subst h1
    cases h4; exact ⟨_, rfl, h3⟩
  | hit h1 _ h3 =>
    rw [labStep_none] at h1; injection h1 with h1; subst h1
    exact ⟨_, rfl, h3⟩

theorem fstN_cons {l q es n} {d : Cfg α} {r} (h : FstN O f K ((l, q) :: es) n d r) :
    (labStep l d = none ∧ ∃ m, n = m + 1 ∧ FstN O f K es m d r) ∨
    ∃ d1, labStep l d = some d1 ∧
      ((∃ n1 n2, n = n1 + n2 ∧ FstN O f K [(.eps .none, q)] n1 d1 none ∧ FstN O f K es n2 d r) ∨
      ∃ y, r = some y ∧ FstN O f K [(.eps .none, q)] n d1 (some y)) := by
  cases h with
  | skip h1 h2 => exact Or.inl ⟨h1, _, rfl, h2⟩
  | acc h1 h2 => exact Or.inr ⟨_, h1, Or.inr ⟨_, rfl, .acc (labStep_none _) h2⟩⟩
  | @rej _ _ _ d1 n _ h1 h2 h3 =>
    exact Or.inr ⟨_, h1, Or.inl ⟨1, n, by omega, .rej (n := 0) (labStep_none _) h2 .nil, h3⟩⟩
  | @fail _ _ _ _ d1 m n _ h1 h2 h3 h4 =>
    exact Or.inr ⟨_, h1, Or.inl ⟨m + 1, n, by omega, .fail (n := 0) (labStep_none _) h2 h3 .nil, h4⟩⟩
  | hit h1 h2 h3 => exact Or.inr ⟨_, h1, Or.inr ⟨_, rfl, .hit (labStep_none _) h2 h3⟩⟩

omit [Sym σ α] in
theorem extend_state (t : EpsProp) (e : Eps) : (t.extend e).state = e.dst := by
  obtain ⟨d, s⟩ := e; cases s <;> rfl

section
variable (N : NFA σ) (k q0 off : Nat) (rest : List α) (c : Caps)

/-- The anchors of a thread hold. -/
def AnchorOk (t : EpsProp) : Prop := (t.startOnly = true → off = 0) ∧ (t.endOnly = true → rest = [])

/-- Result of the search that goes on from a thread of `q0`. -/
def PropVal (t : EpsProp) (n : Nat) (r : Option Slots) : Prop :=
  ∃ ls, EWalk N q0 ls t.state ∧ t = walkSummary t.state ls ∧
    N.FstN (slotEnd k) t.state n (⟨off, rest, c ++ walkEvents off ls⟩ : Cfg α) r

variable {N k q0 off rest c}

omit [Sym σ α] in
theorem slots_walk {k : Nat} {t : EpsProp} {ls ls'} (h : t = walkSummary t.state ls) (h' : t = walkSummary t.state ls') :
    slotsOf k (c ++ walkEvents off ls) = slotsOf k (c ++ walkEvents off ls') := by
  have hs : ∀ g, EpsType.startCapture g ∈ ls ↔ EpsType.startCapture g ∈ ls' := by
    intro g
    rw [← mem_tags_start, ← mem_tags_start]
    have h1 := congrArg EpsProp.tags h
    have h2 := congrArg EpsProp.tags h'
    simp only [walkSummary] at h1 h2
    rw [← h1, ← h2]
  have he : ∀ g, EpsType.endCapture g ∈ ls ↔ EpsType.endCapture g ∈ ls' := by
    intro g
    rw [← mem_tags_end, ← mem_tags_end]
    have h1 := congrArg EpsProp.tags h
    have h2 := congrArg EpsProp.tags h'
    simp only [walkSummary] at h1 h2
    rw [← h1, ← h2]
  refine List.ext_getElem? fun g => ?_
  by_cases hg : g < k
  · rw [slotsOf_get hg, slotsOf_get hg, start?_append, end?_append, start?_append, end?_append, walkEvents_start,
      walkEvents_end, walkEvents_start, walkEvents_end]
    simp only [hs g, he g]
  · rw [List.getElem?_eq_none (by simp [slotsOf]; omega), List.getElem?_eq_none (by simp [slotsOf]; omega)]

theorem PropVal.det {t n m r r'} (h : PropVal N k q0 off rest c t n r) (h' : PropVal N k q0 off rest c t m r') :
    n = m ∧ r = r' := by
  obtain ⟨ls, _, h2, h3⟩ := h
  obtain ⟨ls', _, h2', h3'⟩ := h'
  exact (h3.slots (d' := ⟨off, rest, c ++ walkEvents off ls'⟩) rfl rfl (slots_walk h2 h2')).det h3'

omit [Sym σ α] in
theorem anchorOk_extend {t : EpsProp} {e : Eps} (h : AnchorOk off rest (t.extend e)) : AnchorOk off rest t := by
  obtain ⟨d, s⟩ := e
  cases s with
  | none => exact h
  | startAnchor => exact ⟨fun _ => h.1 rfl, h.2⟩
  | endAnchor => exact ⟨h.1, fun _ => h.2 rfl⟩
  | startCapture g => exact h
  | endCapture g => exact h

theorem anchorOk_step {t : EpsProp} (ht : AnchorOk off rest t) {e p caps} :
    (epsStep e (⟨off, rest, caps⟩ : Cfg α) = none ∧ ¬ AnchorOk off rest (t.extend ⟨p, e⟩)) ∨
    (epsStep e (⟨off, rest, caps⟩ : Cfg α) = some ⟨off, rest, caps ++ walkEvents off [e]⟩ ∧
      AnchorOk off rest (t.extend ⟨p, e⟩)) := by
  cases e with
  | none => exact Or.inr ⟨by simp [epsStep, walkEvents], ht⟩
  | startAnchor =>
    by_cases h : off = 0
    · exact Or.inr ⟨by simp [epsStep, walkEvents, h], fun _ => h, ht.2⟩
    · exact Or.inl ⟨by simp [epsStep, h], fun hh => h (hh.1 rfl)⟩
  | endAnchor =>
    by_cases h : rest = []
    · exact Or.inr ⟨by simp [epsStep, walkEvents, h], ht.1, fun _ => h⟩
    · exact Or.inl ⟨by simp [epsStep, h], fun hh => h (hh.2 rfl)⟩
  | startCapture g => exact Or.inr ⟨by simp [epsStep, walkEvents, Caps.setStart], ht⟩
  | endCapture g => exact Or.inr ⟨by simp [epsStep, walkEvents, Caps.setEnd], ht⟩

omit [Sym σ α] in
theorem walkEvents_append (off : Nat) (a b : List EpsType) : walkEvents off (a ++ b) = walkEvents off a ++ walkEvents off b := by
  simp [walkEvents]

/-- What a stretch of the list says about the search. -/
def ListVal (N : NFA σ) (k q0 off : Nat) (rest : List α) (c : Caps) (l : List EpsProp) : Option Slots → Prop
  | none => ∀ u ∈ l, AnchorOk off rest u → ∃ m, PropVal N k q0 off rest c u m none
  | some y => ∃ pre t post, l = pre ++ t :: post ∧ N.keepsThread t = true ∧ AnchorOk off rest t ∧
      (∃ m, PropVal N k q0 off rest c t m (some y)) ∧
      ∀ u ∈ pre, AnchorOk off rest u → N.keepsThread u = true → ∃ m, PropVal N k q0 off rest c u m none

theorem ListVal.before {l l' : List EpsProp} {r} (h : ListVal N k q0 off rest c l r)
    (h' : ∀ u ∈ l', AnchorOk off rest u → N.keepsThread u = true → ∃ m, PropVal N k q0 off rest c u m none)
    (h'' : r = none → ∀ u ∈ l', AnchorOk off rest u → ∃ m, PropVal N k q0 off rest c u m none) :
    ListVal N k q0 off rest c (l' ++ l) r := by
  cases r with
  | none =>
    intro u hu ha
    rcases List.mem_append.mp hu with hu | hu
    · exact h'' rfl u hu ha
    · exact h u hu ha
  | some y =>
    obtain ⟨pre, t, post, rfl, h1, h2, h3, h4⟩ := h
    refine ⟨l' ++ pre, t, post, by simp, h1, h2, h3, fun u hu ha hk => ?_⟩
    rcases List.mem_append.mp hu with hu | hu
    · exact h' u hu ha hk
    · exact h4 u hu ha hk

theorem ListVal.after {l : List EpsProp} {y} (h : ListVal N k q0 off rest c l (some y)) (l') :
    ListVal N k q0 off rest c (l ++ l') (some y) := by
  obtain ⟨pre, t, post, rfl, h⟩ := h
  exact ⟨pre, t, post ++ l', by simp, h⟩

/-- What is known of the threads already listed: they have failed, or the search goes through them. -/
def Listed (N : NFA σ) (k q0 off : Nat) (rest : List α) (c : Caps) (out : List EpsProp) (n : Nat) : Prop :=
  ∀ u ∈ out, AnchorOk off rest u → (∃ m, PropVal N k q0 off rest c u m none) ∨
    ∃ m r, n < m ∧ PropVal N k q0 off rest c u m r

theorem preorder_first (hne : N ≠ []) (hmix : N.NoMix) (hsink : N.Sink) : ∀ (fuel : Nat) (x : EpsProp) (out out' : List EpsProp),
    preorder N.propSucc fuel x out = .ok out' →
    ∃ R, out' = out ++ x :: R ∧ (¬ AnchorOk off rest x → ∀ u ∈ x :: R, ¬ AnchorOk off rest u) ∧
      ∀ n r, AnchorOk off rest x → PropVal N k q0 off rest c x n r → Listed N k q0 off rest c out n →
        ListVal N k q0 off rest c (x :: R) r := by
  intro fuel
  induction fuel with
  | zero => intro x out out' h; simp [preorder] at h
  | succ fuel ih =>
    intro x out out' h
    rw [preorder] at h
    have fold : ∀ (es : List Eps) (out out' : List EpsProp),
        (es.map x.extend).foldlM (fun out y => if out.contains y then Except.ok out else preorder N.propSucc fuel y out) out
          = .ok out' →
        ∃ R, out' = out ++ R ∧ (¬ AnchorOk off rest x → ∀ u ∈ R, ¬ AnchorOk off rest u) ∧
          ∀ ls n r, AnchorOk off rest x → (∀ e ∈ es, N.HasEdge x.state (.eps e.special) e.dst) →
            EWalk N q0 ls x.state → x = walkSummary x.state ls →
            FstN N.outs (N.length - 1) (slotEnd k) (es.map (fun e => (.eps e.special, e.dst))) n
              (⟨off, rest, c ++ walkEvents off ls⟩ : Cfg α) r →
            Listed N k q0 off rest c out n → ListVal N k q0 off rest c R r := by
      intro es
      induction es with
      | nil =>
        intro out out' h
        rw [List.map_nil, List.foldlM_nil] at h
        injection h with h; subst h
        refine ⟨[], by simp, by simp, fun ls n r _ _ _ _ h _ => ?_⟩
        cases h
        intro u hu; simp at hu
      | cons e es ihe =>
        intro out out' h
        rw [List.map_cons, List.foldlM_cons] at h
        -- the step for this child
        obtain ⟨out1, R1, hs, hout1, hR1, hc1⟩ : ∃ out1 R1,
            (if out.contains (x.extend e) then Except.ok out else preorder N.propSucc fuel (x.extend e) out) = .ok out1 ∧
            out1 = out ++ R1 ∧ (¬ AnchorOk off rest (x.extend e) → ∀ u ∈ R1, ¬ AnchorOk off rest u) ∧
            ∀ n r, AnchorOk off rest (x.extend e) → PropVal N k q0 off rest c (x.extend e) n r →
              Listed N k q0 off rest c out n → ListVal N k q0 off rest c R1 r := by
          by_cases hc : out.contains (x.extend e) = true
          · refine ⟨out, [], by rw [if_pos hc], by simp, by simp, fun n r ha hv hl => ?_⟩
            have hm : x.extend e ∈ out := by simpa using hc
            rcases hl _ hm ha with ⟨m, h1⟩ | ⟨m, r1, h1, h2⟩
            · rw [(hv.det h1).2]; intro u hu; simp at hu
            · have := (hv.det h2).1; omega
          · rw [if_neg hc] at h
            cases hp : preorder N.propSucc fuel (x.extend e) out with
            | error er => rw [hp] at h; simp [Bind.bind, Except.bind] at h
            | ok out1 =>
              obtain ⟨R, h1, h2, h3⟩ := ih _ _ _ hp
              exact ⟨out1, x.extend e :: R, by rw [if_neg hc], h1, h2, h3⟩
        rw [hs] at h
        obtain ⟨R2, h1, h2, h3⟩ := ihe out1 out' h
        refine ⟨R1 ++ R2, by rw [h1, hout1]; simp, ?_, ?_⟩
        · intro ha u hu
          rcases List.mem_append.mp hu with hu | hu
          · exact hR1 (fun hh => ha (anchorOk_extend hh)) u hu
          · exact h2 ha u hu
        · intro ls n r ha hes hw hx hF hl
          have hedge := hes e (by simp)
          rw [List.map_cons] at hF
          have hmono : ∀ {m}, m ≤ n → Listed N k q0 off rest c out m := by
            intro m hm u hu hau
            rcases hl u hu hau with h | ⟨m', r', h4, h5⟩
            · exact Or.inl h
            · exact Or.inr ⟨m', r', by omega, h5⟩
          have hye : x.extend e = walkSummary e.dst (ls ++ [e.special]) := by
            rw [← summary_extend x.state, ← hx]
          have hstep := anchorOk_step ha (e := e.special) (p := e.dst) (caps := c ++ walkEvents off ls)
          have hval : ∀ {n1 r1}, N.FstN (slotEnd k) e.dst n1
              (⟨off, rest, c ++ walkEvents off ls ++ walkEvents off [e.special]⟩ : Cfg α) r1 →
              PropVal N k q0 off rest c (x.extend e) n1 r1 := by
            intro n1 r1 hf
            refine ⟨ls ++ [e.special], ?_, ?_, ?_⟩
            · rw [extend_state]; exact .tail hw hedge
            · rw [extend_state]; exact hye
            · rw [extend_state, walkEvents_append, ← List.append_assoc]; exact hf
          rcases fstN_cons hF with ⟨g1, m, g2, g3⟩ | ⟨d1, g1, g2⟩
          · -- anchor fails
            have hna : ¬ AnchorOk off rest (x.extend e) := by
              rcases hstep with ⟨_, h⟩ | ⟨h, _⟩
              · exact h
              · rw [show epsStep e.special _ = none from g1] at h; simp at h
            have hR := hR1 hna
            refine (h3 ls m r ha (fun e he => hes e (by simp [he])) hw hx g3 ?_).before
              (fun u hu hau => absurd hau (hR u hu)) (fun _ u hu hau => absurd hau (hR u hu))
            rw [hout1]
            intro u hu hau
            rcases List.mem_append.mp hu with hu | hu
            · exact hmono (by omega) u hu hau
            · exact absurd hau (hR u hu)
          · have hya : AnchorOk off rest (x.extend e) ∧ d1 = ⟨off, rest, c ++ walkEvents off ls ++ walkEvents off [e.special]⟩ := by
              rcases hstep with ⟨h, _⟩ | ⟨h, h'⟩
              · rw [show epsStep e.special _ = some d1 from g1] at h; simp at h
              · rw [show epsStep e.special _ = some d1 from g1] at h; injection h with h; exact ⟨h', h⟩
            obtain ⟨hya, rfl⟩ := hya
            rcases g2 with ⟨n1, n2, g4, g5, g6⟩ | ⟨y, rfl, g4⟩
            · have hv1 : ∀ u ∈ R1, AnchorOk off rest u → ∃ m, PropVal N k q0 off rest c u m none :=
                hc1 n1 none hya (hval g5) (hmono (by omega))
              refine (h3 ls n2 r ha (fun e he => hes e (by simp [he])) hw hx g6 ?_).before
                (fun u hu hau _ => hv1 u hu hau) (fun _ u hu hau => hv1 u hu hau)
              rw [hout1]
              intro u hu hau
              rcases List.mem_append.mp hu with hu | hu
              · exact hmono (by omega) u hu hau
              · exact Or.inl (hv1 u hu hau)
            · exact (hc1 n (some y) hya (hval g4) (hmono (Nat.le_refl _))).after R2
    -- the epsilons of the state
    have hsucc : ∃ es : List Eps, N.propSucc x = es.map x.extend ∧
        (∀ e ∈ es, N.HasEdge x.state (.eps e.special) e.dst) ∧
        (N.keepsThread x = true → es = []) ∧
        (N.keepsThread x = false → N.outs x.state = es.map (fun e => (.eps e.special, e.dst))) := by
      unfold NFA.propSucc
      cases hx : N[x.state]? with
      | none => exact ⟨[], rfl, by simp, fun _ => rfl, fun _ => by simp [NFA.outs, hx]⟩
      | some s =>
        refine ⟨s.epsilons, rfl, fun e he => hasEdge_iff.mpr ⟨s, hx, he⟩, fun hk => ?_, fun hk => ?_⟩
        · rcases keeps_rest.mp hk with ⟨a, q, h1⟩ | h1
          · obtain ⟨s', h2, h3⟩ := hasEdge_iff.mp h1
            rw [hx] at h2; injection h2 with h2; subst h2
            rcases hmix s (List.mem_of_getElem? hx) with h4 | h4
            · have : (⟨q, a⟩ : Trans σ) ∈ s.transitions := h3
              rw [h4] at this; simp at this
            · exact h4
          · apply List.eq_nil_iff_forall_not_mem.mpr
            intro e he
            have hq : x.state = N.length - 1 := by omega
            rw [hq] at hx
            exact hsink (.eps e.special) e.dst (hasEdge_iff.mpr ⟨s, hx, he⟩)
        · have : s.transitions = [] := by
            unfold NFA.keepsThread at hk
            rw [hx] at hk
            simpa using (Bool.or_eq_false_iff.mp hk).1
          simp [NFA.outs, hx, State.outs, this]
    obtain ⟨es, hs1, hs2, hs3, hs4⟩ := hsucc
    rw [hs1] at h
    obtain ⟨R, h1, h2, h3⟩ := fold es (out ++ [x]) out' h
    refine ⟨R, by rw [h1]; simp, ?_, ?_⟩
    · intro ha u hu
      rcases List.mem_cons.mp hu with rfl | hu
      · exact ha
      · exact h2 ha u hu
    · intro n r ha hv hl
      by_cases hk : N.keepsThread x = true
      · have := hs3 hk
        subst this
        rw [List.map_nil, List.foldlM_nil] at h
        injection h with h
        have hR : R = [] := by
          rw [h1] at h
          simpa using h
        subst hR
        cases r with
        | none =>
          intro u hu _
          rw [List.mem_singleton.mp hu]; exact ⟨n, hv⟩
        | some y => exact ⟨[], x, [], rfl, hk, ha, ⟨n, hv⟩, by simp⟩
      · have hk' : N.keepsThread x = false := by simpa using hk
        obtain ⟨ls, g1, g2, g3⟩ := hv
        have hq : x.state ≠ N.length - 1 := by
          intro hq
          refine hk (keeps_rest.mpr (Or.inr ?_))
          have := List.length_pos_iff.mpr hne
          omega
        obtain ⟨m, g4, g5⟩ := fstNQ_step hq g3
        rw [hs4 hk'] at g5
        have hlist : Listed N k q0 off rest c (out ++ [x]) m := by
          intro u hu hau
          rcases List.mem_append.mp hu with hu | hu
          · rcases hl u hu hau with h | ⟨m', r', h4, h5⟩
            · exact Or.inl h
            · exact Or.inr ⟨m', r', by omega, h5⟩
          · rw [List.mem_singleton.mp hu]
            exact Or.inr ⟨n, r, by omega, ls, g1, g2, g3⟩
        refine ListVal.before (l' := [x]) (h3 ls m r ha hs2 g1 g2 g5 hlist) ?_ ?_
        · intro u hu _ hku
          rw [List.mem_singleton.mp hu] at hku
          exact absurd hku hk
        · rintro rfl u hu _
          rw [List.mem_singleton.mp hu]
          exact ⟨n, ls, g1, g2, g3⟩

end

end Ere
