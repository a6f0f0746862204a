import Verif.Spec.Captures
import Verif.Spec.Nesting
import Verif.Proofs.TreeSem
import Verif.Spec.Syntax

/-!
# Where the groups of a match lie
-/

namespace Ere

/-- Group numbers and positions of the stretches. -/
def SpansIn (g n lo hi : Nat) (S : List Span) : Prop :=
  ∀ s ∈ S, g ≤ s.group ∧ s.group < g + n ∧ lo ≤ s.lo ∧ s.lo ≤ s.hi ∧ s.hi ≤ hi

theorem SpansIn.mono {g n lo hi g' n' lo' hi' : Nat} {S : List Span} (h : SpansIn g n lo hi S) (h1 : g' ≤ g)
    (h2 : g + n ≤ g' + n') (h3 : lo' ≤ lo) (h4 : hi ≤ hi') : SpansIn g' n' lo' hi' S := by
  intro s hs
  obtain ⟨a, b, c, d, e⟩ := h s hs
  exact ⟨by omega, by omega, by omega, d, by omega⟩

theorem SpansIn.append {g n lo hi : Nat} {S T : List Span} (h : SpansIn g n lo hi S) (h' : SpansIn g n lo hi T) :
    SpansIn g n lo hi (S ++ T) := by
  intro s hs
  rcases List.mem_append.mp hs with hs | hs
  · exact h s hs
  · exact h' s hs

theorem groupsBranches_append (xs ys : List EREBranch) :
    groupsBranches (xs ++ ys) = groupsBranches xs + groupsBranches ys := by
  induction xs with
  | nil => simp [groupsBranches]
  | cons x xs ih => simp only [List.cons_append, groupsBranches, ih]; omega

mutual
theorem CapERE.spans : {e : ERE} → {g : Nat} → {pre mid post : List Char} → {S : List Span} → CapERE e g pre mid post S →
    SpansIn g e.groups (byteLen pre) (byteLen (pre ++ mid)) S
  | _, _, _, _, _, _, .intro (bs1 := bs1) (b := b) (bs2 := bs2) hb h => by
    have := h.spans
    refine this.mono (by omega) ?_ (Nat.le_refl _) (Nat.le_refl _)
    rw [hb]
    simp only [ERE.groups, groupsBranches_append, groupsBranches]
    omega
theorem CapBranch.spans : {b : EREBranch} → {g : Nat} → {pre mid post : List Char} → {S : List Span} →
    CapBranch b g pre mid post S → SpansIn g b.groups (byteLen pre) (byteLen (pre ++ mid)) S
  | _, _, _, _, _, _, .nil => by simp [SpansIn]
  | _, _, _, _, _, _, .cons (p := p) (ps := ps) (pre := pre) (m1 := m1) (m2 := m2) h1 h2 => by
    have i1 := h1.spans
    have i2 := h2.spans
    have hg : (EREBranch.mk (p :: ps)).groups = p.groups + (EREBranch.mk ps).groups := rfl
    rw [hg]
    simp only [byteLen_append] at i1 i2 ⊢
    exact (i1.mono (by omega) (by omega) (by omega) (by omega)).append
      (i2.mono (by omega) (by omega) (by omega) (by omega))
theorem CapPart.spans : {p : EREPart} → {g : Nat} → {pre mid post : List Char} → {S : List Span} →
    CapPart p g pre mid post S → SpansIn g p.groups (byteLen pre) (byteLen (pre ++ mid)) S
  | _, _, _, _, _, _, .single h => h.spans
  | _, _, _, _, _, _, .quantified _ _ h => h.spans
  | _, _, _, _, _, _, .start => by simp [SpansIn]
  | _, _, _, _, _, _, .end_ => by simp [SpansIn]
theorem CapTimes.spans : {e : EREExpr} → {n g : Nat} → {pre mid post : List Char} → {S : List Span} →
    CapTimes e n g pre mid post S → SpansIn g e.groups (byteLen pre) (byteLen (pre ++ mid)) S
  | _, _, _, _, _, _, _, .zero => by simp [SpansIn]
  | _, _, _, _, _, _, _, .succ h1 h2 => by
    have i1 := h1.spans
    have i2 := h2.spans
    simp only [byteLen_append] at i1 i2 ⊢
    exact (i1.mono (by omega) (by omega) (by omega) (by omega)).append
      (i2.mono (by omega) (by omega) (by omega) (by omega))
theorem CapExpr.spans : {e : EREExpr} → {g : Nat} → {pre mid post : List Char} → {S : List Span} →
    CapExpr e g pre mid post S → SpansIn g e.groups (byteLen pre) (byteLen (pre ++ mid)) S
  | _, _, _, _, _, _, .atom _ => by simp [SpansIn]
  | _, _, _, _, _, _, .sub (e := e) (g := g) (pre := pre) (mid := mid) h => by
    have i := h.spans
    have hg : (EREExpr.sub e).groups = 1 + e.groups := rfl
    rw [hg]
    refine (i.mono (by omega) (by omega) (Nat.le_refl _) (Nat.le_refl _)).append ?_
    intro s hs
    rw [List.mem_singleton] at hs
    subst hs
    rw [byteLen_append]
    exact ⟨by dsimp only; omega, by dsimp only; omega, by dsimp only; omega, by dsimp only; omega, by dsimp only; omega⟩
end

/-- Stretches in the order of the group numbers: a group begins after those with smaller numbers, and is inside of
them or behind them; and every group occurs once. -/
structure Ordered (S : List Span) : Prop where
  nodup : (S.map (·.group)).Nodup
  order : ∀ s ∈ S, ∀ t ∈ S, s.group < t.group → s.lo ≤ t.lo ∧ (t.hi ≤ s.hi ∨ s.hi ≤ t.lo)

theorem Ordered.nil : Ordered [] := ⟨by simp, by simp⟩

theorem Ordered.append {g n1 n2 lo mid hi : Nat} {S T : List Span} (hS : SpansIn g n1 lo mid S)
    (hT : SpansIn (g + n1) n2 mid hi T) (h1 : Ordered S) (h2 : Ordered T) : Ordered (S ++ T) := by
  refine ⟨?_, ?_⟩
  · rw [List.map_append, List.nodup_append]
    refine ⟨h1.nodup, h2.nodup, ?_⟩
    intro a ha b hb hab
    obtain ⟨s, hs, rfl⟩ := List.mem_map.mp ha
    obtain ⟨t, ht, rfl⟩ := List.mem_map.mp hb
    have := hS s hs
    have := hT t ht
    omega
  · intro s hs t ht hlt
    rcases List.mem_append.mp hs with hs | hs <;> rcases List.mem_append.mp ht with ht | ht
    · exact h1.order s hs t ht hlt
    · have := hS s hs
      have := hT t ht
      omega
    · have := hS t ht
      have := hT s hs
      omega
    · exact h2.order s hs t ht hlt

theorem CapExpr.empty_of_groups {e : EREExpr} {n g : Nat} {pre mid post : List Char} {S : List Span}
    (h : CapTimes e n g pre mid post S) (hg : e.groups = 0) : S = [] := by
  have := h.spans
  rw [List.eq_nil_iff_forall_not_mem]
  intro s hs
  have := this s hs
  omega

theorem onceBranches_mem {bs1 bs2 : List EREBranch} {b : EREBranch} (h : branchesOnce (bs1 ++ b :: bs2) = true) :
    b.once = true := by
  induction bs1 with
  | nil =>
    simp only [List.nil_append, branchesOnce, Bool.and_eq_true] at h
    exact h.1
  | cons x xs ih =>
    simp only [List.cons_append, branchesOnce, Bool.and_eq_true] at h
    exact ih h.2

mutual
theorem CapERE.ordered : {e : ERE} → {g : Nat} → {pre mid post : List Char} → {S : List Span} → CapERE e g pre mid post S →
    e.once = true → Ordered S
  | _, _, _, _, _, _, .intro hb h, ho => by
    rw [hb] at ho
    exact h.ordered (onceBranches_mem ho)
theorem CapBranch.ordered : {b : EREBranch} → {g : Nat} → {pre mid post : List Char} → {S : List Span} →
    CapBranch b g pre mid post S → b.once = true → Ordered S
  | _, _, _, _, _, _, .nil, _ => Ordered.nil
  | _, _, _, _, _, _, .cons (p := p) (ps := ps) h1 h2, ho => by
    have ho' : (p.once && partsOnce ps) = true := ho
    rw [Bool.and_eq_true] at ho'
    exact Ordered.append h1.spans h2.spans (h1.ordered ho'.1) (h2.ordered ho'.2)
theorem CapPart.ordered : {p : EREPart} → {g : Nat} → {pre mid post : List Char} → {S : List Span} →
    CapPart p g pre mid post S → p.once = true → Ordered S
  | _, _, _, _, _, _, .single h, ho => h.ordered ho
  | _, _, _, _, _, _, .quantified (e := e) (q := q) _ hmax h, ho => by
    have ho' : (e.groups == 0 || (q.q.max.any (· ≤ 1) && e.once)) = true := ho
    rw [Bool.or_eq_true, Bool.and_eq_true] at ho'
    rcases ho' with h0 | ⟨h1, h2⟩
    · rw [CapExpr.empty_of_groups h (by simpa using h0)]
      exact Ordered.nil
    · rw [Option.any_eq_true] at h1
      obtain ⟨m, hm, hm1⟩ := h1
      have := hmax m hm
      exact h.ordered h2 (by simp at hm1; omega)
  | _, _, _, _, _, _, .start, _ => Ordered.nil
  | _, _, _, _, _, _, .end_, _ => Ordered.nil
theorem CapTimes.ordered : {e : EREExpr} → {n g : Nat} → {pre mid post : List Char} → {S : List Span} →
    CapTimes e n g pre mid post S → e.once = true → n ≤ 1 → Ordered S
  | _, _, _, _, _, _, _, .zero, _, _ => Ordered.nil
  | _, _, _, _, _, _, _, .succ h1 .zero, ho, _ => by rw [List.append_nil]; exact h1.ordered ho
  | _, _, _, _, _, _, _, .succ _ (.succ _ _), _, hn => by omega
theorem CapExpr.ordered : {e : EREExpr} → {g : Nat} → {pre mid post : List Char} → {S : List Span} →
    CapExpr e g pre mid post S → e.once = true → Ordered S
  | _, _, _, _, _, _, .atom _, _ => Ordered.nil
  | _, _, _, _, _, _, .sub (e := e) (g := g) (pre := pre) (mid := mid) h, ho => by
    have i := h.spans
    have o := h.ordered ho
    refine ⟨?_, ?_⟩
    · rw [List.map_append, List.nodup_append]
      refine ⟨o.nodup, by simp, ?_⟩
      intro a ha b hb hab
      obtain ⟨s, hs, rfl⟩ := List.mem_map.mp ha
      simp only [List.map_cons, List.map_nil, List.mem_singleton] at hb
      have := i s hs
      omega
    · intro s hs t ht hlt
      rcases List.mem_append.mp hs with hs | hs <;> rcases List.mem_append.mp ht with ht | ht
      · exact o.order s hs t ht hlt
      · rw [List.mem_singleton] at ht
        subst ht
        have := i s hs
        dsimp only at hlt
        omega
      · rw [List.mem_singleton] at hs
        subst hs
        have := i t ht
        exact ⟨by dsimp only; omega, Or.inl (by dsimp only; omega)⟩
      · rw [List.mem_singleton] at hs ht
        subst hs; subst ht
        omega
end

/-- If a group took part, so did every group around it, with a stretch around it. -/
def Enclosed (S : List Span) (N : List (Nat × Nat)) (p : Nat) : Prop :=
  ∀ c q, (c, q) ∈ N → q ≠ p → ∀ s ∈ S, s.group = c → ∃ t ∈ S, t.group = q ∧ t.lo ≤ s.lo ∧ s.hi ≤ t.hi

mutual
theorem ERE.nest_range (p : Nat) : (e : ERE) → (g : Nat) → ∀ x ∈ e.nest p g, g ≤ x.1 ∧ x.1 < g + e.groups
  | .mk bs, g => nestBranches_range p bs g
theorem nestBranches_range (p : Nat) : (bs : List EREBranch) → (g : Nat) →
    ∀ x ∈ nestBranches p bs g, g ≤ x.1 ∧ x.1 < g + groupsBranches bs
  | [], _ => by simp [nestBranches]
  | b :: bs, g => by
    intro x hx
    simp only [nestBranches, List.mem_append] at hx
    simp only [groupsBranches]
    rcases hx with hx | hx
    · have := EREBranch.nest_range p b g x hx; omega
    · have := nestBranches_range p bs _ x hx; omega
theorem EREBranch.nest_range (p : Nat) : (b : EREBranch) → (g : Nat) → ∀ x ∈ b.nest p g, g ≤ x.1 ∧ x.1 < g + b.groups
  | .mk ps, g => nestParts_range p ps g
theorem nestParts_range (p : Nat) : (ps : List EREPart) → (g : Nat) →
    ∀ x ∈ nestParts p ps g, g ≤ x.1 ∧ x.1 < g + groupsParts ps
  | [], _ => by simp [nestParts]
  | b :: bs, g => by
    intro x hx
    simp only [nestParts, List.mem_append] at hx
    simp only [groupsParts]
    rcases hx with hx | hx
    · have := EREPart.nest_range p b g x hx; omega
    · have := nestParts_range p bs _ x hx; omega
theorem EREPart.nest_range (p : Nat) : (b : EREPart) → (g : Nat) → ∀ x ∈ b.nest p g, g ≤ x.1 ∧ x.1 < g + b.groups
  | .single e, g => EREExpr.nest_range p e g
  | .quantified e _, g => EREExpr.nest_range p e g
  | .start, _ => by simp [EREPart.nest]
  | .end_, _ => by simp [EREPart.nest]
theorem EREExpr.nest_range (p : Nat) : (b : EREExpr) → (g : Nat) → ∀ x ∈ b.nest p g, g ≤ x.1 ∧ x.1 < g + b.groups
  | .atom _, _ => by simp [EREExpr.nest]
  | .sub e, g => by
    intro x hx
    simp only [EREExpr.nest, List.mem_cons] at hx
    simp only [EREExpr.groups]
    rcases hx with rfl | hx
    · dsimp only; omega
    · have := ERE.nest_range g e _ x hx; omega
end

theorem nestBranches_append (p : Nat) (xs ys : List EREBranch) (g : Nat) :
    nestBranches p (xs ++ ys) g = nestBranches p xs g ++ nestBranches p ys (g + groupsBranches xs) := by
  induction xs generalizing g with
  | nil => simp [nestBranches, groupsBranches]
  | cons x xs ih => simp only [List.cons_append, nestBranches, ih, groupsBranches, List.append_assoc, Nat.add_assoc]

mutual
theorem CapERE.enclosed : {e : ERE} → {g : Nat} → {pre mid post : List Char} → {S : List Span} → CapERE e g pre mid post S →
    ∀ p, Enclosed S (e.nest p g) p
  | _, _, _, _, _, _, .intro (bs1 := bs1) (b := b) (bs2 := bs2) (g := g) hb h, p => by
    intro c q hm hq s hs hc
    have hr := h.spans s hs
    rw [hb] at hm
    simp only [ERE.nest, nestBranches_append, nestBranches, List.mem_append] at hm
    rcases hm with hm | hm | hm
    · have := nestBranches_range p bs1 g _ hm
      dsimp only at this
      omega
    · exact h.enclosed p c q hm hq s hs hc
    · have := nestBranches_range p bs2 _ _ hm
      dsimp only at this
      omega
theorem CapBranch.enclosed : {b : EREBranch} → {g : Nat} → {pre mid post : List Char} → {S : List Span} →
    CapBranch b g pre mid post S → ∀ p, Enclosed S (b.nest p g) p
  | _, _, _, _, _, _, .nil, _ => by simp [Enclosed]
  | _, _, _, _, _, _, .cons (p := x) (ps := ps) (g := g) h1 h2, p => by
    intro c q hm hq s hs hc
    have hm' : (c, q) ∈ x.nest p g ++ (EREBranch.mk ps).nest p (g + x.groups) := hm
    rw [List.mem_append] at hs hm'
    rcases hm' with hm | hm
    · have hr := EREPart.nest_range p x g _ hm
      rcases hs with hs | hs
      · obtain ⟨t, ht, hg⟩ := h1.enclosed p c q hm hq s hs hc
        exact ⟨t, List.mem_append_left _ ht, hg⟩
      · have := h2.spans s hs
        dsimp only at hr
        omega
    · have hr := EREBranch.nest_range p _ _ _ hm
      rcases hs with hs | hs
      · have := h1.spans s hs
        dsimp only at hr
        omega
      · obtain ⟨t, ht, hg⟩ := h2.enclosed p c q hm hq s hs hc
        exact ⟨t, List.mem_append_right _ ht, hg⟩
theorem CapPart.enclosed : {b : EREPart} → {g : Nat} → {pre mid post : List Char} → {S : List Span} →
    CapPart b g pre mid post S → ∀ p, Enclosed S (b.nest p g) p
  | _, _, _, _, _, _, .single h, p => h.enclosed p
  | _, _, _, _, _, _, .quantified _ _ h, p => h.enclosed p
  | _, _, _, _, _, _, .start, _ => by simp [Enclosed]
  | _, _, _, _, _, _, .end_, _ => by simp [Enclosed]
theorem CapTimes.enclosed : {e : EREExpr} → {n g : Nat} → {pre mid post : List Char} → {S : List Span} →
    CapTimes e n g pre mid post S → ∀ p, Enclosed S (e.nest p g) p
  | _, _, _, _, _, _, _, .zero, _ => by simp [Enclosed]
  | _, _, _, _, _, _, _, .succ h1 h2, p => by
    intro c q hm hq s hs hc
    rcases List.mem_append.mp hs with hs | hs
    · obtain ⟨t, ht, hg⟩ := h1.enclosed p c q hm hq s hs hc
      exact ⟨t, List.mem_append_left _ ht, hg⟩
    · obtain ⟨t, ht, hg⟩ := h2.enclosed p c q hm hq s hs hc
      exact ⟨t, List.mem_append_right _ ht, hg⟩
theorem CapExpr.enclosed : {e : EREExpr} → {g : Nat} → {pre mid post : List Char} → {S : List Span} →
    CapExpr e g pre mid post S → ∀ p, Enclosed S (e.nest p g) p
  | _, _, _, _, _, _, .atom _, _ => by simp [Enclosed]
  | _, _, _, _, _, _, .sub (e := e) (g := g) (pre := pre) (mid := mid) h, p => by
    intro c q hm hq s hs hc
    have hm' : (c, q) ∈ (g, p) :: e.nest g (g + 1) := hm
    rcases List.mem_cons.mp hm' with hm | hm
    · exact absurd (congrArg Prod.snd hm) hq
    · by_cases hqg : q = g
      · refine ⟨⟨g, byteLen pre, byteLen (pre ++ mid)⟩, by simp, hqg.symm, ?_⟩
        rcases List.mem_append.mp hs with hs | hs
        · obtain ⟨_, _, h3, _, h4⟩ := h.spans s hs
          exact ⟨h3, h4⟩
        · rw [List.mem_singleton] at hs
          subst hs
          exact ⟨Nat.le_refl _, Nat.le_refl _⟩
      · have hr := ERE.nest_range g e _ _ hm
        rcases List.mem_append.mp hs with hs | hs
        · obtain ⟨t, ht, hg⟩ := h.enclosed g c q hm hqg s hs hc
          exact ⟨t, List.mem_append_left _ ht, hg⟩
        · rw [List.mem_singleton] at hs
          subst hs
          dsimp only at hc hr
          omega
end

/-! ## The reported stretches -/

theorem lastSpan_mem {S : List Span} {g a b : Nat} (h : lastSpan S g = some (a, b)) : ⟨g, a, b⟩ ∈ S := by
  unfold lastSpan at h
  rw [Option.map_eq_some_iff] at h
  obtain ⟨s, h1, h2⟩ := h
  have h3 := List.mem_of_find?_eq_some h1
  have h4 := List.find?_some h1
  rw [List.mem_reverse] at h3
  obtain ⟨k, x, y⟩ := s
  simp only [Prod.mk.injEq, beq_iff_eq] at h2 h4
  obtain ⟨rfl, rfl⟩ := h2
  subst h4
  exact h3

theorem lastSpan_isSome {S : List Span} {g : Nat} (h : ∃ s ∈ S, s.group = g) : ∃ p, lastSpan S g = some p := by
  obtain ⟨s, hs, hg⟩ := h
  unfold lastSpan
  have : (S.reverse.find? (fun s => s.group == g)).isSome = true := by
    rw [List.find?_isSome]
    exact ⟨s, by simpa using hs, by simp [hg]⟩
  obtain ⟨t, ht⟩ := Option.isSome_iff_exists.mp this
  exact ⟨(t.lo, t.hi), by rw [ht]; rfl⟩

/-- All stretches of a match lie in the stretch of group 0, which lies in the text. -/
theorem captures_spans {e : ERE} {text : List Char} {S : List Span} (h : e.Captures text S) :
    ∃ i j, lastSpan S 0 = some (i, j) ∧ i ≤ j ∧ j ≤ byteLen text ∧
      ∀ s ∈ S, i ≤ s.lo ∧ s.lo ≤ s.hi ∧ s.hi ≤ j := by
  obtain ⟨pre, mid, post, S', ht, hc, hS⟩ := h
  have hs := hc.spans
  refine ⟨byteLen pre, byteLen (pre ++ mid), ?_, by rw [byteLen_append]; omega,
    by rw [ht, byteLen_append (pre ++ mid)]; omega, ?_⟩
  · rw [hS]; simp [lastSpan]
  · intro s h1
    rw [hS] at h1
    rcases List.mem_append.mp h1 with h1 | h1
    · have := hs s h1; omega
    · rw [List.mem_singleton] at h1
      subst h1
      exact ⟨Nat.le_refl _, by rw [byteLen_append]; dsimp only; omega, Nat.le_refl _⟩

/-- The stretches of a match are in order if no group is repeated. -/
theorem captures_order {e : ERE} {text : List Char} {S : List Span} (h : e.Captures text S) (ho : e.once = true) :
    ∀ k l a b c d, k < l → lastSpan S k = some (a, b) → lastSpan S l = some (c, d) →
      a ≤ c ∧ (d ≤ b ∨ b ≤ c) := by
  intro k l a b c d hkl hk hl
  have hk' := lastSpan_mem hk
  have hl' := lastSpan_mem hl
  obtain ⟨i, j, h0, _, _, hall⟩ := captures_spans h
  obtain ⟨pre, mid, post, S', ht, hc, hS⟩ := h
  have hs := hc.spans
  have := hc.ordered ho
  rw [hS] at hk' hl'
  rcases List.mem_append.mp hk' with hk1 | hk1 <;> rcases List.mem_append.mp hl' with hl1 | hl1
  · exact this.order _ hk1 _ hl1 hkl
  · rw [List.mem_singleton] at hl1
    have := congrArg Span.group hl1
    dsimp only at this
    omega
  · rw [List.mem_singleton] at hk1
    have h1 := congrArg Span.lo hk1
    have h2 := congrArg Span.hi hk1
    have := hs _ hl1
    dsimp only at h1 h2 this
    omega
  · rw [List.mem_singleton] at hl1
    have := congrArg Span.group hl1
    dsimp only at this
    omega

/-- Every stretch of a group is inside of a stretch of the group around it. -/
theorem captures_around {e : ERE} {text : List Char} {S : List Span} (h : e.Captures text S) {c q : Nat}
    (hn : (c, q) ∈ e.nest 0 1) : ∀ s ∈ S, s.group = c → ∃ t ∈ S, t.group = q ∧ t.lo ≤ s.lo ∧ s.hi ≤ t.hi := by
  intro s hs hc
  obtain ⟨i, j, h0, _, _, hall⟩ := captures_spans h
  by_cases hq : q = 0
  · obtain ⟨h1, _, h2⟩ := hall s hs
    exact ⟨_, lastSpan_mem h0, hq.symm, h1, h2⟩
  obtain ⟨pre, mid, post, S', ht, hcap, hS⟩ := h
  have hr := ERE.nest_range 0 e 1 _ hn
  rw [hS] at hs ⊢
  rcases List.mem_append.mp hs with hm | hm
  · obtain ⟨t, ht, hg⟩ := hcap.enclosed 0 c q hn hq s hm hc
    exact ⟨t, List.mem_append_left _ ht, hg⟩
  · rw [List.mem_singleton] at hm
    have := congrArg Span.group hm
    dsimp only at this hr
    omega

/-- A group takes part only if the groups around it do. -/
theorem captures_enclosed {e : ERE} {text : List Char} {S : List Span} (h : e.Captures text S) {c q : Nat}
    (hn : (c, q) ∈ e.nest 0 1) (hc : ∃ p, lastSpan S c = some p) : ∃ p, lastSpan S q = some p := by
  obtain ⟨⟨a, b⟩, hc⟩ := hc
  obtain ⟨t, ht, hg, _⟩ := captures_around h hn _ (lastSpan_mem hc) rfl
  exact lastSpan_isSome ⟨t, ht, hg⟩

theorem nodup_group {S : List Span} (h : (S.map (·.group)).Nodup) {s t : Span} (hs : s ∈ S) (ht : t ∈ S)
    (hg : s.group = t.group) : s = t := by
  induction S with
  | nil => simp at hs
  | cons x xs ih =>
    rw [List.map_cons, List.nodup_cons] at h
    rcases List.mem_cons.mp hs with hs' | hs' <;> rcases List.mem_cons.mp ht with ht' | ht'
    · rw [hs', ht']
    · exact absurd (List.mem_map.mpr ⟨t, ht', by rw [← hg, hs']⟩) h.1
    · exact absurd (List.mem_map.mpr ⟨s, hs', by rw [hg, ht']⟩) h.1
    · exact ih h.2 hs' ht'

/-- If no group is repeated, a group lies inside of the group around it. -/
theorem captures_nested {e : ERE} {text : List Char} {S : List Span} (h : e.Captures text S) (ho : e.once = true) {c q : Nat}
    (hn : (c, q) ∈ e.nest 0 1) {a b : Nat} (hc : lastSpan S c = some (a, b)) :
    ∃ i j, lastSpan S q = some (i, j) ∧ i ≤ a ∧ b ≤ j := by
  obtain ⟨⟨i, j⟩, hq⟩ := captures_enclosed h hn ⟨_, hc⟩
  obtain ⟨t, ht, hg, h1, h2⟩ := captures_around h hn _ (lastSpan_mem hc) rfl
  have hm := lastSpan_mem hq
  have hu : t = ⟨q, i, j⟩ := by
    obtain ⟨pre, mid, post, S', _, hcap, hS⟩ := h
    have hs := hcap.spans
    have hd := (hcap.ordered ho).nodup
    refine nodup_group ?_ ht hm hg
    rw [hS, List.map_append, List.nodup_append]
    refine ⟨hd, by simp, ?_⟩
    intro x hx y hy hxy
    obtain ⟨s, hs', rfl⟩ := List.mem_map.mp hx
    have := hs s hs'
    simp only [List.map_cons, List.map_nil, List.mem_singleton] at hy
    omega
  rw [hu] at h1 h2
  exact ⟨i, j, hq, h1, h2⟩

/-! ## Taking out `^` changes nothing -/

mutual
theorem ERE.dropStart_groups : (e : ERE) → e.dropStart.groups = e.groups
  | .mk bs => branchesDropStart_groups bs
theorem branchesDropStart_groups : (bs : List EREBranch) → groupsBranches (branchesDropStart bs) = groupsBranches bs
  | [] => rfl
  | b :: bs => by
    simp only [branchesDropStart, groupsBranches, EREBranch.dropStart_groups b, branchesDropStart_groups bs]
theorem EREBranch.dropStart_groups : (b : EREBranch) → b.dropStart.groups = b.groups
  | .mk ps => partsDropStart_groups ps
theorem partsDropStart_groups : (ps : List EREPart) → groupsParts (partsDropStart ps) = groupsParts ps
  | [] => rfl
  | .single e :: ps => by
    simp only [partsDropStart, EREPart.dropStart, List.cons_append, List.nil_append, groupsParts, EREPart.groups,
      EREExpr.dropStart_groups e, partsDropStart_groups ps]
  | .quantified e _ :: ps => by
    simp only [partsDropStart, EREPart.dropStart, List.cons_append, List.nil_append, groupsParts, EREPart.groups,
      EREExpr.dropStart_groups e, partsDropStart_groups ps]
  | .start :: ps => by
    simp only [partsDropStart, EREPart.dropStart, List.nil_append, groupsParts, EREPart.groups,
      partsDropStart_groups ps, Nat.zero_add]
  | .end_ :: ps => by
    simp only [partsDropStart, EREPart.dropStart, List.cons_append, List.nil_append, groupsParts, EREPart.groups,
      partsDropStart_groups ps]
theorem EREExpr.dropStart_groups : (e : EREExpr) → e.dropStart.groups = e.groups
  | .atom _ => rfl
  | .sub e => by simp only [EREExpr.dropStart, EREExpr.groups, ERE.dropStart_groups e]
end

mutual
theorem ERE.dropStart_once : (e : ERE) → e.dropStart.once = e.once
  | .mk bs => branchesDropStart_once bs
theorem branchesDropStart_once : (bs : List EREBranch) → branchesOnce (branchesDropStart bs) = branchesOnce bs
  | [] => rfl
  | b :: bs => by
    simp only [branchesDropStart, branchesOnce, EREBranch.dropStart_once b, branchesDropStart_once bs]
theorem EREBranch.dropStart_once : (b : EREBranch) → b.dropStart.once = b.once
  | .mk ps => partsDropStart_once ps
theorem partsDropStart_once : (ps : List EREPart) → partsOnce (partsDropStart ps) = partsOnce ps
  | [] => rfl
  | .single e :: ps => by
    simp only [partsDropStart, EREPart.dropStart, List.cons_append, List.nil_append, partsOnce, EREPart.once,
      EREExpr.dropStart_once e, partsDropStart_once ps]
  | .quantified e _ :: ps => by
    simp only [partsDropStart, EREPart.dropStart, List.cons_append, List.nil_append, partsOnce, EREPart.once,
      EREExpr.dropStart_once e, EREExpr.dropStart_groups e, partsDropStart_once ps]
  | .start :: ps => by
    simp only [partsDropStart, EREPart.dropStart, List.nil_append, partsOnce, EREPart.once,
      partsDropStart_once ps, Bool.true_and]
  | .end_ :: ps => by
    simp only [partsDropStart, EREPart.dropStart, List.cons_append, List.nil_append, partsOnce, EREPart.once,
      partsDropStart_once ps]
theorem EREExpr.dropStart_once : (e : EREExpr) → e.dropStart.once = e.once
  | .atom _ => rfl
  | .sub e => by simp only [EREExpr.dropStart, EREExpr.once, ERE.dropStart_once e]
end

mutual
theorem ERE.dropStart_nest (p : Nat) : (e : ERE) → (g : Nat) → e.dropStart.nest p g = e.nest p g
  | .mk bs, g => branchesDropStart_nest p bs g
theorem branchesDropStart_nest (p : Nat) : (bs : List EREBranch) → (g : Nat) →
    nestBranches p (branchesDropStart bs) g = nestBranches p bs g
  | [], _ => rfl
  | b :: bs, g => by
    simp only [branchesDropStart, nestBranches, EREBranch.dropStart_nest p b, EREBranch.dropStart_groups b,
      branchesDropStart_nest p bs]
theorem EREBranch.dropStart_nest (p : Nat) : (b : EREBranch) → (g : Nat) → b.dropStart.nest p g = b.nest p g
  | .mk ps, g => partsDropStart_nest p ps g
theorem partsDropStart_nest (p : Nat) : (ps : List EREPart) → (g : Nat) →
    nestParts p (partsDropStart ps) g = nestParts p ps g
  | [], _ => rfl
  | .single e :: ps, g => by
    simp only [partsDropStart, EREPart.dropStart, List.cons_append, List.nil_append, nestParts, EREPart.nest,
      EREPart.groups, EREExpr.dropStart_nest p e, EREExpr.dropStart_groups e, partsDropStart_nest p ps]
  | .quantified e _ :: ps, g => by
    simp only [partsDropStart, EREPart.dropStart, List.cons_append, List.nil_append, nestParts, EREPart.nest,
      EREPart.groups, EREExpr.dropStart_nest p e, EREExpr.dropStart_groups e, partsDropStart_nest p ps]
  | .start :: ps, g => by
    simp only [partsDropStart, EREPart.dropStart, List.nil_append, nestParts, EREPart.nest, EREPart.groups,
      partsDropStart_nest p ps, Nat.add_zero]
  | .end_ :: ps, g => by
    simp only [partsDropStart, EREPart.dropStart, List.cons_append, List.nil_append, nestParts, EREPart.nest,
      EREPart.groups, partsDropStart_nest p ps]
theorem EREExpr.dropStart_nest (p : Nat) : (e : EREExpr) → (g : Nat) → e.dropStart.nest p g = e.nest p g
  | .atom _, _ => rfl
  | .sub e, g => by simp only [EREExpr.dropStart, EREExpr.nest, ERE.dropStart_nest g e]
end

end Ere
