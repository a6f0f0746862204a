import Verif.Proofs.FirstAnchors
import Verif.Proofs.FirstBytes

/-! The preferred match and the flat engine. -/

namespace Ere
variable {σ α : Type}

/-! ### The preferred match is a match -/

/-- What a way to match achieves. -/
def Got (C : List Char → List Char → List Char → List Span → Prop) (pre : List Char) (p p1 : Pos) : Prop :=
  ∃ mid S, p.rest = mid ++ p1.rest ∧ p1.off = byteLen (pre ++ mid) ∧ p1.spans = p.spans ++ S ∧ C pre mid p1.rest S

theorem times_sound {e : EREExpr} {g} (ih : ∀ pre p p1, p.off = byteLen pre → p1 ∈ tryExpr e g p → Got (CapExpr e g) pre p p1) :
    ∀ n pre p p1, p.off = byteLen pre → p1 ∈ times (tryExpr e g) n p → Got (CapTimes e n g) pre p p1
  | 0, pre, p, p1, h, hm => by
    simp only [times, List.mem_singleton] at hm
    subst hm
    exact ⟨[], [], rfl, by simpa using h, by simp, .zero⟩
  | n + 1, pre, p, p1, h, hm => by
    simp only [times, List.mem_flatMap] at hm
    obtain ⟨p2, h1, h2⟩ := hm
    obtain ⟨m1, S1, a1, a2, a3, a4⟩ := ih pre p p2 h h1
    obtain ⟨m2, S2, b1, b2, b3, b4⟩ := times_sound ih n (pre ++ m1) p2 p1 a2 h2
    refine ⟨m1 ++ m2, S1 ++ S2, by rw [a1, b1, List.append_assoc], by rw [b2, List.append_assoc],
      by rw [b3, a3, List.append_assoc], ?_⟩
    rw [b1] at a4
    exact .succ a4 b4

theorem optTimes_sound {e : EREExpr} {g lg} (ih : ∀ pre p p1, p.off = byteLen pre → p1 ∈ tryExpr e g p → Got (CapExpr e g) pre p p1) :
    ∀ n pre p p1, p.off = byteLen pre → p1 ∈ optTimes (tryExpr e g) lg n p → ∃ k, k ≤ n ∧ Got (CapTimes e k g) pre p p1 := by
  intro n
  induction n with
  | zero =>
    intro pre p p1 h hm
    simp only [optTimes, List.mem_singleton] at hm
    subst hm
    exact ⟨0, Nat.le_refl _, [], [], rfl, by simpa using h, by simp, .zero⟩
  | succ n ihn =>
    intro pre p p1 h hm
    have hm : p1 = p ∨ p1 ∈ (tryExpr e g p).flatMap (optTimes (tryExpr e g) lg n) := by
      rw [optTimes] at hm
      split at hm
      · simp only [List.mem_append, List.mem_singleton] at hm; exact hm.symm
      · simpa only [List.mem_cons] using hm
    rcases hm with rfl | hm
    · exact ⟨0, by omega, [], [], rfl, by simpa using h, by simp, .zero⟩
    · obtain ⟨p2, h1, h2⟩ := List.mem_flatMap.mp hm
      obtain ⟨m1, S1, a1, a2, a3, a4⟩ := ih pre p p2 h h1
      obtain ⟨k, hk, m2, S2, b1, b2, b3, b4⟩ := ihn (pre ++ m1) p2 p1 a2 h2
      refine ⟨k + 1, by omega, m1 ++ m2, S1 ++ S2, by rw [a1, b1, List.append_assoc], by rw [b2, List.append_assoc],
        by rw [b3, a3, List.append_assoc], ?_⟩
      rw [b1] at a4
      exact .succ a4 b4

theorem capTimes_add {e : EREExpr} {g} : ∀ {n k pre m1 m2 post S1 S2}, CapTimes e n g pre m1 (m2 ++ post) S1 →
    CapTimes e k g (pre ++ m1) m2 post S2 → CapTimes e (n + k) g pre (m1 ++ m2) post (S1 ++ S2)
  | 0, k, pre, m1, m2, post, S1, S2, h1, h2 => by
    cases h1
    rw [Nat.zero_add]
    simpa using h2
  | n + 1, k, pre, m1, m2, post, S1, S2, h1, h2 => by
    cases h1 with
    | @succ _ _ _ _ a b _ Sa Sb ha hb =>
      rw [show n + 1 + k = (n + k) + 1 by omega, List.append_assoc, List.append_assoc]
      refine .succ (by rw [List.append_assoc]; exact ha) (capTimes_add hb ?_)
      rw [List.append_assoc]; exact h2

mutual
theorem tryERE_sound : (e : ERE) → ∀ g pre p p1, p.off = byteLen pre → p1 ∈ tryERE e g p → Got (CapERE e g) pre p p1
  | .mk bs, g, pre, p, p1, h, hm => by
    rw [tryERE] at hm
    obtain ⟨bs1, b, bs2, h1, mid, S, a1, a2, a3, a4⟩ := tryBranches_sound bs g pre p p1 h hm
    exact ⟨mid, S, a1, a2, a3, .intro h1 a4⟩
theorem tryBranches_sound : (bs : List EREBranch) → ∀ g pre p p1, p.off = byteLen pre → p1 ∈ tryBranches bs g p →
    ∃ bs1 b bs2, bs = bs1 ++ b :: bs2 ∧ Got (CapBranch b (g + groupsBranches bs1)) pre p p1
  | [], g, pre, p, p1, h, hm => by simp [tryBranches] at hm
  | b :: bs, g, pre, p, p1, h, hm => by
    rw [tryBranches, List.mem_append] at hm
    rcases hm with hm | hm
    · exact ⟨[], b, bs, rfl, tryBranch_sound b g pre p p1 h hm⟩
    · obtain ⟨bs1, b', bs2, h1, h2⟩ := tryBranches_sound bs _ pre p p1 h hm
      refine ⟨b :: bs1, b', bs2, by rw [h1]; rfl, ?_⟩
      rwa [groupsBranches, ← Nat.add_assoc]
theorem tryBranch_sound : (b : EREBranch) → ∀ g pre p p1, p.off = byteLen pre → p1 ∈ tryBranch b g p →
    Got (CapBranch b g) pre p p1
  | .mk ps, g, pre, p, p1, h, hm => by rw [tryBranch] at hm; exact tryParts_sound ps g pre p p1 h hm
theorem tryParts_sound : (ps : List EREPart) → ∀ g pre p p1, p.off = byteLen pre → p1 ∈ tryParts ps g p →
    Got (CapBranch (.mk ps) g) pre p p1
  | [], g, pre, p, p1, h, hm => by
    simp only [tryParts, List.mem_singleton] at hm
    subst hm
    exact ⟨[], [], rfl, by simpa using h, by simp, .nil⟩
  | x :: ps, g, pre, p, p1, h, hm => by
    rw [tryParts, List.mem_flatMap] at hm
    obtain ⟨p2, h1, h2⟩ := hm
    obtain ⟨m1, S1, a1, a2, a3, a4⟩ := tryPart_sound x g pre p p2 h h1
    obtain ⟨m2, S2, b1, b2, b3, b4⟩ := tryParts_sound ps _ (pre ++ m1) p2 p1 a2 h2
    refine ⟨m1 ++ m2, S1 ++ S2, by rw [a1, b1, List.append_assoc], by rw [b2, List.append_assoc],
      by rw [b3, a3, List.append_assoc], ?_⟩
    rw [b1] at a4
    exact .cons a4 b4
theorem tryPart_sound : (x : EREPart) → ∀ g pre p p1, p.off = byteLen pre → p1 ∈ tryPart x g p →
    Got (CapPart x g) pre p p1
  | .single e, g, pre, p, p1, h, hm => by
    rw [tryPart] at hm
    obtain ⟨mid, S, a1, a2, a3, a4⟩ := tryExpr_sound e g pre p p1 h hm
    exact ⟨mid, S, a1, a2, a3, .single a4⟩
  | .quantified e q, g, pre, p, p1, h, hm => by
    rw [tryPart, List.mem_flatMap] at hm
    obtain ⟨p2, h1, h2⟩ := hm
    obtain ⟨m1, S1, a1, a2, a3, a4⟩ := times_sound (fun pre p p1 => tryExpr_sound e g pre p p1) _ pre p p2 h h1
    have hk : ∃ k, (∀ m, q.q.max = some m → q.q.min + k ≤ m) ∧ Got (CapTimes e k g) (pre ++ m1) p2 p1 := by
      split at h2
      · rename_i hq
        obtain ⟨k, _, hk⟩ := optTimes_sound (fun pre p p1 => tryExpr_sound e g pre p p1) _ (pre ++ m1) p2 p1 a2 h2
        exact ⟨k, by rw [hq]; simp, hk⟩
      · rename_i m hq
        split at h2
        · simp at h2
        · obtain ⟨k, hk1, hk⟩ := optTimes_sound (fun pre p p1 => tryExpr_sound e g pre p p1) _ (pre ++ m1) p2 p1 a2 h2
          refine ⟨k, ?_, hk⟩
          intro m' hm'
          rw [hq] at hm'
          injection hm' with hm'
          omega
    obtain ⟨k, hk, m2, S2, b1, b2, b3, b4⟩ := hk
    refine ⟨m1 ++ m2, S1 ++ S2, by rw [a1, b1, List.append_assoc], by rw [b2, List.append_assoc],
      by rw [b3, a3, List.append_assoc], ?_⟩
    rw [b1] at a4
    exact .quantified (by omega) hk (capTimes_add a4 b4)
  | .start, g, pre, p, p1, h, hm => by
    rw [tryPart] at hm
    split at hm
    · rename_i h0
      simp only [List.mem_singleton] at hm
      subst hm
      have : pre = [] := byteLen_eq_zero.mp (by rw [← h, h0])
      subst this
      exact ⟨[], [], rfl, by simpa using h, by simp, .start⟩
    · simp at hm
  | .end_, g, pre, p, p1, h, hm => by
    rw [tryPart] at hm
    split at hm
    · rename_i h0
      simp only [List.mem_singleton] at hm
      subst hm
      have : p1.rest = [] := by simpa using h0
      exact ⟨[], [], rfl, by simpa using h, by simp, by rw [this]; exact .end_⟩
    · simp at hm
theorem tryExpr_sound : (e : EREExpr) → ∀ g pre p p1, p.off = byteLen pre → p1 ∈ tryExpr e g p →
    Got (CapExpr e g) pre p p1
  | .atom a, g, pre, p, p1, h, hm => by
    rw [tryExpr] at hm
    split at hm
    · simp at hm
    · rename_i c r hr
      split at hm
      · rename_i hc
        simp only [List.mem_singleton] at hm
        subst hm
        refine ⟨[c], [], by simpa using hr, ?_, by simp, .atom hc⟩
        rw [byteLen_append, ← h]; simp [byteLen]
      · simp at hm
  | .sub e, g, pre, p, p1, h, hm => by
    rw [tryExpr, List.mem_map] at hm
    obtain ⟨p2, h1, rfl⟩ := hm
    obtain ⟨mid, S, a1, a2, a3, a4⟩ := tryERE_sound e (g + 1) pre p p2 h h1
    refine ⟨mid, S ++ [⟨g, p.off, p2.off⟩], a1, a2, by simp [a3], ?_⟩
    rw [h, a2]
    exact .sub a4
end

theorem firstFrom_sound (e : ERE) : ∀ (rest pre : List Char) (S), e.firstFrom (byteLen pre) rest = some S →
    e.Captures (pre ++ rest) S := by
  have key : ∀ pre rest p, (tryERE e 1 ⟨byteLen pre, rest, []⟩).head? = some p →
      e.Captures (pre ++ rest) (p.spans ++ [⟨0, byteLen pre, p.off⟩]) := by
    intro pre rest p h
    obtain ⟨mid, S, a1, a2, a3, a4⟩ := tryERE_sound e 1 pre ⟨byteLen pre, rest, []⟩ p rfl (List.mem_of_mem_head? h)
    refine ⟨pre, mid, p.rest, S, by rw [List.append_assoc, ← a1], a4, ?_⟩
    rw [a3, a2]; rfl
  intro rest
  induction rest with
  | nil =>
    intro pre S h
    rw [ERE.firstFrom, Option.map_eq_some_iff] at h
    obtain ⟨p, h1, rfl⟩ := h
    exact key pre [] p h1
  | cons c r ih =>
    intro pre S h
    rw [ERE.firstFrom] at h
    split at h
    · rename_i p hp
      injection h with h
      subst h
      exact key pre (c :: r) p hp
    · have := ih (pre ++ [c]) S (by rw [byteLen_append]; simpa [byteLen] using h)
      simpa using this

/-- The preferred match is a match. -/
theorem first_captures {e : ERE} {text : List Char} {S} (h : e.first text = some S) : e.Captures text S :=
  firstFrom_sound e text [] S h

/-! ### Every match is listed -/

mutual
theorem nullable_ERE : {e : ERE} → ∀ {g pre post S}, CapERE e g pre [] post S → e.nullable = true
  | .mk bs, g, pre, post, S, h => by
    cases h with
    | @intro _ bs1 b bs2 _ _ _ _ _ h1 h2 =>
      rw [ERE.nullable]
      exact nullable_branches bs (b := b) (by rw [h1]; simp) h2
theorem nullable_branches : (bs : List EREBranch) → ∀ {b}, b ∈ bs → ∀ {g pre post S}, CapBranch b g pre [] post S →
    nullableBranches bs = true
  | [], b, hb, _, _, _, _, _ => by simp at hb
  | b' :: bs, b, hb, g, pre, post, S, h => by
    rw [nullableBranches]
    rcases List.mem_cons.mp hb with h1 | hb
    · rw [h1] at h
      rw [nullable_branch (b := b') h]; rfl
    · rw [nullable_branches bs hb h]; simp
theorem nullable_branch : {b : EREBranch} → ∀ {g pre post S}, CapBranch b g pre [] post S → b.nullable = true
  | .mk ps, g, pre, post, S, h => by rw [EREBranch.nullable]; exact nullable_parts ps h
theorem nullable_parts : (ps : List EREPart) → ∀ {g pre post S}, CapBranch (.mk ps) g pre [] post S → nullableParts ps = true
  | [], g, pre, post, S, h => rfl
  | p :: ps, g, pre, post, S, h => by
    generalize hm : ([] : List Char) = mid at h
    cases h with
    | cons h1 h2 =>
      obtain ⟨rfl, rfl⟩ := List.append_eq_nil_iff.mp hm.symm
      rw [nullableParts, nullable_part h1, nullable_parts ps h2]; rfl
theorem nullable_part : {p : EREPart} → ∀ {g pre post S}, CapPart p g pre [] post S → p.nullable = true
  | .single e, g, pre, post, S, h => by
    cases h with
    | single h => rw [EREPart.nullable]; exact nullable_expr h
  | .quantified e q, g, pre, post, S, h => by
    cases h with
    | quantified h1 h2 h =>
      rw [EREPart.nullable]
      generalize hm : ([] : List Char) = mid at h
      cases h with
      | zero =>
        have : q.q.min = 0 := by omega
        simp [this]
      | succ h3 h4 =>
        obtain ⟨rfl, rfl⟩ := List.append_eq_nil_iff.mp hm.symm
        rw [nullable_expr h3]; simp
  | .start, _, _, _, _, _ => rfl
  | .end_, _, _, _, _, _ => rfl
theorem nullable_expr : {e : EREExpr} → ∀ {g pre post S}, CapExpr e g pre [] post S → e.nullable = true
  | .atom a, g, pre, post, S, h => by
    generalize hm : ([] : List Char) = mid at h
    cases h
    simp at hm
  | .sub e, g, pre, post, S, h => by
    cases h with
    | sub h => rw [EREExpr.nullable]; exact nullable_ERE h
end

/-- Every way to match that a specification allows is listed. -/
def Lists (C : List Char → List Char → List Char → List Span → Prop) (L : Pos → List Pos) : Prop :=
  ∀ pre mid post S S0, C pre mid post S → (⟨byteLen (pre ++ mid), post, S0 ++ S⟩ : Pos) ∈ L ⟨byteLen pre, mid ++ post, S0⟩

theorem times_lists {e : EREExpr} {g} (ih : Lists (CapExpr e g) (tryExpr e g)) : ∀ n, Lists (CapTimes e n g) (times (tryExpr e g) n)
  | 0, pre, mid, post, S, S0, h => by
    cases h
    simp [times]
  | n + 1, pre, mid, post, S, S0, h => by
    cases h with
    | @succ _ _ _ _ m1 m2 _ S1 S2 h1 h2 =>
      rw [times, List.mem_flatMap]
      refine ⟨_, by have := ih _ _ _ _ S0 h1; rwa [← List.append_assoc] at this, ?_⟩
      have := times_lists ih n _ _ _ _ (S0 ++ S1) h2
      rwa [List.append_assoc, List.append_assoc] at this

theorem mem_optTimes {γ : Type} {L : γ → List γ} {lg : Bool} {n : Nat} {p p1 : γ} :
    p1 ∈ optTimes L lg (n + 1) p ↔ p1 = p ∨ p1 ∈ (L p).flatMap (optTimes L lg n) := by
  rw [optTimes]
  split
  · simp only [List.mem_append, List.mem_singleton]; exact or_comm
  · simp only [List.mem_cons]

theorem optTimes_lists {e : EREExpr} {g lg} (ih : Lists (CapExpr e g) (tryExpr e g)) : ∀ n k, k ≤ n →
    Lists (CapTimes e k g) (optTimes (tryExpr e g) lg n)
  | n, 0, _, pre, mid, post, S, S0, h => by
    cases h
    cases n with
    | zero => simp [optTimes]
    | succ n => exact mem_optTimes.mpr (Or.inl (by simp))
  | n + 1, k + 1, hk, pre, mid, post, S, S0, h => by
    cases h with
    | @succ _ _ _ _ m1 m2 _ S1 S2 h1 h2 =>
      rw [mem_optTimes, List.mem_flatMap]
      refine Or.inr ⟨_, by have := ih _ _ _ _ S0 h1; rwa [← List.append_assoc] at this, ?_⟩
      have := optTimes_lists (lg := lg) ih n k (by omega) _ _ _ _ (S0 ++ S1) h2
      rwa [List.append_assoc, List.append_assoc] at this

theorem capTimes_split {e : EREExpr} {g} : ∀ {n k pre mid post S}, CapTimes e (n + k) g pre mid post S →
    ∃ m1 m2 S1 S2, mid = m1 ++ m2 ∧ S = S1 ++ S2 ∧ CapTimes e n g pre m1 (m2 ++ post) S1 ∧
      CapTimes e k g (pre ++ m1) m2 post S2
  | 0, k, pre, mid, post, S, h => ⟨[], mid, [], S, rfl, rfl, .zero, by rw [Nat.zero_add] at h; simpa using h⟩
  | n + 1, k, pre, mid, post, S, h => by
    rw [show n + 1 + k = (n + k) + 1 by omega] at h
    cases h with
    | @succ _ _ _ _ a b _ Sa Sb h1 h2 =>
      obtain ⟨m1, m2, S1, S2, rfl, rfl, h3, h4⟩ := capTimes_split h2
      refine ⟨a ++ m1, m2, Sa ++ S1, S2, by simp, by simp, .succ (by rw [← List.append_assoc]; exact h1) h3, ?_⟩
      rw [← List.append_assoc]; exact h4

theorem capTimes_length {e : EREExpr} {g} (he : e.nullable = false) : ∀ {n pre mid post S}, CapTimes e n g pre mid post S → n ≤ mid.length
  | 0, _, _, _, _, _ => Nat.zero_le _
  | n + 1, pre, mid, post, S, h => by
    cases h with
    | @succ _ _ _ _ m1 m2 _ S1 S2 h1 h2 =>
      have := capTimes_length he h2
      have h3 : m1 ≠ [] := by
        rintro rfl
        rw [nullable_expr h1] at he; simp at he
      have := List.length_pos_iff.mpr h3
      rw [List.length_append]; omega

mutual
theorem tryERE_lists : (e : ERE) → e.progress = true → ∀ g, Lists (CapERE e g) (tryERE e g)
  | .mk bs, hp, g, pre, mid, post, S, S0, h => by
    rw [ERE.progress] at hp
    cases h with
    | @intro _ bs1 b bs2 _ _ _ _ _ h1 h2 =>
      rw [tryERE]
      exact tryBranches_lists bs hp g pre mid post S S0 bs1 b bs2 h1 h2
theorem tryBranches_lists : (bs : List EREBranch) → progressBranches bs = true → ∀ g pre mid post S S0 bs1 b bs2,
    bs = bs1 ++ b :: bs2 → CapBranch b (g + groupsBranches bs1) pre mid post S →
    (⟨byteLen (pre ++ mid), post, S0 ++ S⟩ : Pos) ∈ tryBranches bs g ⟨byteLen pre, mid ++ post, S0⟩
  | [], hp, g, pre, mid, post, S, S0, bs1, b, bs2, h1, h2 => by simp at h1
  | x :: bs, hp, g, pre, mid, post, S, S0, bs1, b, bs2, h1, h2 => by
    rw [progressBranches, Bool.and_eq_true] at hp
    rw [tryBranches, List.mem_append]
    cases bs1 with
    | nil =>
      obtain ⟨rfl, rfl⟩ := List.cons.inj h1
      exact Or.inl (tryBranch_lists x hp.1 g pre mid post S S0 h2)
    | cons y bs1 =>
      obtain ⟨rfl, h3⟩ := List.cons.inj h1
      refine Or.inr (tryBranches_lists bs hp.2 _ pre mid post S S0 bs1 b bs2 h3 ?_)
      rwa [groupsBranches, ← Nat.add_assoc] at h2
theorem tryBranch_lists : (b : EREBranch) → b.progress = true → ∀ g, Lists (CapBranch b g) (tryBranch b g)
  | .mk ps, hp, g, pre, mid, post, S, S0, h => by
    rw [EREBranch.progress] at hp; rw [tryBranch]; exact tryParts_lists ps hp g pre mid post S S0 h
theorem tryParts_lists : (ps : List EREPart) → progressParts ps = true → ∀ g, Lists (CapBranch (.mk ps) g) (tryParts ps g)
  | [], hp, g, pre, mid, post, S, S0, h => by
    cases h
    simp [tryParts]
  | x :: ps, hp, g, pre, mid, post, S, S0, h => by
    rw [progressParts, Bool.and_eq_true] at hp
    cases h with
    | @cons _ _ _ _ m1 m2 _ S1 S2 h1 h2 =>
      rw [tryParts, List.mem_flatMap]
      refine ⟨_, by have := tryPart_lists x hp.1 g _ _ _ _ S0 h1; rwa [← List.append_assoc] at this, ?_⟩
      have := tryParts_lists ps hp.2 _ _ _ _ _ (S0 ++ S1) h2
      rwa [List.append_assoc, List.append_assoc] at this
theorem tryPart_lists : (x : EREPart) → x.progress = true → ∀ g, Lists (CapPart x g) (tryPart x g)
  | .single e, hp, g, pre, mid, post, S, S0, h => by
    rw [EREPart.progress] at hp
    cases h with
    | single h => rw [tryPart]; exact tryExpr_lists e hp g pre mid post S S0 h
  | .quantified e q, hp, g, pre, mid, post, S, S0, h => by
    rw [EREPart.progress, Bool.and_eq_true] at hp
    cases h with
    | @quantified _ _ n _ _ _ _ _ h1 h2 h =>
      have ih := tryExpr_lists e hp.1 g
      rw [← Nat.add_sub_cancel' h1] at h
      obtain ⟨m1, m2, S1, S2, rfl, rfl, h3, h4⟩ := capTimes_split h
      rw [tryPart, List.mem_flatMap]
      refine ⟨_, by have := times_lists ih _ _ _ _ _ S0 h3; rwa [← List.append_assoc] at this, ?_⟩
      have key : ∀ k, n - q.q.min ≤ k → (⟨byteLen (pre ++ (m1 ++ m2)), post, S0 ++ (S1 ++ S2)⟩ : Pos) ∈
          optTimes (tryExpr e g) (!q.alt) k ⟨byteLen (pre ++ m1), m2 ++ post, S0 ++ S1⟩ := by
        intro k hk
        have := optTimes_lists (lg := !q.alt) ih k _ hk _ _ _ _ (S0 ++ S1) h4
        rwa [List.append_assoc, List.append_assoc] at this
      split
      · rename_i hq
        have hnn : e.nullable = false := by
          have := hp.2
          rw [hq] at this; simpa using this
        refine key _ ?_
        have := capTimes_length hnn h4
        simp only [List.length_append]; omega
      · rename_i m hq
        have := h2 m hq
        rw [if_neg (by omega)]
        exact key _ (by omega)
  | .start, hp, g, pre, mid, post, S, S0, h => by
    cases h
    simp [tryPart, byteLen]
  | .end_, hp, g, pre, mid, post, S, S0, h => by
    cases h
    simp [tryPart]
theorem tryExpr_lists : (e : EREExpr) → e.progress = true → ∀ g, Lists (CapExpr e g) (tryExpr e g)
  | .atom a, hp, g, pre, mid, post, S, S0, h => by
    cases h with
    | @atom _ c _ _ _ hc =>
      simp [tryExpr, hc, byteLen]
  | .sub e, hp, g, pre, mid, post, S, S0, h => by
    rw [EREExpr.progress] at hp
    cases h with
    | @sub _ _ _ _ _ S' h =>
      rw [tryExpr, List.mem_map]
      exact ⟨_, tryERE_lists e hp (g + 1) pre mid post S' S0 h, by simp⟩
end

/-- The preferred match starts at the first place where the pattern matches at all. -/
theorem firstFrom_left {e : ERE} (hp : e.progress = true) : ∀ (rest pre0 : List Char) (S), e.firstFrom (byteLen pre0) rest = some S →
    ∃ i j, lastSpan S 0 = some (i, j) ∧ byteLen pre0 ≤ i ∧ ∀ pre mid post S', pre0 ++ rest = pre ++ mid ++ post →
      byteLen pre0 ≤ byteLen pre → CapERE e 1 pre mid post S' → i ≤ byteLen pre := by
  have hlast : ∀ (S : List Span) i j, lastSpan (S ++ [⟨0, i, j⟩]) 0 = some (i, j) := by
    intro S i j; simp [lastSpan]
  intro rest
  induction rest with
  | nil =>
    intro pre0 S h
    rw [ERE.firstFrom, Option.map_eq_some_iff] at h
    obtain ⟨p, h1, rfl⟩ := h
    exact ⟨_, _, hlast _ _ _, Nat.le_refl _, fun pre mid post S' _ h _ => h⟩
  | cons c r ih =>
    intro pre0 S h
    rw [ERE.firstFrom] at h
    split at h
    · injection h with h
      subst h
      exact ⟨_, _, hlast _ _ _, Nat.le_refl _, fun pre mid post S' _ h _ => h⟩
    · rename_i hnone
      obtain ⟨i, j, h1, h2, h3⟩ := ih (pre0 ++ [c]) S (by rw [byteLen_append]; simpa [byteLen] using h)
      refine ⟨i, j, h1, by rw [byteLen_append] at h2; omega, ?_⟩
      intro pre mid post S' e1 hle hcap
      rcases Nat.eq_or_lt_of_le hle with heq | hlt
      · exfalso
        have hpre : pre = pre0 := by
          have hcs : byteLen pre0 = byteLen pre := heq
          rw [List.append_assoc] at e1
          rcases List.append_eq_append_iff.mp e1 with ⟨x, rfl, h⟩ | ⟨x, rfl, h⟩
          · rw [byteLen_append] at hcs
            have : x = [] := byteLen_eq_zero.mp (by omega)
            simp [this]
          · rw [byteLen_append] at hcs
            have : x = [] := byteLen_eq_zero.mp (by omega)
            simp [this]
        subst hpre
        rw [List.append_assoc] at e1
        have e1 := List.append_cancel_left e1
        have := tryERE_lists e hp 1 pre mid post S' [] hcap
        rw [← e1, List.head?_eq_none_iff.mp hnone] at this
        simp at this
      · refine h3 pre mid post S' (by simpa using e1) ?_ hcap
        -- `pre` is longer than `pre0`, so it contains the character
        rw [List.append_assoc] at e1
        rcases List.append_eq_append_iff.mp e1 with ⟨x, rfl, h⟩ | ⟨x, rfl, h⟩
        · cases x with
          | nil => simp at hlt
          | cons y x =>
            rw [List.cons_append] at h
            obtain ⟨rfl, _⟩ := List.cons.inj h
            simp only [byteLen_append, byteLen_cons, byteLen_nil]; omega
        · rw [byteLen_append] at hlt; omega

/-- Leftmost. -/
theorem first_left {e : ERE} (hp : e.progress = true) {text : List Char} {S} (h : e.first text = some S) :
    ∃ i j, lastSpan S 0 = some (i, j) ∧ ∀ S' i' j', e.Captures text S' → lastSpan S' 0 = some (i', j') → i ≤ i' := by
  obtain ⟨i, j, h1, _, h3⟩ := firstFrom_left hp text [] S h
  refine ⟨i, j, h1, ?_⟩
  rintro S' i' j' ⟨pre, mid, post, S'', h4, h5, rfl⟩ h6
  rw [show lastSpan (S'' ++ [⟨0, byteLen pre, byteLen (pre ++ mid)⟩]) 0 = some (byteLen pre, byteLen (pre ++ mid)) by
    simp [lastSpan]] at h6
  obtain ⟨rfl, rfl⟩ := Prod.mk.inj (Option.some.inj h6)
  exact h3 pre mid post S'' h4 (Nat.zero_le _) h5

/-! ### The flat engine reports it -/

/-- The result is the preferred match. -/
def FirstOk (e : ERE) (text : List Char) (groups : Nat) (res : Except Err (Option (List (Option (Nat × Nat))))) : Prop :=
  (res = .ok none ∧ e.first text = none) ∨
  ∃ r S, res = .ok (some r) ∧ e.first text = some S ∧ r.length = groups ∧ ∀ g, (r[g]?).join = lastSpan S g

theorem mapM_ok_map {β γ : Type} {f : β → Except Err γ} {k : β → γ} : ∀ {l : List β}, (∀ x ∈ l, f x = .ok (k x)) →
    l.mapM f = .ok (l.map k)
  | [], _ => rfl
  | x :: l, h => by
    rw [List.mapM_cons, h x (by simp), mapM_ok_map (l := l) fun y hy => h y (by simp [hy])]
    rfl

section
variable [Sym σ α]

/-- Slots of a preferred run. -/
theorem slots_first {e : ERE} {text : List Char} {caps : Caps} {S} (k : Nat) (hr : Reads caps S) (hc : e.Captures text S) :
    (slotsOf k caps).mapM (finishSlot text) = .ok ((List.range k).map (lastSpan S)) := by
  unfold slotsOf
  rw [List.mapM_map, mapM_ok_map (k := lastSpan S)]
  intro g _
  exact finishSlot_ok hc hr g

theorem first_slots {N : NFA σ} {units : List α} {caps : Caps} {S : List Span} (hr : Reads caps S)
    (h : N.Fst atEnd 0 (⟨0, units, []⟩ : Cfg α) (some caps)) (g : Nat) :
    (((List.range N.numCaptureGroups).map (lastSpan S))[g]?).join = lastSpan S g := by
  by_cases hg : g < N.numCaptureGroups
  · simp [hg]
  · rw [List.getElem?_eq_none (by simp; omega)]
    obtain ⟨d', h1, h2⟩ := NFA.Fst.reach h
    unfold atEnd at h2
    split at h2
    · injection h2 with h2
      obtain ⟨o, r, c⟩ := d'
      simp only at h2; subst h2
      have h9 := reach_start_none h1 (g := g) (by omega)
      rw [(reads_last hr g).1] at h9
      simp only [Option.map_eq_none_iff] at h9
      rw [h9]; rfl
    · simp at h2

theorem flat_firstOk {N : NFA σ} (hN : Ready N) {F : Flat σ} (hc : compileFlat N = .ok F) (hF : FlatOk N F)
    (hu : PathUni N) {e : ERE} {enc : List Char → List α} (hcor : FlatCorrect F e enc) {text : List Char}
    (hm : e.MatchesIn text → ∃ o caps, N.Acc ⟨0, enc text, []⟩ ⟨o, [], caps⟩)
    {r} (hr : N.Fst atEnd 0 (⟨0, enc text, []⟩ : Cfg α) r) (hs : SameMatch r (e.first text)) :
    FirstOk e text F.groups (F.exec text (enc text)) := by
  rcases hs with ⟨rfl, h2⟩ | ⟨caps, S, rfl, h2, h3⟩
  · refine Or.inl ⟨?_, h2⟩
    rcases hcor.exec text with ⟨h4, _⟩ | ⟨_, S, _, h5, _⟩
    · exact h4
    · exfalso
      obtain ⟨o, caps, h6⟩ := hm (captures_matchesIn.mp ⟨S, h5⟩)
      have := NFA.Fst.none_reach (K := atEnd) hN.sink hr h6.2
      simp [atEnd] at this
  · have hcap := first_captures h2
    refine Or.inr ⟨_, S, ?_, h2, ?_, first_slots h3 hr⟩
    · rw [flatExec_first hN hc hF hu text _ hr, slots_first _ h3 hcap]
    · simp [hF.groups]

end

/-- The macro over characters. -/
theorem flat_char_first {e : ERE} (hp : e.progress = true) (ha : e.evenAnchors = true) {F : Flat Atom}
    (h : compileFlatChar e = .ok F) (text : List Char) : FirstOk e text F.groups (F.exec text text) := by
  obtain ⟨N, h1, h2, hN, h3⟩ := flat_char h
  have hc : compileFlat N = .ok F := by
    unfold compileFlatChar charNFA at h
    rw [h1] at h; exact h
  obtain ⟨r, h4, h5⟩ := workingNew_first e hp h1 hN.ne text
  obtain ⟨_, hacc⟩ := workingNew_ne e h1 hN.ne
  refine flat_firstOk (enc := id) hN hc h2 (pathUni_pipeline utf8Crate e ha h1 hN).1 h3 ?_ h4 h5
  intro hm
  obtain ⟨caps, hm⟩ := (exists_run_iff e text).mpr hm
  exact ⟨_, caps, (hacc text caps).mpr hm⟩

/-- The macro over bytes. -/
theorem flat_u8_first (U : Utf8Seqs) {e : ERE} (hp : e.progress = true) (ha : e.evenAnchors = true) {F : Flat U8Atom}
    (h : compileFlatU8 U.seqs e = .ok F) (text : List Char) : FirstOk e text F.groups (F.exec text (encode text)) := by
  obtain ⟨N, M, h1, h2, hF, hM, h3⟩ := flat_u8 U h
  have hb : byteNFA U.seqs e = .ok M := by
    unfold byteNFA charNFA
    rw [h1]; exact h2
  have hc : compileFlat M = .ok F := by
    unfold compileFlatU8 at h
    rw [hb] at h; exact h
  obtain ⟨hN, _, hacc, henc⟩ := pipeline_ne U e h1 h2 hM.ne
  obtain ⟨r, h4, h5⟩ := workingNew_first e hp h1 hN.ne text
  have h6 := u8New_first hN (workingNew_oneSym (starOk_fromERE e) h1 hN.ne) h2 hM.ne h4
  refine flat_firstOk (enc := encode) hM hc hF ((pathUni_pipeline U e ha h1 hN).2 M h2 hM.ne) h3 ?_ h6 h5
  intro hm
  obtain ⟨caps, hm⟩ := (exists_run_iff e text).mpr hm
  exact ⟨_, caps, (acc_enc henc text _ caps).mpr ((hacc text caps).mpr hm)⟩

/-- There is a preferred match exactly if there is a match. -/
theorem first_isSome {e : ERE} (hp : e.progress = true) (text : List Char) : (e.first text).isSome = true ↔ e.MatchesIn text := by
  constructor
  · intro h
    obtain ⟨S, h⟩ := Option.isSome_iff_exists.mp h
    exact captures_matchesIn.mp ⟨S, first_captures h⟩
  · intro hm
    obtain ⟨S, pre, mid, post, S', rfl, h1, _⟩ := captures_matchesIn.mpr hm
    have key : ∀ (rest pre0 : List Char) pre mid post, pre0 ++ rest = pre ++ mid ++ post → byteLen pre0 ≤ byteLen pre →
        CapERE e 1 pre mid post S' → (e.firstFrom (byteLen pre0) rest).isSome = true := by
      intro rest
      induction rest with
      | nil =>
        intro pre0 pre mid post e1 hle hc
        rw [List.append_nil] at e1
        have hl : byteLen mid = 0 ∧ byteLen post = 0 ∧ byteLen pre0 = byteLen pre := by
          have := congrArg byteLen e1
          simp only [byteLen_append] at this; omega
        obtain ⟨h2, h3, h4⟩ := hl
        have h2 := byteLen_eq_zero.mp h2
        have h3 := byteLen_eq_zero.mp h3
        subst h2 h3
        simp only [List.append_nil] at e1
        subst e1
        rw [ERE.firstFrom]
        have := tryERE_lists e hp 1 _ _ _ _ [] hc
        simp only [List.append_nil] at this
        cases hh : tryERE e 1 ⟨byteLen pre0, [], []⟩ with
        | nil => rw [hh] at this; simp at this
        | cons => rfl
      | cons c r ih =>
        intro pre0 pre mid post e1 hle hc
        rw [ERE.firstFrom]
        split
        · rfl
        · rename_i hnone
          rw [List.append_assoc] at e1
          rcases List.append_eq_append_iff.mp e1 with ⟨x, rfl, h⟩ | ⟨x, rfl, h⟩
          · cases x with
            | nil =>
              exfalso
              rw [List.append_nil] at hc
              have := tryERE_lists e hp 1 _ _ _ _ [] hc
              rw [List.nil_append] at h
              rw [← h, List.head?_eq_none_iff.mp hnone] at this
              simp at this
            | cons y x =>
              rw [List.cons_append] at h
              obtain ⟨rfl, h2⟩ := List.cons.inj h
              have := ih (pre0 ++ [c]) (pre0 ++ c :: x) mid post (by rw [h2]; simp)
                (by simp only [byteLen_append, byteLen_cons, byteLen_nil]; omega) hc
              rw [byteLen_append] at this
              simpa [byteLen] using this
          · have hx : x = [] := byteLen_eq_zero.mp (by rw [byteLen_append] at hle; omega)
            subst hx
            exfalso
            rw [List.nil_append] at h
            rw [List.append_nil] at hnone
            have := tryERE_lists e hp 1 _ _ _ _ [] hc
            rw [h, List.head?_eq_none_iff.mp hnone] at this
            simp at this
    exact key (pre ++ mid ++ post) [] pre mid post rfl (Nat.zero_le _) h1

end Ere
