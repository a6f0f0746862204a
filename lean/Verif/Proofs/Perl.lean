import Verif.Spec.Perl
import Verif.Proofs.Longest
import Verif.Proofs.Laws

/-! The preferred match for all patterns, with the rule of Perl for empty rounds. -/

namespace Ere

/-! ### The preferred match is a match -/

theorem perlTimes_sound {e : EREExpr} {g} (ih : ∀ pre p p1, p.off = byteLen pre → p1 ∈ perlExpr e g p → Got (CapExpr e g) pre p p1) :
    ∀ n pre p p1, p.off = byteLen pre → p1 ∈ times (perlExpr e g) n p → Got (CapTimes e n g) pre p p1
  | 0, pre, p, p1, h, hm => by
    simp only [times, List.mem_singleton] at hm
    subst hm
    exact ⟨[], [], rfl, by simpa using h, by simp, .zero⟩
  | n + 1, pre, p, p1, h, hm => by
    simp only [times, List.mem_flatMap] at hm
    obtain ⟨p2, h1, h2⟩ := hm
    obtain ⟨m1, S1, a1, a2, a3, a4⟩ := ih pre p p2 h h1
    obtain ⟨m2, S2, b1, b2, b3, b4⟩ := perlTimes_sound ih n (pre ++ m1) p2 p1 a2 h2
    refine ⟨m1 ++ m2, S1 ++ S2, by rw [a1, b1, List.append_assoc], by rw [b2, List.append_assoc],
      by rw [b3, a3, List.append_assoc], ?_⟩
    rw [b1] at a4
    exact .succ a4 b4

theorem perlOpt_sound {e : EREExpr} {g lg} (ih : ∀ pre p p1, p.off = byteLen pre → p1 ∈ perlExpr e g p → Got (CapExpr e g) pre p p1) :
    ∀ n pre p p1, p.off = byteLen pre → p1 ∈ optTimes (perlExpr e g) lg n p → ∃ k, k ≤ n ∧ Got (CapTimes e k g) pre p p1 := by
  intro n
  induction n with
  | zero =>
    intro pre p p1 h hm
    simp only [optTimes, List.mem_singleton] at hm
    subst hm
    exact ⟨0, Nat.le_refl _, [], [], rfl, by simpa using h, by simp, .zero⟩
  | succ n ihn =>
    intro pre p p1 h hm
    have hm : p1 = p ∨ p1 ∈ (perlExpr e g p).flatMap (optTimes (perlExpr e g) lg n) := by
      rw [optTimes] at hm
      split at hm
      · simp only [List.mem_append, List.mem_singleton] at hm; exact hm.symm
      · simpa only [List.mem_cons] using hm
    rcases hm with rfl | hm
    · exact ⟨0, by omega, [], [], rfl, by simpa using h, by simp, .zero⟩
    · obtain ⟨p2, h1, h2⟩ := List.mem_flatMap.mp hm
      obtain ⟨m1, S1, a1, a2, a3, a4⟩ := ih pre p p2 h h1
      obtain ⟨k, hk, m2, S2, b1, b2, b3, b4⟩ := ihn (pre ++ m1) p2 p1 a2 h2
      refine ⟨k + 1, by omega, m1 ++ m2, S1 ++ S2, by rw [a1, b1, List.append_assoc], by rw [b2, List.append_assoc],
        by rw [b3, a3, List.append_assoc], ?_⟩
      rw [b1] at a4
      exact .succ a4 b4

theorem mem_perlRounds {L : Pos → List Pos} {lg : Bool} {n : Nat} {p p1 : Pos} : p1 ∈ perlRounds L lg (n + 1) p ↔
    p1 = p ∨ ∃ d ∈ L p, p1 ∈ if d.off = p.off then [d] else perlRounds L lg n d := by
  rw [perlRounds]
  split
  · simp only [List.mem_append, List.mem_singleton, List.mem_flatMap]; exact or_comm
  · simp only [List.mem_cons, List.mem_flatMap]

theorem perlRounds_sound {e : EREExpr} {g lg} (ih : ∀ pre p p1, p.off = byteLen pre → p1 ∈ perlExpr e g p → Got (CapExpr e g) pre p p1) :
    ∀ n pre p p1, p.off = byteLen pre → p1 ∈ perlRounds (perlExpr e g) lg n p → ∃ k, Got (CapTimes e k g) pre p p1 := by
  intro n
  induction n with
  | zero =>
    intro pre p p1 h hm
    simp only [perlRounds, List.mem_singleton] at hm
    subst hm
    exact ⟨0, [], [], rfl, by simpa using h, by simp, .zero⟩
  | succ n ihn =>
    intro pre p p1 h hm
    rcases mem_perlRounds.mp hm with rfl | ⟨p2, h1, h2⟩
    · exact ⟨0, [], [], rfl, by simpa using h, by simp, .zero⟩
    · obtain ⟨m1, S1, a1, a2, a3, a4⟩ := ih pre p p2 h h1
      have h3 : ∃ k, Got (CapTimes e k g) (pre ++ m1) p2 p1 := by
        split at h2
        · rw [List.mem_singleton] at h2
          subst h2
          exact ⟨0, [], [], rfl, by simpa using a2, by simp, .zero⟩
        · exact ihn (pre ++ m1) p2 p1 a2 h2
      obtain ⟨k, m2, S2, b1, b2, b3, b4⟩ := h3
      refine ⟨k + 1, m1 ++ m2, S1 ++ S2, by rw [a1, b1, List.append_assoc], by rw [b2, List.append_assoc],
        by rw [b3, a3, List.append_assoc], ?_⟩
      rw [b1] at a4
      exact .succ a4 b4

mutual
theorem perlERE_sound : (e : ERE) → ∀ g pre p p1, p.off = byteLen pre → p1 ∈ perlERE e g p → Got (CapERE e g) pre p p1
  | .mk bs, g, pre, p, p1, h, hm => by
    rw [perlERE] at hm
    obtain ⟨bs1, b, bs2, h1, mid, S, a1, a2, a3, a4⟩ := perlBranches_sound bs g pre p p1 h hm
    exact ⟨mid, S, a1, a2, a3, .intro h1 a4⟩
theorem perlBranches_sound : (bs : List EREBranch) → ∀ g pre p p1, p.off = byteLen pre → p1 ∈ perlBranches bs g p →
    ∃ bs1 b bs2, bs = bs1 ++ b :: bs2 ∧ Got (CapBranch b (g + groupsBranches bs1)) pre p p1
  | [], g, pre, p, p1, h, hm => by simp [perlBranches] at hm
  | b :: bs, g, pre, p, p1, h, hm => by
    rw [perlBranches, List.mem_append] at hm
    rcases hm with hm | hm
    · exact ⟨[], b, bs, rfl, perlBranch_sound b g pre p p1 h hm⟩
    · obtain ⟨bs1, b', bs2, h1, h2⟩ := perlBranches_sound bs _ pre p p1 h hm
      refine ⟨b :: bs1, b', bs2, by rw [h1]; rfl, ?_⟩
      rwa [groupsBranches, ← Nat.add_assoc]
theorem perlBranch_sound : (b : EREBranch) → ∀ g pre p p1, p.off = byteLen pre → p1 ∈ perlBranch b g p →
    Got (CapBranch b g) pre p p1
  | .mk ps, g, pre, p, p1, h, hm => by rw [perlBranch] at hm; exact perlParts_sound ps g pre p p1 h hm
theorem perlParts_sound : (ps : List EREPart) → ∀ g pre p p1, p.off = byteLen pre → p1 ∈ perlParts ps g p →
    Got (CapBranch (.mk ps) g) pre p p1
  | [], g, pre, p, p1, h, hm => by
    simp only [perlParts, List.mem_singleton] at hm
    subst hm
    exact ⟨[], [], rfl, by simpa using h, by simp, .nil⟩
  | x :: ps, g, pre, p, p1, h, hm => by
    rw [perlParts, List.mem_flatMap] at hm
    obtain ⟨p2, h1, h2⟩ := hm
    obtain ⟨m1, S1, a1, a2, a3, a4⟩ := perlPart_sound x g pre p p2 h h1
    obtain ⟨m2, S2, b1, b2, b3, b4⟩ := perlParts_sound ps _ (pre ++ m1) p2 p1 a2 h2
    refine ⟨m1 ++ m2, S1 ++ S2, by rw [a1, b1, List.append_assoc], by rw [b2, List.append_assoc],
      by rw [b3, a3, List.append_assoc], ?_⟩
    rw [b1] at a4
    exact .cons a4 b4
theorem perlPart_sound : (x : EREPart) → ∀ g pre p p1, p.off = byteLen pre → p1 ∈ perlPart x g p →
    Got (CapPart x g) pre p p1
  | .single e, g, pre, p, p1, h, hm => by
    rw [perlPart] at hm
    obtain ⟨mid, S, a1, a2, a3, a4⟩ := perlExpr_sound e g pre p p1 h hm
    exact ⟨mid, S, a1, a2, a3, .single a4⟩
  | .quantified e q, g, pre, p, p1, h, hm => by
    rw [perlPart, List.mem_flatMap] at hm
    obtain ⟨p2, h1, h2⟩ := hm
    obtain ⟨m1, S1, a1, a2, a3, a4⟩ := perlTimes_sound (fun pre p p1 => perlExpr_sound e g pre p p1) _ pre p p2 h h1
    have hk : ∃ k, (∀ m, q.q.max = some m → q.q.min + k ≤ m) ∧ Got (CapTimes e k g) (pre ++ m1) p2 p1 := by
      split at h2
      · rename_i hq
        obtain ⟨k, hk⟩ := perlRounds_sound (fun pre p p1 => perlExpr_sound e g pre p p1) _ (pre ++ m1) p2 p1 a2 h2
        exact ⟨k, by rw [hq]; simp, hk⟩
      · rename_i m hq
        split at h2
        · simp at h2
        · obtain ⟨k, hk1, hk⟩ := perlOpt_sound (fun pre p p1 => perlExpr_sound e g pre p p1) _ (pre ++ m1) p2 p1 a2 h2
          refine ⟨k, ?_, hk⟩
          intro m' hm'
          rw [hq] at hm'
          injection hm' with hm'
          omega
    obtain ⟨k, hk, m2, S2, b1, b2, b3, b4⟩ := hk
    refine ⟨m1 ++ m2, S1 ++ S2, by rw [a1, b1, List.append_assoc], by rw [b2, List.append_assoc],
      by rw [b3, a3, List.append_assoc], ?_⟩
    rw [b1] at a4
    exact .quantified (by omega) hk (capTimes_add a4 b4)
  | .start, g, pre, p, p1, h, hm => by
    rw [perlPart] at hm
    split at hm
    · rename_i h0
      simp only [List.mem_singleton] at hm
      subst hm
      have : pre = [] := byteLen_eq_zero.mp (by rw [← h, h0])
      subst this
      exact ⟨[], [], rfl, by simpa using h, by simp, .start⟩
    · simp at hm
  | .end_, g, pre, p, p1, h, hm => by
    rw [perlPart] at hm
    split at hm
    · rename_i h0
      simp only [List.mem_singleton] at hm
      subst hm
      have : p1.rest = [] := by simpa using h0
      exact ⟨[], [], rfl, by simpa using h, by simp, by rw [this]; exact .end_⟩
    · simp at hm
theorem perlExpr_sound : (e : EREExpr) → ∀ g pre p p1, p.off = byteLen pre → p1 ∈ perlExpr e g p →
    Got (CapExpr e g) pre p p1
  | .atom a, g, pre, p, p1, h, hm => by
    rw [perlExpr] at hm
    split at hm
    · simp at hm
    · rename_i c r hr
      split at hm
      · rename_i hc
        simp only [List.mem_singleton] at hm
        subst hm
        refine ⟨[c], [], by simpa using hr, ?_, by simp, .atom hc⟩
        rw [byteLen_append, ← h]; simp [byteLen]
      · simp at hm
  | .sub e, g, pre, p, p1, h, hm => by
    rw [perlExpr, List.mem_map] at hm
    obtain ⟨p2, h1, rfl⟩ := hm
    obtain ⟨mid, S, a1, a2, a3, a4⟩ := perlERE_sound e (g + 1) pre p p2 h h1
    refine ⟨mid, S ++ [⟨g, p.off, p2.off⟩], a1, a2, by simp [a3], ?_⟩
    rw [h, a2]
    exact .sub a4
end

theorem perlFrom_sound (e : ERE) : ∀ (rest pre : List Char) (S), e.perlFrom (byteLen pre) rest = some S →
    e.Captures (pre ++ rest) S := by
  have key : ∀ pre rest p, (perlERE e 1 ⟨byteLen pre, rest, []⟩).head? = some p →
      e.Captures (pre ++ rest) (p.spans ++ [⟨0, byteLen pre, p.off⟩]) := by
    intro pre rest p h
    obtain ⟨mid, S, a1, a2, a3, a4⟩ := perlERE_sound e 1 pre ⟨byteLen pre, rest, []⟩ p rfl (List.mem_of_mem_head? h)
    refine ⟨pre, mid, p.rest, S, by rw [List.append_assoc, ← a1], a4, ?_⟩
    rw [a3, a2]; rfl
  intro rest
  induction rest with
  | nil =>
    intro pre S h
    rw [ERE.perlFrom, Option.map_eq_some_iff] at h
    obtain ⟨p, h1, rfl⟩ := h
    exact key pre [] p h1
  | cons c r ih =>
    intro pre S h
    rw [ERE.perlFrom] at h
    split at h
    · rename_i p hp
      injection h with h
      subst h
      exact key pre (c :: r) p hp
    · have := ih (pre ++ [c]) S (by rw [byteLen_append]; simpa [byteLen] using h)
      simpa using this

/-- The preferred match is a match. -/
theorem perl_captures {e : ERE} {text : List Char} {S} (h : e.perl text = some S) : e.Captures text S :=
  perlFrom_sound e text [] S h

/-! ### Every match is listed, up to empty rounds -/

/-- For every match there is a way which ends at the same place. -/
def Finds (C : List Char → List Char → List Char → Prop) (L : Pos → List Pos) : Prop :=
  ∀ pre mid post S0, C pre mid post → ∃ S, (⟨byteLen (pre ++ mid), post, S⟩ : Pos) ∈ L ⟨byteLen pre, mid ++ post, S0⟩

theorem times_finds {e : EREExpr} {g} (ih : Finds (MatchesExpr e) (perlExpr e g)) : ∀ n, Finds (MatchesTimes e n) (times (perlExpr e g) n)
  | 0, pre, mid, post, S0, h => by
    cases h
    exact ⟨S0, by simp [times]⟩
  | n + 1, pre, mid, post, S0, h => by
    cases h with
    | @succ _ _ _ m1 m2 _ h1 h2 =>
      obtain ⟨S1, k1⟩ := ih _ _ _ S0 h1
      obtain ⟨S2, k2⟩ := times_finds ih n _ _ _ S1 h2
      refine ⟨S2, ?_⟩
      rw [times, List.mem_flatMap]
      refine ⟨_, by rwa [← List.append_assoc] at k1, ?_⟩
      rwa [List.append_assoc] at k2

theorem optTimes_finds {e : EREExpr} {g lg} (ih : Finds (MatchesExpr e) (perlExpr e g)) : ∀ n k, k ≤ n →
    Finds (MatchesTimes e k) (optTimes (perlExpr e g) lg n)
  | n, 0, _, pre, mid, post, S0, h => by
    cases h
    refine ⟨S0, ?_⟩
    cases n with
    | zero => simp [optTimes]
    | succ n => exact mem_optTimes.mpr (Or.inl (by simp))
  | n + 1, k + 1, hk, pre, mid, post, S0, h => by
    cases h with
    | @succ _ _ _ m1 m2 _ h1 h2 =>
      obtain ⟨S1, k1⟩ := ih _ _ _ S0 h1
      obtain ⟨S2, k2⟩ := optTimes_finds (lg := lg) ih n k (by omega) _ _ _ S1 h2
      refine ⟨S2, ?_⟩
      rw [mem_optTimes, List.mem_flatMap]
      refine Or.inr ⟨_, by rwa [← List.append_assoc] at k1, ?_⟩
      rwa [List.append_assoc] at k2

theorem perlRounds_finds {e : EREExpr} {g lg} (ih : Finds (MatchesExpr e) (perlExpr e g)) : ∀ k n pre mid post S0, mid.length ≤ n →
    MatchesTimes e k pre mid post → ∃ S, (⟨byteLen (pre ++ mid), post, S⟩ : Pos) ∈ perlRounds (perlExpr e g) lg n ⟨byteLen pre, mid ++ post, S0⟩
  | 0, n, pre, mid, post, S0, hl, h => by
    cases h
    refine ⟨S0, ?_⟩
    cases n with
    | zero => simp [perlRounds]
    | succ n => exact mem_perlRounds.mpr (Or.inl (by simp))
  | k + 1, n, pre, mid, post, S0, hl, h => by
    cases h with
    | @succ _ _ _ m1 m2 _ h1 h2 =>
      cases m1 with
      | nil => simpa using perlRounds_finds (lg := lg) ih k n _ _ _ S0 (by simpa using hl) h2
      | cons c m1 =>
        cases n with
        | zero => simp at hl
        | succ n =>
          obtain ⟨S1, k1⟩ := ih _ _ _ S0 h1
          obtain ⟨S2, k2⟩ := perlRounds_finds (lg := lg) ih k n _ _ _ S1 (by simp at hl; omega) h2
          refine ⟨S2, mem_perlRounds.mpr (Or.inr ⟨_, by rwa [← List.append_assoc] at k1, ?_⟩)⟩
          have hc : 0 < charLen c := charLen_pos c
          rw [if_neg (by simp only [byteLen_append, byteLen_cons]; omega)]
          rwa [List.append_assoc] at k2

mutual
theorem perlERE_finds : (e : ERE) → ∀ g, Finds (MatchesERE e) (perlERE e g)
  | .mk bs, g, pre, mid, post, S0, h => by
    cases h with
    | @intro _ b _ _ _ h1 h2 =>
      obtain ⟨bs1, bs2, h1⟩ := List.append_of_mem h1
      rw [perlERE]
      exact perlBranches_finds bs g pre mid post S0 bs1 b bs2 h1 h2
theorem perlBranches_finds : (bs : List EREBranch) → ∀ g pre mid post S0 bs1 b bs2,
    bs = bs1 ++ b :: bs2 → MatchesBranch b pre mid post →
    ∃ S, (⟨byteLen (pre ++ mid), post, S⟩ : Pos) ∈ perlBranches bs g ⟨byteLen pre, mid ++ post, S0⟩
  | [], g, pre, mid, post, S0, bs1, b, bs2, h1, h2 => by simp at h1
  | x :: bs, g, pre, mid, post, S0, bs1, b, bs2, h1, h2 => by
    simp only [perlBranches, List.mem_append]
    cases bs1 with
    | nil =>
      obtain ⟨rfl, rfl⟩ := List.cons.inj h1
      obtain ⟨S, h⟩ := perlBranch_finds x g pre mid post S0 h2
      exact ⟨S, Or.inl h⟩
    | cons y bs1 =>
      obtain ⟨rfl, h3⟩ := List.cons.inj h1
      obtain ⟨S, h⟩ := perlBranches_finds bs (g + x.groups) pre mid post S0 bs1 b bs2 h3 h2
      exact ⟨S, Or.inr h⟩
theorem perlBranch_finds : (b : EREBranch) → ∀ g, Finds (MatchesBranch b) (perlBranch b g)
  | .mk ps, g, pre, mid, post, S0, h => by rw [perlBranch]; exact perlParts_finds ps g pre mid post S0 h
theorem perlParts_finds : (ps : List EREPart) → ∀ g, Finds (MatchesBranch (.mk ps)) (perlParts ps g)
  | [], g, pre, mid, post, S0, h => by
    cases h
    exact ⟨S0, by simp [perlParts]⟩
  | x :: ps, g, pre, mid, post, S0, h => by
    cases h with
    | @cons _ _ _ m1 m2 _ h1 h2 =>
      obtain ⟨S1, k1⟩ := perlPart_finds x g _ _ _ S0 h1
      obtain ⟨S2, k2⟩ := perlParts_finds ps (g + x.groups) _ _ _ S1 h2
      refine ⟨S2, ?_⟩
      rw [perlParts, List.mem_flatMap]
      refine ⟨_, by rwa [← List.append_assoc] at k1, ?_⟩
      rwa [List.append_assoc] at k2
theorem perlPart_finds : (x : EREPart) → ∀ g, Finds (MatchesPart x) (perlPart x g)
  | .single e, g, pre, mid, post, S0, h => by
    cases h with
    | single h => rw [perlPart]; exact perlExpr_finds e g pre mid post S0 h
  | .quantified e q, g, pre, mid, post, S0, h => by
    cases h with
    | @quantified _ _ n _ _ _ h1 h2 h =>
      have ih := perlExpr_finds e g
      rw [← Nat.add_sub_cancel' h1] at h
      obtain ⟨m1, m2, rfl, h3, h4⟩ := matchesTimes_add.mp h
      obtain ⟨S1, k1⟩ := times_finds ih _ _ _ _ S0 h3
      have key : ∃ S, (⟨byteLen (pre ++ (m1 ++ m2)), post, S⟩ : Pos) ∈ match q.q.max with
          | none => perlRounds (perlExpr e g) (!q.alt) ((m2 ++ post).length + 1) ⟨byteLen (pre ++ m1), m2 ++ post, S1⟩
          | some m => if m < q.q.min then [] else
              optTimes (perlExpr e g) (!q.alt) (m - q.q.min) ⟨byteLen (pre ++ m1), m2 ++ post, S1⟩ := by
        split
        · have := perlRounds_finds (lg := !q.alt) ih _ ((m2 ++ post).length + 1) _ _ _ S1 (by simp; omega) h4
          rwa [List.append_assoc] at this
        · rename_i m hq
          have := h2 m hq
          rw [if_neg (by omega)]
          have := optTimes_finds (lg := !q.alt) ih (m - q.q.min) _ (by omega) _ _ _ S1 h4
          rwa [List.append_assoc] at this
      obtain ⟨S, hS⟩ := key
      refine ⟨S, ?_⟩
      rw [perlPart, List.mem_flatMap]
      exact ⟨_, by rwa [← List.append_assoc] at k1, hS⟩
  | .start, g, pre, mid, post, S0, h => by
    cases h
    exact ⟨S0, by simp [perlPart, byteLen]⟩
  | .end_, g, pre, mid, post, S0, h => by
    cases h
    exact ⟨S0, by simp [perlPart]⟩
theorem perlExpr_finds : (e : EREExpr) → ∀ g, Finds (MatchesExpr e) (perlExpr e g)
  | .atom a, g, pre, mid, post, S0, h => by
    cases h with
    | @atom _ c _ _ hc => exact ⟨S0, by simp [perlExpr, hc, byteLen]⟩
  | .sub e, g, pre, mid, post, S0, h => by
    cases h with
    | @sub _ _ _ _ h =>
      obtain ⟨S, hS⟩ := perlERE_finds e (g + 1) pre mid post S0 h
      refine ⟨S ++ [⟨g, byteLen pre, byteLen (pre ++ mid)⟩], ?_⟩
      rw [perlExpr, List.mem_map]
      exact ⟨_, hS, rfl⟩
end

theorem perlFrom_left {e : ERE} : ∀ (rest pre0 : List Char) (pre mid post), pre0 ++ rest = pre ++ mid ++ post →
    byteLen pre0 ≤ byteLen pre → MatchesERE e pre mid post →
    ∃ S i j, e.perlFrom (byteLen pre0) rest = some S ∧ lastSpan S 0 = some (i, j) ∧ i ≤ byteLen pre := by
  have hlast : ∀ (S : List Span) i j, lastSpan (S ++ [⟨0, i, j⟩]) 0 = some (i, j) := by
    intro S i j; simp [lastSpan]
  intro rest
  induction rest with
  | nil =>
    intro pre0 pre mid post e1 hle hc
    rw [List.append_nil] at e1
    have hl : byteLen mid = 0 ∧ byteLen post = 0 := by
      have := congrArg byteLen e1
      simp only [byteLen_append] at this; omega
    obtain ⟨h2, h3⟩ := hl
    have h2 := byteLen_eq_zero.mp h2
    have h3 := byteLen_eq_zero.mp h3
    subst h2 h3
    simp only [List.append_nil] at e1
    subst e1
    obtain ⟨S, hS⟩ := perlERE_finds e 1 _ _ _ [] hc
    simp only [List.append_nil] at hS
    cases hh : perlERE e 1 ⟨byteLen pre0, [], []⟩ with
    | nil => rw [hh] at hS; simp at hS
    | cons p ps => exact ⟨_, _, _, by rw [ERE.perlFrom, hh]; rfl, hlast _ _ _, Nat.le_refl _⟩
  | cons c r ih =>
    intro pre0 pre mid post e1 hle hc
    rw [ERE.perlFrom]
    split
    · exact ⟨_, _, _, rfl, hlast _ _ _, hle⟩
    · rename_i hnone
      have hno : ∀ p, p ∉ perlERE e 1 ⟨byteLen pre0, c :: r, []⟩ := by
        intro p hp
        rw [List.head?_eq_none_iff.mp hnone] at hp
        simp at hp
      rw [List.append_assoc] at e1
      rcases List.append_eq_append_iff.mp e1 with ⟨x, rfl, h⟩ | ⟨x, rfl, h⟩
      · cases x with
        | nil =>
          exfalso
          rw [List.append_nil] at hc
          obtain ⟨S, hS⟩ := perlERE_finds e 1 _ _ _ [] hc
          rw [List.nil_append] at h
          rw [← h] at hS
          exact hno _ hS
        | cons y x =>
          rw [List.cons_append] at h
          obtain ⟨rfl, h2⟩ := List.cons.inj h
          have := ih (pre0 ++ [c]) (pre0 ++ c :: x) mid post (by rw [h2]; simp)
            (by simp only [byteLen_append, byteLen_cons, byteLen_nil]; omega) hc
          rw [byteLen_append] at this
          simpa [byteLen] using this
      · have hx : x = [] := byteLen_eq_zero.mp (by rw [byteLen_append] at hle; omega)
        subst hx
        exfalso
        rw [List.nil_append] at h
        rw [List.append_nil] at hno
        obtain ⟨S, hS⟩ := perlERE_finds e 1 _ _ _ [] hc
        rw [h] at hS
        exact hno _ hS

/-- There is a preferred match exactly if there is a match. -/
theorem perl_isSome {e : ERE} (text : List Char) : (e.perl text).isSome = true ↔ e.MatchesIn text := by
  constructor
  · intro h
    obtain ⟨S, h⟩ := Option.isSome_iff_exists.mp h
    exact captures_matchesIn.mp ⟨S, perl_captures h⟩
  · rintro ⟨pre, mid, post, rfl, hm⟩
    obtain ⟨S, i, j, h, _⟩ := perlFrom_left _ [] pre mid post rfl (Nat.zero_le _) hm
    have h : e.perl (pre ++ mid ++ post) = some S := h
    rw [h]; rfl

/-- The preferred match starts as far left as any match. -/
theorem perl_left {e : ERE} {text : List Char} {S} (h : e.perl text = some S) :
    ∃ i j, lastSpan S 0 = some (i, j) ∧ ∀ S' i' j', e.Captures text S' → lastSpan S' 0 = some (i', j') → i ≤ i' := by
  have hS := perl_captures h
  obtain ⟨pre, mid, post, S1, h1, h2, rfl⟩ := hS
  refine ⟨byteLen pre, byteLen (pre ++ mid), by simp [lastSpan], ?_⟩
  rintro S' i' j' ⟨pre', mid', post', S2, h4, h5, rfl⟩ h6
  obtain ⟨S3, i, j, g1, g2, g3⟩ := perlFrom_left text [] pre' mid' post' h4 (Nat.zero_le _) h5.matches
  have g1 : e.perl text = some S3 := g1
  rw [h] at g1
  injection g1 with g1
  subst g1
  simp [lastSpan] at g2 h6
  omega

/-! ### Without empty rounds nothing changes -/

theorem perlRounds_eq {L : Pos → List Pos} {lg : Bool} (hL : ∀ d d1, d1 ∈ L d → d1.off ≠ d.off ∧ d1.rest.length < d.rest.length) :
    ∀ n d, d.rest.length ≤ n → perlRounds L lg (n + 1) d = optTimes L lg n d
  | 0, d, hn => by
    have h0 : L d = [] := by
      rw [List.eq_nil_iff_forall_not_mem]
      intro d1 h
      have := (hL d d1 h).2
      omega
    rw [perlRounds, optTimes, h0]
    split <;> rfl
  | n + 1, d, hn => by
    have h1 : (L d).flatMap (fun d1 => if d1.off = d.off then [d1] else perlRounds L lg (n + 1) d1) =
        (L d).flatMap (optTimes L lg n) := by
      refine List.flatMap_congr fun d1 h => ?_
      obtain ⟨h2, h3⟩ := hL d d1 h
      rw [if_neg h2, perlRounds_eq hL n d1 (by omega)]
    rw [perlRounds, optTimes, h1]

theorem tryExpr_advances {e : EREExpr} (he : e.nullable = false) (g : Nat) (d d1 : Pos) (h : d1 ∈ tryExpr e g d) :
    d1.off ≠ d.off ∧ d1.rest.length < d.rest.length := by
  have hb : d.off = byteLen (List.replicate d.off 'a') := by
    have : ∀ n, byteLen (List.replicate n 'a') = n := by
      intro n
      induction n with
      | zero => rfl
      | succ n ih => rw [List.replicate_succ, byteLen_cons, ih]; simp [show charLen 'a' = 1 by decide]; omega
    exact (this _).symm
  obtain ⟨mid, S, a1, a2, _, a4⟩ := tryExpr_sound e g _ d d1 hb h
  have hm : mid ≠ [] := by
    rintro rfl
    rw [nullable_expr a4] at he; simp at he
  obtain ⟨c, m, rfl⟩ := List.exists_cons_of_ne_nil hm
  have := charLen_pos c
  rw [a2, a1, byteLen_append, ← hb]
  simp only [byteLen_cons, List.length_append, List.length_cons]
  omega

mutual
theorem perlERE_eq : (e : ERE) → e.progress = true → ∀ g p, perlERE e g p = tryERE e g p
  | .mk bs, hp, g, p => by
    rw [ERE.progress] at hp
    rw [perlERE, tryERE, perlBranches_eq bs hp]
theorem perlBranches_eq : (bs : List EREBranch) → progressBranches bs = true → ∀ g p, perlBranches bs g p = tryBranches bs g p
  | [], _, _, _ => by rw [perlBranches, tryBranches]
  | b :: bs, hp, g, p => by
    rw [progressBranches, Bool.and_eq_true] at hp
    rw [perlBranches, tryBranches, perlBranch_eq b hp.1, perlBranches_eq bs hp.2]
theorem perlBranch_eq : (b : EREBranch) → b.progress = true → ∀ g p, perlBranch b g p = tryBranch b g p
  | .mk ps, hp, g, p => by
    rw [EREBranch.progress] at hp
    rw [perlBranch, tryBranch, perlParts_eq ps hp]
theorem perlParts_eq : (ps : List EREPart) → progressParts ps = true → ∀ g p, perlParts ps g p = tryParts ps g p
  | [], _, _, _ => by rw [perlParts, tryParts]
  | x :: ps, hp, g, p => by
    rw [progressParts, Bool.and_eq_true] at hp
    rw [perlParts, tryParts, perlPart_eq x hp.1, show perlParts ps (g + x.groups) = tryParts ps (g + x.groups) from
      funext fun p => perlParts_eq ps hp.2 _ p]
theorem perlPart_eq : (x : EREPart) → x.progress = true → ∀ g p, perlPart x g p = tryPart x g p
  | .single e, hp, g, p => by
    rw [EREPart.progress] at hp
    rw [perlPart, tryPart, perlExpr_eq e hp]
  | .quantified e q, hp, g, p => by
    rw [EREPart.progress, Bool.and_eq_true] at hp
    have ih : perlExpr e g = tryExpr e g := funext fun p => perlExpr_eq e hp.1 g p
    rw [perlPart, tryPart, ih]
    refine List.flatMap_congr fun p1 _ => ?_
    cases hq : q.q.max with
    | none =>
      have hnn : e.nullable = false := by
        have := hp.2
        rw [hq] at this; simpa using this
      exact perlRounds_eq (tryExpr_advances hnn g) _ p1 (Nat.le_refl _)
    | some m => rfl
  | .start, _, _, _ => by rw [perlPart, tryPart]
  | .end_, _, _, _ => by rw [perlPart, tryPart]
theorem perlExpr_eq : (e : EREExpr) → e.progress = true → ∀ g p, perlExpr e g p = tryExpr e g p
  | .atom a, _, _, _ => by rw [perlExpr, tryExpr]; rfl
  | .sub e, hp, g, p => by
    rw [EREExpr.progress] at hp
    rw [perlExpr, tryExpr, perlERE_eq e hp]
end

/-- If no round of an unbounded repetition can be empty, both specifications say the same. -/
theorem perl_eq_first {e : ERE} (hp : e.progress = true) (text : List Char) : e.perl text = e.first text := by
  have : ∀ rest off, e.perlFrom off rest = e.firstFrom off rest := by
    intro rest
    induction rest with
    | nil => intro off; rw [ERE.perlFrom, ERE.firstFrom, perlERE_eq e hp]
    | cons c r ih => intro off; rw [ERE.perlFrom, ERE.firstFrom, perlERE_eq e hp, ih]; rfl
  exact this text 0

end Ere
