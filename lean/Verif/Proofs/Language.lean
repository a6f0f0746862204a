import Verif.Spec.Language
import Verif.Spec.Framed
import Verif.Props.Posix

/-! The language of a pattern and the relation `MatchesERE` describe the same. -/

namespace Ere

open scoped Computability
open Language

theorem mem_optPow {L : Language Char} {k : Nat} {w : List Char} : w ∈ (1 + L) ^ k ↔ ∃ i ≤ k, w ∈ L ^ i := by
  induction k generalizing w with
  | zero => simp
  | succ k ih =>
    rw [pow_succ', mem_mul]
    constructor
    · rintro ⟨a, ha, b, hb, rfl⟩
      obtain ⟨i, hi, hw⟩ := ih.1 hb
      rcases ha with ha | ha
      · rw [show a = [] from ha]
        exact ⟨i, by omega, hw⟩
      · exact ⟨i + 1, by omega, by rw [pow_succ']; exact append_mem_mul ha hw⟩
    · rintro ⟨i, hi, hw⟩
      cases i with
      | zero =>
        rw [pow_zero, mem_one] at hw
        subst hw
        exact ⟨[], .inl rfl, [], ih.2 ⟨0, by omega, rfl⟩, rfl⟩
      | succ i =>
        rw [pow_succ', mem_mul] at hw
        obtain ⟨a, ha, b, hb, rfl⟩ := hw
        exact ⟨a, .inr ha, b, ih.2 ⟨i, by omega, hb⟩, rfl⟩

theorem mem_kstar_pow {L : Language Char} {w : List Char} : w ∈ L∗ ↔ ∃ i : Nat, w ∈ L ^ i := by
  rw [kstar_eq_iSup_pow, mem_iSup]

/-- A quantifier is a choice of the number of rounds. -/
theorem mem_qlang {q : QType} {L : Language Char} {w : List Char} :
    w ∈ q.lang L ↔ ∃ n, q.min ≤ n ∧ (∀ m, q.max = some m → n ≤ m) ∧ w ∈ L ^ n := by
  have shift (n : Nat) (P : Nat → Prop) : w ∈ L ^ n * (show Language Char from {v | ∃ i, P i ∧ v ∈ L ^ i}) ↔ ∃ i, P i ∧ w ∈ L ^ (n + i) := by
    rw [mem_mul]
    constructor
    · rintro ⟨a, ha, b, ⟨i, hi, hb⟩, rfl⟩
      exact ⟨i, hi, by rw [pow_add]; exact append_mem_mul ha hb⟩
    · rintro ⟨i, hi, hw⟩
      rw [pow_add, mem_mul] at hw
      obtain ⟨a, ha, b, hb, rfl⟩ := hw
      exact ⟨a, ha, b, ⟨i, hi, hb⟩, rfl⟩
  have hstar : (L∗ : Language Char) = (show Language Char from {v | ∃ i, True ∧ v ∈ L ^ i}) := by
    ext v
    rw [mem_kstar_pow]
    exact ⟨fun ⟨i, h⟩ => ⟨i, trivial, h⟩, fun ⟨i, _, h⟩ => ⟨i, h⟩⟩
  have hopt (k : Nat) : (1 + L) ^ k = (show Language Char from {v | ∃ i, i ≤ k ∧ v ∈ L ^ i}) := by
    ext v
    exact mem_optPow
  cases q with
  | star =>
    rw [QType.lang, mem_kstar_pow]
    exact ⟨fun ⟨i, h⟩ => ⟨i, Nat.zero_le _, nofun, h⟩, fun ⟨i, _, _, h⟩ => ⟨i, h⟩⟩
  | plus =>
    have := shift 1 (fun _ => True)
    rw [← hstar, pow_one] at this
    rw [QType.lang, this]
    constructor
    · rintro ⟨i, _, h⟩
      exact ⟨1 + i, by simp [QType.min], nofun, h⟩
    · rintro ⟨i, h1, _, h⟩
      simp only [QType.min] at h1
      exact ⟨i - 1, trivial, by rwa [show 1 + (i - 1) = i by omega]⟩
  | question =>
    have := mem_optPow (L := L) (k := 1) (w := w)
    rw [pow_one] at this
    rw [QType.lang, this]
    constructor
    · rintro ⟨i, h1, h⟩
      exact ⟨i, Nat.zero_le _, fun m hm => by cases hm; exact h1, h⟩
    · rintro ⟨i, _, h1, h⟩
      exact ⟨i, h1 1 rfl, h⟩
  | multiple n =>
    rw [QType.lang]
    constructor
    · exact fun h => ⟨n, Nat.le_refl _, fun m hm => by cases hm; exact Nat.le_refl _, h⟩
    · rintro ⟨i, h1, h2, h⟩
      have := h2 n rfl
      simp only [QType.min] at h1
      rwa [show n = i by omega]
  | range n m =>
    cases m with
    | none =>
      have := shift n (fun _ => True)
      rw [← hstar] at this
      rw [QType.lang, this]
      constructor
      · rintro ⟨i, _, h⟩
        exact ⟨n + i, by simp [QType.min], nofun, h⟩
      · rintro ⟨i, h1, _, h⟩
        simp only [QType.min] at h1
        exact ⟨i - n, trivial, by rwa [show n + (i - n) = i by omega]⟩
    | some m =>
      rw [QType.lang]
      split
      · rename_i hnm
        have := shift n (fun i => i ≤ m - n)
        rw [← hopt] at this
        rw [this]
        constructor
        · rintro ⟨i, h1, h⟩
          exact ⟨n + i, by simp [QType.min], fun k hk => by cases hk; omega, h⟩
        · rintro ⟨i, h1, h2, h⟩
          have := h2 m rfl
          simp only [QType.min] at h1
          exact ⟨i - n, by omega, by rwa [show n + (i - n) = i by omega]⟩
      · rename_i hnm
        refine ⟨fun h => absurd h (notMem_zero _), ?_⟩
        rintro ⟨i, h1, h2, h⟩
        have := h2 m rfl
        simp only [QType.min] at h1
        omega

mutual
/-- What a pattern matches is in its language. -/
theorem MatchesERE.lang {e : ERE} {pre mid post : List Char} (h : MatchesERE e pre mid post) : mid ∈ e.lang :=
  match h with
  | .intro (bs := bs) (b := b) hb hm => by
    have := hm.lang
    rw [ERE.lang]
    clear hm h
    induction bs with
    | nil => cases hb
    | cons b' bs ih =>
      rw [branchesLang, mem_add]
      rcases List.mem_cons.1 hb with rfl | hb
      · exact .inl this
      · exact .inr (ih hb)
theorem MatchesBranch.lang {b : EREBranch} {pre mid post : List Char} (h : MatchesBranch b pre mid post) :
    mid ∈ b.lang :=
  match h with
  | .nil => rfl
  | .cons h1 h2 => append_mem_mul h1.lang h2.lang
theorem MatchesPart.lang {p : EREPart} {pre mid post : List Char} (h : MatchesPart p pre mid post) : mid ∈ p.lang :=
  match h with
  | .single h => h.lang
  | .quantified h1 h2 h3 => by
    rw [EREPart.lang, mem_qlang]
    exact ⟨_, h1, h2, h3.lang⟩
  | .start => rfl
  | .end_ => rfl
theorem MatchesTimes.lang {x : EREExpr} {n : Nat} {pre mid post : List Char} (h : MatchesTimes x n pre mid post) :
    mid ∈ x.lang ^ n :=
  match h with
  | .zero => by rw [pow_zero]; rfl
  | .succ h1 h2 => by rw [pow_succ']; exact append_mem_mul h1.lang h2.lang
theorem MatchesExpr.lang {x : EREExpr} {pre mid post : List Char} (h : MatchesExpr x pre mid post) : mid ∈ x.lang :=
  match h with
  | .atom (c := c) h => ⟨c, (Props.C75_atoms _ _).1 h, rfl⟩
  | .sub h => by rw [EREExpr.lang]; exact h.lang
end

theorem times_of_lang {x : EREExpr} (hx : ∀ pre mid post, mid ∈ x.lang → MatchesExpr x pre mid post) {n : Nat} :
    ∀ {pre mid post : List Char}, mid ∈ x.lang ^ n → MatchesTimes x n pre mid post := by
  induction n with
  | zero =>
    intro pre mid post h
    rw [pow_zero, mem_one] at h
    subst h
    exact .zero
  | succ n ih =>
    intro pre mid post h
    rw [pow_succ', mem_mul] at h
    obtain ⟨a, ha, b, hb, rfl⟩ := h
    exact .succ (hx _ _ _ ha) (ih hb)

mutual
/-- A pattern without anchors matches what is in its language, anywhere. -/
theorem ERE.of_lang : ∀ (e : ERE), e.hasStart = false → e.hasEnd = false → ∀ {pre mid post : List Char},
    mid ∈ e.lang → MatchesERE e pre mid post
  | .mk bs, h1, h2 => by
    intro h
    rw [ERE.hasStart] at h1
    rw [ERE.hasEnd] at h2
    rw [ERE.lang] at h
    obtain ⟨b, hb, hm⟩ := branches_of_lang bs h1 h2 _ _ h
    exact .intro hb hm
theorem branches_of_lang : ∀ (bs : List EREBranch), branchesHaveStart bs = false → branchesHaveEnd bs = false →
    ∀ {mid : List Char} (pre post), mid ∈ branchesLang bs → ∃ b ∈ bs, MatchesBranch b pre mid post
  | [], _, _ => by
    intro pre post h
    rw [branchesLang] at h
    exact absurd h (notMem_zero _)
  | b :: bs, h1, h2 => by
    intro pre post h
    simp only [branchesHaveStart, branchesHaveEnd, Bool.or_eq_false_iff] at h1 h2
    rw [branchesLang, mem_add] at h
    rcases h with h | h
    · exact ⟨b, by simp, EREBranch.of_lang b h1.1 h2.1 h⟩
    · obtain ⟨b', hb, hm⟩ := branches_of_lang bs h1.2 h2.2 pre post h
      exact ⟨b', by simp [hb], hm⟩
theorem EREBranch.of_lang : ∀ (b : EREBranch), b.hasStart = false → b.hasEnd = false → ∀ {pre mid post : List Char},
    mid ∈ b.lang → MatchesBranch b pre mid post
  | .mk ps, h1, h2 => by
    intro h
    rw [EREBranch.hasStart] at h1
    rw [EREBranch.hasEnd] at h2
    rw [EREBranch.lang] at h
    exact parts_of_lang ps h1 h2 h
theorem parts_of_lang : ∀ (ps : List EREPart), partsHaveStart ps = false → partsHaveEnd ps = false →
    ∀ {pre mid post : List Char}, mid ∈ partsLang ps → MatchesBranch (.mk ps) pre mid post
  | [], _, _ => by
    intro h
    rw [partsLang, mem_one] at h
    subst h
    exact .nil
  | p :: ps, h1, h2 => by
    intro h
    simp only [partsHaveStart, partsHaveEnd, Bool.or_eq_false_iff] at h1 h2
    rw [partsLang, mem_mul] at h
    obtain ⟨a, ha, b, hb, rfl⟩ := h
    exact .cons (EREPart.of_lang p h1.1 h2.1 ha) (parts_of_lang ps h1.2 h2.2 hb)
theorem EREPart.of_lang : ∀ (p : EREPart), p.hasStart = false → p.hasEnd = false → ∀ {pre mid post : List Char},
    mid ∈ p.lang → MatchesPart p pre mid post
  | .single x, h1, h2 => fun h => by
    rw [EREPart.hasStart] at h1
    rw [EREPart.hasEnd] at h2
    rw [EREPart.lang] at h
    exact .single (EREExpr.of_lang x h1 h2 h)
  | .quantified x q, h1, h2 => fun h => by
    rw [EREPart.hasStart] at h1
    rw [EREPart.hasEnd] at h2
    rw [EREPart.lang, mem_qlang] at h
    obtain ⟨n, h3, h4, h5⟩ := h
    exact .quantified h3 h4 (times_of_lang (fun _ _ _ => EREExpr.of_lang x h1 h2) h5)
  | .start, h1, _ => by cases h1
  | .end_, _, h2 => by cases h2
theorem EREExpr.of_lang : ∀ (x : EREExpr), x.hasStart = false → x.hasEnd = false → ∀ {pre mid post : List Char},
    mid ∈ x.lang → MatchesExpr x pre mid post
  | .atom a, _, _ => by
    rintro ⟨c, hc, rfl⟩
    exact .atom ((Props.C75_atoms _ _).2 hc)
  | .sub e, h1, h2 => fun h => by
    rw [EREExpr.hasStart] at h1
    rw [EREExpr.hasEnd] at h2
    rw [EREExpr.lang] at h
    exact .sub (ERE.of_lang e h1 h2 h)
end

end Ere
