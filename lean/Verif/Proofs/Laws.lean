import Verif.Spec.Laws
import Verif.Spec.Syntax
import Verif.Proofs.TreeSem

/-!
# Laws of patterns
-/

namespace Ere

/-! ## Surroundings of a match -/

theorem branchesHaveStart_mem {bs : List EREBranch} (h : branchesHaveStart bs = false) {b : EREBranch} (hb : b ∈ bs) :
    b.hasStart = false := by
  induction bs with
  | nil => simp at hb
  | cons x xs ih =>
    simp only [branchesHaveStart, Bool.or_eq_false_iff] at h
    rcases List.mem_cons.mp hb with rfl | hb
    · exact h.1
    · exact ih h.2 hb

theorem branchesHaveEnd_mem {bs : List EREBranch} (h : branchesHaveEnd bs = false) {b : EREBranch} (hb : b ∈ bs) :
    b.hasEnd = false := by
  induction bs with
  | nil => simp at hb
  | cons x xs ih =>
    simp only [branchesHaveEnd, Bool.or_eq_false_iff] at h
    rcases List.mem_cons.mp hb with rfl | hb
    · exact h.1
    · exact ih h.2 hb

mutual
theorem MatchesERE.noStart : {e : ERE} → {pre mid post : List Char} → MatchesERE e pre mid post → e.hasStart = false →
    ∀ pre', MatchesERE e pre' mid post
  | _, _, _, _, .intro hb h, hs, pre' => .intro hb (h.noStart (branchesHaveStart_mem hs hb) pre')
theorem MatchesBranch.noStart : {e : EREBranch} → {pre mid post : List Char} → MatchesBranch e pre mid post →
    e.hasStart = false → ∀ pre', MatchesBranch e pre' mid post
  | _, _, _, _, .nil, _, _ => .nil
  | _, _, _, _, .cons (p := p) (ps := ps) h1 h2, hs, pre' => by
    have hs' : (p.hasStart || partsHaveStart ps) = false := hs
    rw [Bool.or_eq_false_iff] at hs'
    exact .cons (h1.noStart hs'.1 pre') (h2.noStart hs'.2 _)
theorem MatchesPart.noStart : {e : EREPart} → {pre mid post : List Char} → MatchesPart e pre mid post →
    e.hasStart = false → ∀ pre', MatchesPart e pre' mid post
  | _, _, _, _, .single h, hs, pre' => .single (h.noStart hs pre')
  | _, _, _, _, .quantified h1 h2 h, hs, pre' => .quantified h1 h2 (h.noStart hs pre')
  | _, _, _, _, .start, hs, _ => by simp [EREPart.hasStart] at hs
  | _, _, _, _, .end_, _, _ => .end_
theorem MatchesTimes.noStart : {e : EREExpr} → {n : Nat} → {pre mid post : List Char} → MatchesTimes e n pre mid post →
    e.hasStart = false → ∀ pre', MatchesTimes e n pre' mid post
  | _, _, _, _, _, .zero, _, _ => .zero
  | _, _, _, _, _, .succ h1 h2, hs, pre' => .succ (h1.noStart hs pre') (h2.noStart hs _)
theorem MatchesExpr.noStart : {e : EREExpr} → {pre mid post : List Char} → MatchesExpr e pre mid post →
    e.hasStart = false → ∀ pre', MatchesExpr e pre' mid post
  | _, _, _, _, .atom h, _, _ => .atom h
  | _, _, _, _, .sub h, hs, pre' => .sub (h.noStart hs pre')
end

mutual
theorem MatchesERE.noEnd : {e : ERE} → {pre mid post : List Char} → MatchesERE e pre mid post → e.hasEnd = false →
    ∀ post', MatchesERE e pre mid post'
  | _, _, _, _, .intro hb h, hs, post' => .intro hb (h.noEnd (branchesHaveEnd_mem hs hb) post')
theorem MatchesBranch.noEnd : {e : EREBranch} → {pre mid post : List Char} → MatchesBranch e pre mid post →
    e.hasEnd = false → ∀ post', MatchesBranch e pre mid post'
  | _, _, _, _, .nil, _, _ => .nil
  | _, _, _, _, .cons (p := p) (ps := ps) h1 h2, hs, post' => by
    have hs' : (p.hasEnd || partsHaveEnd ps) = false := hs
    rw [Bool.or_eq_false_iff] at hs'
    exact .cons (h1.noEnd hs'.1 _) (h2.noEnd hs'.2 _)
theorem MatchesPart.noEnd : {e : EREPart} → {pre mid post : List Char} → MatchesPart e pre mid post →
    e.hasEnd = false → ∀ post', MatchesPart e pre mid post'
  | _, _, _, _, .single h, hs, post' => .single (h.noEnd hs post')
  | _, _, _, _, .quantified h1 h2 h, hs, post' => .quantified h1 h2 (h.noEnd hs post')
  | _, _, _, _, .end_, hs, _ => by simp [EREPart.hasEnd] at hs
  | _, _, _, _, .start, _, _ => .start
theorem MatchesTimes.noEnd : {e : EREExpr} → {n : Nat} → {pre mid post : List Char} → MatchesTimes e n pre mid post →
    e.hasEnd = false → ∀ post', MatchesTimes e n pre mid post'
  | _, _, _, _, _, .zero, _, _ => .zero
  | _, _, _, _, _, .succ h1 h2, hs, _ => .succ (h1.noEnd hs _) (h2.noEnd hs _)
theorem MatchesExpr.noEnd : {e : EREExpr} → {pre mid post : List Char} → MatchesExpr e pre mid post →
    e.hasEnd = false → ∀ post', MatchesExpr e pre mid post'
  | _, _, _, _, .atom h, _, _ => .atom h
  | _, _, _, _, .sub h, hs, post' => .sub (h.noEnd hs post')
end

theorem matchesIn_before {e : ERE} (hs : e.hasStart = false) {text : List Char} (h : e.MatchesIn text) (a : List Char) :
    e.MatchesIn (a ++ text) := by
  obtain ⟨pre, mid, post, ht, hm⟩ := h
  exact ⟨a ++ pre, mid, post, by simp [ht], hm.noStart hs _⟩

theorem matchesIn_after {e : ERE} (hs : e.hasEnd = false) {text : List Char} (h : e.MatchesIn text) (b : List Char) :
    e.MatchesIn (text ++ b) := by
  obtain ⟨pre, mid, post, ht, hm⟩ := h
  exact ⟨pre, mid, post ++ b, by simp [ht], hm.noEnd hs _⟩

/-! ## Sequences of parts -/

/-- Parts one after another. -/
def MatchesParts (ps : List EREPart) (pre mid post : List Char) : Prop := MatchesBranch (.mk ps) pre mid post

theorem matchesParts_nil {pre mid post : List Char} : MatchesParts [] pre mid post ↔ mid = [] := by
  constructor
  · intro h; cases h; rfl
  · rintro rfl; exact .nil

theorem matchesParts_cons {p : EREPart} {ps : List EREPart} {pre mid post : List Char} :
    MatchesParts (p :: ps) pre mid post ↔
      ∃ m1 m2, mid = m1 ++ m2 ∧ MatchesPart p pre m1 (m2 ++ post) ∧ MatchesParts ps (pre ++ m1) m2 post := by
  constructor
  · intro h
    cases h with
    | cons h1 h2 => exact ⟨_, _, rfl, h1, h2⟩
  · rintro ⟨m1, m2, rfl, h1, h2⟩
    exact .cons h1 h2

theorem matchesParts_append {ps qs : List EREPart} {pre mid post : List Char} :
    MatchesParts (ps ++ qs) pre mid post ↔
      ∃ m1 m2, mid = m1 ++ m2 ∧ MatchesParts ps pre m1 (m2 ++ post) ∧ MatchesParts qs (pre ++ m1) m2 post := by
  induction ps generalizing pre mid with
  | nil =>
    simp only [List.nil_append, matchesParts_nil]
    constructor
    · intro h; exact ⟨[], mid, rfl, rfl, by simpa using h⟩
    · rintro ⟨m1, m2, rfl, rfl, h⟩; simpa using h
  | cons p ps ih =>
    simp only [List.cons_append, matchesParts_cons, ih]
    constructor
    · rintro ⟨m1, m2, rfl, h1, m3, m4, rfl, h2, h3⟩
      refine ⟨m1 ++ m3, m4, by simp, ⟨m1, m3, rfl, ?_, h2⟩, by simpa using h3⟩
      simpa using h1
    · rintro ⟨m1, m2, rfl, ⟨m3, m4, rfl, h1, h2⟩, h3⟩
      refine ⟨m3, m4 ++ m2, by simp, ?_, m4, m2, rfl, h2, by simpa using h3⟩
      simpa using h1

theorem matchesParts_single {p : EREPart} {pre mid post : List Char} :
    MatchesParts [p] pre mid post ↔ MatchesPart p pre mid post := by
  rw [matchesParts_cons]
  constructor
  · rintro ⟨m1, m2, rfl, h1, h2⟩
    rw [matchesParts_nil] at h2
    subst h2
    simpa using h1
  · intro h
    exact ⟨mid, [], by simp, by simpa using h, matchesParts_nil.mpr rfl⟩

/-! ## Repetition -/

theorem matchesTimes_zero {e : EREExpr} {pre mid post : List Char} : MatchesTimes e 0 pre mid post ↔ mid = [] := by
  constructor
  · intro h; cases h; rfl
  · rintro rfl; exact .zero

theorem matchesTimes_succ {e : EREExpr} {n : Nat} {pre mid post : List Char} : MatchesTimes e (n + 1) pre mid post ↔
    ∃ m1 m2, mid = m1 ++ m2 ∧ MatchesExpr e pre m1 (m2 ++ post) ∧ MatchesTimes e n (pre ++ m1) m2 post := by
  constructor
  · intro h
    cases h with
    | succ h1 h2 => exact ⟨_, _, rfl, h1, h2⟩
  · rintro ⟨m1, m2, rfl, h1, h2⟩
    exact .succ h1 h2

theorem matchesTimes_one {e : EREExpr} {pre mid post : List Char} :
    MatchesTimes e 1 pre mid post ↔ MatchesExpr e pre mid post := by
  rw [matchesTimes_succ]
  constructor
  · rintro ⟨m1, m2, rfl, h1, h2⟩
    rw [matchesTimes_zero] at h2
    subst h2
    simpa using h1
  · intro h
    exact ⟨mid, [], by simp, by simpa using h, .zero⟩

theorem matchesTimes_add {e : EREExpr} {m n : Nat} {pre mid post : List Char} : MatchesTimes e (m + n) pre mid post ↔
    ∃ m1 m2, mid = m1 ++ m2 ∧ MatchesTimes e m pre m1 (m2 ++ post) ∧ MatchesTimes e n (pre ++ m1) m2 post := by
  induction m generalizing pre mid with
  | zero =>
    simp only [Nat.zero_add, matchesTimes_zero]
    constructor
    · intro h; exact ⟨[], mid, rfl, rfl, by simpa using h⟩
    · rintro ⟨m1, m2, rfl, rfl, h⟩; simpa using h
  | succ m ih =>
    rw [show m + 1 + n = (m + n) + 1 by omega]
    simp only [matchesTimes_succ, ih]
    constructor
    · rintro ⟨m1, m2, rfl, h1, m3, m4, rfl, h2, h3⟩
      exact ⟨m1 ++ m3, m4, by simp, ⟨m1, m3, rfl, by simpa using h1, h2⟩, by simpa using h3⟩
    · rintro ⟨m1, m2, rfl, ⟨m3, m4, rfl, h1, h2⟩, h3⟩
      exact ⟨m3, m4 ++ m2, by simp, by simpa using h1, m4, m2, rfl, h2, by simpa using h3⟩

/-- A quantified part: some admissible number of repetitions. -/
theorem matchesPart_quantified {e : EREExpr} {q : Quantifier} {pre mid post : List Char} :
    MatchesPart (.quantified e q) pre mid post ↔
      ∃ n, q.q.min ≤ n ∧ (∀ m, q.q.max = some m → n ≤ m) ∧ MatchesTimes e n pre mid post := by
  constructor
  · intro h
    cases h with
    | quantified h1 h2 h3 => exact ⟨_, h1, h2, h3⟩
  · rintro ⟨n, h1, h2, h3⟩
    exact .quantified h1 h2 h3

theorem quantified_congr {e : EREExpr} {q q' : Quantifier} (h1 : q.q.min = q'.q.min) (h2 : q.q.max = q'.q.max)
    {pre mid post : List Char} : MatchesPart (.quantified e q) pre mid post ↔ MatchesPart (.quantified e q') pre mid post := by
  rw [matchesPart_quantified, matchesPart_quantified, h1, h2]

theorem matchesPart_single {e : EREExpr} {pre mid post : List Char} :
    MatchesPart (.single e) pre mid post ↔ MatchesExpr e pre mid post := by
  constructor
  · intro h; cases h; assumption
  · exact .single

/-- Two quantified parts one after another. -/
theorem quantified_two {e : EREExpr} {q r s : Quantifier}
    (h : ∀ n, (q.q.min ≤ n ∧ ∀ m, q.q.max = some m → n ≤ m) ↔
      ∃ k l, n = k + l ∧ (r.q.min ≤ k ∧ ∀ m, r.q.max = some m → k ≤ m) ∧ (s.q.min ≤ l ∧ ∀ m, s.q.max = some m → l ≤ m))
    {pre mid post : List Char} : MatchesParts [.quantified e q] pre mid post ↔
      MatchesParts [.quantified e r, .quantified e s] pre mid post := by
  rw [matchesParts_single, matchesParts_cons]
  simp only [matchesParts_single, matchesPart_quantified]
  constructor
  · rintro ⟨n, h1, h2, h3⟩
    obtain ⟨k, l, rfl, ⟨k1, k2⟩, l1, l2⟩ := (h n).mp ⟨h1, h2⟩
    obtain ⟨m1, m2, rfl, h4, h5⟩ := matchesTimes_add.mp h3
    exact ⟨m1, m2, rfl, ⟨k, k1, k2, h4⟩, l, l1, l2, h5⟩
  · rintro ⟨m1, m2, rfl, ⟨k, k1, k2, h4⟩, l, l1, l2, h5⟩
    obtain ⟨h1, h2⟩ := (h (k + l)).mpr ⟨k, l, rfl, ⟨k1, k2⟩, l1, l2⟩
    exact ⟨k + l, h1, h2, matchesTimes_add.mpr ⟨m1, m2, rfl, h4, h5⟩⟩

theorem matchesTimes_congr {e e' : EREExpr} (h : ∀ pre mid post, MatchesExpr e pre mid post ↔ MatchesExpr e' pre mid post)
    {n : Nat} {pre mid post : List Char} : MatchesTimes e n pre mid post ↔ MatchesTimes e' n pre mid post := by
  induction n generalizing pre mid with
  | zero => rw [matchesTimes_zero, matchesTimes_zero]
  | succ n ih => simp only [matchesTimes_succ, h, ih]

theorem matchesERE_iff {bs : List EREBranch} {pre mid post : List Char} :
    MatchesERE (.mk bs) pre mid post ↔ ∃ b ∈ bs, MatchesBranch b pre mid post := by
  constructor
  · intro h
    cases h with
    | intro h1 h2 => exact ⟨_, h1, h2⟩
  · rintro ⟨b, h1, h2⟩
    exact .intro h1 h2

theorem matchesExpr_sub {e : ERE} {pre mid post : List Char} : MatchesExpr (.sub e) pre mid post ↔ MatchesERE e pre mid post := by
  constructor
  · intro h; cases h; assumption
  · exact .sub

theorem star_star {e : EREExpr} {n : Nat} {pre mid post : List Char}
    (h : MatchesTimes (.sub (.mk [.mk [.quantified e QType.star.greedy]])) n pre mid post) :
    ∃ k, MatchesTimes e k pre mid post := by
  induction n generalizing pre mid with
  | zero =>
    rw [matchesTimes_zero] at h
    subst h
    exact ⟨0, .zero⟩
  | succ n ih =>
    rw [matchesTimes_succ] at h
    obtain ⟨m1, m2, rfl, h1, h2⟩ := h
    obtain ⟨k, hk⟩ := ih h2
    rw [matchesExpr_sub, matchesERE_iff] at h1
    obtain ⟨b, hb, h1⟩ := h1
    rw [List.mem_singleton] at hb
    subst hb
    have h1' := matchesParts_single.mp h1
    rw [matchesPart_quantified] at h1'
    obtain ⟨l, _, _, hl⟩ := h1'
    exact ⟨l + k, matchesTimes_add.mpr ⟨m1, m2, rfl, hl, hk⟩⟩

theorem bound_some {n m : Nat} : (∀ k, some n = some k → m ≤ k) ↔ m ≤ n := by
  constructor
  · intro h; exact h n rfl
  · intro h k hk; rw [← Option.some.inj hk]; exact h

/-! ## The laws hold -/

mutual
theorem LawERE.sound : {e e' : ERE} → LawERE e e' → ∀ pre mid post, MatchesERE e pre mid post ↔ MatchesERE e' pre mid post
  | _, _, .refl, _, _, _ => Iff.rfl
  | _, _, .symm h, pre, mid, post => (h.sound pre mid post).symm
  | _, _, .trans h1 h2, pre, mid, post => (h1.sound pre mid post).trans (h2.sound pre mid post)
  | _, _, .alternatives h, pre, mid, post => by
    rw [matchesERE_iff, matchesERE_iff]
    exact ⟨fun ⟨b, h1, h2⟩ => ⟨b, (h b).mp h1, h2⟩, fun ⟨b, h1, h2⟩ => ⟨b, (h b).mpr h1, h2⟩⟩
  | _, _, .branch h, pre, mid, post => by
    have := h.sound pre mid post
    rw [matchesERE_iff, matchesERE_iff]
    simp only [List.mem_append, List.mem_cons]
    constructor
    · rintro ⟨b, h1 | rfl | h1, h2⟩
      · exact ⟨b, Or.inl h1, h2⟩
      · exact ⟨_, Or.inr (Or.inl rfl), this.mp h2⟩
      · exact ⟨b, Or.inr (Or.inr h1), h2⟩
    · rintro ⟨b, h1 | rfl | h1, h2⟩
      · exact ⟨b, Or.inl h1, h2⟩
      · exact ⟨_, Or.inr (Or.inl rfl), this.mpr h2⟩
      · exact ⟨b, Or.inr (Or.inr h1), h2⟩
  | _, _, .distribute (bs1 := bs1) (ps1 := ps1) (bs := bs) (ps2 := ps2) (bs2 := bs2), pre, mid, post => by
    have key : MatchesParts (ps1 ++ .single (.sub (.mk bs)) :: ps2) pre mid post ↔
        ∃ b ∈ bs, MatchesParts (ps1 ++ b.parts ++ ps2) pre mid post := by
      rw [matchesParts_append]
      constructor
      · rintro ⟨m1, m2, rfl, h1, h2⟩
        rw [matchesParts_cons] at h2
        obtain ⟨m3, m4, rfl, h3, h4⟩ := h2
        rw [matchesPart_single, matchesExpr_sub, matchesERE_iff] at h3
        obtain ⟨⟨ps⟩, hb, h3⟩ := h3
        refine ⟨_, hb, ?_⟩
        rw [List.append_assoc, matchesParts_append]
        refine ⟨m1, m3 ++ m4, rfl, h1, ?_⟩
        rw [matchesParts_append]
        exact ⟨m3, m4, rfl, h3, h4⟩
      · rintro ⟨⟨ps⟩, hb, h⟩
        rw [List.append_assoc, matchesParts_append] at h
        obtain ⟨m1, m2, rfl, h1, h2⟩ := h
        rw [matchesParts_append] at h2
        obtain ⟨m3, m4, rfl, h3, h4⟩ := h2
        refine ⟨m1, m3 ++ m4, rfl, h1, ?_⟩
        rw [matchesParts_cons]
        refine ⟨m3, m4, rfl, ?_, h4⟩
        rw [matchesPart_single, matchesExpr_sub, matchesERE_iff]
        exact ⟨_, hb, h3⟩
    rw [matchesERE_iff, matchesERE_iff]
    simp only [List.mem_append, List.mem_cons, List.mem_map]
    constructor
    · rintro ⟨b, h1 | rfl | h1, h2⟩
      · exact ⟨b, Or.inl h1, h2⟩
      · obtain ⟨b, hb, h3⟩ := key.mp h2
        exact ⟨_, Or.inr (Or.inl ⟨b, hb, rfl⟩), h3⟩
      · exact ⟨b, Or.inr (Or.inr h1), h2⟩
    · rintro ⟨b, h1 | ⟨b', hb', rfl⟩ | h1, h2⟩
      · exact ⟨b, Or.inl h1, h2⟩
      · exact ⟨_, Or.inr (Or.inl rfl), key.mpr ⟨b', hb', h2⟩⟩
      · exact ⟨b, Or.inr (Or.inr h1), h2⟩
theorem LawBranch.sound : {b b' : EREBranch} → LawBranch b b' →
    ∀ pre mid post, MatchesBranch b pre mid post ↔ MatchesBranch b' pre mid post
  | _, _, .parts (ps1 := ps1) (ps := ps) (ps' := ps') (ps2 := ps2) h, pre, mid, post => by
    have hs := h.sound
    show MatchesParts (ps1 ++ (ps ++ ps2)) pre mid post ↔ MatchesParts (ps1 ++ (ps' ++ ps2)) pre mid post
    simp only [matchesParts_append, hs]
theorem LawParts.sound : {ps ps' : List EREPart} → LawParts ps ps' →
    ∀ pre mid post, MatchesParts ps pre mid post ↔ MatchesParts ps' pre mid post
  | _, _, .plus, pre, mid, post => by
    rw [matchesParts_single, matchesParts_cons]
    simp only [matchesParts_single, matchesPart_quantified, matchesPart_single]
    simp only [QType.greedy, QType.min, QType.max]
    constructor
    · rintro ⟨n, h1, _, h3⟩
      obtain ⟨k, rfl⟩ : ∃ k, n = k + 1 := ⟨n - 1, by omega⟩
      obtain ⟨m1, m2, rfl, h4, h5⟩ := matchesTimes_succ.mp h3
      exact ⟨m1, m2, rfl, h4, k, by omega, by simp, h5⟩
    · rintro ⟨m1, m2, rfl, h4, k, _, _, h5⟩
      exact ⟨k + 1, by omega, by simp, matchesTimes_succ.mpr ⟨m1, m2, rfl, h4, h5⟩⟩
  | _, _, .question, _, _, _ => by
    rw [matchesParts_single, matchesParts_single]; apply quantified_congr <;> rfl
  | _, _, .star, _, _, _ => by
    rw [matchesParts_single, matchesParts_single]; apply quantified_congr <;> rfl
  | _, _, .exact, _, _, _ => by
    rw [matchesParts_single, matchesParts_single]; apply quantified_congr <;> rfl
  | _, _, .lazy, _, _, _ => by
    rw [matchesParts_single, matchesParts_single]; apply quantified_congr <;> rfl
  | _, _, .none, _, _, _ => by
    rw [matchesParts_single, matchesParts_nil, matchesPart_quantified]
    simp only [QType.greedy, QType.min, QType.max, bound_some]
    constructor
    · rintro ⟨n, _, h2, h3⟩
      obtain rfl : n = 0 := by omega
      exact matchesTimes_zero.mp h3
    · intro h
      exact ⟨0, by omega, by omega, matchesTimes_zero.mpr h⟩
  | _, _, .one, _, _, _ => by
    rw [matchesParts_single, matchesParts_single, matchesPart_quantified, matchesPart_single]
    simp only [QType.greedy, QType.min, QType.max, bound_some]
    constructor
    · rintro ⟨n, h1, h2, h3⟩
      obtain rfl : n = 1 := by omega
      exact matchesTimes_one.mp h3
    · intro h
      exact ⟨1, by omega, by omega, matchesTimes_one.mpr h⟩
  | _, _, .split (m := a) (n := b), _, _, _ => by
    refine quantified_two fun n => ?_
    simp only [QType.greedy, QType.min, QType.max, bound_some]
    constructor
    · intro h; exact ⟨a, b, by omega, by omega, by omega⟩
    · rintro ⟨k, l, rfl, _, _⟩; omega
  | _, _, .atLeast (n := a), _, _, _ => by
    refine quantified_two fun n => ?_
    simp only [QType.greedy, QType.min, QType.max, bound_some]
    constructor
    · intro h; exact ⟨a, n - a, by omega, by omega, by omega, by simp⟩
    · rintro ⟨k, l, rfl, _, _⟩; exact ⟨by omega, by simp⟩
  | _, _, .range (m := a) (n := b), _, _, _ => by
    refine quantified_two fun n => ?_
    simp only [QType.greedy, QType.min, QType.max, bound_some]
    constructor
    · intro h; exact ⟨a, n - a, by omega, by omega, by omega⟩
    · rintro ⟨k, l, rfl, _, _⟩; omega
  | _, _, .starStar (e := e), pre, mid, post => by
    rw [matchesParts_single, matchesParts_single, matchesPart_quantified, matchesPart_quantified]
    simp only [QType.greedy, QType.min, QType.max]
    constructor
    · rintro ⟨n, _, _, h⟩
      obtain ⟨k, hk⟩ := star_star h
      exact ⟨k, by omega, by simp, hk⟩
    · rintro ⟨k, _, _, hk⟩
      refine ⟨1, by omega, by simp, ?_⟩
      rw [matchesTimes_one, matchesExpr_sub, matchesERE_iff]
      refine ⟨_, List.mem_singleton.mpr rfl, matchesParts_single.mpr ?_⟩
      rw [matchesPart_quantified]
      exact ⟨k, by simp [QType.min], by simp [QType.max], hk⟩
  | _, _, .start, pre, mid, post => by
    rw [matchesParts_cons, matchesParts_single]
    simp only [matchesParts_single]
    constructor
    · rintro ⟨m1, m2, rfl, h1, h2⟩
      cases h1; cases h2; exact .start
    · intro h
      cases h
      exact ⟨[], [], rfl, .start, .start⟩
  | _, _, .end_, pre, mid, post => by
    rw [matchesParts_cons, matchesParts_single]
    simp only [matchesParts_single]
    constructor
    · rintro ⟨m1, m2, rfl, h1, h2⟩
      cases h2
      cases h1; exact .end_
    · intro h
      cases h
      exact ⟨[], [], rfl, .end_, by rw [List.append_nil]; exact .end_⟩
  | _, _, .single h, pre, mid, post => by
    rw [matchesParts_single, matchesParts_single, matchesPart_single, matchesPart_single]
    exact h.sound pre mid post
  | _, _, .quantified h, pre, mid, post => by
    have hs := h.sound
    rw [matchesParts_single, matchesParts_single, matchesPart_quantified, matchesPart_quantified]
    simp only [matchesTimes_congr hs]
theorem LawExpr.sound : {e e' : EREExpr} → LawExpr e e' → ∀ pre mid post, MatchesExpr e pre mid post ↔ MatchesExpr e' pre mid post
  | _, _, .atom h, pre, mid, post => by
    constructor
    · intro hm; cases hm with
      | atom h1 => exact .atom ((h _).symm.trans h1)
    · intro hm; cases hm with
      | atom h1 => exact .atom ((h _).trans h1)
  | _, _, .sub h, pre, mid, post => by
    rw [matchesExpr_sub, matchesExpr_sub]
    exact h.sound pre mid post
end

theorem LawERE.matchesIn {e e' : ERE} (h : LawERE e e') (text : List Char) : e.MatchesIn text ↔ e'.MatchesIn text := by
  unfold ERE.MatchesIn
  simp only [h.sound]

end Ere
