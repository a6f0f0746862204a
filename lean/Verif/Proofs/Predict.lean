import Verif.Spec.Predict
import Verif.Proofs.Decided
import Verif.Proofs.FirstTop

/-!
# The predictive reader finds the only match
-/

namespace Ere

/-! ### Looking ahead -/

theorem true_sight : (fun _ : Sight => (true : Bool) = true) = fun _ => True := by
  funext _
  simp

mutual
theorem ERE.look_iff : ∀ (e : ERE) (F : Sight → Bool) (l : Sight), e.look F l = true ↔ e.sees (fun l => F l = true) l
  | .mk bs, F, l => by
    rw [ERE.look, ERE.sees]
    exact branchesLook_iff bs F l
theorem branchesLook_iff : ∀ (bs : List EREBranch) (F : Sight → Bool) (l : Sight),
    branchesLook bs F l = true ↔ branchesSee bs (fun l => F l = true) l
  | [], F, l => by simp [branchesLook, branchesSee]
  | b :: bs, F, l => by rw [branchesLook, branchesSee, Bool.or_eq_true, EREBranch.look_iff b, branchesLook_iff bs]
theorem EREBranch.look_iff : ∀ (b : EREBranch) (F : Sight → Bool) (l : Sight), b.look F l = true ↔ b.sees (fun l => F l = true) l
  | .mk ps, F, l => by
    rw [EREBranch.look, EREBranch.sees]
    exact partsLook_iff ps F l
theorem partsLook_iff : ∀ (ps : List EREPart) (F : Sight → Bool) (l : Sight),
    partsLook ps F l = true ↔ partsSee ps (fun l => F l = true) l
  | [], F, l => Iff.rfl
  | p :: ps, F, l => by
    rw [partsLook, partsSee, EREPart.look_iff p]
    have : (fun l => partsLook ps F l = true) = partsSee ps fun l => F l = true := by
      funext l
      exact propext (partsLook_iff ps F l)
    rw [this]
theorem EREPart.look_iff : ∀ (p : EREPart) (F : Sight → Bool) (l : Sight), p.look F l = true ↔ p.sees (fun l => F l = true) l
  | .single e, F, l => by rw [EREPart.look, EREPart.sees, EREExpr.look_iff e]
  | .quantified e q, F, l => by
    rw [EREPart.look, EREPart.sees, Bool.or_eq_true, Bool.and_eq_true, Bool.and_eq_true, EREExpr.look_iff e, true_sight]
    simp
  | .start, F, l => Iff.rfl
  | .end_, F, l => by simp [EREPart.look, EREPart.sees]
theorem EREExpr.look_iff : ∀ (x : EREExpr) (F : Sight → Bool) (l : Sight), x.look F l = true ↔ x.sees (fun l => F l = true) l
  | .atom a, F, l => by
    rw [EREExpr.look, EREExpr.sees]
    cases l <;> simp
  | .sub e, F, l => by rw [EREExpr.look, EREExpr.sees, ERE.look_iff e]
end

/-! ### What is read is a match -/

/-- What the reader reads is a match. -/
def SoundRead (C : List Char → List Char → List Char → List Span → Prop) (step : Nat → List Char → Option Reading) : Prop :=
  ∀ pre rest S o r, step (byteLen pre) rest = some (S, o, r) → ∃ mid, rest = mid ++ r ∧ o = byteLen (pre ++ mid) ∧ C pre mid r S

theorem andThen_some {step : Nat → List Char → Option Reading} {S S' : List Span} {off o : Nat} {rest r : List Char} :
    andThen step (S, off, rest) = some (S', o, r) ↔ ∃ T, step off rest = some (T, o, r) ∧ S' = S ++ T := by
  unfold andThen
  rw [Option.map_eq_some_iff]
  constructor
  · rintro ⟨⟨T, o', r'⟩, h1, h2⟩
    simp only [Prod.mk.injEq] at h2
    obtain ⟨rfl, rfl, rfl⟩ := h2
    exact ⟨T, h1, rfl⟩
  · rintro ⟨T, h1, rfl⟩
    exact ⟨_, h1, rfl⟩

theorem sound_times {x : EREExpr} {g : Nat} {step : Nat → List Char → Option Reading} (h : SoundRead (CapExpr x g) step) :
    ∀ n, SoundRead (CapTimes x n g) (readTimes step n)
  | 0 => by
    intro pre rest S o r hr
    simp only [readTimes, Option.some.injEq, Prod.mk.injEq] at hr
    obtain ⟨rfl, rfl, rfl⟩ := hr
    exact ⟨[], rfl, by simp, .zero⟩
  | n + 1 => by
    intro pre rest S o r hr
    rw [readTimes, Option.bind_eq_some_iff] at hr
    obtain ⟨⟨S1, o1, r1⟩, h1, h2⟩ := hr
    obtain ⟨T, h3, rfl⟩ := andThen_some.mp h2
    obtain ⟨m1, rfl, rfl, c1⟩ := h _ _ _ _ _ h1
    obtain ⟨m2, rfl, rfl, c2⟩ := sound_times h n _ _ _ _ _ h3
    exact ⟨m1 ++ m2, by simp, by simp, .succ c1 c2⟩

theorem sound_while {x : EREExpr} {g : Nat} {step : Nat → List Char → Option Reading} (h : SoundRead (CapExpr x g) step)
    (more : Sight → Bool) : ∀ k, SoundRead (fun pre mid r S => ∃ n ≤ k, CapTimes x n g pre mid r S) (readWhile step more k)
  | 0 => by
    intro pre rest S o r hr
    simp only [readWhile, Option.some.injEq, Prod.mk.injEq] at hr
    obtain ⟨rfl, rfl, rfl⟩ := hr
    exact ⟨[], rfl, by simp, 0, Nat.le_refl _, .zero⟩
  | k + 1 => by
    intro pre rest S o r hr
    rw [readWhile] at hr
    split at hr
    · rw [Option.bind_eq_some_iff] at hr
      obtain ⟨⟨S1, o1, r1⟩, h1, h2⟩ := hr
      obtain ⟨T, h3, rfl⟩ := andThen_some.mp h2
      obtain ⟨m1, rfl, rfl, c1⟩ := h _ _ _ _ _ h1
      obtain ⟨m2, rfl, rfl, n, hn, c2⟩ := sound_while h more k _ _ _ _ _ h3
      exact ⟨m1 ++ m2, by simp, by simp, n + 1, by omega, .succ c1 c2⟩
    · simp only [Option.some.injEq, Prod.mk.injEq] at hr
      obtain ⟨rfl, rfl, rfl⟩ := hr
      exact ⟨[], rfl, by simp, 0, by omega, .zero⟩

mutual
theorem ERE.read_sound : ∀ (e : ERE) (g : Nat) (F : Sight → Bool), SoundRead (CapERE e g) (e.read g F)
  | .mk bs, g, F => by
    intro pre rest S o r h
    rw [ERE.read] at h
    obtain ⟨mid, h1, h2, bs1, b, bs2, rfl, h3⟩ := readBranches_sound bs g F pre rest S o r h
    exact ⟨mid, h1, h2, .intro rfl h3⟩
theorem readBranches_sound : ∀ (bs : List EREBranch) (g : Nat) (F : Sight → Bool),
    SoundRead (fun pre mid r S => ∃ bs1 b bs2, bs = bs1 ++ b :: bs2 ∧ CapBranch b (g + groupsBranches bs1) pre mid r S)
      (readBranches bs g F)
  | [], g, F => by intro pre rest S o r h; simp [readBranches] at h
  | b :: bs, g, F => by
    intro pre rest S o r h
    rw [readBranches] at h
    split at h
    · obtain ⟨mid, h1, h2, h3⟩ := EREBranch.read_sound b g F _ _ _ _ _ h
      exact ⟨mid, h1, h2, [], b, bs, rfl, by simpa [groupsBranches] using h3⟩
    · obtain ⟨mid, h1, h2, bs1, b', bs2, rfl, h3⟩ := readBranches_sound bs (g + b.groups) F _ _ _ _ _ h
      exact ⟨mid, h1, h2, b :: bs1, b', bs2, rfl, by rw [groupsBranches, ← Nat.add_assoc]; exact h3⟩
theorem EREBranch.read_sound : ∀ (b : EREBranch) (g : Nat) (F : Sight → Bool), SoundRead (CapBranch b g) (b.read g F)
  | .mk ps, g, F => by
    intro pre rest S o r h
    rw [EREBranch.read] at h
    exact readParts_sound ps g F _ _ _ _ _ h
theorem readParts_sound : ∀ (ps : List EREPart) (g : Nat) (F : Sight → Bool), SoundRead (CapBranch (.mk ps) g) (readParts ps g F)
  | [], g, F => by
    intro pre rest S o r h
    simp only [readParts, Option.some.injEq, Prod.mk.injEq] at h
    obtain ⟨rfl, rfl, rfl⟩ := h
    exact ⟨[], rfl, by simp, .nil⟩
  | p :: ps, g, F => by
    intro pre rest S o r h
    rw [readParts, Option.bind_eq_some_iff] at h
    obtain ⟨⟨S1, o1, r1⟩, h1, h2⟩ := h
    obtain ⟨T, h3, rfl⟩ := andThen_some.mp h2
    obtain ⟨m1, rfl, rfl, c1⟩ := EREPart.read_sound p g _ _ _ _ _ _ h1
    obtain ⟨m2, rfl, rfl, c2⟩ := readParts_sound ps _ F _ _ _ _ _ h3
    exact ⟨m1 ++ m2, by simp, by simp, .cons c1 c2⟩
theorem EREPart.read_sound : ∀ (p : EREPart) (g : Nat) (F : Sight → Bool), SoundRead (CapPart p g) (p.read g F)
  | .single e, g, F => by
    intro pre rest S o r h
    rw [EREPart.read] at h
    obtain ⟨mid, h1, h2, h3⟩ := EREExpr.read_sound e g F _ _ _ _ _ h
    exact ⟨mid, h1, h2, .single h3⟩
  | .quantified e q, g, F => by
    intro pre rest S o r h
    have hx := EREExpr.read_sound e g fun l => F l || e.look (fun _ => true) l
    rw [EREPart.read] at h
    split at h
    · cases h
    · rename_i hq
      rw [Option.bind_eq_some_iff] at h
      obtain ⟨⟨S1, o1, r1⟩, h1, h2⟩ := h
      obtain ⟨T, h3, rfl⟩ := andThen_some.mp h2
      obtain ⟨m1, rfl, rfl, c1⟩ := sound_times hx _ _ _ _ _ _ h1
      obtain ⟨m2, rfl, rfl, n, hn, c2⟩ := sound_while hx _ _ _ _ _ _ _ h3
      refine ⟨m1 ++ m2, by simp, by simp, .quantified (n := q.q.min + n) (by omega) (fun m hm => ?_) (capTimes_add c1 c2)⟩
      unfold QType.extra at hn
      rw [hm] at hn hq
      simp only [Option.any_some, decide_eq_true_eq] at hq hn
      omega
  | .start, g, F => by
    intro pre rest S o r h
    rw [EREPart.read] at h
    split at h
    · rename_i h0
      simp only [Option.some.injEq, Prod.mk.injEq] at h
      obtain ⟨rfl, rfl, rfl⟩ := h
      rw [byteLen_eq_zero.mp h0]
      exact ⟨[], rfl, by simp, .start⟩
    · cases h
  | .end_, g, F => by
    intro pre rest S o r h
    rw [EREPart.read] at h
    split at h
    · rename_i h0
      simp only [Option.some.injEq, Prod.mk.injEq] at h
      obtain ⟨rfl, rfl, rfl⟩ := h
      subst h0
      exact ⟨[], rfl, by simp, .end_⟩
    · cases h
theorem EREExpr.read_sound : ∀ (x : EREExpr) (g : Nat) (F : Sight → Bool), SoundRead (CapExpr x g) (x.read g F)
  | .atom a, g, F => by
    intro pre rest S o r h
    cases rest with
    | nil => simp [EREExpr.read] at h
    | cons c rest =>
      rw [EREExpr.read] at h
      split at h
      · rename_i hc
        simp only [Option.some.injEq, Prod.mk.injEq] at h
        obtain ⟨rfl, rfl, rfl⟩ := h
        exact ⟨[c], rfl, by rw [byteLen_append]; simp [byteLen], .atom hc⟩
      · cases h
  | .sub e, g, F => by
    intro pre rest S o r h
    rw [EREExpr.read, Option.map_eq_some_iff] at h
    obtain ⟨⟨S1, o1, r1⟩, h1, h2⟩ := h
    simp only [Prod.mk.injEq] at h2
    obtain ⟨rfl, rfl, rfl⟩ := h2
    obtain ⟨mid, rfl, rfl, c1⟩ := ERE.read_sound e (g + 1) F _ _ _ _ _ h1
    exact ⟨mid, rfl, rfl, .sub c1⟩
end

/-! ### Where the next character decides, a match is read -/

/-- Every match behind which one sees `F` is read. -/
def FullRead (C : List Char → List Char → List Char → List Span → Prop) (F : Sight → Bool) (step : Nat → List Char → Option Reading) :
    Prop :=
  ∀ pre mid r S, C pre mid r S → F r.head? = true → step (byteLen pre) (mid ++ r) = some (S, byteLen (pre ++ mid), r)

theorem times_seen {x : EREExpr} {F : Sight → Bool} {n g : Nat} {pre m r : List Char} {S : List Span} (h : CapTimes x n g pre m r S)
    (hF : F r.head? = true) : (F (m ++ r).head? || x.look (fun _ => true) (m ++ r).head?) = true := by
  rw [Bool.or_eq_true, EREExpr.look_iff, true_sight]
  rcases Nat.eq_zero_or_pos n with h0 | h0
  · subst h0
    cases h
    exact .inl hF
  · exact .inr (h.seen h0)

theorem full_times {x : EREExpr} {g : Nat} {F : Sight → Bool} {step : Nat → List Char → Option Reading}
    (h : FullRead (CapExpr x g) (fun l => F l || x.look (fun _ => true) l) step) :
    ∀ n, FullRead (CapTimes x n g) (fun l => F l || x.look (fun _ => true) l) (readTimes step n)
  | 0 => by
    intro pre mid r S hc _
    cases hc
    simp [readTimes]
  | n + 1 => by
    intro pre mid r S hc hF
    cases hc with
    | @succ _ _ _ _ m1 m2 _ S1 S2 h1 h2 =>
      have hs : (F (m2 ++ r).head? || x.look (fun _ => true) (m2 ++ r).head?) = true := by
        have := times_seen (F := fun l => F l || x.look (fun _ => true) l) h2 hF
        simpa [Bool.or_assoc] using this
      rw [readTimes, List.append_assoc, h _ _ _ _ h1 hs, Option.bind_some]
      exact andThen_some.mpr ⟨S2, by rw [full_times h n _ _ _ _ h2 hF, List.append_assoc], rfl⟩

theorem full_while {x : EREExpr} {g : Nat} {F : Sight → Bool} {step : Nat → List Char → Option Reading}
    (h : FullRead (CapExpr x g) (fun l => F l || x.look (fun _ => true) l) step) :
    ∀ k n, n ≤ k → (k = 0 ∨ ∀ l, ¬ (F l = true ∧ x.sees (fun _ => True) l)) →
      FullRead (CapTimes x n g) F (readWhile step (x.look fun _ => true) k)
  | 0, n, hn, _ => by
    intro pre mid r S hc _
    have : n = 0 := by omega
    subst this
    cases hc
    simp [readWhile]
  | k + 1, 0, _, hd => by
    intro pre mid r S hc hF
    cases hc
    rcases hd with hd | hd
    · omega
    · rw [readWhile, if_neg]
      · simp
      · rw [EREExpr.look_iff, true_sight]
        exact fun hs => hd _ ⟨hF, hs⟩
  | k + 1, n + 1, hn, hd => by
    intro pre mid r S hc hF
    have hs := hc.seen (by omega)
    cases hc with
    | @succ _ _ _ _ m1 m2 _ S1 S2 h1 h2 =>
      rw [readWhile, if_pos (by rw [EREExpr.look_iff, true_sight]; exact hs), List.append_assoc,
        h _ _ _ _ h1 (times_seen h2 hF), Option.bind_some]
      exact andThen_some.mpr ⟨S2, by
        rw [full_while h k n (by omega) (by rcases hd with hd | hd; omega; exact .inr hd) _ _ _ _ h2 hF, List.append_assoc], rfl⟩

mutual
theorem ERE.read_full : ∀ (e : ERE) (g : Nat) (F : Sight → Bool), e.Decided (fun l => F l = true) → e.progress = true →
    FullRead (CapERE e g) F (e.read g F)
  | .mk bs, g, F, hd, hp => by
    intro pre mid r S h hF
    rw [ERE.Decided] at hd
    rw [ERE.progress] at hp
    cases h with
    | intro hb h =>
      rw [ERE.read]
      exact readBranches_full bs g F hd.1 hd.2 hp _ _ _ hb _ _ _ _ h hF
theorem readBranches_full : ∀ (bs : List EREBranch) (g : Nat) (F : Sight → Bool),
    (bs.Pairwise fun b b' => ∀ l, ¬ (b.sees (fun l => F l = true) l ∧ b'.sees (fun l => F l = true) l)) →
    branchesDecided bs (fun l => F l = true) → progressBranches bs = true →
    ∀ bs1 b bs2, bs = bs1 ++ b :: bs2 → FullRead (CapBranch b (g + groupsBranches bs1)) F (readBranches bs g F)
  | [], g, F, _, _, _, bs1, b, bs2, hb => by simp at hb
  | x :: bs, g, F, hw, hd, hp, bs1, b, bs2, hb => by
    intro pre mid r S h hF
    rw [branchesDecided] at hd
    rw [progressBranches, Bool.and_eq_true] at hp
    rw [List.pairwise_cons] at hw
    have hs := h.seen (F := fun l => F l = true) hF
    cases bs1 with
    | nil =>
      rw [List.nil_append, List.cons.injEq] at hb
      obtain ⟨rfl, rfl⟩ := hb
      rw [readBranches, if_pos ((EREBranch.look_iff _ _ _).mpr hs)]
      rw [groupsBranches, Nat.add_zero] at h
      exact EREBranch.read_full x g F hd.1 hp.1 _ _ _ _ h hF
    | cons y bs1 =>
      rw [List.cons_append, List.cons.injEq] at hb
      obtain ⟨rfl, hb⟩ := hb
      rw [readBranches, if_neg]
      · rw [groupsBranches, ← Nat.add_assoc] at h
        exact readBranches_full bs _ F hw.2 hd.2 hp.2 bs1 b bs2 hb _ _ _ _ h hF
      · rw [EREBranch.look_iff]
        exact fun hx => hw.1 b (by rw [hb]; simp) _ ⟨hx, hs⟩
theorem EREBranch.read_full : ∀ (b : EREBranch) (g : Nat) (F : Sight → Bool), b.Decided (fun l => F l = true) → b.progress = true →
    FullRead (CapBranch b g) F (b.read g F)
  | .mk ps, g, F, hd, hp => by
    intro pre mid r S h hF
    rw [EREBranch.Decided] at hd
    rw [EREBranch.progress] at hp
    rw [EREBranch.read]
    exact readParts_full ps g F hd hp _ _ _ _ h hF
theorem readParts_full : ∀ (ps : List EREPart) (g : Nat) (F : Sight → Bool), partsDecided ps (fun l => F l = true) →
    progressParts ps = true → FullRead (CapBranch (.mk ps) g) F (readParts ps g F)
  | [], g, F, _, _ => by
    intro pre mid r S h hF
    cases h
    simp [readParts]
  | p :: ps, g, F, hd, hp => by
    intro pre mid r S h hF
    rw [partsDecided] at hd
    rw [progressParts, Bool.and_eq_true] at hp
    cases h with
    | @cons _ _ _ _ m1 m2 _ S1 S2 h1 h2 =>
      have hs := h2.seen (F := fun l => F l = true) hF
      rw [EREBranch.sees] at hs
      have hF1 : (fun l => partsLook ps F l = true) = partsSee ps fun l => F l = true := by
        funext l
        exact propext (partsLook_iff ps F l)
      rw [readParts, List.append_assoc, EREPart.read_full p g (partsLook ps F) (by rw [hF1]; exact hd.1) hp.1 _ _ _ _ h1
        ((partsLook_iff _ _ _).mpr hs), Option.bind_some]
      exact andThen_some.mpr ⟨S2, by rw [readParts_full ps _ F hd.2 hp.2 _ _ _ _ h2 hF, List.append_assoc], rfl⟩
theorem EREPart.read_full : ∀ (p : EREPart) (g : Nat) (F : Sight → Bool), p.Decided (fun l => F l = true) → p.progress = true →
    FullRead (CapPart p g) F (p.read g F)
  | .single e, g, F, hd, hp => by
    intro pre mid r S h hF
    rw [EREPart.Decided] at hd
    rw [EREPart.progress] at hp
    cases h with
    | single h =>
      rw [EREPart.read]
      exact EREExpr.read_full e g F hd hp _ _ _ _ h hF
  | .quantified e q, g, F, hd, hp => by
    intro pre mid r S h hF
    rw [EREPart.Decided] at hd
    rw [EREPart.progress, Bool.and_eq_true] at hp
    have hF1 : (fun l => (F l || e.look (fun _ => true) l) = true) = fun l => F l = true ∨ e.sees (fun _ => True) l := by
      funext l
      rw [Bool.or_eq_true, EREExpr.look_iff, true_sight]
    have hx := EREExpr.read_full e g (fun l => F l || e.look (fun _ => true) l) (by rw [hF1]; exact hd.1) hp.1
    cases h with
    | @quantified _ _ n _ _ _ _ _ hn hm h =>
      obtain ⟨k, rfl⟩ : ∃ k, n = q.q.min + k := ⟨n - q.q.min, by omega⟩
      obtain ⟨m1, m2, S1, S2, rfl, rfl, h1, h2⟩ := capTimes_split h
      rw [EREPart.read, if_neg, List.append_assoc, full_times hx _ _ _ _ _ h1 (times_seen h2 hF), Option.bind_some]
      · refine andThen_some.mpr ⟨S2, ?_, rfl⟩
        rw [full_while hx _ k ?_ ?_ _ _ _ _ h2 hF, List.append_assoc]
        · unfold QType.extra
          cases hmax : q.q.max with
          | some m => have := hm m hmax; simp only; omega
          | none =>
            have hnn : e.nullable = false := by
              have := hp.2
              rw [hmax] at this
              simpa using this
            have := capTimes_length hnn h2
            simp only [List.length_append]
            omega
        · rcases hd.2 with hq | hq
          · exact .inl (by simp [QType.extra, hq])
          · exact .inr hq
      · cases hmax : q.q.max with
        | none => simp
        | some m => have := hm m hmax; simp; omega
  | .start, g, F, _, _ => by
    intro pre mid r S h hF
    cases h
    simp [EREPart.read, byteLen]
  | .end_, g, F, _, _ => by
    intro pre mid r S h hF
    cases h
    simp [EREPart.read]
theorem EREExpr.read_full : ∀ (x : EREExpr) (g : Nat) (F : Sight → Bool), x.Decided (fun l => F l = true) → x.progress = true →
    FullRead (CapExpr x g) F (x.read g F)
  | .atom a, g, F, _, _ => by
    intro pre mid r S h hF
    cases h with
    | atom h =>
      rw [List.cons_append, List.nil_append, EREExpr.read, if_pos h, byteLen_append]
      simp [byteLen]
  | .sub e, g, F, hd, hp => by
    intro pre mid r S h hF
    rw [EREExpr.Decided] at hd
    rw [EREExpr.progress] at hp
    cases h with
    | sub h => rw [EREExpr.read, ERE.read_full e (g + 1) F hd hp _ _ _ _ h hF]; rfl
end

/-! ### In a text -/

theorem readAt_sound {e : ERE} {pre rest : List Char} {S : List Span} (h : e.readAt (byteLen pre) rest = some S) :
    e.Captures (pre ++ rest) S ∧ ∃ j, lastSpan S 0 = some (byteLen pre, j) := by
  unfold ERE.readAt at h
  rw [Option.map_eq_some_iff] at h
  obtain ⟨⟨S1, o, r⟩, h1, rfl⟩ := h
  obtain ⟨mid, rfl, rfl, hc⟩ := e.read_sound 1 _ _ _ _ _ _ h1
  exact ⟨⟨pre, mid, r, S1, by simp, hc, rfl⟩, byteLen (pre ++ mid), by simp [lastSpan]⟩

theorem readAt_full {e : ERE} (hd : e.Decided fun _ => True) (hp : e.progress = true) {pre mid post : List Char} {S : List Span}
    (h : CapERE e 1 pre mid post S) : e.readAt (byteLen pre) (mid ++ post) = some (S ++ [⟨0, byteLen pre, byteLen (pre ++ mid)⟩]) := by
  unfold ERE.readAt
  rw [ERE.read_full e 1 (fun _ => true) (by rw [true_sight]; exact hd) hp _ _ _ _ h rfl]
  rfl

theorem readFrom_sound {e : ERE} : ∀ {rest pre : List Char} {S : List Span}, e.readFrom (byteLen pre) rest = some S →
    e.Captures (pre ++ rest) S
  | [], pre, S, h => (readAt_sound h).1
  | c :: r, pre, S, h => by
    rw [ERE.readFrom] at h
    split at h
    · rename_i hr
      cases h
      exact (readAt_sound hr).1
    · have hb : byteLen pre + charLen c = byteLen (pre ++ [c]) := by rw [byteLen_append]; simp [byteLen]
      rw [hb] at h
      have := readFrom_sound h
      rwa [List.append_assoc] at this

theorem readFrom_only {e : ERE} (hd : e.Decided fun _ => True) (hp : e.progress = true) : ∀ {rest pre : List Char} {mid post pre' S'},
    rest = pre' ++ (mid ++ post) → CapERE e 1 (pre ++ pre') mid post S' → ∃ S i j, e.readFrom (byteLen pre) rest = some S ∧
      lastSpan S 0 = some (i, j) ∧ i ≤ byteLen (pre ++ pre')
  | [], pre, mid, post, pre', S', hr, h => by
    obtain ⟨rfl, h2⟩ := List.append_eq_nil_iff.mp hr.symm
    obtain ⟨rfl, rfl⟩ := List.append_eq_nil_iff.mp h2
    rw [List.append_nil] at h
    exact ⟨_, byteLen pre, byteLen (pre ++ []), readAt_full hd hp h, by simp [lastSpan], by simp⟩
  | c :: r, pre, mid, post, pre', S', hr, h => by
    rw [ERE.readFrom]
    cases ha : e.readAt (byteLen pre) (c :: r) with
    | some S =>
      obtain ⟨_, j, hj⟩ := readAt_sound ha
      exact ⟨S, _, j, rfl, hj, by rw [byteLen_append]; omega⟩
    | none =>
      cases pre' with
      | nil =>
        rw [List.append_nil] at h
        rw [hr, List.nil_append, readAt_full hd hp h] at ha
        cases ha
      | cons d pre' =>
        rw [List.cons_append, List.cons.injEq] at hr
        obtain ⟨rfl, hr⟩ := hr
        have hb : byteLen pre + charLen c = byteLen (pre ++ [c]) := by rw [byteLen_append]; simp [byteLen]
        obtain ⟨S, i, j, h1, h2, h3⟩ := readFrom_only hd hp (pre := pre ++ [c]) hr (by simpa using h)
        exact ⟨S, i, j, by rw [hb]; exact h1, h2, by simpa using h3⟩

end Ere
