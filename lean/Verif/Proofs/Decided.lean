import Verif.Spec.Decided
import Verif.Proofs.Longest
import Verif.Proofs.Search

/-!
# Patterns for which the next character decides match in at most one way from each place
-/

namespace Ere

mutual
theorem CapERE.seen : ∀ {e g pre m r S} {F : Sight → Prop}, CapERE e g pre m r S → F r.head? → e.sees F (m ++ r).head?
  | _, _, _, m, r, _, F, .intro (bs1 := bs1) (b := b) (bs2 := bs2) hb h, hF => by
    subst hb
    have h1 := h.seen hF
    simp only [ERE.sees]
    clear h
    induction bs1 with
    | nil => exact .inl h1
    | cons x bs1 ih => exact .inr ih
theorem CapBranch.seen : ∀ {b g pre m r S} {F : Sight → Prop}, CapBranch b g pre m r S → F r.head? → b.sees F (m ++ r).head?
  | _, _, _, _, _, _, _, .nil, hF => hF
  | _, _, _, _, _, _, _, .cons h1 h2, hF => by
    rw [List.append_assoc]
    exact h1.seen (h2.seen hF)
theorem CapPart.seen : ∀ {p g pre m r S} {F : Sight → Prop}, CapPart p g pre m r S → F r.head? → p.sees F (m ++ r).head?
  | _, _, _, _, _, _, _, .single h, hF => h.seen hF
  | _, _, _, _, _, _, _, .quantified (n := n) h1 h2 h, hF => by
    rcases Nat.eq_zero_or_pos n with h0 | h0
    · subst h0
      cases h
      exact .inl ⟨by omega, hF⟩
    · refine .inr ⟨fun hm => ?_, h.seen h0⟩
      have := h2 0 hm
      omega
  | _, _, _, _, _, _, _, .start, hF => hF
  | _, _, _, _, _, _, _, .end_, hF => ⟨rfl, hF⟩
theorem CapTimes.seen : ∀ {x n g pre m r S}, CapTimes x n g pre m r S → 0 < n → x.sees (fun _ => True) (m ++ r).head?
  | _, _, _, _, _, _, _, .zero, h0 => absurd h0 (by omega)
  | _, _, _, _, _, _, _, .succ h1 h2, h0 => by
    rw [List.append_assoc]
    exact h1.seen trivial
theorem CapExpr.seen : ∀ {x g pre m r S} {F : Sight → Prop}, CapExpr x g pre m r S → F r.head? → x.sees F (m ++ r).head?
  | _, _, _, _, _, _, _, .atom h, _ => ⟨_, rfl, h⟩
  | _, _, _, _, _, _, _, .sub h, hF => h.seen hF
end

/-- At most one way from each place, among those behind which one sees `F`. -/
def AtMostOne (C : List Char → List Char → List Char → List Span → Prop) (F : Sight → Prop) : Prop :=
  ∀ pre m r S m' r' S', m ++ r = m' ++ r' → C pre m r S → C pre m' r' S' → F r.head? → F r'.head? → m = m' ∧ S = S'

theorem times_once {x : EREExpr} {g : Nat} {F : Sight → Prop} 
    (hx : AtMostOne (CapExpr x g) fun l => F l ∨ x.sees (fun _ => True) l) :
    ∀ n n' pre m r S m' r' S', (n = n' ∨ ∀ l, ¬ (F l ∧ x.sees (fun _ => True) l)) → m ++ r = m' ++ r' →
      CapTimes x n g pre m r S → CapTimes x n' g pre m' r' S' → F r.head? → F r'.head? → m = m' ∧ S = S'
  | 0, 0, _, _, _, _, _, _, _, _, _, h, h', _, _ => by cases h; cases h'; exact ⟨rfl, rfl⟩
  | 0, n' + 1, _, _, _, _, _, _, _, hd, ht, h, h', hF, _ => by
    rcases hd with hd | hd
    · omega
    · cases h
      rw [List.nil_append] at ht
      exact absurd ⟨hF, by rw [ht]; exact h'.seen (by omega)⟩ (hd _)
  | n + 1, 0, _, _, _, _, _, _, _, hd, ht, h, h', _, hF => by
    rcases hd with hd | hd
    · omega
    · cases h'
      rw [List.nil_append] at ht
      exact absurd ⟨hF, by rw [← ht]; exact h.seen (by omega)⟩ (hd _)
  | n + 1, n' + 1, pre, m, r, S, m', r', S', hd, ht, h, h', hF, hF' => by
    cases h with
    | @succ _ _ _ _ a b _ _ _ h1 h2 =>
    cases h' with
    | @succ _ _ _ _ a' b' _ _ _ h1' h2' =>
    have see : ∀ {n b r S} {pre : List Char}, CapTimes x n g pre b r S → F r.head? →
        (F (b ++ r).head? ∨ x.sees (fun _ => True) (b ++ r).head?) := by
      intro n b r S pre h hF
      rcases Nat.eq_zero_or_pos n with h0 | h0
      · subst h0
        cases h
        exact .inl hF
      · exact .inr (h.seen h0)
    rw [List.append_assoc, List.append_assoc] at ht
    obtain ⟨e1, e2⟩ := hx _ _ _ _ _ _ _ ht h1 h1' (see h2 hF) (see h2' hF')
    subst e1
    obtain ⟨e3, e4⟩ := times_once hx n n' _ _ _ _ _ _ _ (by rcases hd with hd | hd; exact .inl (by omega); exact .inr hd)
      (List.append_cancel_left ht) h2 h2' hF hF'
    exact ⟨by rw [e3], by rw [e2, e4]⟩

mutual
theorem ERE.Decided.once : ∀ (e : ERE) (g : Nat) (F : Sight → Prop), e.Decided F → AtMostOne (CapERE e g) F
  | .mk bs, g, F, hd => by
    intro pre m r S m' r' S' ht h h' hF hF'
    simp only [ERE.Decided] at hd
    obtain ⟨hp, hd⟩ := hd
    cases h with
    | @intro _ bs1 b bs2 _ _ _ _ _ hb h =>
    cases h' with
    | @intro _ bs1' b' bs2' _ _ _ _ _ hb' h' =>
    have hs := h.seen hF
    have hs' := h'.seen hF'
    rw [ht] at hs
    have key : bs1 = bs1' ∧ b = b' := by
      have hh := hb
      rw [hb'] at hh
      rcases List.append_eq_append_iff.mp hh.symm with ⟨c, c1, c2⟩ | ⟨c, c1, c2⟩
      · cases c with
        | nil => simp only [List.append_nil, List.nil_append, List.cons.injEq] at c1 c2; exact ⟨c1.symm, c2.1⟩
        | cons y c =>
          simp only [List.cons_append, List.cons.injEq] at c2
          rw [hb, List.pairwise_append, List.pairwise_cons] at hp
          exact absurd ⟨hs, hs'⟩ (hp.2.1.1 b' (by rw [c2.2]; simp) _)
      · cases c with
        | nil => simp only [List.append_nil, List.nil_append, List.cons.injEq] at c1 c2; exact ⟨c1, c2.1.symm⟩
        | cons y c =>
          simp only [List.cons_append, List.cons.injEq] at c2
          rw [hb', List.pairwise_append, List.pairwise_cons] at hp
          exact absurd ⟨hs', hs⟩ (hp.2.1.1 b (by rw [c2.2]; simp) _)
    obtain ⟨k1, k2⟩ := key
    subst k1; subst k2
    exact branchesDecided.once bs (g + groupsBranches bs1) F hd b (by rw [hb]; simp) _ _ _ _ _ _ _ ht h h' hF hF'
theorem branchesDecided.once : ∀ (bs : List EREBranch) (g : Nat) (F : Sight → Prop), branchesDecided bs F →
    ∀ b ∈ bs, AtMostOne (CapBranch b g) F
  | [], _, _, _, _, hb => absurd hb (by simp)
  | x :: bs, g, F, hd, b, hb => by
    simp only [branchesDecided] at hd
    by_cases hx : b = x
    · rw [hx]; exact EREBranch.Decided.once x g F hd.1
    · exact branchesDecided.once bs g F hd.2 b (by simpa [hx] using hb)
theorem EREBranch.Decided.once : ∀ (b : EREBranch) (g : Nat) (F : Sight → Prop), b.Decided F → AtMostOne (CapBranch b g) F
  | .mk ps, g, F, hd => partsDecided.once ps g F (by simpa only [EREBranch.Decided] using hd)
theorem partsDecided.once : ∀ (ps : List EREPart) (g : Nat) (F : Sight → Prop), partsDecided ps F →
    AtMostOne (CapBranch (.mk ps) g) F
  | [], _, _, _ => by
    intro pre m r S m' r' S' ht h h' hF hF'
    cases h; cases h'; exact ⟨rfl, rfl⟩
  | p :: ps, g, F, hd => by
    intro pre m r S m' r' S' ht h h' hF hF'
    simp only [partsDecided] at hd
    cases h with
    | @cons _ _ _ _ a b _ _ _ h1 h2 =>
    cases h' with
    | @cons _ _ _ _ a' b' _ _ _ h1' h2' =>
    rw [List.append_assoc, List.append_assoc] at ht
    have s2 := h2.seen hF
    have s2' := h2'.seen hF'
    simp only [EREBranch.sees] at s2 s2'
    obtain ⟨e1, e2⟩ := EREPart.Decided.once p g _ hd.1 _ _ _ _ _ _ _ ht h1 h1' s2 s2'
    subst e1
    obtain ⟨e3, e4⟩ := partsDecided.once ps _ F hd.2 _ _ _ _ _ _ _ (List.append_cancel_left ht) h2 h2' hF hF'
    exact ⟨by rw [e3], by rw [e2, e4]⟩
theorem EREPart.Decided.once : ∀ (p : EREPart) (g : Nat) (F : Sight → Prop), p.Decided F → AtMostOne (CapPart p g) F
  | .single e, g, F, hd => by
    intro pre m r S m' r' S' ht h h' hF hF'
    simp only [EREPart.Decided] at hd
    cases h with
    | single h =>
    cases h' with
    | single h' => exact EREExpr.Decided.once e g F hd _ _ _ _ _ _ _ ht h h' hF hF'
  | .quantified e q, g, F, hd => by
    intro pre m r S m' r' S' ht h h' hF hF'
    simp only [EREPart.Decided] at hd
    cases h with
    | quantified h1 h2 h =>
    cases h' with
    | quantified h1' h2' h' =>
    refine times_once (EREExpr.Decided.once e g _ hd.1) _ _ _ _ _ _ _ _ _ ?_ ht h h' hF hF'
    rcases hd.2 with hq | hq
    · have := h2 _ hq
      have := h2' _ hq
      exact .inl (by omega)
    · exact .inr hq
  | .start, _, _, _ => by
    intro pre m r S m' r' S' ht h h' hF hF'
    cases h; cases h'; exact ⟨rfl, rfl⟩
  | .end_, _, _, _ => by
    intro pre m r S m' r' S' ht h h' hF hF'
    cases h; cases h'; exact ⟨rfl, rfl⟩
theorem EREExpr.Decided.once : ∀ (x : EREExpr) (g : Nat) (F : Sight → Prop), x.Decided F → AtMostOne (CapExpr x g) F
  | .atom a, _, _, _ => by
    intro pre m r S m' r' S' ht h h' hF hF'
    cases h; cases h'
    simp only [List.cons_append, List.nil_append, List.cons.injEq] at ht
    exact ⟨by rw [ht.1], rfl⟩
  | .sub e, g, F, hd => by
    intro pre m r S m' r' S' ht h h' hF hF'
    simp only [EREExpr.Decided] at hd
    cases h with
    | sub h =>
    cases h' with
    | sub h' =>
      obtain ⟨e1, e2⟩ := ERE.Decided.once e (g + 1) F hd _ _ _ _ _ _ _ ht h h' hF hF'
      exact ⟨e1, by rw [e1, e2]⟩
end

/-! ## Greedy and lazy quantifiers -/

mutual
theorem ERE.groups_greedy : ∀ e : ERE, e.greedy.groups = e.groups
  | .mk bs => by simp only [ERE.greedy, ERE.groups]; exact groups_greedyBranches bs
theorem groups_greedyBranches : ∀ bs, groupsBranches (greedyBranches bs) = groupsBranches bs
  | [] => rfl
  | b :: bs => by simp only [greedyBranches, groupsBranches, b.groups_greedy, groups_greedyBranches bs]
theorem EREBranch.groups_greedy : ∀ b : EREBranch, b.greedy.groups = b.groups
  | .mk ps => by simp only [EREBranch.greedy, EREBranch.groups]; exact groups_greedyParts ps
theorem groups_greedyParts : ∀ ps, groupsParts (greedyParts ps) = groupsParts ps
  | [] => rfl
  | p :: ps => by simp only [greedyParts, groupsParts, p.groups_greedy, groups_greedyParts ps]
theorem EREPart.groups_greedy : ∀ p : EREPart, p.greedy.groups = p.groups
  | .single e => by simp only [EREPart.greedy, EREPart.groups, e.groups_greedy]
  | .quantified e q => by simp only [EREPart.greedy, EREPart.groups, e.groups_greedy]
  | .start => rfl
  | .end_ => rfl
theorem EREExpr.groups_greedy : ∀ x : EREExpr, x.greedy.groups = x.groups
  | .atom _ => rfl
  | .sub e => by simp only [EREExpr.greedy, EREExpr.groups, e.groups_greedy]
end

theorem greedyBranches_map : ∀ bs, greedyBranches bs = bs.map (·.greedy)
  | [] => rfl
  | b :: bs => by simp only [greedyBranches, greedyBranches_map bs, List.map_cons]

theorem capTimes_congr {x y : EREExpr} (h : ∀ g pre m r S, CapExpr x g pre m r S → CapExpr y g pre m r S) :
    ∀ n g pre m r S, CapTimes x n g pre m r S → CapTimes y n g pre m r S
  | 0, _, _, _, _, _, hc => by cases hc; exact .zero
  | n + 1, _, _, _, _, _, hc => by
    cases hc with
    | succ h1 h2 => exact .succ (h _ _ _ _ _ h1) (capTimes_congr h n _ _ _ _ _ h2)

mutual
theorem ERE.cap_greedy : ∀ (e : ERE) g pre m r S, CapERE e.greedy g pre m r S ↔ CapERE e g pre m r S
  | .mk bs, g, pre, m, r, S => by
    have hB := cap_greedyBranches bs
    simp only [ERE.greedy, greedyBranches_map]
    constructor
    · rintro ⟨hb, h⟩
      obtain ⟨l1, l2, rfl, rfl, h2⟩ := List.map_eq_append_iff.mp hb
      obtain ⟨b, l3, rfl, rfl, rfl⟩ := List.map_eq_cons_iff.mp h2
      rw [← greedyBranches_map, groups_greedyBranches] at h
      exact .intro rfl ((hB b (by simp) _ _ _ _ _).mp h)
    · intro h
      cases h with
      | @intro _ bs1 b bs2 _ _ _ _ _ hb h =>
        subst hb
        refine .intro (bs1 := bs1.map (·.greedy)) (b := b.greedy) (bs2 := bs2.map (·.greedy)) (by simp)
          ((hB b (by simp) _ _ _ _ _).mpr ?_)
        rw [← greedyBranches_map, groups_greedyBranches]
        exact h
theorem cap_greedyBranches : ∀ (bs : List EREBranch), ∀ b ∈ bs, ∀ g pre m r S,
    CapBranch b.greedy g pre m r S ↔ CapBranch b g pre m r S
  | [], _, hb => absurd hb (by simp)
  | x :: bs, b, hb => by
    by_cases hx : b = x
    · rw [hx]; exact EREBranch.cap_greedy x
    · exact cap_greedyBranches bs b (by simpa [hx] using hb)
theorem EREBranch.cap_greedy : ∀ (b : EREBranch) g pre m r S, CapBranch b.greedy g pre m r S ↔ CapBranch b g pre m r S
  | .mk ps => cap_greedyParts ps
theorem cap_greedyParts : ∀ (ps : List EREPart) g pre m r S,
    CapBranch (.mk (greedyParts ps)) g pre m r S ↔ CapBranch (.mk ps) g pre m r S
  | [], _, _, _, _, _ => Iff.rfl
  | p :: ps, g, pre, m, r, S => by
    have h1 := EREPart.cap_greedy p
    have h2 := cap_greedyParts ps
    simp only [greedyParts]
    constructor
    · intro h
      cases h with
      | cons a b => exact .cons ((h1 _ _ _ _ _).mp a) ((h2 _ _ _ _ _).mp (by rw [← p.groups_greedy]; exact b))
    · intro h
      cases h with
      | cons a b => exact .cons ((h1 _ _ _ _ _).mpr a) ((h2 _ _ _ _ _).mpr (by rw [p.groups_greedy]; exact b))
theorem EREPart.cap_greedy : ∀ (p : EREPart) g pre m r S, CapPart p.greedy g pre m r S ↔ CapPart p g pre m r S
  | .single e, g, pre, m, r, S => by
    have h1 := EREExpr.cap_greedy e
    simp only [EREPart.greedy]
    constructor
    · intro h
      cases h with
      | single h => exact .single ((h1 _ _ _ _ _).mp h)
    · intro h
      cases h with
      | single h => exact .single ((h1 _ _ _ _ _).mpr h)
  | .quantified e q, g, pre, m, r, S => by
    have h1 := EREExpr.cap_greedy e
    simp only [EREPart.greedy]
    constructor
    · intro h
      cases h with
      | quantified a b h => exact .quantified a b (capTimes_congr (fun g pre m r S => (h1 g pre m r S).mp) _ _ _ _ _ _ h)
    · intro h
      cases h with
      | quantified a b h => exact .quantified a b (capTimes_congr (fun g pre m r S => (h1 g pre m r S).mpr) _ _ _ _ _ _ h)
  | .start, _, _, _, _, _ => Iff.rfl
  | .end_, _, _, _, _, _ => Iff.rfl
theorem EREExpr.cap_greedy : ∀ (x : EREExpr) g pre m r S, CapExpr x.greedy g pre m r S ↔ CapExpr x g pre m r S
  | .atom _, _, _, _, _, _ => Iff.rfl
  | .sub e, g, pre, m, r, S => by
    have h1 := ERE.cap_greedy e
    simp only [EREExpr.greedy]
    constructor
    · intro h
      cases h with
      | sub h => exact .sub ((h1 _ _ _ _ _).mp h)
    · intro h
      cases h with
      | sub h => exact .sub ((h1 _ _ _ _ _).mpr h)
end

theorem captures_greedy {e e' : ERE} (h : e.greedy = e'.greedy) (text : List Char) (S : List Span) :
    e.Captures text S ↔ e'.Captures text S := by
  unfold ERE.Captures
  simp only [← e.cap_greedy, ← e'.cap_greedy, h]

end Ere
