import Verif.Proofs.FirstTop

/-! What the preferred match depends on: the text behind it can be cut off (if the pattern has no `$`), the text in front of it
too (if the pattern has no `^`). Both are maps of positions under which the ways to match are carried along in order. -/

namespace Ere

set_option linter.unusedSectionVars false

/-- The ways `L` to go on are carried along by the partial map `h` of positions, in order. -/
def Loc (h : Pos → Option Pos) (L : Pos → List Pos) : Prop := ∀ p, (L p).filterMap h = (h p).toList.flatMap L

section
variable {h : Pos → Option Pos} {L L1 L2 : Pos → List Pos}

theorem loc_one : Loc h (fun p => [p]) := by
  intro p
  cases hp : h p <;> simp [hp]

theorem loc_none : Loc h (fun _ => []) := by
  intro p
  cases hp : h p <;> simp

theorem Loc.append (h1 : Loc h L1) (h2 : Loc h L2) : Loc h (fun p => L1 p ++ L2 p) := by
  intro p
  rw [List.filterMap_append, h1 p, h2 p]
  cases hp : h p <;> simp

theorem Loc.flatMap (h1 : Loc h L1) (h2 : Loc h L2) : Loc h (fun p => (L1 p).flatMap L2) := by
  intro p
  rw [List.filterMap_flatMap]
  have e1 : (L1 p).flatMap (fun q => (L2 q).filterMap h) = ((L1 p).filterMap h).flatMap L2 := by
    induction L1 p with
    | nil => rfl
    | cons q l ih =>
      rw [List.flatMap_cons, ih, h2 q]
      cases hq : h q <;> simp [hq]
  rw [e1, h1 p]
  cases hp : h p <;> simp

theorem Loc.times (h1 : Loc h L) : ∀ n, Loc h (times L n)
  | 0 => loc_one
  | n + 1 => h1.flatMap (h1.times n)

theorem Loc.optTimes (h1 : Loc h L) (gr : Bool) : ∀ n, Loc h (optTimes L gr n)
  | 0 => loc_one
  | n + 1 => by
    cases gr with
    | true => exact (h1.flatMap (h1.optTimes true n)).append loc_one
    | false => exact loc_one.append (h1.flatMap (h1.optTimes false n))
end

/-- More rounds than characters make no difference if every round consumes one. -/
theorem optTimes_fuel {L : Pos → List Pos} (hL : ∀ p p1, p1 ∈ L p → p1.rest.length < p.rest.length) (gr : Bool) :
    ∀ n m p, p.rest.length ≤ n → p.rest.length ≤ m → optTimes L gr n p = optTimes L gr m p := by
  have hnil : ∀ p, p.rest.length = 0 → L p = [] := by
    intro p hp
    rw [List.eq_nil_iff_forall_not_mem]
    intro p1 h1
    have := hL p p1 h1
    omega
  intro n
  induction n with
  | zero =>
    intro m p hn _
    have h0 := hnil p (by omega)
    cases m with
    | zero => rfl
    | succ m => cases gr <;> simp [optTimes, h0]
  | succ n ih =>
    intro m p hn hm
    cases m with
    | zero =>
      have h0 := hnil p (by omega)
      cases gr <;> simp [optTimes, h0]
    | succ m =>
      have : (L p).flatMap (optTimes L gr n) = (L p).flatMap (optTimes L gr m) := by
        refine List.flatMap_congr fun q hq => ?_
        have := hL p q hq
        exact ih m q (by omega) (by omega)
      rw [optTimes, optTimes, this]

/-- An expression that is not nullable consumes something. -/
theorem tryExpr_consumes {e : EREExpr} (hn : e.nullable = false) {g : Nat} {p p1 : Pos} (h : p1 ∈ tryExpr e g p) :
    p1.rest.length < p.rest.length := by
  obtain ⟨mid, S, h1, _, _, h4⟩ := tryExpr_sound e g (List.replicate p.off 'a') p p1 (by
    have : ∀ n, byteLen (List.replicate n 'a') = n := by
      intro n
      induction n with
      | zero => rfl
      | succ n ih => rw [List.replicate_succ, byteLen_cons, ih]; simp [charLen]; omega
    exact (this _).symm) h
  rw [h1, List.length_append]
  have : mid ≠ [] := by
    rintro rfl
    rw [nullable_expr h4] at hn
    cases hn
  have := List.length_pos_iff.mpr this
  omega

/-- Maps of positions that carry along what patterns do. -/
structure Mor (h : Pos → Option Pos) (f : Nat → Nat) : Prop where
  atom : ∀ a g, Loc h (tryExpr (.atom a) g)
  off : ∀ p p', h p = some p' → p'.off = f p.off
  len : ∀ p p', h p = some p' → p'.rest.length ≤ p.rest.length
  span : ∀ p g o, h ⟨p.off, p.rest, p.spans ++ [⟨g, o, p.off⟩]⟩ =
    (h p).map fun p' => ⟨p'.off, p'.rest, p'.spans ++ [⟨g, f o, p'.off⟩]⟩

section
variable {h : Pos → Option Pos} {f : Nat → Nat} (hm : Mor h f) {cs ct : Bool}
  (hcs : cs = true → Loc h (tryPart .start 0)) (hct : ct = true → Loc h (tryPart .end_ 0))
include hm hcs hct

mutual
theorem loc_ERE : (e : ERE) → e.progress = true → (cs = true ∨ e.hasStart = false) → (ct = true ∨ e.hasEnd = false) →
    ∀ g, Loc h (tryERE e g)
  | .mk bs, hp, h1, h2, g => by
    rw [ERE.progress] at hp
    rw [ERE.hasStart] at h1
    rw [ERE.hasEnd] at h2
    have := loc_branches bs hp h1 h2 g
    intro p
    simp only [tryERE]
    exact this p
theorem loc_branches : (bs : List EREBranch) → progressBranches bs = true → (cs = true ∨ branchesHaveStart bs = false) →
    (ct = true ∨ branchesHaveEnd bs = false) → ∀ g, Loc h (tryBranches bs g)
  | [], hp, h1, h2, g => by
    intro p
    simp only [tryBranches]
    exact loc_none p
  | b :: bs, hp, h1, h2, g => by
    rw [progressBranches, Bool.and_eq_true] at hp
    rw [branchesHaveStart, Bool.or_eq_false_iff] at h1
    rw [branchesHaveEnd, Bool.or_eq_false_iff] at h2
    have i1 := loc_branch b hp.1 (h1.imp_right And.left) (h2.imp_right And.left) g
    have i2 := loc_branches bs hp.2 (h1.imp_right And.right) (h2.imp_right And.right) (g + b.groups)
    intro p
    simp only [tryBranches]
    exact i1.append i2 p
theorem loc_branch : (b : EREBranch) → b.progress = true → (cs = true ∨ b.hasStart = false) → (ct = true ∨ b.hasEnd = false) →
    ∀ g, Loc h (tryBranch b g)
  | .mk ps, hp, h1, h2, g => by
    rw [EREBranch.progress] at hp
    rw [EREBranch.hasStart] at h1
    rw [EREBranch.hasEnd] at h2
    have := loc_parts ps hp h1 h2 g
    intro p
    simp only [tryBranch]
    exact this p
theorem loc_parts : (ps : List EREPart) → progressParts ps = true → (cs = true ∨ partsHaveStart ps = false) →
    (ct = true ∨ partsHaveEnd ps = false) → ∀ g, Loc h (tryParts ps g)
  | [], hp, h1, h2, g => by
    intro p
    simp only [tryParts]
    exact loc_one p
  | x :: ps, hp, h1, h2, g => by
    rw [progressParts, Bool.and_eq_true] at hp
    rw [partsHaveStart, Bool.or_eq_false_iff] at h1
    rw [partsHaveEnd, Bool.or_eq_false_iff] at h2
    have i1 := loc_part x hp.1 (h1.imp_right And.left) (h2.imp_right And.left) g
    have i2 := loc_parts ps hp.2 (h1.imp_right And.right) (h2.imp_right And.right) (g + x.groups)
    intro p
    simp only [tryParts]
    exact i1.flatMap i2 p
theorem loc_part : (x : EREPart) → x.progress = true → (cs = true ∨ x.hasStart = false) → (ct = true ∨ x.hasEnd = false) →
    ∀ g, Loc h (tryPart x g)
  | .single e, hp, h1, h2, g => by
    rw [EREPart.progress] at hp
    rw [EREPart.hasStart] at h1
    rw [EREPart.hasEnd] at h2
    have := loc_expr e hp h1 h2 g
    intro p
    simp only [tryPart]
    exact this p
  | .quantified e q, hp, h1, h2, g => by
    rw [EREPart.progress, Bool.and_eq_true] at hp
    rw [EREPart.hasStart] at h1
    rw [EREPart.hasEnd] at h2
    have ih := loc_expr e hp.1 h1 h2 g
    intro p
    simp only [tryPart]
    refine (ih.times q.q.min).flatMap (L2 := fun p1 => match q.q.max with
      | none => optTimes (tryExpr e g) (!q.alt) p1.rest.length p1
      | some m => if m < q.q.min then [] else optTimes (tryExpr e g) (!q.alt) (m - q.q.min) p1) ?_ p
    cases hq : q.q.max with
    | some m =>
      by_cases hlt : m < q.q.min
      · simp only [if_pos hlt]; exact loc_none
      · simp only [if_neg hlt]; exact ih.optTimes _ _
    | none =>
      have hnn : e.nullable = false := by
        have := hp.2
        rw [hq] at this
        simpa using this
      intro p1
      simp only
      rw [ih.optTimes _ _ p1]
      cases hp1 : h p1 with
      | none => rfl
      | some p' =>
        simp only [Option.toList_some, List.flatMap_cons, List.flatMap_nil, List.append_nil]
        exact optTimes_fuel (fun _ _ hx => tryExpr_consumes hnn hx) _ _ _ _ (hm.len _ _ hp1) (Nat.le_refl _)
  | .start, hp, h1, h2, g => by
    rw [EREPart.hasStart] at h1
    intro p
    have := hcs (by simpa using h1) p
    simp only [tryPart] at this ⊢
    exact this
  | .end_, hp, h1, h2, g => by
    rw [EREPart.hasEnd] at h2
    intro p
    have := hct (by simpa using h2) p
    simp only [tryPart] at this ⊢
    exact this
theorem loc_expr : (e : EREExpr) → e.progress = true → (cs = true ∨ e.hasStart = false) → (ct = true ∨ e.hasEnd = false) →
    ∀ g, Loc h (tryExpr e g)
  | .atom a, hp, h1, h2, g => hm.atom a g
  | .sub e, hp, h1, h2, g => by
    rw [EREExpr.progress] at hp
    rw [EREExpr.hasStart] at h1
    rw [EREExpr.hasEnd] at h2
    have ih := loc_ERE e hp h1 h2 (g + 1)
    intro p
    simp only [tryExpr]
    rw [List.filterMap_map]
    have e1 : (h ∘ fun p1 : Pos => (⟨p1.off, p1.rest, p1.spans ++ [⟨g, p.off, p1.off⟩]⟩ : Pos)) =
        fun p1 => (h p1).map fun p' => ⟨p'.off, p'.rest, p'.spans ++ [⟨g, f p.off, p'.off⟩]⟩ := by
      funext p1
      exact hm.span p1 g p.off
    rw [e1]
    have e2 : ∀ (l : List Pos) (k : Pos → Pos), l.filterMap (fun p1 => (h p1).map k) = (l.filterMap h).map k := by
      intro l k
      rw [List.map_filterMap]
    rw [e2, ih p]
    cases hp' : h p with
    | none => rfl
    | some p' =>
      simp only [Option.toList_some, List.flatMap_cons, List.flatMap_nil, List.append_nil]
      rw [hm.off _ _ hp']
end
end

/-! ### Cutting off the end of the text -/

/-- The position in the text without its last `n` characters. -/
def cutPos (n : Nat) (p : Pos) : Option Pos :=
  if n ≤ p.rest.length then some ⟨p.off, p.rest.take (p.rest.length - n), p.spans⟩ else none

theorem cut_mor (n : Nat) : Mor (cutPos n) id where
  atom := by
    intro a g ⟨o, rest, S⟩
    cases rest with
    | nil =>
      by_cases hn : n ≤ 0
      · simp [tryExpr, cutPos, hn]
      · simp [tryExpr, cutPos, hn]
    | cons c r =>
      rcases Nat.lt_trichotomy n (r.length + 1) with hn | hn | hn
      · have h1 : n ≤ r.length := by omega
        have h2 : r.length + 1 - n = (r.length - n) + 1 := by omega
        by_cases hc : a.check c = true
        · simp [tryExpr, cutPos, hc, h1, h2, Nat.le_of_lt hn]
        · simp [tryExpr, cutPos, hc, h2, Nat.le_of_lt hn]
      · have h1 : ¬ n ≤ r.length := by omega
        by_cases hc : a.check c = true <;> simp [tryExpr, cutPos, hc, hn]
      · have h1 : ¬ n ≤ r.length := by omega
        have h2 : ¬ n ≤ r.length + 1 := by omega
        by_cases hc : a.check c = true <;> simp [tryExpr, cutPos, hc, h1, h2]
  off := by
    intro p p' h
    unfold cutPos at h
    split at h
    · cases h; rfl
    · cases h
  len := by
    intro p p' h
    unfold cutPos at h
    split at h
    · cases h; simp
    · cases h
  span := by
    intro p g o
    unfold cutPos
    by_cases hn : n ≤ p.rest.length <;> simp [hn]

theorem cut_start (n : Nat) : Loc (cutPos n) (tryPart .start 0) := by
  intro p
  simp only [tryPart]
  by_cases h0 : p.off = 0
  · by_cases hn : n ≤ p.rest.length <;> simp [cutPos, hn, h0]
  · by_cases hn : n ≤ p.rest.length <;> simp [cutPos, hn, h0]

/-! ### Moving the text -/

/-- A stretch `k` bytes further on. -/
def Span.shift (k : Nat) (s : Span) : Span := ⟨s.group, s.lo + k, s.hi + k⟩

/-- A position `k` bytes further on. -/
def movePos (k : Nat) (p : Pos) : Pos := ⟨p.off + k, p.rest, p.spans.map (Span.shift k)⟩

theorem move_mor (k : Nat) : Mor (fun p => some (movePos k p)) (· + k) where
  atom := by
    intro a g ⟨o, rest, S⟩
    cases rest with
    | nil => simp [tryExpr, movePos]
    | cons c r =>
      by_cases hc : a.check c = true
      · simp [tryExpr, movePos, hc]; omega
      · simp [tryExpr, movePos, hc]
  off := by
    intro p p' h
    cases h
    rfl
  len := by
    intro p p' h
    cases h
    exact Nat.le_refl _
  span := by
    intro p g o
    simp [movePos, Span.shift]

theorem move_end (k : Nat) : Loc (fun p => some (movePos k p)) (tryPart .end_ 0) := by
  intro p
  simp only [tryPart]
  by_cases h0 : p.rest = [] <;> simp [h0, movePos]

/-! ### Patterns whose ways through all cross the same anchors -/

/-- Either no anchor is crossed and there is none, or it is crossed by all ways. -/
def Cr (x y : Bool × Bool) (hs he : Bool) (C : List Char → List Char → List Char → Prop) : Prop :=
  ((y.1 = x.1 ∧ hs = false) ∨ (x.1 = false ∧ y.1 = true ∧ ∀ pre mid post, C pre mid post → pre = [])) ∧
  ((y.2 = x.2 ∧ he = false) ∨ (x.2 = false ∧ y.2 = true ∧ ∀ pre mid post, C pre mid post → post = []))

theorem Cr.mono {x y hs he C C'} (h : Cr x y hs he C) (hC : ∀ pre mid post, C' pre mid post → C pre mid post) :
    Cr x y hs he C' :=
  ⟨h.1.imp_right fun ⟨a, b, c⟩ => ⟨a, b, fun _ _ _ k => c _ _ _ (hC _ _ _ k)⟩,
    h.2.imp_right fun ⟨a, b, c⟩ => ⟨a, b, fun _ _ _ k => c _ _ _ (hC _ _ _ k)⟩⟩

mutual
theorem cr_ERE : (e : ERE) → ∀ x y, e.crosses x = some y →
    Cr x y e.hasStart e.hasEnd fun pre mid post => ∃ g S, CapERE e g pre mid post S
  | .mk bs, x, y, h => by
    rw [ERE.crosses] at h
    rw [ERE.hasStart, ERE.hasEnd]
    refine (cr_branches bs x y h).mono ?_
    rintro pre mid post ⟨g, S, hc⟩
    cases hc with
    | @intro _ bs1 b bs2 _ _ _ _ _ h1 h2 => exact ⟨b, by rw [h1]; simp, _, S, h2⟩
theorem cr_branches : (bs : List EREBranch) → ∀ x y, branchesCross bs x = some y →
    Cr x y (branchesHaveStart bs) (branchesHaveEnd bs) fun pre mid post => ∃ b ∈ bs, ∃ g S, CapBranch b g pre mid post S
  | [], x, y, h => by simp [branchesCross] at h
  | [b], x, y, h => by
    rw [branchesCross] at h
    have := cr_branch b x y h
    simp only [branchesHaveStart, branchesHaveEnd, Bool.or_false, List.mem_singleton, exists_eq_left]
    exact this
  | b :: b' :: bs, x, y, h => by
    rw [branchesCross] at h
    split at h
    · rename_i heq
      have i1 := cr_branch b x y h
      have i2 := cr_branches (b' :: bs) x y (heq ▸ h)
      rw [branchesHaveStart, branchesHaveEnd]
      constructor
      · rcases i1.1 with ⟨a1, a2⟩ | ⟨a1, a2, a3⟩
        · rcases i2.1 with ⟨c1, c2⟩ | ⟨c1, c2, c3⟩
          · left; exact ⟨a1, by rw [a2, c2]; rfl⟩
          · rw [c1, c2] at a1; cases a1
        · rcases i2.1 with ⟨c1, c2⟩ | ⟨c1, c2, c3⟩
          · rw [a1, a2] at c1; cases c1
          · refine .inr ⟨a1, a2, ?_⟩
            rintro pre mid post ⟨d, hd, k⟩
            rcases List.mem_cons.mp hd with rfl | hd
            · exact a3 _ _ _ k
            · exact c3 _ _ _ ⟨d, hd, k⟩
      · rcases i1.2 with ⟨a1, a2⟩ | ⟨a1, a2, a3⟩
        · rcases i2.2 with ⟨c1, c2⟩ | ⟨c1, c2, c3⟩
          · left; exact ⟨a1, by rw [a2, c2]; rfl⟩
          · rw [c1, c2] at a1; cases a1
        · rcases i2.2 with ⟨c1, c2⟩ | ⟨c1, c2, c3⟩
          · rw [a1, a2] at c1; cases c1
          · refine .inr ⟨a1, a2, ?_⟩
            rintro pre mid post ⟨d, hd, k⟩
            rcases List.mem_cons.mp hd with rfl | hd
            · exact a3 _ _ _ k
            · exact c3 _ _ _ ⟨d, hd, k⟩
    · cases h
theorem cr_branch : (b : EREBranch) → ∀ x y, b.crosses x = some y →
    Cr x y b.hasStart b.hasEnd fun pre mid post => ∃ g S, CapBranch b g pre mid post S
  | .mk ps, x, y, h => by
    rw [EREBranch.crosses] at h
    rw [EREBranch.hasStart, EREBranch.hasEnd]
    exact cr_parts ps x y h
theorem cr_parts : (ps : List EREPart) → ∀ x y, partsCross ps x = some y →
    Cr x y (partsHaveStart ps) (partsHaveEnd ps) fun pre mid post => ∃ g S, CapBranch (.mk ps) g pre mid post S
  | [], x, y, h => by
    simp only [partsCross, Option.some.injEq] at h
    subst h
    exact ⟨.inl ⟨rfl, rfl⟩, .inl ⟨rfl, rfl⟩⟩
  | q :: ps, x, y, h => by
    rw [partsCross, Option.bind_eq_some_iff] at h
    obtain ⟨w, h1, h2⟩ := h
    have i1 := cr_part q x w h1
    have i2 := cr_parts ps w y h2
    rw [partsHaveStart, partsHaveEnd]
    constructor
    · rcases i1.1 with ⟨a1, a2⟩ | ⟨a1, a2, a3⟩
      · rcases i2.1 with ⟨c1, c2⟩ | ⟨c1, c2, c3⟩
        · left; exact ⟨c1.trans a1, by rw [a2, c2]; rfl⟩
        · refine .inr ⟨a1 ▸ c1, c2, ?_⟩
          rintro pre mid post ⟨g, S, k⟩
          cases k with
          | cons k1 k2 => exact (List.append_eq_nil_iff.mp (c3 _ _ _ ⟨_, _, k2⟩)).1
      · rcases i2.1 with ⟨c1, c2⟩ | ⟨c1, c2, c3⟩
        · refine .inr ⟨a1, c1.trans a2, ?_⟩
          rintro pre mid post ⟨g, S, k⟩
          cases k with
          | cons k1 k2 => exact a3 _ _ _ ⟨_, _, k1⟩
        · rw [a2] at c1; cases c1
    · rcases i1.2 with ⟨a1, a2⟩ | ⟨a1, a2, a3⟩
      · rcases i2.2 with ⟨c1, c2⟩ | ⟨c1, c2, c3⟩
        · left; exact ⟨c1.trans a1, by rw [a2, c2]; rfl⟩
        · refine .inr ⟨a1 ▸ c1, c2, ?_⟩
          rintro pre mid post ⟨g, S, k⟩
          cases k with
          | cons k1 k2 => exact c3 _ _ _ ⟨_, _, k2⟩
      · rcases i2.2 with ⟨c1, c2⟩ | ⟨c1, c2, c3⟩
        · refine .inr ⟨a1, c1.trans a2, ?_⟩
          rintro pre mid post ⟨g, S, k⟩
          cases k with
          | cons k1 k2 => exact (List.append_eq_nil_iff.mp (a3 _ _ _ ⟨_, _, k1⟩)).2
        · rw [a2] at c1; cases c1
theorem cr_part : (q : EREPart) → ∀ x y, q.crosses x = some y →
    Cr x y q.hasStart q.hasEnd fun pre mid post => ∃ g S, CapPart q g pre mid post S
  | .single e, x, y, h => by
    rw [EREPart.crosses] at h
    rw [EREPart.hasStart, EREPart.hasEnd]
    refine (cr_expr e x y h).mono ?_
    rintro pre mid post ⟨g, S, hc⟩
    cases hc with
    | single hc => exact ⟨g, S, hc⟩
  | .quantified e q, x, y, h => by
    rw [EREPart.crosses] at h
    rw [EREPart.hasStart, EREPart.hasEnd]
    split at h
    · cases h
    · rename_i hn
      cases h
      rw [Bool.not_eq_true, Bool.or_eq_false_iff] at hn
      exact ⟨.inl ⟨rfl, hn.1⟩, .inl ⟨rfl, hn.2⟩⟩
  | .start, x, y, h => by
    rw [EREPart.crosses] at h
    split at h
    · cases h
    · rename_i hn
      cases h
      refine ⟨.inr ⟨by simpa using hn, rfl, ?_⟩, .inl ⟨rfl, rfl⟩⟩
      rintro pre mid post ⟨g, S, hc⟩
      cases hc
      rfl
  | .end_, x, y, h => by
    rw [EREPart.crosses] at h
    split at h
    · cases h
    · rename_i hn
      cases h
      refine ⟨.inl ⟨rfl, rfl⟩, .inr ⟨by simpa using hn, rfl, ?_⟩⟩
      rintro pre mid post ⟨g, S, hc⟩
      cases hc
      rfl
theorem cr_expr : (e : EREExpr) → ∀ x y, e.crosses x = some y →
    Cr x y e.hasStart e.hasEnd fun pre mid post => ∃ g S, CapExpr e g pre mid post S
  | .atom a, x, y, h => by
    simp only [EREExpr.crosses, Option.some.injEq] at h
    subst h
    exact ⟨.inl ⟨rfl, rfl⟩, .inl ⟨rfl, rfl⟩⟩
  | .sub e, x, y, h => by
    rw [EREExpr.crosses] at h
    rw [EREExpr.hasStart, EREExpr.hasEnd]
    refine (cr_ERE e x y h).mono ?_
    rintro pre mid post ⟨g, S, hc⟩
    cases hc with
    | sub hc => exact ⟨_, _, hc⟩
end

/-- A pattern without uneven anchors has no `^` or matches only at the start; no `$` or matches only up to the end. -/
theorem even_cases {e : ERE} (h : e.evenAnchors = true) :
    (e.hasStart = false ∨ ∀ g pre mid post S, CapERE e g pre mid post S → pre = []) ∧
    (e.hasEnd = false ∨ ∀ g pre mid post S, CapERE e g pre mid post S → post = []) := by
  obtain ⟨y, hy⟩ := Option.isSome_iff_exists.mp h
  have := cr_ERE e _ _ hy
  exact ⟨this.1.imp And.right fun k g pre mid post S hc => k.2.2 _ _ _ ⟨g, S, hc⟩,
    this.2.imp And.right fun k g pre mid post S hc => k.2.2 _ _ _ ⟨g, S, hc⟩⟩

/-! ### The preferred match -/

theorem lastSpan_whole (S : List Span) (i j : Nat) : lastSpan (S ++ [⟨0, i, j⟩]) 0 = some (i, j) := by
  simp [lastSpan]

theorem byteLen_a (n : Nat) : byteLen (List.replicate n 'a') = n := by
  induction n with
  | zero => rfl
  | succ n ih => rw [List.replicate_succ, byteLen_cons, ih]; simp [charLen]; omega

/-- The preferred match does not start before the position and does not end before it starts. -/
theorem firstFrom_range {e : ERE} : ∀ (rest : List Char) (o : Nat) {S}, e.firstFrom o rest = some S → ∀ {i j},
    lastSpan S 0 = some (i, j) → o ≤ i ∧ i ≤ j := by
  have key : ∀ o rest p S, (tryERE e 1 ⟨o, rest, []⟩).head? = some p → S = p.spans ++ [⟨0, o, p.off⟩] → ∀ {i j},
      lastSpan S 0 = some (i, j) → o ≤ i ∧ i ≤ j := by
    intro o rest p S hp hS i j hij
    obtain ⟨mid, _, _, a2, _⟩ := tryERE_sound e 1 (List.replicate o 'a') ⟨o, rest, []⟩ p (byteLen_a o).symm (List.mem_of_mem_head? hp)
    rw [byteLen_append, byteLen_a] at a2
    rw [hS, lastSpan_whole] at hij
    cases hij
    omega
  intro rest
  induction rest with
  | nil =>
    intro o S h i j hij
    rw [ERE.firstFrom, Option.map_eq_some_iff] at h
    obtain ⟨p, hp, h⟩ := h
    exact key o [] p S hp h.symm hij
  | cons c r ih =>
    intro o S h i j hij
    rw [ERE.firstFrom] at h
    split at h
    · rename_i p hp
      cases h
      exact key o _ p _ hp rfl hij
    · have := ih _ h hij
      omega

theorem filterMap_head {β γ : Type} {k : β → Option γ} {l : List β} {b : β} {c : γ} (h : l.head? = some b) (hk : k b = some c) :
    (l.filterMap k).head? = some c := by
  cases l with
  | nil => cases h
  | cons x l =>
    cases h
    rw [List.filterMap_cons, hk]
    rfl

/-- Cutting off the end. -/
theorem firstFrom_cut {e : ERE} (hp : e.progress = true) (he : e.hasEnd = false) (z : List Char) : ∀ (u : List Char) (o : Nat) {S},
    e.firstFrom o (u ++ z) = some S → ∀ {i j}, lastSpan S 0 = some (i, j) → j ≤ o + byteLen u → e.firstFrom o u = some S := by
  have hloc : ∀ u o, (tryERE e 1 ⟨o, u ++ z, []⟩).filterMap (cutPos z.length) = tryERE e 1 ⟨o, u, []⟩ := by
    intro u o
    have := loc_ERE (cut_mor z.length) (cs := true) (ct := false) (fun _ => cut_start _) (by simp) e hp (.inl rfl) (.inr he) 1
      ⟨o, u ++ z, []⟩
    rw [this]
    have h1 : cutPos z.length ⟨o, u ++ z, []⟩ = some ⟨o, u, []⟩ := by simp [cutPos]
    rw [h1]
    simp
  have key : ∀ u o p, (tryERE e 1 ⟨o, u ++ z, []⟩).head? = some p → p.off ≤ o + byteLen u →
      ∃ p', (tryERE e 1 ⟨o, u, []⟩).head? = some p' ∧ p'.off = p.off ∧ p'.spans = p.spans := by
    intro u o p h1 h2
    obtain ⟨mid, _, a1, a2, _⟩ := tryERE_sound e 1 (List.replicate o 'a') ⟨o, u ++ z, []⟩ p (byteLen_a o).symm (List.mem_of_mem_head? h1)
    rw [byteLen_append, byteLen_a] at a2
    simp only at a1
    have hl : z.length ≤ p.rest.length := by
      rcases List.append_eq_append_iff.mp a1 with ⟨w, w1, w2⟩ | ⟨w, w1, w2⟩
      · have : byteLen w = 0 := by
          rw [w1, byteLen_append] at a2
          omega
        have : w = [] := by
          cases w with
          | nil => rfl
          | cons c w =>
            rw [byteLen_cons] at this
            have := charLen_pos c
            omega
        rw [w2, this]
        simp
      · rw [w2]; simp
    refine ⟨⟨p.off, p.rest.take (p.rest.length - z.length), p.spans⟩, ?_, rfl, rfl⟩
    rw [← hloc u o]
    exact filterMap_head h1 (by rw [cutPos, if_pos hl])
  intro u
  induction u with
  | nil =>
    intro o S h i j hij hj
    cases hz : (tryERE e 1 ⟨o, [] ++ z, []⟩).head? with
    | some p =>
      have hS : S = p.spans ++ [⟨0, o, p.off⟩] := by
        cases z with
        | nil =>
          rw [List.nil_append] at hz h
          rw [ERE.firstFrom, hz] at h
          exact (Option.some.inj h).symm
        | cons c z =>
          rw [List.nil_append] at hz h
          rw [ERE.firstFrom, hz] at h
          exact (Option.some.inj h).symm
      have hj' : p.off = j := by
        rw [hS, lastSpan_whole] at hij
        cases hij; rfl
      obtain ⟨p', b1, b2, b3⟩ := key [] o p hz (by rw [hj']; exact hj)
      rw [ERE.firstFrom, b1, hS]
      simp [b2, b3]
    | none =>
      cases z with
      | nil => exact h
      | cons c z =>
        rw [List.nil_append] at hz h
        rw [ERE.firstFrom, hz] at h
        have h1 := firstFrom_range _ _ h hij
        have h2 := charLen_pos c
        simp only [byteLen_nil] at hj
        omega
  | cons c u ih =>
    intro o S h i j hij hj
    cases hz : (tryERE e 1 ⟨o, c :: u ++ z, []⟩).head? with
    | some p =>
      have hS : S = p.spans ++ [⟨0, o, p.off⟩] := by
        rw [List.cons_append] at hz h
        rw [ERE.firstFrom, hz] at h
        exact (Option.some.inj h).symm
      have hj' : p.off = j := by
        rw [hS, lastSpan_whole] at hij
        cases hij; rfl
      obtain ⟨p', b1, b2, b3⟩ := key (c :: u) o p hz (by rw [hj']; exact hj)
      rw [ERE.firstFrom, b1, hS]
      simp [b2, b3]
    | none =>
      have h0 : (tryERE e 1 ⟨o, c :: u, []⟩).head? = none := by
        rw [List.head?_eq_none_iff] at hz ⊢
        rw [← hloc (c :: u) o, hz]
        rfl
      rw [List.cons_append] at hz h
      rw [ERE.firstFrom, hz] at h
      rw [ERE.firstFrom, h0]
      rw [byteLen_cons] at hj
      exact ih _ h hij (by omega)

/-- Leaving out text in front. -/
theorem firstFrom_skip {e : ERE} (u : List Char) : ∀ (x : List Char) (o : Nat) {S}, e.firstFrom o (x ++ u) = some S → ∀ {i j},
    lastSpan S 0 = some (i, j) → o + byteLen x ≤ i → e.firstFrom (o + byteLen x) u = some S := by
  intro x
  induction x with
  | nil => intro o S h i j _ _; simpa [byteLen_nil] using h
  | cons c x ih =>
    intro o S h i j hij hi
    rw [List.cons_append, ERE.firstFrom] at h
    rw [byteLen_cons] at hi ⊢
    have hc := charLen_pos c
    split at h
    · cases h
      rw [lastSpan_whole] at hij
      cases hij
      omega
    · have := ih _ h hij (by omega)
      rw [← Nat.add_assoc]
      exact this

/-- Moving the text. -/
theorem firstFrom_move {e : ERE} (hp : e.progress = true) (hs : e.hasStart = false) (k : Nat) : ∀ (u : List Char) (o : Nat),
    e.firstFrom (o + k) u = (e.firstFrom o u).map fun S => S.map (Span.shift k) := by
  have hloc : ∀ u o, tryERE e 1 ⟨o + k, u, []⟩ = (tryERE e 1 ⟨o, u, []⟩).map (movePos k) := by
    intro u o
    have := loc_ERE (move_mor k) (cs := false) (ct := true) (by simp) (fun _ => move_end _) e hp (.inr hs) (.inl rfl) 1 ⟨o, u, []⟩
    simp only [Option.toList_some, List.flatMap_cons, List.flatMap_nil, List.append_nil] at this
    rw [List.filterMap_eq_map'] at this
    rw [this]
    rfl
  intro u
  induction u with
  | nil =>
    intro o
    rw [ERE.firstFrom, ERE.firstFrom, hloc, List.head?_map, Option.map_map, Option.map_map]
    congr 1
    funext p
    simp [movePos, Span.shift]
  | cons c u ih =>
    intro o
    rw [ERE.firstFrom, ERE.firstFrom, hloc, List.head?_map]
    cases hh : (tryERE e 1 ⟨o, c :: u, []⟩).head? with
    | some p => simp [movePos, Span.shift]
    | none =>
      have : o + k + charLen c = o + charLen c + k := by omega
      simp only [Option.map_none]
      rw [this, ih]

/-- The text around the preferred match can be cut off. -/
theorem first_cut {e : ERE} (hp : e.progress = true) (he : e.evenAnchors = true) {x m z : List Char} {S}
    (h : e.first (x ++ m ++ z) = some S) {i j} (hij : lastSpan S 0 = some (i, j)) (hi : byteLen x ≤ i)
    (hj : j ≤ byteLen (x ++ m)) : ∃ S', e.first m = some S' ∧ S = S'.map (Span.shift (byteLen x)) := by
  have hnil : ∀ l : List Char, byteLen l = 0 → l = [] := by
    intro l hl
    cases l with
    | nil => rfl
    | cons c l =>
      rw [byteLen_cons] at hl
      have := charLen_pos c
      omega
  obtain ⟨pre, mid, post, S0, c1, c2, c3⟩ := first_captures h
  rw [c3, lastSpan_whole] at hij
  have hi' : byteLen pre = i := by cases hij; rfl
  have hj' : byteLen (pre ++ mid) = j := by cases hij; rfl
  have hij : lastSpan S 0 = some (i, j) := by rw [c3, lastSpan_whole, hi', hj']
  obtain ⟨e1, e2⟩ := even_cases he
  have h1 : e.first (x ++ m) = some S := by
    rcases e2 with e2 | e2
    · exact firstFrom_cut hp e2 z (x ++ m) 0 h hij (by omega)
    · have hp0 := e2 _ _ _ _ _ c2
      have : byteLen (x ++ m ++ z) = j := by rw [c1, hp0, List.append_nil, hj']
      rw [byteLen_append] at this
      rw [hnil z (by omega), List.append_nil] at h
      exact h
  have h2 := firstFrom_skip m x 0 h1 hij (by omega)
  rcases e1 with e1 | e1
  · rw [firstFrom_move hp e1] at h2
    obtain ⟨S', k1, k2⟩ := Option.map_eq_some_iff.mp h2
    exact ⟨S', k1, k2.symm⟩
  · have hp0 := e1 _ _ _ _ _ c2
    rw [hp0, byteLen_nil] at hi'
    have hx := hnil x (by omega)
    subst hx
    refine ⟨S, by simpa [byteLen_nil, ERE.first] using h2, ?_⟩
    have : Span.shift (byteLen []) = id := by
      funext s
      simp [Span.shift, byteLen_nil]
    rw [this, List.map_id]

end Ere
