import Verif.Proofs.Cut
import Verif.Spec.Longest

/-! The preferred match of a steady pattern is the longest of the leftmost ones. -/

namespace Ere

/-! ### Ways to match and matches -/

mutual
theorem CapERE.matches : {e : ERE} → {g : Nat} → {pre mid post : List Char} → {S : List Span} → CapERE e g pre mid post S →
    MatchesERE e pre mid post
  | _, _, _, _, _, _, .intro hb h => .intro (by rw [hb]; simp) h.matches
theorem CapBranch.matches : {e : EREBranch} → {g : Nat} → {pre mid post : List Char} → {S : List Span} →
    CapBranch e g pre mid post S → MatchesBranch e pre mid post
  | _, _, _, _, _, _, .nil => .nil
  | _, _, _, _, _, _, .cons h1 h2 => .cons h1.matches h2.matches
theorem CapPart.matches : {e : EREPart} → {g : Nat} → {pre mid post : List Char} → {S : List Span} →
    CapPart e g pre mid post S → MatchesPart e pre mid post
  | _, _, _, _, _, _, .single h => .single h.matches
  | _, _, _, _, _, _, .quantified h1 h2 h => .quantified h1 h2 h.matches
  | _, _, _, _, _, _, .start => .start
  | _, _, _, _, _, _, .end_ => .end_
theorem CapTimes.matches : {e : EREExpr} → {n g : Nat} → {pre mid post : List Char} → {S : List Span} →
    CapTimes e n g pre mid post S → MatchesTimes e n pre mid post
  | _, _, _, _, _, _, _, .zero => .zero
  | _, _, _, _, _, _, _, .succ h1 h2 => .succ h1.matches h2.matches
theorem CapExpr.matches : {e : EREExpr} → {g : Nat} → {pre mid post : List Char} → {S : List Span} →
    CapExpr e g pre mid post S → MatchesExpr e pre mid post
  | _, _, _, _, _, _, .atom h => .atom h
  | _, _, _, _, _, _, .sub h => .sub h.matches
end

mutual
theorem MatchesERE.captured : {e : ERE} → {pre mid post : List Char} → MatchesERE e pre mid post → ∀ g, ∃ S, CapERE e g pre mid post S
  | _, _, _, _, .intro hb h, g => by
    obtain ⟨bs1, bs2, h1⟩ := List.append_of_mem hb
    obtain ⟨S, hS⟩ := h.captured (g + groupsBranches bs1)
    exact ⟨S, .intro h1 hS⟩
theorem MatchesBranch.captured : {e : EREBranch} → {pre mid post : List Char} → MatchesBranch e pre mid post →
    ∀ g, ∃ S, CapBranch e g pre mid post S
  | _, _, _, _, .nil, g => ⟨[], .nil⟩
  | _, _, _, _, .cons h1 h2, g => by
    obtain ⟨S1, k1⟩ := h1.captured g
    obtain ⟨S2, k2⟩ := h2.captured _
    exact ⟨S1 ++ S2, .cons k1 k2⟩
theorem MatchesPart.captured : {e : EREPart} → {pre mid post : List Char} → MatchesPart e pre mid post →
    ∀ g, ∃ S, CapPart e g pre mid post S
  | _, _, _, _, .single h, g => by
    obtain ⟨S, k⟩ := h.captured g
    exact ⟨S, .single k⟩
  | _, _, _, _, .quantified h1 h2 h, g => by
    obtain ⟨S, k⟩ := h.captured g
    exact ⟨S, .quantified h1 h2 k⟩
  | _, _, _, _, .start, g => ⟨[], .start⟩
  | _, _, _, _, .end_, g => ⟨[], .end_⟩
theorem MatchesTimes.captured : {e : EREExpr} → {n : Nat} → {pre mid post : List Char} → MatchesTimes e n pre mid post →
    ∀ g, ∃ S, CapTimes e n g pre mid post S
  | _, _, _, _, _, .zero, g => ⟨[], .zero⟩
  | _, _, _, _, _, .succ h1 h2, g => by
    obtain ⟨S1, k1⟩ := h1.captured g
    obtain ⟨S2, k2⟩ := h2.captured g
    exact ⟨S1 ++ S2, .succ k1 k2⟩
theorem MatchesExpr.captured : {e : EREExpr} → {pre mid post : List Char} → MatchesExpr e pre mid post →
    ∀ g, ∃ S, CapExpr e g pre mid post S
  | _, _, _, _, .atom h, g => ⟨[], .atom h⟩
  | _, _, _, _, .sub h, g => by
    obtain ⟨S, k⟩ := h.captured (g + 1)
    exact ⟨_, .sub k⟩
end

/-! ### Numbers of groups and captures so far make no difference -/

/-- Where one is in the text. -/
def Pos.place (p : Pos) : Nat × List Char := (p.off, p.rest)

/-- The same ways through the text, in the same order. -/
def Sim (L L' : Pos → List Pos) : Prop := ∀ p p' : Pos, p.place = p'.place → (L p).map Pos.place = (L' p').map Pos.place

theorem Sim.over {L L' : Pos → List Pos} (h : Sim L L') : ∀ {l l' : List Pos}, l.map Pos.place = l'.map Pos.place →
    (l.flatMap L).map Pos.place = (l'.flatMap L').map Pos.place
  | [], [], _ => rfl
  | [], _ :: _, e => by simp at e
  | _ :: _, [], e => by simp at e
  | p :: l, p' :: l', e => by
    simp only [List.map_cons, List.cons.injEq] at e
    simp only [List.flatMap_cons, List.map_append]
    rw [h p p' e.1, h.over e.2]

theorem Sim.flatMap {L1 L1' L2 L2' : Pos → List Pos} (h1 : Sim L1 L1') (h2 : Sim L2 L2') :
    Sim (fun p => (L1 p).flatMap L2) (fun p => (L1' p).flatMap L2') :=
  fun p p' e => h2.over (h1 p p' e)

theorem Sim.times {L L' : Pos → List Pos} (h : Sim L L') : ∀ n, Sim (times L n) (times L' n)
  | 0 => by
    intro p p' e
    simp [Ere.times, e]
  | n + 1 => h.flatMap (h.times n)

theorem Sim.optTimes {L L' : Pos → List Pos} (h : Sim L L') (gr : Bool) : ∀ n, Sim (optTimes L gr n) (optTimes L' gr n)
  | 0 => by
    intro p p' e
    simp [Ere.optTimes, e]
  | n + 1 => by
    intro p p' e
    have := h.flatMap (h.optTimes gr n) p p' e
    cases gr
    · simp only [Ere.optTimes, Bool.false_eq_true, if_false, List.map_cons, this, e]
    · simp only [Ere.optTimes, if_true, List.map_append, List.map_cons, List.map_nil, this, e]

theorem Sim.symm {L L' : Pos → List Pos} (h : Sim L L') : Sim L' L := fun p p' e => (h p' p e.symm).symm

theorem Sim.trans {L L' L'' : Pos → List Pos} (h : Sim L L') (h' : Sim L' L'') : Sim L L'' :=
  fun p p' e => (h p p' e).trans (h' p' p' rfl)

mutual
theorem sim_ERE : ∀ (e : ERE) (g g' : Nat), Sim (tryERE e g) (tryERE e g')
  | .mk bs, g, g' => by
    intro p p' h
    rw [tryERE, tryERE]
    exact sim_branches bs g g' p p' h
theorem sim_branches : ∀ (bs : List EREBranch) (g g' : Nat), Sim (tryBranches bs g) (tryBranches bs g')
  | [], g, g' => by
    intro p p' h
    simp [tryBranches]
  | b :: bs, g, g' => by
    intro p p' h
    rw [tryBranches, tryBranches, List.map_append, List.map_append, sim_branch b g g' p p' h, sim_branches bs _ _ p p' h]
theorem sim_branch : ∀ (b : EREBranch) (g g' : Nat), Sim (tryBranch b g) (tryBranch b g')
  | .mk ps, g, g' => by
    intro p p' h
    rw [tryBranch, tryBranch]
    exact sim_parts ps g g' p p' h
theorem sim_parts : ∀ (ps : List EREPart) (g g' : Nat), Sim (tryParts ps g) (tryParts ps g')
  | [], g, g' => by
    intro p p' h
    simp [tryParts, h]
  | x :: ps, g, g' => by
    intro p p' h
    rw [tryParts, tryParts]
    exact (sim_parts ps _ _).over (sim_part x g g' p p' h)
theorem sim_part : ∀ (x : EREPart) (g g' : Nat), Sim (tryPart x g) (tryPart x g')
  | .single e, g, g' => by
    intro p p' h
    rw [tryPart, tryPart]
    exact sim_expr e g g' p p' h
  | .quantified e q, g, g' => by
    intro p p' h
    rw [tryPart, tryPart]
    refine Sim.over ?_ ((sim_expr e g g').times q.q.min p p' h)
    intro r r' hr
    have hr2 : r.rest = r'.rest := congrArg Prod.snd hr
    cases q.q.max with
    | none =>
      simp only [hr2]
      exact (sim_expr e g g').optTimes _ _ r r' hr
    | some m =>
      simp only
      split
      · rfl
      · exact (sim_expr e g g').optTimes _ _ r r' hr
  | .start, g, g' => by
    intro p p' h
    have h1 : p.off = p'.off := congrArg Prod.fst h
    simp only [tryPart, h1]
    split <;> simp [h]
  | .end_, g, g' => by
    intro p p' h
    have h2 : p.rest = p'.rest := congrArg Prod.snd h
    simp only [tryPart, h2]
    split <;> simp [h]
theorem sim_expr : ∀ (e : EREExpr) (g g' : Nat), Sim (tryExpr e g) (tryExpr e g')
  | .atom a, g, g' => by
    intro p p' h
    have h1 : p.off = p'.off := congrArg Prod.fst h
    have h2 : p.rest = p'.rest := congrArg Prod.snd h
    simp only [tryExpr, h1, h2]
    cases p'.rest with
    | nil => rfl
    | cons c r =>
      simp only
      split <;> simp [Pos.place]
  | .sub e, g, g' => by
    intro p p' h
    rw [tryExpr, tryExpr, List.map_map, List.map_map]
    exact sim_ERE e (g + 1) (g' + 1) p p' h
end

/-- Where one can get depends on the place only. -/
def Indep (L : Pos → List Pos) : Prop := Sim L L

theorem Indep.mem {L : Pos → List Pos} (h : Indep L) {p q : Pos} (h1 : p.off = q.off) (h2 : p.rest = q.rest) {p1} (hp : p1 ∈ L p) :
    ∃ q1 ∈ L q, q1.off = p1.off ∧ q1.rest = p1.rest := by
  have := h p q (by rw [Pos.place, Pos.place, h1, h2])
  have hm : p1.place ∈ (L q).map Pos.place := by
    rw [← this]
    exact List.mem_map_of_mem hp
  obtain ⟨q1, k1, k2⟩ := List.mem_map.mp hm
  exact ⟨q1, k1, congrArg Prod.fst k2, congrArg Prod.snd k2⟩

/-- One does not go back. -/
def Mono (L : Pos → List Pos) : Prop := ∀ p, ∀ p1 ∈ L p, p.off ≤ p1.off

/-- There is only one place to get to. -/
def Same (L : Pos → List Pos) : Prop := ∀ p, ∀ p1 ∈ L p, ∀ p2 ∈ L p, p1.off = p2.off ∧ p1.rest = p2.rest

/-- The preferred way goes furthest. -/
def Far (L : Pos → List Pos) : Prop := ∀ p p1, (L p).head? = some p1 → ∀ p2 ∈ L p, p2.off ≤ p1.off

theorem head_flatMap {β γ : Type} {l : List β} {f : β → List γ} {c : γ} (h : (l.flatMap f).head? = some c) :
    ∃ b ∈ l, (f b).head? = some c := by
  induction l with
  | nil => simp at h
  | cons b l ih =>
    rw [List.flatMap_cons] at h
    cases hb : f b with
    | nil =>
      rw [hb, List.nil_append] at h
      obtain ⟨b', h1, h2⟩ := ih h
      exact ⟨b', by simp [h1], h2⟩
    | cons x xs =>
      rw [hb] at h
      exact ⟨b, by simp, by rw [hb]; exact h⟩

theorem Far.same {L1 L2 : Pos → List Pos} (h1 : Same L1) (h2 : Far L2) (h3 : Indep L2) : Far fun p => (L1 p).flatMap L2 := by
  intro p p1 hp p2 hp2
  obtain ⟨q, hq, hq1⟩ := head_flatMap hp
  obtain ⟨q', hq', hq2⟩ := List.mem_flatMap.mp hp2
  obtain ⟨e1, e2⟩ := h1 p q' hq' q hq
  obtain ⟨p3, k1, k2, _⟩ := h3.mem e1 e2 hq2
  rw [← k2]
  exact h2 q p1 hq1 p3 k1

theorem Far.sim {L L' : Pos → List Pos} (h : Far L) (hs : Sim L L') : Far L' := by
  intro p p1 hp p2 hp2
  have e := hs p p rfl
  have h1 : (L p).head?.map Pos.place = some p1.place := by
    rw [← List.head?_map, e, List.head?_map, hp]
    rfl
  obtain ⟨q1, k1, k2⟩ := Option.map_eq_some_iff.mp h1
  have hm : p2.place ∈ (L p).map Pos.place := by
    rw [e]
    exact List.mem_map_of_mem hp2
  obtain ⟨q2, l1, l2⟩ := List.mem_map.mp hm
  have := h p q1 k1 q2 l1
  have a1 : q1.off = p1.off := congrArg Prod.fst k2
  have a2 : q2.off = p2.off := congrArg Prod.fst l2
  omega

theorem Mono.flatMap {L1 L2 : Pos → List Pos} (h1 : Mono L1) (h2 : Mono L2) : Mono fun p => (L1 p).flatMap L2 := by
  intro p p1 hp
  obtain ⟨q, hq, hq1⟩ := List.mem_flatMap.mp hp
  exact Nat.le_trans (h1 p q hq) (h2 q p1 hq1)

theorem Mono.optTimes {L : Pos → List Pos} (h : Mono L) (gr : Bool) : ∀ k, Mono (optTimes L gr k)
  | 0 => by
    intro p p1 hp
    simp only [Ere.optTimes, List.mem_singleton] at hp
    rw [hp]
  | k + 1 => by
    intro p p1 hp
    have : p1 ∈ (L p).flatMap (Ere.optTimes L gr k) ∨ p1 = p := by
      cases gr
      · simpa [Ere.optTimes, or_comm] using hp
      · simpa [Ere.optTimes] using hp
    rcases this with hp | rfl
    · exact h.flatMap (h.optTimes gr k) p p1 hp
    · exact Nat.le_refl _

theorem Same.flatMap {L1 L2 : Pos → List Pos} (h1 : Same L1) (h2 : Same L2) (hi : Indep L2) : Same fun p => (L1 p).flatMap L2 := by
  intro p p1 hp1 p2 hp2
  obtain ⟨q, hq, hq1⟩ := List.mem_flatMap.mp hp1
  obtain ⟨q', hq', hq2⟩ := List.mem_flatMap.mp hp2
  obtain ⟨e1, e2⟩ := h1 p q' hq' q hq
  obtain ⟨p3, k1, k2, k3⟩ := hi.mem e1 e2 hq2
  obtain ⟨f1, f2⟩ := h2 q p1 hq1 p3 k1
  exact ⟨f1.trans k2, f2.trans k3⟩

theorem Same.times {L : Pos → List Pos} (h : Same L) (hi : Indep L) : ∀ n, Same (Ere.times L n)
  | 0 => by
    intro p p1 h1 p2 h2
    simp only [Ere.times, List.mem_singleton] at h1 h2
    subst h1 h2
    exact ⟨rfl, rfl⟩
  | n + 1 => h.flatMap (h.times hi n) (Sim.times hi n)

theorem Same.far {L : Pos → List Pos} (h : Same L) : Far L :=
  fun p p1 hp p2 hp2 => Nat.le_of_eq (h p p2 hp2 p1 (List.mem_of_mem_head? hp)).1

/-- A greedy run of expressions of determined length. -/
theorem Far.run {L L2 : Pos → List Pos} (h1 : Same L) (hm : Mono L) (h2 : Far L2) (hm2 : Mono L2)
    (hL : Indep L) (hL2 : Indep L2) (ha : ∀ p, ∀ q ∈ L p, ∀ p2 ∈ L2 p, p2.off = p.off) : ∀ k, Far fun p => (optTimes L true k p).flatMap L2
  | 0 => by
    intro p p1 hp p2 hp2
    simp only [optTimes, List.flatMap_cons, List.flatMap_nil, List.append_nil] at hp hp2
    exact h2 p p1 hp p2 hp2
  | k + 1 => by
    have ih := Far.run h1 hm h2 hm2 hL hL2 ha k
    have hind : Indep fun p => (optTimes L true k p).flatMap L2 := (Sim.optTimes hL true k).flatMap hL2
    have hstep := Far.same h1 ih hind
    have hmono : Mono fun p => (L p).flatMap fun q => (optTimes L true k q).flatMap L2 :=
      hm.flatMap ((hm.optTimes true k).flatMap hm2)
    intro p p1 hp p2 hp2
    have e1 : (optTimes L true (k + 1) p).flatMap L2 = ((L p).flatMap fun q => (optTimes L true k q).flatMap L2) ++ L2 p := by
      rw [optTimes, if_pos rfl, List.flatMap_append, List.flatMap_assoc]
      simp
    simp only [e1] at hp hp2
    cases hX : (L p).flatMap fun q => (optTimes L true k q).flatMap L2 with
    | nil =>
      rw [hX, List.nil_append] at hp hp2
      exact h2 p p1 hp p2 hp2
    | cons x xs =>
      have hx : ((L p).flatMap fun q => (optTimes L true k q).flatMap L2).head? = some p1 := by
        rw [hX] at hp ⊢
        exact hp
      rcases List.mem_append.mp hp2 with h | h
      · exact hstep p p1 hx p2 h
      · have hmem := List.mem_of_mem_head? hx
        have hle := hmono p p1 hmem
        obtain ⟨q, hq, _⟩ := List.mem_flatMap.mp hmem
        rw [ha p q hq p2 h]
        exact hle

/-! ### What the lists of ways mean -/

/-- A text in front of the position. -/
def Pos.before (p : Pos) : List Char := List.replicate p.off 'a'

theorem before_len (p : Pos) : p.off = byteLen p.before := (byteLen_a p.off).symm

theorem prefix_eq {m r m' r' : List Char} (h : m ++ r = m' ++ r') (hl : byteLen m = byteLen m') : m = m' ∧ r = r' := by
  rcases List.append_eq_append_iff.mp h with ⟨w, w1, w2⟩ | ⟨w, w1, w2⟩
  · rw [w1, byteLen_append] at hl
    have : w = [] := byteLen_eq_zero.mp (by omega)
    subst this
    exact ⟨by simp [w1], by simpa using w2⟩
  · rw [w1, byteLen_append] at hl
    have : w = [] := byteLen_eq_zero.mp (by omega)
    subst this
    exact ⟨by simp [w1], by simpa using w2.symm⟩

theorem expr_got {e : EREExpr} {g : Nat} {p p1 : Pos} (h : p1 ∈ tryExpr e g p) :
    ∃ m, p.rest = m ++ p1.rest ∧ p1.off = p.off + byteLen m ∧ MatchesExpr e p.before m p1.rest := by
  obtain ⟨m, S, h1, h2, _, h4⟩ := tryExpr_sound e g p.before p p1 (before_len p) h
  exact ⟨m, h1, by rw [h2, byteLen_append, ← before_len], h4.matches⟩

theorem part_got {x : EREPart} {g : Nat} {p p1 : Pos} (h : p1 ∈ tryPart x g p) :
    ∃ m, p.rest = m ++ p1.rest ∧ p1.off = p.off + byteLen m ∧ MatchesPart x p.before m p1.rest := by
  obtain ⟨m, S, h1, h2, _, h4⟩ := tryPart_sound x g p.before p p1 (before_len p) h
  exact ⟨m, h1, by rw [h2, byteLen_append, ← before_len], h4.matches⟩

theorem parts_got {x : List EREPart} {g : Nat} {p p1 : Pos} (h : p1 ∈ tryParts x g p) :
    ∃ m, p.rest = m ++ p1.rest ∧ p1.off = p.off + byteLen m ∧ MatchesBranch (.mk x) p.before m p1.rest := by
  obtain ⟨m, S, h1, h2, _, h4⟩ := tryParts_sound x g p.before p p1 (before_len p) h
  exact ⟨m, h1, by rw [h2, byteLen_append, ← before_len], h4.matches⟩

theorem branch_got {b : EREBranch} {g : Nat} {p p1 : Pos} (h : p1 ∈ tryBranch b g p) :
    ∃ m, p.rest = m ++ p1.rest ∧ p1.off = p.off + byteLen m ∧ MatchesBranch b p.before m p1.rest := by
  obtain ⟨m, S, h1, h2, _, h4⟩ := tryBranch_sound b g p.before p p1 (before_len p) h
  exact ⟨m, h1, by rw [h2, byteLen_append, ← before_len], h4.matches⟩

theorem expr_same {e : EREExpr} (h : e.SameEnd) (g : Nat) : Same (tryExpr e g) := by
  intro p p1 h1 p2 h2
  obtain ⟨m, a1, a2, a3⟩ := expr_got h1
  obtain ⟨m', b1, b2, b3⟩ := expr_got h2
  have := h _ _ _ _ _ (a1.symm.trans b1) a3 b3
  subst this
  exact ⟨by rw [a2, b2], List.append_cancel_left (a1.symm.trans b1)⟩

theorem part_same {e : EREPart} (h : e.SameEnd) (g : Nat) : Same (tryPart e g) := by
  intro p p1 h1 p2 h2
  obtain ⟨m, a1, a2, a3⟩ := part_got h1
  obtain ⟨m', b1, b2, b3⟩ := part_got h2
  have := h _ _ _ _ _ (a1.symm.trans b1) a3 b3
  subst this
  exact ⟨by rw [a2, b2], List.append_cancel_left (a1.symm.trans b1)⟩

theorem expr_mono (e : EREExpr) (g : Nat) : Mono (tryExpr e g) := by
  intro p p1 h
  obtain ⟨m, _, a2, _⟩ := expr_got h
  omega

theorem parts_mono (e : List EREPart) (g : Nat) : Mono (tryParts e g) := by
  intro p p1 h
  obtain ⟨m, _, a2, _⟩ := parts_got h
  omega

theorem ERE_same {e : ERE} (h : e.SameEnd) (g : Nat) : Same (tryERE e g) := by
  intro p p1 h1 p2 h2
  obtain ⟨m, S, a1, a2, _, a4⟩ := tryERE_sound e g p.before p p1 (before_len p) h1
  obtain ⟨m', S', b1, b2, _, b4⟩ := tryERE_sound e g p.before p p2 (before_len p) h2
  have := h _ _ _ _ _ (a1.symm.trans b1) a4.matches b4.matches
  subst this
  exact ⟨by rw [a2, b2], List.append_cancel_left (a1.symm.trans b1)⟩

/-! ### Steady patterns -/

theorem sim_parts_append : ∀ (ps qs : List EREPart) (g g' g'' : Nat),
    Sim (tryParts (ps ++ qs) g) fun p => (tryParts ps g' p).flatMap (tryParts qs g'')
  | [], qs, g, g', g'' => by
    intro p p' h
    simp only [List.nil_append, tryParts, List.flatMap_cons, List.flatMap_nil, List.append_nil]
    exact sim_parts qs g g'' p p' h
  | x :: ps, qs, g, g', g'' => by
    intro p p' h
    simp only [List.cons_append, tryParts, List.flatMap_assoc]
    exact Sim.over (sim_parts_append ps qs _ _ _) (sim_part x g g' p p' h)

theorem sim_group : ∀ (bs : List EREBranch) (qs : List EREPart) (g g' g'' : Nat),
    Sim (tryBranches (bs.map (·.andThen qs)) g) fun p => (tryBranches bs g' p).flatMap (tryParts qs g'')
  | [], qs, g, g', g'' => by
    intro p p' h
    simp [tryBranches]
  | .mk ps :: bs, qs, g, g', g'' => by
    intro p p' h
    simp only [List.map_cons, tryBranches, List.flatMap_append, List.map_append]
    rw [show (EREBranch.mk ps).andThen qs = .mk (ps ++ qs) from rfl, tryBranch, tryBranch, sim_parts_append ps qs _ g' g'' p p' h, sim_group bs qs _ (g' + (EREBranch.mk ps).groups) g'' p p' h]

mutual
theorem far_ERE : {e : ERE} → SteadyERE e → ∀ g, Far (tryERE e g)
  | _, .same h, g => (ERE_same h g).far
  | _, .alt (bs := bs) hx hb, g => by
    have hf : ∀ b ∈ bs, ∀ g, Far (tryBranch b g) := fun b hm g => far_branch (hb b hm) g
    have hany : ∀ (bs : List EREBranch) g p p1, p1 ∈ tryBranches bs g p → ∃ b ∈ bs, ∃ m, p.rest = m ++ p1.rest ∧
        MatchesBranch b p.before m p1.rest := by
      intro bs g p p1 hm
      obtain ⟨bs1, b, bs2, h1, m, S, a1, a2, _, a4⟩ := tryBranches_sound bs g p.before p p1 (before_len p) hm
      exact ⟨b, by rw [h1]; simp, m, a1, a4.matches⟩
    have key : ∀ (bs : List EREBranch), Exclusive bs → (∀ b ∈ bs, ∀ g, Far (tryBranch b g)) → ∀ g, Far (tryBranches bs g) := by
      intro bs
      induction bs with
      | nil =>
        intro _ _ g p p1 h
        simp [tryBranches] at h
      | cons b bs ih =>
        intro hx hf g p p1 h p2 hp2
        rw [tryBranches] at h hp2
        unfold Exclusive at hx
        rw [List.pairwise_cons] at hx
        cases hX : tryBranch b g p with
        | nil =>
          rw [hX, List.nil_append] at h hp2
          exact ih hx.2 (fun b hm => hf b (by simp [hm])) _ p p1 h p2 hp2
        | cons y ys =>
          have hh : (tryBranch b g p).head? = some p1 := by
            rw [hX] at h ⊢
            exact h
          rcases List.mem_append.mp hp2 with hp2 | hp2
          · exact hf b (by simp) g p p1 hh p2 hp2
          · exfalso
            obtain ⟨b', hb', m', c1, c2⟩ := hany bs _ p p2 hp2
            obtain ⟨m, a1, _, a3⟩ := branch_got (List.mem_of_mem_head? hh)
            exact hx.1 b' hb' _ _ _ _ _ (a1.symm.trans c1) a3 c2
    intro p p1 h p2 hp2
    rw [tryERE] at h hp2
    exact key bs hx hf g p p1 h p2 hp2
theorem far_branch : {b : EREBranch} → SteadyBranch b → ∀ g, Far (tryBranch b g)
  | _, .nil, g => by
    intro p p1 h p2 hp2
    simp only [tryBranch, tryParts, List.head?_cons, Option.some.injEq, List.mem_singleton] at h hp2
    rw [hp2, h]
  | _, .fixed (x := x) (ps := ps) hx hps, g => by
    have ih := far_branch hps (g + x.groups)
    have := Far.same (part_same hx g) (L2 := tryParts ps (g + x.groups)) (by
      intro p p1 h p2 h2
      exact ih p p1 (by rw [tryBranch]; exact h) p2 (by rw [tryBranch]; exact h2)) (sim_parts _ _ _)
    intro p p1 h p2 h2
    rw [tryBranch, tryParts] at h h2
    exact this p p1 h p2 h2
  | _, .run (x := x) (q := q) (ps := ps) ha hx hap hps, g => by
    have ih := far_branch hps (g + (EREPart.quantified x q).groups)
    have ih : Far (tryParts ps (g + (EREPart.quantified x q).groups)) := by
      intro p p1 h p2 h2
      exact ih p p1 (by rw [tryBranch]; exact h) p2 (by rw [tryBranch]; exact h2)
    have hL : Indep (tryExpr x g) := sim_expr x g g
    have hL2 : Indep (tryParts ps (g + (EREPart.quantified x q).groups)) := sim_parts _ _ _
    have hrun := Far.run (expr_same hx g) (expr_mono x g) ih (parts_mono ps _) hL hL2 (by
      intro p q1 hq p2 h2
      obtain ⟨m, a1, _, a3⟩ := expr_got hq
      obtain ⟨m', b1, b2, b3⟩ := parts_got h2
      have := hap _ _ _ _ _ (a1.symm.trans b1) a3 b3
      rw [b2, this]
      simp [byteLen_nil])
    intro p p1 h p2 h2
    rw [tryBranch, tryParts, tryPart, List.flatMap_assoc] at h h2
    rw [ha] at h h2
    simp only [Bool.not_false] at h h2
    refine Far.same ((expr_same hx g).times hL q.q.min) (L2 := fun p1 => (match q.q.max with
      | none => optTimes (tryExpr x g) true p1.rest.length p1
      | some m => if m < q.q.min then [] else optTimes (tryExpr x g) true (m - q.q.min) p1).flatMap
        (tryParts ps (g + (EREPart.quantified x q).groups))) ?_ ?_ p p1 h p2 h2
    · intro r r1 hr r2 hr2
      cases hq : q.q.max with
      | none =>
        simp only [hq] at hr hr2
        exact hrun r.rest.length r r1 hr r2 hr2
      | some m =>
        simp only [hq] at hr hr2
        by_cases hlt : m < q.q.min
        · simp [if_pos hlt] at hr
        · rw [if_neg hlt] at hr hr2
          exact hrun _ r r1 hr r2 hr2
    · intro r r' e
      have e2 : r.rest = r'.rest := congrArg Prod.snd e
      cases hq : q.q.max with
      | none =>
        simp only [e2]
        exact (Sim.optTimes hL true r'.rest.length).flatMap hL2 r r' e
      | some m =>
        by_cases hlt : m < q.q.min
        · simp only [if_pos hlt, List.flatMap_nil]
        · simp only [if_neg hlt]
          exact (Sim.optTimes hL true _).flatMap hL2 r r' e
  | _, .group (bs := bs) (qs := qs) he, g => by
    refine (far_ERE he g).sim ?_
    intro p p' h
    rw [tryERE, tryBranch, tryParts, tryPart, sim_group bs qs g (g + 1) (g + (EREPart.single (.sub (.mk bs))).groups) p p' h]
    refine Sim.over (sim_parts _ _ _) ?_
    rw [tryExpr, tryERE, List.map_map]
    rfl
end

/-- The preferred match at the first place goes furthest. -/
theorem firstFrom_far {e : ERE} (hf : Far (tryERE e 1)) (hp : e.progress = true) : ∀ (rest pre0 : List Char) {S},
    e.firstFrom (byteLen pre0) rest = some S → ∀ {i j}, lastSpan S 0 = some (i, j) → ∀ pre mid post, pre0 ++ rest = pre ++ mid ++ post →
      MatchesERE e pre mid post → byteLen pre = i → byteLen (pre ++ mid) ≤ j := by
  have key : ∀ pre0 rest p S, (tryERE e 1 ⟨byteLen pre0, rest, []⟩).head? = some p → S = p.spans ++ [⟨0, byteLen pre0, p.off⟩] →
      ∀ {i j}, lastSpan S 0 = some (i, j) → ∀ pre mid post, pre0 ++ rest = pre ++ mid ++ post →
      MatchesERE e pre mid post → byteLen pre = i → byteLen (pre ++ mid) ≤ j := by
    intro pre0 rest p S h hS i j hij pre mid post ht hm hi
    rw [hS, lastSpan_whole] at hij
    cases hij
    rw [List.append_assoc] at ht
    obtain ⟨rfl, rfl⟩ := prefix_eq ht hi.symm
    obtain ⟨S', hS'⟩ := hm.captured 1
    have := tryERE_lists e hp 1 _ mid post S' [] hS'
    exact hf _ p h _ this
  intro rest
  induction rest with
  | nil =>
    intro pre0 S h i j hij
    rw [ERE.firstFrom, Option.map_eq_some_iff] at h
    obtain ⟨p, hp, h⟩ := h
    exact key pre0 [] p S hp h.symm hij
  | cons c r ih =>
    intro pre0 S h i j hij pre mid post ht hm hi
    rw [ERE.firstFrom] at h
    split at h
    · rename_i p hp
      cases h
      exact key pre0 _ p _ hp rfl hij pre mid post ht hm hi
    · refine ih (pre0 ++ [c]) (S := S) ?_ hij pre mid post (by simpa using ht) hm hi
      rw [byteLen_append, byteLen_cons, byteLen_nil]
      simpa using h

/-- The preferred match of a steady pattern is the longest of the leftmost ones. -/
theorem first_longest {e : ERE} (he : SteadyERE e) (hp : e.progress = true) {text : List Char} {S} (h : e.first text = some S)
    {i j} (hij : lastSpan S 0 = some (i, j)) : e.LeftLongest text i j := by
  obtain ⟨pre, mid, post, S0, c1, c2, c3⟩ := first_captures h
  rw [c3, lastSpan_whole] at hij
  have hi' : byteLen pre = i := by cases hij; rfl
  have hj' : byteLen (pre ++ mid) = j := by cases hij; rfl
  have hij : lastSpan S 0 = some (i, j) := by rw [c3, lastSpan_whole, hi', hj']
  refine ⟨⟨pre, mid, post, c1, c2.matches, hi', hj'⟩, fun pre' mid' post' ht hm => ?_⟩
  obtain ⟨i', j', k1, k2⟩ := first_left hp h
  rw [hij] at k1
  cases k1
  obtain ⟨S', hS'⟩ := hm.captured 1
  have hle := k2 _ _ _ ⟨pre', mid', post', S', ht, hS', rfl⟩ (lastSpan_whole _ _ _)
  rcases Nat.lt_or_eq_of_le hle with hlt | heq
  · exact .inl hlt
  · exact .inr ⟨heq.symm, firstFrom_far (far_ERE he 1) hp text [] h hij pre' mid' post' (by simpa using ht) hm heq.symm⟩

/-! ### How to see that a pattern is steady -/

theorem sameEnd_expr {x : EREExpr} (h : x.SameEnd) : (EREPart.single x).SameEnd := by
  intro pre m r m' r' e h1 h2
  cases h1 with
  | single h1 =>
    cases h2 with
    | single h2 => exact h _ _ _ _ _ e h1 h2

theorem sameEnd_atom (a : Atom) : (EREExpr.atom a).SameEnd := by
  intro pre m r m' r' e h1 h2
  cases h1
  cases h2
  simp only [List.cons_append, List.nil_append, List.cons.injEq] at e
  rw [e.1]

theorem sameEnd_group {e : ERE} (h : e.SameEnd) : (EREExpr.sub e).SameEnd := by
  intro pre m r m' r' he h1 h2
  cases h1 with
  | sub h1 =>
    cases h2 with
    | sub h2 => exact h _ _ _ _ _ he h1 h2

theorem sameEnd_start : EREPart.start.SameEnd := by
  intro pre m r m' r' e h1 h2
  cases h1
  cases h2
  rfl

theorem sameEnd_end : EREPart.end_.SameEnd := by
  intro pre m r m' r' e h1 h2
  have e1 : m = [] := by cases h1; rfl
  have e2 : m' = [] := by cases h2; rfl
  rw [e1, e2]

/-- As many rounds of something of determined length. -/
theorem sameEnd_times {x : EREExpr} (hx : x.SameEnd) : ∀ (n : Nat) {pre m r m' r'}, m ++ r = m' ++ r' → MatchesTimes x n pre m r →
    MatchesTimes x n pre m' r' → m = m'
  | 0, _, _, _, _, _, _, h1, h2 => by
    cases h1
    cases h2
    rfl
  | n + 1, _, _, _, _, _, e, h1, h2 => by
    cases h1 with
    | @succ _ _ _ m1 m2 _ a1 a2 =>
      cases h2 with
      | @succ _ _ _ k1 k2 _ b1 b2 =>
        rw [List.append_assoc, List.append_assoc] at e
        have := hx _ _ _ _ _ e a1 b1
        subst this
        rw [sameEnd_times hx n (List.append_cancel_left e) a2 b2]

theorem sameEnd_quantified {x : EREExpr} {q : Quantifier} (hx : x.SameEnd) (hq : q.q.max = some q.q.min) :
    (EREPart.quantified x q).SameEnd := by
  intro pre m r m' r' e h1 h2
  cases h1 with
  | quantified a1 a2 a3 =>
    cases h2 with
    | quantified b1 b2 b3 =>
      have hn := a2 _ hq
      have hn' := b2 _ hq
      have e1 := Nat.le_antisymm hn a1
      have e2 := Nat.le_antisymm hn' b1
      subst e1
      rw [e2] at b3
      exact sameEnd_times hx _ e a3 b3

/-- Parts of determined length after one another. -/
theorem sameEnd_cons {x : EREPart} {ps : List EREPart} (hx : x.SameEnd) (hp : (ERE.mk [.mk ps]).SameEnd) :
    (ERE.mk [.mk (x :: ps)]).SameEnd := by
  intro pre m r m' r' e h1 h2
  cases h1 with
  | intro k1 h1 =>
    cases h2 with
    | intro k2 h2 =>
      rw [List.mem_singleton] at k1 k2
      subst k1 k2
      cases h1 with
      | cons a1 a2 =>
        cases h2 with
        | cons b1 b2 =>
          rw [List.append_assoc, List.append_assoc] at e
          have := hx _ _ _ _ _ e a1 b1
          subst this
          rw [hp _ _ _ _ _ (List.append_cancel_left e) (.intro (by simp) a2) (.intro (by simp) b2)]

theorem sameEnd_nil : (ERE.mk [.mk []]).SameEnd := by
  intro pre m r m' r' e h1 h2
  cases h1 with
  | intro k1 h1 =>
    cases h2 with
    | intro k2 h2 =>
      rw [List.mem_singleton] at k1 k2
      subst k1 k2
      cases h1
      cases h2
      rfl

/-- A run and its delimiter. -/
theorem sameEnd_run {x : EREExpr} {q : Quantifier} {ps : List EREPart} (hx : x.SameEnd) (hp : (ERE.mk [.mk ps]).SameEnd)
    (ha : ∀ pre m r m' r', m ++ r = m' ++ r' → MatchesExpr x pre m r → ¬ MatchesBranch (.mk ps) pre m' r') :
    (ERE.mk [.mk (.quantified x q :: ps)]).SameEnd := by
  have key : ∀ (n n' : Nat) pre m1 m2 r k1 k2 r', m1 ++ (m2 ++ r) = k1 ++ (k2 ++ r') → MatchesTimes x n pre m1 (m2 ++ r) →
      MatchesBranch (.mk ps) (pre ++ m1) m2 r → MatchesTimes x n' pre k1 (k2 ++ r') → MatchesBranch (.mk ps) (pre ++ k1) k2 r' →
      m1 ++ m2 = k1 ++ k2 := by
    intro n
    induction n with
    | zero =>
      intro n' pre m1 m2 r k1 k2 r' e t1 b1 t2 b2
      cases t1
      cases t2 with
      | zero =>
        simp only [List.nil_append, List.append_nil] at *
        exact hp _ _ _ _ _ e (.intro (by simp) b1) (.intro (by simp) b2)
      | @succ _ _ _ c1 c2 _ s1 s2 =>
        exfalso
        simp only [List.nil_append, List.append_nil] at *
        exact ha _ _ _ _ _ (by rw [e, List.append_assoc]) s1 b1
    | succ n ih =>
      intro n' pre m1 m2 r k1 k2 r' e t1 b1 t2 b2
      cases t1 with
      | @succ _ _ _ c1 c2 _ s1 s2 =>
        cases t2 with
        | zero =>
          exfalso
          simp only [List.nil_append, List.append_nil] at *
          exact ha _ _ _ _ _ (by rw [← e, List.append_assoc]) s1 b2
        | @succ _ n2 _ d1 d2 _ u1 u2 =>
          rw [List.append_assoc, List.append_assoc] at e
          have := hx _ _ _ _ _ e s1 u1
          subst this
          rw [List.append_assoc, List.append_assoc, ih n2 (pre ++ c1) c2 m2 r d2 k2 r' (List.append_cancel_left e) s2
            (by rw [List.append_assoc]; exact b1) u2 (by rw [List.append_assoc]; exact b2)]
  intro pre m r m' r' e h1 h2
  cases h1 with
  | intro k1 h1 =>
    cases h2 with
    | intro k2 h2 =>
      rw [List.mem_singleton] at k1 k2
      subst k1 k2
      cases h1 with
      | cons a1 a2 =>
        cases h2 with
        | cons b1 b2 =>
          cases a1 with
          | quantified _ _ t1 =>
            cases b1 with
            | quantified _ _ t2 =>
              rw [List.append_assoc, List.append_assoc] at e
              exact key _ _ _ _ _ _ _ _ _ e t1 a2 t2 b2

/-- Branches that all match stretches of one number of bytes. -/
theorem sameEnd_width {e : ERE} {w : Nat} (h : ∀ pre m r, MatchesERE e pre m r → byteLen m = w) : e.SameEnd := by
  intro pre m r m' r' he h1 h2
  exact (prefix_eq he ((h _ _ _ h1).trans (h _ _ _ h2).symm)).1

/-- A pattern whose matches all end at the end of the text. -/
theorem sameEnd_toEnd {e : ERE} (h : ∀ pre m r, MatchesERE e pre m r → r = []) : e.SameEnd := by
  intro pre m r m' r' he h1 h2
  rw [h _ _ _ h1, h _ _ _ h2, List.append_nil, List.append_nil] at he
  exact he

theorem apart_nil (x : EREExpr) : Apart x [] := by
  intro pre m r m' r' e h1 h2
  cases h2
  rfl

theorem apart_end (x : EREExpr) : Apart x [.end_] := by
  intro pre m r m' r' e h1 h2
  cases h2 with
  | cons a1 a2 =>
    cases a2
    rw [List.append_nil]
    generalize [] ++ r' = z at a1
    cases a1
    rfl

/-- After a character comes one of a different kind. -/
theorem atoms_apart {a b : Atom} (h : ∀ c, a.check c = true → b.check c = false) {x : EREPart} {ps : List EREPart}
    (hx : ∀ pre m r, MatchesPart x pre m r → ∃ c m', b.check c = true ∧ m = c :: m') {pre m r m' r'} (e : m ++ r = m' ++ r')
    (h1 : MatchesExpr (.atom a) pre m r) : ¬ MatchesBranch (.mk (x :: ps)) pre m' r' := by
  intro h2
  cases h1 with
  | atom hc =>
    cases h2 with
    | cons a1 a2 =>
      obtain ⟨c, m', k1, rfl⟩ := hx _ _ _ a1
      simp only [List.cons_append, List.cons.injEq] at e
      rw [e.1] at hc
      rw [h _ hc] at k1
      cases k1

theorem starts_atom {b : Atom} : ∀ pre m r, MatchesPart (.single (.atom b)) pre m r → ∃ c m', b.check c = true ∧ m = c :: m' := by
  intro pre m r h
  cases h with
  | single h =>
    cases h with
    | atom h => exact ⟨_, [], h, rfl⟩

theorem apart_atoms {a b : Atom} (h : ∀ c, a.check c = true → b.check c = false) (ps : List EREPart) :
    Apart (.atom a) (.single (.atom b) :: ps) :=
  fun _ _ _ _ _ e h1 h2 => absurd h2 (atoms_apart h starts_atom e h1)

/-- One branch. -/
theorem SteadyERE.one {b : EREBranch} (h : SteadyBranch b) : SteadyERE (.mk [b]) :=
  .alt (List.pairwise_singleton _ _) fun b' hb => by
    rw [List.mem_singleton] at hb
    rw [hb]
    exact h

/-- A group of one branch. -/
theorem SteadyBranch.group1 {ps qs : List EREPart} (h : SteadyBranch (.mk (ps ++ qs))) :
    SteadyBranch (.mk (.single (.sub (.mk [.mk ps])) :: qs)) :=
  .group (.one h)

end Ere
