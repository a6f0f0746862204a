import Verif.Spec.Case
import Verif.Spec.Framed
import Verif.Proofs.FirstTop

/-! Replacing characters of the text and atoms of the pattern in the same way. -/

namespace Ere

/-- Atom `a'` reads a character as `a` reads its image. -/
def ReadsAs (f : Char → Char) (a a' : Atom) : Prop := ∀ c, a'.check c = a.check (f c)

mutual
theorem AltERE.mono {R R' : Atom → Atom → Prop} (h : ∀ a a', R a a' → R' a a') : {e e' : ERE} → AltERE R e e' → AltERE R' e e'
  | _, _, .mk k => .mk (AltBranches.mono h k)
theorem AltBranches.mono {R R' : Atom → Atom → Prop} (h : ∀ a a', R a a' → R' a a') :
    {e e' : List EREBranch} → AltBranches R e e' → AltBranches R' e e'
  | _, _, .nil => .nil
  | _, _, .cons k1 k2 => .cons (AltBranch.mono h k1) (AltBranches.mono h k2)
theorem AltBranch.mono {R R' : Atom → Atom → Prop} (h : ∀ a a', R a a' → R' a a') :
    {e e' : EREBranch} → AltBranch R e e' → AltBranch R' e e'
  | _, _, .mk k => .mk (AltParts.mono h k)
theorem AltParts.mono {R R' : Atom → Atom → Prop} (h : ∀ a a', R a a' → R' a a') :
    {e e' : List EREPart} → AltParts R e e' → AltParts R' e e'
  | _, _, .nil => .nil
  | _, _, .cons k1 k2 => .cons (AltPart.mono h k1) (AltParts.mono h k2)
theorem AltPart.mono {R R' : Atom → Atom → Prop} (h : ∀ a a', R a a' → R' a a') :
    {e e' : EREPart} → AltPart R e e' → AltPart R' e e'
  | _, _, .single k => .single (AltExpr.mono h k)
  | _, _, .quantified k => .quantified (AltExpr.mono h k)
  | _, _, .start => .start
  | _, _, .end_ => .end_
theorem AltExpr.mono {R R' : Atom → Atom → Prop} (h : ∀ a a', R a a' → R' a a') :
    {e e' : EREExpr} → AltExpr R e e' → AltExpr R' e e'
  | _, _, .atom k => .atom (h _ _ k)
  | _, _, .sub k => .sub (AltERE.mono h k)
end

mutual
theorem AltERE.groups {R : Atom → Atom → Prop} : {e e' : ERE} → AltERE R e e' → e'.groups = e.groups
  | _, _, .mk k => by rw [ERE.groups, ERE.groups, k.groups]
theorem AltBranches.groups {R : Atom → Atom → Prop} : {e e' : List EREBranch} → AltBranches R e e' →
    groupsBranches e' = groupsBranches e
  | _, _, .nil => rfl
  | _, _, .cons k1 k2 => by rw [groupsBranches, groupsBranches, k1.groups, k2.groups]
theorem AltBranch.groups {R : Atom → Atom → Prop} : {e e' : EREBranch} → AltBranch R e e' → e'.groups = e.groups
  | _, _, .mk k => by rw [EREBranch.groups, EREBranch.groups, k.groups]
theorem AltParts.groups {R : Atom → Atom → Prop} : {e e' : List EREPart} → AltParts R e e' → groupsParts e' = groupsParts e
  | _, _, .nil => rfl
  | _, _, .cons k1 k2 => by rw [groupsParts, groupsParts, k1.groups, k2.groups]
theorem AltPart.groups {R : Atom → Atom → Prop} : {e e' : EREPart} → AltPart R e e' → e'.groups = e.groups
  | _, _, .single k => by rw [EREPart.groups, EREPart.groups, k.groups]
  | _, _, .quantified k => by rw [EREPart.groups, EREPart.groups, k.groups]
  | _, _, .start => rfl
  | _, _, .end_ => rfl
theorem AltExpr.groups {R : Atom → Atom → Prop} : {e e' : EREExpr} → AltExpr R e e' → e'.groups = e.groups
  | _, _, .atom _ => rfl
  | _, _, .sub k => by rw [EREExpr.groups, EREExpr.groups, k.groups]
end

mutual
theorem AltERE.hasStart {R : Atom → Atom → Prop} : {e e' : ERE} → AltERE R e e' → e'.hasStart = e.hasStart
  | _, _, .mk k => by rw [ERE.hasStart, ERE.hasStart, k.hasStart]
theorem AltBranches.hasStart {R : Atom → Atom → Prop} : {e e' : List EREBranch} → AltBranches R e e' → branchesHaveStart e' = branchesHaveStart e
  | _, _, .nil => rfl
  | _, _, .cons k1 k2 => by rw [branchesHaveStart, branchesHaveStart, k1.hasStart, k2.hasStart]
theorem AltBranch.hasStart {R : Atom → Atom → Prop} : {e e' : EREBranch} → AltBranch R e e' → e'.hasStart = e.hasStart
  | _, _, .mk k => by rw [EREBranch.hasStart, EREBranch.hasStart, k.hasStart]
theorem AltParts.hasStart {R : Atom → Atom → Prop} : {e e' : List EREPart} → AltParts R e e' → partsHaveStart e' = partsHaveStart e
  | _, _, .nil => rfl
  | _, _, .cons k1 k2 => by rw [partsHaveStart, partsHaveStart, k1.hasStart, k2.hasStart]
theorem AltPart.hasStart {R : Atom → Atom → Prop} : {e e' : EREPart} → AltPart R e e' → e'.hasStart = e.hasStart
  | _, _, .single k => by rw [EREPart.hasStart, EREPart.hasStart, k.hasStart]
  | _, _, .quantified k => by rw [EREPart.hasStart, EREPart.hasStart, k.hasStart]
  | _, _, .start => rfl
  | _, _, .end_ => rfl
theorem AltExpr.hasStart {R : Atom → Atom → Prop} : {e e' : EREExpr} → AltExpr R e e' → e'.hasStart = e.hasStart
  | _, _, .atom _ => rfl
  | _, _, .sub k => by rw [EREExpr.hasStart, EREExpr.hasStart, k.hasStart]
end

mutual
theorem AltERE.hasEnd {R : Atom → Atom → Prop} : {e e' : ERE} → AltERE R e e' → e'.hasEnd = e.hasEnd
  | _, _, .mk k => by rw [ERE.hasEnd, ERE.hasEnd, k.hasEnd]
theorem AltBranches.hasEnd {R : Atom → Atom → Prop} : {e e' : List EREBranch} → AltBranches R e e' → branchesHaveEnd e' = branchesHaveEnd e
  | _, _, .nil => rfl
  | _, _, .cons k1 k2 => by rw [branchesHaveEnd, branchesHaveEnd, k1.hasEnd, k2.hasEnd]
theorem AltBranch.hasEnd {R : Atom → Atom → Prop} : {e e' : EREBranch} → AltBranch R e e' → e'.hasEnd = e.hasEnd
  | _, _, .mk k => by rw [EREBranch.hasEnd, EREBranch.hasEnd, k.hasEnd]
theorem AltParts.hasEnd {R : Atom → Atom → Prop} : {e e' : List EREPart} → AltParts R e e' → partsHaveEnd e' = partsHaveEnd e
  | _, _, .nil => rfl
  | _, _, .cons k1 k2 => by rw [partsHaveEnd, partsHaveEnd, k1.hasEnd, k2.hasEnd]
theorem AltPart.hasEnd {R : Atom → Atom → Prop} : {e e' : EREPart} → AltPart R e e' → e'.hasEnd = e.hasEnd
  | _, _, .single k => by rw [EREPart.hasEnd, EREPart.hasEnd, k.hasEnd]
  | _, _, .quantified k => by rw [EREPart.hasEnd, EREPart.hasEnd, k.hasEnd]
  | _, _, .start => rfl
  | _, _, .end_ => rfl
theorem AltExpr.hasEnd {R : Atom → Atom → Prop} : {e e' : EREExpr} → AltExpr R e e' → e'.hasEnd = e.hasEnd
  | _, _, .atom _ => rfl
  | _, _, .sub k => by rw [EREExpr.hasEnd, EREExpr.hasEnd, k.hasEnd]
end

mutual
theorem AltERE.nullable {R : Atom → Atom → Prop} : {e e' : ERE} → AltERE R e e' → e'.nullable = e.nullable
  | _, _, .mk k => by rw [ERE.nullable, ERE.nullable, k.nullable]
theorem AltBranches.nullable {R : Atom → Atom → Prop} : {e e' : List EREBranch} → AltBranches R e e' → nullableBranches e' = nullableBranches e
  | _, _, .nil => rfl
  | _, _, .cons k1 k2 => by rw [nullableBranches, nullableBranches, k1.nullable, k2.nullable]
theorem AltBranch.nullable {R : Atom → Atom → Prop} : {e e' : EREBranch} → AltBranch R e e' → e'.nullable = e.nullable
  | _, _, .mk k => by rw [EREBranch.nullable, EREBranch.nullable, k.nullable]
theorem AltParts.nullable {R : Atom → Atom → Prop} : {e e' : List EREPart} → AltParts R e e' → nullableParts e' = nullableParts e
  | _, _, .nil => rfl
  | _, _, .cons k1 k2 => by rw [nullableParts, nullableParts, k1.nullable, k2.nullable]
theorem AltPart.nullable {R : Atom → Atom → Prop} : {e e' : EREPart} → AltPart R e e' → e'.nullable = e.nullable
  | _, _, .single k => by rw [EREPart.nullable, EREPart.nullable, k.nullable]
  | _, _, .quantified k => by rw [EREPart.nullable, EREPart.nullable, k.nullable]
  | _, _, .start => rfl
  | _, _, .end_ => rfl
theorem AltExpr.nullable {R : Atom → Atom → Prop} : {e e' : EREExpr} → AltExpr R e e' → e'.nullable = e.nullable
  | _, _, .atom _ => rfl
  | _, _, .sub k => by rw [EREExpr.nullable, EREExpr.nullable, k.nullable]
end

mutual
theorem AltERE.progress {R : Atom → Atom → Prop} : {e e' : ERE} → AltERE R e e' → e'.progress = e.progress
  | _, _, .mk k => by rw [ERE.progress, ERE.progress, k.progress]
theorem AltBranches.progress {R : Atom → Atom → Prop} : {e e' : List EREBranch} → AltBranches R e e' → progressBranches e' = progressBranches e
  | _, _, .nil => rfl
  | _, _, .cons k1 k2 => by rw [progressBranches, progressBranches, k1.progress, k2.progress]
theorem AltBranch.progress {R : Atom → Atom → Prop} : {e e' : EREBranch} → AltBranch R e e' → e'.progress = e.progress
  | _, _, .mk k => by rw [EREBranch.progress, EREBranch.progress, k.progress]
theorem AltParts.progress {R : Atom → Atom → Prop} : {e e' : List EREPart} → AltParts R e e' → progressParts e' = progressParts e
  | _, _, .nil => rfl
  | _, _, .cons k1 k2 => by rw [progressParts, progressParts, k1.progress, k2.progress]
theorem AltPart.progress {R : Atom → Atom → Prop} : {e e' : EREPart} → AltPart R e e' → e'.progress = e.progress
  | _, _, .single k => by rw [EREPart.progress, EREPart.progress, k.progress]
  | _, _, .quantified k => by rw [EREPart.progress, EREPart.progress, k.progress, k.nullable]
  | _, _, .start => rfl
  | _, _, .end_ => rfl
theorem AltExpr.progress {R : Atom → Atom → Prop} : {e e' : EREExpr} → AltExpr R e e' → e'.progress = e.progress
  | _, _, .atom _ => rfl
  | _, _, .sub k => by rw [EREExpr.progress, EREExpr.progress, k.progress]
end

theorem AltParts.append {R : Atom → Atom → Prop} {ps qs : List EREPart} : ∀ {l : List EREPart}, AltParts R (ps ++ qs) l →
    ∃ ps' qs', l = ps' ++ qs' ∧ AltParts R ps ps' ∧ AltParts R qs qs' := by
  induction ps with
  | nil => exact fun h => ⟨[], _, rfl, .nil, h⟩
  | cons p ps ih =>
    intro l h
    cases h with
    | cons h1 h2 =>
      obtain ⟨ps', qs', rfl, h3, h4⟩ := ih h2
      exact ⟨_ :: ps', qs', rfl, .cons h1 h3, h4⟩

theorem AltParts.anchor {R : Atom → Atom → Prop} {b : Bool} {p : EREPart} (hp : p = .start ∨ p = .end_) {l : List EREPart}
    (h : AltParts R (if b then [p] else []) l) : l = if b then [p] else [] := by
  cases b with
  | false => cases h; rfl
  | true =>
    cases h with
    | cons h1 h2 =>
      cases h2
      rcases hp with rfl | rfl <;> cases h1 <;> rfl

/-- The changed pattern has its anchors where the pattern has them. -/
theorem AltERE.framed {R : Atom → Atom → Prop} {e e' : ERE} (h : AltERE R e e') {s t : Bool} (he : e.Framed s t) :
    e'.Framed s t := by
  obtain ⟨bs, rfl, hb⟩ := he
  cases h with
  | mk h =>
    refine ⟨_, rfl, ?_⟩
    rename_i bs'
    induction bs generalizing bs' with
    | nil => cases h; simp
    | cons b bs ih =>
      cases h with
      | cons h1 h2 =>
        intro x hx
        rcases List.mem_cons.1 hx with rfl | hx
        · obtain ⟨ps, rfl, k1, k2⟩ := hb b (by simp)
          cases h1 with
          | mk h1 =>
            obtain ⟨l1, l2, rfl, a1, a2⟩ := h1.append
            obtain ⟨l3, l4, rfl, a3, a4⟩ := a1.append
            rw [a2.anchor (.inr rfl), a3.anchor (.inl rfl)]
            exact ⟨l4, rfl, by rw [a4.hasStart, k1], by rw [a4.hasEnd, k2]⟩
        · exact ih (fun b hb' => hb b (by simp [hb'])) h2 x hx

/-! ## Matching -/

theorem times_map {f : Char → Char} {e e' : EREExpr} (h : ∀ pre mid post, MatchesExpr e' pre mid post ↔
    MatchesExpr e (pre.map f) (mid.map f) (post.map f)) (n : Nat) (pre mid post : List Char) :
    MatchesTimes e' n pre mid post ↔ MatchesTimes e n (pre.map f) (mid.map f) (post.map f) := by
  induction n generalizing pre mid post with
  | zero =>
    constructor
    · intro k; cases k; exact .zero
    · intro k
      generalize hm : mid.map f = w at k
      cases k
      rw [List.map_eq_nil_iff.1 hm]
      exact .zero
  | succ n ih =>
    constructor
    · intro k
      cases k with
      | succ k1 k2 =>
        have a := (h _ _ _).1 k1
        have b := (ih _ _ _).1 k2
        rw [List.map_append] at a b ⊢
        exact .succ a b
    · intro k
      generalize hm : mid.map f = w at k
      cases k with
      | succ k1 k2 =>
        obtain ⟨m1, m2, rfl, rfl, rfl⟩ := List.map_eq_append_iff.1 hm
        rw [← List.map_append] at k1 k2
        exact .succ ((h _ _ _).2 k1) ((ih _ _ _).2 k2)

mutual
theorem AltERE.map {f : Char → Char} : {e e' : ERE} → AltERE (ReadsAs f) e e' → (pre mid post : List Char) →
    (MatchesERE e' pre mid post ↔ MatchesERE e (pre.map f) (mid.map f) (post.map f))
  | _, _, .mk k, pre, mid, post => by
    have h := AltBranches.map k pre mid post
    constructor
    · rintro ⟨h1, h2⟩
      obtain ⟨b, h3, h4⟩ := h.1 ⟨_, h1, h2⟩
      exact .intro h3 h4
    · intro ⟨h1, h2⟩
      obtain ⟨b, h3, h4⟩ := h.2 ⟨_, h1, h2⟩
      exact .intro h3 h4
theorem AltBranches.map {f : Char → Char} : {e e' : List EREBranch} → AltBranches (ReadsAs f) e e' →
    (pre mid post : List Char) → ((∃ b ∈ e', MatchesBranch b pre mid post) ↔
      ∃ b ∈ e, MatchesBranch b (pre.map f) (mid.map f) (post.map f))
  | _, _, .nil, _, _, _ => by simp
  | _, _, .cons k1 k2, pre, mid, post => by
    simp only [List.mem_cons, exists_eq_or_imp]
    rw [AltBranch.map k1 pre mid post, AltBranches.map k2 pre mid post]
theorem AltBranch.map {f : Char → Char} : {e e' : EREBranch} → AltBranch (ReadsAs f) e e' → (pre mid post : List Char) →
    (MatchesBranch e' pre mid post ↔ MatchesBranch e (pre.map f) (mid.map f) (post.map f))
  | _, _, .mk k, pre, mid, post => AltParts.map k pre mid post
theorem AltParts.map {f : Char → Char} : {e e' : List EREPart} → AltParts (ReadsAs f) e e' → (pre mid post : List Char) →
    (MatchesBranch (.mk e') pre mid post ↔ MatchesBranch (.mk e) (pre.map f) (mid.map f) (post.map f))
  | _, _, .nil, pre, mid, post => by
    constructor
    · intro h; cases h; exact .nil
    · intro h
      generalize hm : mid.map f = w at h
      cases h
      rw [List.map_eq_nil_iff.1 hm]
      exact .nil
  | _, _, .cons k1 k2, pre, mid, post => by
    constructor
    · intro h
      cases h with
      | cons h1 h2 =>
        have a := (AltPart.map k1 _ _ _).1 h1
        have b := (AltParts.map k2 _ _ _).1 h2
        rw [List.map_append] at a b ⊢
        exact .cons a b
    · intro h
      generalize hm : mid.map f = w at h
      cases h with
      | cons h1 h2 =>
        obtain ⟨m1, m2, rfl, rfl, rfl⟩ := List.map_eq_append_iff.1 hm
        rw [← List.map_append] at h1 h2
        exact .cons ((AltPart.map k1 _ _ _).2 h1) ((AltParts.map k2 _ _ _).2 h2)
theorem AltPart.map {f : Char → Char} : {e e' : EREPart} → AltPart (ReadsAs f) e e' → (pre mid post : List Char) →
    (MatchesPart e' pre mid post ↔ MatchesPart e (pre.map f) (mid.map f) (post.map f))
  | _, _, .single k, pre, mid, post => by
    have h := AltExpr.map k pre mid post
    exact ⟨fun | .single a => .single (h.1 a), fun | .single a => .single (h.2 a)⟩
  | _, _, .quantified k, pre, mid, post => by
    have h := fun n => times_map (AltExpr.map k) n pre mid post
    exact ⟨fun | .quantified a b c => .quantified a b ((h _).1 c), fun | .quantified a b c => .quantified a b ((h _).2 c)⟩
  | _, _, .start, pre, mid, post => by
    constructor
    · intro h; cases h; exact .start
    · intro h
      generalize hm : mid.map f = w at h
      generalize hp : pre.map f = u at h
      cases h
      rw [List.map_eq_nil_iff.1 hm, List.map_eq_nil_iff.1 hp]
      exact .start
  | _, _, .end_, pre, mid, post => by
    constructor
    · intro h; cases h; exact .end_
    · intro h
      generalize hm : mid.map f = w at h
      generalize hp : post.map f = u at h
      cases h
      rw [List.map_eq_nil_iff.1 hm, List.map_eq_nil_iff.1 hp]
      exact .end_
theorem AltExpr.map {f : Char → Char} : {e e' : EREExpr} → AltExpr (ReadsAs f) e e' → (pre mid post : List Char) →
    (MatchesExpr e' pre mid post ↔ MatchesExpr e (pre.map f) (mid.map f) (post.map f))
  | _, _, .atom k, pre, mid, post => by
    constructor
    · intro h
      cases h with
      | atom h => exact .atom (by rw [← k]; exact h)
    · intro h
      generalize hm : mid.map f = w at h
      cases h with
      | atom h =>
        obtain ⟨c, rfl, rfl⟩ := List.map_eq_singleton_iff.1 hm
        exact .atom (by rw [k]; exact h)
  | _, _, .sub k, pre, mid, post => by
    have h := AltERE.map k pre mid post
    exact ⟨fun | .sub a => .sub (h.1 a), fun | .sub a => .sub (h.2 a)⟩
end

/-- The changed pattern matches in a text exactly if the pattern matches in the changed text. -/
theorem AltERE.matchesIn {f : Char → Char} {e e' : ERE} (h : AltERE (ReadsAs f) e e') (text : List Char) :
    e'.MatchesIn text ↔ e.MatchesIn (text.map f) := by
  constructor
  · rintro ⟨pre, mid, post, rfl, k⟩
    exact ⟨_, _, _, by simp, (h.map _ _ _).1 k⟩
  · rintro ⟨pre, mid, post, ht, k⟩
    obtain ⟨l1, l2, rfl, h1, rfl⟩ := List.map_eq_append_iff.1 ht
    obtain ⟨l3, l4, rfl, rfl, rfl⟩ := List.map_eq_append_iff.1 h1
    exact ⟨_, _, _, rfl, (h.map _ _ _).2 k⟩

/-! ## The order of preference -/

/-- A position in the changed text. -/
def Pos.through (f : Char → Char) (p : Pos) : Pos := ⟨p.off, p.rest.map f, p.spans⟩

theorem times_through {f : Char → Char} {L L' : Pos → List Pos} (h : ∀ p, L (p.through f) = (L' p).map (Pos.through f))
    (n : Nat) (p : Pos) : times L n (p.through f) = (times L' n p).map (Pos.through f) := by
  induction n generalizing p with
  | zero => rfl
  | succ n ih =>
    rw [times, times, h, List.flatMap_map, List.map_flatMap]
    exact congrArg (fun g => List.flatMap g _) (funext ih)

theorem optTimes_through {f : Char → Char} {L L' : Pos → List Pos} (h : ∀ p, L (p.through f) = (L' p).map (Pos.through f))
    (greedy : Bool) (n : Nat) (p : Pos) : optTimes L greedy n (p.through f) = (optTimes L' greedy n p).map (Pos.through f) := by
  induction n generalizing p with
  | zero => rfl
  | succ n ih =>
    have k : (L (p.through f)).flatMap (optTimes L greedy n) = ((L' p).flatMap (optTimes L' greedy n)).map (Pos.through f) := by
      rw [h, List.flatMap_map, List.map_flatMap]
      exact congrArg (fun g => List.flatMap g _) (funext ih)
    rw [optTimes, optTimes, k]
    split <;> simp

mutual
theorem AltERE.through {f : Char → Char} (hf : ∀ c, charLen (f c) = charLen c) : {e e' : ERE} → AltERE (ReadsAs f) e e' →
    (g : Nat) → (p : Pos) → tryERE e g (p.through f) = (tryERE e' g p).map (Pos.through f)
  | _, _, .mk k, g, p => by rw [tryERE, tryERE, AltBranches.through hf k]
theorem AltBranches.through {f : Char → Char} (hf : ∀ c, charLen (f c) = charLen c) : {e e' : List EREBranch} →
    AltBranches (ReadsAs f) e e' → (g : Nat) → (p : Pos) →
    tryBranches e g (p.through f) = (tryBranches e' g p).map (Pos.through f)
  | _, _, .nil, _, _ => rfl
  | _, _, .cons k1 k2, g, p => by
    rw [tryBranches, tryBranches, AltBranch.through hf k1, AltBranches.through hf k2, List.map_append, k1.groups]
theorem AltBranch.through {f : Char → Char} (hf : ∀ c, charLen (f c) = charLen c) : {e e' : EREBranch} →
    AltBranch (ReadsAs f) e e' → (g : Nat) → (p : Pos) → tryBranch e g (p.through f) = (tryBranch e' g p).map (Pos.through f)
  | _, _, .mk k, g, p => by rw [tryBranch, tryBranch, AltParts.through hf k]
theorem AltParts.through {f : Char → Char} (hf : ∀ c, charLen (f c) = charLen c) : {e e' : List EREPart} →
    AltParts (ReadsAs f) e e' → (g : Nat) → (p : Pos) → tryParts e g (p.through f) = (tryParts e' g p).map (Pos.through f)
  | _, _, .nil, _, _ => rfl
  | _, _, .cons k1 k2, g, p => by
    rw [tryParts, tryParts, AltPart.through hf k1, List.flatMap_map, List.map_flatMap, k1.groups]
    exact congrArg (fun g => List.flatMap g _) (funext fun q => AltParts.through hf k2 _ q)
theorem AltPart.through {f : Char → Char} (hf : ∀ c, charLen (f c) = charLen c) : {e e' : EREPart} →
    AltPart (ReadsAs f) e e' → (g : Nat) → (p : Pos) → tryPart e g (p.through f) = (tryPart e' g p).map (Pos.through f)
  | _, _, .single k, g, p => by rw [tryPart, tryPart, AltExpr.through hf k]
  | _, _, .quantified (q := q) k, g, p => by
    have h := AltExpr.through hf k g
    rw [tryPart, tryPart, times_through h, List.flatMap_map, List.map_flatMap]
    refine congrArg (fun g => List.flatMap g _) (funext fun p1 => ?_)
    cases q.q.max with
    | none =>
      have hl : (p1.through f).rest.length = p1.rest.length := by simp [Pos.through]
      simp only [hl]
      exact optTimes_through h _ _ _
    | some m =>
      simp only
      split
      · rfl
      · exact optTimes_through h _ _ _
  | _, _, .start, g, p => by
    rw [tryPart, tryPart]
    show (if p.off = 0 then _ else _) = _
    split <;> rfl
  | _, _, .end_, g, p => by
    rw [tryPart, tryPart]
    have : (p.through f).rest.isEmpty = p.rest.isEmpty := by
      unfold Pos.through
      cases p.rest <;> rfl
    rw [this]
    split <;> rfl
theorem AltExpr.through {f : Char → Char} (hf : ∀ c, charLen (f c) = charLen c) : {e e' : EREExpr} →
    AltExpr (ReadsAs f) e e' → (g : Nat) → (p : Pos) → tryExpr e g (p.through f) = (tryExpr e' g p).map (Pos.through f)
  | _, _, .atom k, g, ⟨off, [], S⟩ => by
    rw [tryExpr, tryExpr]
    rfl
  | _, _, .atom k, g, ⟨off, c :: r, S⟩ => by
    rw [tryExpr, tryExpr]
    simp only [Pos.through, List.map_cons, hf, k c]
    split <;> rfl
  | _, _, .sub k, g, p => by
    rw [tryExpr, tryExpr, AltERE.through hf k, List.map_map, List.map_map]
    rfl
end

/-- The preferred match of the changed pattern is that of the pattern in the changed text. -/
theorem AltERE.firstFrom {f : Char → Char} (hf : ∀ c, charLen (f c) = charLen c) {e e' : ERE} (h : AltERE (ReadsAs f) e e')
    (text : List Char) (off : Nat) : e'.firstFrom off text = e.firstFrom off (text.map f) := by
  induction text generalizing off with
  | nil =>
    have k := h.through hf 1 ⟨off, [], []⟩
    simp only [Pos.through, List.map_nil] at k
    rw [List.map_nil, ERE.firstFrom, ERE.firstFrom, k, List.head?_map, Option.map_map]
    rfl
  | cons c r ih =>
    have k := h.through hf 1 ⟨off, c :: r, []⟩
    simp only [Pos.through, List.map_cons] at k
    rw [List.map_cons, ERE.firstFrom, ERE.firstFrom, k, List.head?_map, hf, ← ih]
    cases (tryERE e' 1 ⟨off, c :: r, []⟩).head? <;> rfl

theorem AltERE.first {f : Char → Char} (hf : ∀ c, charLen (f c) = charLen c) {e e' : ERE} (h : AltERE (ReadsAs f) e e')
    (text : List Char) : e'.first text = e.first (text.map f) := h.firstFrom hf text 0

end Ere
