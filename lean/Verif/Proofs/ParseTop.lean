import Verif.Proofs.Parse

/-! The parser of patterns reads exactly the spellings of the grammar; printing gives a spelling. -/

namespace Ere

theorem quantify_sound {s r : List Char} {e : EREExpr} {p : EREPart} {w : List Char}
    (he : SpellsExpr e w) (h : quantify s e = (r, p)) : ∃ v, w ++ s = v ++ r ∧ SpellsPart p v := by
  unfold quantify at h
  cases hs : takeQuantifier s with
  | none =>
    rw [hs] at h
    simp only [Prod.mk.injEq] at h
    obtain ⟨rfl, rfl⟩ := h
    exact ⟨w, rfl, .single he⟩
  | some x =>
    obtain ⟨r', q⟩ := x
    rw [hs] at h
    simp only [Prod.mk.injEq] at h
    obtain ⟨rfl, rfl⟩ := h
    obtain ⟨v, rfl, h2⟩ := takeQuantifier_sound hs
    exact ⟨w ++ v, by simp, .quantified he h2⟩

theorem take_sound (k : Nat) :
    (∀ {s r e}, takeERE k s = .ok (r, e) → ∃ w, s = w ++ r ∧ SpellsERE e w) ∧
    (∀ {s r bs}, takeMore k s = .ok (r, bs) →
      (bs = [] ∧ s = r) ∨ ∃ v, s = '|' :: (v ++ r) ∧ SpellsERE (.mk bs) v) ∧
    (∀ {s r ps}, takeBranch k s = .ok (r, ps) → ∃ w, s = w ++ r ∧ SpellsBranch (.mk ps) w) ∧
    (∀ {s r p}, takePart k s = .ok (r, p) → ∃ w, s = w ++ r ∧ SpellsPart p w) := by
  induction k with
  | zero =>
    refine ⟨?_, ?_, ?_, ?_⟩
    · intro s r e h; cases h
    · intro s r e h; cases h
    · intro s r e h; cases h
    · intro s r e h; cases h
  | succ k ih =>
    obtain ⟨ihE, ihM, ihB, ihP⟩ := ih
    refine ⟨?_, ?_, ?_, ?_⟩
    · intro s r e h
      rw [takeERE] at h
      cases hb : takeBranch k s with
      | error x => rw [hb] at h; cases h
      | ok p =>
        obtain ⟨r1, b⟩ := p
        rw [hb] at h
        simp only at h
        obtain ⟨w, h1, h2⟩ := ihB hb
        cases hm : takeMore k r1 with
        | error x => rw [hm] at h; cases h
        | ok p =>
          obtain ⟨r2, bs⟩ := p
          rw [hm] at h
          simp only [Except.ok.injEq, Prod.mk.injEq] at h
          obtain ⟨rfl, rfl⟩ := h
          rcases ihM hm with ⟨rfl, rfl⟩ | ⟨v, rfl, h3⟩
          · exact ⟨w, h1, .one h2⟩
          · exact ⟨w ++ '|' :: v, by rw [h1]; simp, .more h2 h3⟩
    · intro s r bs h
      rw [takeMore] at h
      split at h
      · simp only [Except.ok.injEq, Prod.mk.injEq] at h
        exact Or.inl ⟨h.2.symm, h.1⟩
      · split at h
        · rename_i hs
          cases s with
          | nil => cases hs
          | cons c s =>
            simp only [List.head?_cons, Option.some.injEq] at hs
            subst hs
            simp only [List.tail_cons] at h
            cases hb : takeBranch k s with
            | error x => rw [hb] at h; cases h
            | ok p =>
              obtain ⟨r1, b⟩ := p
              rw [hb] at h
              simp only at h
              obtain ⟨w, h1, h2⟩ := ihB hb
              cases hm : takeMore k r1 with
              | error x => rw [hm] at h; cases h
              | ok p =>
                obtain ⟨r2, bs'⟩ := p
                rw [hm] at h
                simp only [Except.ok.injEq, Prod.mk.injEq] at h
                obtain ⟨rfl, rfl⟩ := h
                rcases ihM hm with ⟨rfl, rfl⟩ | ⟨v, rfl, h3⟩
                · exact Or.inr ⟨w, by rw [h1], .one h2⟩
                · exact Or.inr ⟨w ++ '|' :: v, by rw [h1]; simp, .more h2 h3⟩
        · simp only [Except.ok.injEq, Prod.mk.injEq] at h
          exact Or.inl ⟨h.2.symm, h.1⟩
    · intro s r ps h
      rw [takeBranch] at h
      split at h
      · simp only [Except.ok.injEq, Prod.mk.injEq] at h
        obtain ⟨rfl, rfl⟩ := h
        exact ⟨[], rfl, .nil⟩
      · cases hp : takePart k s with
        | error x => rw [hp] at h; cases h
        | ok p =>
          obtain ⟨r1, b⟩ := p
          rw [hp] at h
          simp only at h
          obtain ⟨w, h1, h2⟩ := ihP hp
          cases hb : takeBranch k r1 with
          | error x => rw [hb] at h; cases h
          | ok p =>
            obtain ⟨r2, bs'⟩ := p
            rw [hb] at h
            simp only [Except.ok.injEq, Prod.mk.injEq] at h
            obtain ⟨rfl, rfl⟩ := h
            obtain ⟨v, rfl, h3⟩ := ihB hb
            exact ⟨w ++ v, by rw [h1]; simp, .cons h2 h3⟩
    · intro s r p h
      rw [takePart] at h
      split at h
      · rename_i hs
        cases s with
        | nil => cases hs
        | cons c s =>
          simp only [List.head?_cons, Option.some.injEq] at hs
          subst hs
          simp only [List.tail_cons, Except.ok.injEq, Prod.mk.injEq] at h
          obtain ⟨rfl, rfl⟩ := h
          exact ⟨['^'], rfl, .start⟩
      · split at h
        · rename_i hs
          cases s with
          | nil => cases hs
          | cons c s =>
            simp only [List.head?_cons, Option.some.injEq] at hs
            subst hs
            simp only [List.tail_cons, Except.ok.injEq, Prod.mk.injEq] at h
            obtain ⟨rfl, rfl⟩ := h
            exact ⟨['$'], rfl, .end_⟩
        · split at h
          · rename_i hs
            cases s with
            | nil => cases hs
            | cons c s =>
              simp only [List.head?_cons, Option.some.injEq] at hs
              subst hs
              simp only [List.tail_cons] at h
              cases he : takeERE k s with
              | error x => rw [he] at h; cases h
              | ok p =>
                obtain ⟨r1, e⟩ := p
                rw [he] at h
                simp only at h
                obtain ⟨w, h1, h2⟩ := ihE he
                split at h
                · rename_i hr
                  cases r1 with
                  | nil => cases hr
                  | cons c r1 =>
                    simp only [List.head?_cons, Option.some.injEq] at hr
                    subst hr
                    simp only [List.tail_cons, Except.ok.injEq] at h
                    obtain ⟨v, h3, h4⟩ := quantify_sound (.sub h2) h
                    exact ⟨v, by rw [h1, ← h3]; simp, h4⟩
                · cases h
          · cases ha : takeAtom s with
            | error x => rw [ha] at h; cases h
            | ok p =>
              obtain ⟨r1, a⟩ := p
              rw [ha] at h
              simp only [Except.ok.injEq] at h
              obtain ⟨w, h1, h2⟩ := takeAtom_sound ha
              obtain ⟨v, h3, h4⟩ := quantify_sound (.atom h2) h
              exact ⟨v, by rw [h1, ← h3], h4⟩

/-! ## Completeness -/

/-- Where a branch ends. -/
def BranchEnd (r : List Char) : Prop := r = [] ∨ r.head? = some ')' ∨ r.head? = some '|'

/-- Where a pattern ends. -/
def PatternEnd (r : List Char) : Prop := r = [] ∨ r.head? = some ')'

/-- What may follow a part. -/
def NoQuant (r : List Char) : Prop := ∀ c, r.head? = some c → quantStart c = false

theorem BranchEnd.noQuant {r : List Char} (h : BranchEnd r) : NoQuant r := by
  intro c hc
  rcases h with rfl | h | h
  · cases hc
  · rw [h] at hc; cases hc; decide
  · rw [h] at hc; cases hc; decide

theorem PatternEnd.branchEnd {r : List Char} (h : PatternEnd r) : BranchEnd r := by
  rcases h with h | h
  · exact Or.inl h
  · exact Or.inr (Or.inl h)

theorem quantify_none {e : EREExpr} {r : List Char} (h : NoQuant r) : quantify r e = (r, .single e) := by
  unfold quantify; rw [takeQuantifier_none h]

theorem quantify_some {e : EREExpr} {q : Quantifier} {w r : List Char} (hq : SpellsQuant q w)
    (h : NoQuant r) : quantify (w ++ r) e = (r, .quantified e q) := by
  unfold quantify
  rw [takeQuantifier_complete hq]
  intro hr
  exact absurd (h _ hr) (by decide)

/-- A character with which a part can begin. -/
def partStart (c : Char) : Prop := quantStart c = false ∧ c ≠ ')' ∧ c ≠ '|'

theorem partStart_of_not_special {c : Char} (h : c ∉ specials) : partStart c := by
  simp only [specials, List.mem_cons, List.not_mem_nil, or_false, not_or] at h
  refine ⟨?_, ?_, ?_⟩
  · simp [quantStart, h]
  · exact h.2.2.2.2.2.1
  · exact h.2.2.2.2.2.2.1

theorem spellsAtom_head {a : Atom} {w : List Char} (h : SpellsAtom a w) :
    ∃ c w', w = c :: w' ∧ partStart c ∧ c ≠ '^' ∧ c ≠ '$' ∧ c ≠ '(' := by
  cases h with
  | escaped h => exact ⟨_, _, rfl, ⟨by decide, by decide, by decide⟩, by decide, by decide, by decide⟩
  | plain h =>
    refine ⟨_, _, rfl, partStart_of_not_special h, ?_, ?_, ?_⟩ <;>
    · rintro rfl; exact h (by decide)
  | dot => exact ⟨_, _, rfl, ⟨by decide, by decide, by decide⟩, by decide, by decide, by decide⟩
  | matching => exact ⟨_, _, rfl, ⟨by decide, by decide, by decide⟩, by decide, by decide, by decide⟩
  | nonmatching => exact ⟨_, _, rfl, ⟨by decide, by decide, by decide⟩, by decide, by decide, by decide⟩

theorem spellsExpr_head {e : EREExpr} {w : List Char} (h : SpellsExpr e w) :
    ∃ c w', w = c :: w' ∧ partStart c := by
  cases h with
  | atom h => obtain ⟨c, w', h1, h2, _⟩ := spellsAtom_head h; exact ⟨c, w', h1, h2⟩
  | sub h => exact ⟨_, _, rfl, ⟨by decide, by decide, by decide⟩⟩

theorem spellsPart_head {p : EREPart} {w : List Char} (h : SpellsPart p w) :
    ∃ c w', w = c :: w' ∧ partStart c := by
  cases h with
  | start => exact ⟨_, _, rfl, ⟨by decide, by decide, by decide⟩⟩
  | end_ => exact ⟨_, _, rfl, ⟨by decide, by decide, by decide⟩⟩
  | single h => exact spellsExpr_head h
  | quantified h h' =>
    obtain ⟨c, w', rfl, h2⟩ := spellsExpr_head h
    exact ⟨c, _, rfl, h2⟩

theorem spellsBranch_noQuant {b : EREBranch} {w r : List Char} (h : SpellsBranch b w) (hr : NoQuant r) :
    NoQuant (w ++ r) := by
  cases h with
  | nil => exact hr
  | cons h1 h2 =>
    obtain ⟨c, w', rfl, h3⟩ := spellsPart_head h1
    intro d hd
    simp only [List.cons_append, List.head?_cons, Option.some.injEq] at hd
    subst hd
    exact h3.1

/-- `b.parts` -/
def EREBranch.partsOf : EREBranch → List EREPart
  | .mk ps => ps
/-- `e.branches` -/
def ERE.branchesOf : ERE → List EREBranch
  | .mk bs => bs

theorem takeMore_end {k : Nat} {r : List Char} (h : PatternEnd r) (hk : 1 ≤ k) :
    takeMore k r = .ok (r, []) := by
  obtain ⟨k, rfl⟩ : ∃ j, k = j + 1 := ⟨k - 1, by omega⟩
  rw [takeMore, if_pos]
  rcases h with rfl | h
  · rfl
  · simp [h]

mutual
theorem take_complete_ere {e : ERE} {w : List Char} (h : SpellsERE e w) :
    ∀ r, PatternEnd r → (∀ k, 3 * w.length + 3 ≤ k → takeERE k (w ++ r) = .ok (r, e)) ∧
      (∀ k, 3 * w.length + 5 ≤ k → takeMore k ('|' :: (w ++ r)) = .ok (r, e.branchesOf)) :=
  match h with
  | .one (b := .mk ps) (w := w) hb => by
    intro r hr
    have hB := take_complete_branch hb r hr.branchEnd
    refine ⟨?_, ?_⟩
    · intro k hk
      obtain ⟨k, rfl⟩ : ∃ j, k = j + 1 := ⟨k - 1, by omega⟩
      rw [takeERE, hB k (by omega)]
      simp only
      rw [takeMore_end hr (by omega)]
      rfl
    · intro k hk
      obtain ⟨k, rfl⟩ : ∃ j, k = j + 1 := ⟨k - 1, by omega⟩
      rw [takeMore, if_neg (by simp), if_pos (by simp), List.tail_cons, hB k (by omega)]
      simp only
      rw [takeMore_end hr (by omega)]
      rfl
  | .more (b := .mk ps) (bs := bs) (w := w) (v := v) hb hs => by
    intro r hr
    have hB := take_complete_branch hb ('|' :: (v ++ r)) (Or.inr (Or.inr rfl))
    obtain ⟨_, hM⟩ := take_complete_ere hs r hr
    refine ⟨?_, ?_⟩
    · intro k hk
      obtain ⟨k, rfl⟩ : ∃ j, k = j + 1 := ⟨k - 1, by omega⟩
      simp only [List.length_append, List.length_cons] at hk
      rw [takeERE, List.append_assoc, List.cons_append, hB k (by omega)]
      simp only
      rw [hM k (by omega)]
      rfl
    · intro k hk
      obtain ⟨k, rfl⟩ : ∃ j, k = j + 1 := ⟨k - 1, by omega⟩
      simp only [List.length_append, List.length_cons] at hk
      rw [takeMore, if_neg (by simp), if_pos (by simp), List.tail_cons, List.append_assoc,
        List.cons_append, hB k (by omega)]
      simp only
      rw [hM k (by omega)]
      rfl
theorem take_complete_branch {b : EREBranch} {w : List Char} (h : SpellsBranch b w) :
    ∀ r, BranchEnd r → ∀ k, 3 * w.length + 2 ≤ k → takeBranch k (w ++ r) = .ok (r, b.partsOf) :=
  match h with
  | .nil => by
    intro r hr k hk
    obtain ⟨k, rfl⟩ : ∃ j, k = j + 1 := ⟨k - 1, by omega⟩
    rw [takeBranch, List.nil_append, if_pos]
    · rfl
    · rcases hr with rfl | hr | hr
      · rfl
      · simp [hr]
      · simp [hr]
  | .cons (p := p) (ps := ps) (w := w) (v := v) hp hs => by
    intro r hr k hk
    obtain ⟨k, rfl⟩ : ∃ j, k = j + 1 := ⟨k - 1, by omega⟩
    simp only [List.length_append] at hk
    have hP := take_complete_part hp (v ++ r) (spellsBranch_noQuant hs hr.noQuant) k (by omega)
    obtain ⟨c, w', hw, h3⟩ := spellsPart_head hp
    have hl : 1 ≤ w.length := by rw [hw]; simp
    have hB := take_complete_branch hs r hr k (by omega)
    rw [takeBranch, List.append_assoc, if_neg, hP]
    · simp only
      rw [hB]
      rfl
    · rw [hw]; simp [h3.2.1, h3.2.2]
theorem take_complete_part {p : EREPart} {w : List Char} (h : SpellsPart p w) :
    ∀ r, NoQuant r → ∀ k, 3 * w.length + 1 ≤ k → takePart k (w ++ r) = .ok (r, p) :=
  match h with
  | .start => by
    intro r hr k hk
    obtain ⟨k, rfl⟩ : ∃ j, k = j + 1 := ⟨k - 1, by omega⟩
    rw [takePart, if_pos (by simp)]
    rfl
  | .end_ => by
    intro r hr k hk
    obtain ⟨k, rfl⟩ : ∃ j, k = j + 1 := ⟨k - 1, by omega⟩
    rw [takePart, if_neg (by simp), if_pos (by simp)]
    rfl
  | .single (e := e) (w := w) he => by
    intro r hr k hk
    rw [take_complete_expr he r k hk, quantify_none hr]
  | .quantified (e := e) (q := q) (w := w) (v := v) he hq => by
    intro r hr k hk
    simp only [List.length_append] at hk
    rw [List.append_assoc, take_complete_expr he (v ++ r) k (by omega), quantify_some hq hr]
theorem take_complete_expr {e : EREExpr} {w : List Char} (h : SpellsExpr e w) :
    ∀ r k, 3 * w.length + 1 ≤ k → takePart k (w ++ r) = .ok (quantify r e) :=
  match h with
  | .atom (a := a) (w := w) ha => by
    intro r k hk
    obtain ⟨k, rfl⟩ : ∃ j, k = j + 1 := ⟨k - 1, by omega⟩
    obtain ⟨c, w', hw, _, h1, h2, h3⟩ := spellsAtom_head ha
    rw [takePart, if_neg (by rw [hw]; simpa using h1), if_neg (by rw [hw]; simpa using h2),
      if_neg (by rw [hw]; simpa using h3), takeAtom_complete ha]
  | .sub (e := e) (w := w) he => by
    intro r k hk
    obtain ⟨k, rfl⟩ : ∃ j, k = j + 1 := ⟨k - 1, by omega⟩
    simp only [List.length_append, List.length_cons] at hk
    have hE := (take_complete_ere he (')' :: r) (Or.inr rfl)).1 k (by omega)
    have h1 : '(' :: (w ++ [')']) ++ r = '(' :: (w ++ ')' :: r) := by simp
    rw [h1, takePart, if_neg (by simp), if_neg (by simp), if_pos (by simp), List.tail_cons, hE]
    simp
end

/-! ## Recursion bound -/

theorem take_fuel (k : Nat) :
    (∀ s : List Char, 3 * s.length + 3 ≤ k → takeERE k s ≠ .error .fuel) ∧
    (∀ s : List Char, 3 * s.length + 2 ≤ k → takeMore k s ≠ .error .fuel) ∧
    (∀ s : List Char, 3 * s.length + 2 ≤ k → takeBranch k s ≠ .error .fuel) ∧
    (∀ s : List Char, 3 * s.length + 1 ≤ k → takePart k s ≠ .error .fuel) := by
  induction k with
  | zero => exact ⟨fun s h => by omega, fun s h => by omega, fun s h => by omega, fun s h => by omega⟩
  | succ k ih =>
    obtain ⟨ihE, ihM, ihB, ihP⟩ := ih
    refine ⟨?_, ?_, ?_, ?_⟩
    · intro s hs
      rw [takeERE]
      have h1 := ihB s (by omega)
      cases hb : takeBranch k s with
      | error x => rw [hb] at h1; simpa using h1
      | ok p =>
        obtain ⟨r, b⟩ := p
        obtain ⟨w, hw, _⟩ := (take_sound k).2.2.1 hb
        have h2 := ihM r (by rw [hw] at hs; simp at hs; omega)
        simp only
        cases hm : takeMore k r with
        | error x => rw [hm] at h2; simpa using h2
        | ok p => simp
    · intro s hs
      rw [takeMore]
      split
      · simp
      · split
        · rename_i hh
          cases s with
          | nil => cases hh
          | cons c s =>
            simp only [List.length_cons] at hs
            have h1 := ihB s (by omega)
            rw [List.tail_cons]
            cases hb : takeBranch k s with
            | error x => rw [hb] at h1; simpa using h1
            | ok p =>
              obtain ⟨r, b⟩ := p
              obtain ⟨w, hw, _⟩ := (take_sound k).2.2.1 hb
              have h2 := ihM r (by rw [hw] at hs; simp at hs; omega)
              simp only
              cases hm : takeMore k r with
              | error x => rw [hm] at h2; simpa using h2
              | ok p => simp
        · simp
    · intro s hs
      rw [takeBranch]
      split
      · simp
      · have h1 := ihP s (by omega)
        cases hb : takePart k s with
        | error x => rw [hb] at h1; simpa using h1
        | ok p =>
          obtain ⟨r, b⟩ := p
          obtain ⟨w, hw, hp⟩ := (take_sound k).2.2.2 hb
          obtain ⟨c, w', hw', _⟩ := spellsPart_head hp
          have h2 := ihB r (by rw [hw, hw'] at hs; simp at hs; omega)
          simp only
          cases hm : takeBranch k r with
          | error x => rw [hm] at h2; simpa using h2
          | ok p => simp
    · intro s hs
      rw [takePart]
      split
      · simp
      · split
        · simp
        · split
          · rename_i hh
            cases s with
            | nil => cases hh
            | cons c s =>
              simp only [List.length_cons] at hs
              have h1 := ihE s (by omega)
              rw [List.tail_cons]
              cases hb : takeERE k s with
              | error x => rw [hb] at h1; simpa using h1
              | ok p => simp only; split <;> simp
          · have h1 := takeAtom_fuel s
            cases hb : takeAtom s with
            | error x => rw [hb] at h1; simpa using h1
            | ok p => simp

/-! ## Printing -/

theorem classText_display (k : BracketCharClass) : k.display = classText k := by
  cases k <;> rfl

theorem spellsItems_display {ts : List Term} {w : List Char} (h : SpellsItems ts w) :
    ts.flatMap Term.display ++ [']'] = w := by
  induction h with
  | close => rfl
  | cls _ ih => rw [List.flatMap_cons, List.append_assoc, ih]; simp [Term.display, classText_display]
  | range _ _ _ ih => rw [List.flatMap_cons, List.append_assoc, ih]; rfl
  | dash => rfl
  | single _ _ _ _ ih => rw [List.flatMap_cons, List.append_assoc, ih]; rfl

theorem spellsList_display {ts : List Term} {w : List Char} (h : SpellsList ts w) :
    ts.flatMap Term.display ++ [']'] = w := by
  cases h with
  | plain _ h => exact spellsItems_display h
  | bracket h => rw [List.flatMap_cons, List.append_assoc, spellsItems_display h]; rfl

theorem spellsAtom_display {a : Atom} {w : List Char} (h : SpellsAtom a w) : SpellsAtom a a.display := by
  cases h with
  | escaped h =>
    rw [Atom.display, if_pos (isEscapable_iff.2 h)]
    exact .escaped h
  | plain h =>
    rw [Atom.display]
    split
    · rename_i h'; exact .escaped (isEscapable_iff.1 h')
    · exact .plain h
  | dot => exact .dot
  | matching h1 h2 => rw [Atom.display, spellsList_display h2]; exact .matching h1 h2
  | nonmatching h2 => rw [Atom.display, spellsList_display h2]; exact .nonmatching h2

theorem ofNat_digit {d : Nat} (h : d < 10) : (Char.ofNat (48 + d)).isDigit = true ∧
    (Char.ofNat (48 + d)).toNat - '0'.toNat = d := by
  have : d = 0 ∨ d = 1 ∨ d = 2 ∨ d = 3 ∨ d = 4 ∨ d = 5 ∨ d = 6 ∨ d = 7 ∨ d = 8 ∨ d = 9 := by omega
  rcases this with rfl | rfl | rfl | rfl | rfl | rfl | rfl | rfl | rfl | rfl <;> decide

theorem decimal_spec (n : Nat) : decimal n ≠ [] ∧ (∀ c ∈ decimal n, c.isDigit = true) ∧
    decValue (decimal n) = n := by
  induction n using Nat.strongRecOn with
  | _ n ih =>
    rw [decimal]
    split
    · rename_i h
      obtain ⟨h1, h2⟩ := ofNat_digit h
      exact ⟨by simp, by simpa using h1, by simpa [decValue] using h2⟩
    · rename_i h
      obtain ⟨_, h2, h3⟩ := ih (n / 10) (by omega)
      obtain ⟨h4, h5⟩ := ofNat_digit (d := n % 10) (by omega)
      refine ⟨by simp, ?_, ?_⟩
      · intro c hc
        rcases List.mem_append.1 hc with hc | hc
        · exact h2 c hc
        · rw [List.mem_singleton.1 hc]; exact h4
      · unfold decValue at h3 ⊢
        rw [List.foldl_append, h3]
        simp only [List.foldl_cons, List.foldl_nil, h5]
        omega

theorem spellsNum_lt {n : Nat} {w : List Char} (h : SpellsNum n w) : n < 2 ^ 32 := by
  cases h <;> assumption

theorem spellsNum_display {n : Nat} {w : List Char} (h : SpellsNum n w) : SpellsNum n (decimal n) :=
  let ⟨h1, h2, h3⟩ := decimal_spec n
  .digits h1 h2 h3 (spellsNum_lt h)

theorem spellsQType_display {q : QType} {w : List Char} (h : SpellsQType q w) :
    SpellsQType q q.display := by
  cases h with
  | star => exact .star
  | plus => exact .plus
  | question => exact .question
  | multiple h => exact .multiple (spellsNum_display h)
  | atLeast h => exact .atLeast (spellsNum_display h)
  | between h h' => exact .between (spellsNum_display h) (spellsNum_display h')

theorem spellsQuant_display {q : Quantifier} {w : List Char} (h : SpellsQuant q w) :
    SpellsQuant q q.display := by
  cases h with
  | greedy h =>
    have := SpellsQuant.greedy (spellsQType_display h)
    simpa [Quantifier.display] using this
  | lazy h => exact .lazy (spellsQType_display h)

theorem spellsERE_ne {bs : List EREBranch} {w : List Char} (h : SpellsERE (.mk bs) w) : bs ≠ [] := by
  cases h <;> simp

mutual
theorem spellsERE_display {e : ERE} {w : List Char} (h : SpellsERE e w) : SpellsERE e e.display :=
  match h with
  | .one hb => by
    rw [ERE.display, displayBranches]
    exact .one (spellsBranch_display hb)
  | .more (bs := bs) hb hs => by
    have h1 := spellsERE_display hs
    have h2 := spellsBranch_display hb
    have h3 := spellsERE_ne hs
    cases bs with
    | nil => exact absurd rfl h3
    | cons b' bs =>
      rw [ERE.display, displayBranches]
      rw [ERE.display] at h1
      exact .more h2 h1
theorem spellsBranch_display {b : EREBranch} {w : List Char} (h : SpellsBranch b w) :
    SpellsBranch b b.display :=
  match h with
  | .nil => by rw [EREBranch.display, displayParts]; exact .nil
  | .cons hp hs => by
    have h1 := spellsBranch_display hs
    rw [EREBranch.display] at h1
    rw [EREBranch.display, displayParts]
    exact .cons (spellsPart_display hp) h1
theorem spellsPart_display {p : EREPart} {w : List Char} (h : SpellsPart p w) :
    SpellsPart p p.display :=
  match h with
  | .start => by rw [EREPart.display]; exact .start
  | .end_ => by rw [EREPart.display]; exact .end_
  | .single he => by rw [EREPart.display]; exact .single (spellsExpr_display he)
  | .quantified he hq => by
    rw [EREPart.display]; exact .quantified (spellsExpr_display he) (spellsQuant_display hq)
theorem spellsExpr_display {e : EREExpr} {w : List Char} (h : SpellsExpr e w) :
    SpellsExpr e e.display :=
  match h with
  | .atom ha => by rw [EREExpr.display]; exact .atom (spellsAtom_display ha)
  | .sub he => by rw [EREExpr.display]; exact .sub (spellsERE_display he)
end

/-! ## `parse_str` -/

theorem parseStr_iff {s : List Char} {e : ERE} : parseStr s = .ok e ↔ SpellsERE e s := by
  unfold parseStr
  constructor
  · intro h
    split at h
    · rename_i e' h1
      simp only [Except.ok.injEq] at h
      subst h
      obtain ⟨w, hw, h2⟩ := (take_sound _).1 h1
      rw [List.append_nil] at hw
      rw [hw]; exact h2
    · cases h
    · cases h
  · intro h
    have h1 := (take_complete_ere h [] (Or.inl rfl)).1 (parseFuel s) (by rw [parseFuel])
    rw [List.append_nil] at h1
    rw [h1]

theorem parseStr_total (s : List Char) :
    (∃ e, parseStr s = .ok e) ∨ parseStr s = .error (.invalidAtom ')') := by
  have h := (take_fuel (parseFuel s)).1 s (by rw [parseFuel])
  unfold parseStr
  split
  · exact Or.inl ⟨_, rfl⟩
  · rename_i h1; exact absurd h1 h
  · exact Or.inr rfl

theorem Atom.fromStr_iff {s : List Char} {a : Atom} : Atom.fromStr s = some a ↔ SpellsAtom a s := by
  unfold Atom.fromStr
  constructor
  · intro h
    split at h
    · rename_i a' h1
      simp only [Option.some.injEq] at h
      subst h
      obtain ⟨w, hw, h2⟩ := takeAtom_sound h1
      rw [List.append_nil] at hw
      rw [hw]; exact h2
    · cases h
  · intro h
    have h1 := takeAtom_complete h []
    rw [List.append_nil] at h1
    rw [h1]

end Ere
