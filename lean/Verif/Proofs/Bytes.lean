import Verif.Proofs.TreeSem

/-! Bounds on the length of a match (`max_bytes`, `min_bytes`). -/

namespace Ere
namespace Atom

/-- Order facts about the pieces that remain of a range after removing a term. -/
theorem mem_subtractOne {term r p : CRange} (hr : r.lo ≤ r.hi) (h : p ∈ subtractOne term r) :
    p.lo ≤ p.hi ∧
    ((p = r ∧ (term.hi < r.lo ∨ r.hi < term.lo)) ∨
     (¬ term.hi < r.lo ∧ ¬ r.hi < term.lo ∧ p.lo = r.lo ∧ r.lo < term.lo ∧ ∀ z, z ≤ p.hi ↔ z < term.lo) ∨
     (¬ term.hi < r.lo ∧ ¬ r.hi < term.lo ∧ p.hi = r.hi ∧ term.hi < r.hi ∧ ∀ z, p.lo ≤ z ↔ term.hi < z)) := by
  unfold subtractOne at h
  split at h
  · rename_i hc
    rw [List.mem_singleton] at h
    subst h
    exact ⟨hr, Or.inl ⟨rfl, hc⟩⟩
  · rename_i hc
    rw [not_or] at hc
    rw [List.mem_append] at h
    rcases h with h | h
    · split at h
      · rename_i h1
        rw [List.mem_singleton] at h
        subst h
        refine ⟨(le_charPred h1).mpr h1, Or.inr (Or.inl ⟨hc.1, hc.2, rfl, h1, fun z => le_charPred h1⟩)⟩
      · simp at h
    · split at h
      · rename_i h1
        rw [List.mem_singleton] at h
        subst h
        refine ⟨(charSucc_le h1).mpr h1, Or.inr (Or.inr ⟨hc.1, hc.2, rfl, h1, fun z => charSucc_le h1⟩)⟩
      · simp at h

/-- For every bound `x`, the last range starting at or before `x` has the greatest start and the
greatest end of all ranges starting at or before `x`. -/
def Dom (l : List CRange) : Prop :=
  (∀ r ∈ l, r.lo ≤ r.hi) ∧
  ∀ x : Char, (∃ r ∈ l, r.lo ≤ x) → ∃ A s B, l = A ++ s :: B ∧ s.lo ≤ x ∧ (∀ t ∈ B, ¬ t.lo ≤ x) ∧
    ∀ t ∈ A, t.lo ≤ x → t.lo ≤ s.lo ∧ t.hi ≤ s.hi

theorem subtract_append (A B : List CRange) (term) :
    subtract (A ++ B) term = subtract A term ++ subtract B term := by
  simp [subtract]

theorem subtract_cons (s : CRange) (B : List CRange) (term) :
    subtract (s :: B) term = subtractOne term s ++ subtract B term := by
  simp [subtract]

theorem mem_subtract {A : List CRange} {term p} :
    p ∈ subtract A term ↔ ∃ r ∈ A, p ∈ subtractOne term r := by
  simp [subtract]

theorem dom_subtract {l : List CRange} {term : CRange} (h : Dom l) : Dom (subtract l term) := by
  refine ⟨?_, ?_⟩
  · intro p hp
    obtain ⟨r, hr, hp⟩ := mem_subtract.mp hp
    exact (mem_subtractOne (h.1 r hr) hp).1
  intro x ⟨p, hp, hpx⟩
  obtain ⟨r, hr, hp⟩ := mem_subtract.mp hp
  have hpr := mem_subtractOne (h.1 r hr) hp
  -- every piece starts no earlier than its range
  have lo_ge : ∀ r ∈ l, ∀ p ∈ subtractOne term r, r.lo ≤ p.lo := by
    intro r hr p hp
    rcases (mem_subtractOne (h.1 r hr) hp).2 with ⟨rfl, _⟩ | ⟨_, _, h1, _⟩ | ⟨h1, _, _, h2, h3⟩
    · exact Char.le_refl _
    · rw [h1]; exact Char.le_refl _
    · have := (h3 p.lo).mp (Char.le_refl _)
      simp only [char_le, char_lt] at *; omega
  have hi_le : ∀ r ∈ l, ∀ p ∈ subtractOne term r, p.hi ≤ r.hi := by
    intro r hr p hp
    rcases (mem_subtractOne (h.1 r hr) hp).2 with ⟨rfl, _⟩ | ⟨_, h1, _, _, h3⟩ | ⟨_, _, h1, _, _⟩
    · exact Char.le_refl _
    · have := (h3 p.hi).mp (Char.le_refl _)
      simp only [char_le, char_lt] at *; omega
    · rw [h1]; exact Char.le_refl _
  -- the cut at the term's start
  have cut : (∃ r ∈ l, r.lo < term.lo) →
      (∀ r ∈ l, ∀ p ∈ subtractOne term r, p.lo ≤ x → r.lo ≤ x ∧
          ((p = r ∧ r.hi < term.lo) ∨ (p.lo = r.lo ∧ r.lo < term.lo ∧ ¬ r.hi < term.lo ∧ ∀ z, z ≤ p.hi ↔ z < term.lo))) →
      (∀ r ∈ l, r.lo ≤ x → ¬ term.hi < r.lo) → term.lo ≤ x →
      (∀ r ∈ l, r.lo < term.lo → r.lo ≤ x) →
      ∃ A s B, subtract l term = A ++ s :: B ∧ s.lo ≤ x ∧ (∀ t ∈ B, ¬ t.lo ≤ x) ∧
        ∀ t ∈ A, t.lo ≤ x → t.lo ≤ s.lo ∧ t.hi ≤ s.hi := by
    intro hex hall hnlo htx hlx
    obtain ⟨r0, hr0, hr0t⟩ := hex
    obtain ⟨A, s, B, hl, hs, hB, hA⟩ := h.2 (charPred term.lo) ⟨r0, hr0, (le_charPred hr0t).mpr hr0t⟩
    have hpred : ∀ z, z ≤ charPred term.lo ↔ z < term.lo := fun z => le_charPred hr0t
    have hsl : s ∈ l := by rw [hl]; simp
    have hAl : ∀ t ∈ A, t ∈ l := fun t ht => by rw [hl]; simp [ht]
    have hBl : ∀ t ∈ B, t ∈ l := fun t ht => by rw [hl]; simp [ht]
    rw [hpred] at hs
    have hsx := hlx s hsl hs
    have hns := hnlo s hsl hsx
    have hB' : ∀ t ∈ subtract B term, ¬ t.lo ≤ x := by
      intro t ht htx
      obtain ⟨r, hr, ht⟩ := mem_subtract.mp ht
      have hb := hB r hr
      rw [hpred] at hb
      have hne := h.1 r (hBl r hr)
      rcases hall r (hBl r hr) t ht htx with ⟨_, ⟨_, h2⟩ | ⟨_, h2, _⟩⟩
      · simp only [char_le, char_lt] at *; omega
      · exact hb h2
    by_cases hsh : s.hi < term.lo
    · have hsub : subtractOne term s = [s] := by unfold subtractOne; rw [if_pos (Or.inr hsh)]
      refine ⟨subtract A term, s, subtract B term, ?_, hsx, hB', ?_⟩
      · rw [hl, subtract_append, subtract_cons, hsub]; simp
      · intro t ht htx
        obtain ⟨r, hr, ht⟩ := mem_subtract.mp ht
        have hAr := hA r hr
        rw [hpred] at hAr
        have hll := lo_ge r (hAl r hr) t ht
        have hhl := hi_le r (hAl r hr) t ht
        rcases hall r (hAl r hr) t ht htx with ⟨_, ⟨rfl, h2⟩ | ⟨h1, h2, h3, h4⟩⟩
        · have hne := h.1 t (hAl t hr)
          exact hAr (by simp only [char_le, char_lt] at *; omega)
        · have := hAr h2
          rw [h1]; refine ⟨this.1, ?_⟩
          simp only [char_le, char_lt] at *; omega
    · have hsub : ∃ C, subtractOne term s = ⟨s.lo, charPred term.lo⟩ :: C ∧ ∀ c ∈ C, ¬ c.lo ≤ x := by
        unfold subtractOne
        rw [if_neg (by rw [not_or]; exact ⟨hns, hsh⟩), if_pos hs]
        refine ⟨_, rfl, ?_⟩
        intro c hc hcx
        have hc' : c ∈ subtractOne term s := by
          unfold subtractOne
          rw [if_neg (by rw [not_or]; exact ⟨hns, hsh⟩), if_pos hs]
          exact List.mem_append_right _ hc
        split at hc
        · rename_i hth
          replace hc := List.mem_singleton.mp hc
          rcases hall s hsl c hc' hcx with ⟨_, ⟨_, h2⟩ | ⟨h1, h2, _⟩⟩
          · exact hsh h2
          · subst hc
            have := (charSucc_le (x := charSucc term.hi) hth).mp (Char.le_refl _)
            simp only [char_le, char_lt] at *
            rw [h1] at this
            omega
        · simp at hc
      obtain ⟨C, hsub, hC⟩ := hsub
      refine ⟨subtract A term, ⟨s.lo, charPred term.lo⟩, C ++ subtract B term, ?_, hsx, ?_, ?_⟩
      · rw [hl, subtract_append, subtract_cons, hsub]; simp
      · intro t ht
        rcases List.mem_append.mp ht with h1 | h1
        · exact hC t h1
        · exact hB' t h1
      · intro t ht htx
        obtain ⟨r, hr, ht⟩ := mem_subtract.mp ht
        have hAr := hA r hr
        rw [hpred] at hAr
        simp only [hpred]
        rcases hall r (hAl r hr) t ht htx with ⟨_, ⟨rfl, h2⟩ | ⟨h1, h2, h3, h4⟩⟩
        · have hne := h.1 t (hAl t hr)
          exact ⟨(hAr (by simp only [char_le, char_lt] at *; omega)).1, h2⟩
        · rw [h1]; exact ⟨(hAr h2).1, (h4 _).mp (Char.le_refl _)⟩
  by_cases hxb : term.hi < x
  · -- the bound lies after the term
    obtain ⟨A, s, B, hl, hs, hB, hA⟩ := h.2 x ⟨r, hr, by
      have := lo_ge r hr p hp
      simp only [char_le] at *; omega⟩
    have hsl : s ∈ l := by rw [hl]; simp
    have hAl : ∀ t ∈ A, t ∈ l := fun t ht => by rw [hl]; simp [ht]
    have hBl : ∀ t ∈ B, t ∈ l := fun t ht => by rw [hl]; simp [ht]
    have hall : ∀ r ∈ l, r.lo ≤ x → r.lo ≤ s.lo ∧ r.hi ≤ s.hi := by
      intro r hr hx
      rw [hl] at hr
      rcases List.mem_append.mp hr with h1 | h1
      · exact hA r h1 hx
      · rcases List.mem_cons.mp h1 with rfl | h1
        · exact ⟨Char.le_refl _, Char.le_refl _⟩
        · exact absurd hx (hB r h1)
    have hB' : ∀ t ∈ subtract B term, ¬ t.lo ≤ x := by
      intro t ht htx
      obtain ⟨r, hr, ht⟩ := mem_subtract.mp ht
      have := lo_ge r (hBl r hr) t ht
      have := hB r hr
      simp only [char_le] at *; omega
    have hA' : ∀ t ∈ subtract A term, t.lo ≤ x → ∃ r ∈ A, t ∈ subtractOne term r ∧ r.lo ≤ s.lo ∧ r.hi ≤ s.hi := by
      intro t ht htx
      obtain ⟨r, hr, ht⟩ := mem_subtract.mp ht
      refine ⟨r, hr, ht, hA r hr ?_⟩
      have := lo_ge r (hAl r hr) t ht
      simp only [char_le] at *; omega
    by_cases hkeep : term.hi < s.lo ∨ s.hi < term.lo
    · have hsub : subtractOne term s = [s] := by unfold subtractOne; rw [if_pos hkeep]
      refine ⟨subtract A term, s, subtract B term, ?_, hs, hB', ?_⟩
      · rw [hl, subtract_append, subtract_cons, hsub]; simp
      · intro t ht htx
        obtain ⟨r, hr, ht, h1, h2⟩ := hA' t ht htx
        have hle := hi_le r (hAl r hr) t ht
        refine ⟨?_, by simp only [char_le] at *; omega⟩
        rcases (mem_subtractOne (h.1 r (hAl r hr)) ht).2 with ⟨rfl, _⟩ | ⟨_, _, h3, _⟩ | ⟨h3, h4, h5, h6, h7⟩
        · exact h1
        · rw [h3]; exact h1
        · rw [h7]
          rcases hkeep with hk | hk
          · exact hk
          · simp only [char_le, char_lt] at *; omega
    · rw [not_or] at hkeep
      by_cases hp2 : term.hi < s.hi
      · have hsub : ∃ C, subtractOne term s = C ++ [⟨charSucc term.hi, s.hi⟩] ∧ ∀ c ∈ C, c.lo ≤ s.lo ∧ c.hi ≤ s.hi := by
          refine ⟨if s.lo < term.lo then [⟨s.lo, charPred term.lo⟩] else [], ?_, ?_⟩
          · unfold subtractOne
            rw [if_neg (by rw [not_or]; exact hkeep), if_pos hp2]
          · intro c hc
            split at hc
            · rename_i h1
              rw [List.mem_singleton] at hc
              subst hc
              refine ⟨Char.le_refl _, ?_⟩
              have := (le_charPred (x := charPred term.lo) h1).mp (Char.le_refl _)
              simp only [char_le, char_lt] at *; omega
            · simp at hc
        obtain ⟨C, hsub, hC⟩ := hsub
        have hq : ∀ z, charSucc term.hi ≤ z ↔ term.hi < z := fun z => charSucc_le hp2
        have hqq := (hq _).mp (Char.le_refl _)
        refine ⟨subtract A term ++ C, ⟨charSucc term.hi, s.hi⟩, subtract B term, ?_, (hq x).mpr hxb, hB', ?_⟩
        · rw [hl, subtract_append, subtract_cons, hsub]; simp
        · intro t ht htx
          rcases List.mem_append.mp ht with ht | ht
          · obtain ⟨r, hr, ht, h1, h2⟩ := hA' t ht htx
            have hle := hi_le r (hAl r hr) t ht
            refine ⟨?_, by simp only [char_le] at *; omega⟩
            rcases (mem_subtractOne (h.1 r (hAl r hr)) ht).2 with ⟨rfl, _⟩ | ⟨_, _, h3, _⟩ | ⟨h3, h4, h5, h6, h7⟩
            · simp only [char_le, char_lt] at *; omega
            · rw [h3]; simp only [char_le, char_lt] at *; omega
            · exact (h7 _).mpr hqq
          · have := hC t ht
            refine ⟨?_, this.2⟩
            simp only [char_le, char_lt] at *; omega
      · -- the dominating range loses its end: only pieces before the term remain
        have hstep : ∀ r ∈ l, ∀ p ∈ subtractOne term r, p.lo ≤ x → r.lo ≤ x ∧
          ((p = r ∧ r.hi < term.lo) ∨ (p.lo = r.lo ∧ r.lo < term.lo ∧ ¬ r.hi < term.lo ∧ ∀ z, z ≤ p.hi ↔ z < term.lo)) := by
          intro r hr p hp hpx
          have hrx : r.lo ≤ x := by
            have := lo_ge r hr p hp
            simp only [char_le] at *; omega
          have hd := hall r hr hrx
          refine ⟨hrx, ?_⟩
          rcases (mem_subtractOne (h.1 r hr) hp).2 with ⟨rfl, h1 | h1⟩ | ⟨h1, h2, h3, h4, h5⟩ | ⟨h3, h4, h5, h6, h7⟩
          · simp only [char_le, char_lt] at *; omega
          · exact Or.inl ⟨rfl, h1⟩
          · exact Or.inr ⟨h3, h4, h2, h5⟩
          · simp only [char_le, char_lt] at *; omega
        apply cut
        · rcases hstep r hr p hp hpx with ⟨hrx, ⟨rfl, h1⟩ | ⟨_, h1, _⟩⟩
          · refine ⟨p, hr, ?_⟩
            have := h.1 p hr
            simp only [char_le, char_lt] at *; omega
          · exact ⟨r, hr, h1⟩
        · exact hstep
        · intro r hr hrx
          have := hall r hr hrx
          simp only [char_le, char_lt] at *; omega
        · simp only [char_le, char_lt] at *; omega
        · intro r hr h1
          simp only [char_le, char_lt] at *; omega
  · -- the bound lies before the end of the term
    have hstep : ∀ r ∈ l, ∀ p ∈ subtractOne term r, p.lo ≤ x → r.lo ≤ x ∧
          ((p = r ∧ r.hi < term.lo) ∨ (p.lo = r.lo ∧ r.lo < term.lo ∧ ¬ r.hi < term.lo ∧ ∀ z, z ≤ p.hi ↔ z < term.lo)) := by
      intro r hr p hp hpx
      have hrx : r.lo ≤ x := by
        have := lo_ge r hr p hp
        simp only [char_le] at *; omega
      refine ⟨hrx, ?_⟩
      rcases (mem_subtractOne (h.1 r hr) hp).2 with ⟨rfl, h1 | h1⟩ | ⟨h1, h2, h3, h4, h5⟩ | ⟨h3, h4, h5, h6, h7⟩
      · simp only [char_le, char_lt] at *; omega
      · exact Or.inl ⟨rfl, h1⟩
      · exact Or.inr ⟨h3, h4, h2, h5⟩
      · have := (h7 x).mp hpx; exact absurd this hxb
    by_cases hxa : term.lo ≤ x
    · apply cut
      · rcases hstep r hr p hp hpx with ⟨hrx, ⟨rfl, h1⟩ | ⟨_, h1, _⟩⟩
        · refine ⟨p, hr, ?_⟩
          have := h.1 p hr
          simp only [char_le, char_lt] at *; omega
        · exact ⟨r, hr, h1⟩
      · exact hstep
      · intro r hr hrx
        simp only [char_le, char_lt] at *; omega
      · exact hxa
      · intro r hr h1
        simp only [char_le, char_lt] at *; omega
    · obtain ⟨A, s, B, hl, hs, hB, hA⟩ := h.2 x ⟨r, hr, (hstep r hr p hp hpx).1⟩
      have hsl : s ∈ l := by rw [hl]; simp
      have hAl : ∀ t ∈ A, t ∈ l := fun t ht => by rw [hl]; simp [ht]
      have hBl : ∀ t ∈ B, t ∈ l := fun t ht => by rw [hl]; simp [ht]
      have hB' : ∀ t ∈ subtract B term, ¬ t.lo ≤ x := by
        intro t ht htx
        obtain ⟨r, hr, ht⟩ := mem_subtract.mp ht
        have := lo_ge r (hBl r hr) t ht
        have := hB r hr
        simp only [char_le] at *; omega
      by_cases hsh : s.hi < term.lo
      · have hsub : subtractOne term s = [s] := by unfold subtractOne; rw [if_pos (Or.inr hsh)]
        refine ⟨subtract A term, s, subtract B term, ?_, hs, hB', ?_⟩
        · rw [hl, subtract_append, subtract_cons, hsub]; simp
        · intro t ht htx
          obtain ⟨r, hr, ht⟩ := mem_subtract.mp ht
          have hs2 := hstep r (hAl r hr) t ht htx
          have hd := hA r hr hs2.1
          have hle := hi_le r (hAl r hr) t ht
          rcases hs2.2 with ⟨rfl, _⟩ | ⟨h1, _⟩
          · exact hd
          · rw [h1]; refine ⟨hd.1, ?_⟩
            simp only [char_le] at *; omega
      · have hst : s.lo < term.lo := by simp only [char_le, char_lt] at *; omega
        have hns : ¬ term.hi < s.lo := by simp only [char_le, char_lt] at *; omega
        have hc0 : ∃ C, subtractOne term s = ⟨s.lo, charPred term.lo⟩ :: C := by
          unfold subtractOne
          rw [if_neg (by rw [not_or]; exact ⟨hns, hsh⟩), if_pos hst]
          exact ⟨_, rfl⟩
        obtain ⟨C, hsub⟩ := hc0
        have hC : ∀ c ∈ C, ¬ c.lo ≤ x := by
          intro c hc
          have : C = if term.hi < s.hi then [⟨charSucc term.hi, s.hi⟩] else [] := by
            unfold subtractOne at hsub
            rw [if_neg (by rw [not_or]; exact ⟨hns, hsh⟩), if_pos hst] at hsub
            simpa using hsub.symm
          rw [this] at hc
          split at hc
          · rename_i h1
            rw [List.mem_singleton] at hc
            subst hc
            simp only [charSucc_le h1]; exact hxb
          · simp at hc
        have hpred : ∀ z, z ≤ charPred term.lo ↔ z < term.lo := fun z => le_charPred hst
        refine ⟨subtract A term, ⟨s.lo, charPred term.lo⟩, C ++ subtract B term, ?_, hs, ?_, ?_⟩
        · rw [hl, subtract_append, subtract_cons, hsub]; simp
        · intro t ht
          rcases List.mem_append.mp ht with h1 | h1
          · exact hC t h1
          · exact hB' t h1
        · intro t ht htx
          obtain ⟨r, hr, ht⟩ := mem_subtract.mp ht
          have hs2 := hstep r (hAl r hr) t ht htx
          have hd := hA r hr hs2.1
          simp only [hpred]
          rcases hs2.2 with ⟨rfl, h1⟩ | ⟨h1, _, _, h2⟩
          · exact ⟨hd.1, h1⟩
          · rw [h1]; exact ⟨hd.1, (h2 _).mp (Char.le_refl _)⟩

theorem dom_foldl {ts l : List CRange} (h : Dom l) : Dom (ts.foldl subtract l) := by
  induction ts generalizing l with
  | nil => exact h
  | cons t ts ih => exact ih (dom_subtract h)

theorem dom_full : Dom [⟨'\x00', charMax⟩] := by
  have h0 : ('\x00' : Char).toNat = 0 := rfl
  refine ⟨?_, ?_⟩
  · intro r hr
    rw [List.mem_singleton] at hr
    subst hr
    rw [char_le, charMax_toNat, h0]; omega
  · rintro x ⟨r, hr, hx⟩
    rw [List.mem_singleton] at hr
    subst hr
    exact ⟨[], _, [], rfl, hx, by simp, by simp⟩

theorem insertionSort_append_last (A : List CRange) (s : CRange) (h : ∀ t ∈ A, t.lo ≤ s.lo) :
    sortRanges (A ++ [s]) = sortRanges A ++ [s] := by
  have ins : ∀ (a : CRange) (L : List CRange), a.lo ≤ s.lo →
      (L ++ [s]).orderedInsert (fun a b => a.lo ≤ b.lo) a = L.orderedInsert (fun a b => a.lo ≤ b.lo) a ++ [s] := by
    intro a L ha
    induction L with
    | nil => simp [List.orderedInsert, ha]
    | cons b L ih =>
      simp only [List.cons_append, List.orderedInsert]
      split
      · rfl
      · rw [ih]; rfl
  induction A with
  | nil => rfl
  | cons a A ih =>
    simp only [sortRanges] at ih ⊢
    rw [List.cons_append, List.insertionSort_cons, ih (fun t ht => h t (by simp [ht])),
      ins a _ (h a (by simp))]
    rfl

/-- The last derived range ends at or after every accepted character. -/
theorem le_last_hi {a : Atom} {c : Char} (h : a.check c = true) :
    ∃ r, a.toRanges.getLast? = some r ∧ c ≤ r.hi := by
  have h1 := (toRanges_check a c).mpr h
  cases a with
  | normal d =>
    simp only [toRanges, inRanges_cons, inRanges_nil, or_false] at h1
    exact ⟨_, rfl, h1.2⟩
  | dot =>
    simp only [toRanges, inRanges_cons, inRanges_nil, or_false] at h1
    exact ⟨_, rfl, h1.2⟩
  | matching ts =>
    simp only [toRanges] at h1 ⊢
    generalize ts.flatMap Term.toRanges = rs at h1
    rw [combine_inRanges, ← inRanges_perm (sortRanges_perm rs)] at h1
    unfold combine
    generalize sortRanges rs = ss at *
    match ss with
    | [] => exact absurd h1 inRanges_nil
    | r :: ts =>
      simp only
      have key : ∀ (ts : List CRange) (cur : CRange), ∃ r, (combineLoop cur ts).getLast? = some r ∧
          cur.hi ≤ r.hi ∧ ∀ t ∈ ts, t.lo ≤ t.hi → t.hi ≤ r.hi := by
        intro ts
        induction ts with
        | nil => intro cur; exact ⟨cur, rfl, Char.le_refl _, by simp⟩
        | cons t ts ih =>
          intro cur
          unfold combineLoop
          split
          · rename_i he
            obtain ⟨r, h1, h2, h3⟩ := ih cur
            refine ⟨r, h1, h2, ?_⟩
            intro u hu hne
            rcases List.mem_cons.mp hu with rfl | hu
            · simp [CRange.isEmpty] at he
              simp only [char_le, char_lt] at *; omega
            · exact h3 u hu hne
          · split
            · obtain ⟨r, h1, h2, h3⟩ := ih ⟨cur.lo, charMaxOf cur.hi t.hi⟩
              simp only [char_le, charMaxOf_toNat] at h2
              refine ⟨r, h1, by simp only [char_le]; omega, ?_⟩
              intro u hu hne
              rcases List.mem_cons.mp hu with rfl | hu
              · simp only [char_le]; omega
              · exact h3 u hu hne
            · rename_i he hc
              rw [not_or] at hc
              obtain ⟨r, h1, h2, h3⟩ := ih t
              have hne2 : combineLoop t ts ≠ [] := by
                intro h0; rw [h0] at h1; simp at h1
              refine ⟨r, ?_, ?_, ?_⟩
              · rw [List.getLast?_cons_of_ne_nil hne2]
                exact h1
              · have h4 : t.lo ≤ t.hi := by simpa [CRange.isEmpty] using he
                simp only [char_le] at *; omega
              · intro u hu hne
                rcases List.mem_cons.mp hu with rfl | hu
                · exact h2
                · exact h3 u hu hne
      obtain ⟨q, h2, h3, h4⟩ := key ts r
      refine ⟨q, h2, ?_⟩
      rw [inRanges_cons] at h1
      rcases h1 with h1 | ⟨t, ht, h1⟩
      · simp only [char_le] at *; omega
      · have := h4 t ht (by simp only [char_le] at *; omega)
        simp only [char_le] at *; omega
  | nonmatching ts =>
    simp only [toRanges] at h1 ⊢
    rw [inRanges_perm (sortRanges_perm _)] at h1
    have hd := dom_foldl (ts := ts.flatMap Term.toRanges) dom_full
    generalize (ts.flatMap Term.toRanges).foldl subtract [⟨'\x00', charMax⟩] = l at *
    obtain ⟨r, hr, hrc⟩ := h1
    have hmax : ∀ d : Char, d ≤ charMax := by
      intro d; rw [char_le, charMax_toNat]; have := char_valid d; omega
    obtain ⟨A, s, B, hl, _, hB, hA⟩ := hd.2 charMax ⟨r, hr, hmax _⟩
    have : B = [] := by
      cases B with
      | nil => rfl
      | cons b B => exact absurd (hmax _) (hB b (by simp))
    subst this
    subst hl
    rw [insertionSort_append_last A s (fun t ht => (hA t ht (hmax _)).1)]
    refine ⟨s, by simp, ?_⟩
    rcases List.mem_append.mp hr with h1 | h1
    · have := (hA r h1 (hmax _)).2
      simp only [char_le] at *; omega
    · rw [List.mem_singleton] at h1; subst h1; exact hrc.2

/-- The first derived range starts at or before every accepted character. -/
theorem first_lo_le {a : Atom} {c : Char} (h : a.check c = true) :
    ∃ r, a.toRanges.head? = some r ∧ r.lo ≤ c := by
  have h1 := (toRanges_check a c).mpr h
  have hsorted : a.toRanges.Pairwise (fun a b => a.lo ≤ b.lo) := by
    cases a with
    | normal d => simp [toRanges]
    | dot => simp [toRanges]
    | nonmatching ts => exact sortRanges_sorted _
    | matching ts =>
      simp only [toRanges]
      have hp := sortRanges_sorted (ts.flatMap Term.toRanges)
      unfold combine
      generalize sortRanges (ts.flatMap Term.toRanges) = ss at *
      match ss with
      | [] => simp
      | r :: ts =>
        have key : ∀ (ts : List CRange) (cur : CRange), (∀ t ∈ ts, cur.lo ≤ t.lo) →
            ts.Pairwise (fun a b => a.lo ≤ b.lo) →
            (combineLoop cur ts).Pairwise (fun a b => a.lo ≤ b.lo) ∧ ∀ t ∈ combineLoop cur ts, cur.lo ≤ t.lo := by
          intro ts
          induction ts with
          | nil => intro cur _ _; simp [combineLoop]
          | cons t ts ih =>
            intro cur hc hp
            have hp' := List.pairwise_cons.mp hp
            have hc' : ∀ u ∈ ts, cur.lo ≤ u.lo := fun u hu => hc u (by simp [hu])
            unfold combineLoop
            split
            · exact ih cur hc' hp'.2
            · split
              · exact ih ⟨cur.lo, _⟩ hc' hp'.2
              · obtain ⟨h1, h2⟩ := ih t hp'.1 hp'.2
                have hct := hc t (by simp)
                have h3 : ∀ u ∈ combineLoop t ts, cur.lo ≤ u.lo := by
                  intro u hu; have := h2 u hu
                  simp only [char_le] at *; omega
                refine ⟨List.pairwise_cons.mpr ⟨h3, h1⟩, ?_⟩
                intro u hu
                rcases List.mem_cons.mp hu with rfl | hu
                · exact Char.le_refl _
                · exact h3 u hu
        have hp' := List.pairwise_cons.mp hp
        exact (key ts r hp'.1 hp'.2).1
  obtain ⟨r, hr, hrc⟩ := h1
  generalize a.toRanges = l at *
  match l with
  | [] => simp at hr
  | s :: l =>
    refine ⟨s, rfl, ?_⟩
    rcases List.mem_cons.mp hr with rfl | hr
    · exact hrc.1
    · have := (List.pairwise_cons.mp hsorted).1 r hr
      simp only [char_le] at *; omega

end Atom

theorem charLen_mono {a b : Char} (h : a ≤ b) : charLen a ≤ charLen b := by
  rw [char_le] at h
  unfold charLen
  repeat' split
  all_goals omega

namespace Tree

theorem maxBytesUnion_ge {ts : List Tree} {acc m} (h : maxBytesUnion acc ts = some m) :
    (∃ a, acc = some a ∧ a ≤ m) ∧ ∀ t ∈ ts, ∃ k, t.maxBytes = some k ∧ k ≤ m := by
  induction ts generalizing acc with
  | nil => simp only [maxBytesUnion] at h; exact ⟨⟨m, h, Nat.le_refl _⟩, by simp⟩
  | cons t ts ih =>
    simp only [maxBytesUnion] at h
    obtain ⟨⟨a, h1, h2⟩, h3⟩ := ih h
    unfold optMax at h1
    split at h1
    · rename_i x y hy
      simp only [Option.some.injEq] at h1
      have h4 : x ≤ a := by rw [← h1]; exact Nat.le_max_left ..
      have h5 : y ≤ a := by rw [← h1]; exact Nat.le_max_right ..
      refine ⟨⟨x, rfl, by omega⟩, ?_⟩
      intro u hu
      rcases List.mem_cons.mp hu with rfl | hu
      · exact ⟨y, hy, by omega⟩
      · exact h3 u hu
    · simp at h1

/-- No run is longer than `max_bytes`. -/
theorem run_maxBytes {t : Tree} {d d' : Cfg Char} (h : t.Run d d') {m} (hm : t.maxBytes = some m) :
    d'.off ≤ d.off + m := by
  induction h generalizing m with
  | empty => omega
  | @symbol a c off rest caps hc =>
    obtain ⟨r, h1, h2⟩ := Atom.le_last_hi hc
    simp only [maxBytes, h1, Option.map_some, Option.some.injEq] at hm
    have := charLen_mono h2
    simp only; omega
  | @union ts t d d' ht _ ih =>
    cases ts with
    | nil => simp at ht
    | cons u ts =>
      simp only [maxBytes] at hm
      obtain ⟨⟨a, h1, h2⟩, h3⟩ := maxBytesUnion_ge hm
      rcases List.mem_cons.mp ht with rfl | ht
      · have := ih h1; omega
      · obtain ⟨k, h4, h5⟩ := h3 t ht
        have := ih h4; omega
  | capture _ ih => simp only [maxBytes] at hm; have := ih hm; simpa using this
  | concatNil => omega
  | concatCons _ _ ih1 ih2 =>
    simp only [maxBytes, maxBytesConcat, optAdd] at hm
    split at hm
    · rename_i x y hx hy
      simp only [Option.some.injEq] at hm
      have := ih1 hx
      have := ih2 (m := y) (by simpa [maxBytes] using hy)
      omega
    · simp at hm
  | repOne _ ih =>
    simp only [maxBytes, Option.map_eq_some_iff] at hm
    obtain ⟨a, h1, h2⟩ := hm
    have := ih h1; omega
  | @repSucc t n _ _ _ _ _ ih1 ih2 =>
    simp only [maxBytes, Option.map_eq_some_iff] at hm
    obtain ⟨a, h1, h2⟩ := hm
    have := ih1 h1
    have := ih2 (m := a * (n + 1)) (by simp [maxBytes, h1])
    rw [Nat.mul_succ] at h2
    omega
  | upToNone => omega
  | upToLast _ ih =>
    simp only [maxBytes, Option.map_eq_some_iff] at hm
    obtain ⟨a, h1, h2⟩ := hm
    have := ih h1; omega
  | @upToSucc t n _ _ _ _ _ _ ih1 ih2 =>
    simp only [maxBytes, Option.map_eq_some_iff] at hm
    obtain ⟨a, h1, h2⟩ := hm
    have := ih1 h1
    have := ih2 (m := a * (n + 1)) (by simp [maxBytes, h1])
    rw [Nat.mul_succ] at h2
    omega
  | starNil => omega
  | starCons => simp [maxBytes] at hm
  | start => omega
  | end_ => omega

mutual
/-- No `UpTo` node over something with a positive lower bound (patterns without `x?` and
`x{n,m}`, unless `x` may be empty anyway). -/
def UpToFree : Tree → Prop
  | .union ts => UpToFreeList ts
  | .concat ts => UpToFreeList ts
  | .capture t _ => UpToFree t
  | .rep t _ => UpToFree t
  | .star t _ => UpToFree t
  | .upTo t _ _ => UpToFree t ∧ t.minBytes = 0
  | _ => True
/-- All trees of a list. -/
def UpToFreeList : List Tree → Prop
  | [] => True
  | t :: ts => UpToFree t ∧ UpToFreeList ts
end

theorem upToFreeList_mem {ts : List Tree} (h : UpToFreeList ts) {t} (ht : t ∈ ts) : UpToFree t := by
  induction ts with
  | nil => simp at ht
  | cons u ts ih =>
    simp only [UpToFreeList] at h
    rcases List.mem_cons.mp ht with rfl | ht
    · exact h.1
    · exact ih h.2 ht

theorem minBytesUnion_le {ts : List Tree} {t} (ht : t ∈ ts) : minBytesUnion ts ≤ t.minBytes := by
  induction ts with
  | nil => simp at ht
  | cons u ts ih =>
    cases ts with
    | nil =>
      rw [List.mem_singleton] at ht; subst ht
      simp [minBytesUnion]
    | cons w ts =>
      simp only [minBytesUnion]
      rcases List.mem_cons.mp ht with rfl | ht
      · exact Nat.min_le_left ..
      · exact Nat.le_trans (Nat.min_le_right ..) (ih ht)

theorem run_minBytes {t : Tree} {d d' : Cfg Char} (h : t.Run d d') (hf : t.UpToFree) :
    d.off + t.minBytes ≤ d'.off := by
  induction h with
  | empty => simp [minBytes]
  | @symbol a c off rest caps hc =>
    obtain ⟨r, h1, h2⟩ := Atom.first_lo_le hc
    simp only [minBytes, h1]
    have := charLen_mono h2
    omega
  | union ht _ ih =>
    simp only [UpToFree] at hf
    have := ih (upToFreeList_mem hf ht)
    have := minBytesUnion_le ht
    simp only [minBytes]; omega
  | capture _ ih =>
    simp only [UpToFree] at hf
    simp only [minBytes]
    exact ih hf
  | concatNil => simp [minBytes, minBytesConcat]
  | concatCons _ _ ih1 ih2 =>
    simp only [UpToFree, UpToFreeList] at hf
    have := ih1 hf.1
    have := ih2 (by simpa [UpToFree] using hf.2)
    simp only [minBytes, minBytesConcat] at *; omega
  | repOne _ ih =>
    simp only [UpToFree] at hf
    have := ih hf
    simp only [minBytes]; omega
  | repSucc _ _ ih1 ih2 =>
    have hf' := hf
    simp only [UpToFree] at hf
    have := ih1 hf
    have := ih2 (by simpa [UpToFree] using hf)
    simp only [minBytes] at *
    rw [Nat.mul_succ]; omega
  | upToNone => simp only [UpToFree] at hf; simp [minBytes, hf.2]
  | upToLast _ ih =>
    simp only [UpToFree] at hf
    have := ih hf.1
    simp only [minBytes, hf.2] at *; omega
  | upToSucc _ _ ih1 ih2 =>
    simp only [UpToFree] at hf
    have := ih1 hf.1
    have := ih2 (by simpa [UpToFree] using hf)
    simp only [minBytes, hf.2] at *; omega
  | starNil => simp [minBytes]
  | starCons _ _ ih1 ih2 =>
    simp only [UpToFree] at hf
    have := ih1 hf
    have := ih2 (by simpa [UpToFree] using hf)
    simp only [minBytes] at *; omega
  | start => simp [minBytes]
  | end_ => simp [minBytes]

end Tree
end Ere
