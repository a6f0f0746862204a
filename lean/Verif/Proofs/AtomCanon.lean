import Verif.Proofs.Atom

/-! Canonical range lists: sorted, non-empty, not touching. -/

namespace Ere

/-- Sorted, minimal: all ranges are non-empty and between two ranges there is an uncovered
character. -/
def Canonical (rs : List CRange) : Prop :=
  (∀ r ∈ rs, r.lo ≤ r.hi) ∧ rs.Pairwise (fun a b => ∃ x : Char, a.hi < x ∧ x < b.lo)

/-- No reversed range such as `z-a` is written in the term. -/
def Term.Ordered : Term → Prop
  | .range a b => a ≤ b
  | _ => True

/-- No reversed range occurs in the atom. -/
def Atom.Ordered : Atom → Prop
  | .matching ts => ∀ t ∈ ts, t.Ordered
  | .nonmatching ts => ∀ t ∈ ts, t.Ordered
  | _ => True

theorem Term.toRanges_nonempty {t : Term} (h : t.Ordered) : ∀ r ∈ t.toRanges, r.lo ≤ r.hi := by
  cases t with
  | single c => simp [Term.toRanges, char_le]
  | range a b => simpa [Term.toRanges, Term.Ordered] using h
  | cls k => cases k <;> simp [Term.toRanges, BracketCharClass.toRanges, char_le, Char.reduceToNat]

theorem terms_nonempty {ts : List Term} (h : ∀ t ∈ ts, t.Ordered) :
    ∀ r ∈ ts.flatMap Term.toRanges, r.lo ≤ r.hi := by
  intro r hr
  obtain ⟨t, ht, hr⟩ := List.mem_flatMap.mp hr
  exact t.toRanges_nonempty (h t ht) r hr

theorem canonical_lo_le {r : CRange} {rs : List CRange} (h : Canonical (r :: rs)) {c : Char}
    (hc : inRanges (r :: rs) c) : r.lo ≤ c := by
  obtain ⟨h1, h2⟩ := h
  rw [inRanges_cons] at hc
  rcases hc with hc | ⟨s, hs, hc⟩
  · exact hc.1
  · obtain ⟨x, hx1, hx2⟩ := (List.pairwise_cons.mp h2).1 s hs
    have := h1 r (by simp)
    simp only [char_le, char_lt] at *; omega

theorem canonical_tail {r : CRange} {rs : List CRange} (h : Canonical (r :: rs)) : Canonical rs :=
  ⟨fun s hs => h.1 s (by simp [hs]), (List.pairwise_cons.mp h.2).2⟩

theorem canonical_tail_in {r : CRange} {rs : List CRange} (h : Canonical (r :: rs)) (c : Char) :
    inRanges rs c ↔ inRanges (r :: rs) c ∧ r.hi < c := by
  rw [inRanges_cons]
  constructor
  · intro hc
    refine ⟨Or.inr hc, ?_⟩
    obtain ⟨s, hs, hc⟩ := hc
    obtain ⟨x, hx1, hx2⟩ := (List.pairwise_cons.mp h.2).1 s hs
    simp only [char_le, char_lt] at *; omega
  · rintro ⟨hc | hc, hlt⟩
    · simp only [char_le, char_lt] at *; omega
    · exact hc

/-- The end of the first range of a canonical list is a lower bound for the other's. -/
theorem canonical_hi_le {r s : CRange} {rs ss : List CRange} (hr : Canonical (r :: rs))
    (hs : Canonical (s :: ss)) (hlo : r.lo = s.lo)
    (h : ∀ c, inRanges (r :: rs) c ↔ inRanges (s :: ss) c) : s.hi ≤ r.hi := by
  by_contra hlt
  have hlt : r.hi < s.hi := by simp only [char_le, char_lt] at *; omega
  have hne := hr.1 r (by simp)
  have h1 : inRanges (s :: ss) (charSucc r.hi) := by
    rw [inRanges_cons]
    refine Or.inl ⟨?_, (charSucc_le hlt).mpr hlt⟩
    have := (charSucc_le (x := charSucc r.hi) hlt).mp (by simp)
    rw [← hlo]
    simp only [char_le, char_lt] at *; omega
  rw [← h, inRanges_cons] at h1
  have hs2 := (charSucc_le (x := charSucc r.hi) hlt).mp (by simp)
  rcases h1 with h1 | ⟨t, ht, h1⟩
  · simp only [char_le, char_lt] at *; omega
  · obtain ⟨x, hx1, hx2⟩ := (List.pairwise_cons.mp hr.2).1 t ht
    have := (charSucc_le (x := x) hlt).mpr hx1
    simp only [char_le, char_lt] at *; omega

theorem canonical_unique {rs ss : List CRange} (hr : Canonical rs) (hs : Canonical ss)
    (h : ∀ c, inRanges rs c ↔ inRanges ss c) : rs = ss := by
  induction rs generalizing ss with
  | nil =>
    match ss with
    | [] => rfl
    | s :: ss =>
      have := (h s.lo).mpr (by rw [inRanges_cons]; exact Or.inl ⟨by simp, hs.1 s (by simp)⟩)
      exact absurd this inRanges_nil
  | cons r rs ih =>
    match ss with
    | [] =>
      have := (h r.lo).mp (by rw [inRanges_cons]; exact Or.inl ⟨by simp, hr.1 r (by simp)⟩)
      exact absurd this inRanges_nil
    | s :: ss =>
      have hrlo : inRanges (r :: rs) r.lo := by
        rw [inRanges_cons]; exact Or.inl ⟨by simp, hr.1 r (by simp)⟩
      have hslo : inRanges (s :: ss) s.lo := by
        rw [inRanges_cons]; exact Or.inl ⟨by simp, hs.1 s (by simp)⟩
      have h1 := canonical_lo_le hs ((h _).mp hrlo)
      have h2 := canonical_lo_le hr ((h _).mpr hslo)
      have hlo : r.lo = s.lo := by rw [char_eq]; simp only [char_le] at *; omega
      have h3 := canonical_hi_le hr hs hlo h
      have h4 := canonical_hi_le hs hr hlo.symm (fun c => (h c).symm)
      have hhi : r.hi = s.hi := by rw [char_eq]; simp only [char_le] at *; omega
      have hrs : r = s := by cases r; cases s; simp_all
      subst hrs
      rw [ih (canonical_tail hr) (canonical_tail hs)
        (fun c => by rw [canonical_tail_in hr, canonical_tail_in hs, h])]

namespace Atom

theorem combineLoop_canonical (cur : CRange) (ts : List CRange) (hne : cur.lo ≤ cur.hi)
    (hts : ∀ t ∈ ts, t.lo ≤ t.hi) (hs : ∀ t ∈ ts, cur.lo ≤ t.lo)
    (hp : ts.Pairwise (fun a b => a.lo ≤ b.lo)) :
    Canonical (combineLoop cur ts) ∧ ∀ r ∈ combineLoop cur ts, cur.lo ≤ r.lo := by
  induction ts generalizing cur with
  | nil => simp [combineLoop, Canonical, hne]
  | cons t ts ih =>
    have hpt := List.pairwise_cons.mp hp
    have hct := hs t (by simp)
    have htt := hts t (by simp)
    have hs' : ∀ u ∈ ts, cur.lo ≤ u.lo := fun u hu => hs u (by simp [hu])
    have hts' : ∀ u ∈ ts, u.lo ≤ u.hi := fun u hu => hts u (by simp [hu])
    unfold combineLoop
    have he : ¬ t.isEmpty = true := by simp [CRange.isEmpty, htt]
    rw [if_neg he]
    split
    · exact ih ⟨cur.lo, charMaxOf cur.hi t.hi⟩
        (by simp only [char_le, charMaxOf_toNat] at *; omega) hts' hs' hpt.2
    · rename_i hcond
      obtain ⟨⟨i1, i2⟩, i3⟩ := ih t htt hts' hpt.1 hpt.2
      have hlt : cur.hi < t.lo := by
        have : ¬ t.lo ≤ cur.hi := fun h => hcond (Or.inl h)
        simp only [char_le, char_lt] at *; omega
      have hcnt : t.lo ≠ charSucc cur.hi := fun h => hcond (Or.inr ((charCount_two hlt).mpr h))
      have hge : charSucc cur.hi ≤ t.lo := (charSucc_le hlt).mpr hlt
      have hgt := (charSucc_le (x := charSucc cur.hi) hlt).mp (by simp)
      refine ⟨⟨?_, List.pairwise_cons.mpr ⟨?_, i2⟩⟩, ?_⟩
      · intro r hr
        rcases List.mem_cons.mp hr with rfl | hr
        · exact hne
        · exact i1 r hr
      · intro r hr
        refine ⟨charSucc cur.hi, hgt, ?_⟩
        have := i3 r hr
        rw [ne_eq, char_eq] at hcnt
        simp only [char_le, char_lt] at *; omega
      · intro r hr
        rcases List.mem_cons.mp hr with rfl | hr
        · simp [char_le]
        · have := i3 r hr
          simp only [char_le, char_lt] at *; omega

theorem combine_canonical (rs : List CRange) (h : ∀ r ∈ rs, r.lo ≤ r.hi) :
    Canonical (combine rs) := by
  have hp := sortRanges_sorted rs
  have h' : ∀ r ∈ sortRanges rs, r.lo ≤ r.hi := fun r hr => h r ((sortRanges_perm rs).mem_iff.mp hr)
  unfold combine
  generalize sortRanges rs = ss at *
  match ss with
  | [] => simp [Canonical]
  | r :: ts =>
    have := List.pairwise_cons.mp hp
    exact (combineLoop_canonical r ts (h' r (by simp)) (fun t ht => h' t (by simp [ht])) this.1 this.2).1

theorem subtractOne_bounds {term range : CRange} (hr : range.lo ≤ range.hi)
    (ht : term.lo ≤ term.hi) : ∀ r ∈ subtractOne term range,
      range.lo ≤ r.lo ∧ r.lo ≤ r.hi ∧ r.hi ≤ range.hi := by
  unfold subtractOne
  split
  · simp [hr]
  · rename_i h
    intro r hmem
    rw [List.mem_append] at hmem
    rcases hmem with hmem | hmem <;> split at hmem <;> simp at hmem
    · rename_i hlt
      subst hmem
      have h1 := (le_charPred (x := range.lo) hlt).mpr hlt
      have h2 := (le_charPred (x := charPred term.lo) hlt).mp (by simp)
      simp only [char_le, char_lt] at *; omega
    · rename_i hlt
      subst hmem
      have h1 := (charSucc_le (x := range.hi) hlt).mpr hlt
      have h2 := (charSucc_le (x := charSucc term.hi) hlt).mp (by simp)
      simp only [char_le, char_lt] at *; omega

theorem subtractOne_canonical {term range : CRange} (hr : range.lo ≤ range.hi)
    (ht : term.lo ≤ term.hi) : Canonical (subtractOne term range) := by
  refine ⟨fun r hmem => (subtractOne_bounds hr ht r hmem).2.1, ?_⟩
  unfold subtractOne
  split
  · simp
  · by_cases h1 : range.lo < term.lo <;> by_cases h2 : term.hi < range.hi <;> simp [h1, h2]
    refine ⟨term.lo, ?_, ?_⟩
    · exact (le_charPred (x := charPred term.lo) h1).mp (by simp)
    · have := (charSucc_le (x := charSucc term.hi) h2).mp (by simp)
      simp only [char_le, char_lt] at *; omega

theorem subtract_canonical {rs : List CRange} {term : CRange} (h : Canonical rs)
    (ht : term.lo ≤ term.hi) : Canonical (subtract rs term) := by
  unfold subtract
  constructor
  · intro r hr
    obtain ⟨s, hs, hr⟩ := List.mem_flatMap.mp hr
    exact (subtractOne_bounds (h.1 s hs) ht r hr).2.1
  · rw [List.pairwise_flatMap]
    refine ⟨fun s hs => (subtractOne_canonical (h.1 s hs) ht).2, ?_⟩
    refine List.Pairwise.imp_of_mem ?_ h.2
    intro a b ha hb ⟨x, hx1, hx2⟩ r hr s hs
    have h1 := subtractOne_bounds (h.1 a ha) ht r hr
    have h2 := subtractOne_bounds (h.1 b hb) ht s hs
    exact ⟨x, by simp only [char_le, char_lt] at *; omega, by simp only [char_le, char_lt] at *; omega⟩

theorem foldl_subtract_canonical {ts rs : List CRange} (h : Canonical rs)
    (ht : ∀ t ∈ ts, t.lo ≤ t.hi) : Canonical (ts.foldl subtract rs) := by
  induction ts generalizing rs with
  | nil => exact h
  | cons t ts ih =>
    exact ih (subtract_canonical h (ht t (by simp))) (fun u hu => ht u (by simp [hu]))

theorem canonical_sorted {rs : List CRange} (h : Canonical rs) :
    rs.Pairwise (fun a b => a.lo ≤ b.lo) := by
  refine List.Pairwise.imp_of_mem ?_ h.2
  intro a b ha hb ⟨x, hx1, hx2⟩
  have := h.1 a ha
  simp only [char_le, char_lt] at *; omega

theorem sortRanges_eq {rs : List CRange} (h : Canonical rs) : sortRanges rs = rs :=
  (canonical_sorted h).insertionSort_eq

theorem toRanges_canonical {a : Atom} (h : a.Ordered) : Canonical a.toRanges := by
  cases a with
  | normal c => simp [toRanges, Canonical, char_le]
  | dot =>
    have h1 : ('\x01' : Char).toNat = 1 := rfl
    simp [toRanges, Canonical, char_le, charMax_toNat, h1]
  | matching ts => exact combine_canonical _ (terms_nonempty h)
  | nonmatching ts =>
    have hc : Canonical ((ts.flatMap Term.toRanges).foldl subtract [⟨'\x00', charMax⟩]) :=
      foldl_subtract_canonical (by simp [Canonical, char_le]) (terms_nonempty h)
    rw [toRanges, sortRanges_eq hc]; exact hc

theorem beq_complete {a b : Atom} (ha : a.Ordered) (hb : b.Ordered)
    (h : ∀ c, a.check c = b.check c) : a.beq b = true := by
  unfold beq
  rw [decide_eq_true_iff]
  exact canonical_unique (toRanges_canonical ha) (toRanges_canonical hb)
    (fun c => by rw [toRanges_check, toRanges_check, h])

end Atom
end Ere
