import Verif.Model.Atom

/-! Helper lemmas about characters, ranges and `toRanges`. -/

namespace Ere

theorem char_le {a b : Char} : a ≤ b ↔ a.toNat ≤ b.toNat := by
  show a.val ≤ b.val ↔ _
  exact UInt32.le_iff_toNat_le

theorem char_lt {a b : Char} : a < b ↔ a.toNat < b.toNat := by
  show a.val < b.val ↔ _
  exact UInt32.lt_iff_toNat_lt

theorem char_eq {a b : Char} : a = b ↔ a.toNat = b.toNat :=
  ⟨fun h => by rw [h], fun h => Char.ext (UInt32.toNat_inj.mp h)⟩

theorem char_valid (c : Char) :
    c.toNat < 0xD800 ∨ (0xDFFF < c.toNat ∧ c.toNat < 0x110000) := by
  have h := c.valid
  unfold UInt32.isValidChar Nat.isValidChar at h
  exact h

theorem toNat_ofNat {n : Nat} (h : n < 0xD800 ∨ (0xDFFF < n ∧ n < 0x110000)) :
    (Char.ofNat n).toNat = n := by
  have hv : n.isValidChar := h
  unfold Char.ofNat
  rw [dif_pos hv]
  unfold Char.ofNatAux Char.toNat
  rfl

theorem charMax_toNat : charMax.toNat = 0x10FFFF := toNat_ofNat (by omega)

theorem charSucc_toNat {c : Char} (h : c.toNat < 0x10FFFF) :
    (charSucc c).toNat = if c.toNat = 0xD7FF then 0xE000 else c.toNat + 1 := by
  unfold charSucc
  have := char_valid c
  split
  · exact toNat_ofNat (by omega)
  · exact toNat_ofNat (by omega)

theorem charPred_toNat {c : Char} (h : 0 < c.toNat) :
    (charPred c).toNat = if c.toNat = 0xE000 then 0xD7FF else c.toNat - 1 := by
  unfold charPred
  have := char_valid c
  split
  · exact toNat_ofNat (by omega)
  · exact toNat_ofNat (by omega)

theorem charSucc_le {c d x : Char} (h : c < d) : charSucc c ≤ x ↔ c < x := by
  have hx := char_valid x
  have hd := char_valid d
  have hc := char_valid c
  rw [char_lt] at h
  rw [char_le, char_lt, charSucc_toNat (by omega)]
  split <;> omega

theorem le_charPred {c d x : Char} (h : d < c) : x ≤ charPred c ↔ x < c := by
  have hx := char_valid x
  have hd := char_valid d
  have hc := char_valid c
  rw [char_lt] at h
  rw [char_le, char_lt, charPred_toNat (by omega)]
  split <;> omega

theorem CRange.contains_iff {r : CRange} {c : Char} :
    r.contains c = true ↔ r.lo ≤ c ∧ c ≤ r.hi := by
  simp [CRange.contains]

theorem charMaxOf_toNat (a b : Char) : (charMaxOf a b).toNat = max a.toNat b.toNat := by
  unfold charMaxOf
  split <;> rename_i h <;> rw [char_le] at h <;> omega

theorem charCount_two {a b : Char} (h : a < b) : charCount a b = 2 ↔ b = charSucc a := by
  have hb := char_valid b
  have ha := char_valid a
  rw [char_lt] at h
  rw [char_eq, charSucc_toNat (by omega)]
  unfold charCount
  split
  · omega
  · split <;> split <;> omega

/-- Some range in the list contains the character. -/
def inRanges (rs : List CRange) (c : Char) : Prop := ∃ r ∈ rs, r.lo ≤ c ∧ c ≤ r.hi

theorem inRanges_cons {r rs c} : inRanges (r :: rs) c ↔ (r.lo ≤ c ∧ c ≤ r.hi) ∨ inRanges rs c := by
  simp [inRanges]

theorem inRanges_nil {c} : ¬ inRanges [] c := by simp [inRanges]

theorem inRanges_append {rs ss c} : inRanges (rs ++ ss) c ↔ inRanges rs c ∨ inRanges ss c := by
  simp [inRanges, or_and_right, exists_or]

theorem inRanges_perm {rs ss : List CRange} (h : rs.Perm ss) {c} : inRanges rs c ↔ inRanges ss c := by
  simp [inRanges, h.mem_iff]

theorem BracketCharClass.check_ranges (k : BracketCharClass) (c : Char) :
    k.checkAscii c = true ↔ inRanges k.toRanges c := by
  cases k <;>
    simp [BracketCharClass.checkAscii, BracketCharClass.toRanges, inRanges, char_le,
      BracketCharClass.isAsciiDigit, BracketCharClass.isAsciiUpper, BracketCharClass.isAsciiLower,
      char_eq, Char.reduceToNat] <;> omega

theorem Term.check_ranges (t : Term) (c : Char) : t.check c = true ↔ inRanges t.toRanges c := by
  cases t with
  | single a =>
    simp [Term.check, Term.toRanges, inRanges, char_eq, char_le]; omega
  | range a b => simp [Term.check, Term.toRanges, inRanges]
  | cls k => simpa [Term.check, Term.toRanges] using k.check_ranges c

theorem terms_check_ranges (ts : List Term) (c : Char) :
    ts.any (fun t => t.check c) = true ↔ inRanges (ts.flatMap Term.toRanges) c := by
  induction ts with
  | nil => simp [inRanges]
  | cons t ts ih => simp only [List.any_cons, Bool.or_eq_true, List.flatMap_cons, inRanges_append, ih, t.check_ranges]

namespace Atom

theorem sortRanges_perm (rs : List CRange) : (sortRanges rs).Perm rs :=
  List.perm_insertionSort _ rs

theorem sortRanges_sorted (rs : List CRange) :
    (sortRanges rs).Pairwise (fun a b => a.lo ≤ b.lo) := by
  have : Std.Total (fun a b : CRange => a.lo ≤ b.lo) :=
    ⟨fun a b => by simp only [char_le]; omega⟩
  have : IsTrans CRange (fun a b : CRange => a.lo ≤ b.lo) :=
    ⟨fun a b c => by simp only [char_le]; omega⟩
  exact List.pairwise_insertionSort _ rs

/-- The loop of `combine_ranges_chars` keeps the union of the ranges. The current range may be
empty (only the first range can be: `[b-a]`). -/
theorem combineLoop_inRanges (cur : CRange) (ts : List CRange)
    (hs : ∀ t ∈ ts, cur.lo ≤ t.lo) (hp : ts.Pairwise (fun a b => a.lo ≤ b.lo)) (c : Char) :
    inRanges (combineLoop cur ts) c ↔ inRanges (cur :: ts) c := by
  induction ts generalizing cur with
  | nil => simp [combineLoop]
  | cons t ts ih =>
    have hpt := List.pairwise_cons.mp hp
    have hct := hs t (by simp)
    have hs' : ∀ u ∈ ts, cur.lo ≤ u.lo := fun u hu => hs u (by simp [hu])
    unfold combineLoop
    by_cases he : t.isEmpty = true
    · rw [if_pos he, ih cur hs' hpt.2]
      have : ¬ (t.lo ≤ c ∧ c ≤ t.hi) := by
        simp only [CRange.isEmpty, Bool.not_eq_true', decide_eq_false_iff_not, char_le] at he
        simp only [char_le]; omega
      simp only [inRanges_cons, this, false_or]
    · rw [if_neg he]
      have hne : t.lo ≤ t.hi := by simpa [CRange.isEmpty] using he
      split
      · rename_i hcond
        rw [ih ⟨cur.lo, charMaxOf cur.hi t.hi⟩ hs' hpt.2]
        simp only [inRanges_cons]
        have hcv := char_valid c
        have key : (cur.lo ≤ c ∧ c ≤ charMaxOf cur.hi t.hi) ↔
            ((cur.lo ≤ c ∧ c ≤ cur.hi) ∨ (t.lo ≤ c ∧ c ≤ t.hi)) := by
          by_cases hle : t.lo ≤ cur.hi
          · simp only [char_le, charMaxOf_toNat] at *; omega
          · have hlt : cur.hi < t.lo := by rw [char_lt]; rw [char_le] at hle; omega
            have h2 : t.lo = charSucc cur.hi := (charCount_two hlt).mp (hcond.resolve_left hle)
            have h3 := charSucc_le (x := c) hlt
            rw [← h2] at h3
            simp only [char_le, char_lt, charMaxOf_toNat] at *; omega
        rw [key, or_assoc]
      · rw [inRanges_cons, ih t hpt.1 hpt.2]
        simp only [inRanges_cons]

theorem combine_inRanges (rs : List CRange) (c : Char) :
    inRanges (combine rs) c ↔ inRanges rs c := by
  rw [← inRanges_perm (sortRanges_perm rs)]
  have hp := sortRanges_sorted rs
  unfold combine
  generalize sortRanges rs = ss at *
  match ss with
  | [] => simp
  | r :: ts =>
    have := List.pairwise_cons.mp hp
    exact combineLoop_inRanges r ts this.1 this.2 c

theorem subtractOne_inRanges (term range : CRange) (c : Char) :
    inRanges (subtractOne term range) c ↔
      (range.lo ≤ c ∧ c ≤ range.hi) ∧ ¬ (term.lo ≤ c ∧ c ≤ term.hi) := by
  unfold subtractOne
  split
  · rename_i h
    simp only [inRanges_cons, inRanges_nil, or_false, char_le, char_lt] at *; omega
  · rename_i h
    rw [inRanges_append]
    have h1 : inRanges (if range.lo < term.lo then [⟨range.lo, charPred term.lo⟩] else []) c ↔
        range.lo ≤ c ∧ c < term.lo := by
      split
      · rename_i hlt
        simp only [inRanges_cons, inRanges_nil, or_false, le_charPred hlt]
      · rename_i hlt
        simp only [inRanges_nil, false_iff, char_le, char_lt] at *; omega
    have h2 : inRanges (if term.hi < range.hi then [⟨charSucc term.hi, range.hi⟩] else []) c ↔
        term.hi < c ∧ c ≤ range.hi := by
      split
      · rename_i hlt
        simp only [inRanges_cons, inRanges_nil, or_false, charSucc_le hlt]
      · rename_i hlt
        simp only [inRanges_nil, false_iff, char_le, char_lt] at *; omega
    rw [h1, h2]
    simp only [char_le, char_lt] at *; omega

theorem subtract_inRanges (rs : List CRange) (term : CRange) (c : Char) :
    inRanges (subtract rs term) c ↔ inRanges rs c ∧ ¬ (term.lo ≤ c ∧ c ≤ term.hi) := by
  unfold subtract
  induction rs with
  | nil => simp [inRanges]
  | cons r rs ih =>
    rw [List.flatMap_cons, inRanges_append, ih, subtractOne_inRanges, inRanges_cons]; tauto

theorem foldl_subtract_inRanges (ts rs : List CRange) (c : Char) :
    inRanges (ts.foldl subtract rs) c ↔ inRanges rs c ∧ ¬ inRanges ts c := by
  induction ts generalizing rs with
  | nil => simp [inRanges]
  | cons t ts ih => rw [List.foldl_cons, ih, subtract_inRanges, inRanges_cons]; tauto

theorem toRanges_check (a : Atom) (c : Char) : inRanges a.toRanges c ↔ a.check c = true := by
  have hv := char_valid c
  cases a with
  | normal d => simp [toRanges, check, inRanges, char_eq, char_le]; omega
  | dot =>
    have h1 : ('\x01' : Char).toNat = 1 := rfl
    have h0 : ('\x00' : Char).toNat = 0 := rfl
    simp only [toRanges, check, inRanges_cons, inRanges_nil, or_false, char_le, bne_iff_ne, ne_eq,
      char_eq, charMax_toNat, h1, h0]
    omega
  | matching ts => rw [toRanges, combine_inRanges, check, terms_check_ranges]
  | nonmatching ts =>
    have h0 : ('\x00' : Char).toNat = 0 := rfl
    rw [toRanges, inRanges_perm (sortRanges_perm _), foldl_subtract_inRanges, check,
      ← terms_check_ranges]
    simp only [inRanges_cons, inRanges_nil, or_false, char_le, charMax_toNat, h0, Bool.not_eq_true']
    constructor
    · intro h; simpa using h.2
    · intro h; exact ⟨by omega, by simp [h]⟩

theorem beq_sound {a b : Atom} (h : a.beq b = true) (c : Char) : a.check c = b.check c := by
  have h' : a.toRanges = b.toRanges := by simpa [beq] using h
  rw [Bool.eq_iff_iff, ← toRanges_check, ← toRanges_check, h']

end Atom
end Ere
