import Verif.Proofs.AtomCanon

/-!
# Property theorems about atoms: C01, C02, C03, C04

Each statement uses only the observable functions (`check`, `toRanges`, `==`).
-/

namespace Ere.Props
open Ere

/-- **C01.** The ranges derived from an atom contain a character exactly when the atom accepts it.
Full strength: every atom (also reversed ranges) and every character. -/
theorem C01_atom_ranges_exact (a : Atom) (c : Char) :
    (∃ r ∈ a.toRanges, r.lo ≤ c ∧ c ≤ r.hi) ↔ a.check c = true :=
  a.toRanges_check c

/-- C01, emitted check: the boolean expression emitted by `serialize_check` accepts the same
characters as `check`. -/
theorem C01_serialize_check (a : Atom) (c : Char) : a.serializeCheck c = a.check c := by
  rw [Bool.eq_iff_iff, ← a.toRanges_check c]
  unfold Atom.serializeCheck
  generalize a.toRanges = rs
  induction rs with
  | nil => simp [inRanges]
  | cons r rs ih => simp [inRanges_cons, ih]

/-- non-vacuity: a negated list with a reversed range and a class accepts `z` and rejects `5`. -/
example : (Atom.nonmatching [.range 'z' 'a', .cls .digit]).check 'z' = true ∧
    (Atom.nonmatching [.range 'z' 'a', .cls .digit]).check '5' = false := by decide

/-- **C02.** Class predicate and class table agree on every character. -/
theorem C02_class_tables (k : BracketCharClass) (c : Char) :
    k.checkAscii c = true ↔ ∃ r ∈ k.toRanges, r.lo ≤ c ∧ c ≤ r.hi :=
  k.check_ranges c

/-- non-vacuity: `[:punct:]` (four ranges) accepts `~` and rejects `a`. -/
example : BracketCharClass.punctuation.toRanges.length = 4 ∧ BracketCharClass.punctuation.checkAscii '~' = true ∧
    BracketCharClass.punctuation.checkAscii 'a' = false := by decide +kernel

/-- **C03 (false as stated).** Equality of atoms is not fully semantic: `[b-a]` and `[c-a]` accept
the same characters (none) but compare different. -/
theorem C03_atom_eq_semantic_false :
    ¬ ∀ a b : Atom, (∀ c, a.check c = b.check c) → a.beq b = true := by
  intro h
  have h1 := h (.matching [.range 'b' 'a']) (.matching [.range 'c' 'a']) (by
    intro c
    have hc : ∀ d : Char, 'a'.toNat < d.toNat → (Atom.matching [.range d 'a']).check c = false := by
      intro d hd
      simp only [Atom.check, Term.check, List.any_cons, List.any_nil, Bool.or_false,
        Bool.and_eq_false_iff, decide_eq_false_iff_not, char_le]
      omega
    rw [hc 'b' (by decide), hc 'c' (by decide)])
  revert h1
  decide

/-- C03, the direction the compiler relies on (state merging): equal atoms accept the same
characters. Full strength. -/
theorem C03_atom_eq_sound (a b : Atom) (h : a.beq b = true) (c : Char) :
    a.check c = b.check c :=
  Atom.beq_sound h c

/-- C03, completeness. Missing: atoms in which a reversed range such as `[b-a]` is written. -/
theorem C03_atom_eq_complete_partial (a b : Atom) (ha : a.Ordered) (hb : b.Ordered) :
    a.beq b = true ↔ ∀ c, a.check c = b.check c :=
  ⟨fun h c => Atom.beq_sound h c, Atom.beq_complete ha hb⟩

/-- non-vacuity: `[abcd]` and `[a-d]` meet the hypotheses and are equal. -/
example : (Atom.matching [.single 'a', .single 'b', .single 'c', .single 'd']).Ordered ∧
    (Atom.matching [.range 'a' 'd']).Ordered ∧
    (Atom.matching [.single 'a', .single 'b', .single 'c', .single 'd']).beq
      (Atom.matching [.range 'a' 'd']) = true := by
  refine ⟨?_, ?_, by decide⟩
  · intro t ht; simp at ht; rcases ht with rfl | rfl | rfl | rfl <;> trivial
  · intro t ht; simp at ht; subst ht; show 'a' ≤ 'd'; decide

/-- **C04 (false as stated).** `[^z-a]` yields the overlapping ranges `\0..=y` and `b..=MAX`, and
`[b-a]` yields an empty range. -/
theorem C04_ranges_minimal_false : ¬ ∀ a : Atom, Canonical a.toRanges := by
  intro h
  have := (h (.matching [.range 'b' 'a'])).1 ⟨'b', 'a'⟩ (by decide)
  exact absurd this (by decide)

/-- The second half of the witness for C04: overlapping ranges. -/
theorem C04_ranges_overlap_witness :
    (Atom.nonmatching [.range 'z' 'a']).toRanges = [⟨'\x00', 'y'⟩, ⟨'b', charMax⟩] := by decide

/-- C04. Missing: atoms in which a reversed range is written. -/
theorem C04_ranges_minimal_partial (a : Atom) (h : a.Ordered) :
    (∀ r ∈ a.toRanges, r.lo ≤ r.hi) ∧
    a.toRanges.Pairwise (fun r s => ∃ x : Char, r.hi < x ∧ x < s.lo) :=
  Atom.toRanges_canonical h

/-- non-vacuity: the documentation example of `to_ranges`. -/
example : (Atom.matching [.range 'a' 'z', .range '2' '9', .range 'A' 'X', .range '0' '1',
    .single 'Y', .single 'Z', .cls .hexDigit]).toRanges =
    [⟨'0', '9'⟩, ⟨'A', 'Z'⟩, ⟨'a', 'z'⟩] := by decide

end Ere.Props
