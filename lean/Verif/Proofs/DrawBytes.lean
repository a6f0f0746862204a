import Verif.Model.Draw
import Verif.Spec.Picture
import Mathlib.Tactic.IntervalCases

/-!
# The texts of bytes and byte ranges
-/

namespace Ere

theorem u8_cases {P : UInt8 → Prop} (h : ∀ n < 256, P (UInt8.ofNat n)) (b : UInt8) : P b := by
  have := h b.toNat b.toNat_lt
  rwa [UInt8.ofNat_toNat] at this

/-- Inverse of `escapeAscii`. -/
def unescapeAscii : List Char → UInt8
  | ['\\', 't'] => 9
  | ['\\', 'r'] => 13
  | ['\\', 'n'] => 10
  | ['\\', c] => UInt8.ofNat c.toNat
  | ['\\', 'x', a, b] => UInt8.ofNat (hexVal a * 16 + hexVal b)
  | [c] => UInt8.ofNat c.toNat
  | _ => 0

theorem unescapeAscii_escape (b : UInt8) : unescapeAscii (escapeAscii b) = b := by
  refine u8_cases (P := fun b => unescapeAscii (escapeAscii b) = b) ?_ b
  decide +kernel

theorem ofNat_ne_backslash {n : Nat} (h : n ≤ 126) (hn : n ≠ 92) : Char.ofNat n ≠ '\\' := by
  have : ∀ n < 127, n ≠ 92 → Char.ofNat n ≠ '\\' := by decide +kernel
  exact this n (by omega) hn

/-- The three forms of an escaped byte. -/
theorem escapeAscii_form (b : UInt8) :
    (∃ c, escapeAscii b = [c] ∧ c ≠ '\\') ∨ (∃ c, escapeAscii b = ['\\', c] ∧ c ≠ 'x') ∨
    ∃ c d, escapeAscii b = ['\\', 'x', c, d] := by
  unfold escapeAscii
  simp only
  repeat' split
  all_goals first
    | exact .inr (.inl ⟨_, rfl, by decide⟩)
    | exact .inr (.inr ⟨_, _, rfl⟩)
    | skip
  rename_i h1 h2
  exact .inl ⟨_, rfl, ofNat_ne_backslash h2.2 h1⟩

/-- No escaped byte is the beginning of another one. -/
theorem escapeAscii_prefix {a b : UInt8} {x y : List Char} (h : escapeAscii a ++ x = escapeAscii b ++ y) :
    a = b ∧ x = y := by
  have key : escapeAscii a = escapeAscii b ∧ x = y := by
    rcases escapeAscii_form a with ⟨c, ha, hc⟩ | ⟨c, ha, hc⟩ | ⟨c, d, ha⟩ <;>
    rcases escapeAscii_form b with ⟨c', hb, hc'⟩ | ⟨c', hb, hc'⟩ | ⟨c', d', hb⟩ <;>
    rw [ha, hb] at h ⊢ <;>
    simp only [List.cons_append, List.nil_append, List.cons.injEq, true_and] at h ⊢
    · exact ⟨⟨h.1, trivial⟩, h.2⟩
    · exact absurd h.1 hc
    · exact absurd h.1 hc
    · exact absurd h.1.symm hc'
    · exact ⟨⟨h.1, trivial⟩, h.2⟩
    · exact absurd h.1 hc
    · exact absurd h.1.symm hc'
    · exact absurd h.1.symm hc'
    · exact ⟨⟨h.1, h.2.1, trivial⟩, h.2.2⟩
  refine ⟨?_, key.2⟩
  have := congrArg unescapeAscii key.1
  rwa [unescapeAscii_escape, unescapeAscii_escape] at this

theorem escapeAscii_length (b : UInt8) : 1 ≤ (escapeAscii b).length ∧ (escapeAscii b).length ≤ 4 := by
  rcases escapeAscii_form b with ⟨c, h, _⟩ | ⟨c, h, _⟩ | ⟨c, d, h⟩ <;> rw [h] <;> simp

/-- The text of a byte range determines it. -/
theorem display_inj {a b : U8Atom} (h : a.display = b.display) : a = b := by
  unfold U8Atom.display at h
  obtain ⟨a1, a2⟩ := a
  obtain ⟨b1, b2⟩ := b
  simp only at h
  have la := escapeAscii_length a1
  have la2 := escapeAscii_length a2
  have lb := escapeAscii_length b1
  have lb2 := escapeAscii_length b2
  split at h <;> split at h
  · rename_i e1 e2
    have := escapeAscii_prefix (x := []) (y := []) (by simpa using h)
    rw [← e1, ← e2, this.1]
  · have := congrArg List.length h
    simp only [List.length_cons, List.length_append, List.length_nil] at this
    omega
  · have := congrArg List.length h
    simp only [List.length_cons, List.length_append, List.length_nil] at this
    omega
  · have h1 := (List.cons.inj h).2
    obtain ⟨e1, h2⟩ := escapeAscii_prefix h1
    obtain ⟨e2, _⟩ := escapeAscii_prefix (List.cons.inj h2).2
    rw [e1, e2]

/-- Inverse of `displayByteChar`. -/
def readByteChar : List Char → UInt8
  | ['\'', '\\', 't', '\''] => 9
  | ['\'', '\\', 'r', '\''] => 13
  | ['\'', '\\', 'n', '\''] => 10
  | ['\'', '\\', c, '\''] => UInt8.ofNat c.toNat
  | ['\'', '\\', 'u', '{', 'c', '}', '\''] => 12
  | ['\'', c, '\''] => UInt8.ofNat c.toNat
  | ['0', 'x', a, b] => UInt8.ofNat (hexVal a * 16 + hexVal b)
  | _ => 0

theorem readByteChar_display (b : UInt8) : readByteChar (displayByteChar b) = b := by
  refine u8_cases (P := fun b => readByteChar (displayByteChar b) = b) ?_ b
  decide +kernel

/-- The four forms of a displayed byte. -/
theorem displayByteChar_form (b : UInt8) :
    (∃ c, displayByteChar b = ['\'', c, '\''] ∧ c ≠ '\\') ∨
    (∃ c, displayByteChar b = ['\'', '\\', c, '\''] ∧ c ≠ 'u') ∨
    displayByteChar b = ['\'', '\\', 'u', '{', 'c', '}', '\''] ∨
    ∃ c d, displayByteChar b = ['0', 'x', c, d] := by
  unfold displayByteChar
  simp only
  repeat' split
  all_goals first
    | exact .inl ⟨_, rfl, by decide⟩
    | exact .inr (.inl ⟨_, rfl, by decide⟩)
    | exact .inr (.inr (.inl rfl))
    | exact .inr (.inr (.inr ⟨_, _, rfl⟩))
    | skip
  rename_i h1 _ h2
  exact .inl ⟨_, rfl, ofNat_ne_backslash h1.2 h2⟩

/-- No displayed byte is the beginning of another one. -/
theorem displayByteChar_prefix {a b : UInt8} {x y : List Char}
    (h : displayByteChar a ++ x = displayByteChar b ++ y) : a = b ∧ x = y := by
  have key : displayByteChar a = displayByteChar b ∧ x = y := by
    rcases displayByteChar_form a with ⟨c, ha, hc⟩ | ⟨c, ha, hc⟩ | ha | ⟨c, d, ha⟩ <;>
    rcases displayByteChar_form b with ⟨c', hb, hc'⟩ | ⟨c', hb, hc'⟩ | hb | ⟨c', d', hb⟩ <;>
    rw [ha, hb] at h ⊢ <;>
    simp only [List.cons_append, List.nil_append, List.cons.injEq, true_and] at h ⊢
    · exact ⟨⟨h.1, trivial⟩, h.2⟩
    · exact absurd h.1 hc
    · exact absurd h.1 hc
    · exact absurd h.1 (by decide)
    · exact absurd h.1.symm hc'
    · exact ⟨⟨h.1, trivial⟩, h.2⟩
    · exact absurd h.1 hc
    · exact absurd h.1 (by decide)
    · exact absurd h.1.symm hc'
    · exact absurd h.1.symm hc'
    · exact h
    · exact absurd h.1 (by decide)
    · exact absurd h.1 (by decide)
    · exact absurd h.1 (by decide)
    · exact absurd h.1 (by decide)
    · exact ⟨⟨h.1, h.2.1, trivial⟩, h.2.2⟩
  refine ⟨?_, key.2⟩
  have := congrArg readByteChar key.1
  rwa [readByteChar_display, readByteChar_display] at this

/-- The text of a byte range on an edge of a deterministic automaton determines it. -/
theorem displayRange_inj {a b : U8Atom} (h : a.displayRange = b.displayRange) : a = b := by
  unfold U8Atom.displayRange at h
  obtain ⟨a1, a2⟩ := a
  obtain ⟨b1, b2⟩ := b
  simp only at h
  split at h <;> split at h
  · rename_i e1 e2
    have := displayByteChar_prefix (x := []) (y := []) (by simpa using h)
    rw [← e1, ← e2, this.1]
  · have := displayByteChar_prefix (x := []) (by simpa using h)
    cases this.2
  · have := displayByteChar_prefix (y := []) (by simpa using h)
    cases this.2
  · obtain ⟨e1, h2⟩ := displayByteChar_prefix h
    simp only [List.cons.injEq, true_and] at h2
    obtain ⟨e2, _⟩ := displayByteChar_prefix (x := []) (y := []) (by simpa using h2)
    rw [e1, e2]

theorem displayRange_length (a : U8Atom) : 3 ≤ a.displayRange.length := by
  have h : ∀ b, 3 ≤ (displayByteChar b).length := by
    intro b
    rcases displayByteChar_form b with ⟨c, h, _⟩ | ⟨c, h, _⟩ | h | ⟨c, d, h⟩ <;> rw [h] <;> simp
  unfold U8Atom.displayRange
  split
  · exact h _
  · rw [List.length_append]; have := h a.lo; omega

/-! ### Reading the texts back -/

theorem readEscByte_escape (b : UInt8) (r : List Char) : readEscByte (escapeAscii b ++ r) = some (b, r) := by
  refine u8_cases (P := fun b => readEscByte (escapeAscii b ++ r) = some (b, r)) ?_ b
  intro n hn
  interval_cases n <;> rfl

theorem readEscRange_display (a : U8Atom) : readEscRange a.display = some (a.lo, a.hi) := by
  obtain ⟨x, y⟩ := a
  unfold U8Atom.display
  simp only
  split
  · rename_i h
    have := readEscByte_escape x []
    rw [List.append_nil] at this
    rw [readEscRange, this, h]
  · have h1 : readEscByte ('[' :: (escapeAscii x ++ '-' :: (escapeAscii y ++ [']']))) =
        some (91, escapeAscii x ++ '-' :: (escapeAscii y ++ [']'])) := rfl
    have h2 : ∃ c l, escapeAscii x ++ '-' :: (escapeAscii y ++ [']']) = c :: l := by
      rcases escapeAscii_form x with ⟨c, h, _⟩ | ⟨c, h, _⟩ | ⟨c, d, h⟩ <;> rw [h] <;> exact ⟨_, _, rfl⟩
    obtain ⟨c, l, h2⟩ := h2
    rw [readEscRange, h1, h2]
    simp only [expect, if_true, Option.bind_eq_bind, Option.bind_some]
    rw [← h2, readEscByte_escape]
    simp only [Option.bind_some, expect, if_true]
    rw [readEscByte_escape]
    simp [expect]

theorem readQuotedByte_display (b : UInt8) (r : List Char) :
    readQuotedByte (displayByteChar b ++ r) = some (b, r) := by
  refine u8_cases (P := fun b => readQuotedByte (displayByteChar b ++ r) = some (b, r)) ?_ b
  intro n hn
  interval_cases n <;> rfl

theorem readQuotedRange_display (a : U8Atom) : readQuotedRange a.displayRange = some (a.lo, a.hi) := by
  obtain ⟨x, y⟩ := a
  unfold U8Atom.displayRange
  simp only
  split
  · rename_i h
    have := readQuotedByte_display x []
    rw [List.append_nil] at this
    rw [readQuotedRange, this]
    simp [h]
  · have h2 := readQuotedByte_display y []
    rw [List.append_nil] at h2
    rw [readQuotedRange, readQuotedByte_display]
    simp [expect, h2]

end Ere
