import Verif.Spec.Runs
import Verif.Props.Scan
import Verif.Props.Fields

/-! C83: repeated `exec` with a class and `+` finds the runs of characters of the class. -/

namespace Ere.Props
open Ere

/-- The pattern for runs of characters of a class. -/
def runField (a : Atom) : List FieldPat := [⟨a, some .plus, false⟩]

theorem runField_field (a : Atom) : (runField a).map FieldPat.field = [⟨a.check, 1, none, false⟩] := rfl

/-- A text without characters of the class, or the first run in it. -/
theorem run_split (p : Char → Bool) (text : List Char) : (∀ c ∈ text, p c = false) ∨
    ∃ u w v, text = u ++ (w ++ v) ∧ (∀ c ∈ u, p c = false) ∧ w ≠ [] ∧ (∀ c ∈ w, p c = true) ∧ ∀ c v', v = c :: v' → p c = false := by
  induction text with
  | nil => exact .inl (by simp)
  | cons c text ih =>
    by_cases hc : p c = true
    · refine .inr ⟨[], c :: text.takeWhile p, text.dropWhile p, by simp, by simp, by simp, ?_, ?_⟩
      · intro d hd
        rcases List.mem_cons.mp hd with rfl | hd
        · exact hc
        · exact List.all_eq_true.mp List.all_takeWhile d hd
      · intro d v' hv
        have := List.head?_dropWhile_not p text
        rw [hv] at this
        simpa using this
    · rw [Bool.not_eq_true] at hc
      rcases ih with h | ⟨u, w, v, h1, h2, h3, h4, h5⟩
      · exact .inl fun d hd => by
          rcases List.mem_cons.mp hd with rfl | hd
          · exact hc
          · exact h d hd
      · refine .inr ⟨c :: u, w, v, by rw [h1]; rfl, fun d hd => ?_, h3, h4, h5⟩
        rcases List.mem_cons.mp hd with rfl | hd
        · exact hc
        · exact h2 d hd

theorem runs_skip {p : Char → Bool} {u : List Char} (h : ∀ c ∈ u, p c = false) (off : Nat) (r : List Char) :
    runsFrom p none off (u ++ r) = runsFrom p none (off + byteLen u) r := by
  induction u generalizing off with
  | nil => rfl
  | cons c u ih =>
    rw [List.cons_append, runsFrom, if_neg (by simp [h c]), ih (fun d hd => h d (by simp [hd])), byteLen_cons, Nat.add_assoc]

theorem runs_inside {p : Char → Bool} {w : List Char} (h : ∀ c ∈ w, p c = true) (i off : Nat) (r : List Char) :
    runsFrom p (some i) off (w ++ r) = runsFrom p (some i) (off + byteLen w) r := by
  induction w generalizing off with
  | nil => rfl
  | cons c w ih =>
    rw [List.cons_append, runsFrom, if_pos (h c (by simp)), Option.getD_some, ih (fun d hd => h d (by simp [hd])), byteLen_cons,
      Nat.add_assoc]

theorem runs_first {p : Char → Bool} {u w v : List Char} (h1 : ∀ c ∈ u, p c = false) (h2 : w ≠ []) (h3 : ∀ c ∈ w, p c = true)
    (h4 : ∀ c v', v = c :: v' → p c = false) (off : Nat) : runsFrom p none off (u ++ (w ++ v)) =
      (off + byteLen u, off + byteLen (u ++ w)) :: runsFrom p none (off + byteLen (u ++ w)) v := by
  rw [runs_skip h1, byteLen_append, ← Nat.add_assoc]
  cases w with
  | nil => exact absurd rfl h2
  | cons c w =>
    rw [List.cons_append, runsFrom, if_pos (h3 c (by simp)), Option.getD_none, runs_inside (fun d hd => h3 d (by simp [hd])),
      byteLen_cons, Nat.add_assoc _ (charLen c)]
    cases v with
    | nil => rfl
    | cons d v => simp [runsFrom, h4 d v rfl]

theorem read_skip {p : Char → Bool} {u : List Char} (h : ∀ c ∈ u, p c = false) (off : Nat) (r : List Char) :
    readIn false [⟨p, 1, none, false⟩] off (u ++ r) = readIn false [⟨p, 1, none, false⟩] (off + byteLen u) r := by
  induction u generalizing off with
  | nil => rfl
  | cons c u ih =>
    have h0 : readHere false [⟨p, 1, none, false⟩] off (c :: (u ++ r)) = none := by
      simp [readHere, readFields, Field.run, h c]
    rw [List.cons_append, readIn, h0]
    show readIn _ _ _ _ = _
    rw [ih (fun d hd => h d (by simp [hd])), byteLen_cons, Nat.add_assoc]

theorem read_none {p : Char → Bool} {u : List Char} (h : ∀ c ∈ u, p c = false) :
    readText false false [⟨p, 1, none, false⟩] u = none := by
  have := read_skip h 0 []
  rw [List.append_nil] at this
  rw [readText, if_neg (by simp), this]
  simp [readIn, readHere, readFields, Field.run]

theorem read_first {p : Char → Bool} {u w v : List Char} (h1 : ∀ c ∈ u, p c = false) (h2 : w ≠ []) (h3 : ∀ c ∈ w, p c = true)
    (h4 : ∀ c v', v = c :: v' → p c = false) :
    readText false false [⟨p, 1, none, false⟩] (u ++ (w ++ v)) = some [some (byteLen u, byteLen (u ++ w))] := by
  rw [readText, if_neg (by simp), read_skip h1, Nat.zero_add, byteLen_append]
  have hrun : Field.run ⟨p, 1, none, false⟩ (w ++ v) = w := takeWhile_eq_of h3 h4
  have hl : ¬ w.length < 1 := by
    cases w with
    | nil => exact absurd rfl h2
    | cons c w => simp
  have h0 : readHere false [⟨p, 1, none, false⟩] (byteLen u) (w ++ v) = some [some (byteLen u, byteLen u + byteLen w)] := by
    simp [readHere, readFields, hrun, hl]
  cases w with
  | nil => exact absurd rfl h2
  | cons c w => rw [List.cons_append] at h0 ⊢; rw [readIn, h0]

/-- Calling again and again a function that finds the first run finds all of them. -/
theorem scan_runs {p : Char → Bool} {exec : List Char → Except Err (Option (List (Option (Nat × Nat))))}
    (h : ∀ text, exec text = .ok (readText false false [⟨p, 1, none, false⟩] text)) :
    ∀ (k off : Nat) (text : List Char), text.length < k → scanAll exec k off text = .ok (runsFrom p none off text) := by
  intro k
  induction k with
  | zero => intro off text hk; omega
  | succ k ih =>
    intro off text hk
    rcases run_split p text with h0 | ⟨u, w, v, rfl, h1, h2, h3, h4⟩
    · have : runsFrom p none off text = [] := by
        have := runs_skip h0 off []
        rw [List.append_nil] at this
        rw [this]; rfl
      rw [this]
      simp only [scanAll, h, read_none h0]
    · have hd := dropBytes_append (u ++ w) v
      rw [List.append_assoc] at hd
      have hw : 0 < byteLen w := by
        rcases Nat.eq_zero_or_pos (byteLen w) with h0 | h0
        · exact absurd (byteLen_eq_zero.mp h0) h2
        · exact h0
      have hlen : v.length < k := by
        have : 0 < w.length := List.length_pos_iff.mpr h2
        simp only [List.length_append] at hk
        omega
      have hne : byteLen u ≠ byteLen (u ++ w) := by rw [byteLen_append]; omega
      simp only [scanAll, h, read_first h1 h2 h3 h4, List.getElem?_cons_zero, Option.join_some, hd, if_neg hne, ih _ v hlen]
      rw [runs_first h1 h2 h3 h4]
      rfl

/-! ## C83 -/

section
variable (U : Utf8Seqs) {a : Atom} {w : List Char} (hw : SpellsAtom a w) (ha : ∃ c, a.check c = true) (hpl : plainAtom a = true)
  {cr : List String} (hcr : "ere" ∈ cr)
include hw ha hpl hcr

/-- **C83.** For a character or a class (without `[:graph:]` and `[:xdigit:]`) that contains some character, `compile_regex!` with
the class and `+` gives a program, it compiles, it has one group, and calling `exec` again and again on what follows the match
finds exactly the runs of characters of the class in the text, in order. -/
theorem C83_runs : ∃ E, compileRegex U.seqs (w ++ ['+']) = .ok (some E) ∧ E.compiles cr = true ∧ E.groups = 1 ∧
    ∀ text, scanAll E.exec (text.length + 1) 0 text = .ok (runsOf a.check text) := by
  have hp := parse_fields false false [(⟨a, some .plus, false⟩, w ++ ['+'])] (by
    intro x hx
    rw [List.mem_singleton] at hx
    subst hx
    exact .quantified (.atom hw) (.greedy .plus))
  have hp : parseStr (w ++ ['+']) = .ok (fieldsERE false false (runField a)) := by simpa [runField] using hp
  obtain ⟨E, h1, h2, h3, h4⟩ := C82_fields U (xs := runField a)
    (by intro x hx; simp only [runField, List.mem_singleton] at hx; subst hx
        exact ⟨by simp [FieldPat.field, QType.max], fun _ => ha⟩)
    ⟨.inr fun _ _ => rfl, trivial⟩ ⟨_, List.mem_singleton.mpr rfl, by simp [FieldPat.field, QType.min]⟩
    (by intro x hx; simp only [runField, List.mem_singleton] at hx; subst hx; exact hpl) hp hcr
  exact ⟨E, h1, h2, h3, fun text => scan_runs (fun text => by rw [(h4 text).2, runField_field]) _ 0 text (Nat.lt_succ_self _)⟩

/-- **C83 (whole texts).** With `^` in front and `$` behind, `test` says whether the text is not empty and consists of characters of
the class. -/
theorem C83_all : ∃ E, compileRegex U.seqs ('^' :: (w ++ ['+', '$'])) = .ok (some E) ∧ E.compiles cr = true ∧ E.groups = 1 ∧
    ∀ text, E.test text = .ok (!text.isEmpty && text.all a.check) := by
  have hp := parse_fields true true [(⟨a, some .plus, false⟩, w ++ ['+'])] (by
    intro x hx
    rw [List.mem_singleton] at hx
    subst hx
    exact .quantified (.atom hw) (.greedy .plus))
  have hp : parseStr ('^' :: (w ++ ['+', '$'])) = .ok (fieldsERE true true (runField a)) := by simpa [runField] using hp
  have hse : separated ((runField a).map FieldPat.field) := ⟨.inr fun _ _ => rfl, trivial⟩
  obtain ⟨E, h1, h2, h3, h4⟩ := C82_fields U (xs := runField a)
    (by intro x hx; simp only [runField, List.mem_singleton] at hx; subst hx
        exact ⟨by simp [FieldPat.field, QType.max], fun _ => ha⟩)
    hse ⟨_, List.mem_singleton.mpr rfl, by simp [FieldPat.field, QType.min]⟩
    (by intro x hx; simp only [runField, List.mem_singleton] at hx; subst hx; exact hpl) hp hcr
  refine ⟨E, h1, h2, h3, fun text => ?_⟩
  rw [(h4 text).1]
  congr 1
  rw [Bool.eq_iff_iff, C82_whole hse, runField_field]
  constructor
  · intro h
    cases h with
    | cons h5 h6 =>
      cases h6
      rename_i w'
      obtain ⟨h7, h8, _⟩ := h5
      have : w' ≠ [] := by rintro rfl; simp at h8
      simp [this]
      exact h7
  · intro h
    simp only [Bool.and_eq_true, Bool.not_eq_true', List.isEmpty_eq_false_iff, List.all_eq_true] at h
    have := Consists.cons (f := ⟨a.check, 1, none, false⟩) (w := text) ⟨h.2, List.length_pos_iff.mpr h.1, by simp⟩ .nil
    rwa [List.append_nil] at this
end

/-! ## Non-vacuity -/

example (U : Utf8Seqs) : ∃ E, compileRegex U.seqs "[^ ]+".toList = .ok (some E) ∧ E.compiles ["ere"] = true ∧ E.groups = 1 ∧
    ∀ text, scanAll E.exec (text.length + 1) 0 text = .ok (runsOf (fun c => c != ' ') text) := by
  obtain ⟨E, h1, h2, h3, h4⟩ := C83_runs U (a := .nonmatching [.single ' ']) (w := "[^ ]".toList)
    (.nonmatching (w := [' ', ']']) (.plain (by decide) (.single (a := ' ') (w := [']']) (by decide) (by decide)
      (by rintro ⟨k, z, h⟩; simp [classText] at h) .close))) ⟨'a', by decide⟩ (by decide)
    (cr := ["ere"]) (by decide)
  refine ⟨E, h1, h2, h3, fun text => ?_⟩
  rw [h4]
  congr 2
  funext c
  simp [Atom.check, Term.check, bne, Bool.beq_comm]

example : runsOf (fun c => c != ' ') "  né à  Aix ".toList = [(2, 5), (6, 8), (10, 13)] := by decide

end Ere.Props
