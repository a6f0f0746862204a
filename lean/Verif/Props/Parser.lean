import Verif.Proofs.ParseTop
import Verif.Props.Flat

/-! Properties of the parser: C05, C06, C07, C42, C43. -/

namespace Ere.Props

/-! ## C05 -/

/-- **C05.** Parsing any string terminates with a tree or an error (the model's recursion bound is never
exhausted), and every part that is read is a non-empty prefix of the text. -/
theorem C05_parser_total (s : List Char) :
    ((∃ e, parseStr s = .ok e) ∨ ∃ x, parseStr s = .error x ∧ x ≠ .fuel) ∧
    ∀ k r p, takePart k s = .ok (r, p) → ∃ w, w ≠ [] ∧ s = w ++ r := by
  refine ⟨?_, fun k r p h => ?_⟩
  · rcases parseStr_total s with h | h
    · exact Or.inl h
    · exact Or.inr ⟨_, h, by simp⟩
  · obtain ⟨w, h1, h2⟩ := (take_sound k).2.2.2 h
    obtain ⟨c, w', rfl, _⟩ := spellsPart_head h2
    exact ⟨_, by simp, h1⟩

/-- non-vacuity: a text that is rejected, one that is accepted, and a part that is read. -/
example : parseStr "(a".toList = .error (.invalidAtom ')') ∧
    ((parseStr "a|(b{2,3}?)".toList).toOption.map ERE.display) = some "a|(b{2,3}?)".toList ∧
    ((takePart 9 "a*b".toList).toOption.map (·.1)) = some "b".toList :=
  ⟨rfl, by decide +kernel, rfl⟩

/-! ## C43: the accepted syntax -/

/-- **C43.** The parser accepts exactly the spellings of the grammar, and returns the tree that is
spelled. -/
theorem C43_parser_grammar (s : List Char) (e : ERE) : parseStr s = .ok e ↔ SpellsERE e s :=
  parseStr_iff

/-- The grammar is unambiguous. -/
theorem C43_unambiguous {s : List Char} {e e' : ERE} (h : SpellsERE e s) (h' : SpellsERE e' s) :
    e = e' := by
  have h1 := parseStr_iff.2 h
  rw [parseStr_iff.2 h'] at h1
  simpa using h1.symm

/-- `"…".parse::<Atom>()` accepts exactly the spellings of atoms. -/
theorem C43_atom_from_str (s : List Char) (a : Atom) : Atom.fromStr s = some a ↔ SpellsAtom a s :=
  Atom.fromStr_iff

/-- non-vacuity: spellings with brackets. -/
example : Atom.fromStr "[]a-c[:digit:]x-]".toList =
    some (.matching [.single ']', .range 'a' 'c', .cls .digit, .single 'x', .single '-']) := by
  decide

example : SpellsAtom (.nonmatching [.single ']', .range 'a' 'c']) "[^]a-c]".toList :=
  .nonmatching (.bracket (.range (by decide) (by decide) .close))

/-! ## C06 -/

/-- **C06.** Printing what was parsed gives a text that parses to the same tree. -/
theorem C06_print_parse (s : List Char) (e : ERE) (h : parseStr s = .ok e) :
    parseStr e.display = .ok e :=
  parseStr_iff.2 (spellsERE_display (parseStr_iff.1 h))

/-- The same for atoms. -/
theorem C06_print_parse_atom (s : List Char) (a : Atom) (h : Atom.fromStr s = some a) :
    Atom.fromStr a.display = some a :=
  Atom.fromStr_iff.2 (spellsAtom_display (Atom.fromStr_iff.1 h))

/-- non-vacuity: the printed text may differ from the text that was parsed. -/
example : ((parseStr "x{+02}]".toList).toOption.map ERE.display) = some "x{2}\\]".toList := by decide +kernel

/-! ## C07 -/

/-- **C07 is false**: the error does not name the defect. A missing `]` is reported as an invalid `)`,
although the text has no `)`; the same happens for a bad escape. -/
theorem C07_negation :
    ¬ ∀ s c, parseStr s = .error (.invalidAtom c) → c ∈ s := by
  intro h
  have := h "[a".toList ')' rfl
  revert this; decide

/-- What does hold: every text that is not a spelling is rejected, always with the same error. -/
theorem C07_one_error_partial (s : List Char) :
    (¬ ∃ e, SpellsERE e s) ↔ parseStr s = .error (.invalidAtom ')') := by
  constructor
  · intro h
    rcases parseStr_total s with ⟨e, he⟩ | he
    · exact absurd ⟨e, parseStr_iff.1 he⟩ h
    · exact he
  · rintro h ⟨e, he⟩
    rw [parseStr_iff.2 he] at h
    cases h

example : parseStr "a\\b".toList = .error (.invalidAtom ')') ∧
    parseStr "a{x}".toList = .error (.invalidAtom ')') := ⟨rfl, rfl⟩

/-! ## C42 -/

/-- A text with every special character escaped. -/
def escapeText (s : List Char) : List Char :=
  s.flatMap (fun c => if c ∈ escapables then ['\\', c] else [c])

/-- The pattern that matches a text literally. -/
def literal (s : List Char) : ERE := .mk [.mk (s.map (fun c => .single (.atom (.normal c))))]

theorem spells_literal (s : List Char) : SpellsERE (literal s) (escapeText s) := by
  refine .one ?_
  induction s with
  | nil => exact .nil
  | cons c s ih =>
    have : escapeText (c :: s) = (if c ∈ escapables then ['\\', c] else [c]) ++ escapeText s := rfl
    rw [this, List.map_cons]
    refine .cons (.single (.atom ?_)) ih
    split
    · exact .escaped (by assumption)
    · rename_i h
      exact .plain (fun hm => h (by simp [escapables, hm]))

theorem matches_literal {s pre mid post : List Char} :
    MatchesBranch (.mk (s.map (fun c => .single (.atom (.normal c))))) pre mid post ↔ mid = s := by
  constructor
  · intro h
    induction s generalizing pre mid post with
    | nil => cases h; rfl
    | cons c s ih =>
      cases h with
      | cons h1 h2 =>
        have h3 := ih h2
        cases h1 with
        | single h1 =>
          cases h1 with
          | atom h1 =>
            simp only [Atom.check, beq_iff_eq] at h1
            rw [h3, h1]; rfl
  · rintro rfl
    induction mid generalizing pre with
    | nil => exact .nil
    | cons c s ih => exact .cons (m1 := [c]) (.single (.atom (by simp [Atom.check]))) ih

/-- **C42.** A text with its special characters escaped is a pattern that matches exactly the texts in
which the given text occurs, also in the compiled regex. A backslash before a character is accepted
exactly for the special characters, `]` and `}`, and gives a pattern that matches exactly that
character. -/
theorem C42_escape (U : Utf8Seqs) (s : List Char) :
    ∃ e, parseStr (escapeText s) = .ok e ∧ (∀ text, e.MatchesIn text ↔ s <:+: text) ∧
      ∃ F, compileFlatU8 U.seqs e = .ok F ∧ ∀ text, F.test (encode text) = true ↔ s <:+: text := by
  have key : ∀ text, (literal s).MatchesIn text ↔ s <:+: text := by
    intro text
    constructor
    · rintro ⟨pre, mid, post, rfl, h⟩
      cases h with
      | intro hb hm =>
        rw [List.mem_singleton.1 hb] at hm
        rw [← matches_literal.1 hm]
        exact ⟨pre, post, rfl⟩
    · rintro ⟨pre, post, rfl⟩
      exact ⟨pre, s, post, rfl, .intro (List.mem_singleton.2 rfl) (matches_literal.2 rfl)⟩
  refine ⟨literal s, parseStr_iff.2 (spells_literal s), key, ?_⟩
  obtain ⟨F, h1⟩ := (C17_flat_returns U (literal s) ⟨s, (key s).2 ⟨[], [], by simp⟩⟩).2
  exact ⟨F, h1, fun text => by rw [C19_flat_u8_test U h1, key]⟩

theorem C42_backslash (c : Char) :
    (c ∈ escapables → ∃ a, Atom.fromStr ['\\', c] = some a ∧ ∀ x, a.check x = true ↔ x = c) ∧
    (c ∉ escapables → Atom.fromStr ['\\', c] = none) := by
  constructor
  · intro h
    exact ⟨.normal c, Atom.fromStr_iff.2 (.escaped h), fun x => by rw [Atom.check, beq_iff_eq, eq_comm]⟩
  · intro h
    cases hf : Atom.fromStr ['\\', c] with
    | none => rfl
    | some a =>
      have h1 := Atom.fromStr_iff.1 hf
      cases h1 with
      | escaped h1 => exact absurd h1 h

/-- non-vacuity -/
example : escapeText "a.b".toList = "a\\.b".toList ∧ '.' ∈ escapables ∧ 'n' ∉ escapables := by decide

end Ere.Props
