import Verif.Props.Fields
import Verif.Props.Words

/-!
# The patterns of the tests that are lists of strings or sequences of classes

Instances of C80 and C82 (`tests/pure_regex.rs` 120–160, 294–328 and 370–398), for every text.
-/

namespace Ere.Props

/-- The abbreviations of the test, in its order. -/
def stateNames : List (List Char) :=
   [['A', 'L'], ['A', 'K'], ['A', 'Z'], ['A', 'R'], ['C', 'A'], ['C', 'O'], ['C', 'T'], ['D', 'E'], ['F', 'L'], ['G', 'A'], ['H', 'I'],
    ['I', 'D'], ['I', 'L'], ['I', 'N'], ['I', 'A'], ['K', 'S'], ['K', 'Y'], ['L', 'A'], ['M', 'E'], ['M', 'D'], ['M', 'A'], ['M', 'I'],
    ['M', 'N'], ['M', 'S'], ['M', 'O'], ['M', 'T'], ['N', 'E'], ['N', 'V'], ['N', 'H'], ['N', 'J'], ['N', 'M'], ['N', 'Y'], ['N', 'C'],
    ['N', 'D'], ['O', 'H'], ['O', 'K'], ['O', 'R'], ['P', 'A'], ['R', 'I'], ['S', 'C'], ['S', 'D'], ['T', 'N'], ['T', 'X'], ['U', 'T'],
    ['V', 'T'], ['V', 'A'], ['W', 'A'], ['W', 'V'], ['W', 'I'], ['W', 'Y']]

/-- **C80 (states).** The pattern of `us_state_abbreviations`: on every text, `exec` gives the first place where one of the fifty
abbreviations stands. -/
theorem C80_states (U : Utf8Seqs) {cr : List String} (hcr : "ere" ∈ cr) :
    ∃ E, compileRegex U.seqs "AL|AK|AZ|AR|CA|CO|CT|DE|FL|GA|HI|ID|IL|IN|IA|KS|KY|LA|ME|MD|MA|MI|MN|MS|MO|MT|NE|NV|NH|NJ|NM|NY|NC|ND|OH|OK|OR|PA|RI|SC|SD|TN|TX|UT|VT|VA|WA|WV|WI|WY".toList = .ok (some E) ∧ E.compiles cr = true ∧ E.groups = 1 ∧
      ∀ text, E.test text = .ok (findWord false false stateNames text).isSome ∧
        E.exec text = .ok ((findWord false false stateNames text).map fun p => [some p]) := by
  have ht : wordsText false false ['A', 'L'] stateNames.tail = "AL|AK|AZ|AR|CA|CO|CT|DE|FL|GA|HI|ID|IL|IN|IA|KS|KY|LA|ME|MD|MA|MI|MN|MS|MO|MT|NE|NV|NH|NJ|NM|NY|NC|ND|OH|OK|OR|PA|RI|SC|SD|TN|TX|UT|VT|VA|WA|WV|WI|WY".toList := by decide +kernel
  rw [← ht]
  exact C80_words U false false ['A', 'L'] stateNames.tail (fun h => by cases h) hcr

/-- non-vacuity: the texts of the test. -/
example : findWord false false stateNames "WHINE".toList = some (1, 3) ∧ findWord false false stateNames "TACO".toList = some (2, 4) ∧
    findWord false false stateNames "Alabama".toList = none := by decide +kernel

/-- `[[:alnum:]_]`. -/
def wordAtom : Atom := .matching [.cls .alphanumeric, .single '_']

/-- `:`, `[[:alnum:]_]{2,}`, `:`. -/
def emoji : List (FieldPat × List Char) :=
  [(⟨.normal ':', none, false⟩, [':']), (⟨wordAtom, some (.range 2 none), false⟩, "[[:alnum:]_]{2,}".toList),
    (⟨.normal ':', none, false⟩, [':'])]

theorem emoji_spelled : ∀ w ∈ emoji, SpellsPart w.1.part w.2 := by
  have h1 : SpellsPart (FieldPat.part ⟨.normal ':', none, false⟩) [':'] := .single (.atom (.plain (by decide)))
  have h2 : SpellsPart (FieldPat.part ⟨wordAtom, some (.range 2 none), false⟩) "[[:alnum:]_]{2,}".toList :=
    .quantified (w := "[[:alnum:]_]".toList) (v := "{2,}".toList)
      (.atom (.matching (w := "[:alnum:]_]".toList) (by decide) (.plain (by decide)
        (.cls (k := .alphanumeric) (w := "_]".toList) (.single (by decide) (by decide)
          (by rintro ⟨k, hk⟩; cases k <;> simp [classText] at hk) .close)))))
      (.greedy (.atLeast (w := ['2']) (.digits (by decide) (by decide) (by decide) (by decide))))
  intro w hw
  simp only [emoji, List.mem_cons, List.not_mem_nil, or_false] at hw
  rcases hw with rfl | rfl | rfl
  · exact h1
  · exact h2
  · exact h1

theorem emoji_possible : ∀ x ∈ emoji.map Prod.fst, x.field.possible := by
  intro x hx
  simp only [emoji, List.map_cons, List.map_nil, List.mem_cons, List.not_mem_nil, or_false] at hx
  rcases hx with rfl | rfl | rfl
  · exact ⟨by simp [FieldPat.field], fun _ => ⟨':', by decide⟩⟩
  · exact ⟨by simp [FieldPat.field, QType.max], fun _ => ⟨'_', by decide +kernel⟩⟩
  · exact ⟨by simp [FieldPat.field], fun _ => ⟨':', by decide⟩⟩

theorem emoji_separated : separated ((emoji.map Prod.fst).map FieldPat.field) := by
  refine ⟨.inl rfl, .inr fun c hc => ?_, .inl rfl, trivial⟩
  have : c ≠ ':' := by
    rintro rfl
    revert hc
    decide +kernel
  simp [mayBegin, FieldPat.field, Atom.check, Ne.symm this]

/-- **C82 (emoji).** The pattern of `find_discord_emoji`: on every text, `exec` gives the first place where a colon, at least two
letters, digits or underscores (as many as there are) and a colon can be read. -/
theorem C82_emoji (U : Utf8Seqs) {cr : List String} (hcr : "ere" ∈ cr) :
    ∃ E, compileRegex U.seqs ":[[:alnum:]_]{2,}:".toList = .ok (some E) ∧ E.compiles cr = true ∧ E.groups = 1 ∧
      ∀ text, E.test text = .ok (readText false false ((emoji.map Prod.fst).map FieldPat.field) text).isSome ∧
        E.exec text = .ok (readText false false ((emoji.map Prod.fst).map FieldPat.field) text) := by
  have hp := parse_fields false false emoji emoji_spelled
  have ht : (if false then ['^'] else []) ++ (emoji.map Prod.snd).flatten ++ (if false then ['$'] else []) =
    ":[[:alnum:]_]{2,}:".toList := by decide
  rw [ht] at hp
  exact C82_fields U emoji_possible emoji_separated ⟨_, by simp [emoji]; exact .inl rfl, by simp [FieldPat.field]⟩
    (by intro x hx; simp [emoji] at hx; rcases hx with rfl | rfl | rfl <;> decide) hp hcr

/-- non-vacuity: texts of the test. -/
example : readText false false ((emoji.map Prod.fst).map FieldPat.field) "a:b::fire::x".toList = some [some (4, 10)] ∧
    readText false false ((emoji.map Prod.fst).map FieldPat.field) "single char :a:".toList = none := by decide +kernel

/-- `n`, `e`, `e+`, `d`, `l`, `e`. -/
def needle : List (FieldPat × List Char) :=
  [(⟨.normal 'n', none, false⟩, ['n']), (⟨.normal 'e', none, false⟩, ['e']), (⟨.normal 'e', some .plus, false⟩, ['e', '+']),
    (⟨.normal 'd', none, false⟩, ['d']), (⟨.normal 'l', none, false⟩, ['l']), (⟨.normal 'e', none, false⟩, ['e'])]

theorem needle_spelled : ∀ w ∈ needle, SpellsPart w.1.part w.2 := by
  have h1 : ∀ c, c ∉ specials → SpellsPart (FieldPat.part ⟨.normal c, none, false⟩) [c] := fun c hc => .single (.atom (.plain hc))
  intro w hw
  simp only [needle, List.mem_cons, List.not_mem_nil, or_false] at hw
  rcases hw with rfl | rfl | rfl | rfl | rfl | rfl
  · exact h1 _ (by decide)
  · exact h1 _ (by decide)
  · exact .quantified (w := ['e']) (v := ['+']) (.atom (.plain (by decide))) (.greedy .plus)
  · exact h1 _ (by decide)
  · exact h1 _ (by decide)
  · exact h1 _ (by decide)

theorem needle_possible : ∀ x ∈ needle.map Prod.fst, x.field.possible := by
  intro x hx
  simp only [needle, List.map_cons, List.map_nil, List.mem_cons, List.not_mem_nil, or_false] at hx
  rcases hx with rfl | rfl | rfl | rfl | rfl | rfl <;>
    exact ⟨by simp [FieldPat.field, QType.max], fun _ => ⟨_, beq_self_eq_true _⟩⟩

theorem needle_separated : separated ((needle.map Prod.fst).map FieldPat.field) := by
  refine ⟨.inl rfl, .inl rfl, .inr fun c hc => ?_, .inl rfl, .inl rfl, .inl rfl, trivial⟩
  have : 'e' = c := by simpa [FieldPat.field, Atom.check] using hc
  subst this
  decide

/-- **C82 (needle).** The pattern `nee+dle` of the tests: on every text, `exec` gives the first place where `ne`, further `e`s (at least
one) and `dle` stand. -/
theorem C82_needle (U : Utf8Seqs) {cr : List String} (hcr : "ere" ∈ cr) :
    ∃ E, compileRegex U.seqs "nee+dle".toList = .ok (some E) ∧ E.compiles cr = true ∧ E.groups = 1 ∧
      ∀ text, E.test text = .ok (readText false false ((needle.map Prod.fst).map FieldPat.field) text).isSome ∧
        E.exec text = .ok (readText false false ((needle.map Prod.fst).map FieldPat.field) text) := by
  have hp := parse_fields false false needle needle_spelled
  have ht : (if false then ['^'] else []) ++ (needle.map Prod.snd).flatten ++ (if false then ['$'] else []) =
    "nee+dle".toList := by decide
  rw [ht] at hp
  exact C82_fields U needle_possible needle_separated ⟨_, by simp [needle]; exact .inl rfl, by simp [FieldPat.field]⟩
    (by intro x hx; simp [needle] at hx; rcases hx with rfl | rfl | rfl | rfl | rfl | rfl <;> decide) hp hcr

example : readText false false ((needle.map Prod.fst).map FieldPat.field) "nedle neeeedle".toList = some [some (6, 14)] := by
  decide +kernel

end Ere.Props
