import Verif.Proofs.Tokens
import Verif.Proofs.Symbols
import Verif.Props.Flat
import Verif.Props.Opt

/-!
# Property theorems about emitted source tokens: C38 (atoms), C40 (`NFAStatic`)

A user's crate is given by the list of the crates it depends on.
-/

namespace Ere.Props
open Ere

/-! ## C38 -/

/-- The terms of a bracket expression. -/
def termsOf : Atom → List Term
  | .matching ts => ts
  | .nonmatching ts => ts
  | _ => []

theorem nameable_iff (a : Atom) : a.nameable = true ↔
    Term.cls .graphic ∉ termsOf a ∧ Term.cls .hexDigit ∉ termsOf a := by
  have key : ∀ ts : List Term, ts.all Term.nameable = true ↔ Term.cls .graphic ∉ ts ∧ Term.cls .hexDigit ∉ ts := by
    intro ts
    rw [List.all_eq_true]
    constructor
    · intro h
      exact ⟨fun hm => by simpa [Term.nameable] using h _ hm, fun hm => by simpa [Term.nameable] using h _ hm⟩
    · rintro ⟨h1, h2⟩ t ht
      cases t with
      | single c => rfl
      | range a b => rfl
      | cls k => cases k <;> first | rfl | exact absurd ht h1 | exact absurd ht h2
  cases a with
  | normal c => simp [Atom.nameable, termsOf]
  | dot => simp [Atom.nameable, termsOf]
  | matching ts => exact key ts
  | nonmatching ts => exact key ts

/-- **C38, one atom, exactly.** In a crate that depends on `ere`, the tokens emitted for an atom compile
unless the atom mentions `[:graph:]` or `[:xdigit:]`; if they compile, the value tests the same
characters as the atom. -/
theorem C38_atom_tokens (cr : List String) (h : "ere" ∈ cr) (a : Atom) :
    ((∃ s, evalAtom cr a.tok = some s) ↔ Term.cls .graphic ∉ termsOf a ∧ Term.cls .hexDigit ∉ termsOf a) ∧
    ∀ s, evalAtom cr a.tok = some s → ∀ c, s.check c = a.check c := by
  have hc : cr.contains "ere" = true := by simpa using h
  rw [evalAtom_tok hc, ← nameable_iff]
  constructor
  · split <;> simp [*]
  · intro s hs c
    split at hs
    · injection hs with hs; subst hs; exact static_check a c
    · simp at hs

/-- non-vacuity: `[^a-z[:digit:]]` compiles to an atom that accepts `X` and rejects `q` and `7`. -/
example : (evalAtom ["ere"] (Atom.nonmatching [.range 'a' 'z', .cls .digit]).tok).map
    (fun s => (s.check 'X', s.check 'q', s.check '7')) = some (true, false, false) := by decide +kernel

/-- The pattern `[[:xdigit:]]`. -/
def patXDigit : ERE := .mk [.mk [.single (.atom (.matching [.cls .hexDigit]))]]

/-- The pattern `[[:graph:]]`. -/
def patGraph : ERE := .mk [.mk [.single (.atom (.matching [.cls .graphic]))]]

/-- **C38 is false**: for `[[:xdigit:]]` and for `[[:graph:]]` the macro for the flat character engine
emits a program that does not compile, whatever the dependencies of the crate are (the names
`BracketCharClass::XDigit` and `BracketCharClass::Graph` do not exist, parse_tree.rs 757-765). -/
theorem C38_negation :
    (∃ F, compileFlatChar patXDigit = .ok F ∧ ∀ cr, "ere" ∈ cr → F.symbolsCompile cr = false) ∧
    (∃ F, compileFlatChar patGraph = .ok F ∧ ∀ cr, "ere" ∈ cr → F.symbolsCompile cr = false) := by
  have key : ∀ F : Flat Atom, (F.nfa.zipIdx.any (fun p => !F.nfa.excludedFlat p.2 &&
      p.1.transitions.any (fun t => !t.symbol.nameable))) = true → ∀ cr, "ere" ∈ cr → F.symbolsCompile cr = false := by
    intro F hF cr h
    have hc : cr.contains "ere" = true := by simpa using h
    obtain ⟨p, hp, hq⟩ := List.any_eq_true.mp hF
    rw [Bool.and_eq_true, List.any_eq_true] at hq
    obtain ⟨h1, t, ht, h2⟩ := hq
    rw [← Bool.not_eq_true]
    intro hcc
    have := List.all_eq_true.mp hcc p hp
    rw [Bool.or_eq_true, List.all_eq_true] at this
    rcases this with h3 | h3
    · simp [h3] at h1
    · have := h3 t ht
      rw [evalAtom_tok hc] at this
      simp only [Bool.not_eq_true'] at h2
      simp [h2] at this
  constructor
  · have : (compileFlatChar patXDigit).map (fun F => (F.nfa.zipIdx.any (fun p => !F.nfa.excludedFlat p.2 &&
      p.1.transitions.any (fun t => !t.symbol.nameable)))) = .ok true := by decide +kernel
    cases hF : compileFlatChar patXDigit with
    | error x => rw [hF] at this; simp [Except.map] at this
    | ok F =>
      rw [hF] at this
      simp only [Except.map, Except.ok.injEq] at this
      exact ⟨F, rfl, key F this⟩
  · have : (compileFlatChar patGraph).map (fun F => (F.nfa.zipIdx.any (fun p => !F.nfa.excludedFlat p.2 &&
      p.1.transitions.any (fun t => !t.symbol.nameable)))) = .ok true := by decide +kernel
    cases hF : compileFlatChar patGraph with
    | error x => rw [hF] at this; simp [Except.map] at this
    | ok F =>
      rw [hF] at this
      simp only [Except.map, Except.ok.injEq] at this
      exact ⟨F, rfl, key F this⟩

/-- The atom does not mention `[:graph:]` or `[:xdigit:]`. -/
def plainAtom (a : Atom) : Bool :=
  !(termsOf a).contains (.cls .graphic) && !(termsOf a).contains (.cls .hexDigit)

theorem plainAtom_eq (a : Atom) : plainAtom a = a.nameable := by
  rw [Bool.eq_iff_iff, nameable_iff]
  simp [plainAtom]

theorem compileFlat_nfa {N : NFA Atom} {F : Flat Atom} (h : compileFlat N = .ok F) : F.nfa = N := by
  unfold compileFlat at h
  split at h
  · simp at h
  · split at h
    · simp at h
    · injection h with h; subst h; rfl

theorem symbolsCompile_of {F : Flat Atom} (h : ∀ s ∈ F.nfa, ∀ t ∈ s.transitions, t.symbol.nameable = true)
    {cr : List String} (hc : cr.contains "ere" = true) : F.symbolsCompile cr = true := by
  unfold Flat.symbolsCompile
  rw [List.all_eq_true]
  rintro ⟨s, i⟩ hs
  rw [Bool.or_eq_true]
  right
  rw [List.all_eq_true]
  intro t ht
  have hmem : s ∈ F.nfa := by
    obtain ⟨_, h2⟩ := List.mem_zipIdx' hs
    rw [h2]; exact List.getElem_mem _
  rw [evalAtom_tok hc, if_pos (h s hmem t ht)]; rfl

/-- **C38 (partial).** If no atom of the pattern mentions `[:graph:]` or `[:xdigit:]`, all symbols of the
flat character engine compile in a crate that depends on `ere`. Missing: the patterns that mention these
classes, for which it is false (`C38_negation`). -/
theorem C38_flat_char_compiles_partial {e : ERE} (he : e.atomsAll plainAtom = true) {F : Flat Atom}
    (h1 : compileFlatChar e = .ok F) (cr : List String) (h : "ere" ∈ cr) : F.symbolsCompile cr = true := by
  have hc : cr.contains "ere" = true := by simpa using h
  obtain ⟨N, h2, hF, hN, _⟩ := flat_char h1
  have hq := symQ_pipeline (P := plainAtom) e he (by decide) h2 hN.ne
  have hF := hF.nfa
  exact symbolsCompile_of (by rw [hF]; intro s hs t ht; rw [← plainAtom_eq]; exact hq s hs t ht) hc

/-- non-vacuity: `a(é|$)`. -/
example : patAE.atomsAll plainAtom = true := by decide +kernel
example : (compileFlatChar patAE).map (fun F => F.symbolsCompile ["ere"]) = .ok true := by decide +kernel

/-! ## C40 -/

/-- **C40.** For the automaton of every pattern: if the tokens of `NFAStatic` compile, the
resulting value has the right number of groups, and its `test` returns on every text what `test` of the
automaton returns; that is, unless the automaton has lost all its states, whether the pattern matches
somewhere in the text. -/
theorem C40_nfa_static {e : ERE} {N : NFA Atom} (hN : charNFA e = .ok N) (cr : List String) (S : NFAStatic)
    (hS : evalNFA cr (nfaTok N) = some S) : S.groups = N.numCaptureGroups ∧
      ∀ text, S.test text = N.test text ∧
        (N ≠ [] → ∃ b, S.test text = .ok b ∧ (b = true ↔ e.MatchesIn text)) := by
  obtain ⟨N', h1, h2⟩ := C15_test_or_empty e
  obtain rfl : N = N' := by rw [charNFA, h1] at hN; injection hN with hN; exact hN.symm
  have hc : cr.contains "ere" = true := by
    by_contra h
    simp only [Bool.not_eq_true] at h
    simp only [nfaTok, evalNFA, resolve, h, Bool.false_and] at hS
    simp at hS
  rw [evalNFA_tok hc] at hS
  split at hS
  · injection hS with hS
    subst hS
    refine ⟨rfl, fun text => ?_⟩
    have : NFAStatic.test ⟨N.numCaptureGroups, N.map stateStatic⟩ text = N.test text := static_test N text
    refine ⟨this, fun hne => ?_⟩
    obtain ⟨b, h3, h4⟩ := (h2.resolve_left (fun h => hne h.1)) text
    exact ⟨b, by rw [this]; exact h3, h4⟩
  · simp at hS

/-- When the tokens of `NFAStatic` compile: the crate must depend on `ere`, no symbol may mention
`[:graph:]` or `[:xdigit:]`, and unless the automaton has no epsilons the crate must also depend on
`ere_core` directly (`ToTokens for EpsilonTransition` writes `ere_core::…`, working_nfa.rs 75). -/
theorem C40_compiles_iff (cr : List String) (h : "ere" ∈ cr) (N : NFA Atom) :
    (∃ S, evalNFA cr (nfaTok N) = some S) ↔
      ∀ s ∈ N, (∀ t ∈ s.transitions, Term.cls .graphic ∉ termsOf t.symbol ∧ Term.cls .hexDigit ∉ termsOf t.symbol) ∧
        (s.epsilons ≠ [] → "ere_core" ∈ cr) := by
  have hc : cr.contains "ere" = true := by simpa using h
  rw [evalNFA_tok hc]
  have : (N.all (stateNameable cr) = true) ↔ ∀ s ∈ N, (∀ t ∈ s.transitions, Term.cls .graphic ∉ termsOf t.symbol ∧
      Term.cls .hexDigit ∉ termsOf t.symbol) ∧ (s.epsilons ≠ [] → "ere_core" ∈ cr) := by
    rw [List.all_eq_true]
    refine forall_congr' fun s => imp_congr_right fun _ => ?_
    unfold stateNameable
    rw [Bool.and_eq_true, List.all_eq_true]
    refine and_congr (forall_congr' fun t => imp_congr_right fun _ => nameable_iff _) ?_
    cases s.epsilons <;> simp
  rw [← this]
  split <;> simp [*]

/-- non-vacuity: with both dependencies `a(é|$)` compiles and answers; with `ere` alone it does not
compile. -/
example : (charNFA patAE).map (fun N => (evalNFA ["ere", "ere_core"] (nfaTok N)).map (fun S =>
    (S.groups, decide (S.test ['x', 'a', 'é'] = .ok true), decide (S.test ['a', 'x'] = .ok false)))) =
    .ok (some (2, true, true)) := by decide +kernel
example : (charNFA patAE).map (fun N => (evalNFA ["ere"] (nfaTok N)).isSome) = .ok false := by decide +kernel

end Ere.Props
