import Verif.Spec.Priority

/-!
# Specification: upper and lower case

`/repo/ROADMAP.md` 7 says that a pattern can be modified so that it does not distinguish upper and lower case "(and this can
also be done on ascii by just lower-casing the text first)". This file says what the two ways are.
-/

namespace Ere

/-- ASCII lower case, as `str::to_ascii_lowercase` does it for every character. -/
def asciiLower (c : Char) : Char := if 'A' ≤ c ∧ c ≤ 'Z' then Char.ofNat (c.toNat + 32) else c

/-- ASCII upper case, as `str::to_ascii_uppercase` does it for every character. -/
def asciiUpper (c : Char) : Char := if 'a' ≤ c ∧ c ≤ 'z' then Char.ofNat (c.toNat - 32) else c

/-- The atom `a'` accepts a character exactly if `a` accepts it in upper or lower case or as it is. -/
def BlindAtom (a a' : Atom) : Prop :=
  ∀ c, a'.check c = true ↔ (a.check c = true ∨ a.check (asciiLower c) = true ∨ a.check (asciiUpper c) = true)

/-- An atom that accepts, with every character, also its lower-case version. -/
def LowAtom (a : Atom) : Prop := ∀ c, a.check c = true → a.check (asciiLower c) = true

mutual
/-- Patterns of the same shape whose atoms are related by `R`. -/
inductive AltERE (R : Atom → Atom → Prop) : ERE → ERE → Prop
  | mk {bs bs'} : AltBranches R bs bs' → AltERE R (.mk bs) (.mk bs')
/-- Branches of the same shape. -/
inductive AltBranches (R : Atom → Atom → Prop) : List EREBranch → List EREBranch → Prop
  | nil : AltBranches R [] []
  | cons {b b' bs bs'} : AltBranch R b b' → AltBranches R bs bs' → AltBranches R (b :: bs) (b' :: bs')
/-- A branch of the same shape. -/
inductive AltBranch (R : Atom → Atom → Prop) : EREBranch → EREBranch → Prop
  | mk {ps ps'} : AltParts R ps ps' → AltBranch R (.mk ps) (.mk ps')
/-- Parts of the same shape. -/
inductive AltParts (R : Atom → Atom → Prop) : List EREPart → List EREPart → Prop
  | nil : AltParts R [] []
  | cons {p p' ps ps'} : AltPart R p p' → AltParts R ps ps' → AltParts R (p :: ps) (p' :: ps')
/-- A part of the same shape, with the same quantifier. -/
inductive AltPart (R : Atom → Atom → Prop) : EREPart → EREPart → Prop
  | single {e e'} : AltExpr R e e' → AltPart R (.single e) (.single e')
  | quantified {e e' q} : AltExpr R e e' → AltPart R (.quantified e q) (.quantified e' q)
  | start : AltPart R .start .start
  | end_ : AltPart R .end_ .end_
/-- An expression of the same shape. -/
inductive AltExpr (R : Atom → Atom → Prop) : EREExpr → EREExpr → Prop
  | atom {a a'} : R a a' → AltExpr R (.atom a) (.atom a')
  | sub {e e'} : AltERE R e e' → AltExpr R (.sub e) (.sub e')
end

/-- The pattern modified so that it does not distinguish upper and lower case, for patterns that do not ask for an
upper-case letter. -/
def ERE.CaseBlind (e e' : ERE) : Prop := AltERE (fun a a' => LowAtom a ∧ BlindAtom a a') e e'

end Ere
