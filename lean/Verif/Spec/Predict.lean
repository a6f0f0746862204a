import Verif.Spec.Captures

/-!
# Specification: reading with one character of look-ahead

A predictive reader, as one would write it by hand for a grammar in which the next character decides: it goes through the
text once, looks at the next character where there is a choice, and never takes a choice back. There is no reference to trees,
automata or an order of preference.
-/

namespace Ere

mutual
/-- May the pattern begin where one sees `l` (the next character, or `none` at the end of the text), if `F` says what may be seen
behind it? -/
def ERE.look : ERE → (Option Char → Bool) → Option Char → Bool
  | .mk bs, F, l => branchesLook bs F l
/-- … one of the branches. -/
def branchesLook : List EREBranch → (Option Char → Bool) → Option Char → Bool
  | [], _, _ => false
  | b :: bs, F, l => b.look F l || branchesLook bs F l
/-- … a branch. -/
def EREBranch.look : EREBranch → (Option Char → Bool) → Option Char → Bool
  | .mk ps, F, l => partsLook ps F l
/-- … parts one after the other. -/
def partsLook : List EREPart → (Option Char → Bool) → Option Char → Bool
  | [], F, l => F l
  | p :: ps, F, l => p.look (partsLook ps F) l
/-- … a part. -/
def EREPart.look : EREPart → (Option Char → Bool) → Option Char → Bool
  | .single e, F, l => e.look F l
  | .quantified e q, F, l => (q.q.min == 0 && F l) || (q.q.max != some 0 && e.look (fun _ => true) l)
  | .start, F, l => F l
  | .end_, F, l => l == none && F l
/-- … an expression. -/
def EREExpr.look : EREExpr → (Option Char → Bool) → Option Char → Bool
  | .atom a, _, l => l.any a.check
  | .sub e, F, l => e.look F l
end

/-- What reading yields: the stretches of the groups, the byte offset behind, and the rest of the text. -/
abbrev Reading := List Span × Nat × List Char

/-- Reads once more after a reading. -/
def andThen (step : Nat → List Char → Option Reading) : Reading → Option Reading
  | (S, off, rest) => (step off rest).map fun r => (S ++ r.1, r.2)

/-- Reads a given number of times. -/
def readTimes (step : Nat → List Char → Option Reading) : Nat → Nat → List Char → Option Reading
  | 0, off, rest => some ([], off, rest)
  | n + 1, off, rest => (step off rest).bind (andThen (readTimes step n))

/-- Reads as long as the next character says so, but not more often than `k` times. -/
def readWhile (step : Nat → List Char → Option Reading) (more : Option Char → Bool) : Nat → Nat → List Char → Option Reading
  | 0, off, rest => some ([], off, rest)
  | k + 1, off, rest =>
    if more rest.head? then (step off rest).bind (andThen (readWhile step more k)) else some ([], off, rest)

/-- How many rounds there may be beyond the least number; a text of `n` characters has not more than `n` rounds. -/
def QType.extra (q : QType) (n : Nat) : Nat :=
  match q.max with
  | some m => m - q.min
  | none => n

mutual
/-- Reads the pattern, whose first group has number `g`, at byte `off` of the text. -/
def ERE.read : ERE → Nat → (Option Char → Bool) → Nat → List Char → Option Reading
  | .mk bs, g, F, off, rest => readBranches bs g F off rest
/-- Takes the first branch that may begin here. -/
def readBranches : List EREBranch → Nat → (Option Char → Bool) → Nat → List Char → Option Reading
  | [], _, _, _, _ => none
  | b :: bs, g, F, off, rest => if b.look F rest.head? then b.read g F off rest else readBranches bs (g + b.groups) F off rest
/-- Reads a branch. -/
def EREBranch.read : EREBranch → Nat → (Option Char → Bool) → Nat → List Char → Option Reading
  | .mk ps, g, F, off, rest => readParts ps g F off rest
/-- Reads one part after the other. -/
def readParts : List EREPart → Nat → (Option Char → Bool) → Nat → List Char → Option Reading
  | [], _, _, off, rest => some ([], off, rest)
  | p :: ps, g, F, off, rest => (p.read g (partsLook ps F) off rest).bind (andThen (readParts ps (g + p.groups) F))
/-- Reads a part: a repetition goes on for as long as the next character may begin a further round. -/
def EREPart.read : EREPart → Nat → (Option Char → Bool) → Nat → List Char → Option Reading
  | .single e, g, F, off, rest => e.read g F off rest
  | .quantified e q, g, F, off, rest =>
    if q.q.max.any (· < q.q.min) then none
    else
      (readTimes (e.read g fun l => F l || e.look (fun _ => true) l) q.q.min off rest).bind fun r =>
        andThen (readWhile (e.read g fun l => F l || e.look (fun _ => true) l) (e.look fun _ => true) (q.q.extra r.2.2.length)) r
  | .start, _, _, off, rest => if off = 0 then some ([], off, rest) else none
  | .end_, _, _, off, rest => if rest = [] then some ([], off, rest) else none
/-- Reads an expression. -/
def EREExpr.read : EREExpr → Nat → (Option Char → Bool) → Nat → List Char → Option Reading
  | .atom _, _, _, _, [] => none
  | .atom a, _, _, off, c :: r => if a.check c then some ([], off + charLen c, r) else none
  | .sub e, g, F, off, rest => (e.read (g + 1) F off rest).map fun r => (r.1 ++ [⟨g, off, r.2.1⟩], r.2)
end

/-- Reads the pattern at byte `off`; group 0 is all that has been read. -/
def ERE.readAt (e : ERE) (off : Nat) (rest : List Char) : Option (List Span) :=
  (e.read 1 (fun _ => true) off rest).map fun r => r.1 ++ [⟨0, off, r.2.1⟩]

/-- Reads the pattern at the first place where it can be read. -/
def ERE.readFrom (e : ERE) (off : Nat) : List Char → Option (List Span)
  | [] => e.readAt off []
  | c :: r =>
    match e.readAt off (c :: r) with
    | some S => some S
    | none => e.readFrom (off + charLen c) r

end Ere
