import Verif.Model.Pick

/-!
# The macros with debug assertions

The functions that contain a `debug_assert!`, and those that call them, as they run when the macro crate is
built with debug assertions: a failing assertion is a panic. The other models leave the assertions out (the
one of working_nfa.rs 884 is in `NFA.groupIsOptionalDebug`, which `compileAttr` uses). There is no
`debug_assert!` among the emitted tokens. Not modelled: the check for arithmetic overflow that the same
profile switches on.
-/

namespace Ere

variable {σ α : Type}

/-- `optimize_pass` with `debug_assert!(state_count >= 2)`, working_nfa.rs 655-658. -/
def NFA.optimizePassDebug [Sym σ α] (N : NFA σ) : Except Err (NFA σ × Bool) :=
  if 2 ≤ N.length then N.optimizePass else .error .panic

/-- `while nfa.optimize_pass() {}`, working_nfa.rs 454-456. -/
def optimizeLoopDebug [Sym σ α] : Nat → NFA σ → Except Err (NFA σ)
  | 0, _ => .error .fuel
  | k + 1, N =>
    match N.optimizePassDebug with
    | .error e => .error e
    | .ok (N', true) => optimizeLoopDebug k N'
    | .ok (N', false) => .ok N'

/-- The end of `new_loop_opt`, working_nfa.rs 441-458. (The copy for bytes has no assertion.) -/
def NFA.finishDebug [Sym σ α] (N : NFA σ) : Except Err (NFA σ) :=
  if N.isEmpty then .error .panic
  else
    match optimizeLoopDebug (N.clearZeroSymbol.size + 1) N.clearZeroSymbol with
    | .error e => .error e
    | .ok N' => .ok N'.removeUnreachable

/-- `WorkingNFA::new_loop_opt`, working_nfa.rs 416-460. -/
def newLoopOptDebug (t : Tree) (startLoop endLoop : Bool) : Except Err (NFA Atom) :=
  ((build t).cleanStartAnchors.cleanEndAnchors.withLoops anyAtom startLoop endLoop).finishDebug

/-- `out.windows(2).all(|w| w[0].0.end() < w[1].0.start())`, working_u8_dfa.rs 771. -/
def splitApart {β : Type} : List (U8Atom × List β) → Bool
  | x :: y :: l => decide (x.1.hi < y.1.lo) && splitApart (y :: l)
  | _ => true

/-- `split_ranges_u8` with its two assertions, working_u8_dfa.rs 737-773. -/
def splitRangesDebug {β : Type} (items : List (U8Atom × β)) : Except Err (List (U8Atom × List β)) :=
  let out := splitRanges items
  if out.all (fun x => decide (0 < x.2.length)) then
    if splitApart out then .ok out else .error .panic
  else .error .panic

/-- `new_start_state`, working_u8_dfa.rs 182-246. -/
def newStartStateDebug (N : NFA U8Atom) : Except Err (TState × List (List Nat)) :=
  if N.isEmpty then .error .panic
  else
    match N.epsProps 0 with
    | .error e => .error e
    | .ok props =>
      match splitRangesDebug (propItems N 0 (props.filter (fun p => !p.endOnly))) with
      | .error e => .error e
      | .ok ranges =>
        let r := ranges.foldl (addRange []) ([], [])
        .ok (⟨[0], r.1, .ofProps 0 props (N.length - 1)⟩, r.2)

/-- `expand`, working_u8_dfa.rs 258-359. -/
def expandStateDebug (N : NFA U8Atom) (nfa : List Nat) (curr : List (List Nat)) :
    Except Err (TState × List (List Nat)) :=
  match nfa.zipIdx.foldlM (expandThread N) (.none, []) with
  | .error e => .error e
  | .ok (accept, items) =>
    match splitRangesDebug items with
    | .error e => .error e
    | .ok ranges =>
      let r := ranges.foldl (addRange curr) ([], [])
      .ok (⟨nfa, r.1, accept⟩, r.2)

/-- The loop of `from_nfa`, working_u8_dfa.rs 396-417. -/
def tdfaLoopDebug (N : NFA U8Atom) (maxStates : Nat) : Nat → List TState → List Nat →
    Except Err (Option (List TState))
  | _, states, [] => .ok (some states)
  | 0, _, _ :: _ => .error .fuel
  | k + 1, states, x :: stack =>
    match states[x]? with
    | none => .error .panic
    | some s =>
      match expandStateDebug N s.nfa (states.map (·.nfa)) with
      | .error e => .error e
      | .ok (s', new) =>
        match addStates maxStates new (states.set x s') stack with
        | none => .ok none
        | some (states', stack') => tdfaLoopDebug N maxStates k states' stack'

/-- `U8TDFA::from_nfa`, working_u8_dfa.rs 379-423. -/
def TDFA.fromNFADebug (N : NFA U8Atom) (maxStates : Nat) : Except Err (Option TDFA) :=
  match newStartStateDebug N with
  | .error e => .error e
  | .ok (start, new) =>
    if maxStates < new.length then .ok none
    else
      match tdfaLoopDebug N maxStates maxStates (new.map .stub) (List.range new.length).reverse with
      | .error e => .error e
      | .ok none => .ok none
      | .ok (some states) => .ok (some ⟨start, states⟩)

/-- `merge.is_sorted()` for pairs, working_u8_dfa.rs 608: each element is at most the next one in the
lexicographic order. -/
def pairsSorted : List (Nat × Nat) → Bool
  | p :: q :: l => decide (p.1 < q.1 ∨ p.1 = q.1 ∧ p.2 ≤ q.2) && pairsSorted (q :: l)
  | _ => true

/-- One turn of the loop over the pairs with `debug_assert!(keep < merge)`, working_u8_dfa.rs 609-618. -/
def mergeOneDebug (D : DFA) (p : Nat × Nat) : Except Err DFA :=
  if p.2 < p.1 then D.mergeStates p.2 p.1 else .error .panic

/-- The minimisation loop with its assertions, working_u8_dfa.rs 589-620. -/
def minimiseLoopDebug : Nat → DFA → Except Err DFA
  | 0, _ => .error .fuel
  | k + 1, D =>
    match D.mergePairs with
    | [] => .ok D
    | ps =>
      if pairsSorted ps then
        match ps.reverse.foldlM mergeOneDebug D with
        | .error e => .error e
        | .ok D' => minimiseLoopDebug k D'
      else .error .panic

/-- `U8DFA::from_tagged` with the assertion that the result is valid, working_u8_dfa.rs 578-627. -/
def DFA.fromTaggedDebug (T : TDFA) : Except Err (Option DFA) :=
  let D : DFA := ⟨T.start.untag, T.states.map TState.untag⟩
  if D.valid then
    match minimiseLoopDebug (D.states.length + 1) D with
    | .error e => .error e
    | .ok D' => if D'.valid then .ok (some D') else .error .panic
  else .ok none

/-- `serialize_u8_dfa_token_stream`, dfa_u8.rs 331-348. -/
def serializeDfaDebug (T : TDFA) : Except Err (Option DfaEngine) :=
  match DFA.fromTaggedDebug T with
  | .error x => .error x
  | .ok none => .ok none
  | .ok (some D) => .ok (some ⟨D, T⟩)

/-- `pick_base_engine_inner`, lib.rs 90-109. -/
def pickInnerDebug (ascii : Bool) (N : NFA Atom) (M : NFA U8Atom) : Except Err BaseEngine :=
  match compileOnePass M with
  | .error x => .error x
  | .ok (some P) => .ok (.onePass P)
  | .ok none =>
    match TDFA.fromNFADebug M (TDFA.defaultBound M.length) with
    | .error x => .error x
    | .ok (some T) =>
      match serializeDfaDebug T with
      | .error x => .error x
      | .ok G => .ok (.dfa G)
    | .ok none =>
      if ascii then
        match compileFlat M with
        | .error x => .error x
        | .ok F => .ok (.flatU8 F)
      else
        match compileFlat N with
        | .error x => .error x
        | .ok F => .ok (.flatChar F)

/-- `pick_base_engine`, lib.rs 58-112. -/
def pickBaseDebug (seqs : Char → Char → List (List U8Atom)) (e : ERE) : Except Err BasePick :=
  let tree := (Tree.fromERE e).1
  match newLoopOptDebug tree true true with
  | .error x => .error x
  | .ok N =>
    match u8New seqs N with
    | .error x => .error x
    | .ok M =>
      match pickInnerDebug N.isAscii N M with
      | .error x => .error x
      | .ok b => .ok ⟨b, tree, N, M⟩

/-- `pick_engine`, lib.rs 117-140. -/
def pickEngineDebug (seqs : Char → Char → List (List U8Atom)) (e : ERE) : Except Err Engine :=
  match pickBaseDebug seqs e with
  | .error x => .error x
  | .ok b =>
    match b.u8nfa.fixedOffsets with
    | .error x => .error x
    | .ok (some offs) => .ok ⟨b.engine, some (offs, b.u8nfa.numCaptureGroups)⟩
    | .ok none => .ok ⟨b.engine, none⟩

/-- `compile_regex!`, lib.rs 143-152. -/
def compileRegexDebug (seqs : Char → Char → List (List U8Atom)) (s : List Char) :
    Except Err (Option Engine) :=
  match parseStr s with
  | .error _ => .ok none
  | .ok e =>
    match pickEngineDebug seqs e with
    | .error x => .error x
    | .ok E => .ok (some E)

/-- The attribute macro, lib.rs 256-379, with the assertion of working_nfa.rs 884 as well. -/
def compileAttrDebug (seqs : Char → Char → List (List U8Atom)) (s : List Char) (fields : Nat) :
    Except Err (Option Attr) :=
  match parseStr s with
  | .error _ => .ok none
  | .ok e =>
    match newLoopOptDebug (Tree.fromERE e).1 true true with
    | .error x => .error x
    | .ok N =>
      match (List.range N.numCaptureGroups).mapM N.groupIsOptionalDebug with
      | .error x => .error x
      | .ok opt =>
        if fields = opt.length then
          match pickEngineDebug seqs e with
          | .error x => .error x
          | .ok E => .ok (some ⟨N.numCaptureGroups, opt, E⟩)
        else .ok none

/-- The attribute macro without any debug assertion. (`compileAttr` has the one of working_nfa.rs 884.)
`capture_group_is_optional` indexes state 0, which panics on an automaton without states. -/
def compileAttrRelease (seqs : Char → Char → List (List U8Atom)) (s : List Char) (fields : Nat) :
    Except Err (Option Attr) :=
  match parseStr s with
  | .error _ => .ok none
  | .ok e =>
    match charNFA e with
    | .error x => .error x
    | .ok N =>
      if N.isEmpty then .error .panic
      else
        let opt := (List.range N.numCaptureGroups).map N.groupIsOptional
        if fields = opt.length then
          match pickEngine seqs e with
          | .error x => .error x
          | .ok E => .ok (some ⟨N.numCaptureGroups, opt, E⟩)
        else .ok none

end Ere
