import Verif.Model.EpsProp

/-!
# The flat lockstep engines

Sources: `/repo/ere-core/src/engines/flat_lockstep_nfa_u8.rs` (bytes) and
`/repo/ere-core/src/engines/flat_lockstep_nfa.rs` (characters). Both files emit the same program
up to the type of input unit, so the model is generic. What is modelled is the emitted program:
`compileFlat` is the part that runs in the macro, `Flat.test` and `Flat.exec` are the emitted
functions `test` and `exec`, with the emitted per-state code replaced by a loop over the same data.
-/

namespace Ere
variable {σ α : Type}

/-- `compute_excluded_states`, flat_lockstep_nfa_u8.rs 76-88, flat_lockstep_nfa.rs 74-86: excluded
unless first, last, or one end of a symbol transition. -/
def NFA.excludedFlat (N : NFA σ) (q : Nat) : Bool :=
  !(q == 0 || q + 1 == N.length || (N[q]?.any (fun s => !s.transitions.isEmpty)) ||
    N.any (fun s => s.transitions.any (fun t => t.dst == q)))

/-- `new_threads.retain(..)`, flat_lockstep_nfa_u8.rs 263-266 and 522-525: only threads at states
with symbol transitions or at the accept state. -/
def NFA.keepsThread (N : NFA σ) (t : EpsProp) : Bool :=
  (N[t.state]?.any (fun s => !s.transitions.isEmpty)) || t.state + 1 == N.length

/-- What the macro computes before emitting code (`CachedNFA` 55-72 and the epsilon propagations of
every state that is not excluded). -/
structure Flat (σ : Type) where
  nfa : NFA σ
  groups : Nat
  threads : List (List EpsProp)

/-- The thread updates emitted for one state; an excluded state gets no code, here an empty list. -/
def NFA.flatRow (N : NFA σ) (q : Nat) : Except Err (List EpsProp) :=
  if N.excludedFlat q then .ok []
  else
    match N.epsProps q with
    | .error e => .error e
    | .ok r => .ok (r.filter N.keepsThread)

/-- `CachedNFA::new` and the loops 256-272, 515-533. `out[0] = false` panics on an automaton without
states. -/
def compileFlat (N : NFA σ) : Except Err (Flat σ) :=
  if N.isEmpty then .error .panic
  else
    match (List.range N.length).mapM N.flatRow with
    | .error e => .error e
    | .ok ts => .ok ⟨N, N.numCaptureGroups, ts⟩

/-- The thread updates of a state. -/
def Flat.at (F : Flat σ) (q : Nat) : List EpsProp := F.threads[q]?.getD []

/-- The emitted updates that are executed at a position, in program order: the four `filter`s and
`if`s of 200-235 and 452-487. -/
def Flat.updates (F : Flat σ) (isStart isEnd : Bool) (q : Nat) : List EpsProp :=
  (if isStart && isEnd then (F.at q).filter (fun t => t.startOnly && t.endOnly) else []) ++
  (if isStart then (F.at q).filter (fun t => t.startOnly && !t.endOnly) else []) ++
  (if isEnd then (F.at q).filter (fun t => !t.startOnly && t.endOnly) else []) ++
  (F.at q).filter (fun t => !t.startOnly && !t.endOnly)

/-! ## `test`, flat_lockstep_nfa_u8.rs 103-343, flat_lockstep_nfa.rs 101-331 -/

/-- `transition_epsilons_test`, 240-287: in place, states in increasing order. -/
def Flat.epsTest (F : Flat σ) (off total : Nat) (list : List Bool) : List Bool :=
  (List.range F.nfa.length).foldl (fun l q =>
    if flag l q then
      (F.updates (off == 0) (off == total) q).foldl (fun l t => l.set t.state true) l
    else l) list

/-- The loop over the text, 324-333. `transition_symbols_test` (143-176) is the same loop as in
`NFA.symbolStep` (excluded states have no symbol transitions). -/
def Flat.testLoop [Sym σ α] (F : Flat σ) (total : Nat) : Nat → List α → List Bool → Bool
  | _, [], list => flag list (F.nfa.length - 1)
  | off, c :: cs, list =>
    let new := F.nfa.symbolStep list c
    if new.all (!·) then false
    else F.testLoop total (off + Sym.len (σ := σ) c) cs
      (F.epsTest (off + Sym.len (σ := σ) c) total new)

/-- The emitted `test`, 307-337. -/
def Flat.test [Sym σ α] (F : Flat σ) (text : List α) : Bool :=
  let total := (text.map (Sym.len (σ := σ))).sum
  F.testLoop total 0 text (F.epsTest 0 total ((List.replicate F.nfa.length false).set 0 true))

/-! ## `exec`, flat_lockstep_nfa_u8.rs 345-627, flat_lockstep_nfa.rs 333-614 -/

/-- Capture slots of a thread; `none` stands for `usize::MAX` (no offset is that large). -/
abbrev Slots := List (Option Nat × Option Nat)

/-- `Thread`, flat_lockstep_nfa_u8.rs 11-16. -/
structure Thread where
  state : Nat
  caps : Slots
deriving DecidableEq, Repr

/-- `new_thread.captures[g].0 = idx` and `.1 = idx`, 643-650: panics if there is no such slot. -/
def applyTag (idx : Nat) (s : Slots) (t : Tag) : Except Err Slots :=
  if t.group < s.length then
    .ok (s.modify t.group (fun p => match t with
      | .startCapture _ => (some idx, p.2)
      | .endCapture _ => (p.1, some idx)))
  else .error .panic

/-- The block emitted by `serialize_thread_update_exec`, 640-664. `occupied_states[s]` is set exactly
when a thread with state `s` has been pushed. -/
def pushThread (idx : Nat) (new : List Thread) (p : Thread × EpsProp) : Except Err (List Thread) :=
  if new.any (fun t => t.state == p.2.state) then .ok new
  else
    match p.2.tags.foldlM (applyTag idx) p.1.caps with
    | .error e => .error e
    | .ok c => .ok (new ++ [⟨p.2.state, c⟩])

/-- `transition_epsilons_exec`, 504-552. -/
def Flat.epsExec (F : Flat σ) (off total : Nat) (threads : List Thread) : Except Err (List Thread) :=
  (threads.flatMap (fun th => (F.updates (off == 0) (off == total) th.state).map (fun u => (th, u)))).foldlM
    (pushThread off) []

/-- `transition_symbols_exec`, 388-428. -/
def Flat.symExec [Sym σ α] (F : Flat σ) (c : α) (threads : List Thread) : List Thread :=
  threads.flatMap (fun th => match F.nfa[th.state]? with
    | some s => (s.transitions.filter (fun t => Sym.check t.symbol c)).map (fun t => ⟨t.dst, th.caps⟩)
    | none => [])

/-- The loop over the text, 592-603; the result is the final thread list, `none` for the early
`return None`. -/
def Flat.execLoop [Sym σ α] (F : Flat σ) (total : Nat) :
    Nat → List α → List Thread → Except Err (Option (List Thread))
  | _, [], threads => .ok (some threads)
  | off, c :: cs, threads =>
    match F.epsExec (off + Sym.len (σ := σ) c) total (F.symExec c threads) with
    | .error e => .error e
    | .ok new => if new.isEmpty then .ok none else F.execLoop total (off + Sym.len (σ := σ) c) cs new

/-- Byte length of a text. -/
def strLen (text : List Char) : Nat := (text.map charLen).sum

/-- `text.is_char_boundary(i)`. -/
def isBoundary (text : List Char) (i : Nat) : Bool :=
  (List.range (text.length + 1)).any (fun k => strLen (text.take k) == i)

/-- `text.get(s..e)` of the standard library: a slice if `s <= e` and both are on character
boundaries. The slice is represented by its range. -/
def strGet (text : List Char) (s e : Nat) : Option (Nat × Nat) :=
  if s ≤ e && isBoundary text s && isBoundary text e then some (s, e) else none

/-- The loop that turns the slots into slices, 610-621, with its assertions. -/
def finishSlot (text : List Char) : Option Nat × Option Nat → Except Err (Option (Nat × Nat))
  | (some s, some e) =>
    match strGet text s e with
    | some r => .ok (some r)
    | none => .error .panic
  | (some _, none) => .error .panic
  | (none, some _) => .error .panic
  | (none, none) => .ok none

/-- The emitted `exec`, 574-624. `units` is the text as seen by the engine (its bytes or its
characters), `text` the same text as characters. -/
def Flat.exec [Sym σ α] (F : Flat σ) (text : List Char) (units : List α) :
    Except Err (Option (List (Option (Nat × Nat)))) :=
  let total := (units.map (Sym.len (σ := σ))).sum
  match F.epsExec 0 total [⟨0, List.replicate F.groups (none, none)⟩] with
  | .error e => .error e
  | .ok threads =>
    match F.execLoop total 0 units threads with
    | .error e => .error e
    | .ok none => .ok none
    | .ok (some threads) =>
      match threads.find? (fun t => t.state + 1 == F.nfa.length) with
      | none => .ok none
      | some t =>
        match t.caps.mapM (finishSlot text) with
        | .error e => .error e
        | .ok r => .ok (some r)

end Ere
