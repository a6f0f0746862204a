import Verif.Model.Flat
import Verif.Model.U8NFA

/-!
# The tagged DFA and the DFA engine

Sources: `/repo/ere-core/src/working_u8_dfa.rs` (construction, minimisation) and
`/repo/ere-core/src/engines/dfa_u8.rs` (the emitted `test` and `exec`). Not modelled: `to_tikz` and the
display types.
-/

namespace Ere

/-! ## Construction of the tagged DFA -/

/-- `U8TDFATransition`, working_u8_dfa.rs 24-41. -/
structure TTrans where
  dst : Nat
  symbol : U8Atom
  copy : List Nat
  add : List (Nat × Tag)
deriving DecidableEq, Repr

/-- `U8TDFAAcceptTransition`, working_u8_dfa.rs 44-48. -/
structure AccTrans where
  state : Nat
  add : List Tag
deriving DecidableEq, Repr

/-- `U8TDFAAccept`, working_u8_dfa.rs 67-79. -/
inductive TAccept
  | anchored (a : AccTrans)
  | both (a u : AccTrans)
  | unanchored (u : AccTrans)
  | none
deriving DecidableEq, Repr

/-- `U8TDFAState`, working_u8_dfa.rs 148-161. -/
structure TState where
  nfa : List Nat
  trans : List TTrans
  accept : TAccept
deriving DecidableEq, Repr

/-- `U8TDFA`, working_u8_dfa.rs 363-372. -/
structure TDFA where
  start : TState
  states : List TState
deriving DecidableEq, Repr

/-- `U8TDFAAcceptTransition::from_epsilon_prop`, working_u8_dfa.rs 50-55. -/
def AccTrans.ofProp (i : Nat) (p : EpsProp) : AccTrans := ⟨i, p.tags⟩

/-- `U8TDFAAccept::from_epsilon_prop`, working_u8_dfa.rs 85-131. `find` after `enumerate` returns the
position with the element. -/
def TAccept.ofProps (i : Nat) (props : List EpsProp) (acc : Nat) : TAccept :=
  let l := (props.filter (fun p => p.state == acc)).zipIdx
  match l.find? (fun p => p.1.endOnly), l.find? (fun p => !p.1.endOnly) with
  | some (a, _), .none => .anchored (.ofProp i a)
  | .none, some (u, _) => .unanchored (.ofProp i u)
  | .none, .none => .none
  | some (a, ka), some (u, ku) =>
    if ka < ku then .both (.ofProp i a) (.ofProp i u) else .unanchored (.ofProp i u)

/-- `update_with_lower_priority`, working_u8_dfa.rs 135-145. -/
def TAccept.update : TAccept → TAccept → TAccept
  | .anchored a, .unanchored b => .both a b
  | .anchored a, .both _ b => .both a b
  | .both a b, _ => .both a b
  | .unanchored a, _ => .unanchored a
  | .anchored a, .anchored _ => .anchored a
  | .none, o => o
  | .anchored a, .none => .anchored a

/-- One NFA transition seen from a DFA state: local index of the thread, propagation before the symbol,
target (`SubNFATransition`, working_u8_dfa.rs 262-269; in `new_start_state` 190-196 the pair of a
propagation and a transition, where the local index is always 0). -/
structure TItem where
  src : Nat
  prop : EpsProp
  dst : Nat
deriving DecidableEq, Repr

/-- Mutable variables of `split_ranges_u8`. -/
structure SplitSt (β : Type) where
  out : List (U8Atom × List β)
  prev : List (β × Nat)
  start : Nat

/-- `value_ranges[i]`, working_u8_dfa.rs 743-751: the items whose range contains the byte, in order.
Items carry their position: `same` (740-742) compares addresses of elements of one vector, that is,
positions. -/
def splitCell {β : Type} (items : List (U8Atom × β)) (i : Nat) : List (β × Nat) :=
  (items.zipIdx.filter (fun p => p.1.1.check (UInt8.ofNat i))).map (fun p => (p.1.2, p.2))

/-- Body of the loop, working_u8_dfa.rs 756-765. -/
def splitStep {β : Type} (items : List (U8Atom × β)) (s : SplitSt β) (i : Nat) : SplitSt β :=
  let cell := splitCell items i
  if cell.map (·.2) = s.prev.map (·.2) then s
  else
    ⟨if s.prev.isEmpty then s.out
      else s.out ++ [(⟨UInt8.ofNat s.start, UInt8.ofNat (i - 1)⟩, s.prev.map (·.1))], cell, i⟩

/-- `split_ranges_u8`, working_u8_dfa.rs 737-773. -/
def splitRanges {β : Type} (items : List (U8Atom × β)) : List (U8Atom × List β) :=
  let s := (List.range 256).foldl (splitStep items) ⟨[], [], 0⟩
  if s.prev.isEmpty then s.out else s.out ++ [(⟨UInt8.ofNat s.start, 255⟩, s.prev.map (·.1))]

/-- `dedup_by_key_all`, working_u8_dfa.rs 781-792: `seen` holds the keys so far. -/
def dedupByKey {β κ : Type} [DecidableEq κ] (key : β → κ) : List κ → List β → List β
  | _, [] => []
  | seen, x :: xs =>
    if key x ∈ seen then dedupByKey key seen xs else x :: dedupByKey key (key x :: seen) xs

/-- The symbol transitions reached by the propagations, with their ranges: 187-196 and 286-300. -/
def propItems (N : NFA U8Atom) (i : Nat) (props : List EpsProp) : List (U8Atom × TItem) :=
  props.flatMap (fun p => match N[p.state]? with
    | some s => s.transitions.map (fun t => (t.symbol, ⟨i, p, t.dst⟩))
    | none => [])

/-- Body of the loops 212-244 and 310-356 for one byte range: `curr` are the `nfa_states` of the states
that exist already (none in `new_start_state`), the accumulator has the transitions and the `nfa_states`
of the new states. (In `new_start_state` `copy_tags` is `vec![0; n]`, which is the list of the local
indices there.) -/
def addRange (curr : List (List Nat)) (acc : List TTrans × List (List Nat))
    (r : U8Atom × List TItem) : List TTrans × List (List Nat) :=
  let items := dedupByKey TItem.dst [] r.2
  let nfa := items.map (·.dst)
  let add := items.zipIdx.flatMap (fun p => p.1.prop.tags.map (fun t => (p.2, t)))
  let tr (dst : Nat) : TTrans := ⟨dst, r.1, items.map (·.src), add⟩
  match (curr ++ acc.2).findIdx? (· == nfa) with
  | some i => (acc.1 ++ [tr i], acc.2)
  | none => (acc.1 ++ [tr (curr.length + acc.2.length)], acc.2 ++ [nfa])

/-- `new_start_state`, working_u8_dfa.rs 182-246: the start state and the `nfa_states` of the new
states (their other fields are empty). -/
def newStartState (N : NFA U8Atom) : Except Err (TState × List (List Nat)) :=
  if N.isEmpty then .error .panic
  else
    match N.epsProps 0 with
    | .error e => .error e
    | .ok props =>
      let items := propItems N 0 (props.filter (fun p => !p.endOnly))
      let r := (splitRanges items).foldl (addRange []) ([], [])
      .ok (⟨[0], r.1, .ofProps 0 props (N.length - 1)⟩, r.2)

/-- The loop over the threads in `expand`, working_u8_dfa.rs 272-301: accept and transitions so far. -/
def expandThread (N : NFA U8Atom) (acc : TAccept × List (U8Atom × TItem)) (p : Nat × Nat) :
    Except Err (TAccept × List (U8Atom × TItem)) :=
  match N.epsProps p.1 with
  | .error e => .error e
  | .ok props =>
    .ok (acc.1.update (.ofProps p.2 props (N.length - 1)),
      acc.2 ++ propItems N p.2 (props.filter (fun p => !(p.startOnly || p.endOnly))))

/-- `expand`, working_u8_dfa.rs 258-359: the expanded state and the `nfa_states` of the new states. -/
def expandState (N : NFA U8Atom) (nfa : List Nat) (curr : List (List Nat)) :
    Except Err (TState × List (List Nat)) :=
  match nfa.zipIdx.foldlM (expandThread N) (.none, []) with
  | .error e => .error e
  | .ok (accept, items) =>
    let r := (splitRanges items).foldl (addRange curr) ([], [])
    .ok (⟨nfa, r.1, accept⟩, r.2)

/-- A state before its expansion. -/
def TState.stub (nfa : List Nat) : TState := ⟨nfa, [], .none⟩

/-- The loop over the new states, working_u8_dfa.rs 406-416; `none` for `return None`. -/
def addStates (maxStates : Nat) : List (List Nat) → List TState → List Nat →
    Option (List TState × List Nat)
  | [], states, stack => some (states, stack)
  | n :: ns, states, stack =>
    if states.any (fun s => s.nfa == n) then addStates maxStates ns states stack
    else if maxStates < states.length + 1 then none
    else addStates maxStates ns (states ++ [.stub n]) (states.length :: stack)

/-- The loop of `from_nfa`, working_u8_dfa.rs 396-417. The stack is kept with its top first. The first
argument bounds the number of iterations (never exhausted: `C32_determinise`). -/
def tdfaLoop (N : NFA U8Atom) (maxStates : Nat) : Nat → List TState → List Nat →
    Except Err (Option (List TState))
  | _, states, [] => .ok (some states)
  | 0, _, _ :: _ => .error .fuel
  | k + 1, states, x :: stack =>
    match states[x]? with
    | none => .error .panic
    | some s =>
      match expandState N s.nfa (states.map (·.nfa)) with
      | .error e => .error e
      | .ok (s', new) =>
        match addStates maxStates new (states.set x s') stack with
        | none => .ok none
        | some (states', stack') => tdfaLoop N maxStates k states' stack'

/-- `U8TDFA::from_nfa`, working_u8_dfa.rs 379-423. -/
def TDFA.fromNFA (N : NFA U8Atom) (maxStates : Nat) : Except Err (Option TDFA) :=
  match newStartState N with
  | .error e => .error e
  | .ok (start, new) =>
    if maxStates < new.length then .ok none
    else
      match tdfaLoop N maxStates maxStates (new.map .stub) (List.range new.length).reverse with
      | .error e => .error e
      | .ok none => .ok none
      | .ok (some states) => .ok (some ⟨start, states⟩)

/-- `max_capture_group` of an accept, working_u8_dfa.rs 57-64 and 434-443. -/
def TAccept.groups : TAccept → List Nat
  | .anchored a => a.add.map Tag.group
  | .both a b => a.add.map Tag.group ++ b.add.map Tag.group
  | .unanchored a => a.add.map Tag.group
  | .none => []

/-- The groups that occur in a state. -/
def TState.groups (s : TState) : List Nat :=
  s.trans.flatMap (fun t => t.add.map (fun p => p.2.group)) ++ s.accept.groups

/-- `U8TDFA::num_capture_groups`, working_u8_dfa.rs 425-446. -/
def TDFA.numCaptureGroups (D : TDFA) : Nat :=
  ((D.states ++ [D.start]).flatMap TState.groups).foldl max 0 + 1

/-- `default_bound`, working_u8_dfa.rs 451-453. -/
def TDFA.defaultBound (n : Nat) : Nat := max 100 (n * 2)

/-! ## The untagged DFA -/

/-- `U8DFATransition`, working_u8_dfa.rs 524-528. -/
structure DTrans where
  dst : Nat
  symbol : U8Atom
deriving DecidableEq, Repr

/-- `U8DFAAccept`, working_u8_dfa.rs 530-535. -/
inductive DAccept
  | anchored
  | always
  | none
deriving DecidableEq, Repr

/-- `U8DFAState`, working_u8_dfa.rs 538-543. -/
structure DState where
  accept : DAccept
  trans : List DTrans
deriving DecidableEq, Repr

/-- `U8DFA`, working_u8_dfa.rs 568-571. -/
structure DFA where
  start : DState
  states : List DState
deriving DecidableEq, Repr

/-- Accept kind without tags, working_u8_dfa.rs 546-550. -/
def TAccept.untag : TAccept → DAccept
  | .anchored _ => .anchored
  | .both _ _ => .always
  | .unanchored _ => .always
  | .none => .none

/-- Insert before the first transition with a larger start. -/
def insertTrans (t : DTrans) : List DTrans → List DTrans
  | [] => [t]
  | u :: us => if u.symbol.lo ≤ t.symbol.lo then u :: insertTrans t us else t :: u :: us

/-- `sort_by_key(|tr| *tr.symbol.start())`, a stable sort; here by insertion. -/
def sortTrans (l : List DTrans) : List DTrans := l.foldl (fun acc t => insertTrans t acc) []

/-- `U8DFAState::from_tagged`, working_u8_dfa.rs 545-564. -/
def TState.untag (s : TState) : DState :=
  ⟨s.accept.untag, sortTrans (s.trans.map (fun t => ⟨t.dst, t.symbol⟩))⟩

/-- The inner loop of `validate`, working_u8_dfa.rs 631-641; `prev` is `prev_end + 1`. -/
def validTrans (n : Nat) : Nat → List DTrans → Bool
  | _, [] => true
  | prev, t :: ts => t.dst < n && prev ≤ t.symbol.lo.toNat && validTrans n (t.symbol.hi.toNat + 1) ts

/-- `validate`, working_u8_dfa.rs 629-645. -/
def DFA.valid (D : DFA) : Bool :=
  (D.start :: D.states).all (fun s => validTrans D.states.length 0 s.trans)

/-- Change of a target by `merge_states`, working_u8_dfa.rs 719-723. -/
def mergeTarget (keep merge t : Nat) : Nat :=
  if t = merge then keep else if merge < t then t - 1 else t

/-- … in a state. -/
def DState.retarget (s : DState) (f : Nat → Nat) : DState :=
  ⟨s.accept, s.trans.map (fun t => ⟨f t.dst, t.symbol⟩)⟩

/-- `merge_states`, working_u8_dfa.rs 711-728; an error makes the caller panic (`unreachable!`). -/
def DFA.mergeStates (D : DFA) (keep merge : Nat) : Except Err DFA :=
  if D.states.length ≤ merge ∨ D.states.length ≤ keep then .error .panic
  else
    .ok ⟨D.start.retarget (mergeTarget keep merge),
      (D.states.eraseIdx merge).map (·.retarget (mergeTarget keep merge))⟩

/-- The list `merge`, working_u8_dfa.rs 590-602: the states equal to an earlier one, with the index of
the first equal one. -/
def DFA.mergePairs (D : DFA) : List (Nat × Nat) :=
  (D.states.zipIdx).filterMap (fun p =>
    match D.states.findIdx? (· == p.1) with
    | some k => if k < p.2 then some (p.2, k) else none
    | none => none)

/-- The minimisation loop, working_u8_dfa.rs 589-620. The first argument bounds the number of
iterations (never exhausted: `C33_minimise`). -/
def minimiseLoop : Nat → DFA → Except Err DFA
  | 0, _ => .error .fuel
  | k + 1, D =>
    match D.mergePairs with
    | [] => .ok D
    | ps =>
      match ps.reverse.foldlM (fun D p => D.mergeStates p.2 p.1) D with
      | .error e => .error e
      | .ok D' => minimiseLoop k D'

/-- `U8DFA::from_tagged`, working_u8_dfa.rs 578-627; `none` for `Err(())`. -/
def DFA.fromTagged (T : TDFA) : Except Err (Option DFA) :=
  let D : DFA := ⟨T.start.untag, T.states.map TState.untag⟩
  if D.valid then
    match minimiseLoop (D.states.length + 1) D with
    | .error e => .error e
    | .ok D' => .ok (some D')
  else .ok none

/-! ## The emitted program -/

/-- The enum `VMStates` of the emitted functions. -/
inductive VState
  | start
  | normal (i : Nat)
deriving DecidableEq, Repr

/-- The state behind a label. (The generated code has an arm for each state.) -/
def DFA.get (D : DFA) : VState → Option DState
  | .start => some D.start
  | .normal i => D.states[i]?

/-- The loop of the emitted `test`, dfa_u8.rs 86-94, with the match arms of 112-137. -/
def DFA.testLoop (D : DFA) : VState → List UInt8 → Bool
  | v, [] => match D.get v with
    | some s => s.accept != .none
    | none => false
  | v, c :: cs => match D.get v with
    | some s =>
      if s.accept = .always then true
      else match s.trans.find? (fun t => t.symbol.check c) with
        | some t => D.testLoop (.normal t.dst) cs
        | none => false
    | none => false

/-- The emitted `test`, dfa_u8.rs 38-97. -/
def DFA.test (D : DFA) (bytes : List UInt8) : Bool :=
  if D.start.accept = .always then true else D.testLoop .start bytes

/-- The state behind a label. -/
def TDFA.get (D : TDFA) : VState → Option TState
  | .start => some D.start
  | .normal i => D.states[i]?

/-- `new_tags[local][group].0 = i`, dfa_u8.rs 294-301. An index out of range would not compile; here
it is an error. -/
def applyRowTag (idx : Nat) (rows : List Slots) (p : Nat × Tag) : Except Err (List Slots) :=
  match rows[p.1]? with
  | none => .error .panic
  | some row =>
    match applyTag idx row p.2 with
    | .error e => .error e
    | .ok row' => .ok (rows.set p.1 row')

/-- `old_tags[k]`. -/
def getRow (rows : List Slots) (k : Nat) : Except Err Slots :=
  match rows[k]? with
  | some r => .ok r
  | none => .error .panic

/-- One transition arm, dfa_u8.rs 302-308. -/
def tagStep (idx : Nat) (rows : List Slots) (t : TTrans) : Except Err (List Slots) :=
  match t.copy.mapM (getRow rows) with
  | .error e => .error e
  | .ok new => t.add.foldlM (applyRowTag idx) new

/-- The accept used at the end, dfa_u8.rs 181-190. -/
def TAccept.final : TAccept → Option AccTrans
  | .none => Option.none
  | .anchored a => some a
  | .both a _ => some a
  | .unanchored a => some a

/-- The loop of the emitted `exec_inner`, dfa_u8.rs 225-236: `idx` is the byte position. -/
def TDFA.execLoop (D : TDFA) : VState → List Slots → Nat → List UInt8 → Except Err (Option Slots)
  | v, rows, idx, [] => match D.get v with
    | some s => match s.accept.final with
      | none => .ok none
      | some a => match getRow rows a.state with
        | .error e => .error e
        | .ok row => match a.add.foldlM (applyTag idx) row with
          | .error e => .error e
          | .ok r => .ok (some r)
    | none => .error .panic
  | v, rows, idx, c :: cs => match D.get v with
    | some s => match s.trans.find? (fun t => t.symbol.check c) with
      | none => .ok none
      | some t => match tagStep idx rows t with
        | .error e => .error e
        | .ok rows' => D.execLoop (.normal t.dst) rows' (idx + 1) cs
    | none => .error .panic

/-- The emitted `exec`, dfa_u8.rs 206-254. -/
def TDFA.exec (D : TDFA) (text : List Char) (bytes : List UInt8) :
    Except Err (Option (List (Option (Nat × Nat)))) :=
  match D.execLoop .start [List.replicate D.numCaptureGroups (none, none)] 0 bytes with
  | .error e => .error e
  | .ok none => .ok none
  | .ok (some slots) =>
    match slots.mapM (finishSlot text) with
    | .error e => .error e
    | .ok r => .ok (some r)

end Ere
