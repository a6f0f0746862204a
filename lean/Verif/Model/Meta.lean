import Verif.Model.Flat

/-!
# Topological ordering, fixed offsets and optional groups

Sources: `/repo/ere-core/src/working_u8_nfa.rs` 833-883, `/repo/ere-core/src/engines/fixed_offset.rs`,
`/repo/ere-core/src/working_nfa.rs` 868-892. The first two exist for the byte automaton only; the model
is generic.
-/

namespace Ere
variable {σ : Type}

/-! ## `topological_ordering` -/

/-- `StackItem`, working_u8_nfa.rs 848-851. -/
inductive TopoItem
  | pre (q : Nat)
  | post (q : Nat)
deriving DecidableEq, Repr

/-- Mutable variables of `topological_ordering`; the top of the stack is the head of the list. `order` is
in the order of the pushes. -/
structure TopoSt where
  done : List Bool
  active : List Bool
  order : List Nat
  stack : List TopoItem

/-- The loop, working_u8_nfa.rs 854-875, on a graph given by its successor lists; `ok none` for
`return None`. An index that does not exist panics. The first argument bounds the number of iterations
(never exhausted: `C35_topological_order`). -/
def topoLoop (succ : Nat → List Nat) : Nat → TopoSt → Except Err (Option (List Nat))
  | 0, _ => .error .fuel
  | k + 1, s =>
    match s.stack with
    | [] => .ok (some s.order)
    | .post q :: st => topoLoop succ k ⟨s.done.set q true, s.active, s.order ++ [q], st⟩
    | .pre q :: st =>
      if s.done.length ≤ q then .error .panic
      else if flag s.done q then topoLoop succ k ⟨s.done, s.active, s.order, st⟩
      else if flag s.active q then .ok none
      else topoLoop succ k ⟨s.done, s.active.set q true, s.order,
        (succ q).reverse.map .pre ++ .post q :: st⟩

/-- Successors in the order of the pushes, working_u8_nfa.rs 864-869: symbol transitions first. -/
def NFA.topoSucc (N : NFA σ) (q : Nat) : List Nat :=
  match N[q]? with
  | some s => s.transitions.map (·.dst) ++ s.epsilons.map (·.dst)
  | none => []

/-- `topological_ordering`, working_u8_nfa.rs 843-883. -/
def NFA.topologicalOrdering (N : NFA σ) : Except Err (Option (List Nat)) :=
  let fuel := ((List.range N.length).map (fun q => 1 + (N.topoSucc q).length)).sum + 2
  match topoLoop N.topoSucc fuel
    ⟨List.replicate N.length false, List.replicate N.length false, [], [.pre 0]⟩ with
  | .error e => .error e
  | .ok none => .ok none
  | .ok (some order) => if order.length ≠ N.length then .ok none else .ok (some order.reverse)

/-! ## `get_fixed_offsets` -/

/-- An entry of the stack of `get_fixed_offsets`, fixed_offset.rs 29-33. -/
structure FixItem where
  state : Nat
  off : Nat
  caps : Slots
deriving DecidableEq, Repr

/-- The `match` on an epsilon, fixed_offset.rs 57-67. -/
def fixEps (x : FixItem) (e : Eps) : Except Err FixItem :=
  match e.special with
  | .startCapture g =>
    match applyTag x.off x.caps (.startCapture g) with
    | .error err => .error err
    | .ok c => .ok ⟨e.dst, x.off, c⟩
  | .endCapture g =>
    match applyTag x.off x.caps (.endCapture g) with
    | .error err => .error err
    | .ok c => .ok ⟨e.dst, x.off, c⟩
  | _ => .ok ⟨e.dst, x.off, x.caps⟩

/-- The items pushed for a state, in the order of the pushes, fixed_offset.rs 52-70. -/
def fixSucc (s : State σ) (x : FixItem) : Except Err (List FixItem) :=
  match s.epsilons.mapM (fixEps x) with
  | .error err => .error err
  | .ok es => .ok (s.transitions.map (fun t => ⟨t.dst, x.off + 1, x.caps⟩) ++ es)

/-- The loop of `get_fixed_offsets`, fixed_offset.rs 35-71, with the top of the stack first; `ok none` for
`return None`. The first argument bounds the number of iterations (never exhausted:
`C31_fixed_offsets_total`). -/
def fixLoop (N : NFA σ) : Nat → List FixItem → Option Slots → Except Err (Option (Option Slots))
  | 0, _, _ => .error .fuel
  | _ + 1, [], final => .ok (some final)
  | k + 1, x :: st, final =>
    match N[x.state]? with
    | none => .error .panic
    | some s =>
      match fixSucc s x with
      | .error err => .error err
      | .ok new =>
        if x.state + 1 = N.length then
          match final with
          | none => fixLoop N k (new.reverse ++ st) (some x.caps)
          | some f => if f ≠ x.caps then .ok none else fixLoop N k (new.reverse ++ st) (some f)
        else fixLoop N k (new.reverse ++ st) final

/-- Largest number of edges leaving a state (only used to bound the number of iterations). -/
def NFA.maxDeg (N : NFA σ) : Nat := (N.map (fun s => s.transitions.length + s.epsilons.length)).foldl max 0

/-- `get_fixed_offsets`, fixed_offset.rs 21-73. -/
def NFA.fixedOffsets (N : NFA σ) : Except Err (Option Slots) :=
  match N.topologicalOrdering with
  | .error err => .error err
  | .ok none => .ok none
  | .ok (some _) =>
    match fixLoop N ((N.maxDeg + 2) ^ N.length + 1)
      [⟨0, 0, List.replicate N.numCaptureGroups (none, none)⟩] none with
    | .error err => .error err
    | .ok none => .ok none
    | .ok (some final) => .ok final

/-- One entry of the array returned by the generated `exec`, fixed_offset.rs 82-87: a slice of the text
at constant positions, which panics if they are not in the text or not at character boundaries. -/
def fixedSlot (text : List Char) : Option Nat × Option Nat → Except Err (Option (Nat × Nat))
  | (some s, some e) =>
    match strGet text s e with
    | some r => .ok (some r)
    | none => .error .panic
  | _ => .ok none

/-- The generated `exec`, fixed_offset.rs 89-101; `test` is the answer of the inner engine. -/
def fixedExec (offsets : Slots) (test : Bool) (text : List Char) :
    Except Err (Option (List (Option (Nat × Nat)))) :=
  if test then
    match offsets.mapM (fixedSlot text) with
    | .error err => .error err
    | .ok r => .ok (some r)
  else .ok none

/-! ## `capture_group_is_optional` -/

/-- `capture_group_is_optional`, working_nfa.rs 869-892, with its `debug_assert_ne!` (886): an error if
an edge that closes the group leaves a visited state. (The code only looks at such an edge if its target
was not visited before, so it fails at most as often.) An automaton without states panics. -/
def NFA.groupIsOptionalDebug (N : NFA σ) (g : Nat) : Except Err Bool :=
  if N.isEmpty then .error .panic
  else
    let v := N.reachFrom (· != .startCapture g) true 0
    if N.zipIdx.any (fun p => flag v p.2 && p.1.epsilons.any (fun e => e.special == .endCapture g)) then
      .error .panic
    else .ok (flag v (N.length - 1))

end Ere
