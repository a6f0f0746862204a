import Verif.Model.Meta
import Verif.Model.U8NFA
import Mathlib.Data.List.Sort

/-!
# The one-pass engine

Source: `/repo/ere-core/src/engines/one_pass_u8.rs`. The macro either refuses the automaton or emits one
of two kinds of program. A program is modelled by the list of its `match` arms (`VmProg`) or of its
functions (`FnProg`); `compiles` says whether every name used in it is in scope and no `compile_error!`
was emitted; `test` and `exec` say what the program computes.
-/

namespace Ere

/-- `ThreadUpdates`, one_pass_u8.rs 21-27. -/
structure Upd where
  state : Nat
  caps : List (Bool × Bool)
  startOnly : Bool
  endOnly : Bool
deriving DecidableEq, Repr

/-- `ThreadUpdates::new`, one_pass_u8.rs 29-36. -/
def Upd.new (q k : Nat) : Upd := ⟨q, List.replicate k (false, false), false, false⟩

/-- The new thread for one epsilon, one_pass_u8.rs 64-76; `update_captures[c]` panics if there is no such
entry. -/
def Upd.extend (t : Upd) (e : Eps) : Except Err Upd :=
  match e.special with
  | .none => .ok ⟨e.dst, t.caps, t.startOnly, t.endOnly⟩
  | .startAnchor => .ok ⟨e.dst, t.caps, true, t.endOnly⟩
  | .endAnchor => .ok ⟨e.dst, t.caps, t.startOnly, true⟩
  | .startCapture c =>
    if c < t.caps.length then
      .ok ⟨e.dst, t.caps.modify c (fun p => (true, p.2)), t.startOnly, t.endOnly⟩
    else .error .panic
  | .endCapture c =>
    if c < t.caps.length then
      .ok ⟨e.dst, t.caps.modify c (fun p => (p.1, true)), t.startOnly, t.endOnly⟩
    else .error .panic

/-- Entries of `symbol_transitions`. -/
abbrev OpRow := List (U8Atom × Upd)

/-- Variables of the loop one_pass_u8.rs 57-97 for one state; the top of the stack is the head. -/
structure OpSt where
  stack : List Upd
  reached : List Upd
  trans : OpRow
  accept : List Upd

/-- The body of the loop over the epsilons, one_pass_u8.rs 64-81. -/
def opPush (t : Upd) (s : List Upd × List Upd) (e : Eps) : Except Err (List Upd × List Upd) :=
  match t.extend e with
  | .error x => .error x
  | .ok u => if s.2.contains u then .ok s else .ok (u :: s.1, s.2 ++ [u])

/-- The body of the loop over the symbol transitions, one_pass_u8.rs 82-96. -/
def opTrans (t : Upd) (acc : OpRow) (tr : Trans U8Atom) : OpRow :=
  let x : U8Atom × Upd := (tr.symbol, ⟨tr.dst, t.caps, t.startOnly, t.endOnly⟩)
  if acc.contains x then acc else acc ++ [x]

/-- The `while let` loop, one_pass_u8.rs 60-97. The first argument bounds the number of iterations (never
exhausted: `opLoop_spec`). -/
def opLoop (N : NFA U8Atom) : Nat → OpSt → Except Err (OpRow × List Upd)
  | 0, _ => .error .fuel
  | k + 1, s =>
    match s.stack with
    | [] => .ok (s.trans, s.accept)
    | t :: st =>
      match N[t.state]? with
      | none => .error .panic
      | some q =>
        match q.epsilons.foldlM (opPush t) (st, s.reached) with
        | .error x => .error x
        | .ok (stack, reached) =>
          opLoop N k ⟨stack, reached, q.transitions.foldl (opTrans t) s.trans,
            if t.state + 1 = N.length then s.accept ++ [t] else s.accept⟩

/-- The transitions and accepting threads of one state, one_pass_u8.rs 57-97. -/
def NFA.opRow (N : NFA U8Atom) (q : Nat) : Except Err (OpRow × List Upd) :=
  let k := N.numCaptureGroups
  opLoop N (N.length * 4 ^ k * 4 + 1) ⟨[Upd.new q k], [Upd.new q k], [], []⟩

/-- `sort_by_key(|(range, _)| *range.start())`, one_pass_u8.rs 100 (a stable sort). -/
def opSort (r : OpRow) : OpRow := r.insertionSort (fun a b => a.1.lo ≤ b.1.lo)

/-- No two neighbouring ranges overlap, one_pass_u8.rs 101-107. -/
def opDisjoint : OpRow → Bool
  | a :: b :: l => decide (a.1.hi < b.1.lo) && opDisjoint (b :: l)
  | _ => true

/-- `compute_excluded_states`, one_pass_u8.rs 9-19. -/
def NFA.opExcluded (N : NFA U8Atom) (q : Nat) : Bool :=
  !(q == 0 || N.any (fun s => s.transitions.any (fun t => t.dst == q)))

/-- The tags of an update, in the order in which the assignments are emitted: one_pass_u8.rs 212-222,
452-463, 493-504 and 885-910. -/
def tagsOf (caps : List (Bool × Bool)) : List Tag :=
  caps.zipIdx.flatMap (fun p =>
    (if p.1.1 then [Tag.startCapture p.2] else []) ++ (if p.1.2 then [Tag.endCapture p.2] else []))

/-! ## The vm-like program -/

/-- An arm `(State{src}, lo..=hi) if i == 0 => {captures..; state = State{dst}}`; the condition is present
if `guard`. one_pass_u8.rs 296-331, 423-472. -/
structure VmArm where
  src : Nat
  range : U8Atom
  guard : Bool
  tags : List Tag
  dst : Nat
deriving DecidableEq, Repr

/-- An arm `State{src} if i == 0 => ..` of the final match, one_pass_u8.rs 333-357, 474-515. -/
structure VmEnd where
  src : Nat
  guard : Bool
  tags : List Tag
deriving DecidableEq, Repr

/-- The emitted vm-like program. `test` and `exec` have the same arms; `test` ignores the tags. -/
structure VmProg where
  groups : Nat
  states : List Nat
  arms : List VmArm
  ends : List VmEnd
deriving DecidableEq, Repr

/-- Arms of one state, one_pass_u8.rs 302-330 and 429-471: none into an excluded state, none for a
transition that needs the end of the text. -/
def vmArms (N : NFA U8Atom) (q : Nat) (row : OpRow) : List VmArm :=
  (row.filter (fun t => !N.opExcluded t.2.state && !t.2.endOnly)).map
    (fun t => ⟨q, t.1, t.2.startOnly, tagsOf t.2.caps, t.2.state⟩)

/-- Final arms of one state, one_pass_u8.rs 338-356 and 479-514. -/
def vmEnds (q : Nat) (acc : List Upd) : List VmEnd :=
  acc.map (fun t => ⟨q, t.startOnly, tagsOf t.caps⟩)

/-- `codegen_vmlike`, one_pass_u8.rs 592-621, with 367-404 and 525-551. -/
def codegenVm (N : NFA U8Atom) (rows : List (OpRow × List Upd)) : VmProg :=
  { groups := N.numCaptureGroups
    states := (List.range rows.length).filter (fun q => !N.opExcluded q)
    arms := rows.zipIdx.flatMap (fun r => if N.opExcluded r.2 then [] else vmArms N r.2 r.1.1)
    ends := rows.zipIdx.flatMap (fun r => if N.opExcluded r.2 then [] else vmEnds r.2 r.1.2) }

/-- Does the program compile? Every enum variant mentioned is declared; and the final match, which is
outside the loop that binds `i`, does not mention `i` (one_pass_u8.rs 346, 487). A range pattern with
`lo > hi` is refused by the compiler. -/
def VmProg.compiles (P : VmProg) : Bool :=
  P.states.contains 0 &&
  P.arms.all (fun a => P.states.contains a.src && P.states.contains a.dst && decide (a.range.lo ≤ a.range.hi)) &&
  P.ends.all (fun e => P.states.contains e.src && !e.guard)

/-- `match (state, c)` in the loop of `test` and `exec`. -/
def VmProg.step (P : VmProg) (state i : Nat) (c : UInt8) : Option VmArm :=
  P.arms.find? (fun a => a.src == state && a.range.check c && (!a.guard || i == 0))

/-- The match after the loop. (If an arm has the condition `i == 0` the program does not compile; the
model then reads `i` as the number of bytes of the text.) -/
def VmProg.final (P : VmProg) (state i : Nat) : Option VmEnd :=
  P.ends.find? (fun e => e.src == state && (!e.guard || i == 0))

/-- The loop of `test`, one_pass_u8.rs 391-397. -/
def VmProg.testLoop (P : VmProg) : Nat → Nat → List UInt8 → Bool
  | i, state, [] => (P.final state i).isSome
  | i, state, c :: cs =>
    match P.step state i c with
    | none => false
    | some a => P.testLoop (i + 1) a.dst cs

/-- The loop of `exec`, one_pass_u8.rs 561-571. -/
def VmProg.execLoop (P : VmProg) : Nat → Nat → Slots → List UInt8 → Except Err (Option Slots)
  | i, state, caps, [] =>
    match P.final state i with
    | none => .ok none
    | some e =>
      match e.tags.foldlM (applyTag i) caps with
      | .error x => .error x
      | .ok caps => .ok (some caps)
  | i, state, caps, c :: cs =>
    match P.step state i c with
    | none => .ok none
    | some a =>
      match a.tags.foldlM (applyTag i) caps with
      | .error x => .error x
      | .ok caps => P.execLoop (i + 1) a.dst caps cs

/-! ## Runs -/

/-- `incoming_count`, one_pass_u8.rs 193-198. -/
def incomingCount (rows : List OpRow) (p : Nat) : Nat :=
  (rows.flatten.filter (fun t => t.2.state == p)).length

/-- An entry of `run_next`: next state, range and tags. -/
structure RunNext where
  dst : Nat
  range : U8Atom
  tags : List Tag
deriving DecidableEq, Repr

/-- The closure of one_pass_u8.rs 202-224. -/
def runNextOf (rows : List OpRow) (row : OpRow) : Option RunNext :=
  match row with
  | [t] =>
    if t.2.endOnly || t.2.startOnly || incomingCount rows t.2.state != 1 then none
    else some ⟨t.2.state, t.1, tagsOf t.2.caps⟩
  | _ => none

/-- `run_start`, one_pass_u8.rs 228-233. -/
def isRunStart (next : List (Option RunNext)) (q : Nat) : Bool :=
  (next[q]?.join).isSome && !next.any (fun n => n.any (fun x => x.dst == q))

/-- `Run`, one_pass_u8.rs 156-163, without the start state. -/
structure Run where
  symbols : List U8Atom
  tags : List (Nat × Tag)
  dst : Nat
deriving DecidableEq, Repr

/-- The `while let` loop, one_pass_u8.rs 244-257: symbols, tags, visited states and last state. The
first argument bounds the number of iterations (never exhausted: `runLoop_spec`). -/
def runLoop (next : List (Option RunNext)) (start : Nat) :
    Nat → Nat → List U8Atom → List (Nat × Tag) → List Nat →
      Except Err (List U8Atom × List (Nat × Tag) × List Nat × Nat)
  | 0, _, _, _, _ => .error .fuel
  | k + 1, state, symbols, tags, internal =>
    match next[state]?.join with
    | none => .ok (symbols, tags, internal, state)
    | some n =>
      if n.dst = start then .ok (symbols, tags, internal, state)
      else runLoop next start k n.dst (symbols ++ [n.range])
        (tags ++ n.tags.map (fun t => (symbols.length, t))) (internal ++ [n.dst])

/-- `StateRunInclusion`, one_pass_u8.rs 166-179. -/
inductive RunIncl
  | start (r : Run)
  | internal
  | stop
  | none
deriving DecidableEq, Repr

/-- The derived order on `(usize, Tag)`, one_pass_u8.rs 139-143. -/
def tagKey : Nat × Tag → Nat × Nat × Nat
  | (o, .startCapture g) => (o, 0, g)
  | (o, .endCapture g) => (o, 1, g)

def tagLe (a b : Nat × Tag) : Prop :=
  (tagKey a).1 < (tagKey b).1 ∨ ((tagKey a).1 = (tagKey b).1 ∧
    ((tagKey a).2.1 < (tagKey b).2.1 ∨ ((tagKey a).2.1 = (tagKey b).2.1 ∧ (tagKey a).2.2 ≤ (tagKey b).2.2)))

instance : DecidableRel tagLe := fun a b => by unfold tagLe; infer_instance

/-- The body of the loop over the start states, one_pass_u8.rs 236-273. -/
def runMark (next : List (Option RunNext)) (out : List RunIncl) (q : Nat) : Except Err (List RunIncl) :=
  if !isRunStart next q then .ok out
  else
    match runLoop next q (next.length + 1) q [] [] [] with
    | .error x => .error x
    | .ok (symbols, tags, internal, state) =>
      if state = q then .ok out
      else
        let out := out.set q (.start ⟨symbols, tags.insertionSort tagLe, state⟩)
        let out := internal.foldl (fun o x => o.set x .internal) out
        .ok (out.set state .stop)

/-- `compute_runs`, one_pass_u8.rs 190-276. -/
def computeRuns (rows : List OpRow) : Except Err (List RunIncl) :=
  let next := rows.map (runNextOf rows)
  (List.range rows.length).foldlM (runMark next) (List.replicate rows.length .none)

/-! ## The functional program -/

/-- A function of the emitted program: `StateFnWithRun` (one_pass_u8.rs 648-686, 808-861) or
`StateFnNormal` (691-750, 866-985). -/
inductive Fn
  | run (r : Run)
  | normal (accept : List Upd) (row : OpRow)
deriving DecidableEq, Repr

/-- The emitted functional program; entry `q` is the function `func_state_q`, if emitted. -/
structure FnProg where
  groups : Nat
  fns : List (Option Fn)
deriving DecidableEq, Repr

/-- The function for one state, one_pass_u8.rs 1066-1079 and 1087-1103. -/
def fnOf (excluded : Bool) (incl : RunIncl) (row : OpRow × List Upd) : Option Fn :=
  if excluded then none
  else match incl with
    | .start r => some (.run r)
    | .internal => none
    | _ => some (.normal row.2 row.1)

/-- `codegen_functional`, one_pass_u8.rs 1045-1130. -/
def codegenFn (N : NFA U8Atom) (rows : List (OpRow × List Upd)) : Except Err FnProg :=
  match computeRuns (rows.map (·.1)) with
  | .error x => .error x
  | .ok runs => .ok ⟨N.numCaptureGroups,
      (runs.zip rows).zipIdx.map (fun p => fnOf (N.opExcluded p.2) p.1.1 p.1.2)⟩

/-- Is the function `func_state_q` defined? -/
def FnProg.defined (P : FnProg) (q : Nat) : Bool := (P.fns[q]?.join).isSome

/-- Does the body of a function compile: the functions it calls are defined, no range pattern is empty,
and `compile_error!` is not emitted (one_pass_u8.rs 944-946). -/
def FnProg.fnCompiles (P : FnProg) : Fn → Bool
  | .run r => P.defined r.dst && !r.symbols.isEmpty
  | .normal acc row =>
    decide (acc.length ≤ 1) && row.all (fun t => P.defined t.2.state && decide (t.1.lo ≤ t.1.hi))

/-- Does the program compile? -/
def FnProg.compiles (P : FnProg) : Bool :=
  P.defined 0 && P.fns.all (fun f => f.all P.fnCompiles)

/-- The condition of an arm, one_pass_u8.rs 715-726 and 948-959. -/
def fnGuard (q : Nat) (start : Bool) (u : Upd) : Bool :=
  if u.endOnly || (u.startOnly && q != 0) then false
  else if u.startOnly && q == 0 then start
  else true

/-- `end_case` of `test`, one_pass_u8.rs 699-711. -/
def fnEndTest (q : Nat) (start : Bool) (acc : List Upd) : Bool :=
  if acc.isEmpty then false
  else if acc.any (fun u => !u.startOnly) then true
  else if q == 0 then start
  else false

/-- The symbols of a run match the beginning of the text, one_pass_u8.rs 665-681. -/
def runCheck : List U8Atom → List UInt8 → Bool
  | [], _ => true
  | _ :: _, [] => false
  | a :: as, c :: cs => a.check c && runCheck as cs

/-- The emitted functions of `test`. The first argument bounds the depth of the calls: every call
consumes at least one byte. A call of a function that is not defined is a panic here (such a program
does not compile). -/
def FnProg.testLoop (P : FnProg) : Nat → Nat → List UInt8 → Bool → Except Err Bool
  | 0, _, _, _ => .error .fuel
  | k + 1, q, bytes, start =>
    match P.fns[q]?.join with
    | none => .error .panic
    | some (.run r) =>
      if runCheck r.symbols bytes then P.testLoop k r.dst (bytes.drop r.symbols.length) false
      else .ok false
    | some (.normal acc row) =>
      match bytes with
      | [] => .ok (fnEndTest q start acc)
      | c :: cs =>
        match row.find? (fun t => t.1.check c && fnGuard q start t.2) with
        | none => .ok false
        | some t => P.testLoop k t.2.state cs false

/-- `end_case` of `exec`, one_pass_u8.rs 915-946. -/
def fnEndExec (q idx : Nat) (caps : Slots) (start : Bool) (acc : List Upd) : Except Err (Option Slots) :=
  match acc with
  | [] => .ok none
  | [u] =>
    if u.startOnly && q != 0 then .ok none
    else
      match (tagsOf u.caps).foldlM (applyTag idx) caps with
      | .error x => .error x
      | .ok caps => if u.startOnly && !start then .ok none else .ok (some caps)
  | _ => .error .panic

/-- The emitted functions of `exec`. -/
def FnProg.execLoop (P : FnProg) :
    Nat → Nat → List UInt8 → Nat → Slots → Bool → Except Err (Option Slots)
  | 0, _, _, _, _, _ => .error .fuel
  | k + 1, q, bytes, idx, caps, start =>
    match P.fns[q]?.join with
    | none => .error .panic
    | some (.run r) =>
      if runCheck r.symbols bytes then
        match r.tags.foldlM (fun c t => applyTag (t.1 + idx) c t.2) caps with
        | .error x => .error x
        | .ok caps =>
          P.execLoop k r.dst (bytes.drop r.symbols.length) (idx + r.symbols.length) caps false
      else .ok none
    | some (.normal acc row) =>
      match bytes with
      | [] => fnEndExec q idx caps start acc
      | c :: cs =>
        match row.find? (fun t => t.1.check c && fnGuard q start t.2) with
        | none => .ok none
        | some t =>
          match (tagsOf t.2.caps).foldlM (applyTag idx) caps with
          | .error x => .error x
          | .ok caps => P.execLoop k t.2.state cs (idx + 1) caps false

/-! ## The engine -/

/-- The emitted program. -/
inductive OnePass
  | vm (P : VmProg)
  | fn (P : FnProg)
deriving DecidableEq, Repr

/-- `serialize_one_pass_token_stream`, one_pass_u8.rs 50-138; `ok none` if the automaton is not
one-pass. -/
def compileOnePass (N : NFA U8Atom) : Except Err (Option OnePass) :=
  match (List.range N.length).mapM N.opRow with
  | .error x => .error x
  | .ok rows =>
    let rows := rows.map (fun r => (opSort r.1, r.2))
    if rows.any (fun r => !opDisjoint r.1) then .ok none
    else
      match N.topologicalOrdering with
      | .error x => .error x
      | .ok (some _) =>
        match codegenFn N rows with
        | .error x => .error x
        | .ok P => .ok (some (.fn P))
      | .ok none =>
        if N.isEmpty then .error .panic
        else .ok (some (.vm (codegenVm N rows)))

def OnePass.compiles : OnePass → Bool
  | .vm P => P.compiles
  | .fn P => P.compiles

/-- `num_captures`. -/
def OnePass.groups : OnePass → Nat
  | .vm P => P.groups
  | .fn P => P.groups

/-- The emitted `test`: one_pass_u8.rs 381-402 or 1080-1085. -/
def OnePass.test (P : OnePass) (text : List UInt8) : Except Err Bool :=
  match P with
  | .vm P => .ok (P.testLoop 0 0 text)
  | .fn P => P.testLoop (text.length + 1) 0 text true

/-- The slots at the end of the emitted `exec`. -/
def OnePass.slots (P : OnePass) (text : List UInt8) : Except Err (Option Slots) :=
  match P with
  | .vm P => P.execLoop 0 0 (List.replicate P.groups (none, none)) text
  | .fn P => P.execLoop (text.length + 1) 0 text 0 (List.replicate P.groups (none, none)) true

/-- The emitted `exec`: one_pass_u8.rs 549-588 or 1104-1122. -/
def OnePass.exec (P : OnePass) (text : List Char) (units : List UInt8) :
    Except Err (Option (List (Option (Nat × Nat)))) :=
  match P.slots units with
  | .error x => .error x
  | .ok none => .ok none
  | .ok (some caps) =>
    match caps.mapM (finishSlot text) with
    | .error x => .error x
    | .ok r => .ok (some r)

end Ere
