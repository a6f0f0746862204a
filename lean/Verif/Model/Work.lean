import Verif.Model.Pick

/-!
# How much work the generated programs do

The emitted functions of Model/Flat, Model/TDFA, Model/OnePass and Model/Pick once more, each returning
its result together with the number of steps. Counted are: every round of a loop, every call of a
function, every test of a range of bytes or characters, every thread update that is tried, every tag
that is written, every row of slots that is copied, and every slot that is turned into a slice. (A step
takes time that does not depend on the text; copying the slots of a thread takes time proportional to the
number of groups.) That the results are those of the programs is proved in Proofs/Work (`..C_fst`).
-/

namespace Ere
variable {σ α : Type}

/-! ## Flat engines -/

/-- Steps of `transition_symbols_test`, flat_lockstep_nfa_u8.rs 143-176: every state is looked at, and the
ranges of the marked ones are tested. -/
def Flat.symTestWork (F : Flat σ) (list : List Bool) : Nat :=
  (F.nfa.zipIdx.map (fun p => 1 + if flag list p.2 then p.1.transitions.length else 0)).sum

/-- `transition_epsilons_test`, flat_lockstep_nfa_u8.rs 240-287, with its steps. -/
def Flat.epsTestC (F : Flat σ) (off total : Nat) (list : List Bool) : List Bool × Nat :=
  (List.range F.nfa.length).foldl (fun l q =>
    if flag l.1 q then
      ((F.updates (off == 0) (off == total) q).foldl (fun l t => l.set t.state true) l.1,
        l.2 + 1 + (F.updates (off == 0) (off == total) q).length)
    else (l.1, l.2 + 1)) (list, 0)

/-- The loop of `test`, 324-333, with its steps. -/
def Flat.testLoopC [Sym σ α] (F : Flat σ) (total : Nat) : Nat → List α → List Bool → Bool × Nat
  | _, [], list => (flag list (F.nfa.length - 1), 1)
  | off, c :: cs, list =>
    let new := F.nfa.symbolStep list c
    let w := 1 + F.symTestWork list
    if new.all (!·) then (false, w)
    else
      let l := F.epsTestC (off + Sym.len (σ := σ) c) total new
      let r := F.testLoopC total (off + Sym.len (σ := σ) c) cs l.1
      (r.1, w + l.2 + r.2)

/-- `test`, 307-337, with its steps. -/
def Flat.testC [Sym σ α] (F : Flat σ) (text : List α) : Bool × Nat :=
  let total := (text.map (Sym.len (σ := σ))).sum
  let l := F.epsTestC 0 total ((List.replicate F.nfa.length false).set 0 true)
  let r := F.testLoopC total 0 text l.1
  (r.1, l.2 + r.2)

/-- Steps of `transition_symbols_exec`, 388-428: every thread is looked at and the ranges of its state are
tested. -/
def Flat.symExecWork (F : Flat σ) (threads : List Thread) : Nat :=
  (threads.map (fun th => 1 + (F.nfa[th.state]?.elim 0 (fun s => s.transitions.length)))).sum

/-- Steps of one thread update, 640-664. -/
def EpsProp.work (u : EpsProp) : Nat := 1 + u.tags.length

/-- Steps of `transition_epsilons_exec`, 504-552: every thread is looked at and its updates are tried. -/
def Flat.epsExecWork (F : Flat σ) (off total : Nat) (threads : List Thread) : Nat :=
  (threads.map (fun th => 1 + ((F.updates (off == 0) (off == total) th.state).map EpsProp.work).sum)).sum

/-- The loop of `exec`, 592-603, with its steps. -/
def Flat.execLoopC [Sym σ α] (F : Flat σ) (total : Nat) :
    Nat → List α → List Thread → Except Err (Option (List Thread)) × Nat
  | _, [], threads => (.ok (some threads), 1)
  | off, c :: cs, threads =>
    let syms := F.symExec c threads
    let w := 1 + F.symExecWork threads + F.epsExecWork (off + Sym.len (σ := σ) c) total syms
    match F.epsExec (off + Sym.len (σ := σ) c) total syms with
    | .error e => (.error e, w)
    | .ok new =>
      if new.isEmpty then (.ok none, w)
      else
        let r := F.execLoopC total (off + Sym.len (σ := σ) c) cs new
        (r.1, w + r.2)

/-- `exec`, 574-624, with its steps. -/
def Flat.execC [Sym σ α] (F : Flat σ) (text : List Char) (units : List α) :
    Except Err (Option (List (Option (Nat × Nat)))) × Nat :=
  let total := (units.map (Sym.len (σ := σ))).sum
  let start : List Thread := [⟨0, List.replicate F.groups (none, none)⟩]
  let w := F.epsExecWork 0 total start
  match F.epsExec 0 total start with
  | .error e => (.error e, w)
  | .ok threads =>
    let r := F.execLoopC total 0 units threads
    match r.1 with
    | .error e => (.error e, w + r.2)
    | .ok none => (.ok none, w + r.2)
    | .ok (some threads) =>
      match threads.find? (fun t => t.state + 1 == F.nfa.length) with
      | none => (.ok none, w + r.2 + threads.length)
      | some t =>
        (match t.caps.mapM (finishSlot text) with
          | .error e => .error e
          | .ok r => .ok (some r), w + r.2 + threads.length + t.caps.length)

/-- Size of the emitted program: states, ranges, thread updates, tags, groups. -/
def Flat.size (F : Flat σ) : Nat :=
  (F.nfa.map (fun s => 1 + s.transitions.length)).sum +
    (F.threads.map (fun us => (us.map EpsProp.work).sum)).sum + F.groups

/-! ## DFA engine -/

/-- The loop of `test`, dfa_u8.rs 86-94, with its steps: one round and at most all the arms of the
state. -/
def DFA.testLoopC (D : DFA) : VState → List UInt8 → Bool × Nat
  | v, [] => (match D.get v with
    | some s => s.accept != .none
    | none => false, 1)
  | v, c :: cs => match D.get v with
    | some s =>
      if s.accept = .always then (true, 1)
      else match s.trans.find? (fun t => t.symbol.check c) with
        | some t =>
          let r := D.testLoopC (.normal t.dst) cs
          (r.1, 1 + s.trans.length + r.2)
        | none => (false, 1 + s.trans.length)
    | none => (false, 1)

/-- `test`, dfa_u8.rs 38-97, with its steps. -/
def DFA.testC (D : DFA) (bytes : List UInt8) : Bool × Nat :=
  if D.start.accept = .always then (true, 1) else D.testLoopC .start bytes

/-- The loop of `exec_inner`, dfa_u8.rs 225-236, with its steps: the arms of the state, the rows copied
and the tags written. -/
def TDFA.execLoopC (D : TDFA) : VState → List Slots → Nat → List UInt8 → Except Err (Option Slots) × Nat
  | v, rows, idx, [] => match D.get v with
    | some s => match s.accept.final with
      | none => (.ok none, 1)
      | some a => match getRow rows a.state with
        | .error e => (.error e, 1)
        | .ok row => (match a.add.foldlM (applyTag idx) row with
          | .error e => .error e
          | .ok r => .ok (some r), 1 + a.add.length)
    | none => (.error .panic, 1)
  | v, rows, idx, c :: cs => match D.get v with
    | some s => match s.trans.find? (fun t => t.symbol.check c) with
      | none => (.ok none, 1 + s.trans.length)
      | some t =>
        let w := 1 + s.trans.length + t.copy.length + t.add.length
        match tagStep idx rows t with
        | .error e => (.error e, w)
        | .ok rows' =>
          let r := D.execLoopC (.normal t.dst) rows' (idx + 1) cs
          (r.1, w + r.2)
    | none => (.error .panic, 1)

/-- `exec`, dfa_u8.rs 206-254, with its steps. -/
def TDFA.execC (D : TDFA) (text : List Char) (bytes : List UInt8) :
    Except Err (Option (List (Option (Nat × Nat)))) × Nat :=
  let r := D.execLoopC .start [List.replicate D.numCaptureGroups (none, none)] 0 bytes
  match r.1 with
  | .error e => (.error e, r.2)
  | .ok none => (.ok none, r.2)
  | .ok (some slots) =>
    (match slots.mapM (finishSlot text) with
      | .error e => .error e
      | .ok r => .ok (some r), r.2 + slots.length)

/-- Size of the emitted `test`. -/
def DFA.size (D : DFA) : Nat := ((D.start :: D.states).map (fun s => 1 + s.trans.length)).sum

/-- Size of the accept of a state. -/
def TAccept.size : TAccept → Nat
  | .anchored a => a.add.length
  | .both a b => a.add.length + b.add.length
  | .unanchored a => a.add.length
  | .none => 0

/-- Size of the code of a state. -/
def TState.size (s : TState) : Nat :=
  1 + (s.trans.map (fun t => 1 + t.copy.length + t.add.length)).sum + s.accept.size

/-- Size of the emitted `exec`. -/
def TDFA.size (D : TDFA) : Nat := ((D.start :: D.states).map TState.size).sum + D.numCaptureGroups

/-! ## One-pass engine -/

/-- The loop of `test`, one_pass_u8.rs 391-397, with its steps: at most all the arms are tried. -/
def VmProg.testLoopC (P : VmProg) : Nat → Nat → List UInt8 → Bool × Nat
  | i, state, [] => ((P.final state i).isSome, 1 + P.ends.length)
  | i, state, c :: cs =>
    match P.step state i c with
    | none => (false, 1 + P.arms.length)
    | some a =>
      let r := P.testLoopC (i + 1) a.dst cs
      (r.1, 1 + P.arms.length + r.2)

/-- The loop of `exec`, one_pass_u8.rs 561-571, with its steps. -/
def VmProg.execLoopC (P : VmProg) : Nat → Nat → Slots → List UInt8 → Except Err (Option Slots) × Nat
  | i, state, caps, [] =>
    match P.final state i with
    | none => (.ok none, 1 + P.ends.length)
    | some e =>
      (match e.tags.foldlM (applyTag i) caps with
        | .error x => .error x
        | .ok caps => .ok (some caps), 1 + P.ends.length + e.tags.length)
  | i, state, caps, c :: cs =>
    match P.step state i c with
    | none => (.ok none, 1 + P.arms.length)
    | some a =>
      let w := 1 + P.arms.length + a.tags.length
      match a.tags.foldlM (applyTag i) caps with
      | .error x => (.error x, w)
      | .ok caps =>
        let r := P.execLoopC (i + 1) a.dst caps cs
        (r.1, w + r.2)

/-- The functions of `test`, one_pass_u8.rs 648-750, with their steps: a call, the bytes of a run or the
arms. -/
def FnProg.testLoopC (P : FnProg) : Nat → Nat → List UInt8 → Bool → Except Err Bool × Nat
  | 0, _, _, _ => (.error .fuel, 0)
  | k + 1, q, bytes, start =>
    match P.fns[q]?.join with
    | none => (.error .panic, 1)
    | some (.run r) =>
      if runCheck r.symbols bytes then
        let x := P.testLoopC k r.dst (bytes.drop r.symbols.length) false
        (x.1, 1 + r.symbols.length + x.2)
      else (.ok false, 1 + r.symbols.length)
    | some (.normal acc row) =>
      match bytes with
      | [] => (.ok (fnEndTest q start acc), 1 + acc.length)
      | c :: cs =>
        match row.find? (fun t => t.1.check c && fnGuard q start t.2) with
        | none => (.ok false, 1 + row.length)
        | some t =>
          let x := P.testLoopC k t.2.state cs false
          (x.1, 1 + row.length + x.2)

/-- The functions of `exec`, one_pass_u8.rs 808-985, with their steps. -/
def FnProg.execLoopC (P : FnProg) :
    Nat → Nat → List UInt8 → Nat → Slots → Bool → Except Err (Option Slots) × Nat
  | 0, _, _, _, _, _ => (.error .fuel, 0)
  | k + 1, q, bytes, idx, caps, start =>
    match P.fns[q]?.join with
    | none => (.error .panic, 1)
    | some (.run r) =>
      if runCheck r.symbols bytes then
        let w := 1 + r.symbols.length + r.tags.length
        match r.tags.foldlM (fun c t => applyTag (t.1 + idx) c t.2) caps with
        | .error x => (.error x, w)
        | .ok caps =>
          let x := P.execLoopC k r.dst (bytes.drop r.symbols.length) (idx + r.symbols.length) caps false
          (x.1, w + x.2)
      else (.ok none, 1 + r.symbols.length)
    | some (.normal acc row) =>
      match bytes with
      | [] => (fnEndExec q idx caps start acc, 1 + (acc.map (fun u => 1 + (tagsOf u.caps).length)).sum)
      | c :: cs =>
        match row.find? (fun t => t.1.check c && fnGuard q start t.2) with
        | none => (.ok none, 1 + row.length)
        | some t =>
          let w := 1 + row.length + (tagsOf t.2.caps).length
          match (tagsOf t.2.caps).foldlM (applyTag idx) caps with
          | .error x => (.error x, w)
          | .ok caps =>
            let x := P.execLoopC k t.2.state cs (idx + 1) caps false
            (x.1, w + x.2)

/-- The emitted `test` with its steps. -/
def OnePass.testC (P : OnePass) (text : List UInt8) : Except Err Bool × Nat :=
  match P with
  | .vm P => let r := P.testLoopC 0 0 text; (.ok r.1, r.2)
  | .fn P => P.testLoopC (text.length + 1) 0 text true

/-- The slots at the end of the emitted `exec`, with the steps. -/
def OnePass.slotsC (P : OnePass) (text : List UInt8) : Except Err (Option Slots) × Nat :=
  match P with
  | .vm P => P.execLoopC 0 0 (List.replicate P.groups (none, none)) text
  | .fn P => P.execLoopC (text.length + 1) 0 text 0 (List.replicate P.groups (none, none)) true

/-- The emitted `exec` with its steps. -/
def OnePass.execC (P : OnePass) (text : List Char) (units : List UInt8) :
    Except Err (Option (List (Option (Nat × Nat)))) × Nat :=
  let r := P.slotsC units
  match r.1 with
  | .error x => (.error x, r.2)
  | .ok none => (.ok none, r.2)
  | .ok (some caps) =>
    (match caps.mapM (finishSlot text) with
      | .error x => .error x
      | .ok r => .ok (some r), r.2 + caps.length)

/-- Size of the vm-like program. -/
def VmProg.size (P : VmProg) : Nat :=
  1 + (P.arms.map (fun a => 1 + a.tags.length)).sum + (P.ends.map (fun e => 1 + e.tags.length)).sum + P.groups

/-- Size of a function. -/
def Fn.size : Fn → Nat
  | .run r => 1 + r.symbols.length + r.tags.length
  | .normal acc row => 1 + (acc.map (fun u => 1 + (tagsOf u.caps).length)).sum +
      (row.map (fun t => 1 + (tagsOf t.2.caps).length)).sum

/-- Size of the functional program. -/
def FnProg.size (P : FnProg) : Nat := 1 + (P.fns.map (fun f => f.elim 0 Fn.size)).sum + P.groups

/-- Size of the program. -/
def OnePass.size : OnePass → Nat
  | .vm P => P.size
  | .fn P => P.size

/-! ## `compile_regex!` -/

/-- The `test` function of a base engine, with its steps. -/
def BaseEngine.testC (b : BaseEngine) (text : List Char) : Except Err Bool × Nat :=
  match b with
  | .onePass P => P.testC (encode text)
  | .dfa (some G) => let r := G.dfa.testC (encode text); (.ok r.1, r.2)
  | .dfa none => (.error .panic, 0)
  | .flatU8 F => let r := F.testC (encode text); (.ok r.1, r.2)
  | .flatChar F => let r := F.testC text; (.ok r.1, r.2)

/-- The `exec` function of a base engine, with its steps. -/
def BaseEngine.execC (b : BaseEngine) (text : List Char) :
    Except Err (Option (List (Option (Nat × Nat)))) × Nat :=
  match b with
  | .onePass P => P.execC text (encode text)
  | .dfa (some G) => G.tdfa.execC text (encode text)
  | .dfa none => (.error .panic, 0)
  | .flatU8 F => F.execC text (encode text)
  | .flatChar F => F.execC text text

/-- `Regex::test`, lib.rs 26-29, with its steps. -/
def Engine.testC (E : Engine) (text : List Char) : Except Err Bool × Nat := E.base.testC text

/-- `Regex::exec`, lib.rs 30-34, with fixed_offset.rs 89-101, with its steps. -/
def Engine.execC (E : Engine) (text : List Char) : Except Err (Option (List (Option (Nat × Nat)))) × Nat :=
  match E.fixed with
  | none => E.base.execC text
  | some (offs, _) =>
    let r := E.base.testC text
    match r.1 with
    | .error x => (.error x, r.2)
    | .ok b => (fixedExec offs b text, r.2 + offs.length)

/-- Size of the program of a base engine. -/
def BaseEngine.size : BaseEngine → Nat
  | .onePass P => P.size
  | .dfa (some G) => G.dfa.size + G.tdfa.size
  | .dfa none => 0
  | .flatU8 F => F.size
  | .flatChar F => F.size

/-- Size of the program. -/
def Engine.size (E : Engine) : Nat := E.base.size + match E.fixed with
  | none => 0
  | some (offs, _) => offs.length

end Ere
