import Verif.Model.OnePass

/-!
# Which functions of the generated program call each other

The functional program of the one-pass engine is the only generated program with functions that call one another; the others
are loops. Here the functions that are active at the deepest point of a run are listed, the outermost first. (Each function
calls at most one other, as the last thing it does, so these are all the functions called; Rust does not promise to reuse the
stack frame.)
-/

namespace Ere

/-- The calls of `test`, one_pass_u8.rs 665-681 and 715-750, in order; as `FnProg.testLoop`. -/
def FnProg.testCalls (P : FnProg) : Nat → Nat → List UInt8 → Bool → List Nat
  | 0, _, _, _ => []
  | k + 1, q, bytes, start =>
    match P.fns[q]?.join with
    | none => []
    | some (.run r) =>
      q :: if runCheck r.symbols bytes then P.testCalls k r.dst (bytes.drop r.symbols.length) false else []
    | some (.normal _ row) =>
      q :: match bytes with
        | [] => []
        | c :: cs =>
          match row.find? (fun t => t.1.check c && fnGuard q start t.2) with
          | none => []
          | some t => P.testCalls k t.2.state cs false

/-- The calls of `exec`, one_pass_u8.rs 825-861 and 948-985, in order; as `FnProg.execLoop`. (The captures do not decide which
function is called; a write outside of the array would be a panic, which ends the calls.) -/
def FnProg.execCalls (P : FnProg) : Nat → Nat → List UInt8 → Nat → Slots → Bool → List Nat
  | 0, _, _, _, _, _ => []
  | k + 1, q, bytes, idx, caps, start =>
    match P.fns[q]?.join with
    | none => []
    | some (.run r) =>
      q :: if runCheck r.symbols bytes then
        match r.tags.foldlM (fun c t => applyTag (t.1 + idx) c t.2) caps with
        | .error _ => []
        | .ok caps => P.execCalls k r.dst (bytes.drop r.symbols.length) (idx + r.symbols.length) caps false
      else []
    | some (.normal _ row) =>
      q :: match bytes with
        | [] => []
        | c :: cs =>
          match row.find? (fun t => t.1.check c && fnGuard q start t.2) with
          | none => []
          | some t =>
            match (tagsOf t.2.caps).foldlM (applyTag idx) caps with
            | .error _ => []
            | .ok caps => P.execCalls k t.2.state cs (idx + 1) caps false

/-- The number of emitted functions, one_pass_u8.rs 1066-1103. -/
def FnProg.functions (P : FnProg) : Nat := P.fns.countP Option.isSome

/-- The functions called by `test` of the one-pass engine; the program with a loop has none. -/
def OnePass.testCalls (P : OnePass) (text : List UInt8) : List Nat :=
  match P with
  | .vm _ => []
  | .fn P => P.testCalls (text.length + 1) 0 text true

/-- The functions called by `exec` of the one-pass engine. -/
def OnePass.execCalls (P : OnePass) (text : List UInt8) : List Nat :=
  match P with
  | .vm _ => []
  | .fn P => P.execCalls (text.length + 1) 0 text 0 (List.replicate P.groups (none, none)) true

/-- The number of functions of the program that may call another one. -/
def OnePass.functions : OnePass → Nat
  | .vm _ => 0
  | .fn P => P.functions

end Ere
