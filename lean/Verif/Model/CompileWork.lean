import Verif.Model.Meta

/-!
# How much work the macros do

`get_fixed_offsets` of Model/Meta once more, returning its result together with the number of iterations of its main loop.
That the results are the same is proved in Proofs/FixedTime (`fixLoopC_fst`).
-/

namespace Ere
variable {σ : Type}

/-- The loop of `get_fixed_offsets`, fixed_offset.rs 35-71, with the number of iterations (entries popped off the stack). -/
def fixLoopC (N : NFA σ) : Nat → List FixItem → Option Slots → Except Err (Option (Option Slots)) × Nat
  | 0, _, _ => (.error .fuel, 0)
  | _ + 1, [], final => (.ok (some final), 0)
  | k + 1, x :: st, final =>
    match N[x.state]? with
    | none => (.error .panic, 1)
    | some s =>
      match fixSucc s x with
      | .error err => (.error err, 1)
      | .ok new =>
        if x.state + 1 = N.length then
          match final with
          | none => let r := fixLoopC N k (new.reverse ++ st) (some x.caps); (r.1, r.2 + 1)
          | some f =>
            if f ≠ x.caps then (.ok none, 1)
            else let r := fixLoopC N k (new.reverse ++ st) (some f); (r.1, r.2 + 1)
        else let r := fixLoopC N k (new.reverse ++ st) final; (r.1, r.2 + 1)

/-- The number of iterations of the main loop of `get_fixed_offsets`, fixed_offset.rs 21-73. -/
def NFA.fixedWork (N : NFA σ) : Nat :=
  match N.topologicalOrdering with
  | .error _ => 0
  | .ok none => 0
  | .ok (some _) =>
    (fixLoopC N ((N.maxDeg + 2) ^ N.length + 1) [⟨0, 0, List.replicate N.numCaptureGroups (none, none)⟩] none).2

end Ere
