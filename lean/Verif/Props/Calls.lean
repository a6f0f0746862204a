import Verif.Props.Parser
import Verif.Props.OnePass
import Verif.Proofs.Calls

/-!
# Property theorems about the calls of the generated functions: C66
-/

namespace Ere.Props
open Ere

/-- **C66.** However long the text is, the functions of a one-pass program never call each other in a circle: no function is
active twice, and the depth of the calls is at most the number of functions in the program. For `test` and `exec`, for every
pattern and every sequence of bytes (valid UTF-8 or not). -/
theorem C66_calls (U : Utf8Seqs) {e : ERE} {P : OnePass} (h : compileOnePassU8 U.seqs e = .ok (some P)) (bytes : List UInt8) :
    (P.testCalls bytes).Nodup ∧ (P.testCalls bytes).length ≤ P.functions ∧
    (P.execCalls bytes).Nodup ∧ (P.execCalls bytes).length ≤ P.functions := by
  cases P with
  | vm P => simp [OnePass.testCalls, OnePass.execCalls]
  | fn P =>
    obtain ⟨M, hb, hR, _⟩ := onePass_compiled U h
    have hc : compileOnePass M = .ok (some (.fn P)) := by
      unfold compileOnePassU8 at h
      rw [hb] at h
      exact h
    obtain ⟨f, hf⟩ := compileOnePass_ranked hR hc
    have nd : ∀ l : List Nat, l.Pairwise (fun x y => f x < f y) → l.Nodup := fun l h =>
      h.imp fun {a b} hab hc => absurd hab (by rw [hc]; exact Nat.lt_irrefl _)
    obtain ⟨a1, a2⟩ := FnProg.testCalls_up hf (bytes.length + 1) 0 bytes true
    obtain ⟨b1, b2⟩ := FnProg.execCalls_up hf (bytes.length + 1) 0 bytes 0 (List.replicate P.groups (none, none)) true
    exact ⟨nd _ a1, FnProg.calls_le (nd _ a1) fun x hx => (a2 x hx).2, nd _ b1,
      FnProg.calls_le (nd _ b1) fun x hx => (b2 x hx).2⟩

/-- **C66 (stack).** In other words: a stack with room for one more call than the program has functions is enough for every
text, if the program compiles. -/
theorem C66_stack (U : Utf8Seqs) {e : ERE} {P : FnProg} (h : compileOnePassU8 U.seqs e = .ok (some (.fn P)))
    (hc : (OnePass.fn P).compiles = true) (text : List Char) :
    (OnePass.fn P).test (encode text) = P.testLoop (P.functions + 1) 0 (encode text) true ∧
    (OnePass.fn P).slots (encode text) =
      P.execLoop (P.functions + 1) 0 (encode text) 0 (List.replicate P.groups (none, none)) true := by
  obtain ⟨_, c1, _, c2⟩ := C66_calls U h (encode text)
  obtain ⟨M, hb, hR, h6, _⟩ := onePass_compiled U h
  have hr := h6.result hc (encode text)
  constructor
  · refine (FnProg.testLoop_fuel _ _ _ _ _ (fun hx => ?_) (Nat.lt_add_one_of_le c1)).symm
    rcases hr with ⟨h1, _⟩ | ⟨_, h1, _⟩ <;> rw [OnePass.test, hx] at h1 <;> simp at h1
  · refine (FnProg.execLoop_fuel _ _ _ _ _ _ _ (fun hx => ?_) (Nat.lt_add_one_of_le c2)).symm
    rcases hr with ⟨_, h1, _⟩ | ⟨_, _, h1, _⟩ <;> rw [OnePass.slots, hx] at h1 <;> simp at h1

/-- non-vacuity: `^(a|b)(cde)?$` gets four functions, and on `acde` each of them is called; `^(a|b)*c$` gets a loop. -/
example : ((parseStr "^(a|b)(cde)?$".toList).toOption.bind (fun e => (compileOnePassU8 utf8Sequences e).toOption.bind id)).map
    (fun P => (OnePass.isVm P, P.compiles, P.functions, P.testCalls (encode "acde".toList), P.execCalls (encode "acde".toList))) =
    some (false, true, 4, [0, 6, 9, 11], [0, 6, 9, 11]) := by decide +kernel
example : ((parseStr "^(a|b)*c$".toList).toOption.bind (fun e => (compileOnePassU8 utf8Sequences e).toOption.bind id)).map
    (fun P => (OnePass.isVm P, P.compiles)) = some (true, true) := by decide +kernel

end Ere.Props
