import Verif.Model.Engines
import Verif.Model.U8NFA

/-!
# C91: there is a program

The DFA of `(^a$)|(^a)|(a$)|(a)`, computed step by step by the kernel.
-/

namespace Ere.Props

/-- `a` with or without anchors, in parentheses. -/
def anchoredA (s t : Bool) : EREBranch :=
  .mk [.single (.sub (.mk [.mk ((if s then [.start] else []) ++ .single (.atom (.normal 'a')) :: if t then [.end_] else [])]))]

/-- The pattern. -/
def anchoredERE : ERE := .mk [anchoredA true true, anchoredA true false, anchoredA false true, anchoredA false false]

/-- Its automaton over characters. -/
def anchoredChars : NFA Atom := [
  { transitions := [], epsilons := [{ dst := 2, special := .none }] },
  { transitions := [{ dst := 2, symbol := .nonmatching [] }], epsilons := [] },
  { transitions := [], epsilons := [{ dst := 3, special := .startCapture 0 }, { dst := 1, special := .none }] },
  { transitions := [], epsilons := [{ dst := 4, special := .startCapture 1 }, { dst := 8, special := .startCapture 2 },
      { dst := 11, special := .startCapture 3 }, { dst := 14, special := .startCapture 4 }] },
  { transitions := [], epsilons := [{ dst := 5, special := .startAnchor }] },
  { transitions := [{ dst := 6, symbol := .normal 'a' }], epsilons := [] },
  { transitions := [], epsilons := [{ dst := 7, special := .endAnchor }] },
  { transitions := [], epsilons := [{ dst := 16, special := .endCapture 1 }] },
  { transitions := [], epsilons := [{ dst := 9, special := .startAnchor }] },
  { transitions := [{ dst := 10, symbol := .normal 'a' }], epsilons := [] },
  { transitions := [], epsilons := [{ dst := 16, special := .endCapture 2 }] },
  { transitions := [{ dst := 12, symbol := .normal 'a' }], epsilons := [] },
  { transitions := [], epsilons := [{ dst := 13, special := .endAnchor }] },
  { transitions := [], epsilons := [{ dst := 16, special := .endCapture 3 }] },
  { transitions := [{ dst := 15, symbol := .normal 'a' }], epsilons := [] },
  { transitions := [], epsilons := [{ dst := 16, special := .endCapture 4 }] },
  { transitions := [], epsilons := [{ dst := 18, special := .endCapture 0 }] },
  { transitions := [{ dst := 18, symbol := .nonmatching [] }], epsilons := [] },
  { transitions := [], epsilons := [{ dst := 19, special := .none }, { dst := 17, special := .none }] },
  { transitions := [], epsilons := [] }]

/-- Its automaton over bytes. -/
def anchoredBytes : NFA U8Atom := [
  { transitions := [], epsilons := [{ dst := 2, special := .none }] },
  { transitions := [{ dst := 2, symbol := { lo := 0, hi := 127 } }, { dst := 25, symbol := { lo := 194, hi := 223 } },
      { dst := 19, symbol := { lo := 224, hi := 224 } }, { dst := 20, symbol := { lo := 225, hi := 236 } },
      { dst := 21, symbol := { lo := 237, hi := 237 } }, { dst := 20, symbol := { lo := 238, hi := 239 } },
      { dst := 22, symbol := { lo := 240, hi := 240 } }, { dst := 23, symbol := { lo := 241, hi := 243 } },
      { dst := 24, symbol := { lo := 244, hi := 244 } }], epsilons := [] },
  { transitions := [], epsilons := [{ dst := 3, special := .startCapture 0 }, { dst := 1, special := .none }] },
  { transitions := [], epsilons := [{ dst := 4, special := .startCapture 1 }, { dst := 8, special := .startCapture 2 },
      { dst := 11, special := .startCapture 3 }, { dst := 14, special := .startCapture 4 }] },
  { transitions := [], epsilons := [{ dst := 5, special := .startAnchor }] },
  { transitions := [{ dst := 6, symbol := { lo := 97, hi := 97 } }], epsilons := [] },
  { transitions := [], epsilons := [{ dst := 7, special := .endAnchor }] },
  { transitions := [], epsilons := [{ dst := 16, special := .endCapture 1 }] },
  { transitions := [], epsilons := [{ dst := 9, special := .startAnchor }] },
  { transitions := [{ dst := 10, symbol := { lo := 97, hi := 97 } }], epsilons := [] },
  { transitions := [], epsilons := [{ dst := 16, special := .endCapture 2 }] },
  { transitions := [{ dst := 12, symbol := { lo := 97, hi := 97 } }], epsilons := [] },
  { transitions := [], epsilons := [{ dst := 13, special := .endAnchor }] },
  { transitions := [], epsilons := [{ dst := 16, special := .endCapture 3 }] },
  { transitions := [{ dst := 15, symbol := { lo := 97, hi := 97 } }], epsilons := [] },
  { transitions := [], epsilons := [{ dst := 16, special := .endCapture 4 }] },
  { transitions := [], epsilons := [{ dst := 18, special := .endCapture 0 }] },
  { transitions := [{ dst := 18, symbol := { lo := 0, hi := 127 } }, { dst := 32, symbol := { lo := 194, hi := 223 } },
      { dst := 26, symbol := { lo := 224, hi := 224 } }, { dst := 27, symbol := { lo := 225, hi := 236 } },
      { dst := 28, symbol := { lo := 237, hi := 237 } }, { dst := 27, symbol := { lo := 238, hi := 239 } },
      { dst := 29, symbol := { lo := 240, hi := 240 } }, { dst := 30, symbol := { lo := 241, hi := 243 } },
      { dst := 31, symbol := { lo := 244, hi := 244 } }], epsilons := [] },
  { transitions := [], epsilons := [{ dst := 33, special := .none }, { dst := 17, special := .none }] },
  { transitions := [{ dst := 25, symbol := { lo := 160, hi := 191 } }], epsilons := [] },
  { transitions := [{ dst := 25, symbol := { lo := 128, hi := 191 } }], epsilons := [] },
  { transitions := [{ dst := 25, symbol := { lo := 128, hi := 159 } }], epsilons := [] },
  { transitions := [{ dst := 20, symbol := { lo := 144, hi := 191 } }], epsilons := [] },
  { transitions := [{ dst := 20, symbol := { lo := 128, hi := 191 } }], epsilons := [] },
  { transitions := [{ dst := 20, symbol := { lo := 128, hi := 143 } }], epsilons := [] },
  { transitions := [{ dst := 2, symbol := { lo := 128, hi := 191 } }], epsilons := [] },
  { transitions := [{ dst := 32, symbol := { lo := 160, hi := 191 } }], epsilons := [] },
  { transitions := [{ dst := 32, symbol := { lo := 128, hi := 191 } }], epsilons := [] },
  { transitions := [{ dst := 32, symbol := { lo := 128, hi := 159 } }], epsilons := [] },
  { transitions := [{ dst := 27, symbol := { lo := 144, hi := 191 } }], epsilons := [] },
  { transitions := [{ dst := 27, symbol := { lo := 128, hi := 191 } }], epsilons := [] },
  { transitions := [{ dst := 27, symbol := { lo := 128, hi := 143 } }], epsilons := [] },
  { transitions := [{ dst := 18, symbol := { lo := 128, hi := 191 } }], epsilons := [] },
  { transitions := [], epsilons := [] }]

theorem anchored_chars : charNFA anchoredERE = .ok anchoredChars := by decide +kernel

theorem anchored_bytes : u8New utf8Sequences anchoredChars = .ok anchoredBytes := by decide +kernel

theorem anchored_dfa : (dfaOf anchoredBytes).map Option.isSome = .ok true := by decide +kernel

theorem byteNFA_steps {seqs : Char → Char → List (List U8Atom)} {e : ERE} {N : NFA Atom} {M : NFA U8Atom} (h : charNFA e = .ok N)
    (h' : u8New seqs N = .ok M) : byteNFA seqs e = .ok M := by
  unfold byteNFA
  rw [h]
  exact h'

theorem dfa_steps {seqs : Char → Char → List (List U8Atom)} {e : ERE} {M : NFA U8Atom} (h : byteNFA seqs e = .ok M)
    (h' : (dfaOf M).map Option.isSome = .ok true) : ∃ G, compileDfaU8 seqs e = .ok (some G) := by
  unfold compileDfaU8
  rw [h]
  simp only
  generalize dfaOf M = x at h'
  match x, h' with
  | .ok (some G), _ => exact ⟨G, rfl⟩

/-- There is a program. -/
theorem anchored_program : ∃ G, compileDfaU8 utf8Sequences anchoredERE = .ok (some G) :=
  dfa_steps (byteNFA_steps anchored_chars anchored_bytes) anchored_dfa

end Ere.Props
