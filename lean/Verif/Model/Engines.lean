import Verif.Model.Flat
import Verif.Model.TDFA
import Verif.Model.U8NFA
import Verif.Model.OnePass

/-!
# The macros

What the procedural macros of `/repo/ere-core/src/lib.rs` compute from a parsed pattern. `seqs` is the
external crate `utf8_ranges`.
-/

namespace Ere

/-- The character automaton of a pattern: `SimplifiedTreeNode::from(ere)` and `WorkingNFA::new`, the
first two statements of every macro (lib.rs 67-68 and others). -/
def charNFA (e : ERE) : Except Err (NFA Atom) := workingNew (Tree.fromERE e).1

/-- The byte automaton of a pattern, lib.rs 67-82 and others. -/
def byteNFA (seqs : Char → Char → List (List U8Atom)) (e : ERE) : Except Err (NFA U8Atom) :=
  match charNFA e with
  | .error x => .error x
  | .ok N => u8New seqs N

/-- `__compile_regex_engine_flat_lockstep_nfa`, lib.rs 181-191. -/
def compileFlatChar (e : ERE) : Except Err (Flat Atom) :=
  match charNFA e with
  | .error x => .error x
  | .ok N => compileFlat N

/-- `__compile_regex_engine_flat_lockstep_nfa_u8`, lib.rs 193-204. -/
def compileFlatU8 (seqs : Char → Char → List (List U8Atom)) (e : ERE) : Except Err (Flat U8Atom) :=
  match byteNFA seqs e with
  | .error x => .error x
  | .ok N => compileFlat N

/-- The two programs made from a tagged DFA: `test` runs the untagged DFA, `exec` the tagged one. -/
structure DfaEngine where
  dfa : DFA
  tdfa : TDFA
deriving DecidableEq, Repr

/-- `serialize_u8_dfa_token_stream`, dfa_u8.rs 331-348; `none` if it emits `compile_error!`. -/
def serializeDfa (T : TDFA) : Except Err (Option DfaEngine) :=
  match DFA.fromTagged T with
  | .error x => .error x
  | .ok none => .ok none
  | .ok (some D) => .ok (some ⟨D, T⟩)

/-- The DFA engine of a byte automaton with the default bound; `none` if the bound is exceeded,
lib.rs 88-91 and 160-177. -/
def dfaOf (N : NFA U8Atom) : Except Err (Option DfaEngine) :=
  match TDFA.fromNFA N (TDFA.defaultBound N.length) with
  | .error x => .error x
  | .ok none => .ok none
  | .ok (some T) => serializeDfa T

/-- `__compile_regex_engine_dfa_u8`, lib.rs 155-179; `none` for a compile error. -/
def compileDfaU8 (seqs : Char → Char → List (List U8Atom)) (e : ERE) : Except Err (Option DfaEngine) :=
  match byteNFA seqs e with
  | .error x => .error x
  | .ok N => dfaOf N

/-- `__compile_regex_engine_one_pass_u8`, lib.rs 206-226; `none` for a compile error. -/
def compileOnePassU8 (seqs : Char → Char → List (List U8Atom)) (e : ERE) : Except Err (Option OnePass) :=
  match byteNFA seqs e with
  | .error x => .error x
  | .ok N => compileOnePass N

end Ere
