import Verif.Model.Engines
import Verif.Model.Meta
import Verif.Model.Parse
import Verif.Model.Tokens

/-!
# The choice of an engine and the attribute macro

`pick_base_engine`, `pick_engine`, `compile_regex!`, `compile_regex_fixed_offset!` and the attribute macro of
`/repo/ere-core/src/lib.rs`. An error is a panic of the macro. A `compile_error!` among the emitted tokens
is not a panic: the macro returns and the program does not compile. The texts describing the engine in the
documentation are not modelled.
-/

namespace Ere

/-- What `pick_base_engine_inner` returns, lib.rs 83-108: one program, which serves `test` and `exec`.
`dfa none` stands for the `compile_error!` of dfa_u8.rs 332-337. -/
inductive BaseEngine
  | onePass (P : OnePass)
  | dfa (G : Option DfaEngine)
  | flatU8 (F : Flat U8Atom)
  | flatChar (F : Flat Atom)

/-- `is_state_ascii` for all states, lib.rs 71-78. -/
def NFA.isAscii (N : NFA Atom) : Bool :=
  N.all (fun s => s.transitions.all (fun t => t.symbol.toRanges.all (fun r => r.hi.toNat < 128)))

/-- What `pick_base_engine` returns, without the description. -/
structure BasePick where
  engine : BaseEngine
  tree : Tree
  nfa : NFA Atom
  u8nfa : NFA U8Atom

/-- `pick_base_engine_inner`, lib.rs 90-109. -/
def pickInner (ascii : Bool) (N : NFA Atom) (M : NFA U8Atom) : Except Err BaseEngine :=
  match compileOnePass M with
  | .error x => .error x
  | .ok (some P) => .ok (.onePass P)
  | .ok none =>
    match TDFA.fromNFA M (TDFA.defaultBound M.length) with
    | .error x => .error x
    | .ok (some T) =>
      match serializeDfa T with
      | .error x => .error x
      | .ok G => .ok (.dfa G)
    | .ok none =>
      if ascii then
        match compileFlat M with
        | .error x => .error x
        | .ok F => .ok (.flatU8 F)
      else
        match compileFlat N with
        | .error x => .error x
        | .ok F => .ok (.flatChar F)

/-- `pick_base_engine`, lib.rs 58-112. -/
def pickBase (seqs : Char → Char → List (List U8Atom)) (e : ERE) : Except Err BasePick :=
  let tree := (Tree.fromERE e).1
  match workingNew tree with
  | .error x => .error x
  | .ok N =>
    match u8New seqs N with
    | .error x => .error x
    | .ok M =>
      match pickInner N.isAscii N M with
      | .error x => .error x
      | .ok b => .ok ⟨b, tree, N, M⟩

/-- Does the program compile? (For the flat engine over bytes and a DFA nothing is known to go wrong; `cr`
is the list of crates the caller can name.) -/
def BaseEngine.compiles (cr : List String) : BaseEngine → Bool
  | .onePass P => P.compiles
  | .dfa G => G.isSome
  | .flatU8 _ => true
  | .flatChar F => F.symbolsCompile cr

/-- The `N` of the array returned by `exec`. (None for a program that does not compile.) -/
def BaseEngine.groups : BaseEngine → Nat
  | .onePass P => P.groups
  | .dfa (some G) => G.tdfa.numCaptureGroups
  | .dfa none => 0
  | .flatU8 F => F.groups
  | .flatChar F => F.groups

/-- The `test` function of the program. -/
def BaseEngine.test (b : BaseEngine) (text : List Char) : Except Err Bool :=
  match b with
  | .onePass P => P.test (encode text)
  | .dfa (some G) => .ok (G.dfa.test (encode text))
  | .dfa none => .error .panic
  | .flatU8 F => .ok (F.test (encode text))
  | .flatChar F => .ok (F.test text)

/-- The `exec` function of the program. -/
def BaseEngine.exec (b : BaseEngine) (text : List Char) : Except Err (Option (List (Option (Nat × Nat)))) :=
  match b with
  | .onePass P => P.exec text (encode text)
  | .dfa (some G) => G.tdfa.exec text (encode text)
  | .dfa none => .error .panic
  | .flatU8 F => F.exec text (encode text)
  | .flatChar F => F.exec text text

/-- What `pick_engine` returns: a base engine, or one wrapped by `serialize_fixed_offset_token_stream`
(fixed_offset.rs 76-101) with its offsets and its `capture_groups`. -/
structure Engine where
  base : BaseEngine
  fixed : Option (Slots × Nat)

/-- `pick_engine`, lib.rs 117-140. -/
def pickEngine (seqs : Char → Char → List (List U8Atom)) (e : ERE) : Except Err Engine :=
  match pickBase seqs e with
  | .error x => .error x
  | .ok b =>
    match b.u8nfa.fixedOffsets with
    | .error x => .error x
    | .ok (some offs) => .ok ⟨b.engine, some (offs, b.u8nfa.numCaptureGroups)⟩
    | .ok none => .ok ⟨b.engine, none⟩

/-- `__compile_regex_engine_fixed_offset`, lib.rs 231-250; `none` for a compile error. -/
def compileFixed (seqs : Char → Char → List (List U8Atom)) (e : ERE) : Except Err (Option Engine) :=
  match pickBase seqs e with
  | .error x => .error x
  | .ok b =>
    match b.u8nfa.fixedOffsets with
    | .error x => .error x
    | .ok (some offs) => .ok (some ⟨b.engine, some (offs, b.u8nfa.numCaptureGroups)⟩)
    | .ok none => .ok none

/-- Does the program compile? The wrapper declares the result as an array of length `capture_groups` and
builds it with one element for each offset. -/
def Engine.compiles (cr : List String) (E : Engine) : Bool :=
  E.base.compiles cr && match E.fixed with
    | none => true
    | some (offs, k) => offs.length == k

/-- The `N` of the `Regex<N>` made by `__construct_regex`, lib.rs 42-52. -/
def Engine.groups (E : Engine) : Nat :=
  match E.fixed with
  | none => E.base.groups
  | some (_, k) => k

/-- `Regex::test`, lib.rs 26-29: the `test` of the base engine, with or without the wrapper. -/
def Engine.test (E : Engine) (text : List Char) : Except Err Bool := E.base.test text

/-- `Regex::exec`, lib.rs 30-34, with fixed_offset.rs 89-101. -/
def Engine.exec (E : Engine) (text : List Char) : Except Err (Option (List (Option (Nat × Nat)))) :=
  match E.fixed with
  | none => E.base.exec text
  | some (offs, _) =>
    match E.base.test text with
    | .error x => .error x
    | .ok b => fixedExec offs b text

/-- `compile_regex!` on the text of a string literal, lib.rs 143-152 (with `impl Parse for ERE`,
parse_tree.rs): a rejected pattern is a compile error, here `none`. -/
def compileRegex (seqs : Char → Char → List (List U8Atom)) (s : List Char) : Except Err (Option Engine) :=
  match parseStr s with
  | .error _ => .ok none
  | .ok e =>
    match pickEngine seqs e with
    | .error x => .error x
    | .ok E => .ok (some E)

/-! ## The attribute macro -/

/-- What the attribute macro computes, lib.rs 264-270 and 343: the number of fields the struct must have
(which is also the declared length of the result of the engine), which of them are optional, the engine. -/
structure Attr where
  fields : Nat
  optional : List Bool
  engine : Engine

/-- `__compile_regex_attr`, lib.rs 256-379, for a tuple struct; `none` for a compile error (a rejected
pattern, or a wrong number of fields). The parsing of the struct by `syn` is not modelled. -/
def compileAttr (seqs : Char → Char → List (List U8Atom)) (s : List Char) (fields : Nat) :
    Except Err (Option Attr) :=
  match parseStr s with
  | .error _ => .ok none
  | .ok e =>
    match charNFA e with
    | .error x => .error x
    | .ok N =>
      match (List.range N.numCaptureGroups).mapM N.groupIsOptionalDebug with
      | .error x => .error x
      | .ok opt =>
        if fields = opt.length then
          match pickEngine seqs e with
          | .error x => .error x
          | .ok E => .ok (some ⟨N.numCaptureGroups, opt, E⟩)
        else .ok none

/-- Does the emitted program compile? `ENGINE` is declared with arrays of length `capture_groups`,
lib.rs 349-352. -/
def Attr.compiles (cr : List String) (A : Attr) : Bool := A.engine.compiles cr && A.engine.groups == A.fields

/-- The emitted `test`, lib.rs 360-362. -/
def Attr.test (A : Attr) (text : List Char) : Except Err Bool := A.engine.test text

/-- One argument of the struct, lib.rs 328-340: `result[g]` or `result[g].expect(..)`. -/
def attrField (result : List (Option (Nat × Nat))) (p : Bool × Nat) : Except Err (Option (Nat × Nat)) :=
  match result[p.2]? with
  | none => .error .panic
  | some x => if p.1 then .ok x else if x.isSome then .ok x else .error .panic

/-- The emitted `exec`, lib.rs 371-376: the fields of the struct. -/
def Attr.exec (A : Attr) (text : List Char) : Except Err (Option (List (Option (Nat × Nat)))) :=
  match A.engine.exec text with
  | .error x => .error x
  | .ok none => .ok none
  | .ok (some result) =>
    match A.optional.zipIdx.mapM (attrField result) with
    | .error x => .error x
    | .ok r => .ok (some r)

end Ere
