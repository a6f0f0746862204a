import Verif.Model.Opt

/-!
# Byte automata

Source: `/repo/ere-core/src/working_u8_nfa.rs`. Bytes are `UInt8`, the bytes of a `char` are
`String.utf8EncodeChar` (Lean core). The external crate `utf8_ranges` (not in the repository) is
modelled in two ways: by its documented contract (`Utf8Seqs`) and by its algorithm
(`utf8Sequences`), which is shown to satisfy the contract.
-/

namespace Ere

/-- `U8Atom(RangeInclusive<u8>)`, working_u8_nfa.rs 12-13. -/
structure U8Atom where
  lo : UInt8
  hi : UInt8
deriving DecidableEq, Repr, Inhabited

/-- `U8Atom::check`, working_u8_nfa.rs 15-18. -/
def U8Atom.check (a : U8Atom) (b : UInt8) : Bool := decide (a.lo ≤ b) && decide (b ≤ a.hi)

/-- Bytes as automaton symbols. -/
instance : Sym U8Atom UInt8 where
  check := U8Atom.check
  len := fun _ => 1
  beq := fun a b => a == b
  beq_sound := by intro a b h c; rw [eq_of_beq h]
  beq_refl := by intro a; simp
  len_pos := by intro c; omega

/-- The UTF-8 bytes of a text (`str::as_bytes`). -/
def encode (cs : List Char) : List UInt8 := cs.flatMap String.utf8EncodeChar

/-- Does a byte string match a sequence of byte ranges? (specification) -/
def MatchesSeq : List U8Atom → List UInt8 → Prop
  | [], [] => True
  | a :: as, b :: bs => a.check b = true ∧ MatchesSeq as bs
  | _, _ => False

/-- Contract of `utf8_ranges::Utf8Sequences::new(start, end)` (documentation of the external crate):
the sequences match exactly the UTF-8 encodings of the characters in the range, and no byte range is
empty. -/
structure Utf8Seqs where
  seqs : Char → Char → List (List U8Atom)
  exact_ : ∀ lo hi bs, (∃ s ∈ seqs lo hi, MatchesSeq s bs) ↔
    ∃ c : Char, lo ≤ c ∧ c ≤ hi ∧ bs = String.utf8EncodeChar c
  nonempty : ∀ lo hi, ∀ s ∈ seqs lo hi, ∀ a ∈ s, a.lo ≤ a.hi

/-! ## The algorithm of the external crate -/

/-- UTF-8 bytes of a scalar value as numbers, for the end points of a range
(`char::encode_utf8`). -/
def encNat (v : Nat) : List Nat :=
  if v ≤ 0x7f then [v]
  else if v ≤ 0x7ff then [v / 64 % 0x20 + 0xc0, v % 0x40 + 0x80]
  else if v ≤ 0xffff then [v / 4096 % 0x10 + 0xe0, v / 64 % 0x40 + 0x80, v % 0x40 + 0x80]
  else [v / 262144 % 0x08 + 0xf0, v / 4096 % 0x40 + 0x80, v / 64 % 0x40 + 0x80, v % 0x40 + 0x80]

/-- `Utf8Sequence::from_encoded_range`: zip of the encodings of both ends. -/
def seqOfEnds (s e : Nat) : List U8Atom :=
  List.zipWith (fun a b => ⟨UInt8.ofNat a, UInt8.ofNat b⟩) (encNat s) (encNat e)

/-- First split at the limits of the 1, 2 and 3 byte encodings (`max_scalar_value`). -/
def splitLen (s e : Nat) : Option Nat :=
  if s ≤ 0x7f ∧ 0x7f < e then some 0x7f
  else if s ≤ 0x7ff ∧ 0x7ff < e then some 0x7ff
  else if s ≤ 0xffff ∧ 0xffff < e then some 0xffff
  else none

/-- Split at an unaligned end: `m = 2^(6 i)`. The returned number is the last value of the first
half. (`start | (m-1)` is `start / m * m + (m - 1)`, `end & !(m-1)` is `end / m * m`.) -/
def splitAlign (m s e : Nat) : Option Nat :=
  if s / m ≠ e / m then
    if s % m ≠ 0 then some (s / m * m + (m - 1))
    else if e % m ≠ m - 1 then some (e / m * m - 1)
    else none
  else none

/-- `impl Iterator for Utf8Sequences` of the external crate `utf8-ranges` 1.0 (written from memory
of its published source): the explicit stack of ranges becomes recursion in the same order. The
first argument bounds the recursion depth. -/
def utf8Split : Nat → Nat → Nat → List (List U8Atom)
  | 0, _, _ => []
  | k + 1, s, e =>
    if s < 0xE000 ∧ 0xD7FF < e then utf8Split k s 0xD7FF ++ utf8Split k 0xE000 e
    else if e < s then []
    else
      match splitLen s e with
      | some m => utf8Split k s m ++ utf8Split k (m + 1) e
      | none =>
        if e ≤ 0x7f then [[⟨UInt8.ofNat s, UInt8.ofNat e⟩]]
        else
          match splitAlign 64 s e with
          | some m => utf8Split k s m ++ utf8Split k (m + 1) e
          | none =>
            match splitAlign 4096 s e with
            | some m => utf8Split k s m ++ utf8Split k (m + 1) e
            | none =>
              match splitAlign 262144 s e with
              | some m => utf8Split k s m ++ utf8Split k (m + 1) e
              | none => [seqOfEnds s e]

/-- `utf8_ranges::Utf8Sequences::new(lo, hi).collect()`. -/
def utf8Sequences (lo hi : Char) : List (List U8Atom) :=
  utf8Split (hi.toNat + 1 - lo.toNat + 1) lo.toNat hi.toNat

/-! ## `nfa_symbol` -/

/-- States of the prefix tree under construction; the target `none` is the placeholder
`usize::MAX`. -/
abbrev Trie := List (List (U8Atom × Option Nat))

/-- Inner loop of `nfa_symbol`, working_u8_nfa.rs 185-205, for one sequence of byte ranges, from
state `st`. Stepping on from the placeholder (`states[usize::MAX]`) panics. -/
def trieInsert : Trie → Option Nat → List U8Atom → Except Err Trie
  | T, _, [] => .ok T
  | _, none, _ :: _ => .error .panic
  | T, some q, a :: as =>
    match T[q]? with
    | none => .error .panic
    | some ts =>
      match ts.find? (fun t => t.1 == a) with
      | some t => trieInsert T t.2 as
      | none =>
        match as with
        | [] => .ok (T.modify q (fun ts => ts ++ [(a, none)]))
        | _ :: _ => trieInsert ((T ++ [[]]).modify q (fun ts => ts ++ [(a, some T.length)]))
            (some T.length) as

/-- Outer loops of `nfa_symbol`, working_u8_nfa.rs 182-207, over all sequences. -/
def trieAll : Trie → List (List U8Atom) → Except Err Trie
  | T, [] => .ok T
  | T, s :: ss =>
    match trieInsert T (some 0) s with
    | .error e => .error e
    | .ok T' => trieAll T' ss

/-- All byte range sequences of an atom, working_u8_nfa.rs 179, 182-183. -/
def atomSeqs (U : Char → Char → List (List U8Atom)) (a : Atom) : List (List U8Atom) :=
  a.toRanges.flatMap (fun r => U r.lo r.hi)

/-- `nfa_symbol`, working_u8_nfa.rs 178-223. -/
def u8Symbol (U : Char → Char → List (List U8Atom)) (a : Atom) : Except Err (NFA U8Atom) :=
  match trieAll [[]] (atomSeqs U a) with
  | .error e => .error e
  | .ok T => .ok (T.map (fun ts => ⟨ts.map (fun t => ⟨t.2.getD T.length, t.1⟩), []⟩) ++ [State.new])

/-! ## `build` -/

/-- `map_transition`, working_u8_nfa.rs 399-406. -/
def mapTransition (accept dst off : Nat) (t : Trans U8Atom) : Trans U8Atom :=
  if t.dst = accept then ⟨dst, t.symbol⟩ else t.addOffset off

/-- Inner loop of `build`, working_u8_nfa.rs 392-424, for the transitions of one state: the byte
transitions of the state and the new sub states. `off` is `nfa.states.len() + sub_states.len()`. -/
def expandTrans (U : Char → Char → List (List U8Atom)) :
    Nat → List (Trans Atom) → Except Err (List (Trans U8Atom) × List (State U8Atom))
  | _, [] => .ok ([], [])
  | off, t :: ts =>
    match u8Symbol U t.symbol with
    | .error e => .error e
    | .ok P =>
      let f := mapTransition (P.length - 1) t.dst (off - 1)
      let subs : List (State U8Atom) :=
        ((P.drop 1).take (P.length - 2)).map (fun s => ⟨s.transitions.map f, []⟩)
      match expandTrans U (off + subs.length) ts with
      | .error e => .error e
      | .ok (rs, ss) => .ok (((P.head?.map (·.transitions)).getD []).map f ++ rs, subs ++ ss)

/-- Outer loop of `build`, working_u8_nfa.rs 385-426: main states and sub states. -/
def expandStates (U : Char → Char → List (List U8Atom)) :
    Nat → NFA Atom → Except Err (NFA U8Atom × NFA U8Atom)
  | _, [] => .ok ([], [])
  | off, s :: N =>
    match expandTrans U off s.transitions with
    | .error e => .error e
    | .ok (ts, subs) =>
      match expandStates U (off + subs.length) N with
      | .error e => .error e
      | .ok (ms, ss) => .ok (⟨ts, s.epsilons⟩ :: ms, subs ++ ss)

/-- `U8NFA::build`, working_u8_nfa.rs 382-433; `states[nfa.states.len() - 1]` panics on an automaton
without states. -/
def u8Build (U : Char → Char → List (List U8Atom)) (N : NFA Atom) : Except Err (NFA U8Atom) :=
  match expandStates U N.length N with
  | .error e => .error e
  | .ok (ms, ss) =>
    if N.isEmpty then .error .panic
    else .ok (NFA.pushLast ms (Eps.new (ms.length + ss.length)) ++ ss ++ [State.new])

/-- Any byte, `U8Atom(0..=0xFF)`, working_u8_nfa.rs 453. -/
def anyByte : U8Atom := ⟨0, 255⟩

/-- `U8NFA::new_loop_opt`, working_u8_nfa.rs 448-477. -/
def u8NewLoopOpt (U : Char → Char → List (List U8Atom)) (N : NFA Atom) (sl el : Bool) :
    Except Err (NFA U8Atom) :=
  match u8Build U N with
  | .error e => .error e
  | .ok M => (M.withLoops anyByte sl el).finish

/-- `U8NFA::new`, working_u8_nfa.rs 437-439. -/
def u8New (U : Char → Char → List (List U8Atom)) (N : NFA Atom) : Except Err (NFA U8Atom) :=
  u8NewLoopOpt U N false false

end Ere
