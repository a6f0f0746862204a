import Verif.Model.Tree

/-!
# Automata: data, construction and semantics

The repository has two copies of the automaton code, one over characters
(`/repo/ere-core/src/working_nfa.rs`, symbols are `Atom`s) and one over bytes
(`/repo/ere-core/src/working_u8_nfa.rs`, symbols are byte ranges). The model is generic in the
symbol type `σ`; definitions cite both copies.
-/

namespace Ere

/-- Symbols of an automaton: which input units they accept (`Atom::check`, `U8Atom::check`), how far
the byte offset moves per unit (`c.len_utf8()` or 1) and the equality used by the optimiser. -/
class Sym (σ : Type) (α : outParam Type) where
  check : σ → α → Bool
  len : α → Nat
  beq : σ → σ → Bool
  beq_sound : ∀ a b, beq a b = true → ∀ c, check a c = check b c
  beq_refl : ∀ a, beq a a = true
  len_pos : ∀ c, 0 < len c

/-- `EpsilonType`, working_nfa.rs 8-14. -/
inductive EpsType
  | none
  | startAnchor
  | endAnchor
  | startCapture (g : Nat)
  | endCapture (g : Nat)
deriving DecidableEq, Repr, Inhabited

/-- `EpsilonTransition`, working_nfa.rs 37-41. -/
structure Eps where
  dst : Nat
  special : EpsType
deriving DecidableEq, Repr, Inhabited

/-- `WorkingTransition` (working_nfa.rs 70-74) and `U8Transition` (working_u8_nfa.rs 60-65). -/
structure Trans (σ : Type) where
  dst : Nat
  symbol : σ
deriving Repr, Inhabited, DecidableEq

/-- `WorkingState` (working_nfa.rs 126-130) and `U8State` (working_u8_nfa.rs 104-108). -/
structure State (σ : Type) where
  transitions : List (Trans σ)
  epsilons : List Eps
deriving Repr, Inhabited, DecidableEq

/-- `WorkingNFA` / `U8NFA`: start state 0, accept state `states.len() - 1`
(working_nfa.rs 184-188, working_u8_nfa.rs 151-155). -/
abbrev NFA (σ : Type) := List (State σ)

variable {σ : Type}

/-- `WorkingState::new`, working_nfa.rs 132-137. -/
def State.new : State σ := ⟨[], []⟩

/-- `EpsilonTransition::new`, working_nfa.rs 43-48. -/
def Eps.new (dst : Nat) : Eps := ⟨dst, .none⟩

/-- `EpsilonTransition::add_offset` / `with_offset`, working_nfa.rs 49-63. -/
def Eps.addOffset (e : Eps) (k : Nat) : Eps := ⟨e.dst + k, e.special⟩

/-- `WorkingTransition::add_offset`, working_nfa.rs 82-100. -/
def Trans.addOffset (t : Trans σ) (k : Nat) : Trans σ := ⟨t.dst + k, t.symbol⟩

/-- `WorkingState::add_offset` / `with_offset`, working_nfa.rs 151-170. -/
def State.addOffset (s : State σ) (k : Nat) : State σ :=
  ⟨s.transitions.map (·.addOffset k), s.epsilons.map (·.addOffset k)⟩

/-- All states of a sub-automaton placed at offset `k`
(`nfa.states.iter().map(|state| state.add_offset(k))`). -/
def NFA.shift (n : NFA σ) (k : Nat) : NFA σ := n.map (·.addOffset k)

/-- `states.last_mut().unwrap().epsilons.push(e)`; on an empty list the Rust code panics or changes
the state before, but no sub-automaton is empty (`build_ne_nil`). -/
def NFA.pushLast (n : NFA σ) (e : Eps) : NFA σ :=
  match n with
  | [] => []
  | [s] => [⟨s.transitions, s.epsilons ++ [e]⟩]
  | s :: t :: ss => s :: NFA.pushLast (t :: ss) e

/-- `nfa_empty`, working_nfa.rs 191-194 / working_u8_nfa.rs. -/
def nfaEmpty : NFA σ := [State.new]

/-- `nfa_symbol` (characters), working_nfa.rs 196-202, and `nfa_byte`, working_u8_nfa.rs 160-163. -/
def nfaSymbol (a : σ) : NFA σ := [⟨[⟨1, a⟩], []⟩, State.new]

/-- The loop body of `nfa_union`, working_nfa.rs 207-222: sub-automata at increasing offsets, each
last state gets an epsilon to `endIdx`. -/
def unionBody (off endIdx : Nat) : List (NFA σ) → NFA σ
  | [] => []
  | n :: ns => NFA.pushLast (NFA.shift n off) (Eps.new endIdx) ++ unionBody (off + n.length) endIdx ns

/-- The epsilons pushed to `states[0]` in `nfa_union`, working_nfa.rs 208-211. -/
def unionStarts (off : Nat) : List (NFA σ) → List Eps
  | [] => []
  | n :: ns => Eps.new off :: unionStarts (off + n.length) ns

/-- `nfa_union`, working_nfa.rs 204-227. -/
def nfaUnion (ns : List (NFA σ)) : NFA σ :=
  let count := 2 + (ns.map List.length).sum
  ⟨[], unionStarts 1 ns⟩ :: unionBody 1 (count - 1) ns ++ [State.new]

/-- `nfa_capture`, working_nfa.rs 233-248. -/
def nfaCapture (n : NFA σ) (g : Nat) : NFA σ :=
  let count := 2 + n.length
  ⟨[], [⟨1, .startCapture g⟩]⟩ :: NFA.pushLast (NFA.shift n 1) ⟨count - 1, .endCapture g⟩ ++ [State.new]

/-- The loop of `nfa_concat`, working_nfa.rs 257-270. -/
def concatBody (off : Nat) : List (NFA σ) → NFA σ
  | [] => []
  | n :: ns =>
    NFA.pushLast (NFA.shift n off) (Eps.new (off + n.length)) ++ concatBody (off + n.length) ns

/-- `nfa_concat`, working_nfa.rs 254-274 (second copy: working_u8_nfa.rs 276-298). -/
def nfaConcat (ns : List (NFA σ)) : NFA σ :=
  ⟨[], [Eps.new 1]⟩ :: concatBody 1 ns ++ [State.new]

/-- `nfa_repeat`, working_nfa.rs 279-281. -/
def nfaRepeat (n : NFA σ) (times : Nat) : NFA σ := nfaConcat (List.replicate times n)

/-- The loop of `nfa_upto`, working_nfa.rs 300-331: `k+1` copies still to be placed at `off`;
the transition state after a copy is the accept state if it is the last one. -/
def uptoBody (n : NFA σ) (endIdx : Nat) (longest : Bool) (off : Nat) : Nat → NFA σ
  | 0 => NFA.pushLast (NFA.shift n off) (Eps.new (off + n.length)) ++ [State.new]
  | k + 1 =>
    let t := off + n.length
    NFA.pushLast (NFA.shift n off) (Eps.new t) ++
      (⟨[], if longest then [Eps.new (t + 1), Eps.new endIdx] else [Eps.new endIdx, Eps.new (t + 1)]⟩
        :: uptoBody n endIdx longest (t + 1) k)

/-- `nfa_upto` with `times = k+1`, working_nfa.rs 287-334. -/
def nfaUpto (n : NFA σ) (k : Nat) (longest : Bool) : NFA σ :=
  let endIdx := 1 + (n.length + 1) * (k + 1)
  let s0 : State σ :=
    if longest then ⟨[], [Eps.new 1, Eps.new (endIdx - 1)]⟩
    else ⟨[], [Eps.new (endIdx - 1), Eps.new 1]⟩
  s0 :: uptoBody n (endIdx - 1) longest 1 k

/-- `nfa_star`, working_nfa.rs 340-362 (second copy: working_u8_nfa.rs 356-378). -/
def nfaStar (n : NFA σ) (longest : Bool) : NFA σ :=
  let endIdx := 1 + n.length
  let s0 : State σ := ⟨[], (if longest then [] else [Eps.new endIdx]) ++ [Eps.new 1] ++
    (if longest then [Eps.new endIdx] else [])⟩
  s0 :: NFA.pushLast (NFA.shift n 1) (Eps.new 0) ++ [State.new]

/-- `nfa_start`, working_nfa.rs 368-374. -/
def nfaStart : NFA σ := [⟨[], [⟨1, .startAnchor⟩]⟩, State.new]
/-- `nfa_end`, working_nfa.rs 376-382. -/
def nfaEnd : NFA σ := [⟨[], [⟨1, .endAnchor⟩]⟩, State.new]
/-- `nfa_never`, working_nfa.rs 384-387. -/
def nfaNever : NFA σ := [State.new, State.new]

mutual
/-- `WorkingNFA::build`, working_nfa.rs 391-409 (with `build_union`, `build_capture`, … inlined). -/
def build : Tree → NFA Atom
  | .empty => nfaEmpty
  | .symbol a => nfaSymbol a
  | .union ts => nfaUnion (buildList ts)
  | .capture t g => nfaCapture (build t) g
  | .concat ts => nfaConcat (buildList ts)
  | .rep t n => nfaRepeat (build t) (n + 1)
  | .upTo t n l => nfaUpto (build t) n l
  | .star t l => nfaStar (build t) l
  | .start => nfaStart
  | .end_ => nfaEnd
  | .never => nfaNever
/-- `nodes.iter().map(WorkingNFA::build)`, working_nfa.rs 229 and 276. -/
def buildList : List Tree → List (NFA Atom)
  | [] => []
  | t :: ts => build t :: buildList ts
end

/-! ## Semantics (specification of automaton runs) -/

/-- A capture event: group `g` opened or closed at byte offset `i`. -/
inductive CapEvent
  | opened (g i : Nat)
  | closed (g i : Nat)
deriving DecidableEq, Repr

/-- The capture events of a run so far, oldest first. (The engines only keep the newest start and end
per group, see `Caps.start?` and `Caps.end?`; the specification keeps the whole history.) -/
abbrev Caps := List CapEvent

/-- What a run has: byte offset, remaining input, captures. -/
structure Cfg (α : Type) where
  off : Nat
  rest : List α
  caps : Caps

/-- Record the start of group `g`. -/
def Caps.setStart (c : Caps) (g i : Nat) : Caps := c ++ [.opened g i]
/-- Record the end of group `g`. -/
def Caps.setEnd (c : Caps) (g i : Nat) : Caps := c ++ [.closed g i]

/-- The newest start of group `g`. -/
def Caps.start? (c : Caps) (g : Nat) : Option Nat :=
  c.foldl (fun r e => match e with | .opened h i => if h = g then some i else r | .closed _ _ => r) none
/-- The newest end of group `g`. -/
def Caps.end? (c : Caps) (g : Nat) : Option Nat :=
  c.foldl (fun r e => match e with | .closed h i => if h = g then some i else r | .opened _ _ => r) none

variable {α : Type}

/-- Effect of an epsilon on a run (anchors are guards, captures record the offset). -/
def epsStep : EpsType → Cfg α → Option (Cfg α)
  | .none, d => some d
  | .startAnchor, d => if d.off = 0 then some d else Option.none
  | .endAnchor, d => if d.rest.isEmpty then some d else Option.none
  | .startCapture g, d => some ⟨d.off, d.rest, d.caps.setStart g d.off⟩
  | .endCapture g, d => some ⟨d.off, d.rest, d.caps.setEnd g d.off⟩

/-- Effect of consuming one input unit with a symbol. -/
def symStep [Sym σ α] (a : σ) (d : Cfg α) : Option (Cfg α) :=
  match d.rest with
  | [] => none
  | c :: r => if Sym.check a c then some ⟨d.off + Sym.len (σ := σ) c, r, d.caps⟩ else none

/-- Edge labels. -/
inductive Lab (σ : Type)
  | sym (a : σ)
  | eps (e : EpsType)

/-- Effect of a label. -/
def labStep [Sym σ α] : Lab σ → Cfg α → Option (Cfg α)
  | .sym a, d => symStep a d
  | .eps e, d => epsStep e d

/-- Edges of an automaton. -/
def NFA.HasEdge (N : NFA σ) (q : Nat) (l : Lab σ) (q' : Nat) : Prop :=
  ∃ st, N[q]? = some st ∧
    match l with
    | .sym a => ⟨q', a⟩ ∈ st.transitions
    | .eps e => ⟨q', e⟩ ∈ st.epsilons

end Ere
