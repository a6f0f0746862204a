import Verif.Model.SymAtom
import Verif.Model.Dfs

/-!
# Automaton optimisation and `WorkingNFA::new`, `WorkingNFA::test`

Source: `/repo/ere-core/src/working_nfa.rs` 412-985. The byte automaton has the same passes
(`/repo/ere-core/src/working_u8_nfa.rs` 480-816, textually identical up to types and one
`debug_assert!`), so everything here is generic in the symbol type.
-/

namespace Ere

/-- How a modelled computation can fail. -/
inductive Err
  /-- the Rust code panics -/
  | panic
  /-- the model's iteration bound is exhausted (shown never to happen) -/
  | fuel
deriving DecidableEq, Repr

variable {σ α : Type}

/-- Targets of the edges leaving a state: epsilons of the kinds selected by `ke`, then (if `kt`) the
symbol transitions. The order of pushes does not influence a search result. -/
def State.succs (s : State σ) (ke : EpsType → Bool) (kt : Bool) : List Nat :=
  ((s.epsilons.filter (fun e => ke e.special)).map (·.dst)) ++
    (if kt then s.transitions.map (·.dst) else [])

/-- `succs` by state index. -/
def NFA.succs (N : NFA σ) (ke : EpsType → Bool) (kt : Bool) (q : Nat) : List Nat :=
  match N[q]? with
  | some s => s.succs ke kt
  | none => []

/-- The `reverse` adjacency lists, working_nfa.rs 490-495, 537-547, 804-812. -/
def NFA.preds (N : NFA σ) (ke : EpsType → Bool) (kt : Bool) (q : Nat) : List Nat :=
  (List.range N.length).flatMap (fun i => ((N.succs ke kt i).filter (· == q)).map (fun _ => i))

/-- Search forwards from one state over the selected edges. -/
def NFA.reachFrom (N : NFA σ) (ke : EpsType → Bool) (kt : Bool) (s : Nat) : List Bool :=
  dfs (N.succs ke kt) [s] ((List.replicate N.length false).set s true)

/-- Search backwards from one state over the selected edges. -/
def NFA.reachTo (N : NFA σ) (ke : EpsType → Bool) (kt : Bool) (s : Nat) : List Bool :=
  dfs (N.preds ke kt) [s] ((List.replicate N.length false).set s true)

/-- A flag of a search result (`v[i]`). -/
def flag (v : List Bool) (i : Nat) : Bool := v[i]? == some true

/-- Keep the edges of state `q` that satisfy the predicates (`retain`). -/
def NFA.filterEdges (N : NFA σ) (fe : Nat → Eps → Bool) (ft : Nat → Trans σ → Bool) : NFA σ :=
  N.mapIdx (fun q s => ⟨s.transitions.filter (ft q), s.epsilons.filter (fe q)⟩)

/-- `clean_start_anchors`, working_nfa.rs 464-482. -/
def NFA.cleanStartAnchors (N : NFA σ) : NFA σ :=
  let z := N.reachFrom (fun _ => true) false 0
  N.filterEdges (fun i e => e.special != .startAnchor || flag z i) (fun _ _ => true)

/-- `clean_end_anchors`, working_nfa.rs 486-512. -/
def NFA.cleanEndAnchors (N : NFA σ) : NFA σ :=
  let z := N.reachTo (fun _ => true) false (N.length - 1)
  N.filterEdges (fun _ e => e.special != .endAnchor || flag z e.dst) (fun _ _ => true)

/-- `nodes_after_end`, working_nfa.rs 514-534 (the Rust vector holds the negated flags of the search). -/
def NFA.nodesAfterEnd (N : NFA σ) : List Bool :=
  (N.reachFrom (· != .endAnchor) true 0).map (!·)

/-- `nodes_before_start`, working_nfa.rs 536-562. -/
def NFA.nodesBeforeStart (N : NFA σ) : List Bool :=
  (N.reachTo (· != .startAnchor) true (N.length - 1)).map (!·)

/-- Drop the symbol transitions of states that only occur after `$` or before `^`,
`new_loop_opt`, working_nfa.rs 441-449. -/
def NFA.clearZeroSymbol (N : NFA σ) : NFA σ :=
  let z := List.zipWith (· || ·) N.nodesAfterEnd N.nodesBeforeStart
  N.filterEdges (fun _ _ => true) (fun q _ => !flag z q)

/-- The `scan` in `remove_dead_states`, working_nfa.rs 568-579: the new index of each state that
stays. `none` stands for the marker `usize::MAX` (a genuine index can not be that large). -/
def stateMap (next : Nat) : List Bool → List (Option Nat)
  | [] => []
  | true :: ds => none :: stateMap next ds
  | false :: ds => some next :: stateMap (next + 1) ds

/-- `usize::MAX` on a 64-bit target. -/
def usizeMax : Nat := 2 ^ 64 - 1

/-- `state_map[i]` as an edge target. -/
def mapTarget (m : List (Option Nat)) (i : Nat) : Nat := (m[i]?.join).getD usizeMax

/-- `remove_dead_states`, working_nfa.rs 567-597. -/
def NFA.removeDead (N : NFA σ) (dead : List Bool) : NFA σ :=
  let m := stateMap 0 dead
  (((N.zip m).filter (fun p => p.2.isSome)).map (·.1)).map (fun s =>
    ⟨s.transitions.map (fun t => ⟨mapTarget m t.dst, t.symbol⟩),
     s.epsilons.map (fun e => ⟨mapTarget m e.dst, e.special⟩)⟩)

/-- The epsilon half of `dedupe_transitions`, working_nfa.rs 632-643: keep an epsilon unless an
equal one comes before it. -/
def dedupeEps (l : List Eps) : List Eps :=
  ((l.zipIdx).filter (fun p => !(l.take p.2).contains p.1)).map (·.1)

/-- The transition half of `dedupe_transitions`, working_nfa.rs 613-625: note `[..=i]`, which always
contains the transition itself, so that nothing is ever removed. -/
def dedupeTrans [Sym σ α] (l : List (Trans σ)) : List (Trans σ) :=
  ((l.zipIdx).filter (fun p =>
    (l.take (p.2 + 1)).any (fun t => t.dst == p.1.dst && Sym.beq t.symbol p.1.symbol))).map (·.1)

/-- `dedupe_transitions`, working_nfa.rs 608-650: the new automaton and whether a length changed. -/
def NFA.dedupe [Sym σ α] (N : NFA σ) : NFA σ × Bool :=
  (N.map (fun s => ⟨dedupeTrans s.transitions, dedupeEps s.epsilons⟩),
   N.any (fun s => (dedupeTrans s.transitions).length != s.transitions.length ||
     (dedupeEps s.epsilons).length != s.epsilons.length))

/-- `state.transitions == other.transitions` (derived `PartialEq` over `PartialEq for Atom`). -/
def transEq [Sym σ α] : List (Trans σ) → List (Trans σ) → Bool
  | [], [] => true
  | a :: as, b :: bs => (a.dst == b.dst && Sym.beq a.symbol b.symbol) && transEq as bs
  | _, _ => false

/-- The condition under which two states are merged, working_nfa.rs 668-673. -/
def sameOut [Sym σ α] (a b : State σ) : Bool :=
  a.epsilons == b.epsilons && transEq a.transitions b.transitions &&
    (!a.epsilons.isEmpty || !a.transitions.isEmpty)

/-- First state with the same outgoing edges, working_nfa.rs 667-673. -/
def NFA.findSame [Sym σ α] (N : NFA σ) (i : Nat) : Option Nat :=
  (List.range (N.length - 1)).find? (fun o =>
    match N[i]?, N[o]? with
    | some a, some b => sameOut a b && i != o
    | _, _ => false)

/-- Divert all edges into `x` to `y`: working_nfa.rs 684-695 and 733-739 (there the positions of the
edges into `x` have been collected before). -/
def NFA.redirect (N : NFA σ) (x y : Nat) : NFA σ :=
  N.map (fun s =>
    ⟨s.transitions.map (fun t => if t.dst = x then ⟨y, t.symbol⟩ else t),
     s.epsilons.map (fun e => if e.dst = x then ⟨y, e.special⟩ else e)⟩)

/-- Remove all edges leaving `x`. -/
def NFA.clear (N : NFA σ) (x : Nat) : NFA σ := N.modify x (fun _ => ⟨[], []⟩)

/-- `incoming`, working_nfa.rs 704-710: positions of symbol transitions into `x`. -/
def NFA.incoming (N : NFA σ) (x : Nat) : List (Nat × Nat) :=
  N.zipIdx.flatMap (fun p =>
    (p.1.transitions.zipIdx.filter (fun t => t.1.dst == x)).map (fun t => (p.2, t.2)))

/-- `incoming_eps`, working_nfa.rs 711-717. -/
def NFA.incomingEps (N : NFA σ) (x : Nat) : List (Nat × Nat) :=
  N.zipIdx.flatMap (fun p =>
    (p.1.epsilons.zipIdx.filter (fun t => t.1.dst == x)).map (fun t => (p.2, t.2)))

/-- Result of the `match` in `optimize_pass`, working_nfa.rs 719-766, for state `x`:
`ok (some N')` if a rule applied (the state is then dead), `ok none` if not; `split_off` panics if
the position is beyond the list. -/
def NFA.skipRedundant (N : NFA σ) (x : Nat) : Except Err (Option (NFA σ)) :=
  match N[x]? with
  | none => .error .panic
  | some s =>
    match s.transitions, s.epsilons with
    | [], [⟨c, .none⟩] => .ok (some ((N.redirect x c).clear x))
    | [], es =>
      match N.incoming x, N.incomingEps x with
      | [], [(a, k)] =>
        match N[a]?.bind (fun sa => sa.epsilons[k]?) with
        | some ⟨_, .none⟩ =>
          let N1 := N.clear x
          match N1[a]? with
          | none => .error .panic
          | some sa =>
            if k + 1 ≤ sa.epsilons.length then
              .ok (some (N1.modify a (fun s =>
                ⟨s.transitions, s.epsilons.take k ++ es ++ s.epsilons.drop (k + 1)⟩)))
            else .error .panic
        | _ => .ok none
      | _, _ => .ok none
    | _, _ => .ok none

/-- Mutable variables of `optimize_pass`. -/
structure PassSt (σ : Type) where
  nfa : NFA σ
  dead : List Bool
  changed : Bool

/-- Body of the state loop of `optimize_pass`, working_nfa.rs 665-774. -/
def passStep [Sym σ α] (x : Nat) (p : PassSt σ) : Except Err (PassSt σ) :=
  match p.nfa.findSame x with
  | some o => .ok ⟨(p.nfa.clear x).redirect x o, p.dead.set x true, true⟩
  | none =>
    let (N1, ch) := p.nfa.dedupe
    match N1.skipRedundant x with
    | .error e => .error e
    | .ok (some N2) => .ok ⟨N2, p.dead.set x true, true⟩
    | .ok none => .ok ⟨N1, p.dead, p.changed || ch⟩

/-- The loop `for state_idx in 1..state_count - 1`: `k` iterations starting with state `x`. -/
def passLoop [Sym σ α] : Nat → Nat → PassSt σ → Except Err (PassSt σ)
  | 0, _, p => .ok p
  | k + 1, x, p =>
    match passStep x p with
    | .error e => .error e
    | .ok p' => passLoop k (x + 1) p'

/-- `optimize_pass`, working_nfa.rs 655-777: new automaton and whether it changed. -/
def NFA.optimizePass [Sym σ α] (N : NFA σ) : Except Err (NFA σ × Bool) :=
  match passLoop (N.length - 2) 1 ⟨N, List.replicate N.length false, false⟩ with
  | .error e => .error e
  | .ok p => if p.changed then .ok (p.nfa.removeDead p.dead, true) else .ok (p.nfa, false)

/-- `while nfa.optimize_pass() {}`, working_nfa.rs 454-456, with an iteration bound. -/
def optimizeLoop [Sym σ α] : Nat → NFA σ → Except Err (NFA σ)
  | 0, _ => .error .fuel
  | k + 1, N =>
    match N.optimizePass with
    | .error e => .error e
    | .ok (N', true) => optimizeLoop k N'
    | .ok (N', false) => .ok N'

/-- Size that strictly decreases with every pass that changes something. -/
def NFA.size (N : NFA σ) : Nat := N.length + (N.map (fun s => s.epsilons.length)).sum

/-- `states_reachable_start`, working_nfa.rs 780-801. -/
def NFA.reachableStart (N : NFA σ) : List Bool := N.reachFrom (fun _ => true) true 0

/-- `states_reachable_end`, working_nfa.rs 803-828. -/
def NFA.reachableEnd (N : NFA σ) : List Bool := N.reachTo (fun _ => true) true (N.length - 1)

/-- `remove_unreachable`, working_nfa.rs 833-851. -/
def NFA.removeUnreachable (N : NFA σ) : NFA σ :=
  let rs := N.reachableStart
  let re := N.reachableEnd
  (N.filterEdges (fun _ e => flag rs e.dst && flag re e.dst)
    (fun _ t => flag rs t.dst && flag re t.dst)).removeDead
    (List.zipWith (fun a b => !a || !b) rs re)

/-- The part of `new_loop_opt` that is the same in both copies, working_nfa.rs 441-458 and
working_u8_nfa.rs 459-475. The searches index state 0, which panics on an automaton without states. -/
def NFA.finish [Sym σ α] (N : NFA σ) : Except Err (NFA σ) :=
  if N.isEmpty then .error .panic
  else
    match optimizeLoop (N.clearZeroSymbol.size + 1) N.clearZeroSymbol with
    | .error e => .error e
    | .ok N' => .ok N'.removeUnreachable

/-- `.*?`: `nfa_star(nfa_symbol(any), false)`, working_nfa.rs 425-428, working_u8_nfa.rs 443. -/
def anyLoop (a : σ) : NFA σ := nfaStar (nfaSymbol a) false

/-- The optional loops around an automaton, working_nfa.rs 422-440. -/
def NFA.withLoops (N : NFA σ) (a : σ) (startLoop endLoop : Bool) : NFA σ :=
  let N1 := if startLoop then nfaConcat [anyLoop a, N] else N
  if endLoop then nfaConcat [N1, anyLoop a] else N1

/-- Character symbol accepting everything: `Atom::NonmatchingList(Vec::new())`. -/
def anyAtom : Atom := .nonmatching []

/-- `WorkingNFA::new_loop_opt`, working_nfa.rs 416-460. -/
def newLoopOpt (t : Tree) (startLoop endLoop : Bool) : Except Err (NFA Atom) :=
  ((build t).cleanStartAnchors.cleanEndAnchors.withLoops anyAtom startLoop endLoop).finish

/-- `WorkingNFA::new`, working_nfa.rs 412-414. -/
def workingNew (t : Tree) : Except Err (NFA Atom) := newLoopOpt t true true

/-! ## `WorkingNFA::test`, working_nfa.rs 935-985, and `U8NFA::test`, working_u8_nfa.rs 925-975 -/

/-- The guard of an epsilon in `test`, working_nfa.rs 953-957. -/
def epsGuard (off total : Nat) : EpsType → Bool
  | .startAnchor => off == 0
  | .endAnchor => off == total
  | _ => true

/-- `propogate_epsilon`, working_nfa.rs 941-966: all marked states are put on the stack. -/
def NFA.propagate (N : NFA σ) (total off : Nat) (list : List Bool) : List Bool :=
  dfs (N.succs (epsGuard off total) false)
    ((list.zipIdx.filter (fun p => p.1)).map (·.2)).reverse list

/-- The symbol step, working_nfa.rs 970-980: targets of matching transitions of marked states are
marked in an empty list. -/
def NFA.symbolStep [Sym σ α] (N : NFA σ) (list : List Bool) (c : α) : List Bool :=
  (N.zipIdx.flatMap (fun p =>
    if flag list p.2 then (p.1.transitions.filter (fun t => Sym.check t.symbol c)).map (·.dst)
    else [])).foldl (fun l x => l.set x true) (List.replicate N.length false)

/-- The loop over the text, working_nfa.rs 968-984. -/
def NFA.testLoop [Sym σ α] (N : NFA σ) (total : Nat) : Nat → List α → List Bool → List Bool
  | off, [], list => N.propagate total off list
  | off, c :: cs, list =>
    N.testLoop total (off + Sym.len (σ := σ) c) cs (N.symbolStep (N.propagate total off list) c)

/-- `test`; `list[0] = true` panics on an automaton without states. -/
def NFA.test [Sym σ α] (N : NFA σ) (text : List α) : Except Err Bool :=
  if N.isEmpty then .error .panic
  else
    .ok (flag (N.testLoop ((text.map (Sym.len (σ := σ))).sum) 0 text
      ((List.replicate N.length false).set 0 true)) (N.length - 1))

/-! ## Meta data -/

/-- `num_capture_groups`, working_nfa.rs 854-866 and working_u8_nfa.rs 819-831. -/
def NFA.numCaptureGroups (N : NFA σ) : Nat :=
  ((N.flatMap (·.epsilons)).map (fun e => match e.special with
    | .startCapture g => g
    | _ => 0)).foldl max 0 + 1

/-- `capture_group_is_optional`, working_nfa.rs 869-892 (without its `debug_assert_ne!`). -/
def NFA.groupIsOptional (N : NFA σ) (g : Nat) : Bool :=
  flag (N.reachFrom (· != .startCapture g) true 0) (N.length - 1)

end Ere
