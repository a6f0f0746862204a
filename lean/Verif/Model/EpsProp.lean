import Verif.Model.Opt

/-!
# Epsilon propagation

Source: `/repo/ere-core/src/epsilon_propogation.rs`. The two functions (characters 42-98, bytes
105-161) are textually identical up to types, so the model is generic.
-/

namespace Ere

/-- `Tag`, epsilon_propogation.rs 7-12. -/
inductive Tag
  | startCapture (g : Nat)
  | endCapture (g : Nat)
deriving DecidableEq, Repr, Inhabited

/-- `Tag::capture_group`, epsilon_propogation.rs 15-19. -/
def Tag.group : Tag → Nat
  | .startCapture g => g
  | .endCapture g => g

/-- `EpsilonPropogation`, epsilon_propogation.rs 23-36. -/
structure EpsProp where
  state : Nat
  tags : List Tag
  startOnly : Bool
  endOnly : Bool
deriving DecidableEq, Repr, Inhabited

/-- `if !update_tags.contains(&t) { update_tags.push(t) }`, epsilon_propogation.rs 66-73, 76-81. -/
def addTag (ts : List Tag) (t : Tag) : List Tag := if ts.contains t then ts else ts ++ [t]

/-- The new thread for one epsilon, epsilon_propogation.rs 57-84. -/
def EpsProp.extend (t : EpsProp) (e : Eps) : EpsProp :=
  match e.special with
  | .none => ⟨e.dst, t.tags, t.startOnly, t.endOnly⟩
  | .startAnchor => ⟨e.dst, t.tags, true, t.endOnly⟩
  | .endAnchor => ⟨e.dst, t.tags, t.startOnly, true⟩
  | .startCapture g => ⟨e.dst, addTag t.tags (.startCapture g), t.startOnly, t.endOnly⟩
  | .endCapture g => ⟨e.dst, addTag t.tags (.endCapture g), t.startOnly, t.endOnly⟩

/-- The recursion pattern of `traverse`, epsilon_propogation.rs 50-89, for an arbitrary successor
function: push on entry, then visit in order the successors not yet in the output. `k` bounds the
recursion depth (never exhausted: `preorder_spec`). -/
def preorder {β : Type} [DecidableEq β] (succ : β → List β) : Nat → β → List β → Except Err (List β)
  | 0, _, _ => .error .fuel
  | k + 1, x, out =>
    (succ x).foldlM (fun out y => if out.contains y then .ok out else preorder succ k y out) (out ++ [x])

variable {σ : Type}

/-- Successors of a thread. (`states[thread.state]` is always in range in a well-formed automaton.) -/
def NFA.propSucc (N : NFA σ) (t : EpsProp) : List EpsProp :=
  match N[t.state]? with
  | some s => s.epsilons.map t.extend
  | none => []

/-- The tag set by an epsilon. -/
def EpsType.tag? : EpsType → Option Tag
  | .startCapture g => some (.startCapture g)
  | .endCapture g => some (.endCapture g)
  | _ => Option.none

/-- All tags of an automaton (only used to bound the recursion depth). -/
def NFA.allTags (N : NFA σ) : List Tag := (N.flatMap (·.epsilons)).filterMap (·.special.tag?)

/-- Number of lists of length at most `k` over `m` letters (only used to bound the recursion depth). -/
def cntLists (m : Nat) : Nat → Nat
  | 0 => 1
  | k + 1 => 1 + m * cntLists m k

/-- `calculate_epsilon_propogations_char` / `_u8`, epsilon_propogation.rs 42-98 and 105-161. -/
def NFA.epsProps (N : NFA σ) (q : Nat) : Except Err (List EpsProp) :=
  preorder N.propSucc (N.length * cntLists N.allTags.length N.allTags.length * 4) ⟨q, [], false, false⟩ []

end Ere
