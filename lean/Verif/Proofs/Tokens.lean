import Verif.Model.Tokens
import Verif.Proofs.Pipeline
import Verif.Proofs.OnePassTop

/-! The emitted tokens denote what they were made from. -/

namespace Ere

/-- The runtime form of an atom. -/
def Atom.static : Atom → AtomStatic
  | .normal c => .normal c
  | .dot => .dot
  | .matching ts => .matching ts
  | .nonmatching ts => .nonmatching ts

theorem static_check (a : Atom) (c : Char) : a.static.check c = a.check c := by
  cases a <;> rfl

/-- No `[:graph:]` and no `[:xdigit:]`. -/
def Term.nameable : Term → Bool
  | .cls .graphic => false
  | .cls .hexDigit => false
  | _ => true

def Atom.nameable : Atom → Bool
  | .matching ts => ts.all Term.nameable
  | .nonmatching ts => ts.all Term.nameable
  | _ => true

theorem mapM_map_if {α β γ : Type} (f : β → Option γ) (g : α → β) (h : α → γ) (ok : α → Bool) :
    ∀ (l : List α), (∀ x ∈ l, f (g x) = if ok x then some (h x) else none) →
      (l.map g).mapM f = if l.all ok then some (l.map h) else none := by
  intro l
  induction l with
  | nil => intro _; rfl
  | cons x l ih =>
    intro hx
    rw [List.map_cons, List.mapM_cons, hx x (by simp), ih (fun y hy => hx y (by simp [hy]))]
    cases hk : ok x <;> cases hl : l.all ok <;> simp [hk, hl]

theorem evalClass_tok {cr : List String} (h : cr.contains "ere" = true) (k : BracketCharClass) :
    evalClass cr k.tok = if (Term.cls k).nameable then some k else none := by
  cases k <;> simp only [BracketCharClass.tok, evalClass, resolve, clsPath, h, Bool.true_and] <;> rfl

theorem evalTerm_tok {cr : List String} (h : cr.contains "ere" = true) (t : Term) :
    evalTerm cr t.tok = if t.nameable then some t else none := by
  cases t with
  | single c => simp only [Term.tok, evalTerm, resolve, termPath, h, Bool.true_and]; rfl
  | range a b => simp only [Term.tok, evalTerm, resolve, termPath, h, Bool.true_and]; rfl
  | cls k =>
    have e := evalClass_tok h k
    have hp : ∃ p, k.tok = .path p := by cases k <;> exact ⟨_, rfl⟩
    obtain ⟨p, hp⟩ := hp
    rw [hp] at e
    simp only [Term.tok, hp, evalTerm, resolve, termPath, h, Bool.true_and]
    rw [if_pos (by rfl), e]
    split <;> rfl

theorem evalAtom_tok {cr : List String} (h : cr.contains "ere" = true) (a : Atom) :
    evalAtom cr a.tok = if a.nameable then some a.static else none := by
  have hm : ∀ ts : List Term, (ts.map Term.tok).mapM (evalTerm cr) =
      if ts.all Term.nameable then some ts else none := by
    intro ts
    have := mapM_map_if (evalTerm cr) Term.tok id Term.nameable ts (fun x _ => evalTerm_tok h x)
    simpa using this
  cases a with
  | normal c => simp only [Atom.tok, evalAtom, resolve, atomPath, h, Bool.true_and]; rfl
  | dot => simp only [Atom.tok, evalAtom, evalDot, resolve, atomPath, h, Bool.true_and]; rfl
  | matching ts =>
    simp only [Atom.tok, evalAtom, hm, resolve, atomPath, h, Bool.true_and]
    by_cases hk : ts.all Term.nameable = true
    · rw [if_pos hk, if_pos (show (Atom.matching ts).nameable = true from hk)]; rfl
    · rw [if_neg hk, if_neg (show ¬ (Atom.matching ts).nameable = true from hk)]
  | nonmatching ts =>
    simp only [Atom.tok, evalAtom, hm, resolve, atomPath, h, Bool.true_and]
    by_cases hk : ts.all Term.nameable = true
    · rw [if_pos hk, if_pos (show (Atom.nonmatching ts).nameable = true from hk)]; rfl
    · rw [if_neg hk, if_neg (show ¬ (Atom.nonmatching ts).nameable = true from hk)]

theorem evalEpsType_tok {cr : List String} (h : cr.contains "ere" = true) (e : EpsType) :
    evalEpsType cr e.tok = some e := by
  cases e <;> simp only [EpsType.tok, evalEpsType, resolve, epsPath, h, Bool.true_and] <;> rfl

theorem evalEps_tok {cr : List String} (h : cr.contains "ere" = true) (e : Eps) :
    evalEps cr e.tok = if cr.contains "ere_core" then some e else none := by
  have e1 := evalEpsType_tok h e.special
  cases hc : cr.contains "ere_core"
  · simp only [Eps.tok, evalEps, resolve, hc, Bool.false_and]; rfl
  · simp only [Eps.tok, evalEps, resolve, hc, Bool.true_and, e1]; rfl

theorem evalTrans_tok {cr : List String} (h : cr.contains "ere" = true) (t : Trans Atom) :
    evalTrans cr (transTok t) = if t.symbol.nameable then some ⟨t.dst, t.symbol.static⟩ else none := by
  simp only [transTok, evalTrans, resolve, h, Bool.true_and, evalAtom_tok h]
  rw [if_pos (by rfl)]
  split <;> rfl

/-- The runtime form of a state. -/
def stateStatic (s : State Atom) : State AtomStatic :=
  ⟨s.transitions.map (fun t => ⟨t.dst, t.symbol.static⟩), s.epsilons⟩

/-- Whether the tokens of a state resolve. -/
def stateNameable (cr : List String) (s : State Atom) : Bool :=
  s.transitions.all (fun t => t.symbol.nameable) && (s.epsilons.isEmpty || cr.contains "ere_core")

theorem evalState_tok {cr : List String} (h : cr.contains "ere" = true) (s : State Atom) :
    evalState cr (stateTok s) = if stateNameable cr s then some (stateStatic s) else none := by
  have h1 := mapM_map_if (evalTrans cr) transTok (fun t => (⟨t.dst, t.symbol.static⟩ : Trans AtomStatic))
    (fun t => t.symbol.nameable) s.transitions (fun t _ => evalTrans_tok h t)
  have h2 := mapM_map_if (evalEps cr) Eps.tok id (fun _ => cr.contains "ere_core") s.epsilons
    (fun t _ => evalEps_tok h t)
  have h3 : s.epsilons.all (fun _ => cr.contains "ere_core") = (s.epsilons.isEmpty || cr.contains "ere_core") := by
    cases s.epsilons with
    | nil => simp
    | cons a l => cases hc : cr.contains "ere_core" <;> simp
  simp only [stateTok, evalState, resolve, h, Bool.true_and, h1, h2, h3, List.map_id]
  rw [if_pos (by rfl)]
  unfold stateNameable
  cases s.transitions.all (fun t => t.symbol.nameable) <;>
    cases (s.epsilons.isEmpty || cr.contains "ere_core") <;> rfl

theorem evalNFA_tok {cr : List String} (h : cr.contains "ere" = true) (N : NFA Atom) :
    evalNFA cr (nfaTok N) =
      if N.all (stateNameable cr) then some ⟨N.numCaptureGroups, N.map stateStatic⟩ else none := by
  have h1 := mapM_map_if (evalState cr) stateTok stateStatic (stateNameable cr) N (fun t _ => evalState_tok h t)
  simp only [nfaTok, evalNFA, resolve, h, Bool.true_and, h1]
  rw [if_pos (by rfl)]
  split <;> rfl

/-! ## Renaming symbols does not change `test` -/

section
variable {σ τ α : Type} [Sym σ α] [Sym τ α]

/-- Replace every symbol. -/
def NFA.mapSym (f : σ → τ) (N : NFA σ) : NFA τ :=
  N.map (fun s => ⟨s.transitions.map (fun t => ⟨t.dst, f t.symbol⟩), s.epsilons⟩)

omit [Sym σ α] [Sym τ α] in
theorem mapSym_succs (f : σ → τ) (N : NFA σ) (g q) :
    (N.mapSym f).succs g false q = N.succs g false q := by
  unfold NFA.succs NFA.mapSym
  rw [List.getElem?_map]
  cases N[q]? with
  | none => rfl
  | some s => simp [State.succs]

omit [Sym σ α] [Sym τ α] in
theorem mapSym_propagate (f : σ → τ) (N : NFA σ) (total off list) :
    (N.mapSym f).propagate total off list = N.propagate total off list := by
  unfold NFA.propagate
  have : (N.mapSym f).succs (epsGuard off total) false = N.succs (epsGuard off total) false := by
    funext q; exact mapSym_succs f N _ q
  rw [this]

theorem mapSym_symbolStep (f : σ → τ) (hf : ∀ a (c : α), Sym.check (f a) c = Sym.check a c) (N : NFA σ) (list)
    (c : α) : (N.mapSym f).symbolStep list c = N.symbolStep list c := by
  unfold NFA.symbolStep
  have h1 : (N.mapSym f).length = N.length := by simp [NFA.mapSym]
  rw [h1]
  congr 1
  unfold NFA.mapSym
  rw [List.zipIdx_map, List.flatMap_map]
  congr 1
  funext p
  simp only [Prod.map_fst, Prod.map_snd, id]
  split
  · simp only [List.filter_map, List.map_map]
    have e1 : ((fun t : Trans τ => Sym.check t.symbol c) ∘ fun t : Trans σ => (⟨t.dst, f t.symbol⟩ : Trans τ)) =
        fun t => Sym.check t.symbol c := by
      funext t; simp [hf]
    rw [e1]; rfl
  · rfl

theorem mapSym_test (f : σ → τ) (hf : ∀ a (c : α), Sym.check (f a) c = Sym.check a c)
    (hl : ∀ c : α, Sym.len (σ := τ) c = Sym.len (σ := σ) c) (N : NFA σ) (text : List α) :
    (N.mapSym f).test text = N.test text := by
  have h1 : (N.mapSym f).length = N.length := by simp [NFA.mapSym]
  have h2 : ∀ total (cs : List α) off list, (N.mapSym f).testLoop total off cs list = N.testLoop total off cs list := by
    intro total cs
    induction cs with
    | nil => intro off list; exact mapSym_propagate f N total off list
    | cons c cs ih =>
      intro off list
      rw [NFA.testLoop, NFA.testLoop, mapSym_propagate, mapSym_symbolStep f hf, hl, ih]
  have h3 : (text.map (Sym.len (σ := τ))) = text.map (Sym.len (σ := σ)) := List.map_congr_left fun c _ => hl c
  unfold NFA.test
  rw [h1, h2, h3]
  have : (N.mapSym f).isEmpty = N.isEmpty := by simp [NFA.mapSym]
  rw [this]
end

theorem static_test (N : NFA Atom) (text : List Char) :
    NFA.test (σ := AtomStatic) (N.map stateStatic) text = N.test text :=
  mapSym_test Atom.static static_check (fun _ => rfl) N text

end Ere
