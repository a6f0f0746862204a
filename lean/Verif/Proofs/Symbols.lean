import Verif.Proofs.OnePassTop

/-! Every symbol of a compiled automaton is an atom of the pattern or the atom of the search loops. -/

namespace Ere
variable {σ : Type}

/-- All symbols satisfy `Q`. -/
def SymQ (Q : σ → Prop) (N : NFA σ) : Prop := ∀ s ∈ N, ∀ t ∈ s.transitions, Q t.symbol

theorem SymQ.symP {Q} {N : NFA σ} (h : SymQ Q N) : SymP Q N := by
  intro p a q he
  obtain ⟨s, h1, h2⟩ := hasEdge_iff.mp he
  exact h s (List.mem_of_getElem? h1) _ h2

theorem SymP.symQ {Q} {N : NFA σ} (h : SymP Q N) : SymQ Q N := by
  intro s hs t ht
  obtain ⟨i, hi⟩ := List.mem_iff_getElem?.mp hs
  exact h i t.symbol t.dst (hasEdge_iff.mpr ⟨s, hi, ht⟩)

theorem symQ_nil {Q} : SymQ Q ([] : NFA σ) := by intro s hs; simp at hs

theorem symQ_append {Q} {A B : NFA σ} : SymQ Q (A ++ B) ↔ SymQ Q A ∧ SymQ Q B := by
  constructor
  · intro h; exact ⟨fun s hs => h s (by simp [hs]), fun s hs => h s (by simp [hs])⟩
  · rintro ⟨h1, h2⟩ s hs
    rcases List.mem_append.mp hs with h | h
    · exact h1 s h
    · exact h2 s h

theorem symQ_cons {Q} {s : State σ} {B : NFA σ} :
    SymQ Q (s :: B) ↔ (∀ t ∈ s.transitions, Q t.symbol) ∧ SymQ Q B := by
  unfold SymQ; simp

theorem symQ_new {Q} : SymQ Q ([State.new] : NFA σ) := by simp [SymQ, State.new]

theorem symQ_shift {Q} {A : NFA σ} (h : SymQ Q A) (k) : SymQ Q (A.shift k) := by
  intro s hs e he
  obtain ⟨s', h1, rfl⟩ := List.mem_map.mp hs
  obtain ⟨e', h2, rfl⟩ := List.mem_map.mp he
  exact h s' h1 e' h2

theorem symQ_pushLast {Q} {A : NFA σ} (h : SymQ Q A) {x : Eps} : SymQ Q (A.pushLast x) := by
  induction A with
  | nil => exact symQ_nil
  | cons s A ih =>
    cases A with
    | nil =>
      intro s' hs e he
      simp only [NFA.pushLast, List.mem_singleton] at hs
      subst hs
      exact h s (by simp) e he
    | cons t A =>
      rw [NFA.pushLast, symQ_cons]
      rw [symQ_cons] at h
      exact ⟨h.1, ih h.2⟩

theorem symQ_block {Q} {A : NFA σ} (h : SymQ Q A) {k} {x : Eps} : SymQ Q ((A.shift k).pushLast x) :=
  symQ_pushLast (symQ_shift h k)

theorem symQ_concatBody {Q} : ∀ (ns : List (NFA σ)) (off), (∀ n ∈ ns, SymQ Q n) → SymQ Q (concatBody off ns)
  | [], _, _ => symQ_nil
  | n :: ns, off, h => by
    rw [concatBody]
    exact symQ_append.mpr ⟨symQ_block (h n (by simp)), symQ_concatBody ns _ fun m hm => h m (by simp [hm])⟩

theorem symQ_concat {Q} {ns : List (NFA σ)} (h : ∀ n ∈ ns, SymQ Q n) : SymQ Q (nfaConcat ns) := by
  rw [nfaConcat, List.cons_append, symQ_cons, symQ_append]
  exact ⟨by simp, symQ_concatBody ns _ h, symQ_new⟩

theorem symQ_unionBody {Q} : ∀ (ns : List (NFA σ)) (off fin), (∀ n ∈ ns, SymQ Q n) → SymQ Q (unionBody off fin ns)
  | [], _, _, _ => symQ_nil
  | n :: ns, off, fin, h => by
    rw [unionBody]
    exact symQ_append.mpr ⟨symQ_block (h n (by simp)), symQ_unionBody ns _ _ fun m hm => h m (by simp [hm])⟩

theorem symQ_union {Q} {ns : List (NFA σ)} (h : ∀ n ∈ ns, SymQ Q n) : SymQ Q (nfaUnion ns) := by
  rw [nfaUnion]
  rw [List.cons_append, symQ_cons, symQ_append]
  exact ⟨by simp, symQ_unionBody ns _ _ h, symQ_new⟩

theorem symQ_capture {Q} {n : NFA σ} (h : SymQ Q n) {g} : SymQ Q (nfaCapture n g) := by
  rw [nfaCapture]
  rw [List.cons_append, symQ_cons, symQ_append]
  exact ⟨by simp, symQ_block h, symQ_new⟩

theorem symQ_uptoBody {Q} {n : NFA σ} (h : SymQ Q n) (fin lg) : ∀ k off, SymQ Q (uptoBody n fin lg off k)
  | 0, off => by
    rw [uptoBody]
    exact symQ_append.mpr ⟨symQ_block h, symQ_new⟩
  | k + 1, off => by
    rw [uptoBody]
    rw [symQ_append, symQ_cons]
    exact ⟨symQ_block h, by simp, symQ_uptoBody h fin lg k _⟩

theorem symQ_upto {Q} {n : NFA σ} (h : SymQ Q n) (k lg) : SymQ Q (nfaUpto n k lg) := by
  rw [nfaUpto]
  rw [symQ_cons]
  exact ⟨by cases lg <;> simp, symQ_uptoBody h _ _ _ _⟩

theorem symQ_star {Q} {n : NFA σ} (h : SymQ Q n) (lg) : SymQ Q (nfaStar n lg) := by
  rw [nfaStar]
  rw [List.cons_append, symQ_cons, symQ_append]
  exact ⟨by simp, symQ_block h, symQ_new⟩

theorem symQ_filter {Q} {N : NFA σ} (h : SymQ Q N) (fe ft) : SymQ Q (N.filterEdges fe ft) := by
  refine SymP.symQ fun p a q he => ?_
  exact h.symP _ _ _ (hasEdge_filterEdges.mp he).1

theorem symQ_symbol {Q} {a : σ} (h : Q a) : SymQ Q (nfaSymbol a) := by simp [SymQ, nfaSymbol, State.new, h]

theorem symQ_withLoops {Q} {N : NFA σ} (h : SymQ Q N) {a : σ} (hq : Q a) (sl el) : SymQ Q (N.withLoops a sl el) := by
  have ha : SymQ Q (anyLoop a) := symQ_star (symQ_symbol hq) _
  unfold NFA.withLoops
  have h1 : SymQ Q (if sl then nfaConcat [anyLoop a, N] else N) := by
    split
    · exact symQ_concat (by simp [ha, h])
    · exact h
  dsimp only
  split
  · exact symQ_concat (by simp [ha, h1])
  · exact h1

mutual
/-- All symbols of a tree satisfy `Q`. -/
def Tree.SymQ (Q : Atom → Prop) : Tree → Prop
  | .symbol a => Q a
  | .union ts => Tree.SymQList Q ts
  | .concat ts => Tree.SymQList Q ts
  | .capture t _ => t.SymQ Q
  | .rep t _ => t.SymQ Q
  | .upTo t _ _ => t.SymQ Q
  | .star t _ => t.SymQ Q
  | .empty => True
  | .start => True
  | .end_ => True
  | .never => True
def Tree.SymQList (Q : Atom → Prop) : List Tree → Prop
  | [] => True
  | t :: ts => t.SymQ Q ∧ Tree.SymQList Q ts
end

mutual
theorem build_symQ {Q} : (t : Tree) → t.SymQ Q → Ere.SymQ Q (build t)
  | .empty, _ => by rw [build]; exact symQ_new
  | .symbol a, h => by rw [build]; rw [Tree.SymQ] at h; exact symQ_symbol h
  | .union ts, h => by rw [build]; rw [Tree.SymQ] at h; exact symQ_union (buildList_symQ ts h)
  | .capture t g, h => by rw [build]; rw [Tree.SymQ] at h; exact symQ_capture (build_symQ t h)
  | .concat ts, h => by rw [build]; rw [Tree.SymQ] at h; exact symQ_concat (buildList_symQ ts h)
  | .rep t n, h => by
    rw [build]; rw [Tree.SymQ] at h
    refine symQ_concat fun m hm => ?_
    rw [List.eq_of_mem_replicate hm]; exact build_symQ t h
  | .upTo t n l, h => by rw [build]; rw [Tree.SymQ] at h; exact symQ_upto (build_symQ t h) n l
  | .star t l, h => by rw [build]; rw [Tree.SymQ] at h; exact symQ_star (build_symQ t h) l
  | .start, _ => by rw [build]; simp [Ere.SymQ, nfaStart, State.new]
  | .end_, _ => by rw [build]; simp [Ere.SymQ, nfaEnd, State.new]
  | .never, _ => by rw [build]; simp [Ere.SymQ, nfaNever, State.new]
theorem buildList_symQ {Q} : (ts : List Tree) → Tree.SymQList Q ts → ∀ n ∈ buildList ts, Ere.SymQ Q n
  | [], _ => by simp [buildList]
  | t :: ts, h => by
    intro n hn
    rw [Tree.SymQList] at h
    rw [buildList, List.mem_cons] at hn
    rcases hn with rfl | hn
    · exact build_symQ t h.1
    · exact buildList_symQ ts h.2 n hn
end

theorem symQList_append {Q} {a b : List Tree} (ha : Tree.SymQList Q a) (hb : Tree.SymQList Q b) :
    Tree.SymQList Q (a ++ b) := by
  induction a with
  | nil => exact hb
  | cons t a ih =>
    rw [Tree.SymQList] at ha
    rw [List.cons_append, Tree.SymQList]
    exact ⟨ha.1, ih ha.2⟩

theorem symQ_concat' {Q} {a b : Tree} (ha : a.SymQ Q) (hb : b.SymQ Q) : (a.concat' b).SymQ Q := by
  unfold Tree.concat'
  split
  · rw [Tree.SymQ] at ha ⊢
    exact symQList_append ha (by simp [Tree.SymQList, hb])
  · simp [Tree.SymQ, Tree.SymQList, ha, hb]

theorem symQ_repeat' {Q} {a : Tree} (ha : a.SymQ Q) (n) : (a.repeat' n).SymQ Q := by
  cases n <;> simp [Tree.repeat', Tree.SymQ, ha]

theorem symQ_upto' {Q} {a : Tree} (ha : a.SymQ Q) (n l) : (a.upto' n l).SymQ Q := by
  cases n <;> simp [Tree.upto', Tree.SymQ, ha]

theorem symQ_applyQuantifier {Q} {c : Tree} (hc : c.SymQ Q) (q : Quantifier) :
    (Tree.applyQuantifier c q).SymQ Q := by
  unfold Tree.applyQuantifier
  have hstar : ∀ l, (Tree.star c l).SymQ Q := fun l => by rw [Tree.SymQ]; exact hc
  dsimp only
  split
  · exact hstar _
  · exact symQ_concat' hc (hstar _)
  · exact symQ_upto' hc _ _
  · exact symQ_repeat' hc _
  · exact symQ_concat' (symQ_repeat' hc _) (hstar _)
  · split
    · simp [Tree.SymQ]
    · split
      · exact symQ_repeat' hc _
      · exact symQ_concat' (symQ_repeat' hc _) (symQ_upto' hc _ _)

mutual
theorem symQ_fromSubERE {P : Atom → Bool} : (e : ERE) → ∀ g, e.atomsAll P = true →
    (Tree.fromSubERE e g).1.SymQ (P · = true)
  | .mk bs, g => by
    rw [ERE.atomsAll, Tree.fromSubERE]; simp only [Tree.SymQ]; exact symQ_fromBranches bs g
theorem symQ_fromBranches {P : Atom → Bool} : (bs : List EREBranch) → ∀ g, branchesAtoms P bs = true →
    Tree.SymQList (P · = true) (Tree.fromBranches bs g).1
  | [], g => by simp [Tree.fromBranches, Tree.SymQList]
  | b :: bs, g => by
    rw [branchesAtoms, Tree.fromBranches, Bool.and_eq_true]; simp only [Tree.SymQList]
    exact fun h => ⟨symQ_fromBranch b g h.1, symQ_fromBranches bs _ h.2⟩
theorem symQ_fromBranch {P : Atom → Bool} : (b : EREBranch) → ∀ g, b.atomsAll P = true →
    (Tree.fromBranch b g).1.SymQ (P · = true)
  | .mk ps, g => by
    rw [EREBranch.atomsAll, Tree.fromBranch]; simp only [Tree.SymQ]; exact symQ_fromParts ps g
theorem symQ_fromParts {P : Atom → Bool} : (ps : List EREPart) → ∀ g, partsAtoms P ps = true →
    Tree.SymQList (P · = true) (Tree.fromParts ps g).1
  | [], g => by simp [Tree.fromParts, Tree.SymQList]
  | p :: ps, g => by
    rw [partsAtoms, Tree.fromParts, Bool.and_eq_true]; simp only [Tree.SymQList]
    exact fun h => ⟨symQ_fromPart p g h.1, symQ_fromParts ps _ h.2⟩
theorem symQ_fromPart {P : Atom → Bool} : (p : EREPart) → ∀ g, p.atomsAll P = true →
    (Tree.fromPart p g).1.SymQ (P · = true)
  | .single e, g => by rw [EREPart.atomsAll, Tree.fromPart]; exact symQ_fromExpr e g
  | .quantified e q, g => by
    rw [EREPart.atomsAll, Tree.fromPart]
    exact fun h => symQ_applyQuantifier (symQ_fromExpr e g h) q
  | .start, g => by intro _; simp only [Tree.fromPart, Tree.SymQ]
  | .end_, g => by intro _; simp only [Tree.fromPart, Tree.SymQ]
theorem symQ_fromExpr {P : Atom → Bool} : (e : EREExpr) → ∀ g, e.atomsAll P = true →
    (Tree.fromExpr e g).1.SymQ (P · = true)
  | .atom a, g => by intro h; simpa [Tree.fromExpr, Tree.SymQ, EREExpr.atomsAll] using h
  | .sub e, g => by
    rw [EREExpr.atomsAll, Tree.fromExpr]
    intro h
    simp only [Tree.SymQ]
    exact symQ_fromSubERE e (g + 1) h
end

/-- The symbols of the compiled character automaton. -/
theorem symQ_pipeline (e : ERE) {P : Atom → Bool} (he : e.atomsAll P = true) (ha : P anyAtom = true)
    {N : NFA Atom} (h1 : workingNew (Tree.fromERE e).1 = .ok N) (hN : N ≠ []) : SymQ (P · = true) N := by
  have ht := starOk_fromERE e
  have hb := build_shape _ ht
  have hc1 : Shape (build (Tree.fromERE e).1).cleanStartAnchors := filterEdges_shape hb
  have hc : Shape (build (Tree.fromERE e).1).cleanStartAnchors.cleanEndAnchors := filterEdges_shape hc1
  have hT : (Tree.fromERE e).1.SymQ (P · = true) := by
    unfold Tree.fromERE; simp only [Tree.SymQ]; exact symQ_fromSubERE e 1 he
  have hL : SymQ (P · = true) ((build (Tree.fromERE e).1).cleanStartAnchors.cleanEndAnchors.withLoops anyAtom true true) :=
    symQ_withLoops (symQ_filter (symQ_filter (build_symQ _ hT) _ _) _ _) ha _ _
  rw [workingNew, newLoopOpt] at h1
  exact ((symP_stable (α := Char) (fun a : Atom => P a = true)).finish (withLoops_shape hc anyAtom true true)
    (symQ_filter hL _ _).symP h1 hN).symQ

end Ere
