import Verif.Proofs.Close
import Verif.Spec.Syntax

/-! Which anchors and capture marks occur in an automaton. -/

namespace Ere
variable {σ : Type}

/-- All epsilons are plain or satisfy `Q`. -/
def EpsQ (Q : EpsType → Prop) (N : NFA σ) : Prop := ∀ s ∈ N, ∀ e ∈ s.epsilons, e.special = .none ∨ Q e.special

theorem EpsQ.edge {Q} {N : NFA σ} (h : EpsQ Q N) {p e q} (he : N.HasEdge p (.eps e) q) : e = .none ∨ Q e := by
  obtain ⟨s, h1, h2⟩ := hasEdge_iff.mp he
  exact h s (List.mem_of_getElem? h1) _ h2

theorem epsQ_nil {Q} : EpsQ Q ([] : NFA σ) := by intro s hs; simp at hs

theorem epsQ_append {Q} {A B : NFA σ} : EpsQ Q (A ++ B) ↔ EpsQ Q A ∧ EpsQ Q B := by
  constructor
  · intro h; exact ⟨fun s hs => h s (by simp [hs]), fun s hs => h s (by simp [hs])⟩
  · rintro ⟨h1, h2⟩ s hs
    rcases List.mem_append.mp hs with h | h
    · exact h1 s h
    · exact h2 s h

theorem epsQ_cons {Q} {s : State σ} {B : NFA σ} :
    EpsQ Q (s :: B) ↔ (∀ e ∈ s.epsilons, e.special = .none ∨ Q e.special) ∧ EpsQ Q B := by
  unfold EpsQ; simp

theorem epsQ_new {Q} : EpsQ Q ([State.new] : NFA σ) := by simp [EpsQ, State.new]

theorem epsQ_shift {Q} {A : NFA σ} (h : EpsQ Q A) (k) : EpsQ Q (A.shift k) := by
  intro s hs e he
  obtain ⟨s', h1, rfl⟩ := List.mem_map.mp hs
  obtain ⟨e', h2, rfl⟩ := List.mem_map.mp he
  exact h s' h1 e' h2

theorem epsQ_pushLast {Q} {A : NFA σ} (h : EpsQ Q A) {x : Eps} (hx : x.special = .none ∨ Q x.special) :
    EpsQ Q (A.pushLast x) := by
  induction A with
  | nil => exact epsQ_nil
  | cons s A ih =>
    cases A with
    | nil =>
      intro s' hs e he
      simp only [NFA.pushLast, List.mem_singleton] at hs
      subst hs
      rcases List.mem_append.mp he with h1 | h1
      · exact h s (by simp) e h1
      · simp only [List.mem_singleton] at h1; subst h1; exact hx
    | cons t A =>
      rw [NFA.pushLast, epsQ_cons]
      rw [epsQ_cons] at h
      exact ⟨h.1, ih h.2⟩

theorem epsQ_block {Q} {A : NFA σ} (h : EpsQ Q A) {k} {x : Eps} (hx : x.special = .none ∨ Q x.special) :
    EpsQ Q ((A.shift k).pushLast x) := epsQ_pushLast (epsQ_shift h k) hx

theorem epsQ_concatBody {Q} : ∀ (ns : List (NFA σ)) (off), (∀ n ∈ ns, EpsQ Q n) → EpsQ Q (concatBody off ns)
  | [], _, _ => epsQ_nil
  | n :: ns, off, h => by
    rw [concatBody]
    exact epsQ_append.mpr ⟨epsQ_block (h n (by simp)) (Or.inl rfl), epsQ_concatBody ns _ fun m hm => h m (by simp [hm])⟩

theorem epsQ_concat {Q} {ns : List (NFA σ)} (h : ∀ n ∈ ns, EpsQ Q n) : EpsQ Q (nfaConcat ns) := by
  rw [nfaConcat, List.cons_append, epsQ_cons, epsQ_append]
  exact ⟨by simp [Eps.new], epsQ_concatBody ns _ h, epsQ_new⟩

theorem epsQ_unionBody {Q} : ∀ (ns : List (NFA σ)) (off fin), (∀ n ∈ ns, EpsQ Q n) → EpsQ Q (unionBody off fin ns)
  | [], _, _, _ => epsQ_nil
  | n :: ns, off, fin, h => by
    rw [unionBody]
    exact epsQ_append.mpr ⟨epsQ_block (h n (by simp)) (Or.inl rfl), epsQ_unionBody ns _ _ fun m hm => h m (by simp [hm])⟩

theorem epsQ_union {Q} {ns : List (NFA σ)} (h : ∀ n ∈ ns, EpsQ Q n) : EpsQ Q (nfaUnion ns) := by
  rw [nfaUnion]
  rw [List.cons_append, epsQ_cons, epsQ_append]
  exact ⟨fun e he => Or.inl (unionStarts_none ns 1 e he), epsQ_unionBody ns _ _ h, epsQ_new⟩

theorem epsQ_capture {Q} {n : NFA σ} (h : EpsQ Q n) {g} (h1 : Q (.startCapture g)) (h2 : Q (.endCapture g)) :
    EpsQ Q (nfaCapture n g) := by
  rw [nfaCapture]
  rw [List.cons_append, epsQ_cons, epsQ_append]
  exact ⟨by simp [h1], epsQ_block h (Or.inr h2), epsQ_new⟩

theorem epsQ_uptoBody {Q} {n : NFA σ} (h : EpsQ Q n) (fin lg) : ∀ k off, EpsQ Q (uptoBody n fin lg off k)
  | 0, off => by
    rw [uptoBody]
    exact epsQ_append.mpr ⟨epsQ_block h (Or.inl rfl), epsQ_new⟩
  | k + 1, off => by
    rw [uptoBody]
    rw [epsQ_append, epsQ_cons]
    refine ⟨epsQ_block h (Or.inl rfl), ?_, epsQ_uptoBody h fin lg k _⟩
    cases lg <;> simp [Eps.new]

theorem epsQ_upto {Q} {n : NFA σ} (h : EpsQ Q n) (k lg) : EpsQ Q (nfaUpto n k lg) := by
  rw [nfaUpto]
  rw [epsQ_cons]
  refine ⟨?_, epsQ_uptoBody h _ _ _ _⟩
  cases lg <;> simp [Eps.new]

theorem epsQ_star {Q} {n : NFA σ} (h : EpsQ Q n) (lg) : EpsQ Q (nfaStar n lg) := by
  rw [nfaStar]
  rw [List.cons_append, epsQ_cons, epsQ_append]
  refine ⟨?_, epsQ_block h (Or.inl rfl), epsQ_new⟩
  cases lg <;> simp [Eps.new]

theorem epsQ_filter {Q} {N : NFA σ} (h : EpsQ Q N) (fe ft) : EpsQ Q (N.filterEdges fe ft) := by
  intro s hs e he
  obtain ⟨i, hi⟩ := List.mem_iff_getElem?.mp hs
  have hn : (N.filterEdges fe ft).HasEdge i (.eps e.special) e.dst := hasEdge_iff.mpr ⟨s, hi, he⟩
  exact h.edge (hasEdge_filterEdges.mp hn).1

theorem epsQ_withLoops {Q} {N : NFA σ} (h : EpsQ Q N) (a : σ) (sl el) : EpsQ Q (N.withLoops a sl el) := by
  have ha : EpsQ Q (anyLoop a) := epsQ_star (by simp [EpsQ, nfaSymbol, State.new]) _
  unfold NFA.withLoops
  have h1 : EpsQ Q (if sl then nfaConcat [anyLoop a, N] else N) := by
    split
    · exact epsQ_concat (by simp [ha, h])
    · exact h
  dsimp only
  split
  · exact epsQ_concat (by simp [ha, h1])
  · exact h1

mutual
/-- All marks of a tree satisfy `Q`. -/
def Tree.MarkQ (Q : EpsType → Prop) : Tree → Prop
  | .empty | .symbol _ | .never => True
  | .union ts => Tree.MarkQList Q ts
  | .concat ts => Tree.MarkQList Q ts
  | .capture t g => t.MarkQ Q ∧ Q (.startCapture g) ∧ Q (.endCapture g)
  | .rep t _ => t.MarkQ Q
  | .upTo t _ _ => t.MarkQ Q
  | .star t _ => t.MarkQ Q
  | .start => Q .startAnchor
  | .end_ => Q .endAnchor
/-- The same for all trees of a list. -/
def Tree.MarkQList (Q : EpsType → Prop) : List Tree → Prop
  | [] => True
  | t :: ts => t.MarkQ Q ∧ Tree.MarkQList Q ts
end

mutual
theorem build_epsQ {Q} : (t : Tree) → t.MarkQ Q → EpsQ Q (build t)
  | .empty, _ => by rw [build]; exact epsQ_new
  | .symbol a, _ => by rw [build]; simp [EpsQ, nfaSymbol, State.new]
  | .union ts, h => by rw [build]; rw [Tree.MarkQ] at h; exact epsQ_union (buildList_epsQ ts h)
  | .capture t g, h => by
    rw [build]; rw [Tree.MarkQ] at h; exact epsQ_capture (build_epsQ t h.1) h.2.1 h.2.2
  | .concat ts, h => by rw [build]; rw [Tree.MarkQ] at h; exact epsQ_concat (buildList_epsQ ts h)
  | .rep t n, h => by
    rw [build]; rw [Tree.MarkQ] at h
    refine epsQ_concat fun m hm => ?_
    rw [List.eq_of_mem_replicate hm]; exact build_epsQ t h
  | .upTo t n l, h => by rw [build]; rw [Tree.MarkQ] at h; exact epsQ_upto (build_epsQ t h) n l
  | .star t l, h => by rw [build]; rw [Tree.MarkQ] at h; exact epsQ_star (build_epsQ t h) l
  | .start, h => by rw [build]; rw [Tree.MarkQ] at h; simp [EpsQ, nfaStart, State.new, h]
  | .end_, h => by rw [build]; rw [Tree.MarkQ] at h; simp [EpsQ, nfaEnd, State.new, h]
  | .never, _ => by rw [build]; simp [EpsQ, nfaNever, State.new]
theorem buildList_epsQ {Q} : (ts : List Tree) → Tree.MarkQList Q ts → ∀ n ∈ buildList ts, EpsQ Q n
  | [], _ => by simp [buildList]
  | t :: ts, h => by
    intro n hn
    rw [Tree.MarkQList] at h
    rw [buildList, List.mem_cons] at hn
    rcases hn with rfl | hn
    · exact build_epsQ t h.1
    · exact buildList_epsQ ts h.2 n hn
end

/-! ### Trees made from patterns -/

theorem markQList_append {Q} {a b : List Tree} (ha : Tree.MarkQList Q a) (hb : Tree.MarkQList Q b) :
    Tree.MarkQList Q (a ++ b) := by
  induction a with
  | nil => exact hb
  | cons t a ih =>
    rw [Tree.MarkQList] at ha
    rw [List.cons_append, Tree.MarkQList]
    exact ⟨ha.1, ih ha.2⟩

theorem markQ_concat' {Q} {a b : Tree} (ha : a.MarkQ Q) (hb : b.MarkQ Q) : (a.concat' b).MarkQ Q := by
  unfold Tree.concat'
  split
  · rw [Tree.MarkQ] at ha ⊢
    exact markQList_append ha (by simp [Tree.MarkQList, hb])
  · simp [Tree.MarkQ, Tree.MarkQList, ha, hb]

theorem markQ_repeat' {Q} {a : Tree} (ha : a.MarkQ Q) (n) : (a.repeat' n).MarkQ Q := by
  cases n <;> simp [Tree.repeat', Tree.MarkQ, ha]

theorem markQ_upto' {Q} {a : Tree} (ha : a.MarkQ Q) (n l) : (a.upto' n l).MarkQ Q := by
  cases n <;> simp [Tree.upto', Tree.MarkQ, ha]

theorem markQ_applyQuantifier {Q} {c : Tree} (hc : c.MarkQ Q) (q : Quantifier) :
    (Tree.applyQuantifier c q).MarkQ Q := by
  unfold Tree.applyQuantifier
  have hstar : ∀ l, (Tree.star c l).MarkQ Q := fun l => by rw [Tree.MarkQ]; exact hc
  dsimp only
  split
  · exact hstar _
  · exact markQ_concat' hc (hstar _)
  · exact markQ_upto' hc _ _
  · exact markQ_repeat' hc _
  · exact markQ_concat' (markQ_repeat' hc _) (hstar _)
  · split
    · simp [Tree.MarkQ]
    · split
      · exact markQ_repeat' hc _
      · exact markQ_concat' (markQ_repeat' hc _) (markQ_upto' hc _ _)

mutual
theorem groups_fromSubERE : (e : ERE) → ∀ g, (Tree.fromSubERE e g).2 = g + e.groupCount
  | .mk bs, g => by rw [Tree.fromSubERE, ERE.groupCount]; exact groups_fromBranches bs g
theorem groups_fromBranches : (bs : List EREBranch) → ∀ g, (Tree.fromBranches bs g).2 = g + branchesGroups bs
  | [], g => by simp [Tree.fromBranches, branchesGroups]
  | b :: bs, g => by
    rw [Tree.fromBranches, branchesGroups]
    simp only [groups_fromBranches bs, groups_fromBranch b]; omega
theorem groups_fromBranch : (b : EREBranch) → ∀ g, (Tree.fromBranch b g).2 = g + b.groupCount
  | .mk ps, g => by rw [Tree.fromBranch, EREBranch.groupCount]; exact groups_fromParts ps g
theorem groups_fromParts : (ps : List EREPart) → ∀ g, (Tree.fromParts ps g).2 = g + partsGroups ps
  | [], g => by simp [Tree.fromParts, partsGroups]
  | p :: ps, g => by
    rw [Tree.fromParts, partsGroups]
    simp only [groups_fromParts ps, groups_fromPart p]; omega
theorem groups_fromPart : (p : EREPart) → ∀ g, (Tree.fromPart p g).2 = g + p.groupCount
  | .single e, g => by rw [Tree.fromPart, EREPart.groupCount]; exact groups_fromExpr e g
  | .quantified e q, g => by rw [Tree.fromPart, EREPart.groupCount]; exact groups_fromExpr e g
  | .start, g => by simp [Tree.fromPart, EREPart.groupCount]
  | .end_, g => by simp [Tree.fromPart, EREPart.groupCount]
theorem groups_fromExpr : (e : EREExpr) → ∀ g, (Tree.fromExpr e g).2 = g + e.groupCount
  | .atom a, g => by simp [Tree.fromExpr, EREExpr.groupCount]
  | .sub e, g => by
    rw [Tree.fromExpr, EREExpr.groupCount]
    simp only [groups_fromSubERE e]; omega
end

/-- `Q` holds for the marks of the groups from `g` to before `g'`. -/
def GroupQ (Q : EpsType → Prop) (g g' : Nat) : Prop := ∀ k, g ≤ k → k < g' → Q (.startCapture k) ∧ Q (.endCapture k)

mutual
theorem markQ_fromSubERE {Q} : (e : ERE) → ∀ g, (e.hasStart = true → Q .startAnchor) → (e.hasEnd = true → Q .endAnchor) →
    GroupQ Q g (g + e.groupCount) → (Tree.fromSubERE e g).1.MarkQ Q
  | .mk bs, g => by
    rw [ERE.hasStart, ERE.hasEnd, ERE.groupCount, Tree.fromSubERE]; simp only [Tree.MarkQ]
    exact markQ_fromBranches bs g
theorem markQ_fromBranches {Q} : (bs : List EREBranch) → ∀ g, (branchesHaveStart bs = true → Q .startAnchor) →
    (branchesHaveEnd bs = true → Q .endAnchor) →
    GroupQ Q g (g + branchesGroups bs) → Tree.MarkQList Q (Tree.fromBranches bs g).1
  | [], g => by simp [Tree.fromBranches, Tree.MarkQList]
  | b :: bs, g => by
    rw [branchesHaveStart, branchesHaveEnd, branchesGroups, Tree.fromBranches]; simp only [Tree.MarkQList]
    intro h1 h2 h3
    refine ⟨markQ_fromBranch b g (fun h => h1 (by simp [h])) (fun h => h2 (by simp [h]))
      (fun k hk1 hk2 => h3 k hk1 (by omega)), markQ_fromBranches bs _ (fun h => h1 (by simp [h]))
      (fun h => h2 (by simp [h])) ?_⟩
    rw [groups_fromBranch]
    exact fun k hk1 hk2 => h3 k (by omega) (by omega)
theorem markQ_fromBranch {Q} : (b : EREBranch) → ∀ g, (b.hasStart = true → Q .startAnchor) →
    (b.hasEnd = true → Q .endAnchor) → GroupQ Q g (g + b.groupCount) → (Tree.fromBranch b g).1.MarkQ Q
  | .mk ps, g => by
    rw [EREBranch.hasStart, EREBranch.hasEnd, EREBranch.groupCount, Tree.fromBranch]; simp only [Tree.MarkQ]
    exact markQ_fromParts ps g
theorem markQ_fromParts {Q} : (ps : List EREPart) → ∀ g, (partsHaveStart ps = true → Q .startAnchor) →
    (partsHaveEnd ps = true → Q .endAnchor) →
    GroupQ Q g (g + partsGroups ps) → Tree.MarkQList Q (Tree.fromParts ps g).1
  | [], g => by simp [Tree.fromParts, Tree.MarkQList]
  | p :: ps, g => by
    rw [partsHaveStart, partsHaveEnd, partsGroups, Tree.fromParts]; simp only [Tree.MarkQList]
    intro h1 h2 h3
    refine ⟨markQ_fromPart p g (fun h => h1 (by simp [h])) (fun h => h2 (by simp [h]))
      (fun k hk1 hk2 => h3 k hk1 (by omega)), markQ_fromParts ps _ (fun h => h1 (by simp [h]))
      (fun h => h2 (by simp [h])) ?_⟩
    rw [groups_fromPart]
    exact fun k hk1 hk2 => h3 k (by omega) (by omega)
theorem markQ_fromPart {Q} : (p : EREPart) → ∀ g, (p.hasStart = true → Q .startAnchor) →
    (p.hasEnd = true → Q .endAnchor) → GroupQ Q g (g + p.groupCount) → (Tree.fromPart p g).1.MarkQ Q
  | .single e, g => by
    rw [EREPart.hasStart, EREPart.hasEnd, EREPart.groupCount, Tree.fromPart]; exact markQ_fromExpr e g
  | .quantified e q, g => by
    rw [EREPart.hasStart, EREPart.hasEnd, EREPart.groupCount, Tree.fromPart]
    intro h1 h2 h3
    exact markQ_applyQuantifier (markQ_fromExpr e g h1 h2 h3) q
  | .start, g => by
    intro h _ _; simp only [Tree.fromPart, Tree.MarkQ]; exact h rfl
  | .end_, g => by
    intro _ h _; simp only [Tree.fromPart, Tree.MarkQ]; exact h rfl
theorem markQ_fromExpr {Q} : (e : EREExpr) → ∀ g, (e.hasStart = true → Q .startAnchor) →
    (e.hasEnd = true → Q .endAnchor) → GroupQ Q g (g + e.groupCount) → (Tree.fromExpr e g).1.MarkQ Q
  | .atom a, g => by intros; simp [Tree.fromExpr, Tree.MarkQ]
  | .sub e, g => by
    rw [EREExpr.hasStart, EREExpr.hasEnd, EREExpr.groupCount, Tree.fromExpr]
    intro h1 h2 h3
    simp only [Tree.MarkQ]
    exact ⟨markQ_fromSubERE e (g + 1) h1 h2 (fun k hk1 hk2 => h3 k (by omega) (by omega)),
      (h3 g (by omega) (by omega)).1, (h3 g (by omega) (by omega)).2⟩
end

theorem markQ_fromERE {Q} (e : ERE) (h1 : e.hasStart = true → Q .startAnchor) (h2 : e.hasEnd = true → Q .endAnchor)
    (h3 : GroupQ Q 0 (1 + e.groupCount)) : (Tree.fromERE e).1.MarkQ Q := by
  unfold Tree.fromERE
  simp only [Tree.MarkQ]
  exact ⟨markQ_fromSubERE e 1 h1 h2 (fun k hk1 hk2 => h3 k (by omega) hk2),
    (h3 0 (by omega) (by omega)).1, (h3 0 (by omega) (by omega)).2⟩

end Ere
