import Verif.Proofs.FirstFlat
import Verif.Proofs.Meta
import Verif.Spec.Priority

/-! Which anchors the ways through an automaton cross. -/

namespace Ere
variable {σ α : Type}

/-! ### Simulations -/

theorem MPath.noneStar {N : NFA σ} {p q} (h : NoneStar N p q) :
    ∃ ls, MPath N p ls q ∧ ls.filter (· ≠ .none) = [] := by
  obtain ⟨ls, h1, h2⟩ := h.walk
  exact ⟨ls, h1.mpath, by simpa using h2⟩

theorem IsSimS.mpath {N' N : NFA σ} {R} (h : IsSimS N' N R) {q' ls q0'} (hw : MPath N' q0' ls q') {q0} (hr : R q0' q0) :
    ∃ ls1 q, MPath N q0 ls1 q ∧ R q' q ∧ ls1.filter (· ≠ .none) = ls.filter (· ≠ .none) := by
  induction hw with
  | refl => exact ⟨[], q0, .refl, hr, rfl⟩
  | @eps ls p e r _ he ih =>
    obtain ⟨ls1, p1, h1, h2, h3⟩ := ih
    by_cases hn : e = .none
    · subst hn
      obtain ⟨q, h4, h5⟩ := h.eps _ _ _ h2 he
      obtain ⟨l2, h6, h7⟩ := MPath.noneStar h4
      exact ⟨ls1 ++ l2, q, h1.append h6, h5, by rw [List.filter_append, h7, h3, List.filter_append]; simp⟩
    · obtain ⟨p2, q, h4, h5, h6⟩ := h.mark _ _ _ _ h2 hn he
      obtain ⟨l2, h7, h8⟩ := MPath.noneStar h4
      exact ⟨ls1 ++ l2 ++ [e], q, (h1.append h7).eps h5, h6, by
        rw [List.filter_append, List.filter_append, h8, h3, List.filter_append]; simp⟩
  | @sym ls p a r _ he ih =>
    obtain ⟨ls1, p1, h1, h2, h3⟩ := ih
    obtain ⟨p2, b, q, h4, h5, h6⟩ := h.sym _ _ _ _ h2 he
    obtain ⟨l2, h7, h8⟩ := MPath.noneStar h4
    exact ⟨ls1 ++ l2, q, (h1.append h7).sym h5, h6, by rw [List.filter_append, h8, h3]; simp⟩

theorem mem_of_filter {ls ls' : List EpsType} (h : ls'.filter (· ≠ .none) = ls.filter (· ≠ .none)) {e}
    (he : e ≠ .none) (hm : e ∈ ls) : e ∈ ls' := by
  have : e ∈ ls.filter (· ≠ .none) := List.mem_filter.mpr ⟨hm, by simpa using he⟩
  rw [← h] at this
  exact (List.mem_filter.mp this).1

theorem IsSimS.mpathLast {N' N : NFA σ} {R} (h : IsSimS N' N R) {ls q'} (hw : MPath N' q' ls (N'.length - 1)) {q} (hr : R q' q) :
    ∃ ls1, MPath N q ls1 (N.length - 1) ∧ ls1.filter (· ≠ .none) = ls.filter (· ≠ .none) := by
  obtain ⟨ls1, r, h1, h2, h3⟩ := h.mpath hw hr
  obtain ⟨l2, h4, h5⟩ := MPath.noneStar (h.last _ h2)
  exact ⟨ls1 ++ l2, h1.append h4, by rw [List.filter_append, h5, h3]; simp⟩

theorem MPath.head {N : NFA σ} {q ls p} (h : MPath N q ls p) : (ls = [] ∧ q = p) ∨ ∃ l r, N.HasEdge q l r := by
  induction h with
  | refl => exact Or.inl ⟨rfl, rfl⟩
  | eps _ he ih =>
    rcases ih with ⟨_, rfl⟩ | h
    · exact Or.inr ⟨_, _, he⟩
    · exact Or.inr h
  | sym _ he ih =>
    rcases ih with ⟨_, rfl⟩ | h
    · exact Or.inr ⟨_, _, he⟩
    · exact Or.inr h

theorem IsSimS.pathUni {N' N : NFA σ} {R} (h : IsSimS N' N R) (hs : PathUni N) : PathUni N' := by
  intro q' ls ls' hw hw'
  have : (ls = [] ∧ ls' = []) ∨ ∃ q, R q' q := by
    rcases hw.head with ⟨h1, _⟩ | ⟨l, r, h1⟩
    · rcases hw'.head with ⟨h2, _⟩ | ⟨l, r, h2⟩
      · exact Or.inl ⟨h1, h2⟩
      · exact Or.inr (h.total _ _ _ h2)
    · exact Or.inr (h.total _ _ _ h1)
  rcases this with ⟨rfl, rfl⟩ | ⟨q, hr⟩
  · exact ⟨id, id⟩
  · obtain ⟨l1, h1, h2⟩ := h.mpathLast hw hr
    obtain ⟨l2, h3, h4⟩ := h.mpathLast hw' hr
    have := hs _ _ _ h1 h3
    exact ⟨fun hm => mem_of_filter h4.symm (by simp) (this.1 (mem_of_filter h2 (by simp) hm)),
      fun hm => mem_of_filter h4.symm (by simp) (this.2 (mem_of_filter h2 (by simp) hm))⟩

theorem pathUni_filter {N : NFA σ} (h : PathUni N) (fe ft) : PathUni (N.filterEdges fe ft) :=
  (isSimS_sub filterEdges_length fun _ _ _ he => (hasEdge_filterEdges.mp he).1).pathUni h

theorem pathUni_stable [Sym σ α] : Stable α (PathUni (σ := σ)) :=
  stable_of_sim (fun _ h => h.pathUni) (fun fe ft h => pathUni_filter h fe ft)

/-! ### Labels: what has been crossed on the way to a state -/

/-- How an edge changes what has been crossed. -/
def Crosses : Lab σ → Bool × Bool → Bool × Bool → Prop
  | .eps .startAnchor, x, y => x.1 = false ∧ y = (true, x.2)
  | .eps .endAnchor, x, y => x.2 = false ∧ y = (x.1, true)
  | _, x, y => x = y

/-- Labels for a piece of an automaton that starts at `off`. -/
def LOk (A : Nat → Bool × Bool) (off : Nat) (n : NFA σ) : Prop :=
  ∀ p l q, n.HasEdge p l q → Crosses l (A (off + p)) (A q)

/-- An automaton with labels, from `a` at the first state to `b` at the last. -/
def LabN (n : NFA σ) (a b : Bool × Bool) : Prop := ∃ A : Nat → Bool × Bool, A 0 = a ∧ A (n.length - 1) = b ∧ LOk A 0 n

theorem crosses_path {N : NFA σ} {A} (h : LOk A 0 N) {q ls p} (hw : MPath N q ls p) :
    ((A q).1 = true → (A p).1 = true) ∧ ((A q).2 = true → (A p).2 = true) ∧
    (EpsType.startAnchor ∈ ls ↔ (A q).1 = false ∧ (A p).1 = true) ∧
    (EpsType.endAnchor ∈ ls ↔ (A q).2 = false ∧ (A p).2 = true) := by
  induction hw with
  | refl => simp
  | @eps ls p e r _ he ih =>
    have hc := h _ _ _ he
    rw [Nat.zero_add] at hc
    obtain ⟨i1, i2, i3, i4⟩ := ih
    have hplain : e ≠ .startAnchor → e ≠ .endAnchor → A p = A r := by
      intro h1 h2
      cases e <;> first | exact absurd rfl h1 | exact absurd rfl h2 | exact hc
    simp only [List.mem_append, List.mem_singleton, i3, i4]
    by_cases h1 : e = .startAnchor
    · subst h1
      obtain ⟨c1, c2⟩ : (A p).1 = false ∧ A r = (true, (A p).2) := hc
      rw [c2]
      simp only [c1] at i1 ⊢
      have : (A q).1 = false := by
        cases hh : (A q).1 with
        | false => rfl
        | true => exact absurd (i1 hh) (by simp)
      simp only [this]
      simpa using i2
    · by_cases h2 : e = .endAnchor
      · subst h2
        obtain ⟨c1, c2⟩ : (A p).2 = false ∧ A r = ((A p).1, true) := hc
        rw [c2]
        simp only [c1] at i2 ⊢
        have : (A q).2 = false := by
          cases hh : (A q).2 with
          | false => rfl
          | true => exact absurd (i2 hh) (by simp)
        simp [this]
        exact i1
      · rw [← hplain h1 h2]
        simp only [Ne.symm h1, Ne.symm h2, or_false]
        exact ⟨i1, i2, trivial, trivial⟩
  | sym _ he ih =>
    have hc := h _ _ _ he
    rw [Nat.zero_add] at hc
    rw [← show A _ = A _ from hc]
    exact ih

theorem LabN.pathUni {N : NFA σ} {a b} (h : LabN N a b) : PathUni N := by
  obtain ⟨A, _, _, hA⟩ := h
  intro q ls ls' h1 h2
  obtain ⟨_, _, c1, c2⟩ := crosses_path hA h1
  obtain ⟨_, _, d1, d2⟩ := crosses_path hA h2
  rw [c1, c2, d1, d2]
  exact ⟨id, id⟩

/-- Not an anchor. -/
def NotAnchor (e : EpsType) : Prop := e ≠ .startAnchor ∧ e ≠ .endAnchor

theorem labN_free {N : NFA σ} (h : EpsQ NotAnchor N) (a) : LabN N a a := by
  refine ⟨fun _ => a, rfl, rfl, fun p l q he => ?_⟩
  cases l with
  | sym s => rfl
  | eps e =>
    rcases h.edge he with rfl | h1
    · rfl
    · cases e with
      | startAnchor => exact absurd rfl h1.1
      | endAnchor => exact absurd rfl h1.2
      | _ => rfl

theorem labN_filter {N : NFA σ} {a b} (h : LabN N a b) (fe ft) : LabN (N.filterEdges fe ft) a b := by
  obtain ⟨A, h1, h2, h3⟩ := h
  exact ⟨A, h1, by rw [filterEdges_length]; exact h2, fun p l q he => h3 p l q (hasEdge_filterEdges.mp he).1⟩

theorem lok_append {A} {off : Nat} {m n : NFA σ} : LOk A off (m ++ n) ↔ LOk A off m ∧ LOk A (off + m.length) n := by
  constructor
  · intro h
    refine ⟨fun p l q he => h p l q (hasEdge_append.mpr (Or.inl he)), fun p l q he => ?_⟩
    have := h (m.length + p) l q (hasEdge_append.mpr (Or.inr ⟨p, rfl, he⟩))
    rwa [← Nat.add_assoc] at this
  · rintro ⟨h1, h2⟩ p l q he
    rcases hasEdge_append.mp he with he1 | ⟨x, rfl, he1⟩
    · exact h1 p l q he1
    · have := h2 x l q he1
      rwa [Nat.add_assoc] at this

theorem lok_new {A} {off : Nat} : LOk A off ([State.new] : NFA σ) := by
  intro p l q he
  exact absurd (hasEdge_single.mp he).2 has_new

/-- A sub-automaton in place. -/
theorem lok_block {A B : Nat → Bool × Bool} {off : Nat} {n : NFA σ} {e : Eps} (hn : Good n) (hA : LOk A 0 n)
    (hAB : ∀ i, i < n.length → B (off + i) = A i) (he : Crosses (σ := σ) (.eps e.special) (A (n.length - 1)) (B e.dst)) :
    LOk B off (block n off e) := by
  intro p l q h
  have hpos := List.length_pos_iff.mpr hn.ne
  rcases (hasEdge_block hn.ne).mp h with ⟨x', rfl, h1⟩ | ⟨h1, rfl, rfl⟩
  · rw [hAB p (hasEdge_lt h1), Nat.add_comm x' off, hAB x' (hn.wf _ _ _ h1)]
    have := hA p l x' h1
    rwa [Nat.zero_add] at this
  · have : p = n.length - 1 := by omega
    subst this
    rw [hAB _ (by omega)]
    exact he

/-- A chain of automata. -/
inductive LabChain : List (NFA σ) → Bool × Bool → Bool × Bool → Prop
  | nil {a} : LabChain [] a a
  | cons {n ns a c b} : Good n → LabN n a c → LabChain ns c b → LabChain (n :: ns) a b

theorem concatBody_lab {ns : List (NFA σ)} {a b} (h : LabChain ns a b) : ∀ (off : Nat) (A0 : Nat → Bool × Bool),
    ∃ A : Nat → Bool × Bool, (∀ i, i < off → A i = A0 i) ∧ A off = a ∧ (∀ i, off + (concatBody off ns).length ≤ i → A i = b) ∧
      LOk A off (concatBody off ns) := by
  induction h with
  | @nil a =>
    intro off A0
    refine ⟨fun i => if i < off then A0 i else a, fun i hi => by simp [hi], by simp, fun i hi => ?_, ?_⟩
    · have : off ≤ i := by simpa [concatBody] using hi
      simp; omega
    · intro p l q he
      exact absurd he (by rw [concatBody]; exact hasEdge_nil)
  | @cons n ns a c b hn hl _ ih =>
    intro off A0
    obtain ⟨An, h1, h2, h3⟩ := hl
    have hpos := List.length_pos_iff.mpr hn.ne
    obtain ⟨A, h4, h5, h6, h7⟩ := ih (off + n.length) (fun i => if i < off then A0 i else An (i - off))
    have hin : ∀ i, i < n.length → A (off + i) = An i := by
      intro i hi
      rw [h4 _ (by omega), if_neg (by omega)]
      congr 1; omega
    refine ⟨A, ?_, ?_, ?_, ?_⟩
    · intro i hi
      rw [h4 i (by omega), if_pos hi]
    · rw [← h1, ← hin 0 hpos]; rfl
    · intro i hi
      refine h6 i ?_
      rw [concatBody, List.length_append, pushLast_length, shift_length] at hi
      omega
    · rw [concatBody, lok_append]
      refine ⟨lok_block hn h3 hin ?_, ?_⟩
      · rw [h2]
        exact h5.symm
      · rw [pushLast_length, shift_length]; exact h7

theorem labN_concat {ns : List (NFA σ)} {a b} (h : LabChain ns a b) : LabN (nfaConcat ns) a b := by
  obtain ⟨A, h1, h2, h3, h4⟩ := concatBody_lab h 1 (fun _ => a)
  refine ⟨A, h1 0 (by omega), h3 _ ?_, ?_⟩
  · simp [nfaConcat]; omega
  · rw [nfaConcat, List.cons_append, ← List.singleton_append, lok_append, lok_append]
    refine ⟨?_, h4, lok_new⟩
    intro p l q he
    obtain ⟨rfl, hs⟩ := hasEdge_single.mp he
    cases l with
    | sym s => simp [State.Has] at hs
    | eps e =>
      simp only [State.Has, Eps.new, List.mem_singleton, Eps.mk.injEq] at hs
      obtain ⟨rfl, rfl⟩ := hs
      show A _ = A _
      rw [h2, h1 _ (by omega)]

theorem unionBody_lab {a b : Bool × Bool} (fin : Nat) : ∀ (ns : List (NFA σ)) (off : Nat) (A0 : Nat → Bool × Bool),
    (∀ n ∈ ns, Good n ∧ LabN n a b) → off + (unionBody off fin ns).length ≤ fin →
    ∃ A : Nat → Bool × Bool, (∀ i, i < off → A i = A0 i) ∧ (∀ e ∈ unionStarts off ns, A e.dst = a) ∧
      (∀ i, off + (unionBody off fin ns).length ≤ i → A i = b) ∧ LOk A off (unionBody off fin ns)
  | [], off, A0, _, _ => by
    refine ⟨fun i => if i < off then A0 i else b, fun i hi => by simp [hi], by simp [unionStarts], fun i hi => ?_, ?_⟩
    · have : off ≤ i := by simpa [unionBody] using hi
      simp; omega
    · intro p l q he
      exact absurd he (by rw [unionBody]; exact hasEdge_nil)
  | n :: ns, off, A0, hns, hf => by
    obtain ⟨hn, An, h1, h2, h3⟩ := hns n (by simp)
    have hpos := List.length_pos_iff.mpr hn.ne
    have hlen : (unionBody off fin (n :: ns)).length = n.length + (unionBody (off + n.length) fin ns).length := by
      rw [unionBody, List.length_append, pushLast_length, shift_length]
    obtain ⟨A, h4, h5, h6, h7⟩ := unionBody_lab fin ns (off + n.length) (fun i => if i < off then A0 i else An (i - off))
      (fun m hm => hns m (by simp [hm])) (by omega)
    have hin : ∀ i, i < n.length → A (off + i) = An i := by
      intro i hi
      rw [h4 _ (by omega), if_neg (by omega)]
      congr 1; omega
    refine ⟨A, ?_, ?_, ?_, ?_⟩
    · intro i hi
      rw [h4 i (by omega), if_pos hi]
    · intro e he
      rw [unionStarts] at he
      rcases List.mem_cons.mp he with rfl | he
      · show A off = a
        rw [← h1, ← hin 0 hpos]; rfl
      · exact h5 e he
    · intro i hi
      exact h6 i (by omega)
    · rw [unionBody, lok_append]
      refine ⟨lok_block hn h3 hin ?_, ?_⟩
      · rw [h2]
        exact (h6 fin (by omega)).symm
      · rw [pushLast_length, shift_length]; exact h7

theorem labN_union {ns : List (NFA σ)} {a b} (h : ∀ n ∈ ns, Good n ∧ LabN n a b) : LabN (nfaUnion ns) a b := by
  have hlen : ∀ (ns : List (NFA σ)) (off fin : Nat), (unionBody off fin ns).length = (ns.map List.length).sum := by
    intro ns
    induction ns with
    | nil => intro off fin; rfl
    | cons n ns ih => intro off fin; rw [unionBody, List.length_append, pushLast_length, shift_length, ih]; simp
  obtain ⟨A, h1, h2, h3, h4⟩ := unionBody_lab (2 + (ns.map List.length).sum - 1) ns 1 (fun _ => a) h (by rw [hlen]; omega)
  refine ⟨A, h1 0 (by omega), h3 _ ?_, ?_⟩
  · rw [nfaUnion]; simp only [List.length_append, List.length_cons]; simp
    rw [hlen]; omega
  · rw [nfaUnion]
    rw [List.cons_append, ← List.singleton_append, lok_append, lok_append]
    refine ⟨?_, h4, lok_new⟩
    intro p l q he
    obtain ⟨rfl, hs⟩ := hasEdge_single.mp he
    cases l with
    | sym s => simp [State.Has] at hs
    | eps e =>
      have hs : (⟨q, e⟩ : Eps) ∈ unionStarts 1 ns := hs
      have hn : e = .none := unionStarts_none ns 1 _ hs
      subst hn
      show A _ = A _
      rw [h1 _ (by omega), show A q = a from h2 _ hs]

theorem labN_capture {n : NFA σ} {a b} (hn : Good n) (h : LabN n a b) (g) : LabN (nfaCapture n g) a b := by
  obtain ⟨An, h1, h2, h3⟩ := h
  have hpos := List.length_pos_iff.mpr hn.ne
  refine ⟨fun i => if i = 0 then a else if i ≤ n.length then An (i - 1) else b, by simp, ?_, ?_⟩
  · rw [nfaCapture]; simp only [List.length_append, List.length_cons, pushLast_length, shift_length, List.length_nil]
    rw [if_neg (by omega), if_neg (by omega)]
  · rw [nfaCapture]
    rw [List.cons_append, ← List.singleton_append, lok_append, lok_append]
    refine ⟨?_, ?_, lok_new⟩
    · intro p l q he
      obtain ⟨rfl, hs⟩ := hasEdge_single.mp he
      cases l with
      | sym s => simp [State.Has] at hs
      | eps e =>
        simp only [State.Has, List.mem_singleton, Eps.mk.injEq] at hs
        obtain ⟨rfl, rfl⟩ := hs
        show _ = _
        dsimp only
        rw [if_pos (by omega), if_neg (by omega), if_pos (by omega)]
        exact h1.symm
    · refine lok_block hn h3 ?_ ?_
      · intro i hi
        simp only [List.length_singleton, Nat.zero_add]
        rw [if_neg (by omega), if_pos (by omega)]
        congr 1; omega
      · show _ = _
        dsimp only
        rw [if_neg (by omega), if_neg (by omega), h2]

theorem labN_start (x : Bool) : LabN (nfaStart : NFA σ) (false, x) (true, x) := by
  refine ⟨fun i => if i = 0 then (false, x) else (true, x), rfl, rfl, ?_⟩
  intro p l q he
  rw [nfaStart, hasEdge_cons] at he
  rcases he with ⟨rfl, he⟩ | ⟨y, rfl, he⟩
  · cases l with
    | sym s => simp [State.Has] at he
    | eps e =>
      simp only [State.Has, List.mem_singleton, Eps.mk.injEq] at he
      obtain ⟨rfl, rfl⟩ := he
      exact ⟨rfl, rfl⟩
  · exact absurd (hasEdge_single.mp he).2 has_new

theorem labN_end (x : Bool) : LabN (nfaEnd : NFA σ) (x, false) (x, true) := by
  refine ⟨fun i => if i = 0 then (x, false) else (x, true), rfl, rfl, ?_⟩
  intro p l q he
  rw [nfaEnd, hasEdge_cons] at he
  rcases he with ⟨rfl, he⟩ | ⟨y, rfl, he⟩
  · cases l with
    | sym s => simp [State.Has] at he
    | eps e =>
      simp only [State.Has, List.mem_singleton, Eps.mk.injEq] at he
      obtain ⟨rfl, rfl⟩ := he
      exact ⟨rfl, rfl⟩
  · exact absurd (hasEdge_single.mp he).2 has_new

/-! ### Patterns -/

mutual
theorem labN_fromSubERE : (e : ERE) → ∀ g x y, e.crosses x = some y → LabN (build (Tree.fromSubERE e g).1) x y
  | .mk bs, g, x, y, h => by
    rw [ERE.crosses] at h
    rw [Tree.fromSubERE]; simp only; rw [build]
    exact labN_union fun n hn => ⟨buildList_good _ n hn, labN_fromBranches bs g x y h n hn⟩
theorem labN_fromBranches : (bs : List EREBranch) → ∀ g x y, branchesCross bs x = some y →
    ∀ n ∈ buildList (Tree.fromBranches bs g).1, LabN n x y
  | [], g, x, y, h => by simp [branchesCross] at h
  | [b], g, x, y, h => by
    rw [branchesCross] at h
    intro n hn
    simp only [Tree.fromBranches, buildList, List.mem_singleton] at hn
    rw [hn]
    exact labN_fromBranch b g x y h
  | b :: b' :: bs, g, x, y, h => by
    rw [branchesCross] at h
    split at h
    · rename_i heq
      intro n hn
      rw [Tree.fromBranches] at hn
      simp only [buildList, List.mem_cons] at hn
      rcases hn with rfl | hn
      · exact labN_fromBranch b g x y h
      · exact labN_fromBranches (b' :: bs) _ x y (by rw [← heq]; exact h) n hn
    · simp at h
theorem labN_fromBranch : (b : EREBranch) → ∀ g x y, b.crosses x = some y → LabN (build (Tree.fromBranch b g).1) x y
  | .mk ps, g, x, y, h => by
    rw [EREBranch.crosses] at h
    rw [Tree.fromBranch]; simp only; rw [build]
    exact labN_concat (labN_fromParts ps g x y h)
theorem labN_fromParts : (ps : List EREPart) → ∀ g x y, partsCross ps x = some y →
    LabChain (buildList (Tree.fromParts ps g).1) x y
  | [], g, x, y, h => by
    simp only [partsCross, Option.some.injEq] at h
    subst h
    simp only [Tree.fromParts, buildList]
    exact .nil
  | p :: ps, g, x, y, h => by
    rw [partsCross, Option.bind_eq_some_iff] at h
    obtain ⟨z, h1, h2⟩ := h
    simp only [Tree.fromParts, buildList]
    exact .cons (build_good _) (labN_fromPart p g x z h1) (labN_fromParts ps _ z y h2)
theorem labN_fromPart : (p : EREPart) → ∀ g x y, p.crosses x = some y → LabN (build (Tree.fromPart p g).1) x y
  | .single e, g, x, y, h => by
    rw [EREPart.crosses] at h; rw [Tree.fromPart]; exact labN_fromExpr e g x y h
  | .quantified e q, g, x, y, h => by
    rw [EREPart.crosses] at h
    split at h
    · simp at h
    · rename_i hne
      injection h with h
      subst h
      simp only [Bool.or_eq_true, not_or, Bool.not_eq_true] at hne
      rw [Tree.fromPart]
      refine labN_free (build_epsQ _ (markQ_applyQuantifier (markQ_fromExpr e g ?_ ?_ ?_) q)) x
      · simp [hne.1]
      · simp [hne.2]
      · intro k _ _; exact ⟨by simp [NotAnchor], by simp [NotAnchor]⟩
  | .start, g, x, y, h => by
    obtain ⟨x1, x2⟩ := x
    rw [EREPart.crosses] at h
    rw [Tree.fromPart]; simp only; rw [build]
    cases x1 with
    | true => simp at h
    | false => simp at h; subst h; exact labN_start x2
  | .end_, g, x, y, h => by
    obtain ⟨x1, x2⟩ := x
    rw [EREPart.crosses] at h
    rw [Tree.fromPart]; simp only; rw [build]
    cases x2 with
    | true => simp at h
    | false => simp at h; subst h; exact labN_end x1
theorem labN_fromExpr : (e : EREExpr) → ∀ g x y, e.crosses x = some y → LabN (build (Tree.fromExpr e g).1) x y
  | .atom a, g, x, y, h => by
    simp only [EREExpr.crosses, Option.some.injEq] at h
    subst h
    rw [Tree.fromExpr]; simp only; rw [build]
    exact labN_free (by simp [EpsQ, nfaSymbol, State.new]) x
  | .sub e, g, x, y, h => by
    rw [EREExpr.crosses] at h
    rw [Tree.fromExpr]; simp only; rw [build]
    exact labN_capture (build_good _) (labN_fromSubERE e (g + 1) x y h) g
end

theorem labN_withLoops {N : NFA σ} (hN : Good N) {a b} (h : LabN N a b) (s : σ) : LabN (N.withLoops s true true) a b := by
  have ha : EpsQ NotAnchor (anyLoop s) := epsQ_star (by simp [EpsQ, nfaSymbol, State.new]) _
  have hg : Good (anyLoop s) := nfaStar_good (nfaSymbol s) (good_symbol s) false
  unfold NFA.withLoops
  simp only [if_true]
  have h1 : LabN (nfaConcat [anyLoop s, N]) a b := labN_concat (.cons hg (labN_free ha a) (.cons hN h .nil))
  exact labN_concat (.cons (nfaConcat_good _ (by
    intro n hn; simp only [List.mem_cons, List.not_mem_nil, or_false] at hn
    rcases hn with rfl | rfl
    · exact hg
    · exact hN)) h1 (.cons hg (labN_free ha b) .nil))

/-- Through the byte expansion. -/
theorem pathUni_u8Build {U : Utf8Seqs} {N : NFA Atom} (hN : N.WF) (hne : N ≠ []) {M ms ss I}
    (hB : BuildSpec U N M ms ss I) (hs : PathUni N) : PathUni M := by
  have hsubs := hB.st.subs
  have hpos : 0 < N.length := List.length_pos_iff.mpr hne
  have hnoeps : ∀ q e y, ¬ SubE N.length ss q (.eps e) y := by
    rintro q e y ⟨j, _, h⟩
    obtain ⟨s, h1, h2⟩ := hasEdge_iff.mp h
    have := hsubs.noeps s (List.mem_of_getElem? h1)
    simp [State.Has, this] at h2
  have hmslt : ∀ q l y, ms.HasEdge q l y → q < N.length := fun q l y h => by
    have := hasEdge_lt h; rw [hB.st.len] at this; exact this
  -- a state of `M` stands for a state of `N`
  have key : ∀ (p ls q : _), MPath M p ls q → ∀ x, (p < N.length ∧ x = p ∨ ∃ a w, I p x a w) →
      ∃ ls1 y, MPath N x ls1 y ∧ ls1.filter (· ≠ .none) = ls.filter (· ≠ .none) ∧
        (q < N.length ∧ y = q ∨ (∃ a w, I q y a w) ∨ q = N.length + ss.length ∧ y = N.length - 1) := by
    intro p ls q hw x hx
    induction hw with
    | refl =>
      refine ⟨[], x, .refl, rfl, ?_⟩
      rcases hx with h | h
      · exact Or.inl h
      · exact Or.inr (Or.inl h)
    | @eps ls q e r _ he ih =>
      obtain ⟨ls1, y, h1, h2, h3⟩ := ih
      rcases (hB.edge _ _ _).mp he with h4 | ⟨h4, h5, h6⟩ | h4
      · have hq := hmslt _ _ _ h4
        have h5 := (hB.st.eps _ _ _).mp h4
        rcases h3 with ⟨_, rfl⟩ | ⟨a, w, h3⟩ | ⟨h3, _⟩
        · exact ⟨ls1 ++ [e], r, h1.eps h5, by rw [List.filter_append, List.filter_append, h2],
            Or.inl ⟨hN _ _ _ h5, rfl⟩⟩
        · have := (hsubs.range _ _ _ _ h3).1; omega
        · omega
      · injection h5 with h5
        subst h5
        rcases h3 with ⟨_, rfl⟩ | ⟨a, w, h3⟩ | ⟨h3, _⟩
        · exact ⟨ls1, y, h1, by rw [List.filter_append, h2]; simp, Or.inr (Or.inr ⟨h6, by omega⟩)⟩
        · have := (hsubs.range _ _ _ _ h3).1; omega
        · omega
      · exact absurd h4 (hnoeps _ _ _)
    | @sym ls q b r _ he ih =>
      obtain ⟨ls1, y, h1, h2, h3⟩ := ih
      rcases (hB.edge _ _ _).mp he with h4 | ⟨_, h5, _⟩ | h4
      · have hq := hmslt _ _ _ h4
        obtain ⟨a, d, h5, h6⟩ := hB.st.root _ _ _ h4
        rcases h3 with ⟨_, rfl⟩ | ⟨a, w, h3⟩ | ⟨h3, _⟩
        · refine ⟨ls1, d, h1.sym h5, h2, ?_⟩
          rcases h6 with ⟨rfl, _⟩ | h6
          · exact Or.inl ⟨hN _ _ _ h5, rfl⟩
          · exact Or.inr (Or.inl ⟨a, [b], h6⟩)
        · have := (hsubs.range _ _ _ _ h3).1; omega
        · omega
      · simp at h5
      · have hlt := subE_lt h4
        rcases h3 with ⟨h3, _⟩ | ⟨a, w, h3⟩ | ⟨h3, _⟩
        · omega
        · refine ⟨ls1, y, h1, h2, ?_⟩
          rcases hsubs.step _ _ _ _ _ _ h3 h4 with ⟨rfl, _⟩ | h5
          · obtain ⟨p0, h6⟩ := (hsubs.range _ _ _ _ h3).2.2
            exact Or.inl ⟨hN _ _ _ h6, rfl⟩
          · exact Or.inr (Or.inl ⟨a, _, h5⟩)
        · omega
  have hend : ∀ p ls, MPath M p ls (M.length - 1) → ∀ x, (p < N.length ∧ x = p ∨ ∃ a w, I p x a w) →
      ∃ ls1, MPath N x ls1 (N.length - 1) ∧ ls1.filter (· ≠ .none) = ls.filter (· ≠ .none) := by
    intro p ls hw x hx
    obtain ⟨ls1, y, h1, h2, h3⟩ := key p ls _ hw x hx
    have hl := hB.len
    rcases h3 with ⟨h3, _⟩ | ⟨a, w, h3⟩ | ⟨_, rfl⟩
    · omega
    · have := hsubs.range _ _ _ _ h3; omega
    · exact ⟨ls1, h1, h2⟩
  intro q ls ls' hw hw'
  have : (ls = [] ∧ ls' = []) ∨ ∃ x, (q < N.length ∧ x = q ∨ ∃ a w, I q x a w) := by
    rcases Nat.lt_or_ge q N.length with h1 | h1
    · exact Or.inr ⟨q, Or.inl ⟨h1, rfl⟩⟩
    · rcases Nat.lt_or_ge q (N.length + ss.length) with h2 | h2
      · obtain ⟨d, a, w, h3⟩ := hsubs.cover q h1 h2
        exact Or.inr ⟨d, Or.inr ⟨a, w, h3⟩⟩
      · have hno : ∀ l r, ¬ M.HasEdge q l r := by
          intro l r he
          rcases (hB.edge _ _ _).mp he with h4 | ⟨h4, _⟩ | h4
          · have := hmslt _ _ _ h4; omega
          · omega
          · have := subE_lt h4; omega
        refine Or.inl ⟨?_, ?_⟩
        · rcases hw.head with ⟨h, _⟩ | ⟨l, r, h⟩
          · exact h
          · exact absurd h (hno l r)
        · rcases hw'.head with ⟨h, _⟩ | ⟨l, r, h⟩
          · exact h
          · exact absurd h (hno l r)
  rcases this with ⟨rfl, rfl⟩ | ⟨x, hx⟩
  · exact ⟨id, id⟩
  · obtain ⟨l1, h1, h2⟩ := hend q ls hw x hx
    obtain ⟨l2, h3, h4⟩ := hend q ls' hw' x hx
    have := hs _ _ _ h1 h3
    exact ⟨fun hm => mem_of_filter h4.symm (by simp) (this.1 (mem_of_filter h2 (by simp) hm)),
      fun hm => mem_of_filter h4.symm (by simp) (this.2 (mem_of_filter h2 (by simp) hm))⟩

/-- Both automata of a pattern. -/
theorem pathUni_pipeline (U : Utf8Seqs) (e : ERE) (he : e.evenAnchors = true)
    {N : NFA Atom} (h1 : workingNew (Tree.fromERE e).1 = .ok N) (hN : Ready N) :
    PathUni N ∧ ∀ M, u8New U.seqs N = .ok M → M ≠ [] → PathUni M := by
  obtain ⟨y, hy⟩ := Option.isSome_iff_exists.mp he
  have ht := starOk_fromERE e
  have hb := build_shape _ ht
  have hc1 : Shape (build (Tree.fromERE e).1).cleanStartAnchors := filterEdges_shape hb
  have hc : Shape (build (Tree.fromERE e).1).cleanStartAnchors.cleanEndAnchors := filterEdges_shape hc1
  have hlab : LabN (build (Tree.fromERE e).1) (false, false) y := by
    unfold Tree.fromERE
    simp only; rw [build]
    exact labN_capture (build_good _) (labN_fromSubERE e 1 _ _ hy) 0
  have hL : PathUni ((build (Tree.fromERE e).1).cleanStartAnchors.cleanEndAnchors.withLoops anyAtom true true) :=
    (labN_withLoops hc.good (labN_filter (labN_filter hlab _ _) _ _) _).pathUni
  rw [workingNew, newLoopOpt] at h1
  have hNs : PathUni N :=
    (pathUni_stable (α := Char)).finish (withLoops_shape hc anyAtom true true) (pathUni_filter hL _ _) h1 hN.ne
  refine ⟨hNs, fun M h2 hM => ?_⟩
  obtain ⟨B, ms, ss, I, h3, h4⟩ := u8Build_spec U hN.ne
  rw [u8New, u8NewLoopOpt, h3] at h2
  have h5 : B.finish = .ok M := h2
  exact (pathUni_stable (α := UInt8)).finish (u8Build_shape hN.wf hN.ne hN.rank hN.mix hN.sink h4)
    (pathUni_filter (pathUni_u8Build hN.wf hN.ne h4 hNs) _ _) h5 hM

end Ere
