import Verif.Proofs.Stable
import Verif.Proofs.Marks

/-! Labels of states that every edge respects, and their preservation by construction and passes. -/

namespace Ere
variable {σ α Λ : Type}

section Build
variable {C : Lab σ → Λ → Λ → Prop}

/-- Labels for a piece of an automaton that starts at `off`. -/
def GOkL (C : Lab σ → Λ → Λ → Prop) (A : Nat → Λ) (off : Nat) (n : NFA σ) : Prop :=
  ∀ p l q, n.HasEdge p l q → C l (A (off + p)) (A q)

/-- An automaton with labels, from `a` at the first state to `b` at the last: each edge `l` from a state labelled
`x` to one labelled `y` satisfies `C l x y`. -/
def LabG (C : Lab σ → Λ → Λ → Prop) (n : NFA σ) (a b : Λ) : Prop :=
  ∃ A : Nat → Λ, A 0 = a ∧ A (n.length - 1) = b ∧ GOkL C A 0 n

theorem labG_filter {N : NFA σ} {a b} (h : LabG C N a b) (fe ft) : LabG C (N.filterEdges fe ft) a b := by
  obtain ⟨A, h1, h2, h3⟩ := h
  exact ⟨A, h1, by rw [filterEdges_length]; exact h2, fun p l q he => h3 p l q (hasEdge_filterEdges.mp he).1⟩

theorem gokL_append {A} {off : Nat} {m n : NFA σ} : GOkL C A off (m ++ n) ↔ GOkL C A off m ∧ GOkL C A (off + m.length) n := by
  constructor
  · intro h
    refine ⟨fun p l q he => h p l q (hasEdge_append.mpr (Or.inl he)), fun p l q he => ?_⟩
    have := h (m.length + p) l q (hasEdge_append.mpr (Or.inr ⟨p, rfl, he⟩))
    rwa [← Nat.add_assoc] at this
  · rintro ⟨h1, h2⟩ p l q he
    rcases hasEdge_append.mp he with he1 | ⟨x, rfl, he1⟩
    · exact h1 p l q he1
    · have := h2 x l q he1
      rwa [Nat.add_assoc] at this

theorem gokL_new {A} {off : Nat} : GOkL C A off ([State.new] : NFA σ) := by
  intro p l q he
  exact absurd (hasEdge_single.mp he).2 has_new

/-- A sub-automaton in place. -/
theorem gokL_block {A B : Nat → Λ} {off : Nat} {n : NFA σ} {e : Eps} (hn : Good n) (hA : GOkL C A 0 n)
    (hAB : ∀ i, i < n.length → B (off + i) = A i) (he : C (.eps e.special) (A (n.length - 1)) (B e.dst)) :
    GOkL C B off (block n off e) := by
  intro p l q h
  have hpos := List.length_pos_iff.mpr hn.ne
  rcases (hasEdge_block hn.ne).mp h with ⟨x', rfl, h1⟩ | ⟨h1, rfl, rfl⟩
  · rw [hAB p (hasEdge_lt h1), Nat.add_comm x' off, hAB x' (hn.wf _ _ _ h1)]
    have := hA p l x' h1
    rwa [Nat.zero_add] at this
  · have : p = n.length - 1 := by omega
    subst this
    rw [hAB _ (by omega)]
    exact he

/-- A chain of automata. -/
inductive GChain (C : Lab σ → Λ → Λ → Prop) : List (NFA σ) → Λ → Λ → Prop
  | nil {a} : GChain C [] a a
  | cons {n ns a c b} : Good n → LabG C n a c → GChain C ns c b → GChain C (n :: ns) a b

theorem concatBody_labG (hC : ∀ x, C (.eps .none) x x) {ns : List (NFA σ)} {a b} (h : GChain C ns a b) : ∀ (off : Nat) (A0 : Nat → Λ),
    ∃ A : Nat → Λ, (∀ i, i < off → A i = A0 i) ∧ A off = a ∧ (∀ i, off + (concatBody off ns).length ≤ i → A i = b) ∧
      GOkL C A off (concatBody off ns) := by
  induction h with
  | @nil a =>
    intro off A0
    refine ⟨fun i => if i < off then A0 i else a, fun i hi => by simp [hi], by simp, fun i hi => ?_, ?_⟩
    · have : off ≤ i := by simpa [concatBody] using hi
      simp; omega
    · intro p l q he
      exact absurd he (by rw [concatBody]; exact hasEdge_nil)
  | @cons n ns a c b hn hl _ ih =>
    intro off A0
    obtain ⟨An, h1, h2, h3⟩ := hl
    have hpos := List.length_pos_iff.mpr hn.ne
    obtain ⟨A, h4, h5, h6, h7⟩ := ih (off + n.length) (fun i => if i < off then A0 i else An (i - off))
    have hin : ∀ i, i < n.length → A (off + i) = An i := by
      intro i hi
      rw [h4 _ (by omega), if_neg (by omega)]
      congr 1; omega
    refine ⟨A, ?_, ?_, ?_, ?_⟩
    · intro i hi
      rw [h4 i (by omega), if_pos hi]
    · rw [← h1, ← hin 0 hpos]; rfl
    · intro i hi
      refine h6 i ?_
      rw [concatBody, List.length_append, pushLast_length, shift_length] at hi
      omega
    · rw [concatBody, gokL_append]
      refine ⟨gokL_block hn h3 hin ?_, ?_⟩
      · rw [h2]
        show C (.eps .none) c (A (off + n.length))
        rw [h5]; exact hC _
      · rw [pushLast_length, shift_length]; exact h7

theorem labG_concat (hC : ∀ x, C (.eps .none) x x) {ns : List (NFA σ)} {a b} (h : GChain C ns a b) : LabG C (nfaConcat ns) a b := by
  obtain ⟨A, h1, h2, h3, h4⟩ := concatBody_labG hC h 1 (fun _ => a)
  refine ⟨A, h1 0 (by omega), h3 _ ?_, ?_⟩
  · simp [nfaConcat]; omega
  · rw [nfaConcat, List.cons_append, ← List.singleton_append, gokL_append, gokL_append]
    refine ⟨?_, h4, gokL_new⟩
    intro p l q he
    obtain ⟨rfl, hs⟩ := hasEdge_single.mp he
    cases l with
    | sym s => simp [State.Has] at hs
    | eps e =>
      simp only [State.Has, Eps.new, List.mem_singleton, Eps.mk.injEq] at hs
      obtain ⟨rfl, rfl⟩ := hs
      rw [h2, h1 _ (by omega)]
      exact hC _

theorem unionBody_labG (hC : ∀ x, C (.eps .none) x x) {a b : Λ} (fin : Nat) : ∀ (ns : List (NFA σ)) (off : Nat) (A0 : Nat → Λ),
    (∀ n ∈ ns, Good n ∧ LabG C n a b) → off + (unionBody off fin ns).length ≤ fin →
    ∃ A : Nat → Λ, (∀ i, i < off → A i = A0 i) ∧ (∀ e ∈ unionStarts off ns, A e.dst = a) ∧
      (∀ i, off + (unionBody off fin ns).length ≤ i → A i = b) ∧ GOkL C A off (unionBody off fin ns)
  | [], off, A0, _, _ => by
    refine ⟨fun i => if i < off then A0 i else b, fun i hi => by simp [hi], by simp [unionStarts], fun i hi => ?_, ?_⟩
    · have : off ≤ i := by simpa [unionBody] using hi
      simp; omega
    · intro p l q he
      exact absurd he (by rw [unionBody]; exact hasEdge_nil)
  | n :: ns, off, A0, hns, hf => by
    obtain ⟨hn, An, h1, h2, h3⟩ := hns n (by simp)
    have hpos := List.length_pos_iff.mpr hn.ne
    have hlen : (unionBody off fin (n :: ns)).length = n.length + (unionBody (off + n.length) fin ns).length := by
      rw [unionBody, List.length_append, pushLast_length, shift_length]
    obtain ⟨A, h4, h5, h6, h7⟩ := unionBody_labG hC fin ns (off + n.length) (fun i => if i < off then A0 i else An (i - off))
      (fun m hm => hns m (by simp [hm])) (by omega)
    have hin : ∀ i, i < n.length → A (off + i) = An i := by
      intro i hi
      rw [h4 _ (by omega), if_neg (by omega)]
      congr 1; omega
    refine ⟨A, ?_, ?_, ?_, ?_⟩
    · intro i hi
      rw [h4 i (by omega), if_pos hi]
    · intro e he
      rw [unionStarts] at he
      rcases List.mem_cons.mp he with rfl | he
      · show A off = a
        rw [← h1, ← hin 0 hpos]; rfl
      · exact h5 e he
    · intro i hi
      exact h6 i (by omega)
    · rw [unionBody, gokL_append]
      refine ⟨gokL_block hn h3 hin ?_, ?_⟩
      · rw [h2]
        show C (.eps .none) b (A fin)
        rw [h6 fin (by omega)]; exact hC _
      · rw [pushLast_length, shift_length]; exact h7

theorem labG_union (hC : ∀ x, C (.eps .none) x x) {ns : List (NFA σ)} {a b} (h : ∀ n ∈ ns, Good n ∧ LabG C n a b) : LabG C (nfaUnion ns) a b := by
  have hlen : ∀ (ns : List (NFA σ)) (off fin : Nat), (unionBody off fin ns).length = (ns.map List.length).sum := by
    intro ns
    induction ns with
    | nil => intro off fin; rfl
    | cons n ns ih => intro off fin; rw [unionBody, List.length_append, pushLast_length, shift_length, ih]; simp
  obtain ⟨A, h1, h2, h3, h4⟩ := unionBody_labG hC (2 + (ns.map List.length).sum - 1) ns 1 (fun _ => a) h (by rw [hlen]; omega)
  refine ⟨A, h1 0 (by omega), h3 _ ?_, ?_⟩
  · rw [nfaUnion]; simp only [List.length_append, List.length_cons]; simp
    rw [hlen]; omega
  · rw [nfaUnion]
    rw [List.cons_append, ← List.singleton_append, gokL_append, gokL_append]
    refine ⟨?_, h4, gokL_new⟩
    intro p l q he
    obtain ⟨rfl, hs⟩ := hasEdge_single.mp he
    cases l with
    | sym s => simp [State.Has] at hs
    | eps e =>
      have hs : (⟨q, e⟩ : Eps) ∈ unionStarts 1 ns := hs
      have hn : e = .none := unionStarts_none ns 1 _ hs
      subst hn
      rw [h1 _ (by omega), show A q = a from h2 _ hs]
      exact hC _

theorem labG_capture {n : NFA σ} {a b c d : Λ} (hn : Good n) (h : LabG C n c d) (g)
    (h1 : C (.eps (.startCapture g)) a c) (h2 : C (.eps (.endCapture g)) d b) : LabG C (nfaCapture n g) a b := by
  obtain ⟨An, e1, e2, h3⟩ := h
  have hpos := List.length_pos_iff.mpr hn.ne
  refine ⟨fun i => if i = 0 then a else if i ≤ n.length then An (i - 1) else b, by simp, ?_, ?_⟩
  · rw [nfaCapture]; simp only [List.length_append, List.length_cons, pushLast_length, shift_length, List.length_nil]
    rw [if_neg (by omega), if_neg (by omega)]
  · rw [nfaCapture]
    rw [List.cons_append, ← List.singleton_append, gokL_append, gokL_append]
    refine ⟨?_, ?_, gokL_new⟩
    · intro p l q he
      obtain ⟨rfl, hs⟩ := hasEdge_single.mp he
      cases l with
      | sym s => simp [State.Has] at hs
      | eps e =>
        simp only [State.Has, List.mem_singleton, Eps.mk.injEq] at hs
        obtain ⟨rfl, rfl⟩ := hs
        dsimp only
        rw [if_pos (by omega), if_neg (by omega), if_pos (by omega), show An (1 - 1) = c from e1]
        exact h1
    · refine gokL_block hn h3 ?_ ?_
      · intro i hi
        simp only [List.length_singleton, Nat.zero_add]
        rw [if_neg (by omega), if_pos (by omega)]
        congr 1; omega
      · dsimp only
        rw [if_neg (by omega), if_neg (by omega), e2]
        exact h2

theorem labG_star (hC : ∀ x, C (.eps .none) x x) {n : NFA σ} {a : Λ} (hn : Good n) (h : LabG C n a a) (lg) :
    LabG C (nfaStar n lg) a a := by
  obtain ⟨An, e1, e2, h3⟩ := h
  have hpos := List.length_pos_iff.mpr hn.ne
  refine ⟨fun i => if i = 0 then a else if i ≤ n.length then An (i - 1) else a, by simp, ?_, ?_⟩
  · rw [nfaStar]; simp only [List.length_append, List.length_cons, pushLast_length, shift_length, List.length_nil]
    rw [if_neg (by omega), if_neg (by omega)]
  · rw [nfaStar]
    rw [List.cons_append, ← List.singleton_append, gokL_append, gokL_append]
    refine ⟨?_, ?_, gokL_new⟩
    · intro p l q he
      obtain ⟨rfl, hs⟩ := hasEdge_single.mp he
      have hx : l = .eps .none ∧ (q = 1 ∨ q = 1 + n.length) := by
        cases l with
        | sym s => cases lg <;> simp [State.Has] at hs
        | eps e =>
          cases lg <;> simp [State.Has, Eps.new] at hs
          · rcases hs with ⟨rfl, rfl⟩ | ⟨rfl, rfl⟩ <;> simp
          · rcases hs with ⟨rfl, rfl⟩ | ⟨rfl, rfl⟩ <;> simp
      obtain ⟨rfl, rfl | rfl⟩ := hx
      · dsimp only
        rw [if_pos (by omega), if_neg (by omega), if_pos (by omega), show An (1 - 1) = a from e1]
        exact hC _
      · dsimp only
        rw [if_pos (by omega), if_neg (by omega), if_neg (by omega)]
        exact hC _
    · refine gokL_block hn h3 ?_ ?_
      · intro i hi
        simp only [List.length_singleton, Nat.zero_add]
        rw [if_neg (by omega), if_pos (by omega)]
        congr 1; omega
      · dsimp only [Eps.new]
        rw [if_pos rfl, e2]
        exact hC _

theorem uptoBody_labG (hC : ∀ x, C (.eps .none) x x) {n : NFA σ} {a : Λ} (hn : Good n) (h : LabG C n a a) (fin lg) :
    ∀ (k off : Nat) (A0 : Nat → Λ), off + (n.length + 1) * (k + 1) ≤ fin + 1 →
    ∃ A : Nat → Λ, (∀ i, i < off → A i = A0 i) ∧ A off = a ∧ (∀ i, off + (n.length + 1) * (k + 1) ≤ i + 1 → A i = a) ∧
      GOkL C A off (uptoBody n fin lg off k) := by
  obtain ⟨An, e1, e2, h3⟩ := h
  have hpos := List.length_pos_iff.mpr hn.ne
  intro k
  induction k with
  | zero =>
    intro off A0 hf
    obtain ⟨A, hA⟩ : ∃ A : Nat → Λ, ∀ i, A i = if i < off then A0 i else if i < off + n.length then An (i - off) else a :=
      ⟨_, fun _ => rfl⟩
    have hin : ∀ i, i < n.length → A (off + i) = An i := by
      intro i hi
      rw [hA, if_neg (by omega), if_pos (by omega)]
      congr 1; omega
    refine ⟨A, fun i hi => by rw [hA, if_pos hi], ?_, fun i hi => ?_, ?_⟩
    · rw [← e1, ← hin 0 hpos]; rfl
    · rw [hA, if_neg (by omega), if_neg (by omega)]
    · rw [uptoBody, gokL_append]
      refine ⟨gokL_block hn h3 hin ?_, gokL_new⟩
      rw [e2]
      show C (.eps .none) a (A (off + n.length))
      rw [hA, if_neg (by omega), if_neg (by omega)]
      exact hC _
  | succ k ih =>
    intro off A0 hf
    have hm : (n.length + 1) * (k + 1 + 1) = (n.length + 1) * (k + 1) + (n.length + 1) := Nat.mul_succ _ _
    obtain ⟨A, h4, h5, h6, h7⟩ := ih (off + n.length + 1)
      (fun i => if i < off then A0 i else if i < off + n.length then An (i - off) else a) (by omega)
    have hin : ∀ i, i < n.length → A (off + i) = An i := by
      intro i hi
      rw [h4 _ (by omega), if_neg (by omega), if_pos (by omega)]
      congr 1; omega
    have ht : A (off + n.length) = a := by
      rw [h4 _ (by omega), if_neg (by omega), if_neg (by omega)]
    have hfin : A fin = a := h6 fin (by omega)
    refine ⟨A, ?_, ?_, fun i hi => h6 i (by omega), ?_⟩
    · intro i hi
      rw [h4 i (by omega), if_pos hi]
    · rw [← e1, ← hin 0 hpos]; rfl
    · rw [uptoBody]
      rw [gokL_append, ← List.singleton_append, gokL_append]
      refine ⟨gokL_block hn h3 hin ?_, ?_, ?_⟩
      · rw [e2]
        show C (.eps .none) a (A (off + n.length))
        rw [ht]
        exact hC _
      · intro p l q he
        obtain ⟨rfl, hs⟩ := hasEdge_single.mp he
        rw [pushLast_length, shift_length, Nat.add_zero, ht]
        have hx : l = .eps .none ∧ (q = off + n.length + 1 ∨ q = fin) := by
          cases l with
          | sym s => simp [State.Has] at hs
          | eps e =>
            cases lg <;> simp [State.Has, Eps.new] at hs
            · rcases hs with ⟨rfl, rfl⟩ | ⟨rfl, rfl⟩ <;> simp
            · rcases hs with ⟨rfl, rfl⟩ | ⟨rfl, rfl⟩ <;> simp
        obtain ⟨rfl, rfl | rfl⟩ := hx
        · rw [h5]; exact hC _
        · rw [hfin]; exact hC _
      · rw [pushLast_length, shift_length]
        exact h7

theorem labG_upto (hC : ∀ x, C (.eps .none) x x) {n : NFA σ} {a : Λ} (hn : Good n) (h : LabG C n a a) (k lg) :
    LabG C (nfaUpto n k lg) a a := by
  obtain ⟨A, h1, h2, h3, h4⟩ := uptoBody_labG hC hn h ((n.length + 1) * (k + 1)) lg k 1 (fun _ => a) (by omega)
  have hfin : 1 + (n.length + 1) * (k + 1) - 1 = (n.length + 1) * (k + 1) := by omega
  refine ⟨A, h1 0 (by omega), h3 _ ?_, ?_⟩
  · rw [nfaUpto]; simp only [List.length_cons]
    rw [uptoBody_length]; omega
  · rw [nfaUpto]
    rw [hfin, ← List.singleton_append, gokL_append]
    refine ⟨?_, h4⟩
    intro p l q he
    obtain ⟨rfl, hs⟩ := hasEdge_single.mp he
    have hx : l = .eps .none ∧ (q = 1 ∨ q = (n.length + 1) * (k + 1)) := by
      cases l with
      | sym s => cases lg <;> simp [State.Has] at hs
      | eps e =>
        cases lg <;> simp [State.Has, Eps.new] at hs
        · rcases hs with ⟨rfl, rfl⟩ | ⟨rfl, rfl⟩ <;> simp
        · rcases hs with ⟨rfl, rfl⟩ | ⟨rfl, rfl⟩ <;> simp
    rw [h1 _ (by omega)]
    obtain ⟨rfl, rfl | rfl⟩ := hx
    · rw [h2]; exact hC _
    · rw [h3 _ (by omega)]; exact hC _

theorem labG_const {N : NFA σ} {a : Λ} (h : ∀ p l q, N.HasEdge p l q → C l a a) : LabG C N a a :=
  ⟨fun _ => a, rfl, rfl, h⟩

theorem labG_withLoops (hC : ∀ x, C (.eps .none) x x) {N : NFA σ} (hN : Good N) {a b : Λ} (h : LabG C N a b) (s : σ)
    (ha : C (.sym s) a a) (hb : C (.sym s) b b) : LabG C (N.withLoops s true true) a b := by
  have hl : ∀ x, C (.sym s) x x → LabG C (anyLoop s) x x := by
    intro x hx
    refine labG_star hC (good_symbol s) (labG_const ?_) _
    intro p l q he
    rw [nfaSymbol, hasEdge_cons] at he
    rcases he with ⟨_, he⟩ | ⟨_, _, he⟩
    · cases l with
      | eps e => simp [State.Has] at he
      | sym b =>
        simp only [State.Has, List.mem_singleton, Trans.mk.injEq] at he
        rw [he.2]; exact hx
    · exact absurd (hasEdge_single.mp he).2 has_new
  have hg : Good (anyLoop s) := nfaStar_good (nfaSymbol s) (good_symbol s) false
  unfold NFA.withLoops
  simp only [if_true]
  have h1 : LabG C (nfaConcat [anyLoop s, N]) a b := labG_concat hC (.cons hg (hl a ha) (.cons hN h .nil))
  exact labG_concat hC (.cons (nfaConcat_good _ (by
    intro n hn; simp only [List.mem_cons, List.not_mem_nil, or_false] at hn
    rcases hn with rfl | rfl
    · exact hg
    · exact hN)) h1 (.cons hg (hl b hb) .nil))

end Build

/-! ### The passes -/

/-- What the passes need to know about labels. -/
structure LabRule (α : Type) [Sym σ α] (C : Lab σ → Λ → Λ → Prop) : Prop where
  none : ∀ {x y}, C (.eps .none) x y → x = y
  inj : ∀ {l l' x x' y}, LabSame (α := α) l l' → C l x y → C l' x' y → x = x'

open Classical in
theorem labG_stable [Sym σ α] {C : Lab σ → Λ → Λ → Prop} (hR : LabRule α C) (a b : Λ) :
    Stable α (fun N : NFA σ => LabG C N a b) := by
  refine { merge := ?_, dedupe := ?_, skip1 := ?_, splice := ?_, dead := ?_, trim := fun _ _ h => labG_filter h _ _ }
  · rintro N x o sa sb hw _ hx1 hx2 ho hxo ha hb hab ⟨A, h0, hl, hA⟩
    have hlen : ((N.clear x).redirect x o).length = N.length := by simp [NFA.redirect, clear_length]
    have hxo' : A x = A o := by
      have hex : ∃ l q, sb.Has l q := by
        simp only [sameOut, Bool.and_eq_true, beq_iff_eq] at hab
        cases he : sa.epsilons with
        | cons e es => exact ⟨.eps e.special, e.dst, by simp only [State.Has]; rw [← hab.1.1, he]; simp⟩
        | nil =>
          cases ht : sa.transitions with
          | nil => rw [he, ht] at hab; simp at hab
          | cons t ts =>
            obtain ⟨s', h1, _⟩ := transEq_mem hab.1.2 (q := t.dst) (s := t.symbol) (by rw [ht]; simp)
            exact ⟨.sym s', t.dst, h1⟩
      obtain ⟨l, q, hlq⟩ := hex
      obtain ⟨l', h1, h2⟩ := sameOut_has' (α := α) hab hlq
      have h3 := hA _ _ _ (hasEdge_iff.mpr ⟨_, ha, h2⟩)
      have h4 := hA _ _ _ (hasEdge_iff.mpr ⟨_, hb, hlq⟩)
      rw [Nat.zero_add] at h3 h4
      exact (hR.inj h1 h4 h3).symm
    refine ⟨A, h0, by rw [hlen]; exact hl, ?_⟩
    intro p l q he
    obtain ⟨q1, h1, h2⟩ := hasEdge_redirect.mp he
    obtain ⟨h3, h4⟩ := hasEdge_clear.mp h1
    have := hA _ _ _ h4
    split at h2
    · rename_i hq; rw [h2, ← hxo', ← hq]; exact this
    · rw [h2]; exact this
  · rintro N hw ⟨A, h0, hl, hA⟩
    exact ⟨A, h0, by rw [dedupe_length]; exact hl, fun p l q he => hA p l q (hasEdge_dedupe.mp he)⟩
  · rintro N x c hw _ hx1 hx2 hxc hx ⟨A, h0, hl, hA⟩
    have hxe : N.HasEdge x (.eps .none) c := hasEdge_iff.mpr ⟨_, hx, List.mem_singleton.mpr rfl⟩
    have hlen : ((N.redirect x c).clear x).length = N.length := by simp [NFA.redirect, clear_length]
    have hxc' : A x = A c := by have := hR.none (hA _ _ _ hxe); rwa [Nat.zero_add] at this
    refine ⟨A, h0, by rw [hlen]; exact hl, ?_⟩
    intro p l q he
    obtain ⟨_, h2⟩ := hasEdge_clear.mp he
    obtain ⟨q1, h3, h4⟩ := hasEdge_redirect.mp h2
    have := hA _ _ _ h3
    split at h4
    · rename_i hq; rw [h4, ← hxc', ← hq]; exact this
    · rw [h4]; exact this
  · rintro N x y k es hw _ hx1 hx2 h ⟨A, h0, hl, hA⟩
    have hax : N.HasEdge y (.eps .none) x := by
      obtain ⟨sa, h1, h2⟩ := h.hk
      exact hasEdge_iff.mpr ⟨sa, h1, List.mem_iff_getElem?.mpr ⟨k, h2⟩⟩
    have hxy : A y = A x := by have := hR.none (hA _ _ _ hax); rwa [Nat.zero_add] at this
    refine ⟨A, h0, by rw [splice_length]; exact hl, ?_⟩
    intro p l q he
    obtain ⟨_, h1 | ⟨rfl, h1⟩⟩ := (hasEdge_splice h).mp he
    · exact hA _ _ _ h1.1
    · have := hA _ _ _ h1
      rw [Nat.zero_add] at this ⊢
      rw [hxy]; exact this
  · rintro N ds hL h0 hlast ⟨A, e0, hl, hA⟩
    have hlen := removeDead_length (N := N) hL.len
    have hpos : 0 < N.length := by
      rw [← hL.len]; exact (List.getElem?_eq_some_iff.mp h0).1
    obtain ⟨A', hc⟩ : ∃ A' : Nat → Λ, ∀ i, ds[i]? = some false → A' (cnt ds i) = A i := by
      refine ⟨fun j => if h : ∃ i, ds[i]? = some false ∧ cnt ds i = j then A h.choose else a, fun i hi => ?_⟩
      have hex : ∃ i', ds[i']? = some false ∧ cnt ds i' = cnt ds i := ⟨i, hi, rfl⟩
      simp only
      rw [dif_pos hex]
      rw [cnt_inj hex.choose_spec.1 hi hex.choose_spec.2]
    refine ⟨A', ?_, ?_, ?_⟩
    · have := hc 0 h0
      rw [← e0, ← this]; rfl
    · have h3 : cnt ds (N.length - 1) = (N.removeDead ds).length - 1 := by
        rw [hlen]; exact cnt_last (by rw [hL.len]; omega) hlast
      rw [← h3, hc _ hlast, hl]
    · intro p l q he
      obtain ⟨i, i', h1, rfl, h3, rfl⟩ := (hasEdge_removeDead hL).mp he
      have := hA _ _ _ h3
      rw [Nat.zero_add] at this ⊢
      rw [hc _ h1, hc _ (hL.into _ _ _ h3)]
      exact this

end Ere
