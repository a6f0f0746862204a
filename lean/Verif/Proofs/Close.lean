import Verif.Proofs.Finish

/-! In built automata no path from the start reaches the end of a group before its start. -/

namespace Ere
variable {σ : Type}

/-- A stretch of states placed at `off`, with the states from which group `g` can be closed; edges
leave it to the next stretch or beyond `fin`. -/
def PieceC (P : NFA σ) (off fin g : Nat) : Prop :=
  ∃ bad : Nat → Prop, (∀ q, bad q → off ≤ q ∧ q < off + P.length ∧ q < fin) ∧ ¬ bad off ∧
    (∀ x q', P.HasEdge x (.eps (.endCapture g)) q' → bad (off + x)) ∧
    (∀ x l q', P.HasEdge x l q' → l ≠ .eps (.startCapture g) → bad q' → bad (off + x)) ∧
    (∀ x l q', P.HasEdge x l q' → (off ≤ q' ∧ q' < off + P.length) ∨ q' = off + P.length ∨ fin ≤ q')

theorem pieceC_append {A B : NFA σ} {off fin g} (hA : PieceC A off fin g) (hB : PieceC B (off + A.length) fin g) : PieceC (A ++ B) off fin g := by
  obtain ⟨ba, a1, a2, a3, a4, a5⟩ := hA
  obtain ⟨bb, b1, b2, b3, b4, b5⟩ := hB
  refine ⟨fun q => ba q ∨ bb q, ?_, ?_, ?_, ?_, ?_⟩
  · rintro q (h | h)
    · have := a1 _ h; rw [List.length_append]; omega
    · have := b1 _ h; rw [List.length_append]; omega
  · rintro (h | h)
    · exact a2 h
    · have := b1 _ h
      have e : off = off + A.length := by omega
      rw [← e] at b2
      exact b2 h
  · intro x q' he
    rcases hasEdge_append.mp he with h | ⟨y, rfl, h⟩
    · exact Or.inl (a3 _ _ h)
    · refine Or.inr ?_
      have := b3 _ _ h
      rwa [Nat.add_assoc] at this
  · intro x l q' he hl hb
    rcases hasEdge_append.mp he with h | ⟨y, rfl, h⟩
    · rcases hb with hb | hb
      · exact Or.inl (a4 _ _ _ h hl hb)
      · have hr := b1 _ hb
        rcases a5 _ _ _ h with h1 | h1 | h1
        · omega
        · exact absurd (h1 ▸ hb) b2
        · omega
    · rcases hb with hb | hb
      · have hr := a1 _ hb
        rcases b5 _ _ _ h with h1 | h1 | h1 <;> omega
      · have := b4 _ _ _ h hl hb
        rw [Nat.add_assoc] at this
        exact Or.inr this
  · intro x l q' he
    rw [List.length_append]
    rcases hasEdge_append.mp he with h | ⟨y, rfl, h⟩
    · rcases a5 _ _ _ h with h1 | h1 | h1 <;> omega
    · rcases b5 _ _ _ h with h1 | h1 | h1 <;> omega

theorem pieceC_nil {off fin g} : PieceC ([] : NFA σ) off fin g :=
  ⟨fun _ => False, by simp, by simp, fun _ _ h => absurd h hasEdge_nil,
    fun _ _ _ h => absurd h hasEdge_nil, fun _ _ _ h => absurd h hasEdge_nil⟩

theorem pieceC_single {s : State σ} {off fin g}
    (h : ∀ e ∈ s.epsilons, e.special ≠ .endCapture g ∧ (e.dst = off + 1 ∨ fin ≤ e.dst))
    (ht : ∀ t ∈ s.transitions, t.dst = off + 1) : PieceC [s] off fin g := by
  refine ⟨fun _ => False, by simp, by simp, ?_, by simp, ?_⟩
  · intro x q' he
    rw [hasEdge_single] at he
    exact (h _ he.2).1 rfl
  · intro x l q' he
    rw [hasEdge_single] at he
    cases l with
    | sym a => have := ht _ he.2; simp at this ⊢; omega
    | eps e => have := (h _ he.2).2; simp at this ⊢; omega

theorem pieceC_new {off fin g} : PieceC ([State.new] : NFA σ) off fin g :=
  pieceC_single (by simp [State.new]) (by simp [State.new])

theorem pieceC_block {n : NFA σ} (hn : Good n) {off fin g} {e : Eps} (hc : ¬ CanClose n g 0)
    (he : e.special ≠ .endCapture g) (hf : off + n.length ≤ fin)
    (hd : e.dst = off + n.length ∨ fin ≤ e.dst) :
    PieceC (NFA.pushLast (NFA.shift n off) e) off fin g := by
  have hlen : (NFA.pushLast (NFA.shift n off) e).length = n.length := by
    rw [pushLast_length, shift_length]
  refine ⟨fun q => ∃ x, q = off + x ∧ x < n.length ∧ CanClose n g x, ?_, ?_, ?_, ?_, ?_⟩
  · rintro q ⟨x, rfl, h1, _⟩; rw [hlen]; omega
  · rintro ⟨x, h1, _, h2⟩
    have : x = 0 := by omega
    subst this; exact hc h2
  · intro x q' h
    rcases (hasEdge_block hn.ne).mp h with ⟨x', _, h2⟩ | ⟨_, h2, _⟩
    · exact ⟨x, rfl, hasEdge_lt h2, .here h2⟩
    · injection h2 with h2; exact absurd h2.symm he
  · rintro x l q' h hl ⟨y, rfl, hy, hcy⟩
    rcases (hasEdge_block hn.ne).mp h with ⟨x', h1, h2⟩ | ⟨_, _, h2⟩
    · have : x' = y := by omega
      subst this
      exact ⟨x, rfl, hasEdge_lt h2, .step h2 hl hcy⟩
    · omega
  · intro x l q' h
    rw [hlen]
    rcases (hasEdge_block hn.ne).mp h with ⟨x', h1, h2⟩ | ⟨_, _, h2⟩
    · have := hn.wf _ _ _ h2; omega
    · omega

theorem close_of_piece {P : NFA σ} {fin g} (h : PieceC P 0 fin g) : ¬ CanClose P g 0 := by
  obtain ⟨bad, _, h2, h3, h4, _⟩ := h
  have : ∀ q, CanClose P g q → bad q := by
    intro q hq
    induction hq with
    | here he => have := h3 _ _ he; rwa [Nat.zero_add] at this
    | step he hl _ ih => have := h4 _ _ _ he hl ih; rwa [Nat.zero_add] at this
  exact fun hq => h2 (this 0 hq)

/-- Well formed and without a premature group end. -/
structure Closed (n : NFA σ) : Prop where
  good : Good n
  close : ∀ g, ¬ CanClose n g 0

theorem concatBody_pieceC (ns : List (NFA σ)) (hns : ∀ n ∈ ns, Closed n) (off fin g)
    (hf : off + (concatBody off ns).length ≤ fin) : PieceC (concatBody off ns) off fin g := by
  induction ns generalizing off with
  | nil => exact pieceC_nil
  | cons n ns ih =>
    rw [concatBody, List.length_append, pushLast_length, shift_length] at hf
    rw [concatBody]
    refine pieceC_append (pieceC_block (hns n (by simp)).good ((hns n (by simp)).close g)
      (by simp [Eps.new]) (by omega) (Or.inl rfl)) ?_
    · rw [pushLast_length, shift_length]
      exact ih (fun m hm => hns m (by simp [hm])) _ (by omega)

theorem nfaConcat_closed (ns : List (NFA σ)) (hns : ∀ n ∈ ns, Closed n) : Closed (nfaConcat ns) := by
  refine ⟨nfaConcat_good ns (fun n hn => (hns n hn).good), fun g => ?_⟩
  have hN : nfaConcat ns = [⟨[], [Eps.new 1]⟩] ++ concatBody 1 ns ++ [State.new] := by
    simp [nfaConcat]
  rw [hN]
  refine close_of_piece (fin := 2 + (concatBody 1 ns).length) ?_
  refine pieceC_append (pieceC_append
    (pieceC_single (by simp [Eps.new]) (by simp)) ?_) pieceC_new
  exact concatBody_pieceC ns hns 1 _ g (by omega)

theorem unionBody_pieceC (ns : List (NFA σ)) (hns : ∀ n ∈ ns, Closed n) (off endIdx g)
    (hend : off + (unionBody off endIdx ns).length ≤ endIdx) :
    ∃ bad : Nat → Prop, (∀ q, bad q → off ≤ q ∧ q < off + (unionBody off endIdx ns).length) ∧
    (∀ e ∈ unionStarts off ns, ¬ bad e.dst) ∧
    (∀ x q', (unionBody off endIdx ns).HasEdge x (.eps (.endCapture g)) q' → bad (off + x)) ∧
    (∀ x l q', (unionBody off endIdx ns).HasEdge x l q' → l ≠ .eps (.startCapture g) → bad q' →
      bad (off + x)) ∧
    (∀ x l q', (unionBody off endIdx ns).HasEdge x l q' →
      (off ≤ q' ∧ q' < off + (unionBody off endIdx ns).length) ∨ q' = endIdx) := by
  induction ns generalizing off with
  | nil =>
    exact ⟨fun _ => False, by simp, by simp, fun _ _ h => absurd h hasEdge_nil,
      fun _ _ _ h => absurd h hasEdge_nil, fun _ _ _ h => absurd h hasEdge_nil⟩
  | cons n ns ih =>
    have hn := hns n (by simp)
    have hpos : 0 < n.length := List.length_pos_iff.mpr hn.good.ne
    have hbl : (NFA.pushLast (NFA.shift n off) (Eps.new endIdx)).length = n.length := by
      rw [pushLast_length, shift_length]
    rw [unionBody, List.length_append, hbl] at hend
    obtain ⟨bb, b1, b2, b3, b4, b5⟩ := ih (fun m hm => hns m (by simp [hm])) (off + n.length) (by omega)
    obtain ⟨ba, a1, a2, a3, a4, a5⟩ := pieceC_block (off := off) (fin := endIdx) (e := Eps.new endIdx)
      hn.good (hn.close g) (by simp [Eps.new]) (by omega) (Or.inr (by simp [Eps.new]))
    have hwf : ∀ x l q', (NFA.pushLast (NFA.shift n off) (Eps.new endIdx)).HasEdge x l q' →
        (off ≤ q' ∧ q' < off + n.length) ∨ q' = endIdx := by
      intro x l q' h
      rcases (hasEdge_block hn.good.ne).mp h with ⟨x', h1, h2⟩ | ⟨_, _, h2⟩
      · have := hn.good.wf _ _ _ h2; omega
      · exact Or.inr h2
    rw [hbl] at a1 a5
    rw [unionBody]
    refine ⟨fun q => ba q ∨ bb q, ?_, ?_, ?_, ?_, ?_⟩
    · rintro q (h | h)
      · have := a1 _ h; rw [List.length_append, hbl]; omega
      · have := b1 _ h; rw [List.length_append, hbl]; omega
    · intro e he
      simp only [unionStarts, List.mem_cons] at he
      rcases he with rfl | he
      · rintro (h | h)
        · exact a2 h
        · have := b1 _ h; simp [Eps.new] at this; omega
      · have hp := unionStarts_pos ns _ he
        rintro (h | h)
        · have := a1 _ h; omega
        · exact b2 e he h
    · intro x q' he
      rcases hasEdge_append.mp he with h | ⟨y, rfl, h⟩
      · exact Or.inl (a3 _ _ h)
      · have := b3 _ _ h
        rw [hbl, ← Nat.add_assoc]; exact Or.inr this
    · intro x l q' he hl hb
      rcases hasEdge_append.mp he with h | ⟨y, rfl, h⟩
      · rcases hb with hb | hb
        · exact Or.inl (a4 _ _ _ h hl hb)
        · have hr := b1 _ hb
          rcases hwf _ _ _ h with h1 | h1 <;> omega
      · rcases hb with hb | hb
        · have hr := a1 _ hb
          rcases b5 _ _ _ h with h1 | h1 <;> omega
        · have := b4 _ _ _ h hl hb
          rw [hbl, ← Nat.add_assoc]; exact Or.inr this
    · intro x l q' he
      rw [List.length_append, hbl]
      rcases hasEdge_append.mp he with h | ⟨y, rfl, h⟩
      · rcases hwf _ _ _ h with h1 | h1 <;> omega
      · rcases b5 _ _ _ h with h1 | h1 <;> omega

theorem unionStarts_none (ns : List (NFA σ)) : ∀ off, ∀ e ∈ unionStarts off ns, e.special = .none := by
  induction ns with
  | nil => simp [unionStarts]
  | cons n ns ih =>
    intro off e he
    simp only [unionStarts, List.mem_cons] at he
    rcases he with rfl | he
    · rfl
    · exact ih _ _ he

theorem nfaUnion_closed (ns : List (NFA σ)) (hns : ∀ n ∈ ns, Closed n) : Closed (nfaUnion ns) := by
  refine ⟨nfaUnion_good ns (fun n hn => (hns n hn).good), fun g => ?_⟩
  rw [nfaUnion_eq]
  generalize hE : 1 + (ns.map List.length).sum = endIdx
  obtain ⟨bad, b1, b2, b3, b4, b5⟩ := unionBody_pieceC ns hns 1 endIdx g (by
    rw [unionBody_length]; omega)
  have hlen := unionBody_length ns 1 endIdx
  have key : ∀ q, CanClose ([⟨[], unionStarts 1 ns⟩] ++ unionBody 1 endIdx ns ++ [State.new]) g q → bad q := by
    intro q hq
    induction hq with
    | here he =>
      rcases hasEdge_append.mp he with h | ⟨y, rfl, h⟩
      · rcases hasEdge_append.mp h with h1 | ⟨y, rfl, h1⟩
        · rw [hasEdge_single] at h1
          obtain ⟨rfl, h1⟩ := h1
          have := unionStarts_none _ _ _ h1
          simp at this
        · exact b3 _ _ h1
      · rw [hasEdge_single] at h; exact absurd h.2 has_new
    | @step a l b he hl _ ih =>
      rcases hasEdge_append.mp he with h | ⟨y, rfl, h⟩
      · rcases hasEdge_append.mp h with h1 | ⟨y, rfl, h1⟩
        · rw [hasEdge_single] at h1
          obtain ⟨rfl, h1⟩ := h1
          cases l with
          | sym a => simp [State.Has] at h1
          | eps e => exact absurd ih (b2 _ h1)
        · exact b4 _ _ _ h1 hl ih
      · rw [hasEdge_single] at h; exact absurd h.2 has_new
  intro h
  have := b1 _ (key 0 h)
  omega

theorem nfaCapture_closed (n : NFA σ) (hn : Closed n) (g : Nat) : Closed (nfaCapture n g) := by
  refine ⟨nfaCapture_good n hn.good g, fun g' => ?_⟩
  by_cases hg : g' = g
  · subst hg
    intro h
    cases h with
    | here he => have := ((capture_start n _ _ _).mp he).1; simp at this
    | step he hl _ => exact hl ((capture_start n _ _ _).mp he).1
  · have hN : nfaCapture n g = [⟨[], [⟨1, .startCapture g⟩]⟩] ++
        NFA.pushLast (NFA.shift n 1) ⟨2 + n.length - 1, .endCapture g⟩ ++ [State.new] := by
      simp [nfaCapture]
    rw [hN]
    refine close_of_piece (fin := 2 + n.length) ?_
    refine pieceC_append (pieceC_append (pieceC_single (by simp) (by simp)) ?_) pieceC_new
    exact pieceC_block hn.good (hn.close g') (by simpa using Ne.symm hg)
      (by show 1 + n.length ≤ _; omega) (Or.inl (by show 2 + n.length - 1 = 1 + n.length; omega))

theorem uptoBody_pieceC (n : NFA σ) (hn : Closed n) (endIdx lg k off g)
    (hend : off + (n.length + 1) * (k + 1) ≤ endIdx + 1) :
    PieceC (uptoBody n endIdx lg off k) off endIdx g := by
  induction k generalizing off with
  | zero =>
    rw [uptoBody]
    exact pieceC_append (pieceC_block hn.good (hn.close g) (by simp [Eps.new]) (by omega) (Or.inl rfl))
      pieceC_new
  | succ k ih =>
    have hmul : (n.length + 1) * (k + 1 + 1) = (n.length + 1) * (k + 1) + (n.length + 1) := by
      rw [Nat.mul_succ (n.length + 1) (k + 1)]
    have hge : (n.length + 1) * (k + 1) ≥ 1 := Nat.mul_pos (by omega) (by omega)
    rw [uptoBody]
    refine pieceC_append (pieceC_block hn.good (hn.close g) (by simp [Eps.new]) (by omega)
      (Or.inl rfl)) ?_
    rw [pushLast_length, shift_length]
    refine pieceC_append (A := [_]) (pieceC_single ?_ (by simp)) (ih _ (by omega))
    intro e he
    cases lg <;> simp [Eps.new] at he <;> rcases he with rfl | rfl <;> simp

theorem nfaUpto_closed (n : NFA σ) (hn : Closed n) (k lg) : Closed (nfaUpto n k lg) := by
  refine ⟨nfaUpto_good n hn.good k lg, fun g => ?_⟩
  rw [nfaUpto_eq]
  refine close_of_piece (fin := (n.length + 1) * (k + 1)) ?_
  refine pieceC_append (pieceC_single ?_ (by simp)) (uptoBody_pieceC n hn _ lg k 1 g (by omega))
  intro e he
  cases lg <;> simp [Eps.new] at he <;> rcases he with rfl | rfl <;> simp

theorem nfaStar_closed (n : NFA σ) (hn : Closed n) (lg) : Closed (nfaStar n lg) := by
  refine ⟨nfaStar_good n hn.good lg, fun g => ?_⟩
  have hlen := star_length n lg
  have hpos : 0 < n.length := List.length_pos_iff.mpr hn.good.ne
  have key : ∀ q, CanClose (nfaStar n lg) g q → ∃ x, q = 1 + x ∧ x < n.length ∧ CanClose n g x := by
    have hq : ∀ q l q', (nfaStar n lg).HasEdge q l q' →
        (q = 0 ∧ l = .eps .none ∧ (q' = 1 ∨ q' = 1 + n.length)) ∨ ∃ x, q = 1 + x ∧ x < n.length ∧
          ((∃ x', q' = 1 + x' ∧ n.HasEdge x l x') ∨ (l = .eps .none ∧ q' = 0)) := by
      intro q l q' he
      rcases Nat.eq_zero_or_pos q with rfl | h0
      · have := (star_start n lg l q').mp he
        exact Or.inl ⟨rfl, this⟩
      · have h1 := hasEdge_lt he
        rw [hlen] at h1
        by_cases h2 : q = 1 + n.length
        · subst h2; exact absurd he (star_sink n lg _ _)
        · refine Or.inr ⟨q - 1, by omega, by omega, ?_⟩
          have hb := (nfaStar_block n hn.good lg (q - 1) (by omega) l q').mp (by
            rw [show 1 + (q - 1) = q by omega]; exact he)
          rcases hb with h | ⟨_, h3, h4⟩
          · exact Or.inl h
          · exact Or.inr ⟨h3, h4⟩
    intro q h
    induction h with
    | here he =>
      rcases hq _ _ _ he with ⟨_, h1, _⟩ | ⟨x, rfl, h1, ⟨x', _, h2⟩ | ⟨h2, _⟩⟩
      · simp at h1
      · exact ⟨x, rfl, h1, .here h2⟩
      · simp at h2
    | step he hl _ ih =>
      obtain ⟨y, hy, hy1, hy2⟩ := ih
      rcases hq _ _ _ he with ⟨_, _, h1⟩ | ⟨x, rfl, h1, ⟨x', hx', h2⟩ | ⟨_, h2⟩⟩
      · have : y = 0 := by omega
        subst this; exact absurd hy2 (hn.close g)
      · have : x' = y := by omega
        subst this
        exact ⟨x, rfl, h1, .step h2 hl hy2⟩
      · omega
  intro h
  obtain ⟨x, h1, _⟩ := key 0 h
  omega

theorem two_closed {s : State σ} (hg : Good [s, State.new])
    (h : ∀ e ∈ s.epsilons, e.dst = 1 ∧ ∀ g, e.special ≠ .endCapture g)
    (ht : ∀ t ∈ s.transitions, t.dst = 1) : Closed [s, State.new] := by
  refine ⟨hg, fun g => close_of_piece (fin := 2) ?_⟩
  exact pieceC_append (A := [s]) (pieceC_single (fun e he => ⟨(h e he).2 g, Or.inl (h e he).1⟩) ht) pieceC_new

theorem nfaSymbol_closed (a : σ) : Closed (nfaSymbol a) :=
  two_closed (good_symbol a) (by simp) (by simp)

mutual
theorem build_closed : (t : Tree) → Closed (build t)
  | .empty => by rw [build]; exact ⟨good_empty, fun g => close_of_piece (fin := 0) pieceC_new⟩
  | .symbol a => by rw [build]; exact nfaSymbol_closed a
  | .union ts => by rw [build]; exact nfaUnion_closed _ (buildList_closed ts)
  | .capture t g => by rw [build]; exact nfaCapture_closed _ (build_closed t) g
  | .concat ts => by rw [build]; exact nfaConcat_closed _ (buildList_closed ts)
  | .rep t n => by
    rw [build]
    refine nfaConcat_closed _ fun m hm => ?_
    rw [List.eq_of_mem_replicate hm]; exact build_closed t
  | .upTo t n l => by rw [build]; exact nfaUpto_closed _ (build_closed t) n l
  | .star t l => by rw [build]; exact nfaStar_closed _ (build_closed t) l
  | .start => by rw [build]; exact two_closed (good_anchor _) (by simp) (by simp)
  | .end_ => by rw [build]; exact two_closed (good_anchor _) (by simp) (by simp)
  | .never => by rw [build]; exact two_closed good_never (by simp [State.new]) (by simp [State.new])
theorem buildList_closed : (ts : List Tree) → ∀ n ∈ buildList ts, Closed n
  | [] => by simp [buildList]
  | t :: ts => by
    intro n hn
    rw [buildList, List.mem_cons] at hn
    rcases hn with rfl | hn
    · exact build_closed t
    · exact buildList_closed ts n hn
end

theorem filterEdges_closed {N : NFA σ} (h : Closed N) {fe ft} : Closed (N.filterEdges fe ft) :=
  ⟨⟨ne_nil_of_length filterEdges_length h.good.ne, filterEdges_wf h.good.wf⟩, fun g hc =>
    h.close g ((sims_of_sub fun _ _ _ he => (hasEdge_filterEdges.mp he).1).canClose hc)⟩

theorem withLoops_closed {N : NFA σ} (h : Closed N) (a : σ) (sl el) : Closed (N.withLoops a sl el) := by
  have ha : Closed (anyLoop a) := nfaStar_closed _ (nfaSymbol_closed a) _
  unfold NFA.withLoops
  have h1 : Closed (if sl then nfaConcat [anyLoop a, N] else N) := by
    split
    · refine nfaConcat_closed _ fun n hn => ?_
      simp only [List.mem_cons, List.not_mem_nil, or_false] at hn
      rcases hn with rfl | rfl
      · exact ha
      · exact h
    · exact h
  dsimp only
  split
  · refine nfaConcat_closed _ fun n hn => ?_
    simp only [List.mem_cons, List.not_mem_nil, or_false] at hn
    rcases hn with rfl | rfl
    · exact h1
    · exact ha
  · exact h1

/-- No path of a compiled automaton closes a group before opening it. -/
theorem newLoopOpt_close {t : Tree} (ht : t.StarOk) {sl el : Bool} {M} (h : newLoopOpt t sl el = .ok M)
    (g : Nat) : ¬ CanClose M g 0 := fun hc =>
  (withLoops_closed (filterEdges_closed (filterEdges_closed (build_closed t))) anyAtom sl el).close g
    ((newLoopOpt_sims ht h).canClose hc)

end Ere
