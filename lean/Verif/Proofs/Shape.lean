import Verif.Proofs.OptPass
import Verif.Proofs.Thompson

/-! Structural facts about built automata: no cycle of plain epsilons, no state with both symbol
transitions and epsilons, an accept state without outgoing edges. -/

namespace Ere
variable {σ : Type}

theorem rank_bound (r : Nat → Nat) (n : Nat) : ∃ M, ∀ q, q < n → r q < M := by
  induction n with
  | zero => exact ⟨0, by omega⟩
  | succ n ih =>
    obtain ⟨M, hM⟩ := ih
    refine ⟨max M (r n + 1), fun q hq => ?_⟩
    rcases Nat.lt_or_ge q n with h | h
    · have := hM q h; omega
    · have : q = n := by omega
      subst this; omega

/-- A stretch of states placed at `off`: its plain epsilons go up in rank or leave it forwards. -/
structure Piece (P : NFA σ) (off : Nat) : Prop where
  rank : ∃ r : Nat → Nat, ∀ q q', P.HasEdge q (.eps .none) q' →
    off + P.length ≤ q' ∨ (off ≤ q' ∧ r q < r (q' - off))
  mix : P.NoMix

theorem noMix_append {A B : NFA σ} (hA : A.NoMix) (hB : B.NoMix) : NFA.NoMix (A ++ B) := by
  intro s hs
  rcases List.mem_append.mp hs with h | h
  · exact hA s h
  · exact hB s h

theorem piece_append {A B : NFA σ} {off} (hA : Piece A off) (hB : Piece B (off + A.length)) :
    Piece (A ++ B) off := by
  refine ⟨?_, noMix_append hA.mix hB.mix⟩
  obtain ⟨ra, ha⟩ := hA.rank
  obtain ⟨rb, hb⟩ := hB.rank
  obtain ⟨M, hM⟩ := rank_bound ra A.length
  refine ⟨fun q => if q < A.length then ra q else M + rb (q - A.length), ?_⟩
  intro q q' he
  rw [List.length_append]
  rcases hasEdge_append.mp he with h | ⟨x, rfl, h⟩
  · have hq := hasEdge_lt h
    have := hM q hq
    rcases ha q q' h with h1 | ⟨h1, h2⟩
    · by_cases h3 : off + (A.length + B.length) ≤ q'
      · exact Or.inl h3
      · refine Or.inr ⟨by omega, ?_⟩
        beta_reduce
        rw [if_pos hq, if_neg (by omega)]; omega
    · refine Or.inr ⟨h1, ?_⟩
      beta_reduce
      rw [if_pos hq]
      split
      · exact h2
      · omega
  · rcases hb x q' h with h1 | ⟨h1, h2⟩
    · exact Or.inl (by omega)
    · refine Or.inr ⟨by omega, ?_⟩
      beta_reduce
      rw [if_neg (by omega), if_neg (by omega)]
      have e1 : A.length + x - A.length = x := by omega
      have e2 : q' - off - A.length = q' - (off + A.length) := by omega
      rw [e1, e2]; omega

theorem piece_nil {off} : Piece ([] : NFA σ) off :=
  ⟨⟨fun _ => 0, fun _ _ h => absurd h hasEdge_nil⟩, by intro s hs; simp at hs⟩

theorem piece_single {s : State σ} {off} (h : ∀ e ∈ s.epsilons, e.special = .none → off < e.dst)
    (hm : s.transitions = [] ∨ s.epsilons = []) : Piece [s] off := by
  refine ⟨⟨fun _ => 0, ?_⟩, ?_⟩
  · intro q q' he
    rw [hasEdge_single] at he
    have := h _ he.2 rfl
    exact Or.inl (by simp at *; omega)
  · intro t ht; rw [List.mem_singleton] at ht; subst ht; exact hm

/-- Structural facts about an automaton. -/
structure Shape (n : NFA σ) : Prop where
  good : Good n
  rank : n.Ranked
  mix : n.NoMix
  sink : n.Sink

theorem shift_noMix {n : NFA σ} (h : n.NoMix) (k) : (n.shift k).NoMix := by
  intro s hs
  obtain ⟨t, ht, rfl⟩ := List.mem_map.mp hs
  rcases h t ht with h | h
  · exact Or.inl (by simp [State.addOffset, h])
  · exact Or.inr (by simp [State.addOffset, h])

theorem block_noMix {n : NFA σ} (hn : Shape n) {off} {e : Eps} :
    NFA.NoMix (NFA.pushLast (NFA.shift n off) e) := by
  rw [noMix_iff]
  rintro q a ep q' q'' ⟨h1, h2⟩
  have hb1 := (hasEdge_block (off := off) (e := e) hn.good.ne).mp h1
  have hb2 := (hasEdge_block (off := off) (e := e) hn.good.ne).mp h2
  rcases hb1 with ⟨x', _, h3⟩ | ⟨_, h3, _⟩
  · rcases hb2 with ⟨x'', _, h4⟩ | ⟨h4, _, _⟩
    · exact noMix_iff.mp hn.mix _ _ _ _ _ ⟨h3, h4⟩
    · have : q = n.length - 1 := by omega
      subst this
      exact hn.sink _ _ h3
  · simp at h3

theorem piece_block {n : NFA σ} (hn : Shape n) {off} {e : Eps}
    (he : e.special = .none → off + n.length ≤ e.dst) :
    Piece (NFA.pushLast (NFA.shift n off) e) off := by
  obtain ⟨r, hr⟩ := hn.rank
  refine ⟨⟨r, ?_⟩, ?_⟩
  · intro q q' h
    have hb := (hasEdge_block (off := off) (e := e) hn.good.ne).mp h
    rw [pushLast_length, shift_length]
    rcases hb with ⟨x', rfl, h2⟩ | ⟨_, h2, rfl⟩
    · refine Or.inr ⟨by omega, ?_⟩
      rw [Nat.add_sub_cancel]; exact hr _ _ h2
    · refine Or.inl (he ?_)
      injection h2 with h2; exact h2.symm
  · exact block_noMix hn

theorem ranked_of_piece {N : NFA σ} (h : Piece N 0) (hwf : N.WF) : N.Ranked := by
  obtain ⟨r, hr⟩ := h.rank
  refine ⟨r, fun q q' he => ?_⟩
  have := hwf _ _ _ he
  rcases hr q q' he with h1 | h1
  · omega
  · simpa using h1.2

theorem sink_append_new {A : NFA σ} : NFA.Sink (A ++ [State.new]) := by
  intro l q' h
  have : (A ++ [State.new (σ := σ)]).length - 1 = A.length := by simp
  rw [this] at h
  exact sink_new l q' h

theorem piece_new {off} : Piece ([State.new] : NFA σ) off :=
  piece_single (by simp [State.new]) (Or.inl rfl)

theorem concatBody_piece (ns : List (NFA σ)) (hns : ∀ n ∈ ns, Shape n) (off) :
    Piece (concatBody off ns) off := by
  induction ns generalizing off with
  | nil => exact piece_nil
  | cons n ns ih =>
    rw [concatBody]
    refine piece_append (piece_block (hns n (by simp)) (by simp [Eps.new])) ?_
    rw [pushLast_length, shift_length]
    exact ih (fun m hm => hns m (by simp [hm])) _

theorem nfaConcat_shape (ns : List (NFA σ)) (hns : ∀ n ∈ ns, Shape n) : Shape (nfaConcat ns) := by
  have hg := nfaConcat_good ns (fun n hn => (hns n hn).good)
  have hN : nfaConcat ns = [⟨[], [Eps.new 1]⟩] ++ concatBody 1 ns ++ [State.new] := by
    simp [nfaConcat]
  have hp : Piece (nfaConcat ns) 0 := by
    rw [hN]
    refine piece_append (piece_append (piece_single ?_ (Or.inl rfl)) ?_) piece_new
    · simp [Eps.new]
    · exact concatBody_piece ns hns 1
  exact ⟨hg, ranked_of_piece hp hg.wf, hp.mix, by rw [hN]; exact sink_append_new⟩

theorem unionBody_piece (ns : List (NFA σ)) (hns : ∀ n ∈ ns, Shape n) (off endIdx)
    (hend : off + (ns.map List.length).sum ≤ endIdx) : Piece (unionBody off endIdx ns) off := by
  induction ns generalizing off with
  | nil => exact piece_nil
  | cons n ns ih =>
    simp only [List.map_cons, List.sum_cons] at hend
    rw [unionBody]
    refine piece_append (piece_block (hns n (by simp)) (by simp [Eps.new]; omega)) ?_
    rw [pushLast_length, shift_length]
    exact ih (fun m hm => hns m (by simp [hm])) _ (by omega)

theorem unionStarts_pos (ns : List (NFA σ)) (off : Nat) {e} (h : e ∈ unionStarts off ns) :
    off ≤ e.dst := by
  induction ns generalizing off with
  | nil => simp [unionStarts] at h
  | cons n ns ih =>
    simp only [unionStarts, List.mem_cons] at h
    rcases h with rfl | h
    · simp [Eps.new]
    · have := ih _ h; omega

theorem nfaUnion_shape (ns : List (NFA σ)) (hns : ∀ n ∈ ns, Shape n) : Shape (nfaUnion ns) := by
  have hg := nfaUnion_good ns (fun n hn => (hns n hn).good)
  have hp : Piece (nfaUnion ns) 0 := by
    rw [nfaUnion_eq]
    refine piece_append (piece_append (piece_single ?_ (Or.inl rfl)) ?_) piece_new
    · intro e he _; exact unionStarts_pos ns 1 he
    · exact unionBody_piece ns hns 1 _ (Nat.le_refl _)
  exact ⟨hg, ranked_of_piece hp hg.wf, hp.mix, by rw [nfaUnion_eq]; exact sink_append_new⟩

theorem nfaCapture_shape (n : NFA σ) (hn : Shape n) (g : Nat) : Shape (nfaCapture n g) := by
  have hg := nfaCapture_good n hn.good g
  have hN : nfaCapture n g = [⟨[], [⟨1, .startCapture g⟩]⟩] ++
      NFA.pushLast (NFA.shift n 1) ⟨2 + n.length - 1, .endCapture g⟩ ++ [State.new] := by
    simp [nfaCapture]
  have hp : Piece (nfaCapture n g) 0 := by
    rw [hN]
    refine piece_append (piece_append (piece_single ?_ (Or.inl rfl)) ?_) piece_new
    · simp
    · exact piece_block hn (by simp)
  exact ⟨hg, ranked_of_piece hp hg.wf, hp.mix, by rw [hN]; exact sink_append_new⟩

theorem uptoBody_piece (n : NFA σ) (hn : Shape n) (endIdx lg k off)
    (hend : off + (n.length + 1) * (k + 1) ≤ endIdx + 1) : Piece (uptoBody n endIdx lg off k) off := by
  induction k generalizing off with
  | zero =>
    rw [uptoBody]
    exact piece_append (piece_block hn (by simp [Eps.new])) piece_new
  | succ k ih =>
    have hmul : (n.length + 1) * (k + 1 + 1) = (n.length + 1) * (k + 1) + (n.length + 1) := by
      rw [Nat.mul_succ (n.length + 1) (k + 1)]
    have hge : (n.length + 1) * (k + 1) ≥ 1 := Nat.mul_pos (by omega) (by omega)
    rw [uptoBody]
    refine piece_append (piece_block hn (by simp [Eps.new])) ?_
    rw [pushLast_length, shift_length]
    refine piece_append (A := [_]) (piece_single ?_ (Or.inl rfl)) (ih _ (by omega))
    intro e he _
    cases lg <;> simp [Eps.new] at he <;> rcases he with rfl | rfl <;> simp <;> omega

theorem uptoBody_endNew (n : NFA σ) (endIdx lg k off) :
    ∃ A : NFA σ, uptoBody n endIdx lg off k = A ++ [State.new] := by
  induction k generalizing off with
  | zero => exact ⟨_, rfl⟩
  | succ k ih =>
    obtain ⟨A, hA⟩ := ih (off + n.length + 1)
    rw [uptoBody, hA]
    exact ⟨_, by rw [← List.cons_append, ← List.append_assoc]⟩

theorem nfaUpto_shape (n : NFA σ) (hn : Shape n) (k lg) : Shape (nfaUpto n k lg) := by
  have hg := nfaUpto_good n hn.good k lg
  have hge : (n.length + 1) * (k + 1) ≥ 1 := Nat.mul_pos (by omega) (by omega)
  have hp : Piece (nfaUpto n k lg) 0 := by
    rw [nfaUpto_eq]
    refine piece_append (piece_single ?_ (Or.inl rfl)) (uptoBody_piece n hn _ lg k 1 (by omega))
    intro e he _
    cases lg <;> simp [Eps.new] at he <;> rcases he with rfl | rfl <;> simp <;> omega
  refine ⟨hg, ranked_of_piece hp hg.wf, hp.mix, ?_⟩
  obtain ⟨A, hA⟩ := uptoBody_endNew n ((n.length + 1) * (k + 1)) lg k 1
  rw [nfaUpto_eq, hA, ← List.append_assoc]
  exact sink_append_new

/-- The accept state is not entered by a plain epsilon. -/
def NFA.LastIso (n : NFA σ) : Prop := ∀ q, ¬ n.HasEdge q (.eps .none) (n.length - 1)

theorem nfaStar_shape (n : NFA σ) (hn : Shape n) (h2 : 2 ≤ n.length) (hl : n.LastIso) (lg) : Shape (nfaStar n lg) := by
  have hg := nfaStar_good n hn.good lg
  have hpos : 0 < n.length := List.length_pos_iff.mpr hn.good.ne
  have hlen := star_length n lg
  refine ⟨hg, ?_, ?_, ?_⟩
  · obtain ⟨r, hr⟩ := hn.rank
    refine ⟨fun q => if q = 0 then 1 else if q = n.length then 0 else
      if q = n.length + 1 then 2 else r (q - 1) + 2, ?_⟩
    intro q q' he
    beta_reduce
    rcases Nat.eq_zero_or_pos q with rfl | hq
    · obtain ⟨_, rfl | rfl⟩ := (star_start n lg _ _).mp he
      · rw [if_pos rfl, if_neg (by omega)]
        rw [if_neg (by omega)]; split <;> omega
      · rw [if_pos rfl, if_neg (by omega), if_neg (by omega), if_pos (by omega)]; omega
    · have hq2 := hasEdge_lt he
      rw [hlen] at hq2
      by_cases hlast : q = 1 + n.length
      · subst hlast; exact absurd he (star_sink n lg _ _)
      · have hx : q - 1 < n.length := by omega
        have hb := (nfaStar_block n hn.good lg (q - 1) hx (.eps .none) q').mp (by
          rw [show 1 + (q - 1) = q by omega]; exact he)
        rcases hb with ⟨x', rfl, h2⟩ | ⟨h2, _, rfl⟩
        · have hx' := hn.good.wf _ _ _ h2
          have h3 : x' ≠ n.length - 1 := by rintro rfl; exact hl _ h2
          have h4 : q - 1 ≠ n.length - 1 := by intro h; rw [h] at h2; exact hn.sink _ _ h2
          have := hr _ _ h2
          rw [if_neg (by omega), if_neg (by omega), if_neg (by omega), if_neg (by omega),
            if_neg (by omega), if_neg (by omega), Nat.add_sub_cancel_left]
          omega
        · rw [if_neg (by omega), if_pos (by omega), if_pos (by rfl)]; omega
  · rw [nfaStar_eq]
    refine noMix_append (noMix_append ?_ (block_noMix hn)) ?_
    · intro t ht; rw [List.mem_singleton] at ht; subst ht; exact Or.inl rfl
    · intro t ht; rw [List.mem_singleton] at ht; subst ht; exact Or.inl rfl
  · rw [nfaStar_eq]; exact sink_append_new

theorem two_shape {s : State σ} (hg : Good [s, State.new])
    (h : ∀ e ∈ s.epsilons, e.special = .none → 0 < e.dst)
    (hm : s.transitions = [] ∨ s.epsilons = []) : Shape [s, State.new] := by
  have hp : Piece [s, State.new] 0 := piece_append (A := [s]) (piece_single h hm) piece_new
  exact ⟨hg, ranked_of_piece hp hg.wf, hp.mix, sink_append_new (A := [s])⟩

theorem nfaSymbol_shape (a : σ) : Shape (nfaSymbol a) :=
  two_shape (good_symbol a) (by simp) (Or.inr rfl)

theorem nfaEmpty_shape : Shape (nfaEmpty : NFA σ) :=
  ⟨good_empty, ranked_of_piece piece_new good_empty.wf, piece_new (off := 0) |>.mix,
    sink_append_new (A := [])⟩

theorem nfaNever_shape : Shape (nfaNever : NFA σ) :=
  two_shape good_never (by simp [State.new]) (Or.inl rfl)

theorem nfaSymbol_lastIso (a : σ) : (nfaSymbol a).LastIso := by
  intro q h
  unfold nfaSymbol at h
  rw [hasEdge_cons] at h
  rcases h with ⟨_, h⟩ | ⟨x, _, h⟩
  · simp [State.Has] at h
  · rw [hasEdge_single] at h; exact absurd h.2 has_new

theorem nfaCapture_lastIso (n : NFA σ) (hn : Good n) (g) : (nfaCapture n g).LastIso := by
  intro q h
  have hq := hasEdge_lt h
  rw [capture_length] at h hq
  rcases Nat.eq_zero_or_pos q with rfl | hq0
  · have := (capture_start n g _ _).mp h; simp at this
  · by_cases hl : q = 1 + n.length
    · subst hl; exact capture_sink n g _ _ h
    · have hb := (nfaCapture_block n hn g (q - 1) (by omega) (.eps .none) _).mp (by
        rw [show 1 + (q - 1) = q by omega]; exact h)
      rcases hb with ⟨x', h1, h2⟩ | ⟨_, h2, _⟩
      · have := hn.wf _ _ _ h2; omega
      · simp at h2

mutual
/-- Every starred subtree is a symbol or a group (all trees made from patterns are like this). -/
def Tree.StarOk : Tree → Prop
  | .empty | .symbol _ | .start | .end_ | .never => True
  | .union ts => Tree.StarOkList ts
  | .concat ts => Tree.StarOkList ts
  | .capture t _ => t.StarOk
  | .rep t _ => t.StarOk
  | .upTo t _ _ => t.StarOk
  | .star t _ => t.StarOk ∧ ((∃ a, t = .symbol a) ∨ ∃ u g, t = .capture u g)
/-- The same for all trees of a list. -/
def Tree.StarOkList : List Tree → Prop
  | [] => True
  | t :: ts => t.StarOk ∧ Tree.StarOkList ts
end

mutual
theorem build_shape : (t : Tree) → t.StarOk → Shape (build t)
  | .empty, _ => by rw [build]; exact nfaEmpty_shape
  | .symbol a, _ => by rw [build]; exact nfaSymbol_shape a
  | .union ts, h => by
    rw [build]; rw [Tree.StarOk] at h
    exact nfaUnion_shape _ (buildList_shape ts h)
  | .capture t g, h => by
    rw [build]; rw [Tree.StarOk] at h
    exact nfaCapture_shape _ (build_shape t h) g
  | .concat ts, h => by
    rw [build]; rw [Tree.StarOk] at h
    exact nfaConcat_shape _ (buildList_shape ts h)
  | .rep t n, h => by
    rw [build]; rw [Tree.StarOk] at h
    refine nfaConcat_shape _ fun m hm => ?_
    rw [List.eq_of_mem_replicate hm]; exact build_shape t h
  | .upTo t n l, h => by
    rw [build]; rw [Tree.StarOk] at h
    exact nfaUpto_shape _ (build_shape t h) n l
  | .star t l, h => by
    rw [build]; rw [Tree.StarOk] at h
    refine nfaStar_shape _ (build_shape t h.1) ?_ ?_ l
    · rcases h.2 with ⟨a, rfl⟩ | ⟨u, g, rfl⟩
      · simp [build, nfaSymbol]
      · rw [build, capture_length]; omega
    · rcases h.2 with ⟨a, rfl⟩ | ⟨u, g, rfl⟩
      · rw [build]; exact nfaSymbol_lastIso a
      · rw [build]; exact nfaCapture_lastIso _ (build_good u) g
  | .start, _ => by rw [build]; exact two_shape (good_anchor _) (by simp) (Or.inl rfl)
  | .end_, _ => by rw [build]; exact two_shape (good_anchor _) (by simp) (Or.inl rfl)
  | .never, _ => by rw [build]; exact nfaNever_shape
theorem buildList_shape : (ts : List Tree) → Tree.StarOkList ts → ∀ n ∈ buildList ts, Shape n
  | [], _ => by simp [buildList]
  | t :: ts, h => by
    intro n hn
    rw [Tree.StarOkList] at h
    rw [buildList, List.mem_cons] at hn
    rcases hn with rfl | hn
    · exact build_shape t h.1
    · exact buildList_shape ts h.2 n hn
end

/-! ### Trees made from patterns -/

theorem starOkList_append {a b : List Tree} (ha : Tree.StarOkList a) (hb : Tree.StarOkList b) :
    Tree.StarOkList (a ++ b) := by
  induction a with
  | nil => exact hb
  | cons t a ih =>
    rw [Tree.StarOkList] at ha
    rw [List.cons_append, Tree.StarOkList]
    exact ⟨ha.1, ih ha.2⟩

theorem starOk_concat' {a b : Tree} (ha : a.StarOk) (hb : b.StarOk) : (a.concat' b).StarOk := by
  unfold Tree.concat'
  split
  · rw [Tree.StarOk] at ha ⊢
    exact starOkList_append ha (by simp [Tree.StarOkList, hb])
  · simp [Tree.StarOk, Tree.StarOkList, ha, hb]

theorem starOk_repeat' {a : Tree} (ha : a.StarOk) (n) : (a.repeat' n).StarOk := by
  cases n <;> simp [Tree.repeat', Tree.StarOk, ha]

theorem starOk_upto' {a : Tree} (ha : a.StarOk) (n l) : (a.upto' n l).StarOk := by
  cases n <;> simp [Tree.upto', Tree.StarOk, ha]

theorem starOk_applyQuantifier {c : Tree} (hc : c.StarOk)
    (hs : (∃ a, c = .symbol a) ∨ ∃ u g, c = .capture u g) (q : Quantifier) :
    (Tree.applyQuantifier c q).StarOk := by
  unfold Tree.applyQuantifier
  have hstar : ∀ l, (Tree.star c l).StarOk := fun l => by rw [Tree.StarOk]; exact ⟨hc, hs⟩
  dsimp only
  split
  · exact hstar _
  · exact starOk_concat' hc (hstar _)
  · exact starOk_upto' hc _ _
  · exact starOk_repeat' hc _
  · exact starOk_concat' (starOk_repeat' hc _) (hstar _)
  · split
    · simp [Tree.StarOk]
    · split
      · exact starOk_repeat' hc _
      · exact starOk_concat' (starOk_repeat' hc _) (starOk_upto' hc _ _)

mutual
theorem starOk_fromSubERE : (e : ERE) → ∀ g, (Tree.fromSubERE e g).1.StarOk
  | .mk bs, g => by
    rw [Tree.fromSubERE]; simp only [Tree.StarOk]; exact starOk_fromBranches bs g
theorem starOk_fromBranches : (bs : List EREBranch) → ∀ g, Tree.StarOkList (Tree.fromBranches bs g).1
  | [], g => by simp [Tree.fromBranches, Tree.StarOkList]
  | b :: bs, g => by
    rw [Tree.fromBranches]; simp only [Tree.StarOkList]
    exact ⟨starOk_fromBranch b g, starOk_fromBranches bs _⟩
theorem starOk_fromBranch : (b : EREBranch) → ∀ g, (Tree.fromBranch b g).1.StarOk
  | .mk ps, g => by
    rw [Tree.fromBranch]; simp only [Tree.StarOk]; exact starOk_fromParts ps g
theorem starOk_fromParts : (ps : List EREPart) → ∀ g, Tree.StarOkList (Tree.fromParts ps g).1
  | [], g => by simp [Tree.fromParts, Tree.StarOkList]
  | p :: ps, g => by
    rw [Tree.fromParts]; simp only [Tree.StarOkList]
    exact ⟨starOk_fromPart p g, starOk_fromParts ps _⟩
theorem starOk_fromPart : (p : EREPart) → ∀ g, (Tree.fromPart p g).1.StarOk
  | .single e, g => by rw [Tree.fromPart]; exact (starOk_fromExpr e g).1
  | .quantified e q, g => by
    rw [Tree.fromPart]
    exact starOk_applyQuantifier (starOk_fromExpr e g).1 (starOk_fromExpr e g).2 q
  | .start, g => by simp [Tree.fromPart, Tree.StarOk]
  | .end_, g => by simp [Tree.fromPart, Tree.StarOk]
theorem starOk_fromExpr : (e : EREExpr) → ∀ g, (Tree.fromExpr e g).1.StarOk ∧
    ((∃ a, (Tree.fromExpr e g).1 = .symbol a) ∨ ∃ u h, (Tree.fromExpr e g).1 = .capture u h)
  | .atom a, g => by rw [Tree.fromExpr]; exact ⟨by simp [Tree.StarOk], Or.inl ⟨a, rfl⟩⟩
  | .sub e, g => by
    rw [Tree.fromExpr]
    refine ⟨?_, Or.inr ⟨_, _, rfl⟩⟩
    rw [Tree.StarOk]; exact starOk_fromSubERE e (g + 1)
end

theorem starOk_fromERE (e : ERE) : (Tree.fromERE e).1.StarOk := by
  unfold Tree.fromERE
  simp only [Tree.StarOk]
  exact starOk_fromSubERE e 1

end Ere
