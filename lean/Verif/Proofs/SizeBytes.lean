import Verif.Proofs.Size
import Verif.Proofs.Utf8
import Verif.Proofs.Trie
import Verif.Proofs.TDFA
import Verif.Proofs.Minimise

/-!
# How many byte sequences and states the byte automata have
-/

namespace Ere

/-! ## Byte sequences of a range of characters -/

/-- A range that no longer has to be split at the surrogates or between encodings of different length. -/
structure Plain (s e : Nat) : Prop where
  sur : ¬ (s < 0xE000 ∧ 0xD7FF < e)
  len : splitLen s e = none

theorem Plain.sub {s e s' e' : Nat} (h : Plain s e) (h1 : s ≤ s') (h2 : e' ≤ e) : Plain s' e' := by
  obtain ⟨h3, h4⟩ := h
  refine ⟨by omega, ?_⟩
  unfold splitLen at h4 ⊢
  split at h4
  · cases h4
  · split at h4
    · cases h4
    · split at h4
      · cases h4
      · rw [if_neg (by omega), if_neg (by omega), if_neg (by omega)]

theorem splitAlign_none_iff {m s e : Nat} :
    splitAlign m s e = none ↔ s / m = e / m ∨ (s % m = 0 ∧ e % m = m - 1) := by
  unfold splitAlign
  by_cases h1 : s / m = e / m
  · simp [h1]
  · by_cases h2 : s % m = 0
    · by_cases h3 : e % m = m - 1
      · simp [h2, h3]
      · simp [h1, h2, h3]
    · simp [h1, h2]

theorem splitAlign_some_iff {m s e x : Nat} (h : splitAlign m s e = some x) :
    s / m ≠ e / m ∧ ((s % m ≠ 0 ∧ x = s / m * m + (m - 1)) ∨
      (s % m = 0 ∧ e % m ≠ m - 1 ∧ x = e / m * m - 1)) := by
  unfold splitAlign at h
  split at h
  · rename_i h1
    split at h
    · rename_i h2
      exact ⟨h1, Or.inl ⟨h2, by simpa using h.symm⟩⟩
    · rename_i h2
      split at h
      · rename_i h3
        exact ⟨h1, Or.inr ⟨by omega, h3, by simpa using h.symm⟩⟩
      · cases h
  · cases h

theorem cnt4 {s e : Nat} (h : Plain s e) (h1 : splitAlign 64 s e = none) (h2 : splitAlign 4096 s e = none)
    (h3 : splitAlign 262144 s e = none) (k : Nat) : (utf8Split k s e).length ≤ 1 := by
  cases k with
  | zero => simp [utf8Split]
  | succ k =>
    unfold utf8Split
    rw [if_neg h.sur]
    split
    · simp
    · rw [h.len]
      simp only [h1, h2, h3]
      split <;> simp

theorem cnt3a {s e : Nat} (h : Plain s e) (h1 : splitAlign 64 s e = none) (h2 : splitAlign 4096 s e = none)
    (ha : s % 262144 = 0) (k : Nat) : (utf8Split k s e).length ≤ 2 := by
  cases hs : splitAlign 262144 s e with
  | none => have := cnt4 h h1 h2 hs k; omega
  | some x =>
    cases k with
    | zero => simp [utf8Split]
    | succ k =>
      unfold utf8Split
      rw [if_neg h.sur]
      split
      · simp
      · rename_i hse
        rw [h.len]
        simp only [h1, h2, hs]
        rw [splitAlign_none_iff] at h1 h2
        obtain ⟨h4, h5⟩ := splitAlign_some_iff hs
        split
        · simp
        · have a1 := cnt4 (h.sub (s' := s) (e' := x) (by omega) (by omega)) (splitAlign_none_iff.2 (by omega))
            (splitAlign_none_iff.2 (by omega)) (splitAlign_none_iff.2 (by omega)) k
          have a2 := cnt4 (h.sub (s' := x + 1) (e' := e) (by omega) (by omega)) (splitAlign_none_iff.2 (by omega))
            (splitAlign_none_iff.2 (by omega)) (splitAlign_none_iff.2 (by omega)) k
          rw [List.length_append]; omega

theorem cnt3 {s e : Nat} (h : Plain s e) (h1 : splitAlign 64 s e = none) (h2 : splitAlign 4096 s e = none)
    (k : Nat) : (utf8Split k s e).length ≤ 3 := by
  cases hs : splitAlign 262144 s e with
  | none => have := cnt4 h h1 h2 hs k; omega
  | some x =>
    by_cases ha : s % 262144 = 0
    · have := cnt3a h h1 h2 ha k; omega
    cases k with
    | zero => simp [utf8Split]
    | succ k =>
      unfold utf8Split
      rw [if_neg h.sur]
      split
      · simp
      · rename_i hse
        rw [h.len]
        simp only [h1, h2, hs]
        rw [splitAlign_none_iff] at h1 h2
        obtain ⟨h4, h5⟩ := splitAlign_some_iff hs
        split
        · simp
        · have a1 := cnt4 (h.sub (s' := s) (e' := x) (by omega) (by omega)) (splitAlign_none_iff.2 (by omega))
            (splitAlign_none_iff.2 (by omega)) (splitAlign_none_iff.2 (by omega)) k
          have a2 := cnt3a (h.sub (s' := x + 1) (e' := e) (by omega) (by omega)) (splitAlign_none_iff.2 (by omega))
            (splitAlign_none_iff.2 (by omega)) (by omega) k
          rw [List.length_append]; omega

theorem cnt2a {s e : Nat} (h : Plain s e) (h1 : splitAlign 64 s e = none)
    (ha : s % 4096 = 0) (k : Nat) : (utf8Split k s e).length ≤ 4 := by
  cases hs : splitAlign 4096 s e with
  | none => have := cnt3 h h1 hs k; omega
  | some x =>
    cases k with
    | zero => simp [utf8Split]
    | succ k =>
      unfold utf8Split
      rw [if_neg h.sur]
      split
      · simp
      · rename_i hse
        rw [h.len]
        simp only [h1, hs]
        rw [splitAlign_none_iff] at h1
        obtain ⟨h4, h5⟩ := splitAlign_some_iff hs
        split
        · simp
        · have a1 := cnt3 (h.sub (s' := s) (e' := x) (by omega) (by omega)) (splitAlign_none_iff.2 (by omega))
            (splitAlign_none_iff.2 (by omega)) k
          have a2 := cnt4 (h.sub (s' := x + 1) (e' := e) (by omega) (by omega)) (splitAlign_none_iff.2 (by omega))
            (splitAlign_none_iff.2 (by omega)) (splitAlign_none_iff.2 (by omega)) k
          rw [List.length_append]; omega

theorem cnt2 {s e : Nat} (h : Plain s e) (h1 : splitAlign 64 s e = none)
    (k : Nat) : (utf8Split k s e).length ≤ 5 := by
  cases hs : splitAlign 4096 s e with
  | none => have := cnt3 h h1 hs k; omega
  | some x =>
    by_cases ha : s % 4096 = 0
    · have := cnt2a h h1 ha k; omega
    cases k with
    | zero => simp [utf8Split]
    | succ k =>
      unfold utf8Split
      rw [if_neg h.sur]
      split
      · simp
      · rename_i hse
        rw [h.len]
        simp only [h1, hs]
        rw [splitAlign_none_iff] at h1
        obtain ⟨h4, h5⟩ := splitAlign_some_iff hs
        split
        · simp
        · have a1 := cnt4 (h.sub (s' := s) (e' := x) (by omega) (by omega)) (splitAlign_none_iff.2 (by omega))
            (splitAlign_none_iff.2 (by omega)) (splitAlign_none_iff.2 (by omega)) k
          have a2 := cnt2a (h.sub (s' := x + 1) (e' := e) (by omega) (by omega)) (splitAlign_none_iff.2 (by omega))
            (by omega) k
          rw [List.length_append]; omega

theorem cnt1a {s e : Nat} (h : Plain s e) (ha : s % 64 = 0) (k : Nat) : (utf8Split k s e).length ≤ 6 := by
  cases hs : splitAlign 64 s e with
  | none => have := cnt2 h hs k; omega
  | some x =>
    cases k with
    | zero => simp [utf8Split]
    | succ k =>
      unfold utf8Split
      rw [if_neg h.sur]
      split
      · simp
      · rename_i hse
        rw [h.len]
        simp only [hs]
        obtain ⟨h4, h5⟩ := splitAlign_some_iff hs
        split
        · simp
        · have a1 := cnt2 (h.sub (s' := s) (e' := x) (by omega) (by omega)) (splitAlign_none_iff.2 (by omega)) k
          have a2 := cnt4 (h.sub (s' := x + 1) (e' := e) (by omega) (by omega)) (splitAlign_none_iff.2 (by omega))
            (splitAlign_none_iff.2 (by omega)) (splitAlign_none_iff.2 (by omega)) k
          rw [List.length_append]; omega

theorem cnt1 {s e : Nat} (h : Plain s e) (k : Nat) : (utf8Split k s e).length ≤ 7 := by
  cases hs : splitAlign 64 s e with
  | none => have := cnt2 h hs k; omega
  | some x =>
    by_cases ha : s % 64 = 0
    · have := cnt1a h ha k; omega
    cases k with
    | zero => simp [utf8Split]
    | succ k =>
      unfold utf8Split
      rw [if_neg h.sur]
      split
      · simp
      · rename_i hse
        rw [h.len]
        simp only [hs]
        obtain ⟨h4, h5⟩ := splitAlign_some_iff hs
        split
        · simp
        · have a1 := cnt4 (h.sub (s' := s) (e' := x) (by omega) (by omega)) (splitAlign_none_iff.2 (by omega))
            (splitAlign_none_iff.2 (by omega)) (splitAlign_none_iff.2 (by omega)) k
          have a2 := cnt1a (h.sub (s' := x + 1) (e' := e) (by omega) (by omega)) (by omega) k
          rw [List.length_append]; omega

/-- One if the range goes across `m`. -/
def across (m s e : Nat) : Nat := if s ≤ m ∧ m < e then 1 else 0

theorem across_split {m s x e : Nat} (hx : s ≤ x ∧ x < e) :
    across m s x + across m (x + 1) e + (if x = m then 1 else 0) ≤ across m s e := by
  unfold across
  by_cases h1 : s ≤ m ∧ m < e
  · rw [if_pos h1]
    by_cases h2 : x = m
    · rw [if_pos h2, if_neg (by omega), if_neg (by omega)]
    · rw [if_neg h2]
      by_cases h3 : m < x
      · rw [if_pos (by omega), if_neg (by omega)]
      · rw [if_neg (by omega), if_pos (by omega)]
  · rw [if_neg h1, if_neg (by omega), if_neg (by omega), if_neg (by omega)]

theorem cnt0 {s e : Nat} (h : ¬ (s < 0xE000 ∧ 0xD7FF < e)) (k : Nat) :
    (utf8Split k s e).length ≤ 7 * (1 + across 0x7f s e + across 0x7ff s e + across 0xffff s e) := by
  induction k generalizing s e with
  | zero => simp [utf8Split]
  | succ k ih =>
    cases hl : splitLen s e with
    | none => have := cnt1 ⟨h, hl⟩ (k + 1); omega
    | some x =>
      unfold utf8Split
      rw [if_neg h]
      split
      · simp
      · rename_i hse
        rw [hl]
        dsimp only
        have hx := splitLen_some hl
        have a1 := ih (s := s) (e := x) (by omega)
        have a2 := ih (s := x + 1) (e := e) (by omega)
        rw [List.length_append]
        have b1 := across_split (m := 0x7f) hx
        have b2 := across_split (m := 0x7ff) hx
        have b3 := across_split (m := 0xffff) hx
        have hm : x = 0x7f ∨ x = 0x7ff ∨ x = 0xffff := by
          unfold splitLen at hl
          split at hl
          · have := Option.some.inj hl; omega
          · split at hl
            · have := Option.some.inj hl; omega
            · split at hl
              · have := Option.some.inj hl; omega
              · cases hl
        rcases hm with h1 | h1 | h1
        · rw [if_pos h1] at b1; omega
        · rw [if_pos h1] at b2; omega
        · rw [if_pos h1] at b3; omega

/-- A range of characters has at most 35 sequences of byte ranges. -/
theorem utf8Split_count (k s e : Nat) : (utf8Split k s e).length ≤ 35 := by
  by_cases h : s < 0xE000 ∧ 0xD7FF < e
  · cases k with
    | zero => simp [utf8Split]
    | succ k =>
      unfold utf8Split
      rw [if_pos h, List.length_append]
      have a1 := cnt0 (s := s) (e := 0xD7FF) (by omega) k
      have a2 := cnt0 (s := 0xE000) (e := e) (by omega) k
      unfold across at a1 a2
      split at a1 <;> split at a1 <;> split at a1 <;> split at a2 <;> split at a2 <;> split at a2 <;> omega
  · have a1 := cnt0 h k
    unfold across at a1
    split at a1 <;> split at a1 <;> split at a1 <;> omega

/-! ## States of a byte automaton -/

theorem trieInsert_count : ∀ {s : List U8Atom} {T T' : Trie} {q}, trieInsert T q s = .ok T' →
    T'.length ≤ T.length + (s.length - 1)
  | [], T, T', q, h => by simp [trieInsert] at h; rw [h]; omega
  | a :: as, T, T', none, h => by simp [trieInsert] at h
  | a :: as, T, T', some q, h => by
    unfold trieInsert at h
    split at h
    · cases h
    · split at h
      · have := trieInsert_count h
        simp only [List.length_cons]; omega
      · split at h
        · simp only [Except.ok.injEq] at h
          subst h
          simp
        · have := trieInsert_count h
          simp only [List.length_modify, List.length_append, List.length_cons, List.length_nil] at this ⊢
          omega

theorem trieAll_count : ∀ {ss : List (List U8Atom)} {T T' : Trie}, (∀ s ∈ ss, s.length ≤ 4) →
    trieAll T ss = .ok T' → T'.length ≤ T.length + 3 * ss.length
  | [], T, T', _, h => by simp [trieAll] at h; rw [h]; omega
  | s :: ss, T, T', h4, h => by
    unfold trieAll at h
    split at h
    · cases h
    · rename_i T1 h1
      have a1 := trieInsert_count h1
      have a2 := trieAll_count (fun s hs => h4 s (List.mem_cons_of_mem _ hs)) h
      have a3 := h4 s List.mem_cons_self
      simp only [List.length_cons]; omega

/-- No sequence of byte ranges is longer than four. -/
theorem atomSeqs_len (U : Utf8Seqs) (a : Atom) : ∀ s ∈ atomSeqs U.seqs a, s.length ≤ 4 := by
  intro s hs
  have h := matchesSeq_low (atomSeqs_nonempty U a s hs)
  obtain ⟨r, hr, hs⟩ := List.mem_flatMap.1 hs
  obtain ⟨c, _, _, h3⟩ := (U.exact_ r.lo r.hi _).1 ⟨s, hs, h⟩
  have h4 := congrArg List.length h3
  rw [List.length_map, enc_length] at h4
  rw [h4]
  unfold charLen
  split
  · omega
  · split
    · omega
    · split <;> omega

/-- How many states the byte automaton may need in place of a symbol. -/
def atomCost (U : Utf8Seqs) (a : Atom) : Nat := 3 * (atomSeqs U.seqs a).length

theorem u8Symbol_count (U : Utf8Seqs) {a : Atom} {P} (h : u8Symbol U.seqs a = .ok P) : P.length ≤ 2 + atomCost U a := by
  unfold u8Symbol at h
  split at h
  · cases h
  · rename_i T hT
    cases h
    have := trieAll_count (atomSeqs_len U a) hT
    simp only [List.length_append, List.length_map, List.length_cons, List.length_nil, atomCost] at this ⊢
    omega

theorem expandTrans_count (U : Utf8Seqs) : ∀ {ts : List (Trans Atom)} {off rs ss},
    expandTrans U.seqs off ts = .ok (rs, ss) → ss.length ≤ (ts.map (fun t => atomCost U t.symbol)).sum
  | [], off, rs, ss, h => by cases h; simp
  | t :: ts, off, rs, ss, h => by
    unfold expandTrans at h
    split at h
    · cases h
    · rename_i P hP
      dsimp only at h
      split at h
      · cases h
      · rename_i rs' ss' hr
        cases h
        have a1 := expandTrans_count U hr
        have a2 := u8Symbol_count U hP
        simp only [List.length_append, List.length_map, List.length_take, List.length_drop, List.map_cons,
          List.sum_cons]
        omega

theorem expandStates_count (U : Utf8Seqs) : ∀ {N : NFA Atom} {off ms ss},
    expandStates U.seqs off N = .ok (ms, ss) → ms.length + ss.length ≤ N.wt (atomCost U)
  | [], off, ms, ss, h => by cases h; simp
  | s :: N, off, ms, ss, h => by
    unfold expandStates at h
    split at h
    · cases h
    · rename_i ts subs h1
      split at h
      · cases h
      · rename_i ms' ss' h2
        cases h
        have a1 := expandTrans_count U h1
        have a2 := expandStates_count U h2
        rw [wt_cons]
        simp only [State.wt, List.length_append, List.length_cons]
        omega

theorem u8New_count (U : Utf8Seqs) {N : NFA Atom} {M} (h : u8New U.seqs N = .ok M) :
    M.length ≤ N.wt (atomCost U) + 1 := by
  unfold u8New u8NewLoopOpt at h
  split at h
  · cases h
  · rename_i M0 h0
    have a1 := wt_finish (w := fun _ => 0) h
    rw [wt_zero, wt_zero] at a1
    unfold u8Build at h0
    split at h0
    · cases h0
    · rename_i ms ss h1
      have a2 := expandStates_count U h1
      split at h0
      · cases h0
      · cases h0
        simp only [NFA.withLoops, Bool.false_eq_true, if_false, List.length_append, pushLast_length,
          List.length_cons, List.length_nil] at a1
        omega

theorem byteNFA_count (U : Utf8Seqs) {e : ERE} {M} (h : byteNFA U.seqs e = .ok M) :
    M.length ≤ 6 * e.expanded (atomCost U) + 17 + 2 * atomCost U anyAtom := by
  unfold byteNFA at h
  split at h
  · cases h
  · rename_i N hN
    have a1 := wt_charNFA (atomCost U) hN
    have a2 := u8New_count U h
    omega

/-! ## Monotone in the cost of an atom -/

mutual
theorem ERE.expanded_mono {w v : Atom → Nat} (h : ∀ a, w a ≤ v a) : ∀ e : ERE, e.expanded w ≤ e.expanded v
  | .mk bs => by simp only [ERE.expanded]; exact expandedBranches_mono h bs
theorem expandedBranches_mono {w v : Atom → Nat} (h : ∀ a, w a ≤ v a) : ∀ bs : List EREBranch,
    expandedBranches w bs ≤ expandedBranches v bs
  | [] => by simp [expandedBranches]
  | b :: bs => by
    have h1 := EREBranch.expanded_mono h b
    have h2 := expandedBranches_mono h bs
    simp only [expandedBranches]; omega
theorem EREBranch.expanded_mono {w v : Atom → Nat} (h : ∀ a, w a ≤ v a) : ∀ b : EREBranch, b.expanded w ≤ b.expanded v
  | .mk ps => by simp only [EREBranch.expanded]; exact expandedParts_mono h ps
theorem expandedParts_mono {w v : Atom → Nat} (h : ∀ a, w a ≤ v a) : ∀ ps : List EREPart,
    expandedParts w ps ≤ expandedParts v ps
  | [] => by simp [expandedParts]
  | p :: ps => by
    have h1 := EREPart.expanded_mono h p
    have h2 := expandedParts_mono h ps
    simp only [expandedParts]; omega
theorem EREPart.expanded_mono {w v : Atom → Nat} (h : ∀ a, w a ≤ v a) : ∀ p : EREPart, p.expanded w ≤ p.expanded v
  | .single e => by simp only [EREPart.expanded]; exact EREExpr.expanded_mono h e
  | .quantified e q => by
    have h1 := Nat.mul_le_mul_left q.q.copies (EREExpr.expanded_mono h e)
    simp only [EREPart.expanded]; omega
  | .start => by simp [EREPart.expanded]
  | .end_ => by simp [EREPart.expanded]
theorem EREExpr.expanded_mono {w v : Atom → Nat} (h : ∀ a, w a ≤ v a) : ∀ e : EREExpr, e.expanded w ≤ e.expanded v
  | .atom a => by have := h a; simp only [EREExpr.expanded]; omega
  | .sub e => by have := ERE.expanded_mono h e; simp only [EREExpr.expanded]; omega
end

theorem flatMap_length_le {β γ : Type} (f : β → List γ) (k : Nat) (h : ∀ b, (f b).length ≤ k) :
    ∀ l : List β, (l.flatMap f).length ≤ k * l.length
  | [] => by simp
  | b :: l => by
    have a1 := flatMap_length_le f k h l
    have a2 := h b
    rw [List.flatMap_cons, List.length_append, List.length_cons, Nat.mul_add]; omega

/-- With the algorithm of the crate a symbol costs at most 105 states per range. -/
theorem atomCost_crate (a : Atom) : atomCost utf8Crate a ≤ 105 * a.toRanges.length := by
  have h := flatMap_length_le (fun r : CRange => utf8Crate.seqs r.lo r.hi) 35 (fun r => utf8Split_count _ _ _) a.toRanges
  unfold atomCost atomSeqs
  omega

/-! ## DFA -/

theorem addStates_max {m new states stack S st} (h : addStates m new states stack = some (S, st))
    (hs : states.length ≤ m) : S.length ≤ m := by
  induction new generalizing states stack with
  | nil => simp [addStates] at h; rw [← h.1]; exact hs
  | cons n ns ih =>
    unfold addStates at h
    split at h
    · exact ih h hs
    · split at h
      · simp at h
      · exact ih h (by simp; omega)

theorem tdfaLoop_max {N : NFA U8Atom} {m k states stack S} (h : tdfaLoop N m k states stack = .ok (some S))
    (hs : states.length ≤ m) : S.length ≤ m := by
  induction k generalizing states stack with
  | zero =>
    cases stack with
    | nil => simp [tdfaLoop] at h; rw [← h]; exact hs
    | cons _ _ => simp [tdfaLoop] at h
  | succ k ih =>
    cases stack with
    | nil => simp [tdfaLoop] at h; rw [← h]; exact hs
    | cons x stack =>
      unfold tdfaLoop at h
      split at h
      · simp at h
      · split at h
        · simp at h
        · split at h
          · simp at h
          · rename_i h1
            exact ih h (addStates_max h1 (by simpa using hs))

theorem fromNFA_max {N : NFA U8Atom} {m D} (h : TDFA.fromNFA N m = .ok (some D)) : D.states.length ≤ m := by
  unfold TDFA.fromNFA at h
  split at h
  · cases h
  · split at h
    · cases h
    · split at h
      · cases h
      · cases h
      · rename_i hl
        cases h
        exact tdfaLoop_max hl (by simp; omega)

theorem mergeFold_le : ∀ (ps : List (Nat × Nat)) {D D' : DFA},
    ps.foldlM (fun D p => D.mergeStates p.2 p.1) D = .ok D' → D'.states.length ≤ D.states.length
  | [], D, D', h => by cases h; exact Nat.le_refl _
  | p :: ps, D, D', h => by
    rw [List.foldlM_cons] at h
    cases h1 : D.mergeStates p.2 p.1 with
    | error e => rw [h1] at h; cases h
    | ok D1 =>
      rw [h1] at h
      have a1 := mergeFold_le ps h
      unfold DFA.mergeStates at h1
      split at h1
      · cases h1
      · cases h1
        simp only [List.length_map] at a1
        exact Nat.le_trans a1 (List.length_eraseIdx_le _ _)

theorem minimiseLoop_le : ∀ {k} {D D' : DFA}, minimiseLoop k D = .ok D' → D'.states.length ≤ D.states.length
  | 0, _, _, h => by cases h
  | k + 1, D, D', h => by
    unfold minimiseLoop at h
    split at h
    · cases h; exact Nat.le_refl _
    · split at h
      · cases h
      · rename_i h1
        exact Nat.le_trans (minimiseLoop_le h) (mergeFold_le _ h1)

theorem minimiseLoop_nodup : ∀ {k} {D D' : DFA}, minimiseLoop k D = .ok D' → D'.states.Nodup
  | 0, _, _, h => by cases h
  | k + 1, D, D', h => by
    unfold minimiseLoop at h
    split at h
    · rename_i hnil
      cases h
      exact (mergePairs_spec _).2.2 hnil
    · split at h
      · cases h
      · exact minimiseLoop_nodup h

theorem fromTagged_le {T : TDFA} {D} (h : DFA.fromTagged T = .ok (some D)) : D.states.length ≤ T.states.length := by
  unfold DFA.fromTagged at h
  dsimp only at h
  split at h
  · split at h
    · cases h
    · rename_i h1
      cases h
      simpa using minimiseLoop_le h1
  · cases h

theorem dfaOf_count {N : NFA U8Atom} {E} (h : dfaOf N = .ok (some E)) :
    E.dfa.states.length ≤ E.tdfa.states.length ∧ E.tdfa.states.length ≤ max 100 (2 * N.length) := by
  unfold dfaOf at h
  split at h
  · cases h
  · cases h
  · rename_i T hT
    have a1 := fromNFA_max hT
    unfold serializeDfa at h
    split at h
    · cases h
    · cases h
    · rename_i D hD
      cases h
      refine ⟨fromTagged_le hD, ?_⟩
      unfold TDFA.defaultBound at a1
      rw [Nat.mul_comm] at a1
      exact a1

end Ere
