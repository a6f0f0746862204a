import Verif.Model.OnePass
import Verif.Proofs.FlatTop
import Verif.Proofs.Topo

/-! The one-pass engine: the tables computed by the macro. -/

namespace Ere

/-- What a walk amounts to in this engine. -/
def opSummary (k p : Nat) (ls : List EpsType) : Upd :=
  ⟨p, (List.range k).map (fun g => (ls.contains (.startCapture g), ls.contains (.endCapture g))),
    ls.contains .startAnchor, ls.contains .endAnchor⟩

theorem opSummary_new (k q : Nat) : Upd.new q k = opSummary k q [] := by
  simp [Upd.new, opSummary, List.map_const']

theorem extend_summary {k p r : Nat} {ls : List EpsType} {e : EpsType}
    (h : ∀ t, e.tag? = some t → t.group < k) :
    (opSummary k p ls).extend ⟨r, e⟩ = .ok (opSummary k r (ls ++ [e])) := by
  cases e with
  | none => simp [Upd.extend, opSummary]
  | startAnchor => simp [Upd.extend, opSummary]
  | endAnchor => simp [Upd.extend, opSummary]
  | startCapture c =>
    have hc : c < k := h _ rfl
    simp only [Upd.extend, opSummary, List.length_map, List.length_range, if_pos hc]
    congr 2
    · apply List.ext_getElem?
      intro i
      rw [List.getElem?_modify]
      by_cases hi : i < k
      · by_cases hci : c = i
        · subst hci; simp [hi]
        · have : ¬ i = c := fun h => hci h.symm
          simp [hi, hci, this]
      · simp [hi]
    · simp
    · simp
  | endCapture c =>
    have hc : c < k := h _ rfl
    simp only [Upd.extend, opSummary, List.length_map, List.length_range, if_pos hc]
    congr 2
    · apply List.ext_getElem?
      intro i
      rw [List.getElem?_modify]
      by_cases hi : i < k
      · by_cases hci : c = i
        · subst hci; simp [hi]
        · have : ¬ i = c := fun h => hci h.symm
          simp [hi, hci, this]
      · simp [hi]
    · simp
    · simp

/-- All lists of length `k` of pairs of flags. -/
def bitLists : Nat → List (List (Bool × Bool))
  | 0 => [[]]
  | k + 1 => (bitLists k).flatMap (fun l =>
      [(false, false) :: l, (false, true) :: l, (true, false) :: l, (true, true) :: l])

theorem bitLists_length (k : Nat) : (bitLists k).length = 4 ^ k := by
  induction k with
  | zero => rfl
  | succ k ih =>
    simp only [bitLists, List.length_flatMap, List.length_cons, List.length_nil, List.map_const',
      sum_replicate_nat, ih, Nat.pow_succ]

theorem mem_bitLists (k : Nat) (l : List (Bool × Bool)) (h : l.length = k) : l ∈ bitLists k := by
  induction k generalizing l with
  | zero => simp [bitLists, List.length_eq_zero_iff.mp h]
  | succ k ih =>
    cases l with
    | nil => simp at h
    | cons x l =>
      refine List.mem_flatMap.mpr ⟨l, ih l (by simpa using h), ?_⟩
      obtain ⟨a, b⟩ := x
      cases a <;> cases b <;> simp

/-- All updates for `n` states and `k` groups. -/
def updUniverse (n k : Nat) : List Upd :=
  (List.range n).flatMap fun q => (bitLists k).flatMap fun l =>
    [⟨q, l, false, false⟩, ⟨q, l, false, true⟩, ⟨q, l, true, false⟩, ⟨q, l, true, true⟩]

theorem updUniverse_length (n k : Nat) : (updUniverse n k).length = n * 4 ^ k * 4 := by
  simp only [updUniverse, List.length_flatMap, List.length_cons, List.length_nil, List.map_const',
    sum_replicate_nat, bitLists_length, List.length_range, Nat.mul_assoc]

theorem mem_updUniverse {n k : Nat} {t : Upd} (h1 : t.state < n) (h2 : t.caps.length = k) :
    t ∈ updUniverse n k := by
  obtain ⟨q, l, a, b⟩ := t
  refine List.mem_flatMap.mpr ⟨q, List.mem_range.mpr h1, List.mem_flatMap.mpr ⟨l, mem_bitLists _ _ h2, ?_⟩⟩
  cases a <;> cases b <;> simp

theorem opPush_fold (t : Upd) (es : List Eps) (hok : ∀ e ∈ es, ∃ u, t.extend e = .ok u)
    (stack reached : List Upd) :
    ∃ new, es.foldlM (opPush t) (stack, reached) = .ok (new.reverse ++ stack, reached ++ new) ∧ new.Nodup ∧
      (∀ x ∈ new, x ∉ reached ∧ ∃ e ∈ es, t.extend e = .ok x) ∧
      ∀ e ∈ es, ∀ x, t.extend e = .ok x → x ∈ reached ++ new := by
  induction es generalizing stack reached with
  | nil => exact ⟨[], by simp; rfl, by simp, by simp, by simp⟩
  | cons e es ih =>
    obtain ⟨u, hu⟩ := hok e (by simp)
    rw [List.foldlM_cons]
    unfold opPush
    rw [hu]
    simp only
    by_cases hc : u ∈ reached
    · rw [if_pos (by simpa using hc)]
      obtain ⟨new, h1, h2, h3, h4⟩ := ih (fun e he => hok e (by simp [he])) stack reached
      refine ⟨new, h1, h2, fun x hx => ⟨(h3 x hx).1, ?_⟩, ?_⟩
      · obtain ⟨e', he', h⟩ := (h3 x hx).2
        exact ⟨e', by simp [he'], h⟩
      · intro e' he' x hx
        rcases List.mem_cons.mp he' with rfl | he'
        · rw [hu] at hx; injection hx with hx; subst hx; simp [hc]
        · exact h4 e' he' x hx
    · rw [if_neg (by simpa using hc)]
      obtain ⟨new, h1, h2, h3, h4⟩ := ih (fun e he => hok e (by simp [he])) (u :: stack) (reached ++ [u])
      refine ⟨u :: new, ?_, ?_, ?_, ?_⟩
      · change es.foldlM (opPush t) (u :: stack, reached ++ [u]) = _
        rw [h1]; simp
      · rw [List.nodup_cons]
        exact ⟨fun hm => (h3 u hm).1 (by simp), h2⟩
      · intro x hx
        rcases List.mem_cons.mp hx with rfl | hx
        · exact ⟨hc, e, by simp, hu⟩
        · obtain ⟨h5, e', he', h⟩ := h3 x hx
          exact ⟨fun hm => h5 (by simp [hm]), e', by simp [he'], h⟩
      · intro e' he' x hx
        rcases List.mem_cons.mp he' with rfl | he'
        · rw [hu] at hx; injection hx with hx; subst hx; simp
        · have := h4 e' he' x hx
          simpa using this

theorem opTrans_fold (t : Upd) (trs : List (Trans U8Atom)) (acc : OpRow) (hn : acc.Nodup) :
    (trs.foldl (opTrans t) acc).Nodup ∧ ∀ x, x ∈ trs.foldl (opTrans t) acc ↔
      x ∈ acc ∨ ∃ tr ∈ trs, x = (tr.symbol, ⟨tr.dst, t.caps, t.startOnly, t.endOnly⟩) := by
  induction trs generalizing acc with
  | nil => simpa using hn
  | cons tr trs ih =>
    rw [List.foldl_cons]
    have key : (opTrans t acc tr).Nodup ∧ ∀ x, x ∈ opTrans t acc tr ↔
        x ∈ acc ∨ x = (tr.symbol, ⟨tr.dst, t.caps, t.startOnly, t.endOnly⟩) := by
      unfold opTrans
      simp only
      split
      · rename_i hc
        refine ⟨hn, fun x => ⟨Or.inl, ?_⟩⟩
        rintro (h | rfl)
        · exact h
        · simpa using hc
      · rename_i hc
        refine ⟨?_, fun x => by simp⟩
        rw [List.nodup_append]
        refine ⟨hn, by simp, ?_⟩
        intro a ha b hb
        rw [List.mem_singleton] at hb
        subst hb
        rintro rfl
        exact hc (by simpa using ha)
    obtain ⟨h1, h2⟩ := ih _ key.1
    refine ⟨h1, fun x => ?_⟩
    rw [h2, key.2]
    simp only [List.mem_cons, exists_eq_or_imp]
    tauto

/-- Invariant of the loop for state `q`; `D` is the list of threads taken from the stack. -/
structure OpInv (N : NFA U8Atom) (k q : Nat) (s : OpSt) (D : List Upd) : Prop where
  nodup : (D ++ s.stack).Nodup
  cover : ∀ t, t ∈ s.reached ↔ t ∈ D ∨ t ∈ s.stack
  sound : ∀ t ∈ s.reached, ∃ p ls, EWalk N q ls p ∧ t = opSummary k p ls
  closed : ∀ t ∈ D, ∀ e r t', N.HasEdge t.state (.eps e) r → t.extend ⟨r, e⟩ = .ok t' → t' ∈ s.reached
  accept : s.accept = D.filter (fun t => t.state + 1 == N.length)
  trans : ∀ x, x ∈ s.trans ↔ ∃ t ∈ D, ∃ a p, N.HasEdge t.state (.sym a) p ∧
    x = (a, ⟨p, t.caps, t.startOnly, t.endOnly⟩)
  transNodup : s.trans.Nodup
  init : Upd.new q k ∈ s.reached

theorem EWalk.lt {σ : Type} {N : NFA σ} (hN : N.WF) {q ls p} (h : EWalk N q ls p) (hq : q < N.length) :
    p < N.length := by
  cases h with
  | refl => exact hq
  | tail _ h => exact hN _ _ _ h

theorem opLoop_spec {N : NFA U8Atom} (hN : Ready N) {q : Nat} (hq : q < N.length) :
    ∀ (fuel : Nat) (s : OpSt) (D : List Upd), OpInv N N.numCaptureGroups q s D →
      (updUniverse N.length N.numCaptureGroups).length < fuel + D.length →
      ∃ s' D', opLoop N fuel s = .ok (s'.trans, s'.accept) ∧ OpInv N N.numCaptureGroups q s' D' ∧
        s'.stack = [] := by
  have hbound : ∀ s D, OpInv N N.numCaptureGroups q s D →
      (D ++ s.stack).length ≤ (updUniverse N.length N.numCaptureGroups).length := by
    intro s D h
    refine (List.subperm_of_subset h.nodup ?_).length_le
    intro t ht
    obtain ⟨p, ls, hw, rfl⟩ := h.sound t ((h.cover t).mpr (List.mem_append.mp ht))
    exact mem_updUniverse (hw.lt hN.wf hq) (by simp [opSummary])
  intro fuel
  induction fuel with
  | zero =>
    intro s D h hf
    have := hbound s D h
    rw [List.length_append] at this
    omega
  | succ fuel ih =>
    intro s D h hf
    unfold opLoop
    cases hst : s.stack with
    | nil => exact ⟨s, D, rfl, h, hst⟩
    | cons t st =>
      simp only
      obtain ⟨p, ls, hw, ht⟩ := h.sound t ((h.cover t).mpr (Or.inr (by simp [hst])))
      have hp := hw.lt hN.wf hq
      have hts : t.state = p := by rw [ht]; rfl
      have hget : N[t.state]? = some N[p] := by rw [hts]; exact List.getElem?_eq_getElem hp
      rw [hget]
      simp only
      have hext : ∀ e ∈ N[p].epsilons, t.extend e = .ok (opSummary N.numCaptureGroups e.dst (ls ++ [e.special])) ∧
          EWalk N q (ls ++ [e.special]) e.dst := by
        intro e he
        have hedge : N.HasEdge p (.eps e.special) e.dst := ⟨N[p], List.getElem?_eq_getElem hp, he⟩
        refine ⟨?_, hw.tail hedge⟩
        rw [ht]
        exact extend_summary (fun t' ht' => hN.tag_lt hedge ht')
      obtain ⟨new, h1, h2, h3, h4⟩ := opPush_fold t N[p].epsilons (fun e he => ⟨_, (hext e he).1⟩) st s.reached
      rw [h1]
      simp only
      obtain ⟨t1, t2⟩ := opTrans_fold t N[p].transitions s.trans h.transNodup
      refine ih _ (D ++ [t]) ⟨?_, ?_, ?_, ?_, ?_, ?_, t1, ?_⟩ (by simp; omega)
      · have hn := h.nodup
        rw [hst] at hn
        have e1 : D ++ [t] ++ (new.reverse ++ st) = (D ++ [t]) ++ new.reverse ++ st := by simp
        have e2 : (D ++ [t] ++ new.reverse ++ st).Perm (new ++ (D ++ t :: st)) := by
          have : (D ++ [t] ++ new.reverse ++ st).Perm (new.reverse ++ (D ++ [t]) ++ st) :=
            (List.perm_append_comm).append_right st
          refine this.trans ?_
          simp only [List.append_assoc, List.singleton_append]
          exact (List.reverse_perm new).append_right _
        rw [e1, e2.nodup_iff, List.nodup_append]
        refine ⟨h2, hn, ?_⟩
        rintro a ha b hb rfl
        refine (h3 a ha).1 ((h.cover a).mpr ?_)
        rw [hst]; exact List.mem_append.mp hb
      · intro x
        have := h.cover x
        rw [hst] at this
        simp only [List.mem_append, this, List.mem_cons, List.mem_reverse, List.mem_singleton,
          List.not_mem_nil, or_false]
        tauto
      · intro x hx
        rcases List.mem_append.mp hx with hx | hx
        · exact h.sound x hx
        · obtain ⟨_, e, he, hex⟩ := h3 x hx
          rw [(hext e he).1] at hex
          injection hex with hex
          exact ⟨_, _, (hext e he).2, hex.symm⟩
      · intro x hx e r t' hedge hex
        rcases List.mem_append.mp hx with hx | hx
        · exact List.mem_append.mpr (Or.inl (h.closed x hx e r t' hedge hex))
        · rw [List.mem_singleton] at hx
          subst hx
          obtain ⟨s0, hs0, hm⟩ := hedge
          rw [hget] at hs0
          injection hs0 with hs0
          subst hs0
          exact h4 ⟨r, e⟩ hm _ hex
      · rw [List.filter_append, ← h.accept]
        by_cases hl : t.state + 1 = N.length
        · simp [hl]
        · simp [hl]
      · intro x
        rw [t2, h.trans]
        simp only [List.mem_append, List.mem_singleton]
        constructor
        · rintro (⟨t0, h5, a, p', h6, h7⟩ | ⟨tr, h5, h6⟩)
          · exact ⟨t0, Or.inl h5, a, p', h6, h7⟩
          · exact ⟨t, Or.inr rfl, tr.symbol, tr.dst, ⟨N[p], hget, h5⟩, h6⟩
        · rintro ⟨t0, h5 | rfl, a, p', h6, h7⟩
          · exact Or.inl ⟨t0, h5, a, p', h6, h7⟩
          · obtain ⟨s0, hs0, hm⟩ := h6
            rw [hget] at hs0
            injection hs0 with hs0
            subst hs0
            exact Or.inr ⟨⟨p', a⟩, hm, h7⟩
      · exact List.mem_append.mpr (Or.inl h.init)

theorem opRow_spec {N : NFA U8Atom} (hN : Ready N) {q : Nat} (hq : q < N.length) :
    ∃ row acc, N.opRow q = .ok (row, acc) ∧ row.Nodup ∧ acc.Nodup ∧
      (∀ a u, (a, u) ∈ row ↔ ∃ p ls, EWalk N q ls p ∧ N.HasEdge p (.sym a) u.state ∧
        u = opSummary N.numCaptureGroups u.state ls) ∧
      ∀ u, u ∈ acc ↔ ∃ ls, EWalk N q ls (N.length - 1) ∧ u = opSummary N.numCaptureGroups (N.length - 1) ls := by
  have hpos := List.length_pos_iff.mpr hN.ne
  have hinit : OpInv N N.numCaptureGroups q
      ⟨[Upd.new q N.numCaptureGroups], [Upd.new q N.numCaptureGroups], [], []⟩ [] := by
    refine ⟨by simp, by simp, ?_, by simp, by simp, by simp, by simp, by simp⟩
    intro t ht
    rw [List.mem_singleton] at ht
    subst ht
    exact ⟨q, [], .refl, opSummary_new _ _⟩
  obtain ⟨s, D, h1, h2, h3⟩ := opLoop_spec hN hq (N.length * 4 ^ N.numCaptureGroups * 4 + 1) _ [] hinit (by
    rw [updUniverse_length]; simp)
  have hD : ∀ t, t ∈ D ↔ ∃ p ls, EWalk N q ls p ∧ t = opSummary N.numCaptureGroups p ls := by
    intro t
    constructor
    · intro ht
      exact h2.sound t ((h2.cover t).mpr (Or.inl ht))
    · rintro ⟨p, ls, hw, rfl⟩
      have hr : ∀ x, x ∈ s.reached → x ∈ D := by
        intro x hx
        rcases (h2.cover x).mp hx with h | h
        · exact h
        · rw [h3] at h; simp at h
      induction hw with
      | refl => rw [← opSummary_new]; exact hr _ h2.init
      | @tail ls p1 e p2 hw he ih =>
        exact hr _ (h2.closed _ ih e p2 _ he (extend_summary (fun t ht => hN.tag_lt he ht)))
  refine ⟨s.trans, s.accept, h1, h2.transNodup, ?_, ?_, ?_⟩
  · rw [h2.accept]
    have := h2.nodup
    rw [h3, List.append_nil] at this
    exact this.filter _
  · intro a u
    rw [h2.trans]
    constructor
    · rintro ⟨t, ht, a', p', he, hx⟩
      obtain ⟨p, ls, hw, rfl⟩ := (hD t).mp ht
      injection hx with ha hu
      subst ha hu
      exact ⟨p, ls, hw, he, rfl⟩
    · rintro ⟨p, ls, hw, he, hu⟩
      refine ⟨opSummary _ p ls, (hD _).mpr ⟨p, ls, hw, rfl⟩, a, u.state, he, ?_⟩
      rw [Prod.mk.injEq]
      exact ⟨rfl, hu⟩
  · intro u
    rw [h2.accept, List.mem_filter, hD]
    constructor
    · rintro ⟨⟨p, ls, hw, rfl⟩, hl⟩
      have : p = N.length - 1 := by
        have : p + 1 = N.length := by simpa [opSummary] using hl
        omega
      subst this
      exact ⟨ls, hw, rfl⟩
    · rintro ⟨ls, hw, rfl⟩
      refine ⟨⟨_, _, hw, rfl⟩, ?_⟩
      simp only [opSummary, beq_iff_eq]
      omega

end Ere
