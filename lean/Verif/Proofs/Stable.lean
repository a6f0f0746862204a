import Verif.Proofs.Finish
import Verif.Proofs.EpsProp

/-! Properties of automata that the optimisation passes keep. -/

namespace Ere
variable {σ τ α : Type} [Sym σ α]

/-- A property kept by every elementary step of the passes. -/
structure Stable (α : Type) [Sym σ α] (P : NFA σ → Prop) : Prop where
  merge : ∀ {N : NFA σ} {x o a b}, N.WF → N.Ranked → 1 ≤ x → x + 1 < N.length → o + 1 < N.length → x ≠ o →
    N[x]? = some a → N[o]? = some b → sameOut a b = true → P N → P ((N.clear x).redirect x o)
  dedupe : ∀ {N : NFA σ}, N.WF → P N → P N.dedupe.1
  skip1 : ∀ {N : NFA σ} {x c}, N.WF → N.Ranked → 1 ≤ x → x + 1 < N.length → x ≠ c →
    N[x]? = some ⟨[], [⟨c, .none⟩]⟩ → P N → P ((N.redirect x c).clear x)
  splice : ∀ {N : NFA σ} {x a k es}, N.WF → N.Ranked → 1 ≤ x → x + 1 < N.length → SpliceHyp N x a k es →
    P N → P (splice N x a k es)
  dead : ∀ {N : NFA σ} {ds}, Live N ds → ds[0]? = some false → ds[N.length - 1]? = some false →
    P N → P (N.removeDead ds)
  trim : ∀ {N : NFA σ}, N ≠ [] → N.WF → P N → P N.trimEdges

theorem Stable.step {P : NFA σ → Prop} (hP : Stable α P) {N0 : NFA σ} {x : Nat} {p p' : PassSt σ}
    (h : PassInv α N0 x p) (hx1 : 1 ≤ x) (hx2 : x + 1 < N0.length) (hp : P p.nfa)
    (hs : passStep x p = .ok p') : P p'.nfa := by
  have hxl : x + 1 < p.nfa.length := by rw [h.len]; exact hx2
  unfold passStep at hs
  cases ho : p.nfa.findSame x with
  | some o =>
    rw [ho] at hs
    injection hs with hs
    subst hs
    obtain ⟨h1, h2, a, b, h3, h4, h5⟩ := findSame_spec ho
    exact hP.merge h.live.wf h.rank hx1 hxl (by omega) h2 h3 h4 h5 hp
  | none =>
    rw [ho] at hs
    simp only at hs
    have h1 := passInv_dedupe h
    have hpd := hP.dedupe h.live.wf hp
    have hxl1 : x + 1 < p.nfa.dedupe.1.length := by rw [h1.len]; exact hx2
    have hnl : ¬ p.nfa.dedupe.1.HasEdge x (.eps .none) x := by
      obtain ⟨r, hr⟩ := h1.rank
      intro he; exact absurd (hr _ _ he) (Nat.lt_irrefl _)
    rcases skipRedundant_spec (by rw [h1.len]; omega) hnl with h2 | ⟨c, h2, h3, h4⟩ | ⟨a, k, es, h2, h3⟩
    · rw [h2] at hs; injection hs with hs; subst hs; exact hpd
    · rw [h4] at hs; injection hs with hs; subst hs
      exact hP.skip1 h1.live.wf h1.rank hx1 hxl1 h3 h2 hpd
    · rw [h3] at hs; injection hs with hs; subst hs
      exact hP.splice h1.live.wf h1.rank hx1 hxl1 h2 hpd

theorem Stable.loop {P : NFA σ → Prop} (hP : Stable α P) {N0 : NFA σ} (k : Nat) : ∀ (x : Nat) (p p' : PassSt σ),
    PassInv α N0 x p → 1 ≤ x → x + k + 1 ≤ N0.length → P p.nfa → passLoop k x p = .ok p' → P p'.nfa := by
  induction k with
  | zero => intro x p p' _ _ _ hp hs; injection hs with hs; subst hs; exact hp
  | succ k ih =>
    intro x p p' h hx1 hx2 hp hs
    obtain ⟨p1, h1, h2⟩ := passStep_inv h hx1 (by omega)
    unfold passLoop at hs
    rw [h1] at hs
    exact ih (x + 1) p1 p' h2 (by omega) (by omega) (hP.step h hx1 (by omega) hp h1) hs

theorem Stable.pass {P : NFA σ → Prop} (hP : Stable α P) {N N' : NFA σ} {ch} (hne : N ≠ []) (hwf : N.WF)
    (hr : N.Ranked) (hp : P N) (hs : N.optimizePass = .ok (N', ch)) : P N' := by
  have hloop : ∃ p', passLoop (N.length - 2) 1 ⟨N, List.replicate N.length false, false⟩ = .ok p' ∧
      PassInv α N (1 + (N.length - 2)) p' ∧ P p'.nfa := by
    rcases Nat.lt_or_ge N.length 2 with h | h
    · have : N.length - 2 = 0 := by omega
      rw [this]; exact ⟨_, rfl, passInv_init hne hwf hr, hp⟩
    · obtain ⟨p', h1, h2⟩ := passLoop_inv (N.length - 2) 1 _ (passInv_init (α := α) hne hwf hr) (by omega) (by omega)
      exact ⟨p', h1, h2, hP.loop _ _ _ _ (passInv_init hne hwf hr) (by omega) (by omega) hp h1⟩
  obtain ⟨p, h1, hinv, h3⟩ := hloop
  unfold NFA.optimizePass at hs
  rw [h1] at hs
  simp only at hs
  split at hs
  · injection hs with hs
    injection hs with hs _
    subst hs
    refine hP.dead hinv.live hinv.zero ?_ h3
    rw [hinv.len]
    rcases Nat.lt_or_ge N.length 2 with h | h
    · have : N.length - 1 = 0 := by omega
      rw [this]; exact hinv.zero
    · exact hinv.fresh _ (by omega) (by omega)
  · injection hs with hs
    injection hs with hs _
    subst hs
    exact h3

theorem Stable.opt {P : NFA σ → Prop} (hP : Stable α P) (k : Nat) : ∀ {N N' : NFA σ}, N ≠ [] → N.WF →
    N.Ranked → P N → optimizeLoop k N = .ok N' → P N' := by
  induction k with
  | zero => intro N N' _ _ _ _ h; simp [optimizeLoop] at h
  | succ k ih =>
    intro N N' hne hwf hr hp h
    obtain ⟨N1, ch, h1, h2, _⟩ := optimizePass_spec (α := α) hne hwf hr
    have hp1 := hP.pass hne hwf hr hp h1
    unfold optimizeLoop at h
    rw [h1] at h
    cases ch with
    | false => injection h with h; subst h; exact hp1
    | true => exact ih h2.ne h2.wf h2.rank hp1 h

/-- The common end of both `new_loop_opt`. -/
theorem Stable.finish {P : NFA σ → Prop} (hP : Stable α P) {N M : NFA σ} (h : Shape N) (hp : P N.clearZeroSymbol)
    (hM : N.finish = .ok M) (hne : M ≠ []) : P M := by
  have hz : Shape N.clearZeroSymbol := filterEdges_shape h
  unfold NFA.finish at hM
  rw [if_neg (by simpa using h.good.ne)] at hM
  obtain ⟨N', h1, h2⟩ := optimizeLoop_spec (α := α) (N.clearZeroSymbol.size + 1) N.clearZeroSymbol
    hz.good.ne hz.good.wf hz.rank (by omega)
  rw [h1] at hM
  injection hM with hM
  have hp' : P N' := hP.opt _ hz.good.ne hz.good.wf hz.rank hp h1
  subst hM
  rw [removeUnreachable_eq] at hne ⊢
  have hlive := trim_live h2.ne h2.wf
  have hpos : 0 < N'.length := List.length_pos_iff.mpr h2.ne
  have htl : N'.trimEdges.length = N'.length := filterEdges_length
  have hex : ∃ i : Nat, (List.zipWith (fun a b => !a || !b) N'.reachableStart N'.reachableEnd)[i]? = some false := by
    by_contra hc
    simp only [not_exists] at hc
    apply hne
    rw [← List.length_eq_zero_iff, removeDead_length hlive.len]
    rw [List.count_eq_zero]
    intro hm
    obtain ⟨i, hi⟩ := List.mem_iff_getElem?.mp hm
    exact hc i hi
  obtain ⟨i, hi⟩ := hex
  have hil : i < N'.length := by
    have := (List.getElem?_eq_some_iff.mp hi).1
    rw [hlive.len, htl] at this
    exact this
  obtain ⟨g1, g2⟩ := (unreach_live h2.ne h2.wf hil).mp hi
  refine hP.dead hlive ((unreach_live h2.ne h2.wf hpos).mpr ⟨.refl, g1.trans g2⟩) ?_ (hP.trim h2.ne h2.wf hp')
  rw [htl]
  exact (unreach_live h2.ne h2.wf (by omega)).mpr ⟨g1.trans g2, .refl⟩

/-! ### Properties of paths -/

/-- Any number of plain epsilons. -/
abbrev NoneStar (N : NFA σ) : Nat → Nat → Prop := Relation.ReflTransGen (fun p q => N.HasEdge p (.eps .none) q)

/-- `R` relates the states of `N'` to states of `N` that can do what they do; symbols are matched by
symbols and the accept state by the accept state. -/
structure IsSimS (N' : NFA σ) (N : NFA σ) (R : Nat → Nat → Prop) : Prop where
  total : ∀ p' l q', N'.HasEdge p' l q' → ∃ p, R p' p
  last : ∀ p, R (N'.length - 1) p → NoneStar N p (N.length - 1)
  eps : ∀ p' p q', R p' p → N'.HasEdge p' (.eps .none) q' → ∃ q, NoneStar N p q ∧ R q' q
  mark : ∀ p' p e q', R p' p → e ≠ .none → N'.HasEdge p' (.eps e) q' →
    ∃ p1 q, NoneStar N p p1 ∧ N.HasEdge p1 (.eps e) q ∧ R q' q
  sym : ∀ p' p a q', R p' p → N'.HasEdge p' (.sym a) q' →
    ∃ p1 b q, NoneStar N p p1 ∧ N.HasEdge p1 (.sym b) q ∧ R q' q

/-- Each edge is matched by plain epsilons and an edge of the same kind. -/
theorem isSimS_of {N' N : NFA σ} (R : Nat → Nat → Prop)
    (ht : ∀ p' l q', N'.HasEdge p' l q' → ∃ p, R p' p) (hl : ∀ p, R (N'.length - 1) p → NoneStar N p (N.length - 1))
    (h : ∀ p' p l q', R p' p → N'.HasEdge p' l q' → ∃ p1 l' q, NoneStar N p p1 ∧ LabSame (α := α) l l' ∧
      N.HasEdge p1 l' q ∧ R q' q) : IsSimS N' N R := by
  refine ⟨ht, hl, ?_, ?_, ?_⟩
  · intro p' p q' hr he
    obtain ⟨p1, l', q, h1, h2, h3, h4⟩ := h _ _ _ _ hr he
    cases l' with
    | sym a => simp [LabSame] at h2
    | eps f => simp only [LabSame] at h2; subst h2; exact ⟨q, h1.tail h3, h4⟩
  · intro p' p e q' hr _ he
    obtain ⟨p1, l', q, h1, h2, h3, h4⟩ := h _ _ _ _ hr he
    cases l' with
    | sym a => simp [LabSame] at h2
    | eps f => simp only [LabSame] at h2; subst h2; exact ⟨p1, q, h1, h3, h4⟩
  · intro p' p a q' hr he
    obtain ⟨p1, l', q, h1, h2, h3, h4⟩ := h _ _ _ _ hr he
    cases l' with
    | sym b => exact ⟨p1, b, q, h1, h3, h4⟩
    | eps f => simp [LabSame] at h2

theorem labSame_refl (l : Lab σ) : LabSame (α := α) l l := by cases l <;> simp [LabSame]

omit [Sym σ α] in
theorem isSimS_sub {N' N : NFA σ} (hl : N'.length = N.length)
    (h : ∀ p l q, N'.HasEdge p l q → N.HasEdge p l q) : IsSimS N' N Eq :=
  ⟨fun p' _ _ _ => ⟨p', rfl⟩, fun p hp => by subst hp; rw [hl],
    fun p' p q' hr he => ⟨q', by subst hr; exact .single (h _ _ _ he), rfl⟩,
    fun p' p e q' hr _ he => ⟨p', q', by subst hr; exact .refl, h _ _ _ he, rfl⟩,
    fun p' p a q' hr he => ⟨p', a, q', by subst hr; exact .refl, h _ _ _ he, rfl⟩⟩

/-- `R` relates the states of `N'` to states of `N` that can do what they do, with the same symbols; start states
are related, and so are accept states. -/
structure IsSimL (α : Type) [Sym σ α] (N' : NFA σ) (N : NFA σ) (R : Nat → Nat → Prop) : Prop where
  zero : R 0 0
  total : ∀ p' l q', N'.HasEdge p' l q' → ∃ p, R p' p
  last : ∀ p, R (N'.length - 1) p → NoneStar N p (N.length - 1)
  step : ∀ p' p l q', R p' p → N'.HasEdge p' l q' → ∃ p1 l' q, NoneStar N p p1 ∧ LabSame (α := α) l l' ∧
    N.HasEdge p1 l' q ∧ R q' q

theorem IsSimL.simS {N' N : NFA σ} {R} (h : IsSimL α N' N R) : IsSimS N' N R := isSimS_of R h.total h.last h.step

theorem isSimL_sub {N' N : NFA σ} (hl : N'.length = N.length)
    (h : ∀ p l q, N'.HasEdge p l q → N.HasEdge p l q) : IsSimL α N' N Eq :=
  ⟨rfl, fun p' _ _ _ => ⟨p', rfl⟩, fun p hp => by subst hp; rw [hl],
    fun p' p l q' hr he => ⟨p', l, q', by subst hr; exact .refl, labSame_refl l, h _ _ _ he, rfl⟩⟩

/-- A property that passes to simulating automata is stable. -/
theorem stable_of_simL {P : NFA σ → Prop} (hP : ∀ {N' N : NFA σ} {R}, N.WF → IsSimL α N' N R → P N → P N')
    (hf : ∀ {N : NFA σ} fe ft, P N → P (N.filterEdges fe ft)) : Stable α P := by
  refine { merge := ?_, dedupe := ?_, skip1 := ?_, splice := ?_, dead := ?_, trim := fun _ _ => hf _ _ }
  · intro N x o a b hw _ hx1 hx2 ho hxo ha hb hab
    have hout : ∀ l q, N.HasEdge o l q → ∃ l', LabSame (α := α) l l' ∧ N.HasEdge x l' q := by
      intro l q he
      obtain ⟨s, h1, h2⟩ := hasEdge_iff.mp he
      rw [hb] at h1; injection h1 with h1; subst h1
      obtain ⟨l', h3, h4⟩ := sameOut_has' (α := α) hab h2
      exact ⟨l', h3, hasEdge_iff.mpr ⟨a, ha, h4⟩⟩
    have hlen : ((N.clear x).redirect x o).length = N.length := by simp [NFA.redirect, clear_length]
    refine hP (R := fun p' p => p = p' ∨ (p' = o ∧ p = x)) hw ⟨?_, ?_, ?_, ?_⟩
    · exact Or.inl rfl
    · intro p' _ _ _; exact ⟨p', Or.inl rfl⟩
    · rintro p (hp | ⟨hp, _⟩)
      · rw [hp, hlen]
      · rw [hlen] at hp; omega
    · intro p' p l q' hr he
      obtain ⟨q1, h1, h2⟩ := hasEdge_redirect.mp he
      obtain ⟨h3, h4⟩ := hasEdge_clear.mp h1
      have hq : q1 = q' ∨ (q' = o ∧ q1 = x) := by
        split at h2
        · exact Or.inr ⟨h2, by assumption⟩
        · exact Or.inl h2.symm
      rcases hr with rfl | ⟨rfl, rfl⟩
      · exact ⟨p, l, q1, .refl, labSame_refl l, h4, hq⟩
      · obtain ⟨l', h5, h6⟩ := hout _ _ h4
        exact ⟨p, l', q1, .refl, h5, h6, hq⟩
  · intro N hw
    exact hP hw (isSimL_sub dedupe_length fun _ _ _ => hasEdge_dedupe.mp)
  · intro N x c hw _ hx1 hx2 hxc hx
    have hxe : N.HasEdge x (.eps .none) c := hasEdge_iff.mpr ⟨_, hx, List.mem_singleton.mpr rfl⟩
    have hlen : ((N.redirect x c).clear x).length = N.length := by simp [NFA.redirect, clear_length]
    refine hP (R := fun p' p => NoneStar N p p') hw ⟨?_, ?_, ?_, ?_⟩
    · exact .refl
    · intro p' _ _ _; exact ⟨p', .refl⟩
    · intro p hp; rw [hlen] at hp; exact hp
    · intro p' p l q' hr he
      obtain ⟨_, h2⟩ := hasEdge_clear.mp he
      obtain ⟨q1, h3, h4⟩ := hasEdge_redirect.mp h2
      refine ⟨p', l, q1, hr, labSame_refl l, h3, ?_⟩
      split at h4
      · rename_i h5; subst h4 h5; exact .single hxe
      · subst h4; exact .refl
  · intro N x a k es hw _ hx1 hx2 h
    have hax : N.HasEdge a (.eps .none) x := by
      obtain ⟨sa, h1, h2⟩ := h.hk
      exact hasEdge_iff.mpr ⟨sa, h1, List.mem_iff_getElem?.mpr ⟨k, h2⟩⟩
    refine hP (R := Eq) hw ⟨?_, ?_, ?_, ?_⟩
    · rfl
    · intro p' _ _ _; exact ⟨p', rfl⟩
    · intro p hp; rw [splice_length] at hp; subst hp; exact .refl
    · rintro p' p l q' rfl he
      obtain ⟨_, h1 | ⟨rfl, h1⟩⟩ := (hasEdge_splice h).mp he
      · exact ⟨p', l, q', .refl, labSame_refl l, h1.1, rfl⟩
      · exact ⟨x, l, q', .single hax, labSame_refl l, h1, rfl⟩
  · intro N ds hl h0 hlast
    have hlen := removeDead_length (N := N) hl.len
    have hpos : 0 < N.length := by
      rw [← hl.len]; exact (List.getElem?_eq_some_iff.mp h0).1
    refine hP (R := fun j i => ds[i]? = some false ∧ j = cnt ds i) hl.wf ⟨?_, ?_, ?_, ?_⟩
    · exact ⟨h0, by simp [cnt]⟩
    · intro p' l q' he
      obtain ⟨i, i', h1, h2, _⟩ := (hasEdge_removeDead hl).mp he
      exact ⟨i, h1, h2⟩
    · rintro p ⟨h1, h2⟩
      have h3 : cnt ds (N.length - 1) = (N.removeDead ds).length - 1 := by
        rw [hlen]; exact cnt_last (by rw [hl.len]; omega) hlast
      have := cnt_inj h1 hlast (by omega)
      subst this; exact .refl
    · rintro p' p l q' ⟨h1, rfl⟩ he
      obtain ⟨i, i', h2, h3, h4, rfl⟩ := (hasEdge_removeDead hl).mp he
      have := cnt_inj h1 h2 h3
      subst this
      exact ⟨p, l, i', .refl, labSame_refl l, h4, hl.into _ _ _ h4, rfl⟩

/-- … also if the symbols do not matter. -/
theorem stable_of_sim {P : NFA σ → Prop} (hP : ∀ {N' N : NFA σ} {R}, N.WF → IsSimS N' N R → P N → P N')
    (hf : ∀ {N : NFA σ} fe ft, P N → P (N.filterEdges fe ft)) : Stable α P :=
  stable_of_simL (α := α) (fun hw h => hP hw h.simS) hf

omit [Sym σ α] in
theorem EWalk.append {N : NFA σ} {q ls p ls' r} (h : EWalk N q ls p) (h' : EWalk N p ls' r) :
    EWalk N q (ls ++ ls') r := by
  induction h' with
  | refl => simpa using h
  | tail _ he ih => rw [← List.append_assoc]; exact .tail ih he

omit [Sym σ α] in
theorem NoneStar.walk {N : NFA σ} {p q} (h : NoneStar N p q) :
    ∃ ls, EWalk N p ls q ∧ ∀ e ∈ ls, e = EpsType.none := by
  induction h with
  | refl => exact ⟨[], .refl, by simp⟩
  | tail _ he ih =>
    obtain ⟨ls, h1, h2⟩ := ih
    refine ⟨ls ++ [.none], .tail h1 he, ?_⟩
    intro e he
    rcases List.mem_append.mp he with h | h
    · exact h2 e h
    · simpa using h

theorem filter_none {ls : List EpsType} (h : ∀ e ∈ ls, e = EpsType.none) : ls.filter (· ≠ .none) = [] :=
  List.filter_eq_nil_iff.mpr (by intro e he; simp [h e he])

omit [Sym σ α] in
/-- A walk is matched by a walk with the same marks. -/
theorem IsSimS.walk {N' N : NFA σ} {R} (h : IsSimS N' N R) {q' ls r'} (hw : EWalk N' q' ls r') :
    ∀ q, R q' q → ∃ ls' r, EWalk N q ls' r ∧ R r' r ∧ ls'.filter (· ≠ .none) = ls.filter (· ≠ .none) := by
  induction hw with
  | refl => intro q hr; exact ⟨[], q, .refl, hr, rfl⟩
  | @tail ls p' e r' _ he ih =>
    intro q hr
    obtain ⟨ls1, p, h1, h2, h3⟩ := ih q hr
    by_cases hn : e = .none
    · subst hn
      obtain ⟨r, h4, h5⟩ := h.eps _ _ _ h2 he
      obtain ⟨ls2, h6, h7⟩ := h4.walk
      refine ⟨ls1 ++ ls2, r, h1.append h6, h5, ?_⟩
      rw [List.filter_append, List.filter_append, h3]
      congr 1
      rw [filter_none h7]
      simp
    · obtain ⟨p1, r, h4, h5, h6⟩ := h.mark _ _ _ _ h2 hn he
      obtain ⟨ls2, h7, h8⟩ := h4.walk
      refine ⟨ls1 ++ ls2 ++ [e], r, .tail (h1.append h7) h5, h6, ?_⟩
      rw [List.filter_append, List.filter_append, List.filter_append, h3]
      rw [filter_none h8]
      simp

omit [Sym σ α] in
/-- … up to the accept state. -/
theorem IsSimS.walkLast {N' N : NFA σ} {R} (h : IsSimS N' N R) {q' ls q}
    (hw : EWalk N' q' ls (N'.length - 1)) (hr : R q' q) :
    ∃ ls', EWalk N q ls' (N.length - 1) ∧ ls'.filter (· ≠ .none) = ls.filter (· ≠ .none) := by
  obtain ⟨ls', r, h1, h2, h3⟩ := h.walk hw q hr
  obtain ⟨ls2, h4, h5⟩ := (h.last _ h2).walk
  refine ⟨ls' ++ ls2, h1.append h4, ?_⟩
  rw [List.filter_append, h3, filter_none h5]
  simp

end Ere
