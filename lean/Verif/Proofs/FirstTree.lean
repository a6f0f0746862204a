import Verif.Spec.Priority
import Verif.Proofs.First

/-! The order in which the constructed automaton tries its runs. -/

namespace Ere
variable {σ α β : Type} [Sym σ α]

/-! ### Edge lists of compound automata -/

section
omit [Sym σ α]

theorem outs_append {A B : NFA σ} {q} :
    NFA.outs (A ++ B) q = if q < A.length then A.outs q else B.outs (q - A.length) := by
  unfold NFA.outs
  by_cases h : q < A.length
  · rw [if_pos h, List.getElem?_append_left h]
  · rw [if_neg h, List.getElem?_append_right (by omega)]

theorem outs_left {A B : NFA σ} {q} (h : q < A.length) : NFA.outs (A ++ B) q = A.outs q := by
  rw [outs_append, if_pos h]

theorem outs_right {A B : NFA σ} {q} : NFA.outs (A ++ B) (A.length + q) = B.outs q := by
  rw [outs_append, if_neg (by omega)]; congr 1; omega

theorem outs_zero {s : State σ} {B : NFA σ} : NFA.outs (s :: B) 0 = s.outs := rfl

theorem outs_shift {n : NFA σ} {k q} : (n.shift k).outs q = (n.outs q).map (fun p => (p.1, p.2 + k)) := by
  unfold NFA.outs NFA.shift
  rw [List.getElem?_map]
  cases n[q]? with
  | none => rfl
  | some s =>
    simp only [Option.map_some, State.outs, State.addOffset, List.map_append, List.map_map]; rfl

theorem outs_pushLast {n : NFA σ} {e : Eps} {q} (hq : q < n.length) : (n.pushLast e).outs q =
    n.outs q ++ if q + 1 = n.length then [(.eps e.special, e.dst)] else [] := by
  induction n generalizing q with
  | nil => simp at hq
  | cons s t ih =>
    cases t with
    | nil =>
      have : q = 0 := by simpa using hq
      subst this
      simp [NFA.pushLast, NFA.outs, State.outs]
    | cons s' t =>
      cases q with
      | zero => simp [NFA.pushLast, NFA.outs]
      | succ q =>
        have := ih (q := q) (by simpa using hq)
        simp only [NFA.pushLast]
        have h1 : ∀ (x : State σ) (l : NFA σ), NFA.outs (x :: l) (q + 1) = NFA.outs l q := fun _ _ => rfl
        rw [h1, h1, this]
        simp

theorem outs_block {n : NFA σ} {off : Nat} {e : Eps} {q} (hq : q < n.length) : (block n off e).outs q =
    (n.outs q).map (fun p => (p.1, off + p.2)) ++ if q + 1 = n.length then [(.eps e.special, e.dst)] else [] := by
  unfold block
  rw [outs_pushLast (by rw [shift_length]; exact hq), outs_shift, shift_length]
  simp [Nat.add_comm]

/-- In `O`, the automaton `n` sits at offset `off` and leaves by `e`. -/
def BlockAt (O : Nat → Edges σ) (n : NFA σ) (off : Nat) (e : Eps) : Prop :=
  ∀ x < n.length, O (off + x) = (n.outs x).map (fun p => (p.1, off + p.2)) ++
    if x + 1 = n.length then [(.eps e.special, e.dst)] else []

theorem blockAt_append {A C n : NFA σ} {off e} (hoff : off = A.length) :
    BlockAt (NFA.outs (A ++ block n off e ++ C)) n off e := by
  intro x hx
  subst hoff
  rw [List.append_assoc, outs_right, outs_left (by rw [block_length]; exact hx), outs_block hx]

theorem outs_sink {n : NFA σ} (h : n.Sink) : n.outs (n.length - 1) = [] := by
  rw [List.eq_nil_iff_forall_not_mem]
  rintro ⟨l, q⟩ hm
  exact h l q (mem_outs.mp hm)

theorem edgesSame_map {α : Type} [Sym σ α] (φ : Nat → Nat) (es : Edges σ) :
    EdgesSame α φ es (es.map (fun p => (p.1, φ p.2))) := by
  unfold EdgesSame
  induction es with
  | nil => exact .nil
  | cons a es ih => exact .cons ⟨by cases h : a.1 <;> simp [LabSame], rfl⟩ ih

end

/-! ### Outcomes in order -/

/-- The runs of `n` are, in order, those with the outcomes `L`. -/
def Sem (n : NFA σ) (L : Cfg α → List (Cfg α)) : Prop :=
  ∀ (β : Type) (K : Cfg α → Option β) d, n.Fst K 0 d ((L d).findSome? K)

theorem findSome?_flatMap' {γ δ ε : Type} (l : List γ) (g : γ → List δ) (K : δ → Option ε) :
    (l.flatMap g).findSome? K = l.findSome? (fun a => (g a).findSome? K) := by
  induction l with
  | nil => rfl
  | cons a l ih =>
    rw [List.flatMap_cons, List.findSome?_append, ih, List.findSome?_cons]
    cases (g a).findSome? K <;> rfl

theorem findSome?_congr' {γ ε : Type} {l : List γ} {K K' : γ → Option ε} (h : ∀ a ∈ l, K a = K' a) :
    l.findSome? K = l.findSome? K' := by
  induction l with
  | nil => rfl
  | cons a l ih =>
    rw [List.findSome?_cons, List.findSome?_cons, h a (by simp), ih (fun b hb => h b (by simp [hb]))]

theorem findSome?_single {γ ε : Type} (a : γ) (K : γ → Option ε) : [a].findSome? K = K a := by
  rw [List.findSome?_cons]; cases K a <;> rfl

/-- Running through a block. -/
theorem Fst.block {O : Nat → Edges σ} {f : Nat} {K K' : Cfg α → Option β} {n : NFA σ} {off e}
    (hb : BlockAt O n off e) (hs : n.Sink) (hn : Good n) (hf : ∀ x < n.length, off + x ≠ f) {d r}
    (hK : ∀ d1, n.Acc d d1 → FstL O f K' [(.eps e.special, e.dst)] d1 (K d1))
    (h : n.Fst K 0 d r) : FstQ O f K' off d r := by
  have hpos : 0 < n.length := List.length_pos_iff.mpr hn.ne
  have := FstQ.embed (O' := O) (f' := f) (K' := K') (φ := fun x => off + x)
    (P := fun q d1 => q < n.length ∧ ReachE n.HasEdge (0, d) (q, d1)) ?_ ?_ ?_ ?_ h ⟨hpos, reachE_refl⟩
  · simpa using this
  · rintro d1 ⟨_, hr⟩
    refine fstQ_iff.mpr (Or.inr ⟨hf _ (by omega), ?_⟩)
    have := hb (n.length - 1) (by omega)
    rw [if_pos (by omega), outs_sink hs] at this
    rw [this]
    exact hK d1 ⟨hn.ne, hr⟩
  · rintro q d1 ⟨h1, _⟩ _; exact hf q h1
  · rintro q d1 ⟨h1, _⟩ h2
    have := hb q h1
    rw [if_neg (by omega), List.append_nil] at this
    rw [this]
    exact edgesSame_map _ _
  · rintro q d1 ⟨h1, h3⟩ h2 l q1 hm d2 hd
    exact ⟨hn.wf _ _ _ (mem_outs.mp hm), reachE_trans h3 (reachE_step (mem_outs.mp hm) hd)⟩

/-- A plain exit. -/
theorem fstL_exit {O : Nat → Edges σ} {f : Nat} {K : Cfg α → Option β} {q d r} :
    FstL O f K [(.eps (Eps.new q).special, (Eps.new q).dst)] d r ↔ FstQ O f K q d r := Iff.rfl

/-- At the accept state. -/
theorem fstQ_final {O : Nat → Edges σ} {f : Nat} {K : Cfg α → Option β} {d} : FstQ O f K f d (K d) :=
  fstQ_iff.mpr (Or.inl ⟨rfl, rfl⟩)

theorem nfaEmpty_sem : Sem (nfaEmpty : NFA σ) (fun d : Cfg α => [d]) := by
  intro β K d
  rw [findSome?_single]; exact fstQ_final

theorem nfaNever_sem : Sem (nfaNever : NFA σ) (fun _ : Cfg α => []) := by
  intro β K d
  exact fstQ_iff.mpr (Or.inr ⟨by simp [nfaNever], .nil⟩)

/-- One edge from start to accept. -/
theorem edge_sem {l : Lab σ} {n : NFA σ} (h0 : n.outs 0 = [(l, 1)]) (h1 : n.length = 2) :
    Sem n (fun d : Cfg α => (labStep l d).toList) := by
  intro β K d
  unfold NFA.Fst
  rw [h1]
  refine fstQ_iff.mpr (Or.inr ⟨by simp, ?_⟩)
  rw [h0]
  show FstL _ _ K [(l, 1)] d ((labStep l d).toList.findSome? K)
  cases h : labStep l d with
  | none => exact .skip h .nil
  | some d1 =>
    rw [Option.toList_some, findSome?_single]
    refine fstL_cons.mpr (Or.inr ⟨d1, h, ?_⟩)
    cases hk : K d1 with
    | none => exact Or.inl ⟨fstQ_iff.mpr (Or.inl ⟨rfl, hk.symm⟩), .nil⟩
    | some y => exact Or.inr ⟨y, rfl, fstQ_iff.mpr (Or.inl ⟨rfl, hk.symm⟩)⟩

theorem FstL.none_reach {N : NFA σ} {f} {K : Cfg α → Option β} (hf : ∀ l q, ¬ N.HasEdge f l q) {es d r}
    (h : FstL N.outs f K es d r) (hr : r = none) :
    ∀ l q d1 d2, (l, q) ∈ es → labStep l d = some d1 → ReachE N.HasEdge (q, d1) (f, d2) → K d2 = none := by
  induction h with
  | nil => intro l q d1 d2 hm; simp at hm
  | skip h1 _ ih =>
    intro l q d1 d2 hm hd
    rcases List.mem_cons.mp hm with h2 | h2
    · injection h2 with h2 h3; subst h2; rw [h1] at hd; simp at hd
    · exact ih hr l q d1 d2 h2 hd
  | acc => simp at hr
  | rej h1 h2 _ ih =>
    intro l q d1 d2 hm hd hre
    rcases List.mem_cons.mp hm with h3 | h3
    · injection h3 with h3 h4; subst h3 h4; rw [h1] at hd; injection hd with hd; subst hd
      have := (reachE_sink hf hre).2
      rw [← this]; exact h2
    · exact ih hr l q d1 d2 h3 hd hre
  | fail h1 h2 _ _ ih1 ih2 =>
    intro l q d1 d2 hm hd hre
    rcases List.mem_cons.mp hm with h3 | h3
    · injection h3 with h3 h4; subst h3 h4; rw [h1] at hd; injection hd with hd; subst hd
      rcases Relation.ReflTransGen.cases_head hre with h0 | ⟨⟨q1, d3⟩, ⟨l', h4, h5⟩, h6⟩
      · exact absurd (congrArg Prod.fst h0) h2
      · exact ih1 rfl l' q1 d3 d2 (mem_outs.mpr h4) h5 h6
    · exact ih2 hr l q d1 d2 h3 hd hre
  | hit => simp at hr

/-- If the search fails, there is no run that `K` accepts. -/
theorem NFA.Fst.none_reach {N : NFA σ} {K : Cfg α → Option β} (hs : N.Sink) {q d} (h : N.Fst K q d none) {d'}
    (hr : ReachE N.HasEdge (q, d) (N.length - 1, d')) : K d' = none :=
  FstL.none_reach hs h rfl _ _ _ _ (by simp) (labStep_none d) hr

/-- The outcomes are those of the accepting runs. -/
theorem Sem.mem_iff {n : NFA σ} {L : Cfg α → List (Cfg α)} (hne : n ≠ []) (hs : n.Sink) (h : Sem n L) {d d'} :
    d' ∈ L d ↔ n.Acc d d' := by
  classical
  have h1 := h Unit (fun x => if x = d' then some () else none) d
  constructor
  · intro hm
    cases hf : (L d).findSome? (fun x => if x = d' then some () else none) with
    | none =>
      rw [List.findSome?_eq_none_iff] at hf
      have := hf d' hm
      simp at this
    | some u =>
      rw [hf] at h1
      obtain ⟨d2, h2, h3⟩ := h1.reach
      by_cases h4 : d2 = d'
      · subst h4; exact ⟨hne, h2⟩
      · simp [h4] at h3
  · rintro ⟨_, hr⟩
    cases hf : (L d).findSome? (fun x => if x = d' then some () else none) with
    | none => rw [hf] at h1; have := h1.none_reach hs hr; simp at this
    | some u =>
      obtain ⟨x, h2, h3⟩ := List.exists_of_findSome?_eq_some hf
      by_cases h4 : x = d'
      · subst h4; exact h2
      · simp [h4] at h3

theorem nfaSymbol_sem (a : σ) : Sem (nfaSymbol a) (fun d : Cfg α => (symStep a d).toList) :=
  edge_sem (l := .sym a) rfl rfl

theorem nfaStart_sem : Sem (nfaStart : NFA σ) (fun d : Cfg α => (epsStep .startAnchor d).toList) :=
  edge_sem (l := .eps .startAnchor) rfl rfl

theorem nfaEnd_sem : Sem (nfaEnd : NFA σ) (fun d : Cfg α => (epsStep .endAnchor d).toList) :=
  edge_sem (l := .eps .endAnchor) rfl rfl

/-! ### Concatenation -/

/-- Outcomes of a sequence. -/
def seqL {γ : Type} : List (γ → List γ) → γ → List γ
  | [], d => [d]
  | L :: Ls, d => (L d).flatMap (seqL Ls)

theorem concat_sem_aux {ns : List (NFA σ)} {Ls : List (Cfg α → List (Cfg α))}
    (h : List.Forall₂ (fun n L => Good n ∧ n.Sink ∧ Sem n L) ns Ls) (A : NFA σ) (K : Cfg α → Option β) (d : Cfg α) :
    FstQ (NFA.outs (A ++ concatBody A.length ns ++ [State.new])) (A ++ concatBody A.length ns).length K A.length d
      ((seqL Ls d).findSome? K) := by
  induction h generalizing A d with
  | nil =>
    simp only [concatBody, List.append_nil, seqL]
    rw [findSome?_single]; exact fstQ_final
  | @cons n L ns Ls hn _ ih =>
    obtain ⟨hg, hs, hsem⟩ := hn
    have hlen : (A ++ block n A.length (Eps.new (A.length + n.length))).length = A.length + n.length := by
      simp [block_length]
    have ih' := ih (A ++ block n A.length (Eps.new (A.length + n.length)))
    rw [hlen] at ih'
    have heq : A ++ concatBody A.length (n :: ns) =
        A ++ block n A.length (Eps.new (A.length + n.length)) ++ concatBody (A.length + n.length) ns := by
      simp [concatBody, block]
    have hle : A.length + n.length ≤ (A ++ concatBody A.length (n :: ns)).length := by
      rw [heq, List.length_append, hlen]; omega
    rw [seqL, findSome?_flatMap']
    refine Fst.block (n := n) (e := Eps.new (A.length + n.length)) (K := fun a => (seqL Ls a).findSome? K)
      ?_ hs hg (fun x hx => by omega) (fun d1 _ => ?_) (hsem _ _ _)
    · rw [heq, List.append_assoc _ (concatBody _ _)]
      exact blockAt_append rfl
    · rw [fstL_exit, heq]; exact ih' d1

theorem fstQ_step {O : Nat → Edges σ} {f : Nat} {K : Cfg α → Option β} {q d r} (h : q ≠ f) :
    FstQ O f K q d r ↔ FstL O f K (O q) d r := by
  rw [fstQ_iff]
  constructor
  · rintro (⟨h1, _⟩ | ⟨_, h2⟩)
    · exact absurd h1 h
    · exact h2
  · exact fun h2 => Or.inr ⟨h, h2⟩

theorem nfaConcat_sem {ns : List (NFA σ)} {Ls : List (Cfg α → List (Cfg α))}
    (h : List.Forall₂ (fun n L => Good n ∧ n.Sink ∧ Sem n L) ns Ls) : Sem (nfaConcat ns) (seqL Ls) := by
  intro β K d
  have h1 := concat_sem_aux h [(⟨[], [Eps.new 1]⟩ : State σ)] K d
  have hN : nfaConcat ns = [⟨[], [Eps.new 1]⟩] ++ concatBody 1 ns ++ [State.new] := by
    simp [nfaConcat]
  have hl : (nfaConcat ns).length - 1 = ([(⟨[], [Eps.new 1]⟩ : State σ)] ++ concatBody 1 ns).length := by
    simp [nfaConcat]
  unfold NFA.Fst
  rw [hl, hN]
  rw [fstQ_step (by simp)]
  exact h1

/-! ### Capture -/

theorem nfaCapture_sem {n : NFA σ} {L : Cfg α → List (Cfg α)} (hg : Good n) (hs : n.Sink) (h : Sem n L) (g : Nat) :
    Sem (nfaCapture n g) (fun d => (L ⟨d.off, d.rest, d.caps.setStart g d.off⟩).map
      (fun d1 => ⟨d1.off, d1.rest, d1.caps.setEnd g d1.off⟩)) := by
  intro β K d
  have hN : nfaCapture n g = [⟨[], [⟨1, .startCapture g⟩]⟩] ++ block n 1 ⟨1 + n.length, .endCapture g⟩ ++ [State.new] := by
    have : 2 + n.length - 1 = 1 + n.length := by omega
    simp [nfaCapture, block, this]
  have hl : (nfaCapture n g).length - 1 = 1 + n.length := by rw [capture_length]; omega
  unfold NFA.Fst
  rw [hl]
  rw [fstQ_step (by omega)]
  have h0 : (nfaCapture n g).outs 0 = [(.eps (.startCapture g), 1)] := rfl
  rw [h0, List.findSome?_map]
  have key : FstQ (nfaCapture n g).outs (1 + n.length) K 1 ⟨d.off, d.rest, d.caps.setStart g d.off⟩
      ((L ⟨d.off, d.rest, d.caps.setStart g d.off⟩).findSome? (K ∘ fun d1 => ⟨d1.off, d1.rest, d1.caps.setEnd g d1.off⟩)) := by
    refine Fst.block (n := n) (e := ⟨1 + n.length, .endCapture g⟩)
      (K := K ∘ fun d1 => ⟨d1.off, d1.rest, d1.caps.setEnd g d1.off⟩)
      (by rw [hN]; exact blockAt_append rfl) hs hg (fun x hx => by omega) (fun d1 _ => ?_) (h _ _ _)
    refine fstL_cons.mpr (Or.inr ⟨_, rfl, ?_⟩)
    cases hk : K ⟨d1.off, d1.rest, d1.caps.setEnd g d1.off⟩ with
    | none => simp only [Function.comp_apply, hk]; exact Or.inl ⟨fstQ_iff.mpr (Or.inl ⟨rfl, hk.symm⟩), .nil⟩
    | some y =>
      simp only [Function.comp_apply, hk]
      exact Or.inr ⟨y, rfl, fstQ_iff.mpr (Or.inl ⟨rfl, hk.symm⟩)⟩
  refine fstL_cons.mpr (Or.inr ⟨_, rfl, ?_⟩)
  revert key
  generalize List.findSome? _ _ = r
  intro key
  cases r with
  | none => exact Or.inl ⟨key, .nil⟩
  | some y => exact Or.inr ⟨y, rfl, key⟩

/-- One plain edge. -/
theorem fstL_eps {O : Nat → Edges σ} {f : Nat} {K : Cfg α → Option β} {q es d r r'}
    (h : FstQ O f K q d r) (h' : r = none → FstL O f K es d r') :
    FstL O f K ((.eps .none, q) :: es) d (r.or r') := by
  cases r with
  | none => exact .consNone (labStep_none d) h (h' rfl)
  | some y => exact .consSome (labStep_none d) h

/-! ### Union -/

theorem union_sem_aux {ns : List (NFA σ)} {Ls : List (Cfg α → List (Cfg α))}
    (h : List.Forall₂ (fun n L => Good n ∧ n.Sink ∧ Sem n L) ns Ls) (A : NFA σ) (endIdx : Nat)
    (hend : endIdx = A.length + (ns.map List.length).sum) (K : Cfg α → Option β) (d : Cfg α) :
    FstL (NFA.outs (A ++ unionBody A.length endIdx ns ++ [State.new])) endIdx K
      ((unionStarts A.length ns).map (fun e => (.eps e.special, e.dst))) d
      ((Ls.flatMap (fun L => L d)).findSome? K) := by
  induction h generalizing A with
  | nil => exact .nil
  | @cons n L ns Ls hn _ ih =>
    obtain ⟨hg, hs, hsem⟩ := hn
    have hlen : (A ++ block n A.length (Eps.new endIdx)).length = A.length + n.length := by
      simp [block_length]
    have ih' := ih (A ++ block n A.length (Eps.new endIdx)) (by rw [hlen, hend]; simp; omega)
    rw [hlen] at ih'
    have heq : A ++ unionBody A.length endIdx (n :: ns) =
        A ++ block n A.length (Eps.new endIdx) ++ unionBody (A.length + n.length) endIdx ns := by
      simp [unionBody, block]
    rw [unionStarts, List.map_cons, List.flatMap_cons, List.findSome?_append]
    refine fstL_eps ?_ ?_
    · refine Fst.block (n := n) (e := Eps.new endIdx) (K := K) ?_ hs hg
        (fun x hx => by show A.length + x ≠ endIdx; rw [hend, List.map_cons, List.sum_cons]; omega) (fun d1 _ => ?_) (hsem _ _ _)
      · rw [heq, List.append_assoc _ (unionBody _ _ _)]
        exact blockAt_append rfl
      · rw [fstL_exit]; exact fstQ_final
    · intro _
      rw [heq]; exact ih'

theorem nfaUnion_sem {ns : List (NFA σ)} {Ls : List (Cfg α → List (Cfg α))}
    (h : List.Forall₂ (fun n L => Good n ∧ n.Sink ∧ Sem n L) ns Ls) :
    Sem (nfaUnion ns) (fun d => Ls.flatMap (fun L => L d)) := by
  intro β K d
  have hl : (nfaUnion ns).length - 1 = 1 + (ns.map List.length).sum := by
    simp [nfaUnion, unionBody_length]; omega
  have hN : nfaUnion ns = [⟨[], unionStarts 1 ns⟩] ++ unionBody 1 (1 + (ns.map List.length).sum) ns ++ [State.new] := by
    have : 2 + (ns.map List.length).sum - 1 = 1 + (ns.map List.length).sum := by omega
    simp [nfaUnion, this]
  have h1 := union_sem_aux h [(⟨[], unionStarts 1 ns⟩ : State σ)] (1 + (ns.map List.length).sum) rfl K d
  unfold NFA.Fst
  rw [hl, fstQ_step (by omega), hN]
  exact h1

/-! ### Optional rounds -/

theorem upto_sem_aux {n : NFA σ} {L : Cfg α → List (Cfg α)} (hg : Good n) (hs : n.Sink) (h : Sem n L)
    (lg : Bool) (k : Nat) (A : NFA σ) (endIdx : Nat) (hend : endIdx + 1 = A.length + (n.length + 1) * (k + 1))
    (K : Cfg α → Option β) (d : Cfg α) :
    FstQ (NFA.outs (A ++ uptoBody n endIdx lg A.length k)) endIdx K A.length d
      (((L d).flatMap (optTimes L lg k)).findSome? K) := by
  induction k generalizing A d with
  | zero =>
    have : A.length + n.length = endIdx := by omega
    rw [findSome?_flatMap']
    refine Fst.block (n := n) (e := Eps.new endIdx) (K := fun a => (optTimes L lg 0 a).findSome? K) ?_ hs hg
      (fun x hx => by omega) (fun d1 _ => ?_) (h _ _ _)
    · have : A ++ uptoBody n endIdx lg A.length 0 = A ++ block n A.length (Eps.new endIdx) ++ [State.new] := by
        simp [uptoBody, block, this]
      rw [this]; exact blockAt_append rfl
    · rw [fstL_exit, optTimes, findSome?_single]; exact fstQ_final
  | succ k ih =>
    obtain ⟨s, hs'⟩ : ∃ s : State σ, s = ⟨[], if lg then [Eps.new (A.length + n.length + 1), Eps.new endIdx]
      else [Eps.new endIdx, Eps.new (A.length + n.length + 1)]⟩ := ⟨_, rfl⟩
    have hle : (A.length + n.length + 1) + (n.length + 1) * (k + 1) = endIdx + 1 := by
      rw [hend, Nat.mul_succ (n.length + 1) (k + 1)]; omega
    have hpos : n.length + 1 ≤ (n.length + 1) * (k + 1) := Nat.le_mul_of_pos_right _ (by omega)
    have hlen : (A ++ block n A.length (Eps.new (A.length + n.length)) ++ [s]).length = A.length + n.length + 1 := by
      simp [block_length]; omega
    have ih' := ih (A ++ block n A.length (Eps.new (A.length + n.length)) ++ [s]) (by rw [hlen]; omega)
    rw [hlen] at ih'
    have heq : A ++ uptoBody n endIdx lg A.length (k + 1) =
        A ++ block n A.length (Eps.new (A.length + n.length)) ++ [s] ++
          uptoBody n endIdx lg (A.length + n.length + 1) k := by
      simp [uptoBody, block, hs']
    rw [findSome?_flatMap']
    refine Fst.block (n := n) (e := Eps.new (A.length + n.length))
      (K := fun a => (optTimes L lg (k + 1) a).findSome? K) ?_ hs hg
      (fun x hx => by omega) (fun d1 _ => ?_) (h _ _ _)
    · rw [heq, List.append_assoc _ [s]]
      exact blockAt_append rfl
    · rw [fstL_exit, fstQ_step (by omega)]
      have hso : NFA.outs (A ++ uptoBody n endIdx lg A.length (k + 1)) (A.length + n.length) = s.outs := by
        rw [heq, List.append_assoc _ [s]]
        have := @outs_right σ (A ++ block n A.length (Eps.new (A.length + n.length)))
          ([s] ++ uptoBody n endIdx lg (A.length + n.length + 1) k) 0
        rw [List.length_append, block_length, Nat.add_zero] at this
        exact this
      rw [hso, hs', optTimes]
      have ih2 := ih' d1
      rw [← heq] at ih2
      cases lg with
      | true =>
        simp only [if_true]
        rw [List.findSome?_append]
        exact fstL_eps ih2 fun _ => by rw [findSome?_single]; exact fstQ_final
      | false =>
        simp only [Bool.false_eq_true, if_false]
        rw [show (d1 :: List.flatMap (optTimes L false k) (L d1)) = [d1] ++ _ from rfl, List.findSome?_append]
        refine fstL_eps (by rw [findSome?_single]; exact fstQ_final) fun _ => ?_
        exact ih2

theorem nfaUpto_sem {n : NFA σ} {L : Cfg α → List (Cfg α)} (hg : Good n) (hs : n.Sink) (h : Sem n L)
    (lg : Bool) (k : Nat) : Sem (nfaUpto n k lg) (optTimes L lg (k + 1)) := by
  intro β K d
  have hpos : n.length + 1 ≤ (n.length + 1) * (k + 1) := Nat.le_mul_of_pos_right _ (by omega)
  obtain ⟨endIdx, hend⟩ : ∃ e, e = (n.length + 1) * (k + 1) := ⟨_, rfl⟩
  obtain ⟨s, hs'⟩ : ∃ s : State σ, s = if lg then ⟨[], [Eps.new 1, Eps.new endIdx]⟩
    else ⟨[], [Eps.new endIdx, Eps.new 1]⟩ := ⟨_, rfl⟩
  have hN : nfaUpto n k lg = [s] ++ uptoBody n endIdx lg 1 k := by
    have : 1 + (n.length + 1) * (k + 1) - 1 = endIdx := by omega
    simp only [nfaUpto, this, hs', List.singleton_append]
  have hl : (nfaUpto n k lg).length - 1 = endIdx := by
    rw [nfaUpto_length, hend]; omega
  have aux := upto_sem_aux hg hs h lg k [s] endIdx (by simp; omega) K d
  unfold NFA.Fst
  rw [hl, fstQ_step (by omega), hN]
  have hso : NFA.outs ([s] ++ uptoBody n endIdx lg 1 k) 0 = s.outs := rfl
  rw [hso, hs', optTimes]
  cases lg with
  | true =>
    simp only [if_true]
    rw [List.findSome?_append]
    refine fstL_eps ?_ fun _ => by rw [findSome?_single]; exact fstQ_final
    rw [hs'] at aux; exact aux
  | false =>
    simp only [Bool.false_eq_true, if_false]
    rw [show (d :: List.flatMap (optTimes L false k) (L d)) = [d] ++ _ from rfl, List.findSome?_append]
    refine fstL_eps (by rw [findSome?_single]; exact fstQ_final) fun _ => ?_
    rw [hs'] at aux
    exact aux

/-! ### Star -/

theorem nfaStar_sem {n : NFA σ} {L : Cfg α → List (Cfg α)} (hg : Good n) (hs : n.Sink) (h : Sem n L)
    (hp : ∀ d d1 : Cfg α, n.Acc d d1 → d1.rest.length < d.rest.length) (lg : Bool) :
    Sem (nfaStar n lg) (fun d => optTimes L lg d.rest.length d) := by
  intro β K d
  have hl : (nfaStar n lg).length - 1 = 1 + n.length := by rw [star_length]; omega
  have hb : BlockAt (nfaStar n lg).outs n 1 (Eps.new 0) := by
    rw [nfaStar_eq]; exact blockAt_append rfl
  have h0 : (nfaStar n lg).outs 0 = if lg then [(.eps .none, 1), (.eps .none, 1 + n.length)]
      else [(.eps .none, 1 + n.length), (.eps .none, 1)] := by
    cases lg <;> rfl
  unfold NFA.Fst
  rw [hl]
  have node : ∀ k d r, FstQ (nfaStar n lg).outs (1 + n.length) K 1 d r →
      r = ((L d).flatMap (optTimes L lg k)).findSome? K →
      FstQ (nfaStar n lg).outs (1 + n.length) K 0 d ((optTimes L lg (k + 1) d).findSome? K) := by
    intro k d r h1 h2
    subst h2
    rw [fstQ_step (by omega), h0, optTimes]
    by_cases hlg : lg = true
    · rw [if_pos hlg, if_pos hlg, List.findSome?_append]
      exact fstL_eps h1 fun _ => by rw [findSome?_single]; exact fstQ_final
    · rw [if_neg hlg, if_neg hlg]
      rw [show (d :: List.flatMap (optTimes L lg k) (L d)) = [d] ++ _ from rfl, List.findSome?_append]
      exact fstL_eps (by rw [findSome?_single]; exact fstQ_final) fun _ => h1
  have key : ∀ m (d : Cfg α), d.rest.length ≤ m →
      FstQ (nfaStar n lg).outs (1 + n.length) K 0 d ((optTimes L lg m d).findSome? K) := by
    intro m
    induction m with
    | zero =>
      intro d hd
      have hnil : L d = [] := by
        rw [List.eq_nil_iff_forall_not_mem]
        intro d1 hm
        have := hp d d1 ((h.mem_iff hg.ne hs).mp hm); omega
      have h1 := node 0 d none ?_ (by rw [hnil]; rfl)
      · rw [optTimes, hnil] at h1
        rw [optTimes]
        cases lg <;> exact h1
      · refine Fst.block (n := n) (K := fun _ => none) hb hs hg (fun x hx => by omega) (fun d1 hd1 => ?_) ?_
        · have := hp d d1 hd1; omega
        · have := h β (fun _ => none) d
          rw [hnil] at this; exact this
    | succ m ih =>
      intro d hd
      refine node m d _ ?_ rfl
      rw [findSome?_flatMap']
      exact Fst.block (n := n) (K := fun a => (optTimes L lg m a).findSome? K) hb hs hg (fun x hx => by omega)
        (fun d1 hd1 => ih d1 (by have := hp d d1 hd1; omega)) (h _ _ _)
  exact key _ d (Nat.le_refl _)

/-! ### Trees -/

mutual
/-- All runs of a tree, most preferred first. -/
def Tree.tries : Tree → Cfg Char → List (Cfg Char)
  | .empty, d => [d]
  | .symbol a, d => (symStep a d).toList
  | .union ts, d => Tree.triesUnion ts d
  | .capture t g, d => (t.tries ⟨d.off, d.rest, d.caps.setStart g d.off⟩).map
      (fun d1 => ⟨d1.off, d1.rest, d1.caps.setEnd g d1.off⟩)
  | .concat ts, d => Tree.triesConcat ts d
  | .rep t n, d => times t.tries (n + 1) d
  | .upTo t n l, d => optTimes t.tries l (n + 1) d
  | .star t l, d => optTimes t.tries l d.rest.length d
  | .start, d => (epsStep .startAnchor d).toList
  | .end_, d => (epsStep .endAnchor d).toList
  | .never, _ => []
/-- Alternatives. -/
def Tree.triesUnion : List Tree → Cfg Char → List (Cfg Char)
  | [], _ => []
  | t :: ts, d => t.tries d ++ Tree.triesUnion ts d
/-- Sequences. -/
def Tree.triesConcat : List Tree → Cfg Char → List (Cfg Char)
  | [], d => [d]
  | t :: ts, d => (t.tries d).flatMap (Tree.triesConcat ts)
end

theorem triesUnion_eq (ts : List Tree) (d) : Tree.triesUnion ts d = (ts.map Tree.tries).flatMap (fun L => L d) := by
  induction ts with
  | nil => rfl
  | cons t ts ih => rw [Tree.triesUnion, ih]; rfl

theorem triesConcat_eq (ts : List Tree) : Tree.triesConcat ts = seqL (ts.map Tree.tries) := by
  induction ts with
  | nil => rfl
  | cons t ts ih => funext d; rw [Tree.triesConcat, ih]; rfl

theorem times_eq {γ : Type} (L : γ → List γ) (k : Nat) : times L k = seqL (List.replicate k L) := by
  induction k with
  | zero => rfl
  | succ k ih => funext d; rw [times, ih]; rfl

mutual
/-- Every starred tree consumes something. -/
def Tree.Progress : Tree → Prop
  | .empty | .symbol _ | .start | .end_ | .never => True
  | .union ts => Tree.ProgressList ts
  | .concat ts => Tree.ProgressList ts
  | .capture t _ => t.Progress
  | .rep t _ => t.Progress
  | .upTo t _ _ => t.Progress
  | .star t _ => t.Progress ∧ ∀ d d', t.Run d d' → d'.rest.length < d.rest.length
/-- The same for a list. -/
def Tree.ProgressList : List Tree → Prop
  | [] => True
  | t :: ts => t.Progress ∧ Tree.ProgressList ts
end

mutual
/-- The automaton tries the runs of the tree in the order of preference. -/
theorem build_sem : (t : Tree) → t.StarOk → t.Progress → Sem (build t) t.tries
  | .empty, _, _ => by
    rw [build, show Tree.empty.tries = _ from funext fun _ => by rw [Tree.tries]]; exact nfaEmpty_sem
  | .symbol a, _, _ => by
    rw [build, show (Tree.symbol a).tries = _ from funext fun _ => by rw [Tree.tries]]; exact nfaSymbol_sem a
  | .union ts, h, hp => by
    rw [build, show (Tree.union ts).tries = _ from funext fun _ => by rw [Tree.tries, triesUnion_eq]]
    rw [Tree.StarOk] at h; rw [Tree.Progress] at hp
    exact nfaUnion_sem (buildList_sem ts h hp)
  | .capture t g, h, hp => by
    rw [build, show (Tree.capture t g).tries = _ from funext fun _ => by rw [Tree.tries]]
    rw [Tree.StarOk] at h; rw [Tree.Progress] at hp
    have hs := build_shape t h
    exact nfaCapture_sem hs.good hs.sink (build_sem t h hp) g
  | .concat ts, h, hp => by
    rw [build, show (Tree.concat ts).tries = _ from funext fun _ => by rw [Tree.tries, triesConcat_eq]]
    rw [Tree.StarOk] at h; rw [Tree.Progress] at hp
    exact nfaConcat_sem (buildList_sem ts h hp)
  | .rep t n, h, hp => by
    rw [build, show (Tree.rep t n).tries = _ from funext fun _ => by rw [Tree.tries, times_eq]]
    rw [Tree.StarOk] at h; rw [Tree.Progress] at hp
    have hs := build_shape t h
    have := build_sem t h hp
    refine nfaConcat_sem ?_
    generalize n + 1 = k
    induction k with
    | zero => exact .nil
    | succ k ih => exact .cons ⟨hs.good, hs.sink, this⟩ ih
  | .upTo t n l, h, hp => by
    rw [build, show (Tree.upTo t n l).tries = _ from funext fun _ => by rw [Tree.tries]]
    rw [Tree.StarOk] at h; rw [Tree.Progress] at hp
    have hs := build_shape t h
    exact nfaUpto_sem hs.good hs.sink (build_sem t h hp) l n
  | .star t l, h, hp => by
    rw [build, show (Tree.star t l).tries = _ from funext fun _ => by rw [Tree.tries]]
    rw [Tree.StarOk] at h; rw [Tree.Progress] at hp
    have hs := build_shape t h.1
    exact nfaStar_sem hs.good hs.sink (build_sem t h.1 hp.1)
      (fun d d1 hd => hp.2 d d1 ((build_acc t d d1).mp hd)) l
  | .start, _, _ => by
    rw [build, show Tree.start.tries = _ from funext fun _ => by rw [Tree.tries]]; exact nfaStart_sem
  | .end_, _, _ => by
    rw [build, show Tree.end_.tries = _ from funext fun _ => by rw [Tree.tries]]; exact nfaEnd_sem
  | .never, _, _ => by
    rw [build, show Tree.never.tries = _ from funext fun _ => by rw [Tree.tries]]; exact nfaNever_sem
/-- The same for a list. -/
theorem buildList_sem : (ts : List Tree) → Tree.StarOkList ts → Tree.ProgressList ts →
    List.Forall₂ (fun n L => Good n ∧ n.Sink ∧ Sem n L) (buildList ts) (ts.map Tree.tries)
  | [], _, _ => .nil
  | t :: ts, h, hp => by
    rw [buildList, List.map_cons]
    rw [Tree.StarOkList] at h; rw [Tree.ProgressList] at hp
    have hs := build_shape t h.1
    exact .cons ⟨hs.good, hs.sink, build_sem t h.1 hp.1⟩ (buildList_sem ts h.2 hp.2)
end

end Ere
