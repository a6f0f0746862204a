import Verif.Proofs.Reach

/-! Correctness of the automaton construction (Thompson). -/

namespace Ere
variable {σ α : Type} [Sym σ α]

/-- What is needed of a sub-automaton. -/
structure Good (n : NFA σ) : Prop where
  ne : n ≠ []
  wf : n.WF

/-- Runs through a list of automata in sequence. -/
def ChainAcc : List (NFA σ) → Cfg α → Cfg α → Prop
  | [], d, d' => d = d'
  | n :: ns, d, d' => ∃ d1, n.Acc d d1 ∧ ChainAcc ns d1 d'

theorem sink_new {A : NFA σ} (l q') : ¬ NFA.HasEdge (A ++ [State.new]) A.length l q' := by
  rw [hasEdge_at_mid]; exact has_new

theorem concat_aux (ns : List (NFA σ)) (hns : ∀ n ∈ ns, Good n) (A : NFA σ) (d d' : Cfg α) :
    ReachE (NFA.HasEdge (A ++ concatBody A.length ns ++ [State.new])) (A.length, d)
      ((A ++ concatBody A.length ns).length, d') ↔ ChainAcc ns d d' := by
  induction ns generalizing A d with
  | nil =>
    simp only [concatBody, List.append_nil, ChainAcc]
    constructor
    · intro h; exact (reachE_sink (fun l q' => sink_new l q') h).2
    · rintro rfl; exact reachE_refl
  | cons n ns ih =>
    have hn := hns n (by simp)
    have hlen : (A ++ block n A.length (Eps.new (A.length + n.length))).length = A.length + n.length := by
      simp [block_length]
    have ih' := ih (fun m hm => hns m (by simp [hm]))
      (A ++ block n A.length (Eps.new (A.length + n.length)))
    rw [hlen] at ih'
    have heq : A ++ concatBody A.length (n :: ns) =
        A ++ block n A.length (Eps.new (A.length + n.length)) ++ concatBody (A.length + n.length) ns := by
      simp [concatBody, block]
    have hb : IsBlock (NFA.HasEdge (A ++ concatBody A.length (n :: ns) ++ [State.new])) n A.length
        (Eps.new (A.length + n.length)) := by
      rw [heq, List.append_assoc _ (concatBody _ _)]
      exact isBlock_append hn.ne rfl
    have hle : A.length + n.length ≤ (A ++ concatBody A.length (n :: ns)).length := by
      rw [heq, List.length_append, hlen]; omega
    constructor
    · intro h
      obtain ⟨d1, d2, h1, h2, h3⟩ := block_backward hb hn.wf hn.ne (fun x hx => by omega) h
      have : d1 = d2 := by simpa [Eps.new, epsStep] using h2
      subst this
      refine ⟨d1, h1, ?_⟩
      rw [heq] at h3
      exact (ih' d1).mp h3
    · rintro ⟨d1, h1, h2⟩
      have h3 := (ih' d1).mpr h2
      refine reachE_trans (block_forward hb hn.wf h1 (d2 := d1) rfl) ?_
      rw [heq]; exact h3

theorem nfaConcat_acc (ns : List (NFA σ)) (hns : ∀ n ∈ ns, Good n) (d d' : Cfg α) :
    (nfaConcat ns).Acc d d' ↔ ChainAcc ns d d' := by
  have h := concat_aux ns hns [(⟨[], [Eps.new 1]⟩ : State σ)] d d'
  simp only [List.length_singleton] at h
  rw [← h]
  have he : ∀ l q', NFA.HasEdge (nfaConcat ns) 0 l q' ↔ l = .eps .none ∧ q' = 1 := by
    intro l q'
    unfold nfaConcat
    rw [List.cons_append, hasEdge_cons]
    constructor
    · rintro (⟨_, h⟩ | ⟨x, hx, _⟩)
      · cases l with
        | sym a => simp [State.Has] at h
        | eps e => simp only [State.Has, Eps.new, List.mem_singleton, Eps.mk.injEq] at h
                   exact ⟨by rw [h.2], h.1⟩
      · omega
    · rintro ⟨rfl, rfl⟩; exact Or.inl ⟨rfl, by simp [State.Has, Eps.new]⟩
  have hl : (nfaConcat ns).length - 1 = ([(⟨[], [Eps.new 1]⟩ : State σ)] ++ concatBody 1 ns).length := by
    simp [nfaConcat]
  have hN : nfaConcat ns = [⟨[], [Eps.new 1]⟩] ++ concatBody 1 ns ++ [State.new] := by
    simp [nfaConcat]
  constructor
  · rintro ⟨_, hr⟩
    rw [hl] at hr
    rcases Relation.ReflTransGen.cases_head hr with h0 | ⟨⟨q1, d1⟩, ⟨l, h1, h2⟩, h3⟩
    · have := congrArg Prod.fst h0
      simp at this
    · obtain ⟨rfl, h4⟩ := (he l q1).mp h1
      have hd : d = d1 := by simpa [labStep, epsStep] using h2
      subst hd h4
      rw [← hN]; exact h3
  · intro hr
    refine ⟨by simp [nfaConcat], ?_⟩
    rw [hl]
    refine reachE_trans (reachE_eps ((he _ _).mpr ⟨rfl, rfl⟩)) ?_
    rw [hN]; exact hr

theorem concatBody_wf (ns : List (NFA σ)) (hns : ∀ n ∈ ns, Good n) (off : Nat) {q l q'}
    (h : (concatBody off ns).HasEdge q l q') : q' ≤ off + (concatBody off ns).length := by
  induction ns generalizing off q with
  | nil => exact absurd h hasEdge_nil
  | cons n ns ih =>
    have hn := hns n (by simp)
    have ih' := @ih (fun m hm => hns m (by simp [hm])) (off + n.length)
    simp only [concatBody] at h ⊢
    rw [hasEdge_append] at h
    simp only [List.length_append, pushLast_length, shift_length]
    rcases h with h | ⟨x, hx, h⟩
    · rcases (hasEdge_block hn.ne).mp h with ⟨x', h1, h2⟩ | ⟨_, _, h1⟩
      · have := hn.wf _ _ _ h2; omega
      · simp [Eps.new] at h1; omega
    · have := ih' h; omega

theorem nfaConcat_good (ns : List (NFA σ)) (hns : ∀ n ∈ ns, Good n) : Good (nfaConcat ns) := by
  refine ⟨by simp [nfaConcat], ?_⟩
  intro q l q' h
  unfold nfaConcat at *
  rw [List.cons_append, hasEdge_cons] at h
  simp only [List.length_append, List.length_cons, List.length_nil]
  rcases h with ⟨_, h⟩ | ⟨x, hx, h⟩
  · cases l with
    | sym a => simp [State.Has] at h
    | eps e => simp [State.Has, Eps.new] at h; omega
  · rw [hasEdge_append] at h
    rcases h with h | ⟨y, _, h⟩
    · have := concatBody_wf ns hns 1 h; omega
    · rw [hasEdge_single] at h; exact absurd h.2 has_new

/-! ### capture -/

theorem nfaCapture_block (n : NFA σ) (hn : Good n) (g : Nat) :
    IsBlock (NFA.HasEdge (nfaCapture n g)) n 1 ⟨1 + n.length, .endCapture g⟩ := by
  have : nfaCapture n g = [⟨[], [⟨1, .startCapture g⟩]⟩] ++ block n 1 ⟨1 + n.length, .endCapture g⟩ ++ [State.new] := by
    have : 2 + n.length - 1 = 1 + n.length := by omega
    simp [nfaCapture, block, this]
  rw [this]
  exact isBlock_append hn.ne rfl

theorem capture_length (n : NFA σ) (g : Nat) : (nfaCapture n g).length = n.length + 2 := by
  simp [nfaCapture, pushLast_length, shift_length]

theorem capture_start (n : NFA σ) (g : Nat) (l q') :
    NFA.HasEdge (nfaCapture n g) 0 l q' ↔ l = .eps (.startCapture g) ∧ q' = 1 := by
  unfold nfaCapture
  simp only [List.cons_append]
  rw [hasEdge_cons]
  constructor
  · rintro (⟨_, h⟩ | ⟨x, hx, _⟩)
    · cases l with
      | sym a => simp [State.Has] at h
      | eps e => simp only [State.Has, List.mem_singleton, Eps.mk.injEq] at h
                 exact ⟨by rw [h.2], h.1⟩
    · omega
  · rintro ⟨rfl, rfl⟩; exact Or.inl ⟨rfl, by simp [State.Has]⟩

theorem capture_sink (n : NFA σ) (g : Nat) (l q') :
    ¬ NFA.HasEdge (nfaCapture n g) (1 + n.length) l q' := by
  unfold nfaCapture
  simp only []
  have := @sink_new σ (⟨[], [⟨1, .startCapture g⟩]⟩ :: NFA.pushLast (NFA.shift n 1) ⟨2 + n.length - 1, .endCapture g⟩) l q'
  simpa [pushLast_length, shift_length, Nat.add_comm] using this

theorem nfaCapture_acc (n : NFA σ) (hn : Good n) (g : Nat) (d d' : Cfg α) :
    (nfaCapture n g).Acc d d' ↔
      ∃ d1, n.Acc ⟨d.off, d.rest, d.caps.setStart g d.off⟩ d1 ∧
        d' = ⟨d1.off, d1.rest, d1.caps.setEnd g d1.off⟩ := by
  have hb := nfaCapture_block n hn g
  have hl : (nfaCapture n g).length - 1 = 1 + n.length := by rw [capture_length]; omega
  unfold NFA.Acc
  rw [hl]
  constructor
  · rintro ⟨_, hr⟩
    rcases Relation.ReflTransGen.cases_head hr with h0 | ⟨⟨q1, d1⟩, ⟨l, h1, h2⟩, h3⟩
    · have := congrArg Prod.fst h0
      simp at this; omega
    · obtain ⟨rfl, h4⟩ := (capture_start n g l q1).mp h1
      subst h4
      simp only [labStep, epsStep, Option.some.injEq] at h2
      subst h2
      obtain ⟨d1, d2, r1, r2, r3⟩ := block_backward hb hn.wf hn.ne (fun x hx => by omega) h3
      refine ⟨d1, r1, ?_⟩
      have := (reachE_sink (fun l q' => capture_sink n g l q') r3).2
      simp only [epsStep, Option.some.injEq] at r2
      rw [← this, ← r2]
  · rintro ⟨d1, h1, rfl⟩
    refine ⟨by simp [nfaCapture], ?_⟩
    refine reachE_trans (reachE_step ((capture_start n g _ _).mpr ⟨rfl, rfl⟩) rfl) ?_
    exact block_forward hb hn.wf h1 rfl

theorem nfaCapture_good (n : NFA σ) (hn : Good n) (g : Nat) : Good (nfaCapture n g) := by
  refine ⟨by simp [nfaCapture], ?_⟩
  intro q l q' h
  rw [capture_length]
  have hlt := hasEdge_lt h
  rw [capture_length] at hlt
  rcases Nat.eq_zero_or_pos q with rfl | hq
  · have := ((capture_start n g l q').mp h).2; omega
  · by_cases hq2 : q = 1 + n.length
    · subst hq2; exact absurd h (capture_sink n g l q')
    · have hx : q - 1 < n.length := by omega
      have hqe : q = 1 + (q - 1) := by omega
      rw [hqe] at h
      rcases (nfaCapture_block n hn g _ hx l q').mp h with ⟨x', h1, h2⟩ | ⟨_, _, h1⟩
      · have := hn.wf _ _ _ h2; omega
      · simp at h1; omega

/-! ### star -/

theorem nfaStar_eq (n : NFA σ) (lg : Bool) : nfaStar n lg =
    [⟨[], (if lg then [] else [Eps.new (1 + n.length)]) ++ [Eps.new 1] ++
    (if lg then [Eps.new (1 + n.length)] else [])⟩] ++ block n 1 (Eps.new 0) ++ [State.new] := by
  simp [nfaStar, block]

theorem nfaStar_block (n : NFA σ) (hn : Good n) (lg : Bool) :
    IsBlock (NFA.HasEdge (nfaStar n lg)) n 1 (Eps.new 0) := by
  rw [nfaStar_eq]
  exact isBlock_append hn.ne rfl

theorem star_length (n : NFA σ) (lg : Bool) : (nfaStar n lg).length = n.length + 2 := by
  simp [nfaStar, pushLast_length, shift_length]

theorem star_start (n : NFA σ) (lg : Bool) (l q') :
    NFA.HasEdge (nfaStar n lg) 0 l q' ↔ l = .eps .none ∧ (q' = 1 ∨ q' = 1 + n.length) := by
  rw [nfaStar_eq, List.append_assoc, List.cons_append, hasEdge_cons]
  constructor
  · rintro (⟨_, h⟩ | ⟨x, hx, _⟩)
    · cases l with
      | sym a => simp [State.Has] at h
      | eps e =>
        cases lg <;> simp [State.Has, Eps.new] at h <;> rcases h with ⟨rfl, rfl⟩ | ⟨rfl, rfl⟩ <;> simp
    · omega
  · rintro ⟨rfl, rfl | rfl⟩ <;> refine Or.inl ⟨rfl, ?_⟩ <;> cases lg <;> simp [State.Has, Eps.new]

theorem star_sink (n : NFA σ) (lg : Bool) (l q') :
    ¬ NFA.HasEdge (nfaStar n lg) (1 + n.length) l q' := by
  have := @sink_new σ ([⟨[], (if lg then [] else [Eps.new (1 + n.length)]) ++ [Eps.new 1] ++
    (if lg then [Eps.new (1 + n.length)] else [])⟩] ++ block n 1 (Eps.new 0)) l q'
  rw [← nfaStar_eq, List.length_append, block_length] at this
  exact this

/-- Zero or more runs in sequence. -/
inductive StarAcc (n : NFA σ) : Cfg α → Cfg α → Prop
  | nil {d} : StarAcc n d d
  | cons {d d1 d'} : n.Acc d d1 → StarAcc n d1 d' → StarAcc n d d'

theorem nfaStar_acc (n : NFA σ) (hn : Good n) (lg : Bool) (d d' : Cfg α) :
    (nfaStar n lg).Acc d d' ↔ StarAcc n d d' := by
  have hb := nfaStar_block n hn lg
  have hpos : 0 < n.length := List.length_pos_iff.mpr hn.ne
  have hl : (nfaStar n lg).length - 1 = 1 + n.length := by rw [star_length]; omega
  unfold NFA.Acc
  rw [hl]
  constructor
  · rintro ⟨_, hr⟩
    have := reachE_head_induction
      (P := fun q d => (q = 1 + n.length → d = d') ∧ (q = 0 → StarAcc n d d') ∧
        (∀ x, q = 1 + x → x < n.length →
          ∃ d1, ReachE n.HasEdge (x, d) (n.length - 1, d1) ∧ StarAcc n d1 d')) hr
      ⟨fun _ => rfl, fun h => by omega, fun x h1 h2 => by omega⟩ ?_
    · exact this.2.1 rfl
    · intro q d l q1 d1 he hd _ ih
      refine ⟨?_, ?_, ?_⟩
      · rintro rfl; exact absurd he (star_sink n lg l q1)
      · rintro rfl
        obtain ⟨rfl, h | h⟩ := (star_start n lg l q1).mp he
        · have hdd : d = d1 := by simpa [labStep, epsStep] using hd
          subst hdd
          obtain ⟨d2, h1, h2⟩ := ih.2.2 0 h hpos
          exact .cons ⟨hn.ne, h1⟩ h2
        · have hdd : d = d1 := by simpa [labStep, epsStep] using hd
          subst hdd
          rw [ih.1 h]; exact .nil
      · rintro x rfl hx
        rcases (hb x hx l q1).mp he with ⟨x', h1, h2⟩ | ⟨h1, h2, h3⟩
        · obtain ⟨d2, h3, h4⟩ := ih.2.2 x' h1 (hn.wf _ _ _ h2)
          exact ⟨d2, reachE_trans (reachE_step h2 hd) h3, h4⟩
        · subst h2
          have hdd : d = d1 := by simpa [labStep, Eps.new, epsStep] using hd
          subst hdd
          have : n.length - 1 = x := by omega
          exact ⟨d, by rw [this]; exact reachE_refl, ih.2.1 h3⟩
  · intro h
    refine ⟨by simp [nfaStar], ?_⟩
    induction h with
    | nil => exact reachE_eps ((star_start n lg _ _).mpr ⟨rfl, Or.inr rfl⟩)
    | cons h1 _ ih =>
      refine reachE_trans (reachE_eps ((star_start n lg _ _).mpr ⟨rfl, Or.inl rfl⟩)) ?_
      exact reachE_trans (block_forward hb hn.wf h1 rfl) ih

theorem nfaStar_good (n : NFA σ) (hn : Good n) (lg : Bool) : Good (nfaStar n lg) := by
  refine ⟨by simp [nfaStar], ?_⟩
  intro q l q' h
  rw [star_length]
  have hlt := hasEdge_lt h
  rw [star_length] at hlt
  rcases Nat.eq_zero_or_pos q with rfl | hq
  · have := ((star_start n lg l q').mp h).2; omega
  · by_cases hq2 : q = 1 + n.length
    · subst hq2; exact absurd h (star_sink n lg l q')
    · have hx : q - 1 < n.length := by omega
      have hqe : q = 1 + (q - 1) := by omega
      rw [hqe] at h
      rcases (nfaStar_block n hn lg _ hx l q').mp h with ⟨x', h1, h2⟩ | ⟨_, _, h1⟩
      · have := hn.wf _ _ _ h2; omega
      · simp [Eps.new] at h1; omega

/-! ### union -/

theorem unionBody_length (ns : List (NFA σ)) (off e) :
    (unionBody off e ns).length = (ns.map List.length).sum := by
  induction ns generalizing off with
  | nil => rfl
  | cons n ns ih => simp [unionBody, pushLast_length, shift_length, ih]

theorem union_aux (ns : List (NFA σ)) (hns : ∀ n ∈ ns, Good n) (A : NFA σ) (endIdx : Nat)
    (hend : endIdx = A.length + (ns.map List.length).sum) (d d' : Cfg α) :
    (∃ e ∈ unionStarts A.length ns, ReachE (NFA.HasEdge (A ++ unionBody A.length endIdx ns ++ [State.new]))
      (e.dst, d) (endIdx, d')) ↔ ∃ n ∈ ns, n.Acc d d' := by
  induction ns generalizing A with
  | nil => simp [unionStarts]
  | cons n ns ih =>
    have hn := hns n (by simp)
    have hlen : (A ++ block n A.length (Eps.new endIdx)).length = A.length + n.length := by
      simp [block_length]
    have ih' := ih (fun m hm => hns m (by simp [hm])) (A ++ block n A.length (Eps.new endIdx))
      (by rw [hlen, hend]; simp; omega)
    rw [hlen] at ih'
    have heq : A ++ unionBody A.length endIdx (n :: ns) =
        A ++ block n A.length (Eps.new endIdx) ++ unionBody (A.length + n.length) endIdx ns := by
      simp [unionBody, block]
    have hb : IsBlock (NFA.HasEdge (A ++ unionBody A.length endIdx (n :: ns) ++ [State.new])) n A.length
        (Eps.new endIdx) := by
      rw [heq, List.append_assoc _ (unionBody _ _ _)]
      exact isBlock_append hn.ne rfl
    have hsink : ∀ l q', ¬ NFA.HasEdge (A ++ unionBody A.length endIdx (n :: ns) ++ [State.new]) endIdx l q' := by
      intro l q' h
      apply sink_new (A := A ++ unionBody A.length endIdx (n :: ns)) l q'
      rwa [List.length_append, unionBody_length, ← hend]
    simp only [unionStarts, List.mem_cons, exists_eq_or_imp]
    rw [← heq] at ih'
    rw [ih']
    refine or_congr_left ?_
    constructor
    · intro h
      have hpos : n.length ≤ ((n :: ns).map List.length).sum := by simp
      obtain ⟨d1, d2, h1, h2, h3⟩ := block_backward hb hn.wf hn.ne (fun x hx => by omega) h
      have : d1 = d2 := by simpa [Eps.new, epsStep] using h2
      subst this
      rw [← (reachE_sink hsink h3).2]; exact h1
    · intro h
      exact block_forward hb hn.wf h rfl

theorem unionStarts_special {ns : List (NFA σ)} {off e} (h : e ∈ unionStarts off ns) :
    e.special = .none := by
  induction ns generalizing off with
  | nil => simp [unionStarts] at h
  | cons n ns ih =>
    simp only [unionStarts, List.mem_cons] at h
    rcases h with rfl | h
    · rfl
    · exact ih h

theorem nfaUnion_eq (ns : List (NFA σ)) : nfaUnion ns =
    [⟨[], unionStarts 1 ns⟩] ++ unionBody 1 (1 + (ns.map List.length).sum) ns ++ [State.new] := by
  have : 2 + (ns.map List.length).sum - 1 = 1 + (ns.map List.length).sum := by omega
  simp [nfaUnion, this]

theorem union_start (ns : List (NFA σ)) (l q') :
    NFA.HasEdge (nfaUnion ns) 0 l q' ↔ l = .eps .none ∧ ∃ e ∈ unionStarts 1 ns, e.dst = q' := by
  rw [nfaUnion_eq, List.append_assoc, List.cons_append, hasEdge_cons]
  constructor
  · rintro (⟨_, h⟩ | ⟨x, hx, _⟩)
    · cases l with
      | sym a => simp [State.Has] at h
      | eps e =>
        have := unionStarts_special h
        simp only at this
        exact ⟨by rw [this], _, h, rfl⟩
    · omega
  · rintro ⟨rfl, e, he, rfl⟩
    refine Or.inl ⟨rfl, ?_⟩
    have := unionStarts_special he
    cases e; simp only at this; subst this; exact he

theorem nfaUnion_acc (ns : List (NFA σ)) (hns : ∀ n ∈ ns, Good n) (d d' : Cfg α) :
    (nfaUnion ns).Acc d d' ↔ ∃ n ∈ ns, n.Acc d d' := by
  have h := union_aux ns hns [⟨[], unionStarts 1 ns⟩] (1 + (ns.map List.length).sum) (by simp) d d'
  simp only [List.length_singleton] at h
  rw [← h, ← nfaUnion_eq]
  have hl : (nfaUnion ns).length - 1 = 1 + (ns.map List.length).sum := by
    simp [nfaUnion_eq, unionBody_length]; omega
  unfold NFA.Acc
  rw [hl]
  constructor
  · rintro ⟨_, hr⟩
    rcases Relation.ReflTransGen.cases_head hr with h0 | ⟨⟨q1, d1⟩, ⟨l, h1, h2⟩, h3⟩
    · have := congrArg Prod.fst h0
      simp at this; omega
    · obtain ⟨rfl, e, he, h4⟩ := (union_start ns l q1).mp h1
      have hd : d = d1 := by simpa [labStep, epsStep] using h2
      subst hd h4
      exact ⟨e, he, h3⟩
  · rintro ⟨e, he, hr⟩
    refine ⟨by simp [nfaUnion], ?_⟩
    exact reachE_trans (reachE_eps ((union_start ns _ _).mpr ⟨rfl, e, he, rfl⟩)) hr

theorem unionBody_wf (ns : List (NFA σ)) (hns : ∀ n ∈ ns, Good n) (off endIdx : Nat) {q l q'}
    (hend : off + (ns.map List.length).sum ≤ endIdx)
    (h : (unionBody off endIdx ns).HasEdge q l q') : q' ≤ endIdx := by
  induction ns generalizing off q with
  | nil => exact absurd h hasEdge_nil
  | cons n ns ih =>
    have hn := hns n (by simp)
    simp only [List.map_cons, List.sum_cons] at hend
    simp only [unionBody] at h
    rw [hasEdge_append] at h
    rcases h with h | ⟨x, hx, h⟩
    · rcases (hasEdge_block hn.ne).mp h with ⟨x', h1, h2⟩ | ⟨_, _, h1⟩
      · have := hn.wf _ _ _ h2; omega
      · simp [Eps.new] at h1; omega
    · exact ih (fun m hm => hns m (by simp [hm])) (off + n.length) (by omega) h

theorem unionStarts_le (ns : List (NFA σ)) (off : Nat) {e} (h : e ∈ unionStarts off ns) :
    e.dst ≤ off + (ns.map List.length).sum := by
  induction ns generalizing off with
  | nil => simp [unionStarts] at h
  | cons n ns ih =>
    simp only [unionStarts, List.mem_cons] at h
    simp only [List.map_cons, List.sum_cons]
    rcases h with rfl | h
    · simp [Eps.new]
    · have := ih _ h; omega

theorem nfaUnion_good (ns : List (NFA σ)) (hns : ∀ n ∈ ns, Good n) : Good (nfaUnion ns) := by
  refine ⟨by simp [nfaUnion], ?_⟩
  intro q l q' h
  have hl : (nfaUnion ns).length = 2 + (ns.map List.length).sum := by
    simp [nfaUnion_eq, unionBody_length]; omega
  rw [hl]
  rcases Nat.eq_zero_or_pos q with rfl | hq
  · obtain ⟨_, e, he, rfl⟩ := (union_start ns l q').mp h
    have := unionStarts_le ns 1 he; omega
  · rw [nfaUnion_eq, hasEdge_append, hasEdge_append] at h
    rcases h with (h | ⟨x, hx, h⟩) | ⟨x, hx, h⟩
    · have := hasEdge_lt h; simp at this; omega
    · have := unionBody_wf ns hns 1 _ (Nat.le_refl _) h; omega
    · rw [hasEdge_single] at h; exact absurd h.2 has_new

/-! ### upto -/

/-- Between 1 and `k+1` runs in sequence. -/
def UptoAcc (n : NFA σ) : Nat → Cfg α → Cfg α → Prop
  | 0, d, d' => n.Acc d d'
  | k + 1, d, d' => ∃ d1, n.Acc d d1 ∧ (d1 = d' ∨ UptoAcc n k d1 d')

theorem uptoBody_length (n : NFA σ) (endIdx lg off k) :
    (uptoBody n endIdx lg off k).length = (n.length + 1) * (k + 1) := by
  induction k generalizing off with
  | zero => simp [uptoBody, pushLast_length, shift_length]
  | succ k ih =>
    simp only [uptoBody, List.length_append, pushLast_length, shift_length, List.length_cons, ih]
    rw [Nat.mul_succ (n.length + 1) (k + 1)]; omega

theorem uptoBody_sink (n : NFA σ) (lg : Bool) (e : Nat) (k off endIdx : Nat) (B : NFA σ)
    (hB : B.length + (n.length + 1) * (k + 1) = endIdx + 1) (l q') :
    ¬ NFA.HasEdge (B ++ uptoBody n e lg off k) endIdx l q' := by
  induction k generalizing off B with
  | zero =>
    intro h
    simp only [uptoBody] at h
    rw [← List.append_assoc] at h
    refine sink_new (A := B ++ block n off (Eps.new (off + n.length))) l q' ?_
    rw [List.length_append, block_length]
    have : B.length + n.length = endIdx := by simp at hB; omega
    rw [this]; exact h
  | succ k ihk =>
    intro h
    have hmul : (n.length + 1) * (k + 1 + 1) = (n.length + 1) * (k + 1) + (n.length + 1) := by
      rw [Nat.mul_succ (n.length + 1) (k + 1)]
    simp only [uptoBody] at h
    rw [← List.append_assoc, ← List.singleton_append, ← List.append_assoc] at h
    refine ihk _ _ ?_ h
    simp only [List.length_append, pushLast_length, shift_length, List.length_singleton]
    omega

theorem upto_aux (n : NFA σ) (hn : Good n) (lg : Bool) (k : Nat) (A : NFA σ) (endIdx : Nat)
    (hend : endIdx + 1 = A.length + (n.length + 1) * (k + 1)) (d d' : Cfg α) :
    ReachE (NFA.HasEdge (A ++ uptoBody n endIdx lg A.length k)) (A.length, d) (endIdx, d') ↔
      UptoAcc n k d d' := by
  have hpos : 0 < n.length := List.length_pos_iff.mpr hn.ne
  induction k generalizing A d with
  | zero =>
    have heq : A ++ uptoBody n endIdx lg A.length 0 =
        A ++ block n A.length (Eps.new (A.length + n.length)) ++ [State.new] := by
      simp [uptoBody, block]
    have hb : IsBlock (NFA.HasEdge (A ++ uptoBody n endIdx lg A.length 0)) n A.length
        (Eps.new (A.length + n.length)) := by
      rw [heq]; exact isBlock_append hn.ne rfl
    have he : endIdx = A.length + n.length := by simp at hend; omega
    have hsink : ∀ l q', ¬ NFA.HasEdge (A ++ uptoBody n endIdx lg A.length 0) endIdx l q' :=
      fun l q' => uptoBody_sink n lg _ 0 A.length _ A hend.symm l q'
    constructor
    · intro h
      obtain ⟨d1, d2, h1, h2, h3⟩ := block_backward hb hn.wf hn.ne (fun x hx => by omega) h
      have : d1 = d2 := by simpa [Eps.new, epsStep] using h2
      subst this
      simp only [Eps.new] at h3
      rw [← he] at h3
      rw [← (reachE_sink hsink h3).2]; exact h1
    · intro h
      have := block_forward hb hn.wf (d2 := d') h rfl
      simp only [Eps.new] at this
      rwa [← he] at this
  | succ k ih =>
    let t := A.length + n.length
    let ts : State σ := ⟨[], if lg then [Eps.new (t + 1), Eps.new endIdx] else [Eps.new endIdx, Eps.new (t + 1)]⟩
    have hmul : (n.length + 1) * (k + 1 + 1) = (n.length + 1) * (k + 1) + (n.length + 1) := by
      rw [Nat.mul_succ (n.length + 1) (k + 1)]
    have heq : A ++ uptoBody n endIdx lg A.length (k + 1) =
        A ++ block n A.length (Eps.new t) ++ ts :: uptoBody n endIdx lg (t + 1) k := by
      simp [uptoBody, block, ts, t]
    have heq2 : A ++ uptoBody n endIdx lg A.length (k + 1) =
        (A ++ block n A.length (Eps.new t) ++ [ts]) ++ uptoBody n endIdx lg (t + 1) k := by
      rw [heq]; simp
    have hlen1 : (A ++ block n A.length (Eps.new t)).length = t := by
      simp [block_length, t]
    have hlen : (A ++ block n A.length (Eps.new t) ++ [ts]).length = t + 1 := by
      rw [List.length_append, hlen1]; rfl
    have ih' := ih (A ++ block n A.length (Eps.new t) ++ [ts]) (by rw [hlen]; omega)
    rw [hlen, ← heq2] at ih'
    have hb : IsBlock (NFA.HasEdge (A ++ uptoBody n endIdx lg A.length (k + 1))) n A.length (Eps.new t) := by
      rw [heq]; exact isBlock_append hn.ne rfl
    have ht : ∀ l q', NFA.HasEdge (A ++ uptoBody n endIdx lg A.length (k + 1)) t l q' ↔
        l = .eps .none ∧ (q' = t + 1 ∨ q' = endIdx) := by
      intro l q'
      have := @hasEdge_at_mid σ (A ++ block n A.length (Eps.new t)) (uptoBody n endIdx lg (t + 1) k) ts l q'
      rw [hlen1, ← heq] at this
      rw [this]
      cases l with
      | sym a => simp [State.Has, ts]
      | eps e =>
        cases lg <;> simp [State.Has, ts, Eps.new] <;> tauto
    have hsink : ∀ l q', ¬ NFA.HasEdge (A ++ uptoBody n endIdx lg A.length (k + 1)) endIdx l q' := by
      intro l q'
      exact uptoBody_sink n lg _ (k + 1) A.length _ A hend.symm l q'
    constructor
    · intro h
      obtain ⟨d1, d2, h1, h2, h3⟩ := block_backward hb hn.wf hn.ne (fun x hx => by omega) h
      have : d1 = d2 := by simpa [Eps.new, epsStep] using h2
      subst this
      refine ⟨d1, h1, ?_⟩
      rcases Relation.ReflTransGen.cases_head h3 with h0 | ⟨⟨q1, d2⟩, ⟨l, h4, h5⟩, h6⟩
      · exact Or.inl (congrArg Prod.snd h0)
      · obtain ⟨rfl, hq | hq⟩ := (ht l q1).mp h4
        · have hd : d1 = d2 := by simpa [labStep, epsStep] using h5
          subst hd hq
          exact Or.inr ((ih' d1).mp h6)
        · have hd : d1 = d2 := by simpa [labStep, epsStep] using h5
          subst hd hq
          exact Or.inl (reachE_sink hsink h6).2
    · rintro ⟨d1, h1, h2⟩
      refine reachE_trans (block_forward hb hn.wf h1 (d2 := d1) rfl) ?_
      rcases h2 with rfl | h2
      · exact reachE_eps ((ht _ _).mpr ⟨rfl, Or.inr rfl⟩)
      · exact reachE_trans (reachE_eps ((ht _ _).mpr ⟨rfl, Or.inl rfl⟩)) ((ih' d1).mpr h2)

theorem nfaUpto_eq (n : NFA σ) (k lg) : nfaUpto n k lg =
    [⟨[], if lg then [Eps.new 1, Eps.new ((n.length + 1) * (k + 1))]
      else [Eps.new ((n.length + 1) * (k + 1)), Eps.new 1]⟩] ++
      uptoBody n ((n.length + 1) * (k + 1)) lg 1 k := by
  have : 1 + (n.length + 1) * (k + 1) - 1 = (n.length + 1) * (k + 1) := by omega
  cases lg <;> simp [nfaUpto, this]

theorem upto_start (n : NFA σ) (k lg l q') :
    NFA.HasEdge (nfaUpto n k lg) 0 l q' ↔
      l = .eps .none ∧ (q' = 1 ∨ q' = (n.length + 1) * (k + 1)) := by
  rw [nfaUpto_eq, List.cons_append, hasEdge_cons]
  constructor
  · rintro (⟨_, h⟩ | ⟨x, hx, _⟩)
    · cases l with
      | sym a => simp [State.Has] at h
      | eps e =>
        cases lg <;> simp [State.Has, Eps.new] at h <;> rcases h with ⟨rfl, rfl⟩ | ⟨rfl, rfl⟩ <;> simp
    · omega
  · rintro ⟨rfl, rfl | rfl⟩ <;> refine Or.inl ⟨rfl, ?_⟩ <;> cases lg <;> simp [State.Has, Eps.new]

theorem uptoBody_wf (n : NFA σ) (hn : Good n) (endIdx lg k off) {q l q'}
    (hend : off + (n.length + 1) * (k + 1) ≤ endIdx + 1)
    (h : (uptoBody n endIdx lg off k).HasEdge q l q') : q' ≤ endIdx := by
  induction k generalizing off q with
  | zero =>
    simp only [uptoBody] at h
    rw [hasEdge_append] at h
    simp at hend
    rcases h with h | ⟨x, hx, h⟩
    · rcases (hasEdge_block hn.ne).mp h with ⟨x', h1, h2⟩ | ⟨_, _, h1⟩
      · have := hn.wf _ _ _ h2; omega
      · simp [Eps.new] at h1; omega
    · rw [hasEdge_single] at h; exact absurd h.2 has_new
  | succ k ih =>
    have hmul : (n.length + 1) * (k + 1 + 1) = (n.length + 1) * (k + 1) + (n.length + 1) := by
      rw [Nat.mul_succ (n.length + 1) (k + 1)]
    have hge : (n.length + 1) * (k + 1) ≥ 1 := Nat.mul_pos (by omega) (by omega)
    simp only [uptoBody] at h
    rw [hasEdge_append] at h
    rcases h with h | ⟨x, hx, h⟩
    · rcases (hasEdge_block hn.ne).mp h with ⟨x', h1, h2⟩ | ⟨_, _, h1⟩
      · have := hn.wf _ _ _ h2; omega
      · simp [Eps.new] at h1; omega
    · rw [hasEdge_cons] at h
      rcases h with ⟨_, h⟩ | ⟨y, _, h⟩
      · cases l with
        | sym a => simp [State.Has] at h
        | eps e =>
          cases lg <;> simp [State.Has, Eps.new] at h <;> omega
      · exact ih _ (by omega) h

theorem nfaUpto_length (n : NFA σ) (k lg) : (nfaUpto n k lg).length = (n.length + 1) * (k + 1) + 1 := by
  simp [nfaUpto_eq, uptoBody_length]

theorem nfaUpto_good (n : NFA σ) (hn : Good n) (k lg) : Good (nfaUpto n k lg) := by
  refine ⟨by simp [nfaUpto], ?_⟩
  intro q l q' h
  have hge : (n.length + 1) * (k + 1) ≥ 1 := Nat.mul_pos (by omega) (by omega)
  rw [nfaUpto_length]
  rcases Nat.eq_zero_or_pos q with rfl | hq
  · have := ((upto_start n k lg l q').mp h).2; omega
  · rw [nfaUpto_eq, hasEdge_append] at h
    rcases h with h | ⟨x, hx, h⟩
    · have := hasEdge_lt h; simp at this; omega
    · have := uptoBody_wf n hn _ lg k 1 (by omega) h; omega

theorem nfaUpto_acc (n : NFA σ) (hn : Good n) (k lg) (d d' : Cfg α) :
    (nfaUpto n k lg).Acc d d' ↔ d = d' ∨ UptoAcc n k d d' := by
  let endIdx := (n.length + 1) * (k + 1)
  have h := upto_aux n hn lg k [⟨[], if lg then [Eps.new 1, Eps.new endIdx]
      else [Eps.new endIdx, Eps.new 1]⟩] endIdx (by simp [endIdx, Nat.add_comm]) d d'
  simp only [List.length_singleton, endIdx] at h
  rw [← nfaUpto_eq] at h
  rw [← h]
  have hge : (n.length + 1) * (k + 1) ≥ 1 := Nat.mul_pos (by omega) (by omega)
  have hl : (nfaUpto n k lg).length - 1 = (n.length + 1) * (k + 1) := by rw [nfaUpto_length]; omega
  have hpos : 0 < n.length := List.length_pos_iff.mpr hn.ne
  have hsink : ∀ l q', ¬ NFA.HasEdge (nfaUpto n k lg) ((n.length + 1) * (k + 1)) l q' := by
    intro l q'
    rw [nfaUpto_eq]
    exact uptoBody_sink n lg _ k 1 _ _ (by simp; omega) l q'
  unfold NFA.Acc
  rw [hl]
  constructor
  · rintro ⟨_, hr⟩
    rcases Relation.ReflTransGen.cases_head hr with h0 | ⟨⟨q1, d1⟩, ⟨l, h1, h2⟩, h3⟩
    · have := congrArg Prod.fst h0
      simp at this
    · obtain ⟨rfl, hq | hq⟩ := (upto_start n k lg l q1).mp h1
      · have hd : d = d1 := by simpa [labStep, epsStep] using h2
        subst hd hq
        exact Or.inr h3
      · have hd : d = d1 := by simpa [labStep, epsStep] using h2
        subst hd hq
        exact Or.inl (reachE_sink hsink h3).2
  · rintro (rfl | hr)
    · exact ⟨by simp [nfaUpto], reachE_eps ((upto_start n k lg _ _).mpr ⟨rfl, Or.inr rfl⟩)⟩
    · exact ⟨by simp [nfaUpto], reachE_trans (reachE_eps ((upto_start n k lg _ _).mpr ⟨rfl, Or.inl rfl⟩)) hr⟩

/-! ### the whole construction -/

theorem good_symbol (a : σ) : Good (nfaSymbol a) := by
  refine ⟨by simp [nfaSymbol], ?_⟩
  intro q l q' h
  unfold nfaSymbol at *
  rw [hasEdge_cons] at h
  rcases h with ⟨_, h⟩ | ⟨x, _, h⟩
  · cases l <;> simp [State.Has] at h
    simp [h.1]
  · rw [hasEdge_single] at h; exact absurd h.2 has_new

theorem good_anchor (e : EpsType) : Good ([⟨[], [⟨1, e⟩]⟩, State.new] : NFA σ) := by
  refine ⟨by simp, ?_⟩
  intro q l q' h
  rw [hasEdge_cons] at h
  rcases h with ⟨_, h⟩ | ⟨x, _, h⟩
  · cases l <;> simp [State.Has] at h
    simp [h.1]
  · rw [hasEdge_single] at h; exact absurd h.2 has_new

theorem good_empty : Good (nfaEmpty : NFA σ) := by
  refine ⟨by simp [nfaEmpty], ?_⟩
  intro q l q' h
  unfold nfaEmpty at h
  rw [hasEdge_single] at h; exact absurd h.2 has_new

theorem no_edge_never {q l q'} : ¬ (nfaNever : NFA σ).HasEdge q l q' := by
  intro h
  unfold nfaNever at h
  rw [hasEdge_cons] at h
  rcases h with ⟨_, h⟩ | ⟨x, _, h⟩
  · exact has_new h
  · rw [hasEdge_single] at h; exact absurd h.2 has_new

theorem good_never : Good (nfaNever : NFA σ) :=
  ⟨by simp [nfaNever], fun _ _ _ h => absurd h no_edge_never⟩

mutual
theorem build_good : (t : Tree) → Good (build t)
  | .empty => good_empty
  | .symbol a => good_symbol a
  | .union ts => by rw [build]; exact nfaUnion_good _ (buildList_good ts)
  | .capture t g => by rw [build]; exact nfaCapture_good _ (build_good t) g
  | .concat ts => by rw [build]; exact nfaConcat_good _ (buildList_good ts)
  | .rep t n => by
    rw [build]
    refine nfaConcat_good _ fun m hm => ?_
    rw [List.eq_of_mem_replicate hm]; exact build_good t
  | .upTo t n l => by rw [build]; exact nfaUpto_good _ (build_good t) n l
  | .star t l => by rw [build]; exact nfaStar_good _ (build_good t) l
  | .start => by rw [build]; exact good_anchor _
  | .end_ => by rw [build]; exact good_anchor _
  | .never => by rw [build]; exact good_never
theorem buildList_good : (ts : List Tree) → ∀ n ∈ buildList ts, Good n
  | [] => by simp [buildList]
  | t :: ts => by
    intro n hn
    rw [buildList, List.mem_cons] at hn
    rcases hn with rfl | hn
    · exact build_good t
    · exact buildList_good ts n hn
end

theorem two_acc (st : State σ) (hst : ∀ l q', st.Has l q' → q' = 1) (d d' : Cfg α) :
    NFA.Acc [st, State.new] d d' ↔ ∃ l, st.Has l 1 ∧ labStep l d = some d' := by
  have hs : ∀ l q', ¬ NFA.HasEdge [st, State.new] 1 l q' := fun l q' => @sink_new σ [st] l q'
  constructor
  · rintro ⟨_, hr⟩
    rcases Relation.ReflTransGen.cases_head hr with h0 | ⟨⟨q1, d1⟩, ⟨l, h1, h2⟩, h3⟩
    · have := congrArg Prod.fst h0
      simp at this
    · rw [hasEdge_cons] at h1
      rcases h1 with ⟨_, h1⟩ | ⟨x, hx, _⟩
      · have := hst _ _ h1
        simp only at this h1 h2
        subst this
        have := (reachE_sink hs h3).2
        subst this
        exact ⟨l, h1, h2⟩
      · simp at hx
  · rintro ⟨l, h1, h2⟩
    exact ⟨by simp, reachE_step (hasEdge_cons.mpr (Or.inl ⟨rfl, h1⟩)) h2⟩

theorem nfaSymbol_acc (a : σ) (d d' : Cfg α) :
    (nfaSymbol a).Acc d d' ↔ symStep a d = some d' := by
  unfold nfaSymbol
  rw [two_acc]
  · constructor
    · rintro ⟨l, h1, h2⟩
      cases l <;> simp [State.Has] at h1
      subst h1; exact h2
    · intro h; exact ⟨.sym a, by simp [State.Has], h⟩
  · intro l q' h
    cases l <;> simp [State.Has] at h
    exact h.1

theorem nfaAnchor_acc (e : EpsType) (d d' : Cfg α) :
    NFA.Acc ([⟨[], [⟨1, e⟩]⟩, State.new] : NFA σ) d d' ↔ epsStep e d = some d' := by
  rw [two_acc]
  · constructor
    · rintro ⟨l, h1, h2⟩
      cases l <;> simp [State.Has] at h1
      subst h1; exact h2
    · intro h; exact ⟨.eps e, by simp [State.Has], h⟩
  · intro l q' h
    cases l <;> simp [State.Has] at h
    exact h.1

theorem nfaEmpty_acc (d d' : Cfg α) : (nfaEmpty : NFA σ).Acc d d' ↔ d = d' := by
  constructor
  · rintro ⟨_, hr⟩
    exact (reachE_sink (fun l q' => @sink_new σ [] l q') hr).2
  · rintro rfl; exact ⟨by simp [nfaEmpty], reachE_refl⟩

theorem nfaNever_acc (d d' : Cfg α) : ¬ (nfaNever : NFA σ).Acc d d' := by
  rintro ⟨_, hr⟩
  have := (reachE_sink (fun l q' => no_edge_never) hr).1
  simp [nfaNever] at this

theorem run_concat_iff {ts : List Tree} (h : ∀ t ∈ ts, ∀ d d', (build t).Acc d d' ↔ t.Run d d') :
    ∀ d d', ChainAcc (buildList ts) d d' ↔ Tree.Run (.concat ts) d d' := by
  induction ts with
  | nil =>
    intro d d'
    simp only [buildList, ChainAcc]
    constructor
    · rintro rfl; exact .concatNil
    · intro h; cases h; rfl
  | cons t ts ih =>
    intro d d'
    simp only [buildList, ChainAcc]
    have ih' := ih (fun t ht => h t (by simp [ht]))
    constructor
    · rintro ⟨d1, h1, h2⟩
      exact .concatCons ((h t (by simp) _ _).mp h1) ((ih' _ _).mp h2)
    · intro hr
      cases hr with
      | concatCons h1 h2 => exact ⟨_, (h t (by simp) _ _).mpr h1, (ih' _ _).mpr h2⟩

theorem run_rep_iff {t : Tree} (h : ∀ d d', (build t).Acc d d' ↔ t.Run d d') (n : Nat) :
    ∀ d d', ChainAcc (List.replicate (n + 1) (build t)) d d' ↔ Tree.Run (.rep t n) d d' := by
  induction n with
  | zero =>
    intro d d'
    simp only [List.replicate, ChainAcc]
    constructor
    · rintro ⟨d1, h1, rfl⟩; exact .repOne ((h _ _).mp h1)
    · intro hr; cases hr with
      | repOne h1 => exact ⟨_, (h _ _).mpr h1, rfl⟩
  | succ n ih =>
    intro d d'
    rw [List.replicate_succ, ChainAcc]
    constructor
    · rintro ⟨d1, h1, h2⟩; exact .repSucc ((h _ _).mp h1) ((ih _ _).mp h2)
    · intro hr; cases hr with
      | repSucc h1 h2 => exact ⟨_, (h _ _).mpr h1, (ih _ _).mpr h2⟩

theorem run_upTo_iff {t : Tree} (h : ∀ d d', (build t).Acc d d' ↔ t.Run d d') (n : Nat) (l : Bool) :
    ∀ d d', (d = d' ∨ UptoAcc (build t) n d d') ↔ Tree.Run (.upTo t n l) d d' := by
  induction n with
  | zero =>
    intro d d'
    simp only [UptoAcc]
    constructor
    · rintro (rfl | h1)
      · exact .upToNone
      · exact .upToLast ((h _ _).mp h1)
    · intro hr; cases hr with
      | upToNone => exact Or.inl rfl
      | upToLast h1 => exact Or.inr ((h _ _).mpr h1)
  | succ n ih =>
    intro d d'
    simp only [UptoAcc, ih]
    constructor
    · rintro (rfl | ⟨d1, h1, h2⟩)
      · exact .upToNone
      · exact .upToSucc ((h _ _).mp h1) h2
    · intro hr; cases hr with
      | upToNone => exact Or.inl rfl
      | upToSucc h1 h2 => exact Or.inr ⟨_, (h _ _).mpr h1, h2⟩

theorem run_star_iff {t : Tree} (h : ∀ d d', (build t).Acc d d' ↔ t.Run d d') (l : Bool) (d d') :
    StarAcc (build t) d d' ↔ Tree.Run (.star t l) d d' := by
  constructor
  · intro hs
    induction hs with
    | nil => exact .starNil
    | cons h1 _ ih => exact .starCons ((h _ _).mp h1) ih
  · intro hr
    generalize he : Tree.star t l = s at hr
    induction hr <;> simp_all
    · exact .nil
    · rename_i h1 h2 _ ih
      exact .cons ((h _ _).mpr h1) ih

theorem mem_buildList {ts : List Tree} {n} : n ∈ buildList ts ↔ ∃ t ∈ ts, build t = n := by
  induction ts with
  | nil => simp [buildList]
  | cons t ts ih => simp [buildList, ih, eq_comm]

mutual
theorem build_acc : (t : Tree) → ∀ d d', (build t).Acc d d' ↔ t.Run d d'
  | .empty => by
    intro d d'; rw [build, nfaEmpty_acc]
    constructor
    · rintro rfl; exact .empty
    · intro h; cases h; rfl
  | .symbol a => by
    intro d d'; rw [build, nfaSymbol_acc]
    constructor
    · intro h
      obtain ⟨off, rest, caps⟩ := d
      cases rest with
      | nil => simp [symStep] at h
      | cons c r =>
        simp only [symStep] at h
        split at h
        · rename_i hc
          simp only [Option.some.injEq] at h
          subst h
          exact .symbol hc
        · simp at h
    · intro h
      cases h with
      | symbol hc => exact if_pos hc
  | .union ts => by
    intro d d'; rw [build, nfaUnion_acc _ (buildList_good ts)]
    constructor
    · rintro ⟨n, hn, h⟩
      obtain ⟨t, ht, rfl⟩ := mem_buildList.mp hn
      exact .union ht ((build_acc_list ts t ht _ _).mp h)
    · intro h
      cases h with
      | union ht h => exact ⟨_, mem_buildList.mpr ⟨_, ht, rfl⟩, (build_acc_list ts _ ht _ _).mpr h⟩
  | .capture t g => by
    intro d d'; rw [build, nfaCapture_acc _ (build_good t)]
    constructor
    · rintro ⟨d1, h1, rfl⟩
      exact .capture ((build_acc t _ _).mp h1)
    · intro h
      cases h with
      | capture h => exact ⟨_, (build_acc t _ _).mpr h, rfl⟩
  | .concat ts => by
    intro d d'; rw [build, nfaConcat_acc _ (buildList_good ts)]
    exact run_concat_iff (build_acc_list ts) d d'
  | .rep t n => by
    intro d d'
    rw [build, nfaRepeat, nfaConcat_acc]
    · exact run_rep_iff (build_acc t) n d d'
    · intro m hm; rw [List.eq_of_mem_replicate hm]; exact build_good t
  | .upTo t n l => by
    intro d d'; rw [build, nfaUpto_acc _ (build_good t)]
    exact run_upTo_iff (build_acc t) n l d d'
  | .star t l => by
    intro d d'; rw [build, nfaStar_acc _ (build_good t)]
    exact run_star_iff (build_acc t) l d d'
  | .start => by
    intro d d'; rw [build, nfaStart, nfaAnchor_acc]
    obtain ⟨off, rest, caps⟩ := d
    constructor
    · intro h
      simp only [epsStep] at h
      split at h
      · rename_i h0; simp at h h0; subst h0 h; exact .start
      · simp at h
    · intro h; cases h; rfl
  | .end_ => by
    intro d d'; rw [build, nfaEnd, nfaAnchor_acc]
    obtain ⟨off, rest, caps⟩ := d
    constructor
    · intro h
      simp only [epsStep] at h
      split at h
      · rename_i h0; simp at h h0; subst h0 h; exact .end_
      · simp at h
    · intro h; cases h; rfl
  | .never => by
    intro d d'; rw [build]
    constructor
    · intro h; exact absurd h (nfaNever_acc _ _)
    · intro h; cases h
theorem build_acc_list : (ts : List Tree) → ∀ t ∈ ts, ∀ d d', (build t).Acc d d' ↔ t.Run d d'
  | [] => by simp
  | t :: ts => by
    intro t' ht
    rcases List.mem_cons.mp ht with h | h
    · rw [h]; exact build_acc t
    · exact build_acc_list ts t' h
end

end Ere
