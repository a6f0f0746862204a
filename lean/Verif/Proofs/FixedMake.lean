import Verif.Proofs.FixedLen
import Verif.Spec.Width

/-! Fixed offsets are found for every pattern of the documented kind. The states are labelled by the configuration
in which they are reached: before the `^`, between the anchors or after the `$`; how many bytes were read; what was
recorded. -/

namespace Ere
variable {σ α : Type}

/-- Phase (0 before `^`, 1 between the anchors, 2 after `$`), bytes read, captures. -/
abbrev DLab := Nat × Nat × Caps

/-- Epsilons. -/
def drE (e : EpsType) (x y : DLab) : Prop :=
  y.2 = (x.2.1, x.2.2 ++ walkEvents x.2.1 [e]) ∧
    match e with
    | .startAnchor => x.1 = 0 ∧ y.1 = 1
    | .endAnchor => x.1 = 1 ∧ y.1 = 2
    | _ => x.1 = y.1

/-- Characters: outside of the anchors nothing is counted yet. -/
def drC : Lab Atom → DLab → DLab → Prop
  | .eps e, x, y => drE e x y
  | .sym a, x, y => x.1 = y.1 ∧ (x.1 = 1 → ∃ w, a.HasWidth w ∧ y.2 = (x.2.1 + w, x.2.2)) ∧ (x.1 ≠ 1 → x = y)

/-- Characters are only read between the anchors. -/
def drS : Lab Atom → DLab → DLab → Prop
  | .eps e, x, y => drE e x y
  | .sym a, x, y => x.1 = 1 ∧ y.1 = 1 ∧ ∃ w, a.HasWidth w ∧ y.2 = (x.2.1 + w, x.2.2)

/-- Bytes. -/
def drB : Lab U8Atom → DLab → DLab → Prop
  | .eps e, x, y => drE e x y
  | .sym _, x, y => x.1 = 1 ∧ y.1 = 1 ∧ y.2 = (x.2.1 + 1, x.2.2)

theorem drE_none (x : DLab) : drE .none x x := by simp [drE, walkEvents]

theorem drE_none_eq {x y : DLab} (h : drE .none x y) : x = y := by
  obtain ⟨p, o, c⟩ := x
  obtain ⟨p', o', c'⟩ := y
  simp [drE, walkEvents] at h
  simp [h]

theorem drE_inj {e : EpsType} {x x' y : DLab} (h : drE e x y) (h' : drE e x' y) : x = x' := by
  obtain ⟨p, o, c⟩ := x
  obtain ⟨p', o', c'⟩ := x'
  obtain ⟨q, r, d⟩ := y
  obtain ⟨h1, h2⟩ := h
  obtain ⟨h3, h4⟩ := h'
  simp only [Prod.mk.injEq] at h1 h3
  obtain ⟨rfl, rfl⟩ := h1
  obtain ⟨rfl, h5⟩ := h3
  have := List.append_cancel_right h5
  subst this
  have : p = p' := by cases e <;> simp only at h2 h4 <;> omega
  rw [this]

theorem Atom.HasWidth.uniq {a b : Atom} {w v : Nat} (h : ∀ c, a.check c = b.check c) (h1 : a.HasWidth w)
    (h2 : b.HasWidth v) : w = v := by
  obtain ⟨⟨c, hc⟩, h1⟩ := h1
  rw [← h1 c hc, ← h2.2 c ((h c).symm.trans hc)]

theorem drS_rule : LabRule Char drS where
  none := drE_none_eq
  inj := by
    intro l l' x x' y hs h h'
    cases l with
    | sym a =>
      cases l' with
      | sym b =>
        obtain ⟨h1, h2, w, h3, h4⟩ := h
        obtain ⟨k1, k2, v, k3, k4⟩ := h'
        have hwv := Atom.HasWidth.uniq (fun c => hs c) h3 k3
        subst hwv
        obtain ⟨p, o, c⟩ := x
        obtain ⟨p', o', c'⟩ := x'
        obtain ⟨q, r, d⟩ := y
        simp only [Prod.mk.injEq] at h1 h4 k1 k4 ⊢
        refine ⟨by omega, by omega, h4.2.symm.trans k4.2⟩
      | eps e => simp [LabSame] at hs
    | eps e =>
      cases l' with
      | sym b => simp [LabSame] at hs
      | eps e' =>
        simp only [LabSame] at hs
        subst hs
        exact drE_inj h h'

theorem drB_rule : LabRule UInt8 drB where
  none := drE_none_eq
  inj := by
    intro l l' x x' y hs h h'
    cases l with
    | sym a =>
      cases l' with
      | sym b =>
        obtain ⟨h1, h2, h4⟩ := h
        obtain ⟨k1, k2, k4⟩ := h'
        obtain ⟨p, o, c⟩ := x
        obtain ⟨p', o', c'⟩ := x'
        obtain ⟨q, r, d⟩ := y
        simp only [Prod.mk.injEq] at h1 h4 k1 k4 ⊢
        refine ⟨by omega, by omega, h4.2.symm.trans k4.2⟩
      | eps e => simp [LabSame] at hs
    | eps e =>
      cases l' with
      | sym b => simp [LabSame] at hs
      | eps e' =>
        simp only [LabSame] at hs
        subst hs
        exact drE_inj h h'

/-! ### Building -/

theorem labG_one {Λ : Type} {C : Lab σ → Λ → Λ → Prop} (a : Λ) : LabG C (nfaEmpty : NFA σ) a a :=
  labG_const fun _ _ _ he => absurd (hasEdge_single.mp he).2 has_new

theorem labG_two {Λ : Type} {C : Lab σ → Λ → Λ → Prop} {s : State σ} {a b : Λ}
    (h : ∀ l q, s.Has l q → q = 1 ∧ C l a b) : LabG C [s, State.new] a b := by
  refine ⟨fun i => if i = 0 then a else b, rfl, rfl, ?_⟩
  intro p l q he
  rw [hasEdge_cons] at he
  rcases he with ⟨rfl, he⟩ | ⟨_, _, he⟩
  · obtain ⟨rfl, h2⟩ := h _ _ he
    exact h2
  · exact absurd (hasEdge_single.mp he).2 has_new

theorem labG_symbol {a : Atom} {w o : Nat} {c : Caps} (h : a.HasWidth w) :
    LabG drC (nfaSymbol a) (1, o, c) (1, o + w, c) := by
  refine labG_two fun l q hs => ?_
  cases l with
  | eps e => simp [State.Has] at hs
  | sym b =>
    simp only [State.Has, List.mem_singleton, Trans.mk.injEq] at hs
    obtain ⟨rfl, rfl⟩ := hs
    exact ⟨rfl, rfl, fun _ => ⟨w, h, rfl⟩, fun h => absurd rfl h⟩

theorem labG_start (o : Nat) (c : Caps) : LabG drC nfaStart (0, o, c) (1, o, c) := by
  refine labG_two fun l q hs => ?_
  cases l with
  | sym b => simp [State.Has] at hs
  | eps e =>
    simp only [State.Has, List.mem_singleton, Eps.mk.injEq] at hs
    obtain ⟨rfl, rfl⟩ := hs
    exact ⟨rfl, by simp [drC, drE, walkEvents]⟩

theorem labG_end (o : Nat) (c : Caps) : LabG drC nfaEnd (1, o, c) (2, o, c) := by
  refine labG_two fun l q hs => ?_
  cases l with
  | sym b => simp [State.Has] at hs
  | eps e =>
    simp only [State.Has, List.mem_singleton, Eps.mk.injEq] at hs
    obtain ⟨rfl, rfl⟩ := hs
    exact ⟨rfl, by simp [drC, drE, walkEvents]⟩

theorem gchain_append {Λ : Type} {C : Lab σ → Λ → Λ → Prop} {ms ns : List (NFA σ)} {a b c : Λ} (h1 : GChain C ms a b)
    (h2 : GChain C ns b c) : GChain C (ms ++ ns) a c := by
  induction h1 with
  | nil => exact h2
  | cons g l _ ih => exact .cons g l (ih h2)

/-- `n` copies. -/
theorem gchain_times {N : NFA Atom} {w : Nat} {P : Prop} (hg : Good N)
    (h : ∀ o c, ∃ c', (P → c' = c) ∧ LabG drC N (1, o, c) (1, o + w, c')) :
    ∀ n o c, ∃ c', (P → c' = c) ∧ GChain drC (List.replicate n N) (1, o, c) (1, o + n * w, c') := by
  intro n
  induction n with
  | zero => exact fun o c => ⟨c, fun _ => rfl, by simpa using .nil⟩
  | succ n ih =>
    intro o c
    obtain ⟨c1, p1, h1⟩ := h o c
    obtain ⟨c2, p2, h2⟩ := ih (o + w) c1
    refine ⟨c2, fun hp => (p2 hp).trans (p1 hp), ?_⟩
    rw [List.replicate_succ, Nat.succ_mul, show o + (n * w + w) = o + w + n * w by omega]
    exact .cons hg h1 h2

theorem applyQuantifier_times {t : Tree} {q : Quantifier} {n : Nat} (h1 : q.q.min = n) (h2 : q.q.max = some n) :
    t.applyQuantifier q = t.repeat' n := by
  obtain ⟨q, alt⟩ := q
  cases q with
  | star => simp [QType.max] at h2
  | plus => simp [QType.max] at h2
  | question => simp [QType.max, QType.min] at h1 h2; omega
  | multiple m => simp [QType.min] at h1; subst h1; rfl
  | range m k =>
    simp [QType.max, QType.min] at h1 h2
    subst h1 h2
    simp [Tree.applyQuantifier]

mutual
theorem WidthERE.lab : {e : ERE} → {w : Nat} → WidthERE e w → ∀ g o c, ∃ c', (e.groups = 0 → c' = c) ∧
    LabG drC (build (Tree.fromSubERE e g).1) (1, o, c) (1, o + w, c')
  | _, _, .one (b := b) h, g, o, c => by
    obtain ⟨c', h1, h2⟩ := h.lab g o c
    refine ⟨c', fun hg => h1 (by simpa [ERE.groups, groupsBranches] using hg), ?_⟩
    rw [Tree.fromSubERE, build]
    refine labG_union drE_none fun n hn => ?_
    simp only [Tree.fromBranches, buildList, List.mem_singleton] at hn
    subst hn
    exact ⟨build_good _, h2⟩
  | _, _, .alt hg h, g, o, c => by
    refine ⟨c, fun _ => rfl, ?_⟩
    rw [Tree.fromSubERE, build]
    exact labG_union drE_none (h.lab hg g o c)
theorem WidthBranches.lab : {bs : List EREBranch} → {w : Nat} → WidthBranches bs w → groupsBranches bs = 0 → ∀ g o c,
    ∀ n ∈ buildList (Tree.fromBranches bs g).1, Good n ∧ LabG drC n (1, o, c) (1, o + w, c)
  | _, _, .nil, _, g, o, c => by simp [Tree.fromBranches, buildList]
  | _, _, .cons h hs, hg, g, o, c => by
    simp only [groupsBranches, Nat.add_eq_zero_iff] at hg
    intro n hn
    simp only [Tree.fromBranches, buildList, List.mem_cons] at hn
    rcases hn with rfl | hn
    · obtain ⟨c', h1, h2⟩ := h.lab g o c
      rw [h1 hg.1] at h2
      exact ⟨build_good _, h2⟩
    · exact hs.lab hg.2 _ o c n hn
theorem WidthBranch.lab : {b : EREBranch} → {w : Nat} → WidthBranch b w → ∀ g o c, ∃ c', (b.groups = 0 → c' = c) ∧
    LabG drC (build (Tree.fromBranch b g).1) (1, o, c) (1, o + w, c')
  | .mk ps, w, h, g, o, c => by
    obtain ⟨c', h1, h2⟩ := h.chain g o c
    refine ⟨c', fun hg => h1 (by simpa [EREBranch.groups] using hg), ?_⟩
    rw [Tree.fromBranch, build]
    exact labG_concat drE_none h2
theorem WidthBranch.chain : {ps : List EREPart} → {w : Nat} → WidthBranch (.mk ps) w → ∀ g o c,
    ∃ c', (groupsParts ps = 0 → c' = c) ∧ GChain drC (buildList (Tree.fromParts ps g).1) (1, o, c) (1, o + w, c')
  | _, _, .nil, g, o, c => ⟨c, fun _ => rfl, by simpa [Tree.fromParts, buildList] using .nil⟩
  | _, _, .cons (w := w) (v := v) h hs, g, o, c => by
    obtain ⟨c1, p1, h1⟩ := h.lab g o c
    obtain ⟨c2, p2, h2⟩ := hs.chain (Tree.fromPart _ g).2 (o + w) c1
    refine ⟨c2, fun hg => ?_, ?_⟩
    · simp only [groupsParts, Nat.add_eq_zero_iff] at hg
      exact (p2 hg.2).trans (p1 hg.1)
    · simp only [Tree.fromParts, buildList]
      rw [← Nat.add_assoc]
      exact .cons (build_good _) h1 h2
theorem WidthPart.lab : {p : EREPart} → {w : Nat} → WidthPart p w → ∀ g o c, ∃ c', (p.groups = 0 → c' = c) ∧
    LabG drC (build (Tree.fromPart p g).1) (1, o, c) (1, o + w, c')
  | _, _, .single h, g, o, c => h.lab g o c
  | _, _, .times (e := e) (n := n) hn hx h, g, o, c => by
    rw [Tree.fromPart]
    simp only
    rw [applyQuantifier_times hn hx]
    match n with
    | 0 =>
      rw [Nat.zero_mul, Nat.add_zero, Tree.repeat', build]
      exact ⟨c, fun _ => rfl, labG_one _⟩
    | n + 1 =>
      obtain ⟨c', h1, h2⟩ := gchain_times (P := e.groups = 0) (build_good _) (fun o c => h.lab g o c) (n + 1) o c
      refine ⟨c', h1, ?_⟩
      rw [Tree.repeat', build]
      exact labG_concat drE_none h2
theorem WidthExpr.lab : {e : EREExpr} → {w : Nat} → WidthExpr e w → ∀ g o c, ∃ c', (e.groups = 0 → c' = c) ∧
    LabG drC (build (Tree.fromExpr e g).1) (1, o, c) (1, o + w, c')
  | _, _, .atom h, g, o, c => ⟨c, fun _ => rfl, labG_symbol h⟩
  | _, _, .sub (w := w) h, g, o, c => by
    obtain ⟨c1, _, h1⟩ := h.lab (g + 1) o (c ++ [.opened g o])
    refine ⟨c1 ++ [.closed g (o + w)], fun hg => by simp [EREExpr.groups] at hg, ?_⟩
    rw [Tree.fromExpr, build]
    exact labG_capture (build_good _) h1 _ (by simp [drC, drE, walkEvents]) (by simp [drC, drE, walkEvents])
end

theorem buildList_append (l m : List Tree) : buildList (l ++ m) = buildList l ++ buildList m := by
  induction l with
  | nil => rfl
  | cons t l ih => simp only [List.cons_append, buildList, ih]

theorem fromParts_append (l m : List EREPart) (g : Nat) : (Tree.fromParts (l ++ m) g).1 =
    (Tree.fromParts l g).1 ++ (Tree.fromParts m (Tree.fromParts l g).2).1 := by
  induction l generalizing g with
  | nil => rfl
  | cons p l ih => simp only [List.cons_append, Tree.fromParts, ih]

theorem EREBranch.Anchored.lab {b : EREBranch} {w : Nat} (h : b.Anchored w) (g o : Nat) (c : Caps) :
    ∃ c', (b.groups = 0 → c' = c) ∧ LabG drC (build (Tree.fromBranch b g).1) (0, o, c) (2, o + w, c') := by
  obtain ⟨ps, rfl, h⟩ := h
  obtain ⟨c', h1, h2⟩ := h.chain g o c
  refine ⟨c', fun hg => h1 ?_, ?_⟩
  · rw [EREBranch.groups, List.cons_append, groupsParts] at hg
    have key : ∀ l : List EREPart, groupsParts (l ++ [.end_]) = groupsParts l := by
      intro l
      induction l with
      | nil => rfl
      | cons p l ih => simp only [List.cons_append, groupsParts, ih]
    rw [key] at hg
    omega
  · rw [Tree.fromBranch, build]
    refine labG_concat drE_none ?_
    rw [List.cons_append]
    simp only [Tree.fromParts, Tree.fromPart, buildList, build]
    rw [fromParts_append, buildList_append]
    refine .cons (build_good .start) (labG_start o c) (gchain_append h2 ?_)
    simp only [Tree.fromParts, Tree.fromPart, buildList, build]
    exact .cons (build_good .end_) (labG_end _ _) .nil

theorem ERE.Anchored.lab {e : ERE} {w : Nat} (h : e.Anchored w) :
    ∃ o c, LabG drC (build (Tree.fromERE e).1) (0, 0, []) (2, o, c) := by
  obtain ⟨bs, rfl, hne, hall, hg⟩ := h
  have key : ∃ c', LabG drC (build (Tree.fromSubERE (.mk bs) 1).1) (0, 0, [.opened 0 0]) (2, w, c') := by
    rw [Tree.fromSubERE, build]
    rcases hg with hg | hg
    · obtain ⟨b, rfl⟩ := List.length_eq_one_iff.mp hg
      obtain ⟨c', _, h2⟩ := (hall b (by simp)).lab 1 0 [.opened 0 0]
      rw [Nat.zero_add] at h2
      refine ⟨c', labG_union drE_none fun n hn => ?_⟩
      simp only [Tree.fromBranches, buildList, List.mem_singleton] at hn
      subst hn
      exact ⟨build_good _, h2⟩
    · refine ⟨[.opened 0 0], labG_union drE_none ?_⟩
      have : ∀ (bs : List EREBranch) (g : Nat), (∀ b ∈ bs, b.Anchored w) → groupsBranches bs = 0 →
          ∀ n ∈ buildList (Tree.fromBranches bs g).1, Good n ∧ LabG drC n (0, 0, [.opened 0 0]) (2, w, [.opened 0 0]) := by
        intro bs
        induction bs with
        | nil => intro g _ _ n hn; simp [Tree.fromBranches, buildList] at hn
        | cons b bs ih =>
          intro g hall hg n hn
          simp only [groupsBranches, Nat.add_eq_zero_iff] at hg
          simp only [Tree.fromBranches, buildList, List.mem_cons] at hn
          rcases hn with rfl | hn
          · obtain ⟨c', h1, h2⟩ := (hall b (by simp)).lab g 0 [.opened 0 0]
            rw [h1 hg.1, Nat.zero_add] at h2
            exact ⟨build_good _, h2⟩
          · exact ih _ (fun b hb => hall b (by simp [hb])) hg.2 n hn
      exact this bs 1 hall hg
  obtain ⟨c', h⟩ := key
  refine ⟨w, c' ++ [.closed 0 w], ?_⟩
  rw [Tree.fromERE, build]
  exact labG_capture (build_good _) h _ (by simp [drC, drE, walkEvents]) (by simp [drC, drE, walkEvents])

/-! ### The loops -/

/-- After `clearZeroSymbol` characters are only read between the anchors. -/
theorem labS_clear {L : NFA Atom} (hwf : L.WF) (hne : L ≠ []) {o o' : Nat} {c c' : Caps}
    (h : LabG drC L (0, o, c) (2, o', c')) : LabG drS L.clearZeroSymbol (0, o, c) (2, o', c') := by
  have hpos : 0 < L.length := List.length_pos_iff.mpr hne
  obtain ⟨A, h0, hl, hA⟩ := h
  have hE : ∀ p l q, L.HasEdge p l q → drC l (A p) (A q) := by
    intro p l q he; have := hA p l q he; rwa [Nat.zero_add] at this
  refine ⟨A, h0, by rw [NFA.clearZeroSymbol, filterEdges_length]; exact hl, ?_⟩
  intro p l q he
  rw [Nat.zero_add]
  obtain ⟨h1, h2⟩ := hasEdge_filterEdges.mp he
  have hc := hE _ _ _ h1
  cases l with
  | eps e => exact hc
  | sym a =>
    have hp := hasEdge_lt h1
    have hlen : (L.nodesAfterEnd).length = L.length ∧ (L.nodesBeforeStart).length = L.length := by
      unfold NFA.nodesAfterEnd NFA.nodesBeforeStart
      rw [List.length_map, List.length_map]
      exact ⟨(reachFrom_spec hwf hpos).1, (reachTo_spec (by omega)).1⟩
    simp only [keeps] at h2
    rw [flag_zipWith_or (by omega) (by omega)] at h2
    simp only [Bool.not_eq_true', Bool.or_eq_false_iff] at h2
    have hph : (A p).1 = 1 := by
      rcases Nat.lt_trichotomy (A p).1 1 with h | h | h
      · exfalso
        have h3 : (A p).1 = 0 := by omega
        have h4 := reachTo_spec (N := L) (ke := (· != .startAnchor)) (kt := true) (s := L.length - 1) (by omega)
        have h5 := h2.2
        unfold NFA.nodesBeforeStart at h5
        rw [flag_map_not (by simpa [h4.1] using hp)] at h5
        simp only [Bool.not_eq_false'] at h5
        rw [h4.2] at h5
        have : ∀ r, L.Path (· != .startAnchor) true p r → (A r).1 = 0 := by
          intro r hr
          induction hr with
          | refl => exact h3
          | tail _ he ih =>
            obtain ⟨l, h5, h6⟩ := he
            have h7 := hE _ _ _ h6
            cases l with
            | sym b => rw [← h7.1]; exact ih
            | eps e =>
              have h8 := h7.2
              cases e <;> simp only [Sel] at h5 h8 <;> first | omega | simp at h5
        have := this _ h5
        rw [hl] at this
        simp at this
      · exact h
      · exfalso
        have h4 := reachFrom_spec (N := L) hwf (ke := (· != .endAnchor)) (kt := true) (s := 0) hpos
        have h5 := h2.1
        unfold NFA.nodesAfterEnd at h5
        rw [flag_map_not (by simpa [h4.1] using hp)] at h5
        simp only [Bool.not_eq_false'] at h5
        rw [h4.2] at h5
        have : ∀ r, L.Path (· != .endAnchor) true 0 r → (A r).1 ≤ 1 := by
          intro r hr
          induction hr with
          | refl => rw [h0]; simp
          | tail _ he ih =>
            obtain ⟨l, h5, h6⟩ := he
            have h7 := hE _ _ _ h6
            cases l with
            | sym b => rw [← h7.1]; exact ih
            | eps e =>
              have h8 := h7.2
              cases e <;> simp only [Sel] at h5 h8 <;> first | omega | simp at h5
        have := this _ h5
        omega
    exact ⟨hph, by rw [← hc.1]; exact hph, hc.2.1 hph⟩

theorem labS_char {e : ERE} {w : Nat} (he : e.Anchored w) {N : NFA Atom} (h1 : workingNew (Tree.fromERE e).1 = .ok N)
    (hN : N ≠ []) : ∃ o c, LabG drS N (0, 0, []) (2, o, c) := by
  have hb := build_shape _ (starOk_fromERE e)
  have hc1 : Shape (build (Tree.fromERE e).1).cleanStartAnchors := filterEdges_shape hb
  have hc : Shape (build (Tree.fromERE e).1).cleanStartAnchors.cleanEndAnchors := filterEdges_shape hc1
  have hl := withLoops_shape hc anyAtom true true
  obtain ⟨o, c, hbase⟩ := he.lab
  have h0 : LabG drC (build (Tree.fromERE e).1).cleanStartAnchors.cleanEndAnchors (0, 0, []) (2, o, c) :=
    labG_filter (labG_filter hbase _ _) _ _
  have hL := labG_withLoops drE_none hc.good h0 anyAtom (by simp [drC]) (by simp [drC])
  have hS := labS_clear hl.good.wf hl.good.ne hL
  rw [workingNew, newLoopOpt] at h1
  exact ⟨o, c, (labG_stable (α := Char) drS_rule _ _).finish hl hS h1 hN⟩

/-! ### Bytes -/

theorem seq_width (U : Utf8Seqs) {a : Atom} {w : Nat} (ha : a.HasWidth w) {s : List U8Atom}
    (hs : s ∈ atomSeqs U.seqs a) : s.length = w := by
  have hm := matchesSeq_low (atomSeqs_nonempty U a s hs)
  obtain ⟨c, hc, h⟩ := (atomSeqs_exact U a _).mp ⟨s, hs, hm⟩
  have := congrArg List.length h
  rw [List.length_map, enc_length, ha.2 c hc] at this
  exact this

open Classical in
/-- How many bytes the characters of an atom take. -/
noncomputable def Atom.width (a : Atom) : Nat := if h : ∃ w, a.HasWidth w then h.choose else 0

theorem Atom.HasWidth.width {a : Atom} {w : Nat} (h : a.HasWidth w) : a.width = w := by
  have hx : ∃ w, a.HasWidth w := ⟨w, h⟩
  rw [Atom.width, dif_pos hx]
  exact Atom.HasWidth.uniq (fun _ => rfl) hx.choose_spec h

theorem drB_byte (U : Utf8Seqs) {e : ERE} {w : Nat} (he : e.Anchored w) {N : NFA Atom} {M : NFA U8Atom}
    (h1 : workingNew (Tree.fromERE e).1 = .ok N) (hN : Ready N) (h2 : u8New U.seqs N = .ok M) (hM : M ≠ []) :
    ∃ o c, LabG drB M (0, 0, []) (2, o, c) := by
  obtain ⟨o, c, hNs⟩ := labS_char he h1 hN.ne
  obtain ⟨B, ms, ss, I, h3, h4⟩ := u8Build_spec U hN.ne
  rw [u8New, u8NewLoopOpt, h3] at h2
  have h5 : B.finish = .ok M := h2
  refine ⟨o, c, (labG_stable (α := UInt8) drB_rule _ _).finish
    (u8Build_shape hN.wf hN.ne hN.rank hN.mix hN.sink h4) (labG_filter ?_ _ _) h5 hM⟩
  refine labG_u8Build' U (fun y s u => (y.1, y.2.1 - s.width + u.length, y.2.2)) hN.wf hN.ne h4 hNs (fun _ _ _ h => h)
    (drE_none _) ?_ ?_ ?_ ?_
  · rintro s ⟨p, i, d⟩ ⟨p', i', d'⟩ u ⟨k1, k2, v, k3, k4⟩ h
    have hl := seq_width U k3 h
    simp only [Prod.mk.injEq, List.length_cons, List.length_nil] at k1 k2 k4 hl
    refine ⟨k1, k2, ?_⟩
    simp only [Prod.mk.injEq]
    exact ⟨by omega, k4.2⟩
  · rintro s ⟨p, i, d⟩ ⟨p', i', d'⟩ u z ⟨k1, k2, v, k3, k4⟩ h _
    have hl := seq_width U k3 h
    simp only [Prod.mk.injEq, List.length_cons] at k1 k2 k4 hl
    refine ⟨k1, k2, ?_⟩
    simp only [Prod.mk.injEq, List.length_cons, List.length_nil, k3.width]
    exact ⟨by omega, k4.2⟩
  · rintro s ⟨p, i, d⟩ ⟨p', i', d'⟩ u v z ⟨k1, k2, w', k3, k4⟩ h hz
    simp only [Prod.mk.injEq] at k1 k2 k4
    refine ⟨k2, k2, ?_⟩
    simp only [Prod.mk.injEq, List.length_append, List.length_cons, List.length_nil, k3.width]
    exact ⟨by omega, trivial⟩
  · rintro s ⟨p, i, d⟩ ⟨p', i', d'⟩ u v ⟨k1, k2, w', k3, k4⟩ h
    have hl := seq_width U k3 h
    simp only [Prod.mk.injEq, List.length_append, List.length_cons, List.length_nil] at k1 k2 k4 hl
    refine ⟨k2, k2, ?_⟩
    simp only [Prod.mk.injEq, k3.width]
    exact ⟨by omega, trivial⟩

/-! ### No conflict and no cycle -/

theorem drift_label {M : NFA U8Atom} {A : Nat → DLab} (h0 : A 0 = (0, 0, [])) (hA : GOkL drB A 0 M) {q o c}
    (h : M.Drift q o c) : (A q).2 = (o, c) := by
  have key : ∀ x : Nat × Nat × Caps, Relation.ReflTransGen (DStep M) (0, 0, []) x → (A x.1).2 = x.2 := by
    intro x hx
    induction hx with
    | refl => rw [h0]
    | tail _ hs ih =>
      cases hs with
      | sym he =>
        have := hA _ _ _ he
        rw [Nat.zero_add] at this
        simp only at ih ⊢
        rw [this.2.2, ih]
      | eps he =>
        have := hA _ _ _ he
        rw [Nat.zero_add] at this
        simp only at ih ⊢
        rw [this.1, ih]
  exact key _ h

/-- What grows along edges. -/
def DLab.size (x : DLab) : Nat := x.1 + x.2.1 + x.2.2.length

theorem drB_size {l : Lab U8Atom} {x y : DLab} (h : drB l x y) :
    DLab.size x < DLab.size y ∨ (DLab.size x = DLab.size y ∧ l = .eps .none) := by
  obtain ⟨p, o, c⟩ := x
  obtain ⟨p', o', c'⟩ := y
  unfold DLab.size
  cases l with
  | sym a =>
    obtain ⟨h1, h2, h3⟩ := h
    simp only [Prod.mk.injEq] at h1 h2 h3 ⊢
    obtain ⟨rfl, rfl⟩ := h3
    left; omega
  | eps e =>
    obtain ⟨h1, h2⟩ := h
    simp only [Prod.mk.injEq] at h1 ⊢
    obtain ⟨rfl, rfl⟩ := h1
    cases e <;> simp [walkEvents] at h2 ⊢ <;> omega

theorem drB_acyclic {M : NFA U8Atom} (hM : M.Ranked) {A : Nat → DLab} (hA : GOkL drB A 0 M) :
    ¬ ∃ q, Relation.TransGen M.Edge q q := by
  obtain ⟨r, hr⟩ := hM
  have key : ∀ a b, Relation.TransGen M.Edge a b →
      DLab.size (A a) < DLab.size (A b) ∨ (DLab.size (A a) = DLab.size (A b) ∧ r a < r b) := by
    have one : ∀ a b, M.Edge a b → DLab.size (A a) < DLab.size (A b) ∨ (DLab.size (A a) = DLab.size (A b) ∧ r a < r b) := by
      intro a b h
      obtain ⟨l, hl⟩ := edge_iff.1 h
      have := hA _ _ _ hl
      rw [Nat.zero_add] at this
      rcases drB_size this with h1 | ⟨h1, rfl⟩
      · exact .inl h1
      · exact .inr ⟨h1, hr _ _ hl⟩
    intro a b h
    induction h with
    | single h => exact one _ _ h
    | tail _ h ih =>
      rcases ih with h1 | h1 <;> rcases one _ _ h with h2 | h2 <;> omega
  rintro ⟨q, hq⟩
  rcases key _ _ hq with h | h <;> omega

/-- Fixed offsets are found. -/
theorem fixed_made (U : Utf8Seqs) {e : ERE} {w : Nat} (he : e.Anchored w) {N : NFA Atom} {M : NFA U8Atom}
    (h1 : workingNew (Tree.fromERE e).1 = .ok N) (h2 : u8New U.seqs N = .ok M) (hne : M ≠ []) :
    ∃ offs, M.fixedOffsets = .ok (some offs) := by
  obtain ⟨hN, hM, _, _⟩ := pipeline_ne U e h1 h2 hne
  obtain ⟨o, c, A, h0, hl, hA⟩ := drB_byte U he h1 hN h2 hne
  obtain ⟨r, k1, k2, _⟩ := fixedOffsets_spec hM
  cases r with
  | some offs => exact ⟨offs, k1⟩
  | none =>
    exfalso
    rcases k2.1 rfl with h | ⟨o1, c1, o2, c2, d1, d2, hc⟩
    · exact drB_acyclic hM.rank hA h
    · have e1 := drift_label h0 hA d1
      have e2 := drift_label h0 hA d2
      rw [e1] at e2
      simp only [Prod.mk.injEq] at e2
      exact hc (by rw [e2.2])

/-! ### There is a match -/

theorem times_found {e : EREExpr} {mid : List Char} (h : ∀ pre post, MatchesExpr e pre mid post) :
    ∀ n, ∃ m, byteLen m = n * byteLen mid ∧ ∀ pre post, MatchesTimes e n pre m post
  | 0 => ⟨[], by simp [byteLen], fun _ _ => .zero⟩
  | n + 1 => by
    obtain ⟨m, hl, hm⟩ := times_found h n
    exact ⟨mid ++ m, by rw [byteLen_append, hl, Nat.succ_mul, Nat.add_comm], fun _ _ => .succ (h _ _) (hm _ _)⟩

mutual
theorem WidthERE.found : {e : ERE} → {w : Nat} → WidthERE e w →
    ∃ mid, byteLen mid = w ∧ ∀ pre post, MatchesERE e pre mid post
  | _, _, .one h => by
    obtain ⟨mid, hl, h⟩ := h.found
    exact ⟨mid, hl, fun _ _ => .intro (by simp) (h _ _)⟩
  | _, _, .alt _ (.cons h _) => by
    obtain ⟨mid, hl, h⟩ := h.found
    exact ⟨mid, hl, fun _ _ => .intro (by simp) (h _ _)⟩
theorem WidthBranch.found : {b : EREBranch} → {w : Nat} → WidthBranch b w →
    ∃ mid, byteLen mid = w ∧ ∀ pre post, MatchesBranch b pre mid post
  | _, _, .nil => ⟨[], rfl, fun _ _ => .nil⟩
  | _, _, .cons h hs => by
    obtain ⟨m1, l1, h1⟩ := h.found
    obtain ⟨m2, l2, h2⟩ := hs.found
    exact ⟨m1 ++ m2, by rw [byteLen_append, l1, l2], fun _ _ => .cons (h1 _ _) (h2 _ _)⟩
theorem WidthPart.found : {p : EREPart} → {w : Nat} → WidthPart p w →
    ∃ mid, byteLen mid = w ∧ ∀ pre post, MatchesPart p pre mid post
  | _, _, .single h => by
    obtain ⟨mid, hl, h⟩ := h.found
    exact ⟨mid, hl, fun _ _ => .single (h _ _)⟩
  | _, _, .times (n := n) hn hx h => by
    obtain ⟨mid, hl, h⟩ := h.found
    obtain ⟨m, hl', hm⟩ := times_found h n
    exact ⟨m, by rw [hl', hl], fun _ _ => .quantified (n := n) (by omega) (by rw [hx]; simp) (hm _ _)⟩
theorem WidthExpr.found : {e : EREExpr} → {w : Nat} → WidthExpr e w →
    ∃ mid, byteLen mid = w ∧ ∀ pre post, MatchesExpr e pre mid post
  | _, _, .atom ⟨⟨c, hc⟩, hw⟩ => ⟨[c], by simp [byteLen, hw c hc], fun _ _ => .atom hc⟩
  | _, _, .sub h => by
    obtain ⟨mid, hl, h⟩ := h.found
    exact ⟨mid, hl, fun _ _ => .sub (h _ _)⟩
end

theorem ERE.Anchored.found {e : ERE} {w : Nat} (h : e.Anchored w) : ∃ text, byteLen text = w ∧ MatchesERE e [] text [] := by
  obtain ⟨bs, rfl, hne, hall, _⟩ := h
  obtain ⟨b, bs, rfl⟩ := List.exists_cons_of_ne_nil hne
  obtain ⟨ps, rfl, hw⟩ := hall b (by simp)
  obtain ⟨mid, hl, hm⟩ := hw.found
  have hb : MatchesBranch (.mk (.start :: ps ++ [.end_])) [] mid [] := by
    rw [List.cons_append]
    exact .cons (m1 := []) .start (matchesParts_append.mpr ⟨mid, [], by simp, hm _ _, matchesParts_single.mpr .end_⟩)
  exact ⟨mid, hl, .intro List.mem_cons_self hb⟩

end Ere
