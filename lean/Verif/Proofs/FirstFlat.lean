import Verif.Proofs.FirstEps
import Verif.Proofs.FlatTop

/-! The flat lockstep engines report the preferred run if all ways from a state to the accept state cross
the same anchors. -/

namespace Ere
variable {σ α : Type}

/-- A path, with the epsilons on it. -/
inductive MPath (N : NFA σ) : Nat → List EpsType → Nat → Prop
  | refl {q} : MPath N q [] q
  | eps {q ls p e r} : MPath N q ls p → N.HasEdge p (.eps e) r → MPath N q (ls ++ [e]) r
  | sym {q ls p a r} : MPath N q ls p → N.HasEdge p (.sym a) r → MPath N q ls r

/-- All ways from a state to the accept state cross the same kinds of anchors. -/
def PathUni (N : NFA σ) : Prop := ∀ q ls ls', MPath N q ls (N.length - 1) → MPath N q ls' (N.length - 1) →
  (EpsType.startAnchor ∈ ls → EpsType.startAnchor ∈ ls') ∧ (EpsType.endAnchor ∈ ls → EpsType.endAnchor ∈ ls')

theorem MPath.append {N : NFA σ} {q ls p ls' r} (h : MPath N q ls p) (h' : MPath N p ls' r) : MPath N q (ls ++ ls') r := by
  induction h' with
  | refl => simpa using h
  | eps _ he ih => rw [← List.append_assoc]; exact .eps ih he
  | sym _ he ih => exact .sym ih he

theorem EWalk.mpath {N : NFA σ} {q ls p} (h : EWalk N q ls p) : MPath N q ls p := by
  induction h with
  | refl => exact .refl
  | tail _ he ih => exact .eps ih he

theorem compileFlat_at {N : NFA σ} {F : Flat σ} (h : compileFlat N = .ok F) {q : Nat} (hq : q < N.length)
    (hex : N.excludedFlat q = false) : ∃ R, N.epsProps q = .ok R ∧ F.at q = R.filter N.keepsThread := by
  unfold compileFlat at h
  split at h
  · simp at h
  split at h
  · simp at h
  rename_i ts hts
  injection h with h
  subst h
  have hrow : ∀ x ∈ List.range N.length, ∃ y, N.flatRow x = .ok y := by
    intro x hx
    cases hr : N.flatRow x with
    | ok y => exact ⟨y, rfl⟩
    | error er =>
      exfalso
      obtain ⟨a, b, hab⟩ := List.append_of_mem hx
      rw [hab, List.mapM_append, List.mapM_cons, hr] at hts
      cases h1 : List.mapM N.flatRow a <;> rw [h1] at hts <;> simp [Bind.bind, Except.bind] at hts
  obtain ⟨ys, h1, _, h3⟩ := mapM_ok hrow
  obtain rfl : ys = ts := ok_unique h1 hts
  obtain ⟨y, h4, h5⟩ := h3 q q (by simp [hq])
  unfold NFA.flatRow at h5
  rw [hex] at h5
  simp only [Bool.false_eq_true, if_false] at h5
  cases hp : N.epsProps q with
  | error er => rw [hp] at h5; simp at h5
  | ok R =>
    rw [hp] at h5
    simp only [Except.ok.injEq] at h5
    exact ⟨R, rfl, by unfold Flat.at; rw [h4, ← h5]; rfl⟩

section
variable [Sym σ α]

/-- No accepting run goes on from here. -/
def Dead (N : NFA σ) (off : Nat) (rest : List α) (q : Nat) : Prop :=
  ∀ (caps : Caps) d', ReachE N.HasEdge (q, (⟨off, rest, caps⟩ : Cfg α)) (N.length - 1, d') → d'.rest ≠ []

/-- The result of going on from here. -/
def Hot (N : NFA σ) (k off : Nat) (rest : List α) (q : Nat) (caps : Caps) (y : Slots) : Prop :=
  N.Fst (slotEnd k) q (⟨off, rest, caps⟩ : Cfg α) (some y)

theorem Hot.not_dead {N : NFA σ} {k off rest q caps y} (h : Hot (α := α) N k off rest q caps y) : ¬ Dead N off rest q := by
  intro hd
  obtain ⟨d', h1, h2⟩ := NFA.Fst.reach h
  unfold slotEnd at h2
  have := hd caps d' h1
  rw [if_neg (by simpa using this)] at h2
  simp at h2

theorem dead_of_none {N : NFA σ} (hs : N.Sink) {k off q n} {rest : List α} {caps}
    (h : N.FstN (slotEnd k) q n (⟨off, rest, caps⟩ : Cfg α) none) : Dead N off rest q := by
  intro caps' d' hr hd
  obtain ⟨r', h1, h2⟩ := h.caps (d' := ⟨off, rest, caps'⟩) rfl rfl
  cases r' with
  | some y => simp at h2
  | none =>
    have := NFA.Fst.none_reach (K := slotEnd k) hs h1.first hr
    unfold slotEnd at this
    rw [if_pos (by simp [hd])] at this
    simp at this

/-- Runs do not look at the events. -/
theorem reach_caps {N : NFA σ} {q p} {d d' : Cfg α} (h : ReachE N.HasEdge (q, d) (p, d')) (c : Caps) :
    ∃ c', ReachE N.HasEdge (q, (⟨d.off, d.rest, c⟩ : Cfg α)) (p, ⟨d'.off, d'.rest, c'⟩) := by
  refine reachE_tail_induction (P := fun p d' => ∃ c', ReachE N.HasEdge (q, (⟨d.off, d.rest, c⟩ : Cfg α))
    (p, ⟨d'.off, d'.rest, c'⟩)) h ⟨c, reachE_refl⟩ ?_
  rintro p1 d1 l p2 d2 _ ⟨c1, ih⟩ he hl
  rcases labStep_caps l (d := d1) (d' := ⟨d1.off, d1.rest, c1⟩) rfl rfl with ⟨h1, _⟩ | ⟨e1, e2, ev, h1, h2, h3, h4, _⟩
  · rw [hl] at h1; simp at h1
  · rw [hl] at h1; injection h1 with h1; subst h1
    obtain ⟨o, r, c2⟩ := e2
    simp only at h3 h4
    refine ⟨c2, reachE_trans ih (reachE_step he ?_)⟩
    rw [h3, h4]; exact h2

theorem Dead.step {N : NFA σ} {off : Nat} {rest : List α} {q} (h : Dead N off rest q) {off' rest' q' caps caps'}
    (hr : ReachE N.HasEdge (q, (⟨off, rest, caps⟩ : Cfg α)) (q', ⟨off', rest', caps'⟩)) : Dead N off' rest' q' := by
  intro c d' hd
  obtain ⟨c', hc⟩ := reach_caps hd caps'
  exact h caps ⟨d'.off, d'.rest, c'⟩ (reachE_trans hr hc)

theorem dead_iff {N : NFA σ} {off : Nat} {rest : List α} {q} (h : ¬ Dead N off rest q) :
    ∃ caps d', ReachE N.HasEdge (q, (⟨off, rest, caps⟩ : Cfg α)) (N.length - 1, d') ∧ d'.rest = [] := by
  unfold Dead at h
  push Not at h
  obtain ⟨c, d', h1, h2⟩ := h
  exact ⟨c, d', h1, h2⟩

/-- Anchors crossed by a run. -/
theorem reach_mpath {N : NFA σ} {q p} {d d' : Cfg α} (h : ReachE N.HasEdge (q, d) (p, d')) :
    ∃ ls, MPath N q ls p ∧ (0 < d.off → EpsType.startAnchor ∉ ls) ∧ d.off ≤ d'.off := by
  refine reachE_tail_induction (P := fun p d' => ∃ ls, MPath N q ls p ∧ (0 < d.off → EpsType.startAnchor ∉ ls) ∧
    d.off ≤ d'.off) h ⟨[], .refl, by simp, Nat.le_refl _⟩ ?_
  rintro p1 d1 l p2 d2 _ ⟨ls, h1, h2, h3⟩ he hl
  cases l with
  | sym a =>
    obtain ⟨c, r, _, _, rfl⟩ := symStep_iff.mp (show symStep a d1 = some d2 from hl)
    exact ⟨ls, .sym h1 he, h2, by simp only; omega⟩
  | eps e =>
    have hst : epsStep e d1 = some d2 := hl
    have hoff : d2.off = d1.off ∧ (e = .startAnchor → d1.off = 0) := by
      cases e with
      | none => simp [epsStep] at hst; subst hst; simp
      | startAnchor => simp [epsStep] at hst; obtain ⟨h4, rfl⟩ := hst; simp [h4]
      | endAnchor => simp [epsStep] at hst; obtain ⟨_, rfl⟩ := hst; simp
      | startCapture k => simp [epsStep] at hst; subst hst; simp
      | endCapture k => simp [epsStep] at hst; subst hst; simp
    refine ⟨ls ++ [e], .eps h1 he, fun h0 hm => ?_, by omega⟩
    rcases List.mem_append.mp hm with hm | hm
    · exact h2 h0 hm
    · have := hoff.2 (List.mem_singleton.mp hm).symm
      omega

/-- Live threads of a state cross the same anchors. -/
theorem live_anchors {N : NFA σ} (hN : Ready N) (hu : PathUni N) {off : Nat} {rest : List α} {q} {t u : EpsProp} {ls ls'}
    (ht : EWalk N q ls t.state) (ht' : t = walkSummary t.state ls) (hkt : N.Rest t.state) (hat : AnchorOk off rest t)
    (hdt : ¬ Dead N off rest t.state)
    (hu1 : EWalk N q ls' u.state) (hu' : u = walkSummary u.state ls') (hku : N.Rest u.state) (hau : AnchorOk off rest u)
    (hdu : ¬ Dead N off rest u.state) : u.startOnly = t.startOnly ∧ u.endOnly = t.endOnly := by
  have hpos := List.length_pos_iff.mpr hN.ne
  -- how a live thread goes on
  have go : ∀ p, N.Rest p → ¬ Dead N off rest p → ∃ ls, MPath N p ls (N.length - 1) ∧ EpsType.startAnchor ∉ ls ∧
      (rest = [] → ls = []) := by
    intro p hp hd
    obtain ⟨caps, d', h1, h2⟩ := dead_iff hd
    rcases Relation.ReflTransGen.cases_head h1 with h3 | ⟨⟨p1, d1⟩, ⟨l, h3, h4⟩, h5⟩
    · have := congrArg Prod.fst h3
      simp only at this
      rw [← this]
      exact ⟨[], .refl, by simp, fun _ => rfl⟩
    · rcases hp with ⟨a, q', hp⟩ | hp
      · cases l with
        | eps e =>
          exfalso
          obtain ⟨s, g1, g2⟩ := hasEdge_iff.mp hp
          obtain ⟨s', g3, g4⟩ := hasEdge_iff.mp h3
          rw [g1] at g3; injection g3 with g3; subst g3
          have g2 : (⟨q', a⟩ : Trans σ) ∈ s.transitions := g2
          have g4 : (⟨p1, e⟩ : Eps) ∈ s.epsilons := g4
          rcases hN.mix s (List.mem_of_getElem? g1) with g5 | g5
          · rw [g5] at g2; simp at g2
          · rw [g5] at g4; simp at g4
        | sym b =>
          obtain ⟨c, r, h6, _, rfl⟩ := symStep_iff.mp (show symStep b _ = some d1 from h4)
          obtain ⟨ls, h7, h8, _⟩ := reach_mpath h5
          refine ⟨ls, ?_, h8 ?_, fun h => ?_⟩
          · have := (MPath.sym .refl h3).append h7
            simpa using this
          · have := Sym.len_pos (σ := σ) c
            simp only; omega
          · simp only at h6; rw [h] at h6; simp at h6
      · have : p = N.length - 1 := by omega
        subst this
        exact absurd h3 (hN.sink _ _)
  obtain ⟨lt, a1, a2, a3⟩ := go _ hkt hdt
  obtain ⟨lu, b1, b2, b3⟩ := go _ hku hdu
  have p1 := ht.mpath.append a1
  have p2 := hu1.mpath.append b1
  have e1 := hu _ _ _ p1 p2
  have e2 := hu _ _ _ p2 p1
  have st : t.startOnly = true ↔ EpsType.startAnchor ∈ ls := by
    rw [ht']; simp [walkSummary]
  have su : u.startOnly = true ↔ EpsType.startAnchor ∈ ls' := by
    rw [hu']; simp [walkSummary]
  have et : t.endOnly = true ↔ EpsType.endAnchor ∈ ls := by
    rw [ht']; simp [walkSummary]
  have eu : u.endOnly = true ↔ EpsType.endAnchor ∈ ls' := by
    rw [hu']; simp [walkSummary]
  simp only [List.mem_append, a2, b2, or_false] at e1 e2
  constructor
  · rw [Bool.eq_iff_iff, st, su]
    exact ⟨e2.1, e1.1⟩
  · by_cases hr : rest = []
    · rw [a3 hr, b3 hr] at e1 e2
      simp only [List.not_mem_nil, or_false] at e1 e2
      rw [Bool.eq_iff_iff, et, eu]
      exact ⟨e2.2, e1.2⟩
    · have h1 : ¬ t.endOnly = true := fun h => hr (hat.2 h)
      have h2 : ¬ u.endOnly = true := fun h => hr (hau.2 h)
      simp only [Bool.not_eq_true] at h1 h2
      rw [h1, h2]

/-- First success in a list of updates. -/
theorem updates_first {N : NFA σ} (hN : Ready N) {F : Flat σ} (hc : compileFlat N = .ok F) (hF : FlatOk N F)
    (hu : PathUni N) {k q off total : Nat} {rest : List α} (hq : q < N.length) (hex : N.excludedFlat q = false)
    (hrest : off = total ↔ rest = []) {caps y} (hot : Hot N k off rest q caps y) :
    ∃ pre t post ls, F.updates (off == 0) (off == total) q = pre ++ t :: post ∧
      EWalk N q ls t.state ∧ t = walkSummary t.state ls ∧ N.Rest t.state ∧
      Hot N k off rest t.state (caps ++ walkEvents off ls) y ∧ ∀ u ∈ pre, Dead N off rest u.state := by
  obtain ⟨R, hR, hat⟩ := compileFlat_at hc hq hex
  unfold NFA.epsProps at hR
  obtain ⟨R', h1, _, h3⟩ := preorder_first (k := k) (q0 := q) (off := off) (rest := rest) (c := caps) hN.ne hN.mix hN.sink
    _ _ _ _ hR
  obtain ⟨n, hn⟩ := FstL.size hot
  have hL := h3 n (some y) ⟨by simp, by simp⟩ ⟨[], .refl, rfl, by simpa [walkEvents] using hn⟩ (by intro u hu; simp at hu)
  rw [List.nil_append] at h1
  rw [← h1] at hL
  obtain ⟨pre, t, post, hsplit, hk, ha, ⟨m, ls, g1, g2, g3⟩, hpre⟩ := hL
  have hdead : ∀ u ∈ pre.filter N.keepsThread, AnchorOk off rest u → Dead N off rest u.state := by
    intro u hu hau
    obtain ⟨hm, hku⟩ := List.mem_filter.mp hu
    obtain ⟨m, ls', _, _, h7⟩ := hpre u hm hau hku
    exact dead_of_none hN.sink h7
  have hhot : Hot N k off rest t.state (caps ++ walkEvents off ls) y := g3.first
  have hrow : F.at q = pre.filter N.keepsThread ++ t :: post.filter N.keepsThread := by
    rw [hat, hsplit, List.filter_append, List.filter_cons, if_pos hk]
  have hmem : ∀ u ∈ F.updates (off == 0) (off == total) q, AnchorOk off rest u ∧ u ∈ F.at q := by
    intro u hu
    obtain ⟨h1, h2, h3⟩ := mem_updates.mp hu
    exact ⟨⟨fun h => by simpa using h2 h, fun h => hrest.mp (by simpa using h3 h)⟩, h1⟩
  have hkey : ∀ u ∈ F.at q, AnchorOk off rest u → ¬ (u.startOnly = t.startOnly ∧ u.endOnly = t.endOnly) →
      Dead N off rest u.state := by
    intro u hu1 hau hne
    by_contra hd
    obtain ⟨h5, ls', h6, h7⟩ := (hF.mem _ hq hex u).mp hu1
    exact hne (live_anchors hN hu g1 g2 (keeps_rest.mp hk) ha hhot.not_dead h6 h7 (keeps_rest.mp h5) hau hd)
  -- the group of `t`
  have hcut : ∀ (P : EpsProp → Bool), P t = true → (∀ u, P u = true → u.startOnly = t.startOnly ∧ u.endOnly = t.endOnly) →
      ∀ (A B : List EpsProp), F.updates (off == 0) (off == total) q = A ++ (F.at q).filter P ++ B →
      (∀ u ∈ A, ¬ (u.startOnly = t.startOnly ∧ u.endOnly = t.endOnly)) →
      ∃ pre t' post ls, F.updates (off == 0) (off == total) q = pre ++ t' :: post ∧
      EWalk N q ls t'.state ∧ t' = walkSummary t'.state ls ∧ N.Rest t'.state ∧
      Hot N k off rest t'.state (caps ++ walkEvents off ls) y ∧ ∀ u ∈ pre, Dead N off rest u.state := by
    intro P hPt _ A B hU hA
    have hU' : F.updates (off == 0) (off == total) q = (A ++ (pre.filter N.keepsThread).filter P) ++ t ::
        ((post.filter N.keepsThread).filter P ++ B) := by
      rw [hU, hrow, List.filter_append, List.filter_cons, if_pos hPt]
      simp
    refine ⟨_, t, _, ls, hU', g1, g2, keeps_rest.mp hk, hhot, ?_⟩
    intro v hv
    have hv' := hmem v (by rw [hU']; exact List.mem_append_left _ hv)
    rcases List.mem_append.mp hv with hv | hv
    · exact hkey v hv'.2 hv'.1 (hA v hv)
    · exact hdead v (List.mem_filter.mp hv).1 hv'.1
  have hs : t.startOnly = true → (off == 0) = true := fun h => by simpa using ha.1 h
  have he : t.endOnly = true → (off == total) = true := fun h => by simpa using hrest.mpr (ha.2 h)
  cases hts : t.startOnly with
  | true =>
    have hs := hs hts
    cases hte : t.endOnly with
    | true =>
      have he := he hte
      refine hcut (fun t => t.startOnly && t.endOnly) (by simp [hts, hte]) (by intro u h; simpa [hts, hte] using h) [] _ (by
        unfold Flat.updates; rw [hs, he]; simp only [Bool.and_self, if_true, List.nil_append, List.append_assoc]; rfl) (by simp)
    | false =>
      refine hcut (fun t => t.startOnly && !t.endOnly) (by simp [hts, hte]) (by intro u h; simpa [hts, hte] using h) _ _ (by
        unfold Flat.updates; rw [hs]; simp only [if_true, List.append_assoc]; rfl) ?_
      intro u hu
      split at hu
      · have := (List.mem_filter.mp hu).2
        simp only [Bool.and_eq_true] at this
        rw [this.2, hte]; simp
      · simp at hu
  | false =>
    cases hte : t.endOnly with
    | true =>
      have he := he hte
      refine hcut (fun t => !t.startOnly && t.endOnly) (by simp [hts, hte]) (by intro u h; simpa [hts, hte] using h) _ _ (by
        unfold Flat.updates; rw [he]; simp only [Bool.and_true, if_true]; rfl) ?_
      intro u hu
      rcases List.mem_append.mp hu with hu | hu
      · split at hu
        · have := (List.mem_filter.mp hu).2
          simp only [Bool.and_eq_true] at this
          rw [this.1, hts]; simp
        · simp at hu
      · split at hu
        · have := (List.mem_filter.mp hu).2
          simp only [Bool.and_eq_true] at this
          rw [this.1, hts]; simp
        · simp at hu
    | false =>
      refine hcut (fun t => !t.startOnly && !t.endOnly) (by simp [hts, hte]) (by intro u h; simpa [hts, hte] using h) _ [] (by
        unfold Flat.updates; rw [List.append_nil]) ?_
      intro u hu
      rcases List.mem_append.mp hu with hu | hu
      · rcases List.mem_append.mp hu with hu | hu
        · split at hu
          · have := (List.mem_filter.mp hu).2
            simp only [Bool.and_eq_true] at this
            rw [this.1, hts]; simp
          · simp at hu
        · split at hu
          · have := (List.mem_filter.mp hu).2
            simp only [Bool.and_eq_true] at this
            rw [this.1, hts]; simp
          · simp at hu
      · split at hu
        · have := (List.mem_filter.mp hu).2
          simp only [Bool.and_eq_true] at this
          rw [this.2, hte]; simp
        · simp at hu

/-- The first live thread of a list leads to the preferred run. -/
def FirstT (N : NFA σ) (off : Nat) (rest : List α) (T : List Thread) (y : Slots) : Prop :=
  ∃ pre th post caps, T = pre ++ th :: post ∧ (∀ u ∈ pre, Dead N off rest u.state) ∧
    th.caps = slotsOf N.numCaptureGroups caps ∧ Hot N N.numCaptureGroups off rest th.state caps y

/-- After the epsilon phase. -/
def FirstR (N : NFA σ) (off : Nat) (rest : List α) (T : List Thread) (y : Slots) : Prop :=
  ∃ pre th post caps, T = pre ++ th :: post ∧ (∀ u ∈ pre, Dead N off rest u.state) ∧
    th.caps = slotsOf N.numCaptureGroups caps ∧ Hot N N.numCaptureGroups off rest th.state caps y ∧ N.Rest th.state

omit [Sym σ α] in
theorem pushThread_prefix {off : Nat} {ps : List (Thread × EpsProp)} {acc T : List Thread}
    (h : ps.foldlM (pushThread off) acc = .ok T) : ∃ E, T = acc ++ E := by
  induction ps generalizing acc with
  | nil => rw [List.foldlM_nil] at h; injection h with h; exact ⟨[], by simp [h]⟩
  | cons p ps ih =>
    rw [List.foldlM_cons] at h
    cases hp : pushThread off acc p with
    | error er => rw [hp] at h; simp [Bind.bind, Except.bind] at h
    | ok acc1 =>
      rw [hp] at h
      obtain ⟨E, hE⟩ := ih h
      unfold pushThread at hp
      split at hp
      · injection hp with hp; subst hp; exact ⟨E, hE⟩
      · split at hp
        · simp at hp
        · injection hp with hp; subst hp; exact ⟨_, by rw [hE, List.append_assoc]⟩

theorem epsExec_first {N : NFA σ} (hN : Ready N) {F : Flat σ} (hc : compileFlat N = .ok F) (hF : FlatOk N F)
    (hu : PathUni N) {text pre : List α} {off rest} {T T' : List Thread} (htx : text = pre ++ rest)
    (hoff : off = unitLen σ pre) (h : SeedThreads N text off rest T) {y} (hf : FirstT N off rest T y)
    (hT : F.epsExec off (unitLen σ text) T = .ok T') : FirstR N off rest T' y := by
  have htot : off + unitLen σ rest = unitLen σ text := by rw [htx, unitLen_append, hoff]
  have hrest : off = unitLen σ text ↔ rest = [] := by
    constructor
    · intro ho
      clear h hf hT htx
      cases rest with
      | nil => rfl
      | cons c cs =>
        have := Sym.len_pos (σ := σ) c
        rw [← ho] at htot
        simp only [unitLen, List.map_cons, List.sum_cons] at htot
        omega
    · rintro rfl; rw [← htot]; simp [unitLen]
  obtain ⟨tp, th, ts, caps, rfl, hd, hcap, hhot⟩ := hf
  obtain ⟨hlt, hex⟩ := seed_lt hN.wf hN.ne (h.sound th (by simp)).2
  obtain ⟨up, t, us, ls, hU, g1, g2, g3, g4, g5⟩ := updates_first hN hc hF hu hlt hex hrest hhot
  unfold Flat.epsExec at hT
  rw [List.flatMap_append, List.flatMap_cons, hU, List.map_append, List.map_cons] at hT
  have hsplit : tp.flatMap (fun th => (F.updates (off == 0) (off == unitLen σ text) th.state).map (fun u => (th, u))) ++
      (up.map (fun u => (th, u)) ++ (th, t) :: us.map (fun u => (th, u)) ++
      ts.flatMap (fun th => (F.updates (off == 0) (off == unitLen σ text) th.state).map (fun u => (th, u)))) =
      (tp.flatMap (fun th => (F.updates (off == 0) (off == unitLen σ text) th.state).map (fun u => (th, u))) ++
        up.map (fun u => (th, u))) ++ (th, t) :: (us.map (fun u => (th, u)) ++
      ts.flatMap (fun th => (F.updates (off == 0) (off == unitLen σ text) th.state).map (fun u => (th, u)))) := by simp
  rw [hsplit, List.foldlM_append] at hT
  have hdead : ∀ p ∈ tp.flatMap (fun th => (F.updates (off == 0) (off == unitLen σ text) th.state).map (fun u => (th, u))) ++
      up.map (fun u => (th, u)), Dead N off rest p.2.state := by
    intro p hp
    rcases List.mem_append.mp hp with hp | hp
    · obtain ⟨v, hv, hp⟩ := List.mem_flatMap.mp hp
      obtain ⟨u, hu, rfl⟩ := List.mem_map.mp hp
      obtain ⟨hlt', hex'⟩ := updates_sound hF hu
      obtain ⟨h2, h3, h4⟩ := mem_updates.mp hu
      obtain ⟨h5, ls', h6, h7⟩ := (hF.mem _ hlt' hex' u).mp h2
      have hg : ∀ e ∈ ls', epsGuard off (unitLen σ text) e = true := (guard_walk (p := u.state)).mpr (by rw [← h7]; exact ⟨h3, h4⟩)
      exact (hd v hv).step (walkRun h6 hg htot [])
    · obtain ⟨u, hu, rfl⟩ := List.mem_map.mp hp
      exact g5 u hu
  generalize tp.flatMap (fun th => (F.updates (off == 0) (off == unitLen σ text) th.state).map (fun u => (th, u))) ++
      up.map (fun u => (th, u)) = ps at hT hdead
  cases hA : ps.foldlM (pushThread off) [] with
  | error er => rw [hA] at hT; simp [Bind.bind, Except.bind] at hT
  | ok acc =>
    rw [hA] at hT
    have hacc : ∀ v ∈ acc, Dead N off rest v.state := by
      have : ∀ (ps : List (Thread × EpsProp)) (acc0 acc : List Thread), (∀ p ∈ ps, Dead N off rest p.2.state) →
          (∀ v ∈ acc0, Dead N off rest v.state) → ps.foldlM (pushThread off) acc0 = .ok acc →
          ∀ v ∈ acc, Dead N off rest v.state := by
        intro ps
        induction ps with
        | nil => intro acc0 acc _ h2 h3; rw [List.foldlM_nil] at h3; injection h3 with h3; subst h3; exact h2
        | cons p ps ih =>
          intro acc0 acc h1 h2 h3
          rw [List.foldlM_cons] at h3
          cases hp : pushThread off acc0 p with
          | error er => rw [hp] at h3; simp [Bind.bind, Except.bind] at h3
          | ok acc1 =>
            rw [hp] at h3
            refine ih acc1 acc (fun p hp => h1 p (by simp [hp])) ?_ h3
            unfold pushThread at hp
            split at hp
            · injection hp with hp; subst hp; exact h2
            · split at hp
              · simp at hp
              · injection hp with hp; subst hp
                intro v hv
                rcases List.mem_append.mp hv with hv | hv
                · exact h2 v hv
                · rw [List.mem_singleton.mp hv]; exact h1 p (by simp)
      exact this ps [] acc hdead (by simp) hA
    have hT : ((th, t) :: (us.map (fun u => (th, u)) ++ ts.flatMap (fun th =>
        (F.updates (off == 0) (off == unitLen σ text) th.state).map (fun u => (th, u))))).foldlM (pushThread off) acc = .ok T' := hT
    rw [List.foldlM_cons] at hT
    have hpush : pushThread off acc (th, t) = .ok (acc ++ [⟨t.state, slotsOf N.numCaptureGroups (caps ++ walkEvents off ls)⟩]) := by
      unfold pushThread
      rw [if_neg]
      · simp only
        rw [hcap]
        conv_lhs => rw [g2]
        rw [applyTags_walk caps (walk_tag_lt hN g1)]
        rfl
      · rw [List.any_eq_true]
        rintro ⟨v, hv, hs⟩
        have hs : v.state = t.state := by simpa using hs
        have := hacc v hv
        rw [hs] at this
        exact g4.not_dead this
    rw [hpush] at hT
    obtain ⟨E, hE⟩ := pushThread_prefix hT
    exact ⟨acc, ⟨t.state, slotsOf N.numCaptureGroups (caps ++ walkEvents off ls)⟩, E, caps ++ walkEvents off ls, by rw [hE]; simp, hacc, rfl, g4, g3⟩

/-- The first live symbol transition of a resting thread. -/
theorem hot_sym {N : NFA σ} (hN : Ready N) {k off : Nat} {c : α} {cs} {q0 caps y} (hhot : Hot N k off (c :: cs) q0 caps y)
    (hrest : N.Rest q0) : ∃ s p t q, N[q0]? = some s ∧ s.transitions.filter (fun t => Sym.check t.symbol c) = p ++ t :: q ∧
      (∀ u ∈ p, Dead N (off + Sym.len (σ := σ) c) cs u.dst) ∧
      Hot N k (off + Sym.len (σ := σ) c) cs t.dst caps y := by
  have hpos := List.length_pos_iff.mpr hN.ne
  -- the thread stands at a state with symbols
  rcases fstQ_iff.mp (show FstQ N.outs (N.length - 1) (slotEnd _) q0 _ _ from hhot) with ⟨_, h1⟩ | ⟨hne, h1⟩
  · simp [slotEnd] at h1
  obtain ⟨a, q', hsym⟩ : ∃ a q, N.HasEdge q0 (.sym a) q := by
    rcases hrest with h | h
    · exact h
    · exfalso; omega
  obtain ⟨s, hs, hm⟩ := hasEdge_iff.mp hsym
  have heps : s.epsilons = [] := by
    rcases hN.mix s (List.mem_of_getElem? hs) with h | h
    · have hm : (⟨q', a⟩ : Trans σ) ∈ s.transitions := hm
      rw [h] at hm; simp at hm
    · exact h
  have houts : N.outs q0 = s.transitions.map (fun t => (.sym t.symbol, t.dst)) := by
    simp [NFA.outs, hs, State.outs, heps]
  rw [houts] at h1
  have hcons : ∀ (ts : List (Trans σ)), FstL N.outs (N.length - 1) (slotEnd k)
      (ts.map (fun t => (.sym t.symbol, t.dst))) (⟨off, c :: cs, caps⟩ : Cfg α) (some y) →
      ∃ p t q, ts.filter (fun t => Sym.check t.symbol c) = p ++ t :: q ∧
        (∀ u ∈ p, Dead N (off + Sym.len (σ := σ) c) cs u.dst) ∧
        Hot N k (off + Sym.len (σ := σ) c) cs t.dst caps y := by
    intro ts
    induction ts with
    | nil => intro h; cases h
    | cons t ts ih =>
      intro h
      rw [List.map_cons, fstL_cons] at h
      rcases h with ⟨h2, h3⟩ | ⟨d1, h2, h3⟩
      · have hck : ¬ Sym.check t.symbol c = true := by
          intro hck
          simp [labStep, symStep, hck] at h2
        rw [List.filter_cons, if_neg hck]
        exact ih h3
      · obtain ⟨c', r', h4, h5, rfl⟩ := symStep_iff.mp (show symStep t.symbol ⟨off, c :: cs, caps⟩ = some d1 from h2)
        simp only [List.cons.injEq] at h4
        obtain ⟨rfl, rfl⟩ := h4
        rw [List.filter_cons, if_pos h5]
        rcases h3 with ⟨h6, h7⟩ | ⟨y', h6, h7⟩
        · obtain ⟨p, t', q, e1, e2, e3⟩ := ih h7
          refine ⟨t :: p, t', q, by rw [e1]; rfl, ?_, e3⟩
          intro u hu
          rcases List.mem_cons.mp hu with rfl | hu
          · obtain ⟨n, hn⟩ := FstL.size h6
            exact dead_of_none hN.sink hn
          · exact e2 u hu
        · injection h6 with h6
          subst h6
          exact ⟨[], t, _, rfl, by simp, h7⟩
  obtain ⟨p, t, q, e⟩ := hcons s.transitions h1
  exact ⟨s, p, t, q, hs, e⟩

theorem symExec_first {N : NFA σ} (hN : Ready N) {F : Flat σ} (hF : FlatOk N F) {off : Nat} {c : α} {cs}
    {T : List Thread} {y} (h : FirstR N off (c :: cs) T y) :
    FirstT N (off + Sym.len (σ := σ) c) cs (F.symExec c T) y := by
  obtain ⟨pre, th, post, caps, rfl, hd, hcap, hhot, hrest⟩ := h
  obtain ⟨s, p, t, q, hs, e1, e2, e3⟩ := hot_sym hN hhot hrest
  unfold Flat.symExec
  rw [hF.nfa, List.flatMap_append, List.flatMap_cons, hs]
  simp only
  rw [e1, List.map_append, List.map_cons]
  refine ⟨pre.flatMap (fun th => match N[th.state]? with
    | some s => (s.transitions.filter (fun t => Sym.check t.symbol c)).map (fun t => ⟨t.dst, th.caps⟩)
    | none => []) ++ p.map (fun t => ⟨t.dst, th.caps⟩), ⟨t.dst, th.caps⟩,
    q.map (fun t => ⟨t.dst, th.caps⟩) ++ post.flatMap (fun th => match N[th.state]? with
    | some s => (s.transitions.filter (fun t => Sym.check t.symbol c)).map (fun t => ⟨t.dst, th.caps⟩)
    | none => []), caps, ?_, ?_, hcap, e3⟩
  · simp only [List.append_assoc, List.cons_append]; rfl
  · intro u hu
    rcases List.mem_append.mp hu with hu | hu
    · obtain ⟨v, hv, hu⟩ := List.mem_flatMap.mp hu
      split at hu
      · rename_i s' hs'
        obtain ⟨t', ht', rfl⟩ := List.mem_map.mp hu
        obtain ⟨h2, h3⟩ := List.mem_filter.mp ht'
        refine (hd v hv).step (caps := []) (reachE_step (l := .sym t'.symbol) (hasEdge_iff.mpr ⟨s', hs', h2⟩)
          (show symStep t'.symbol ⟨off, c :: cs, []⟩ = _ from symStep_iff.mpr ⟨c, cs, rfl, h3, rfl⟩))
      · simp at hu
    · obtain ⟨t', ht', rfl⟩ := List.mem_map.mp hu
      exact e2 t' ht'

theorem execLoop_first {N : NFA σ} (hN : Ready N) {F : Flat σ} (hc : compileFlat N = .ok F) (hF : FlatOk N F)
    (hu : PathUni N) (text : List α) {y} :
    ∀ (rest pre : List α) (off : Nat) (T : List Thread), text = pre ++ rest →
      off = unitLen σ pre → RestThreads N text off rest T → FirstR N off rest T y →
      ∃ T', F.execLoop (unitLen σ text) off rest T = .ok (some T') ∧ FirstR (α := α) N (unitLen σ text) [] T' y := by
  intro rest
  induction rest with
  | nil =>
    intro pre off T h1 h2 h3 h4
    have : off = unitLen σ text := by rw [h1, List.append_nil, h2]
    subst this
    exact ⟨T, rfl, h4⟩
  | cons c cs ih =>
    intro pre off T h1 h2 h3 h4
    have e1 : text = (pre ++ [c]) ++ cs := by simp [h1]
    have e2 : off + Sym.len (σ := σ) c = unitLen σ (pre ++ [c]) := by
      rw [unitLen_append, h2]; simp [unitLen]
    have hseed := symExec_spec hF h1 h2 h3
    obtain ⟨T', h5, h6⟩ := epsExec_spec hN hF e1 e2 hseed
    have h7 := epsExec_first hN hc hF hu e1 e2 hseed (symExec_first hN hF h4) h5
    unfold Flat.execLoop
    rw [h5]
    simp only
    rw [if_neg]
    · exact ih (pre ++ [c]) _ T' e1 e2 h6 h7
    · obtain ⟨p, th, q, _, rfl, _⟩ := h7
      simp

/-- `exec` works on the slots of the preferred run. -/
theorem flatExec_first {N : NFA σ} (hN : Ready N) {F : Flat σ} (hc : compileFlat N = .ok F) (hF : FlatOk N F)
    (hu : PathUni N) (text : List Char) (units : List α) {caps}
    (h : N.Fst atEnd 0 (⟨0, units, []⟩ : Cfg α) (some caps)) :
    F.exec text units = match (slotsOf N.numCaptureGroups caps).mapM (finishSlot text) with
      | .error e => .error e
      | .ok r => .ok (some r) := by
  have hpos := List.length_pos_iff.mpr hN.ne
  have h0 : Hot N N.numCaptureGroups 0 units 0 [] (slotsOf N.numCaptureGroups caps) := FstL.toSlots _ h
  have hs0 : (List.replicate N.numCaptureGroups (none, none) : Slots) = slotsOf N.numCaptureGroups [] := by
    refine List.ext_getElem? fun g => ?_
    by_cases hg : g < N.numCaptureGroups
    · rw [slotsOf_get hg]; simp [hg, Caps.start?, Caps.end?]
    · rw [List.getElem?_eq_none (by simp; omega), List.getElem?_eq_none (by simp [slotsOf]; omega)]
  obtain ⟨T, h1, h2⟩ := epsExec_spec hN hF (text := units) (pre := []) (off := 0) (rest := units) rfl rfl
    (seedThreads_start units)
  have h3 := epsExec_first hN hc hF hu (text := units) (pre := []) (off := 0) (rest := units) rfl rfl
    (seedThreads_start units) (y := slotsOf N.numCaptureGroups caps)
    ⟨[], _, [], [], rfl, by simp, hs0, h0⟩ h1
  obtain ⟨T', h4, pre, th, post, c, rfl, h5, h6, h7, h8⟩ := execLoop_first hN hc hF hu units units [] 0 T rfl rfl h2 h3
  have e1 : (units.map (Sym.len (σ := σ))).sum = unitLen σ units := rfl
  unfold Flat.exec
  simp only [e1]
  rw [hF.groups, h1]
  simp only
  rw [h4]
  simp only
  rw [hF.nfa]
  have hth : th.state = N.length - 1 ∧ slotsOf N.numCaptureGroups caps = th.caps := by
    rcases fstQ_iff.mp (show FstQ N.outs (N.length - 1) (slotEnd _) th.state _ _ from h7) with ⟨g1, g2⟩ | ⟨hne, g1⟩
    · refine ⟨g1, ?_⟩
      rw [h6]
      simpa [slotEnd] using g2
    · exfalso
      obtain ⟨l, q, d1, d2, g3, g4, _⟩ := FstL.reach g1 rfl
      cases l with
      | sym a => simp [labStep, symStep] at g4
      | eps e =>
        have he := mem_outs.mp g3
        rcases h8 with ⟨a, q', h8⟩ | h8
        · obtain ⟨s, k1, k2⟩ := hasEdge_iff.mp h8
          obtain ⟨s', k3, k4⟩ := hasEdge_iff.mp he
          rw [k1] at k3; injection k3 with k3; subst k3
          have k2 : (⟨q', a⟩ : Trans σ) ∈ s.transitions := k2
          have k4 : (⟨q, e⟩ : Eps) ∈ s.epsilons := k4
          rcases hN.mix s (List.mem_of_getElem? k1) with k5 | k5
          · rw [k5] at k2; simp at k2
          · rw [k5] at k4; simp at k4
        · omega
  have hfind : (pre ++ th :: post).find? (fun t => t.state + 1 == N.length) = some th := by
    rw [List.find?_append, List.find?_eq_none.mpr, Option.none_or, List.find?_cons_of_pos]
    · rw [hth.1]; simp; omega
    · intro v hv hst
      have hst : v.state = N.length - 1 := by have : v.state + 1 = N.length := by simpa using hst
                                              omega
      have := h5 v hv
      rw [hst] at this
      exact this [] ⟨unitLen σ units, [], []⟩ reachE_refl rfl
  rw [hfind]
  simp only
  rw [hth.2]
  cases List.mapM (finishSlot text) th.caps <;> rfl

end

end Ere
