import Verif.Proofs.Flat
import Verif.Proofs.TreeSpan

/-! The flat lockstep engines: `exec`. -/

namespace Ere
variable {σ α : Type}

/-! ### Capture slots -/

theorem le_foldl_max (l : List Nat) (a : Nat) : a ≤ l.foldl max a ∧ ∀ x ∈ l, x ≤ l.foldl max a := by
  induction l generalizing a with
  | nil => simp
  | cons b l ih =>
    simp only [List.foldl_cons]
    obtain ⟨h1, h2⟩ := ih (max a b)
    refine ⟨by omega, fun x hx => ?_⟩
    rcases List.mem_cons.mp hx with rfl | hx
    · omega
    · exact h2 x hx

theorem start_lt {N : NFA σ} {p q g} (h : N.HasEdge p (.eps (.startCapture g)) q) :
    g < N.numCaptureGroups := by
  obtain ⟨s, hs, he⟩ := h
  unfold NFA.numCaptureGroups
  have := (le_foldl_max ((N.flatMap (·.epsilons)).map (fun e => match e.special with
    | .startCapture g => g
    | _ => 0)) 0).2 g (by
      refine List.mem_map.mpr ⟨⟨q, .startCapture g⟩, ?_, rfl⟩
      exact List.mem_flatMap.mpr ⟨s, List.mem_of_getElem? hs, he⟩)
  exact Nat.lt_succ_of_le this

/-- No capture slot out of range is ever addressed. -/
theorem Ready.tag_lt {N : NFA σ} (hN : Ready N) {p e q t} (h : N.HasEdge p (.eps e) q)
    (ht : e.tag? = some t) : t.group < N.numCaptureGroups := by
  cases e with
  | none => simp [EpsType.tag?] at ht
  | startAnchor => simp [EpsType.tag?] at ht
  | endAnchor => simp [EpsType.tag?] at ht
  | startCapture g =>
    simp [EpsType.tag?] at ht; subst ht
    exact start_lt h
  | endCapture g =>
    simp [EpsType.tag?] at ht; subst ht
    show g < _
    by_contra hge
    have hp : p < N.length := by
      obtain ⟨s, hs, _⟩ := h
      exact (List.getElem?_eq_some_iff.mp hs).1
    have h1 := (hN.trim p hp).1
    refine hN.close g ?_
    have key : ∀ x, N.Path (fun _ => true) true x p → CanClose N g x := by
      intro x hx
      induction hx using Relation.ReflTransGen.head_induction_on with
      | refl => exact .here h
      | head h2 _ ih =>
        obtain ⟨l, _, hl⟩ := h2
        refine .step hl ?_ ih
        rintro rfl
        exact hge (start_lt hl)
    exact key 0 h1

/-- The slots the engines keep for a run. -/
def slotsOf (k : Nat) (c : Caps) : Slots := (List.range k).map (fun g => (c.start? g, c.end? g))

theorem slotsOf_get {k c g} (h : g < k) : (slotsOf k c)[g]? = some (Caps.start? c g, Caps.end? c g) := by
  simp [slotsOf, h]

theorem applyTags_ok (idx : Nat) (tags : List Tag) (s : Slots) (h : ∀ t ∈ tags, t.group < s.length) :
    ∃ s', tags.foldlM (applyTag idx) s = .ok s' ∧ s'.length = s.length ∧
      ∀ (g : Nat) p, s[g]? = some p → s'[g]? = some
        (if Tag.startCapture g ∈ tags then some idx else p.1, if Tag.endCapture g ∈ tags then some idx else p.2) := by
  induction tags generalizing s with
  | nil => exact ⟨s, rfl, rfl, by simp⟩
  | cons t tags ih =>
    have ht := h t (by simp)
    obtain ⟨s1, h1, h2, h3⟩ : ∃ s1, applyTag idx s t = .ok s1 ∧ s1.length = s.length ∧
        ∀ (g : Nat) p, s[g]? = some p → s1[g]? = some
          (if Tag.startCapture g = t then some idx else p.1, if Tag.endCapture g = t then some idx else p.2) := by
      unfold applyTag
      rw [if_pos ht]
      refine ⟨_, rfl, by simp, ?_⟩
      intro g p hp
      rw [List.getElem?_modify, hp]
      clear h
      cases t with
      | startCapture h =>
        by_cases hh : h = g
        · subst hh; simp [Tag.group]
        · have : ¬ g = h := fun e => hh e.symm
          simp [Tag.group, hh, this]
      | endCapture h =>
        by_cases hh : h = g
        · subst hh; simp [Tag.group]
        · have : ¬ g = h := fun e => hh e.symm
          simp [Tag.group, hh, this]
    obtain ⟨s', h4, h5, h6⟩ := ih s1 (by intro t' ht'; rw [h2]; exact h t' (by simp [ht']))
    refine ⟨s', ?_, h5.trans h2, ?_⟩
    · rw [List.foldlM_cons, h1]; exact h4
    · intro g p hp
      rw [h6 g _ (h3 g p hp)]
      simp only [List.mem_cons]
      congr 2
      · by_cases a : Tag.startCapture g ∈ tags <;> by_cases b : Tag.startCapture g = t <;> simp [a, b]
      · by_cases a : Tag.endCapture g ∈ tags <;> by_cases b : Tag.endCapture g = t <;> simp [a, b]

/-- The events of a walk. -/
def walkEvents (off : Nat) (ls : List EpsType) : Caps :=
  ls.filterMap (fun e => match e with
    | .startCapture g => some (.opened g off)
    | .endCapture g => some (.closed g off)
    | _ => none)

theorem walkEvents_start (off : Nat) (ls : List EpsType) (g : Nat) :
    Caps.start? (walkEvents off ls) g = if EpsType.startCapture g ∈ ls then some off else none := by
  induction ls with
  | nil => rfl
  | cons e ls ih =>
    unfold walkEvents at *
    rw [show e :: ls = [e] ++ ls from rfl, List.filterMap_append, start?_append, ih]
    cases e with
    | startCapture h =>
      by_cases hh : g = h
      · subst hh; simp [Caps.start?]; split <;> simp
      · have : ¬ h = g := fun e => hh e.symm
        simp [Caps.start?, hh, this]
    | _ => simp [Caps.start?]

theorem walkEvents_end (off : Nat) (ls : List EpsType) (g : Nat) :
    Caps.end? (walkEvents off ls) g = if EpsType.endCapture g ∈ ls then some off else none := by
  induction ls with
  | nil => rfl
  | cons e ls ih =>
    unfold walkEvents at *
    rw [show e :: ls = [e] ++ ls from rfl, List.filterMap_append, end?_append, ih]
    cases e with
    | endCapture h =>
      by_cases hh : g = h
      · subst hh; simp [Caps.end?]; split <;> simp
      · have : ¬ h = g := fun e => hh e.symm
        simp [Caps.end?, hh, this]
    | _ => simp [Caps.end?]

theorem mem_tags {ls : List EpsType} {t : Tag} :
    t ∈ (ls.filterMap EpsType.tag?).eraseDups ↔ ∃ e ∈ ls, e.tag? = some t := by
  rw [List.mem_eraseDups, List.mem_filterMap]

theorem mem_tags_start {ls : List EpsType} {g : Nat} :
    Tag.startCapture g ∈ (ls.filterMap EpsType.tag?).eraseDups ↔ EpsType.startCapture g ∈ ls := by
  rw [mem_tags]
  constructor
  · rintro ⟨e, h1, h2⟩
    cases e <;> simp [EpsType.tag?] at h2
    subst h2; exact h1
  · intro h; exact ⟨_, h, rfl⟩

theorem mem_tags_end {ls : List EpsType} {g : Nat} :
    Tag.endCapture g ∈ (ls.filterMap EpsType.tag?).eraseDups ↔ EpsType.endCapture g ∈ ls := by
  rw [mem_tags]
  constructor
  · rintro ⟨e, h1, h2⟩
    cases e <;> simp [EpsType.tag?] at h2
    subst h2; exact h1
  · intro h; exact ⟨_, h, rfl⟩

theorem walk_tag_lt {N : NFA σ} (hN : Ready N) {q ls p} (h : EWalk N q ls p) :
    ∀ t ∈ (walkSummary p ls).tags, t.group < N.numCaptureGroups := by
  intro t ht
  obtain ⟨e, he, het⟩ := mem_tags.mp ht
  clear ht
  induction h with
  | refl => simp at he
  | tail h1 h2 ih =>
    rcases List.mem_append.mp he with h | h
    · exact ih h
    · simp at h; subst h; exact hN.tag_lt h2 het

/-- Applying the tags of a walk keeps the slots in step with the event log. -/
theorem applyTags_walk {k off p : Nat} {ls : List EpsType} (c : Caps)
    (h : ∀ t ∈ (walkSummary p ls).tags, t.group < k) :
    (walkSummary p ls).tags.foldlM (applyTag off) (slotsOf k c) = .ok (slotsOf k (c ++ walkEvents off ls)) := by
  have hlen : (slotsOf k c).length = k := by simp [slotsOf]
  obtain ⟨s', h1, h2, h3⟩ := applyTags_ok off (walkSummary p ls).tags (slotsOf k c) (by rw [hlen]; exact h)
  rw [h1]
  congr 1
  refine List.ext_getElem? fun g => ?_
  by_cases hg : g < k
  · rw [h3 g _ (slotsOf_get hg), slotsOf_get hg, start?_append, end?_append, walkEvents_start, walkEvents_end]
    simp only [walkSummary, mem_tags_start, mem_tags_end]
    congr 2
    · split <;> simp
    · split <;> simp
  · rw [List.getElem?_eq_none (by omega), List.getElem?_eq_none (by simp [slotsOf]; omega)]

/-! ### The epsilon phase -/

theorem pushThread_fold (off : Nat) (ps : List (Thread × EpsProp))
    (hok : ∀ p ∈ ps, ∃ c, p.2.tags.foldlM (applyTag off) p.1.caps = .ok c) (acc : List Thread) :
    ∃ T, ps.foldlM (pushThread off) acc = .ok T ∧
      (∀ th ∈ T, th ∈ acc ∨ ∃ p ∈ ps, th.state = p.2.state ∧
        p.2.tags.foldlM (applyTag off) p.1.caps = .ok th.caps) ∧
      (∀ th ∈ acc, th ∈ T) ∧ (∀ p ∈ ps, ∃ th ∈ T, th.state = p.2.state) := by
  induction ps generalizing acc with
  | nil => exact ⟨acc, rfl, fun th h => Or.inl h, fun th h => h, by simp⟩
  | cons p ps ih =>
    obtain ⟨acc1, h1, h2, h3, h4⟩ : ∃ acc1, pushThread off acc p = .ok acc1 ∧
        (∀ th ∈ acc1, th ∈ acc ∨ (th.state = p.2.state ∧
          p.2.tags.foldlM (applyTag off) p.1.caps = .ok th.caps)) ∧
        (∀ th ∈ acc, th ∈ acc1) ∧ ∃ th ∈ acc1, th.state = p.2.state := by
      unfold pushThread
      split
      · rename_i hany
        obtain ⟨th, h1, h2⟩ := List.any_eq_true.mp hany
        exact ⟨acc, rfl, fun th h => Or.inl h, fun th h => h, th, h1, by simpa using h2⟩
      · obtain ⟨c, hc⟩ := hok p (by simp)
        rw [hc]
        refine ⟨_, rfl, ?_, ?_, ⟨p.2.state, c⟩, by simp, rfl⟩
        · intro th hth
          rcases List.mem_append.mp hth with h | h
          · exact Or.inl h
          · simp at h; subst h; exact Or.inr ⟨rfl, rfl⟩
        · intro th h; simp [h]
    obtain ⟨T, g1, g2, g3, g4⟩ := ih (fun p' hp' => hok p' (by simp [hp'])) acc1
    refine ⟨T, by rw [List.foldlM_cons, h1]; exact g1, ?_, fun th h => g3 th (h3 th h), ?_⟩
    · intro th hth
      rcases g2 th hth with h | ⟨p', hp', h⟩
      · rcases h2 th h with h | h
        · exact Or.inl h
        · exact Or.inr ⟨p, by simp, h⟩
      · exact Or.inr ⟨p', by simp [hp'], h⟩
    · intro p' hp'
      rcases List.mem_cons.mp hp' with rfl | hp'
      · obtain ⟨th, a, b⟩ := h4; exact ⟨th, g3 th a, b⟩
      · exact g4 p' hp'

section
variable [Sym σ α]

/-- What is true of a thread: it comes from a run. -/
def ThreadOk (N : NFA σ) (text : List α) (off : Nat) (rest : List α) (th : Thread) : Prop :=
  ∃ caps, ReachE N.HasEdge (0, ⟨0, text, []⟩) (th.state, ⟨off, rest, caps⟩) ∧
    th.caps = slotsOf N.numCaptureGroups caps

/-- Threads before the epsilon phase. -/
structure SeedThreads (N : NFA σ) (text : List α) (off : Nat) (rest : List α) (T : List Thread) : Prop where
  sound : ∀ th ∈ T, ThreadOk N text off rest th ∧ N.Seed text th.state off rest
  complete : ∀ s, N.Seed text s off rest → ∃ th ∈ T, th.state = s

/-- Threads after the epsilon phase. -/
structure RestThreads (N : NFA σ) (text : List α) (off : Nat) (rest : List α) (T : List Thread) : Prop where
  sound : ∀ th ∈ T, ThreadOk N text off rest th
  complete : ∀ x, N.Rest x → N.At text x off rest → ∃ th ∈ T, th.state = x

theorem walkRun {N : NFA σ} {q ls p off total} {rest : List α} (h : EWalk N q ls p)
    (hg : ∀ e ∈ ls, epsGuard off total e = true) (ht : off + unitLen σ rest = total) (caps : Caps) :
    ReachE N.HasEdge (q, (⟨off, rest, caps⟩ : Cfg α)) (p, ⟨off, rest, caps ++ walkEvents off ls⟩) := by
  induction h with
  | refl => simpa [walkEvents] using reachE_refl
  | @tail ls p1 e p2 h1 h2 ih =>
    have := ih (fun e he => hg e (by simp [he]))
    refine reachE_trans this (reachE_step h2 (show epsStep e _ = some _ from ?_))
    have hge := hg e (by simp)
    cases e with
    | none => simp [epsStep, walkEvents]
    | startAnchor =>
      have : off = 0 := by simpa [epsGuard] using hge
      simp [epsStep, walkEvents, this]
    | endAnchor =>
      have h0 : off = total := by simpa [epsGuard] using hge
      have : rest = [] := by
        cases rest with
        | nil => rfl
        | cons c cs =>
          have := Sym.len_pos (σ := σ) c
          simp [unitLen] at ht; omega
      simp [epsStep, walkEvents, this]
    | startCapture g => simp [epsStep, walkEvents, Caps.setStart]
    | endCapture g => simp [epsStep, walkEvents, Caps.setEnd]

theorem epsExec_spec {N : NFA σ} (hN : Ready N) {F : Flat σ} (hF : FlatOk N F)
    {text pre : List α} {off rest} {T : List Thread} (htx : text = pre ++ rest) (hoff : off = unitLen σ pre)
    (h : SeedThreads N text off rest T) :
    ∃ T', F.epsExec off (unitLen σ text) T = .ok T' ∧ RestThreads N text off rest T' := by
  have htot : off + unitLen σ rest = unitLen σ text := by rw [htx, unitLen_append, hoff]
  have hup : ∀ th ∈ T, ∀ u ∈ F.updates (off == 0) (off == unitLen σ text) th.state,
      ∃ ls, EWalk N th.state ls u.state ∧ u = walkSummary u.state ls ∧
        ∀ e ∈ ls, epsGuard off (unitLen σ text) e = true := by
    intro th hth u hu
    obtain ⟨hlt, hex⟩ := updates_sound hF hu
    obtain ⟨h2, h3, h4⟩ := mem_updates.mp hu
    obtain ⟨h5, ls, h6, h7⟩ := (hF.mem _ hlt hex u).mp h2
    refine ⟨ls, h6, h7, (guard_walk (p := u.state)).mpr ?_⟩
    rw [← h7]; exact ⟨h3, h4⟩
  have happ : ∀ th ∈ T, ∀ u ∈ F.updates (off == 0) (off == unitLen σ text) th.state,
      ∃ c, u.tags.foldlM (applyTag off) th.caps = .ok c ∧ ThreadOk N text off rest ⟨u.state, c⟩ := by
    intro th hth u hu
    obtain ⟨ls, h1, h2, h3⟩ := hup th hth u hu
    obtain ⟨caps, h4, h5⟩ := (h.sound th hth).1
    refine ⟨_, ?_, caps ++ walkEvents off ls, reachE_trans h4 (walkRun h1 h3 htot caps), rfl⟩
    rw [h5, h2]
    exact applyTags_walk caps (walk_tag_lt hN h1)
  obtain ⟨T', g1, g2, -, g4⟩ := pushThread_fold off
    (T.flatMap (fun th => (F.updates (off == 0) (off == unitLen σ text) th.state).map (fun u => (th, u))))
    (by
      intro p hp
      obtain ⟨th, hth, hp⟩ := List.mem_flatMap.mp hp
      obtain ⟨u, hu, rfl⟩ := List.mem_map.mp hp
      obtain ⟨c, hc, _⟩ := happ th hth u hu
      exact ⟨c, hc⟩) []
  refine ⟨T', g1, ?_, ?_⟩
  · intro th' hth'
    rcases g2 th' hth' with h0 | ⟨p, hp, hs, hc⟩
    · simp at h0
    · obtain ⟨th, hth, hp⟩ := List.mem_flatMap.mp hp
      obtain ⟨u, hu, rfl⟩ := List.mem_map.mp hp
      obtain ⟨c, hc', hok⟩ := happ th hth u hu
      simp only at hc hs
      rw [hc'] at hc
      injection hc with hc
      obtain ⟨st, cc⟩ := th'
      simp only at hs hc
      subst hs hc
      exact hok
  · intro x hr hx
    obtain ⟨s, hs, hp⟩ := at_iff.mp hx
    obtain ⟨th, hth, rfl⟩ := h.complete s hs
    obtain ⟨hlt, hex⟩ := seed_lt hN.wf hN.ne hs
    obtain ⟨u, hu, rfl⟩ := (updates_path hF hlt hex).mpr ⟨hr, hp⟩
    exact g4 (th, u) (List.mem_flatMap.mpr ⟨th, hth, List.mem_map.mpr ⟨u, hu, rfl⟩⟩)

/-! ### The symbol phase -/

theorem at_unique {N : NFA σ} {text pre cs : List α} {off q off0 c c0} (ht : text = pre ++ c :: cs)
    (ho : off = unitLen σ pre) (h : N.At text q off0 (c0 :: cs)) : off0 = off ∧ c0 = c := by
  obtain ⟨p0, e1, e2⟩ := at_pos h
  rw [ht] at e1
  have hl : pre.length = p0.length := by
    have := congrArg List.length e1; simp at this; omega
  obtain ⟨rfl, he⟩ := List.append_inj e1 hl
  injection he with he _
  exact ⟨e2.trans ho.symm, he.symm⟩

theorem symExec_spec {N : NFA σ} {F : Flat σ} (hF : FlatOk N F) {text pre : List α} {off c cs}
    {T : List Thread} (ht : text = pre ++ c :: cs) (ho : off = unitLen σ pre)
    (h : RestThreads N text off (c :: cs) T) :
    SeedThreads N text (off + Sym.len (σ := σ) c) cs (F.symExec c T) := by
  have hmem : ∀ th', th' ∈ F.symExec c T ↔ ∃ th ∈ T, ∃ a, N.HasEdge th.state (.sym a) th'.state ∧
      Sym.check a c = true ∧ th'.caps = th.caps := by
    intro th'
    unfold Flat.symExec
    rw [List.mem_flatMap, hF.nfa]
    constructor
    · rintro ⟨th, hth, hm⟩
      split at hm
      · rename_i s hs
        obtain ⟨t, htt, rfl⟩ := List.mem_map.mp hm
        obtain ⟨h1, h2⟩ := List.mem_filter.mp htt
        exact ⟨th, hth, t.symbol, ⟨s, hs, h1⟩, h2, rfl⟩
      · simp at hm
    · rintro ⟨th, hth, a, ⟨s, hs, hm⟩, hck, hcaps⟩
      refine ⟨th, hth, ?_⟩
      rw [hs]
      refine List.mem_map.mpr ⟨⟨th'.state, a⟩, List.mem_filter.mpr ⟨hm, hck⟩, ?_⟩
      rw [← hcaps]
  constructor
  · intro th' hth'
    obtain ⟨th, hth, a, he, hck, hc⟩ := (hmem th').mp hth'
    obtain ⟨caps, h1, h2⟩ := h.sound th hth
    refine ⟨⟨caps, reachE_trans h1 (reachE_step he (show symStep a ⟨off, c :: cs, caps⟩ = _ from
      symStep_iff.mpr ⟨c, cs, rfl, hck, rfl⟩)), hc.trans h2⟩, ?_⟩
    exact Or.inr ⟨th.state, off, c, a, ⟨caps, h1⟩, rfl, he, hck⟩
  · rintro s (⟨_, h1, _⟩ | ⟨q, off0, c0, a, h1, h2, h3, h4⟩)
    · have := Sym.len_pos (σ := σ) c; omega
    · obtain ⟨rfl, rfl⟩ := at_unique ht ho h1
      obtain ⟨th, hth, rfl⟩ := h.complete q (Or.inl ⟨a, s, h3⟩) h1
      exact ⟨⟨s, th.caps⟩, (hmem _).mpr ⟨th, hth, a, h3, h4, rfl⟩, rfl⟩

theorem execLoop_spec {N : NFA σ} (hN : Ready N) {F : Flat σ} (hF : FlatOk N F) (text : List α) :
    ∀ (rest pre : List α) (off : Nat) (T : List Thread), text = pre ++ rest →
      off = unitLen σ pre → RestThreads N text off rest T →
      (F.execLoop (unitLen σ text) off rest T = .ok none ∧ ¬ N.At text (N.length - 1) (unitLen σ text) []) ∨
      ∃ T', F.execLoop (unitLen σ text) off rest T = .ok (some T') ∧
        RestThreads N text (unitLen σ text) [] T' := by
  have hpos := List.length_pos_iff.mpr hN.ne
  have hlast : N.Rest (N.length - 1) := Or.inr (by omega)
  intro rest
  induction rest with
  | nil =>
    intro pre off T h1 h2 h3
    have : off = unitLen σ text := by rw [h1, List.append_nil, h2]
    subst this
    exact Or.inr ⟨T, rfl, h3⟩
  | cons c cs ih =>
    intro pre off T h1 h2 h3
    have e1 : text = (pre ++ [c]) ++ cs := by simp [h1]
    have e2 : off + Sym.len (σ := σ) c = unitLen σ (pre ++ [c]) := by
      rw [unitLen_append, h2]; simp [unitLen]
    obtain ⟨T', h4, h5⟩ := epsExec_spec hN hF e1 e2 (symExec_spec hF h1 h2 h3)
    unfold Flat.execLoop
    rw [h4]
    simp only
    split
    · rename_i hemp
      refine Or.inl ⟨rfl, ?_⟩
      have hnil : T' = [] := by simpa using hemp
      subst hnil
      cases cs with
      | nil =>
        intro hat
        rw [e2, ← List.append_nil (pre ++ [c]), ← e1] at h5
        obtain ⟨th, hth, _⟩ := h5.complete _ hlast hat
        simp at hth
      | cons c2 cs2 =>
        have e3 : text = (pre ++ [c, c2]) ++ cs2 := by simp [h1]
        refine no_seed e3 rfl ?_ _
        rintro s (⟨_, _, h6⟩ | ⟨q, off0, c0, a, h6, h7, h8, h9⟩)
        · have := congrArg List.length h6
          rw [e3] at this; simp at this; omega
        · obtain ⟨rfl, rfl⟩ := at_unique e1 e2 h6
          obtain ⟨th, hth, _⟩ := h5.complete q (Or.inl ⟨a, s, h8⟩) h6
          simp at hth
    · exact ih (pre ++ [c]) _ T' e1 e2 h5

theorem seedThreads_start {N : NFA σ} (text : List α) :
    SeedThreads N text 0 text [⟨0, List.replicate N.numCaptureGroups (none, none)⟩] := by
  constructor
  · intro th hth
    simp only [List.mem_cons, List.not_mem_nil, or_false] at hth
    subst hth
    refine ⟨⟨[], reachE_refl, ?_⟩, (seed_start _ _).mpr rfl⟩
    refine List.ext_getElem? fun g => ?_
    by_cases hg : g < N.numCaptureGroups
    · rw [slotsOf_get hg]; simp [hg, Caps.start?, Caps.end?]
    · rw [List.getElem?_eq_none (by simp; omega), List.getElem?_eq_none (by simp [slotsOf]; omega)]
  · intro s hs
    exact ⟨_, List.mem_singleton.mpr rfl, ((seed_start _ _).mp hs).symm⟩

/-- `exec` of the flat lockstep engines, assuming that accepting runs have sliceable captures. -/
theorem flatExec_spec {N : NFA σ} (hN : Ready N) {F : Flat σ} (hF : FlatOk N F) (text : List Char)
    (units : List α)
    (hsl : ∀ caps, N.Acc ⟨0, units, []⟩ ⟨unitLen σ units, [], caps⟩ → ∀ g, g < N.numCaptureGroups →
      ∃ r, finishSlot text (caps.start? g, caps.end? g) = .ok r) :
    (F.exec text units = .ok none ∧ ¬ ∃ caps, N.Acc ⟨0, units, []⟩ ⟨unitLen σ units, [], caps⟩) ∨
    ∃ r caps, F.exec text units = .ok (some r) ∧
      N.Acc ⟨0, units, []⟩ ⟨unitLen σ units, [], caps⟩ ∧ r.length = N.numCaptureGroups ∧
      ∀ g, g < N.numCaptureGroups → ∃ x, r[g]? = some x ∧
        finishSlot text (caps.start? g, caps.end? g) = .ok x := by
  have hpos := List.length_pos_iff.mpr hN.ne
  have hlast : N.Rest (N.length - 1) := Or.inr (by omega)
  obtain ⟨T, h1, h2⟩ := epsExec_spec hN hF (text := units) (pre := []) (off := 0) (rest := units) rfl rfl
    (seedThreads_start units)
  have key := execLoop_spec hN hF units units [] 0 T rfl rfl h2
  have e1 : (units.map (Sym.len (σ := σ))).sum = unitLen σ units := rfl
  unfold Flat.exec
  simp only [e1]
  rw [hF.groups, h1]
  simp only
  rcases key with ⟨h3, h4⟩ | ⟨T', h3, h4⟩
  · rw [h3]
    refine Or.inl ⟨rfl, ?_⟩
    rintro ⟨caps, _, h⟩
    exact h4 ⟨caps, h⟩
  · rw [h3]
    simp only
    rw [hF.nfa]
    split
    · rename_i hf
      refine Or.inl ⟨rfl, ?_⟩
      rintro ⟨caps, _, h⟩
      obtain ⟨th, hth, hst⟩ := h4.complete _ hlast ⟨caps, h⟩
      have := List.find?_eq_none.mp hf th hth
      simp only [beq_iff_eq] at this
      omega
    · rename_i th hf
      have hst : th.state = N.length - 1 := by
        have := List.find?_some hf
        simp only [beq_iff_eq] at this
        omega
      obtain ⟨caps, hr, hc⟩ := h4.sound th (List.mem_of_find?_eq_some hf)
      rw [hst] at hr
      have hacc : N.Acc ⟨0, units, []⟩ ⟨unitLen σ units, [], caps⟩ := ⟨hN.ne, hr⟩
      obtain ⟨r, g1, g2, g3⟩ := mapM_ok (f := finishSlot text) (l := th.caps) (by
        intro x hx
        rw [hc] at hx
        unfold slotsOf at hx
        obtain ⟨g, hg, rfl⟩ := List.mem_map.mp hx
        exact hsl caps hacc g (List.mem_range.mp hg))
      rw [g1]
      refine Or.inr ⟨r, caps, rfl, hacc, ?_, ?_⟩
      · rw [g2, hc]; simp [slotsOf]
      · intro g hg
        obtain ⟨y, a, b⟩ := g3 g _ (by rw [hc]; exact slotsOf_get hg)
        exact ⟨y, a, b⟩

end

/-! ### Captures of patterns -/

theorem run_captures {e : ERE} {text : List Char} {caps : Caps}
    (h : ∃ pre mid post, text = pre ++ mid ++ post ∧
      (Tree.fromERE e).1.Run ⟨byteLen pre, mid ++ post, []⟩ ⟨byteLen (pre ++ mid), post, caps⟩) :
    ∃ S, e.Captures text S ∧ Reads caps S := by
  obtain ⟨pre, mid, post, h1, h2⟩ := h
  obtain ⟨mid', S, L, a1, a2, a3, a4, a5⟩ := Tree.run_sp h2 (Tree.gok_fromERE e) pre rfl
  have := List.append_cancel_right a1
  simp only at a1 a2 a3 a5
  subst this
  simp only [List.nil_append] at a3
  subst a3
  rw [Tree.fromERE] at a5
  cases a5 with
  | capture a5 => exact ⟨_, ⟨pre, mid, post, _, h1, (Tree.sp_sub e _ _ _ _ _).mp a5, rfl⟩, a4⟩

theorem captures_run {e : ERE} {text : List Char} {S : List Span} (h : e.Captures text S) :
    ∃ caps, Reads caps S ∧ ∃ pre mid post, text = pre ++ mid ++ post ∧
      (Tree.fromERE e).1.Run ⟨byteLen pre, mid ++ post, []⟩ ⟨byteLen (pre ++ mid), post, caps⟩ := by
  obtain ⟨pre, mid, post, S', h1, h2, rfl⟩ := h
  have : (Tree.fromERE e).1.Sp pre mid post (S' ++ [⟨0, byteLen pre, byteLen (pre ++ mid)⟩]) := by
    rw [Tree.fromERE]; exact .capture ((Tree.sp_sub e _ _ _ _ _).mpr h2)
  obtain ⟨L, h3, h4⟩ := Tree.sp_run this (Tree.gok_fromERE e) []
  exact ⟨L, h3, pre, mid, post, h1, h4⟩

theorem captures_matchesIn {e : ERE} {text : List Char} :
    (∃ S, e.Captures text S) ↔ e.MatchesIn text := by
  rw [← exists_run_iff]
  constructor
  · rintro ⟨S, h⟩
    obtain ⟨caps, _, h⟩ := captures_run h
    exact ⟨caps, h⟩
  · rintro ⟨caps, h⟩
    obtain ⟨S, h, _⟩ := run_captures h
    exact ⟨S, h⟩

theorem isBoundary_iff {text : List Char} {i : Nat} :
    isBoundary text i = true ↔ ∃ a b, text = a ++ b ∧ i = byteLen a := by
  unfold isBoundary
  simp only [List.any_eq_true, List.mem_range, beq_iff_eq]
  constructor
  · rintro ⟨k, _, h⟩
    exact ⟨text.take k, text.drop k, by simp, h.symm⟩
  · rintro ⟨a, b, rfl, rfl⟩
    exact ⟨a.length, by simp; omega, by simp [strLen, byteLen]⟩

/-- Every stretch of a match can be sliced. -/
theorem captures_slice {e : ERE} {text : List Char} {S : List Span} (h : e.Captures text S) :
    ∀ s ∈ S, s.group < e.groups + 1 ∧ ∃ a b c, text = a ++ b ++ c ∧ s.lo = byteLen a ∧ s.hi = byteLen (a ++ b) := by
  obtain ⟨pre, mid, post, S', h1, h2, rfl⟩ := h
  intro s hs
  rcases List.mem_append.mp hs with hs | hs
  · obtain ⟨a, b, m1, m2, m3, rfl, d, e'⟩ := Tree.in_sub e _ _ _ _ _ h2 s hs
    exact ⟨by omega, pre ++ m1, m2, m3 ++ post, by simp [h1], d, e'⟩
  · simp only [List.mem_cons, List.not_mem_nil, or_false] at hs
    subst hs
    exact ⟨show 0 < _ by omega, pre, mid, post, h1, rfl, rfl⟩

theorem strGet_ok {text a b c : List Char} (h : text = a ++ b ++ c) :
    strGet text (byteLen a) (byteLen (a ++ b)) = some (byteLen a, byteLen (a ++ b)) := by
  unfold strGet
  rw [if_pos]
  rw [Bool.and_eq_true, Bool.and_eq_true, decide_eq_true_eq]
  refine ⟨⟨by rw [byteLen_append]; omega, ?_⟩, ?_⟩
  · exact isBoundary_iff.mpr ⟨a, b ++ c, by simp [h], rfl⟩
  · exact isBoundary_iff.mpr ⟨a ++ b, c, h, rfl⟩

/-- The final loop never panics and reports the last stretch of each group. -/
theorem finishSlot_ok {e : ERE} {text : List Char} {S : List Span} {caps : Caps} (h : e.Captures text S)
    (hr : Reads caps S) (g : Nat) :
    finishSlot text (caps.start? g, caps.end? g) = .ok (lastSpan S g) := by
  obtain ⟨h1, h2⟩ := reads_last hr g
  rw [h1, h2]
  cases hl : lastSpan S g with
  | none => rfl
  | some p =>
    obtain ⟨i, j⟩ := p
    obtain ⟨_, a, b, c, e1, e2, e3⟩ := captures_slice h _ (lastSpan_mem hl)
    simp only at e2 e3
    subst e2 e3
    simp only [Option.map_some, finishSlot, strGet_ok e1]

end Ere
