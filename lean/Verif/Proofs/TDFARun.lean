import Verif.Proofs.TDFA
import Verif.Proofs.FlatTop
import Verif.Proofs.StartSafe

/-! Runs of the tagged DFA follow the byte automaton. -/

namespace Ere

/-- The label `v` stands for the set of states in which the automaton can be at this position
before the epsilon phase. -/
structure DAt (N : NFA U8Atom) (D : TDFA) (text : List UInt8) (off : Nat) (rest : List UInt8)
    (s : TState) (L : List Nat) : Prop where
  exp : ∃ first, Expanded N first L (namesOf D.states) s ∧ (first = true ↔ off = 0)
  seeds : ∀ q, q ∈ L ↔ N.Seed text q off rest

theorem mem_itemsAt {β : Type} {items : List (U8Atom × β)} {b : UInt8} {it : β} :
    it ∈ itemsAt items b ↔ ∃ a, (a, it) ∈ items ∧ a.check b = true := by
  unfold itemsAt
  rw [List.mem_map]
  constructor
  · rintro ⟨⟨a, it'⟩, h1, rfl⟩
    exact ⟨a, (List.mem_filter.mp h1).1, (List.mem_filter.mp h1).2⟩
  · rintro ⟨a, h1, h2⟩
    exact ⟨(a, it), List.mem_filter.mpr ⟨h1, h2⟩, rfl⟩

/-- The items of the current byte are the ways to the next position. -/
theorem items_seed {N : NFA U8Atom} {text pre : List UInt8} {off c cs first L items}
    (ht : text = pre ++ c :: cs) (ho : off = unitLen U8Atom pre) (hf : first = true ↔ off = 0)
    (hL : ∀ q, q ∈ L ↔ N.Seed text q off (c :: cs)) (hI : ItemsOk N first L items) (s : Nat) :
    (∃ it ∈ itemsAt items c, it.dst = s) ↔ N.Seed text s (off + 1) cs := by
  have htot : off < unitLen U8Atom text := by
    rw [ht, unitLen_append, ho, unitLen_u8, unitLen_u8]; simp
  have hguard : ∀ ls : List EpsType, EpsType.endAnchor ∉ ls → (first = false → EpsType.startAnchor ∉ ls) →
      ∀ e ∈ ls, epsGuard off (unitLen U8Atom text) e = true := by
    intro ls h1 h2 e he
    cases e with
    | startAnchor =>
      cases first with
      | true => simpa [epsGuard] using hf.mp rfl
      | false => exact absurd he (h2 rfl)
    | endAnchor => exact absurd he h1
    | _ => rfl
  constructor
  · rintro ⟨it, hit, rfl⟩
    obtain ⟨a, h1, h2⟩ := mem_itemsAt.mp hit
    obtain ⟨q, ls, p, e1, e2, e3, e4, e5, e6⟩ := (hI a it).mp h1
    have hq := (hL q).mp (List.mem_of_getElem? e1)
    have hat : N.At text p off (c :: cs) :=
      at_iff.mpr ⟨q, hq, epsPath_walk.mpr ⟨ls, e2, hguard ls e4 e5⟩⟩
    exact Or.inr ⟨p, off, c, a, hat, rfl, e6, h2⟩
  · rintro (⟨_, h, _⟩ | ⟨p, off0, c0, a, h1, _, h3, h4⟩)
    · omega
    · obtain ⟨rfl, rfl⟩ := at_unique ht ho h1
      obtain ⟨q, hq, hp⟩ := at_iff.mp h1
      obtain ⟨ls, hw, hg⟩ := epsPath_walk.mp hp
      obtain ⟨j, hj⟩ := List.mem_iff_getElem?.mp ((hL q).mpr hq)
      have hend : EpsType.endAnchor ∉ ls := by
        intro he
        have := hg _ he
        simp only [epsGuard, beq_iff_eq] at this
        omega
      have hst : first = false → EpsType.startAnchor ∉ ls := by
        intro hf0 he
        have := hg _ he
        simp only [epsGuard, beq_iff_eq] at this
        have := hf.mpr this
        rw [hf0] at this; simp at this
      exact ⟨⟨j, walkSummary p ls, s⟩, mem_itemsAt.mpr ⟨a, (hI _ _).mpr ⟨q, ls, p, hj, hw, rfl, hend, hst, h3⟩, h4⟩, rfl⟩

theorem forall2_left {β γ : Type} {R : β → γ → Prop} {l : List β} {m : List γ} (h : List.Forall₂ R l m)
    {x} (hx : x ∈ l) : ∃ y ∈ m, R x y := by
  induction h with
  | nil => simp at hx
  | cons h1 _ ih =>
    rcases List.mem_cons.mp hx with rfl | hx
    · exact ⟨_, by simp, h1⟩
    · obtain ⟨y, h2, h3⟩ := ih hx; exact ⟨y, by simp [h2], h3⟩

theorem forall2_right {β γ : Type} {R : β → γ → Prop} {l : List β} {m : List γ} (h : List.Forall₂ R l m)
    {y} (hy : y ∈ m) : ∃ x ∈ l, R x y := by
  induction h with
  | nil => simp at hy
  | cons h1 _ ih =>
    rcases List.mem_cons.mp hy with rfl | hy
    · exact ⟨_, by simp, h1⟩
    · obtain ⟨x, h2, h3⟩ := ih hy; exact ⟨x, by simp [h2], h3⟩

/-- What the transition of a byte does. -/
theorem dat_step {N : NFA U8Atom} {D : TDFA} (hD : TDFAOk N D) {text pre : List UInt8} {off c cs s L}
    (ht : text = pre ++ c :: cs) (ho : off = unitLen U8Atom pre) (h : DAt N D text off (c :: cs) s L) :
    (s.trans.find? (fun t => t.symbol.check c) = none ∧ ∀ q, ¬ N.Seed text q (off + 1) cs) ∨
    ∃ t s' its first items, s.trans.find? (fun t => t.symbol.check c) = some t ∧ D.states[t.dst]? = some s' ∧
      t ∈ s.trans ∧ its = dedupByKey TItem.dst [] (itemsAt items c) ∧ ItemsOk N first L items ∧
      (first = true ↔ off = 0) ∧
      t.copy = its.map (·.src) ∧
      t.add = its.zipIdx.flatMap (fun p => p.1.prop.tags.map (fun g => (p.2, g))) ∧
      DAt N D text (off + 1) cs s' (its.map (·.dst)) ∧ ItemsOrd N first L items := by
  obtain ⟨first, hE, hf⟩ := h.exp
  obtain ⟨items, hI, hF, hO⟩ := hE.trans
  have hseed := items_seed ht ho hf h.seeds hI
  obtain ⟨s1, s2, s3⟩ := splitRanges_spec items
  cases hfind : s.trans.find? (fun t => t.symbol.check c) with
  | none =>
    refine Or.inl ⟨rfl, ?_⟩
    intro q hq
    obtain ⟨it, hit, _⟩ := (hseed q).mpr hq
    obtain ⟨r, hr, hck⟩ := (s3 c (itemsAt items c)).mpr ⟨rfl, List.ne_nil_of_mem hit⟩
    obtain ⟨t, ht1, ht2⟩ := forall2_right hF hr
    have := List.find?_eq_none.mp hfind t ht1
    rw [ht2.symbol] at this
    exact this hck
  | some t =>
    have htm := List.mem_of_find?_eq_some hfind
    have htc := List.find?_some hfind
    obtain ⟨r, hr, hT⟩ := forall2_left hF htm
    obtain ⟨rr, vs⟩ := r
    have hsy : t.symbol = rr := hT.symbol
    rw [hsy] at htc
    obtain ⟨hvs, _⟩ := (s3 c vs).mp ⟨rr, hr, htc⟩
    subst hvs
    have hd : (namesOf D.states)[t.dst]? = some ((rangeItems (rr, itemsAt items c)).map (·.dst)) := hT.dst
    simp only [List.getElem?_map, Option.map_eq_some_iff] at hd
    obtain ⟨s', hs', hn⟩ := hd
    refine Or.inr ⟨t, s', _, first, items, rfl, hs', htm, rfl, hI, hf, hT.copy, hT.add, ⟨⟨false, ?_, by simp⟩, ?_⟩, hO⟩
    · have := hD.states _ _ hs'
      rw [hn] at this
      exact this
    · intro q
      rw [← hseed q, List.mem_map]
      constructor
      · rintro ⟨it, hit, rfl⟩
        exact ⟨it, (dedupByKey_sub _ _ _ it hit).1, rfl⟩
      · rintro ⟨it, hit, rfl⟩
        rcases dedupByKey_keys TItem.dst (itemsAt items c) [] it hit with h0 | ⟨y, hy, he⟩
        · simp at h0
        · exact ⟨y, hy, he⟩

/-- Acceptance of the tagged DFA: the last walk of epsilons may cross start anchors anywhere. -/
def LaxAcc (N : NFA U8Atom) (text : List UInt8) : Prop :=
  ∃ q ls, N.Seed text q (unitLen U8Atom text) [] ∧ EWalk N q ls (N.length - 1)

theorem dat_start {N : NFA U8Atom} {D : TDFA} (hD : TDFAOk N D) (text : List UInt8) :
    DAt N D text 0 text D.start [0] :=
  ⟨⟨true, hD.start, by simp⟩, fun q => by rw [seed_start]; simp⟩

/-! ### Slots -/

theorem applyRow_one (idx : Nat) (tags : List Tag) (pre post : List Slots) (r r' : Slots)
    (h : tags.foldlM (applyTag idx) r = .ok r') :
    (tags.map (fun g => (pre.length, g))).foldlM (applyRowTag idx) (pre ++ r :: post) = .ok (pre ++ r' :: post) := by
  induction tags generalizing r with
  | nil =>
    simp only [List.foldlM_nil] at h
    injection h with h
    subst h; rfl
  | cons t ts ih =>
    rw [List.foldlM_cons] at h
    cases h1 : applyTag idx r t with
    | error e => rw [h1] at h; exact absurd h (by intro hh; cases hh)
    | ok r1 =>
      rw [h1] at h
      rw [List.map_cons, List.foldlM_cons]
      have : applyRowTag idx (pre ++ r :: post) (pre.length, t) = .ok (pre ++ r1 :: post) := by
        unfold applyRowTag
        simp [h1]
      rw [this]
      exact ih r1 h

theorem applyRows (idx : Nat) (row row' : TItem → Slots) (its : List TItem) (pre : List Slots)
    (h : ∀ it ∈ its, it.prop.tags.foldlM (applyTag idx) (row it) = .ok (row' it)) :
    ((its.zipIdx pre.length).flatMap (fun p => p.1.prop.tags.map (fun g => (p.2, g)))).foldlM
      (applyRowTag idx) (pre ++ its.map row) = .ok (pre ++ its.map row') := by
  induction its generalizing pre with
  | nil => simp; rfl
  | cons it its ih =>
    rw [List.zipIdx_cons, List.flatMap_cons, List.foldlM_append, List.map_cons, List.map_cons,
      applyRow_one idx it.prop.tags pre (its.map row) (row it) (row' it) (h it (by simp))]
    have := ih (pre ++ [row' it]) (fun it' h' => h it' (by simp [h']))
    simp only [List.length_append, List.length_singleton, List.append_assoc, List.singleton_append] at this
    exact this

/-- The row of a thread tells the captures of a run to its state. -/
def RowOk (N : NFA U8Atom) (k : Nat) (text : List UInt8) (off : Nat) (rest : List UInt8) (q : Nat)
    (row : Slots) : Prop :=
  ∃ caps, ReachE N.HasEdge (0, ⟨0, text, []⟩) (q, ⟨off, rest, caps⟩) ∧ row = slotsOf k caps ∧
    ∀ g, k ≤ g → caps.start? g = none

/-- The rows of a state. -/
def RowsOk (N : NFA U8Atom) (k : Nat) (text : List UInt8) (off : Nat) (rest : List UInt8) (L : List Nat)
    (rows : List Slots) : Prop :=
  ∀ (j q : Nat), L[j]? = some q → ∃ row, rows[j]? = some row ∧ RowOk N k text off rest q row

theorem group_lt {D : TDFA} {s : TState} (hs : s ∈ D.states ++ [D.start]) {g : Nat} (hg : g ∈ s.groups) :
    g < D.numCaptureGroups := by
  unfold TDFA.numCaptureGroups
  have := (le_foldl_max ((D.states ++ [D.start]).flatMap TState.groups) 0).2 g
    (List.mem_flatMap.mpr ⟨s, hs, hg⟩)
  omega

theorem walkEvents_start_none {off : Nat} {p : Nat} {ls : List EpsType} {k : Nat}
    (h : ∀ t ∈ (walkSummary p ls).tags, t.group < k) {g : Nat} (hg : k ≤ g) :
    Caps.start? (walkEvents off ls) g = none := by
  rw [walkEvents_start, if_neg]
  intro hm
  have := h _ (mem_tags_start.mpr hm)
  simp only [Tag.group] at this
  omega

theorem tagStep_rows {N : NFA U8Atom} {D : TDFA} {text pre : List UInt8} {off c cs s t}
    {its : List TItem} {items first L rows} (hs : s ∈ D.states ++ [D.start])
    (ht : text = pre ++ c :: cs) (ho : off = unitLen U8Atom pre)
    (hrows : RowsOk N D.numCaptureGroups text off (c :: cs) L rows)
    (htm : t ∈ s.trans) (hits : its = dedupByKey TItem.dst [] (itemsAt items c)) (hI : ItemsOk N first L items)
    (hf : first = true ↔ off = 0) (hcopy : t.copy = its.map (·.src))
    (hadd : t.add = its.zipIdx.flatMap (fun p => p.1.prop.tags.map (fun g => (p.2, g)))) :
    ∃ rows', tagStep off rows t = .ok rows' ∧
      RowsOk N D.numCaptureGroups text (off + 1) cs (its.map (·.dst)) rows' ∧
      ∀ (j : Nat) it, its[j]? = some it → (∀ t ∈ it.prop.tags, t.group < D.numCaptureGroups) ∧
        ∃ row row', rows[it.src]? = some row ∧ it.prop.tags.foldlM (applyTag off) row = .ok row' ∧
          rows'[j]? = some row' := by
  have htot : off + unitLen U8Atom (c :: cs) = unitLen U8Atom text := by rw [ht, unitLen_append, ho]
  have hlt : off < unitLen U8Atom text := by
    rw [ht, unitLen_append, ho, unitLen_u8, unitLen_u8]; simp
  have hex : ∀ it ∈ its, ∃ row row', rows[it.src]? = some row ∧
      it.prop.tags.foldlM (applyTag off) row = .ok row' ∧ RowOk N D.numCaptureGroups text (off + 1) cs it.dst row' ∧
      ∀ t ∈ it.prop.tags, t.group < D.numCaptureGroups := by
    intro it hit
    have hit' := hit
    rw [hits] at hit
    obtain ⟨a, h1, h2⟩ := mem_itemsAt.mp (dedupByKey_sub _ _ _ it hit).1
    obtain ⟨q, ls, p, e1, e2, e3, e4, e5, e6⟩ := (hI a it).mp h1
    obtain ⟨row, r1, caps, r2, r3, r4⟩ := hrows _ _ e1
    have htags : ∀ t ∈ (walkSummary p ls).tags, t.group < D.numCaptureGroups := by
      intro tg htg
      refine group_lt hs ?_
      unfold TState.groups
      refine List.mem_append_left _ (List.mem_flatMap.mpr ⟨t, htm, ?_⟩)
      obtain ⟨j, hj⟩ := List.mem_iff_getElem?.mp hit'
      refine List.mem_map.mpr ⟨(j, tg), ?_, rfl⟩
      rw [hadd]
      refine List.mem_flatMap.mpr ⟨(it, j), List.mem_zipIdx_iff_getElem?.mpr hj, ?_⟩
      exact List.mem_map.mpr ⟨tg, by rw [e3]; exact htg, rfl⟩
    have hg : ∀ e ∈ ls, epsGuard off (unitLen U8Atom text) e = true := by
      intro e he
      cases e with
      | startAnchor =>
        cases first with
        | true => simpa [epsGuard] using hf.mp rfl
        | false => exact absurd he (e5 rfl)
      | endAnchor => exact absurd he e4
      | _ => rfl
    refine ⟨row, _, r1, by rw [r3, e3]; exact applyTags_walk caps htags, ⟨caps ++ walkEvents off ls, ?_, rfl, ?_⟩, by rw [e3]; exact htags⟩
    · refine reachE_trans r2 (reachE_trans (walkRun e2 hg htot caps) (reachE_step e6 (show symStep a (⟨off, c :: cs, caps ++ walkEvents off ls⟩ : Cfg UInt8) = _ from ?_)))
      exact symStep_iff.mpr ⟨c, cs, rfl, h2, rfl⟩
    · intro g hgk
      rw [start?_append, r4 g hgk, walkEvents_start_none htags hgk]; rfl
  have hrow : ∀ it : TItem, ∃ row row' : Slots, it ∈ its → rows[it.src]? = some row ∧
      it.prop.tags.foldlM (applyTag off) row = .ok row' ∧ RowOk N D.numCaptureGroups text (off + 1) cs it.dst row' ∧
      ∀ t ∈ it.prop.tags, t.group < D.numCaptureGroups := by
    intro it
    by_cases h : it ∈ its
    · obtain ⟨r, r', hh⟩ := hex it h; exact ⟨r, r', fun _ => hh⟩
    · exact ⟨[], [], fun h' => absurd h' h⟩
  choose row row' hrow using hrow
  have hmap : t.copy.mapM (getRow rows) = .ok (its.map row) := by
    rw [hcopy]
    have : ∀ (l : List TItem), (∀ it ∈ l, rows[it.src]? = some (row it)) →
        (l.map (·.src)).mapM (getRow rows) = .ok (l.map row) := by
      intro l
      induction l with
      | nil => intro _; rfl
      | cons it l ih =>
        intro h
        rw [List.map_cons, List.mapM_cons, ih (fun it' h' => h it' (by simp [h']))]
        have : getRow rows it.src = .ok (row it) := by unfold getRow; rw [h it (by simp)]
        rw [this]; rfl
    exact this its (fun it h => (hrow it h).1)
  refine ⟨its.map row', ?_, ?_, ?_⟩
  · unfold tagStep
    rw [hmap]
    simp only
    rw [hadd]
    have := applyRows off row row' its [] (fun it h => (hrow it h).2.1)
    simpa using this
  · intro j q hq
    simp only [List.getElem?_map, Option.map_eq_some_iff] at hq
    obtain ⟨it, h1, rfl⟩ := hq
    exact ⟨row' it, by simp [h1], (hrow it (List.mem_of_getElem? h1)).2.2.1⟩
  · intro j it h1
    have := hrow it (List.mem_of_getElem? h1)
    exact ⟨this.2.2.2, row it, row' it, this.1, this.2.1, by simp [h1]⟩

/-! ### `exec` -/

theorem seed_guard {N : NFA U8Atom} (hs : StartSafe N) {text : List UInt8} {q off rest ls}
    (h : N.Seed text q off rest) (hw : EWalk N q ls (N.length - 1)) (total : Nat)
    (he : EpsType.endAnchor ∈ ls → off = total) :
    ∀ e ∈ ls, epsGuard off total e = true := by
  intro e hm
  cases e with
  | startAnchor =>
    rcases h with ⟨_, h, _⟩ | ⟨p, _, _, a, _, _, h, _⟩
    · simpa [epsGuard] using h
    · exact absurd hm (hs _ _ _ _ h hw)
  | endAnchor => simpa [epsGuard] using he hm
  | _ => rfl

theorem tdfaExecLoop {N : NFA U8Atom} {D : TDFA} (hD : TDFAOk N D)
    (text : List UInt8) : ∀ (rest pre : List UInt8) (off : Nat) (v : VState) (s : TState) (L : List Nat)
      (rows : List Slots), text = pre ++ rest → off = unitLen U8Atom pre → D.get v = some s →
      DAt N D text off rest s L → RowsOk N D.numCaptureGroups text off rest L rows →
      (D.execLoop v rows off rest = .ok none ∧ ¬ LaxAcc N text) ∨
      (∃ slots, D.execLoop v rows off rest = .ok (some slots) ∧ LaxAcc N text ∧
        (StartSafe N → RowOk N D.numCaptureGroups text (unitLen U8Atom text) [] (N.length - 1) slots) ∧
        ∃ q caps ls, ReachE N.HasEdge (0, ⟨0, text, []⟩) (q, ⟨unitLen U8Atom text, [], caps⟩) ∧
          EWalk N q ls (N.length - 1) ∧ slots = slotsOf D.numCaptureGroups (caps ++ walkEvents (unitLen U8Atom text) ls) ∧
          ∀ g, D.numCaptureGroups ≤ g → (caps ++ walkEvents (unitLen U8Atom text) ls).start? g = none) := by
  have hmem : ∀ v s, D.get v = some s → s ∈ D.states ++ [D.start] := by
    intro v s h
    cases v with
    | start => simp only [TDFA.get, Option.some.injEq] at h; subst h; simp
    | normal i => exact List.mem_append_left _ (List.mem_of_getElem? h)
  intro rest
  induction rest with
  | nil =>
    intro pre off v s L rows h1 h2 hv hA hR
    have htot : off = unitLen U8Atom text := by rw [h1, List.append_nil, h2]
    obtain ⟨first, hE, hf⟩ := hA.exp
    unfold TDFA.execLoop
    rw [hv]
    simp only
    cases hfin : s.accept.final with
    | none =>
      refine Or.inl ⟨rfl, ?_⟩
      rintro ⟨q, ls, g1, g2⟩
      rw [← htot] at g1
      exact hE.accept.none hfin q ((hA.seeds q).mpr g1) ls g2
    | some a =>
      obtain ⟨q, ls, e1, e2, e3⟩ := hE.accept.some a hfin
      obtain ⟨row, r1, caps, r2, r3, r4⟩ := hR _ _ e1
      have hseed := (hA.seeds q).mp (List.mem_of_getElem? e1)
      have htags : ∀ t ∈ (walkSummary (N.length - 1) ls).tags, t.group < D.numCaptureGroups := by
        intro tg htg
        refine group_lt (hmem v s hv) ?_
        unfold TState.groups
        refine List.mem_append_right _ ?_
        rw [← e3] at htg
        have : tg.group ∈ a.add.map Tag.group := List.mem_map.mpr ⟨tg, htg, rfl⟩
        cases hacc : s.accept with
        | none => rw [hacc] at hfin; simp [TAccept.final] at hfin
        | anchored x => rw [hacc] at hfin; simp [TAccept.final] at hfin; subst hfin; exact this
        | both x y =>
          rw [hacc] at hfin; simp [TAccept.final] at hfin; subst hfin
          exact List.mem_append_left _ this
        | unanchored x => rw [hacc] at hfin; simp [TAccept.final] at hfin; subst hfin; exact this
      have happ := applyTags_walk (off := off) caps htags
      rw [← e3, ← r3] at happ
      have hrow : getRow rows a.state = .ok row := by unfold getRow; rw [r1]
      simp only
      rw [hrow]
      simp only
      rw [happ]
      have hnone : ∀ g, D.numCaptureGroups ≤ g → (caps ++ walkEvents off ls).start? g = none := by
        intro g hgk
        rw [start?_append, r4 g hgk, walkEvents_start_none htags hgk]; rfl
      refine Or.inr ⟨_, rfl, ⟨q, ls, by rw [← htot]; exact hseed, e2⟩, ?_, q, caps, ls, by rw [← htot]; exact r2, e2,
        by rw [← htot], by rw [← htot]; exact hnone⟩
      intro hsafe
      refine ⟨caps ++ walkEvents off ls, ?_, rfl, hnone⟩
      have hg := seed_guard hsafe hseed e2 (unitLen U8Atom text) (fun _ => htot)
      have := walkRun e2 hg (by rw [htot]; simp [unitLen]) caps (rest := ([] : List UInt8))
      rw [← htot]
      exact reachE_trans r2 this
  | cons c cs ih =>
    intro pre off v s L rows h1 h2 hv hA hR
    have e1 : text = (pre ++ [c]) ++ cs := by simp [h1]
    have e2 : off + 1 = unitLen U8Atom (pre ++ [c]) := by
      rw [unitLen_append, h2]; rfl
    unfold TDFA.execLoop
    rw [hv]
    simp only
    rcases dat_step hD h1 h2 hA with ⟨g1, g2⟩ | ⟨t, s', its, first, items, g1, g2, g3, g4, g5, g6, g7, g8, g9, _⟩
    · rw [g1]
      refine Or.inl ⟨rfl, ?_⟩
      rintro ⟨q, ls, g3, _⟩
      obtain ⟨caps, hat⟩ := (at_iff.mpr ⟨q, g3, .refl⟩ : N.At text q (unitLen U8Atom text) [])
      exact no_seed e1 e2 g2 q ⟨caps, hat⟩
    · rw [g1]
      simp only
      obtain ⟨rows', k1, k2, _⟩ := tagStep_rows (hmem v s hv) h1 h2 hR g3 g4 g5 g6 g7 g8
      rw [k1]
      simp only
      exact ih (pre ++ [c]) (off + 1) (.normal t.dst) s' _ rows' e1 e2 g2 g9 k2

theorem rows_start {N : NFA U8Atom} (k : Nat) (text : List UInt8) :
    RowsOk N k text 0 text [0] [List.replicate k (none, none)] := by
  intro j q hj
  have h0 : j = 0 := by
    have := (List.getElem?_eq_some_iff.mp hj).1
    simpa using this
  subst h0
  simp only [List.getElem?_cons_zero, Option.some.injEq] at hj
  subst hj
  refine ⟨_, rfl, [], reachE_refl, ?_, fun g _ => rfl⟩
  refine List.ext_getElem? fun g => ?_
  by_cases hg : g < k
  · rw [slotsOf_get hg]; simp [hg, Caps.start?, Caps.end?]
  · rw [List.getElem?_eq_none (by simp; omega), List.getElem?_eq_none (by simp [slotsOf]; omega)]

/-! ### `test` -/

/-- The DFA without tags, before minimisation. -/
def TDFA.plain (D : TDFA) : DFA := ⟨D.start.untag, D.states.map TState.untag⟩

theorem plain_get (D : TDFA) (v : VState) : D.plain.get v = (D.get v).map TState.untag := by
  cases v with
  | start => rfl
  | normal i => simp [DFA.get, TDFA.get, TDFA.plain]

theorem insertTrans_last (t : DTrans) (l : List DTrans) (h : ∀ u ∈ l, u.symbol.lo ≤ t.symbol.lo) :
    insertTrans t l = l ++ [t] := by
  induction l with
  | nil => rfl
  | cons u us ih =>
    unfold insertTrans
    rw [if_pos (h u (by simp)), ih (fun x hx => h x (by simp [hx]))]
    rfl

theorem sortTrans_sorted (l acc : List DTrans)
    (h : (acc ++ l).Pairwise (fun x y => x.symbol.lo ≤ y.symbol.lo)) :
    l.foldl (fun acc t => insertTrans t acc) acc = acc ++ l := by
  induction l generalizing acc with
  | nil => simp
  | cons t l ih =>
    rw [List.foldl_cons, insertTrans_last t acc, ih (acc ++ [t]) (by simpa using h)]
    · simp
    · intro u hu
      rw [List.pairwise_append] at h
      exact h.2.2 u hu t (by simp)

/-- The transitions of an expanded state are sorted and do not overlap. -/
theorem Expanded.sorted {N first L names s} (h : Expanded N first L names s) :
    s.trans.Pairwise (fun x y => x.symbol.hi < y.symbol.lo) ∧ ∀ t ∈ s.trans, t.symbol.lo ≤ t.symbol.hi ∧
      t.dst < names.length := by
  obtain ⟨items, _, hF, _⟩ := h.trans
  obtain ⟨s1, s2, _⟩ := splitRanges_spec items
  obtain ⟨hl, hg⟩ := List.forall₂_iff_get.mp hF
  constructor
  · rw [List.pairwise_iff_getElem] at s1 ⊢
    intro i j hi hj hij
    have a1 := (hg i hi (by rw [← hl]; exact hi)).symbol
    have a2 := (hg j hj (by rw [← hl]; exact hj)).symbol
    simp only [List.get_eq_getElem] at a1 a2
    rw [a1, a2]
    exact s1 i j _ _ hij
  · intro t ht
    obtain ⟨i, hi, rfl⟩ := List.mem_iff_getElem.mp ht
    have a1 := hg i hi (by rw [← hl]; exact hi)
    simp only [List.get_eq_getElem] at a1
    refine ⟨?_, (List.getElem?_eq_some_iff.mp a1.dst).1⟩
    rw [a1.symbol]
    exact (s2 _ (List.getElem_mem _)).1

theorem Expanded.untag_trans {N first L names s} (h : Expanded N first L names s) :
    s.untag.trans = s.trans.map (fun t => ⟨t.dst, t.symbol⟩) := by
  obtain ⟨h1, h2⟩ := h.sorted
  unfold TState.untag sortTrans
  simp only
  rw [sortTrans_sorted _ [] ?_, List.nil_append]
  rw [List.nil_append, List.pairwise_map]
  refine (List.Pairwise.and_mem.mp h1).imp ?_
  rintro x y ⟨hx, _, hxy⟩
  have := (h2 x hx).1
  show x.symbol.lo ≤ y.symbol.lo
  rw [UInt8.le_iff_toNat_le] at this ⊢
  rw [UInt8.lt_iff_toNat_lt] at hxy
  omega

/-- An unanchored accept can be extended to the end of the text. -/
def LaxExt (N : NFA U8Atom) (text : List UInt8) : Prop :=
  ∀ off rest q ls, N.Seed text q off rest → EWalk N q ls (N.length - 1) → EpsType.endAnchor ∉ ls → LaxAcc N text

/-- A way to the accept state that needs no end of the text, from somewhere in the text; anchors `^` are ignored. -/
def LaxEarly (N : NFA U8Atom) (text : List UInt8) : Prop :=
  ∃ off rest q ls, N.Seed text q off rest ∧ EWalk N q ls (N.length - 1) ∧ EpsType.endAnchor ∉ ls

theorem plainTestLoop {N : NFA U8Atom} {D : TDFA} (hD : TDFAOk N D)
    (text : List UInt8) : ∀ (rest pre : List UInt8) (off : Nat) (v : VState) (s : TState)
      (L : List Nat), text = pre ++ rest → off = unitLen U8Atom pre → D.get v = some s →
      DAt N D text off rest s L → (D.plain.testLoop v rest = true → LaxAcc N text ∨ LaxEarly N text) ∧
        (LaxAcc N text → D.plain.testLoop v rest = true) := by
  intro rest
  induction rest with
  | nil =>
    intro pre off v s L h1 h2 hv hA
    have htot : off = unitLen U8Atom text := by rw [h1, List.append_nil, h2]
    obtain ⟨first, hE, hf⟩ := hA.exp
    unfold DFA.testLoop
    rw [plain_get, hv]
    simp only [Option.map_some]
    have hacc : (s.untag.accept != .none) = true ↔ s.accept.final ≠ none := by
      unfold TState.untag; cases s.accept <;> simp [TAccept.untag, TAccept.final]
    rw [hacc]
    constructor
    · intro hne
      obtain ⟨a, ha⟩ := Option.ne_none_iff_exists'.mp hne
      obtain ⟨q, ls, e1, e2, _⟩ := hE.accept.some a ha
      exact Or.inl ⟨q, ls, by rw [← htot]; exact (hA.seeds q).mp (List.mem_of_getElem? e1), e2⟩
    · rintro ⟨q, ls, g1, g2⟩ hn
      rw [← htot] at g1
      exact hE.accept.none hn q ((hA.seeds q).mpr g1) ls g2
  | cons c cs ih =>
    intro pre off v s L h1 h2 hv hA
    have e1 : text = (pre ++ [c]) ++ cs := by simp [h1]
    have e2 : off + 1 = unitLen U8Atom (pre ++ [c]) := by
      rw [unitLen_append, h2]; rfl
    obtain ⟨first, hE, hf⟩ := hA.exp
    unfold DFA.testLoop
    rw [plain_get, hv]
    simp only [Option.map_some]
    split
    · rename_i hal
      refine ⟨fun _ => ?_, fun _ => rfl⟩
      obtain ⟨q, hq, ls, g1, g2⟩ := hE.accept.always hal
      exact Or.inr ⟨_, _, q, ls, (hA.seeds q).mp hq, g1, g2⟩
    · rw [hE.untag_trans, List.find?_map]
      have hcomp : ((fun t : DTrans => t.symbol.check c) ∘ fun t : TTrans => (⟨t.dst, t.symbol⟩ : DTrans)) =
          fun t : TTrans => t.symbol.check c := rfl
      rw [hcomp]
      rcases dat_step hD h1 h2 hA with ⟨g1, g2⟩ | ⟨t, s', its, first, items, g1, g2, g3, g4, g5, g6, g7, g8, g9, _⟩
      · rw [g1]
        refine ⟨fun h => by simp at h, ?_⟩
        rintro ⟨q, ls, g3, _⟩
        obtain ⟨caps, hat⟩ := (at_iff.mpr ⟨q, g3, .refl⟩ : N.At text q (unitLen U8Atom text) [])
        exact absurd ⟨caps, hat⟩ (no_seed e1 e2 g2 q)
      · rw [g1]
        exact ih (pre ++ [c]) (off + 1) (.normal t.dst) s' _ e1 e2 g2 g9

/-- What `test` of the DFA says, for every automaton. -/
theorem plainTest_lax {N : NFA U8Atom} {D : TDFA} (hD : TDFAOk N D) (text : List UInt8) :
    (D.plain.test text = true → LaxAcc N text ∨ LaxEarly N text) ∧ (LaxAcc N text → D.plain.test text = true) := by
  have hA := dat_start hD text
  unfold DFA.test
  split
  · rename_i hal
    refine ⟨fun _ => ?_, fun _ => rfl⟩
    obtain ⟨first, hE, hf⟩ := hA.exp
    obtain ⟨q, hq, ls, g1, g2⟩ := hE.accept.always hal
    exact Or.inr ⟨_, _, q, ls, (hA.seeds q).mp hq, g1, g2⟩
  · exact plainTestLoop hD text text [] 0 .start D.start [0] rfl rfl rfl hA

theorem plainTest {N : NFA U8Atom} {D : TDFA} (hD : TDFAOk N D) (text : List UInt8) (hx : LaxExt N text) :
    D.plain.test text = true ↔ LaxAcc N text :=
  ⟨fun h => ((plainTest_lax hD text).1 h).elim id fun ⟨_, _, q, ls, g1, g2, g3⟩ => hx _ _ q ls g1 g2 g3,
    (plainTest_lax hD text).2⟩

/-- Every run to the end of the text is found. -/
theorem laxAcc_of_at {N : NFA U8Atom} {text : List UInt8} (h : N.At text (N.length - 1) (unitLen U8Atom text) []) :
    LaxAcc N text := by
  obtain ⟨q, h1, h2⟩ := at_iff.mp h
  obtain ⟨ls, h3, _⟩ := epsPath_walk.mp h2
  exact ⟨q, ls, h1, h3⟩

/-- Without wrongly placed start anchors the tagged DFA accepts what the automaton accepts. -/
theorem laxAcc_iff {N : NFA U8Atom} (hs : StartSafe N) (text : List UInt8) :
    LaxAcc N text ↔ N.At text (N.length - 1) (unitLen U8Atom text) [] := by
  rw [at_iff]
  constructor
  · rintro ⟨q, ls, h1, h2⟩
    exact ⟨q, h1, epsPath_walk.mpr ⟨ls, h2, seed_guard hs h1 h2 _ (fun _ => rfl)⟩⟩
  · rintro ⟨q, h1, h2⟩
    obtain ⟨ls, h3, _⟩ := epsPath_walk.mp h2
    exact ⟨q, ls, h1, h3⟩

end Ere
