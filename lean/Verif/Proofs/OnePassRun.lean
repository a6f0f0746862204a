import Verif.Proofs.OnePass
import Mathlib.Data.List.Pairwise

/-! The one-pass engine: runs of the table, and the vm-like program. -/

namespace Ere

/-! ### Tables -/

/-- What the macro knows of an automaton that passed the one-pass check. -/
structure OpTable (N : NFA U8Atom) (rows : List (OpRow × List Upd)) : Prop where
  len : rows.length = N.length
  row : ∀ (q : Nat) r, rows[q]? = some r → ∀ a u, (a, u) ∈ r.1 ↔ ∃ p ls, EWalk N q ls p ∧
    N.HasEdge p (.sym a) u.state ∧ u = opSummary N.numCaptureGroups u.state ls
  acc : ∀ (q : Nat) r, rows[q]? = some r → ∀ u, u ∈ r.2 ↔ ∃ ls, EWalk N q ls (N.length - 1) ∧
    u = opSummary N.numCaptureGroups (N.length - 1) ls
  accNodup : ∀ (q : Nat) r, rows[q]? = some r → r.2.Nodup
  disj : ∀ (q : Nat) r, rows[q]? = some r → r.1.Pairwise (fun x y => x.1.hi < y.1.lo)

theorem opDisjoint_iff {r : OpRow} (hs : r.Pairwise (fun a b => a.1.lo ≤ b.1.lo)) :
    opDisjoint r = true ↔ r.Pairwise (fun x y => x.1.hi < y.1.lo) := by
  induction r with
  | nil => simp [opDisjoint]
  | cons a r ih =>
    cases r with
    | nil => simp [opDisjoint]
    | cons b l =>
      rw [opDisjoint, Bool.and_eq_true, decide_eq_true_eq, ih hs.tail, List.pairwise_cons (a := a)]
      constructor
      · rintro ⟨h1, h2⟩
        refine ⟨?_, h2⟩
        intro y hy
        rcases List.mem_cons.mp hy with rfl | hy
        · exact h1
        · exact UInt8.lt_of_lt_of_le h1 ((List.pairwise_cons.mp hs.tail).1 y hy)
      · rintro ⟨h1, h2⟩
        exact ⟨h1 b (by simp), h2⟩

theorem opSort_pairwise (r : OpRow) : (opSort r).Pairwise (fun a b => a.1.lo ≤ b.1.lo) := by
  unfold opSort
  haveI : Std.Total (fun a b : U8Atom × Upd => a.1.lo ≤ b.1.lo) := ⟨fun a b => UInt8.le_total a.1.lo b.1.lo⟩
  haveI : IsTrans (U8Atom × Upd) (fun a b => a.1.lo ≤ b.1.lo) := ⟨fun a b c h1 h2 => UInt8.le_trans h1 h2⟩
  exact List.pairwise_insertionSort _ _

/-- The result of the one-pass check. -/
theorem opRows_spec {N : NFA U8Atom} (hN : Ready N) :
    ∃ rows0 rows, (List.range N.length).mapM N.opRow = .ok rows0 ∧
      rows = rows0.map (fun r => (opSort r.1, r.2)) ∧
      (rows.any (fun r => !opDisjoint r.1) = true ∨ OpTable N rows) := by
  obtain ⟨rows0, h1, h2, h3⟩ := mapM_ok (f := N.opRow) (l := List.range N.length) (by
    intro q hq
    obtain ⟨row, acc, h, _⟩ := opRow_spec hN (List.mem_range.mp hq)
    exact ⟨_, h⟩)
  refine ⟨rows0, _, h1, rfl, ?_⟩
  by_cases hd : (rows0.map (fun r => (opSort r.1, r.2))).any (fun r => !opDisjoint r.1) = true
  · exact Or.inl hd
  · right
    have key : ∀ (q : Nat) r, (rows0.map (fun r => (opSort r.1, r.2)))[q]? = some r →
        ∃ row, N.opRow q = .ok (row, r.2) ∧ r.1 = opSort row ∧ q < N.length := by
      intro q r hr
      rw [List.getElem?_map, Option.map_eq_some_iff] at hr
      obtain ⟨r0, hr0, rfl⟩ := hr
      have hq : q < N.length := by
        have := (List.getElem?_eq_some_iff.mp hr0).1
        rw [h2] at this; simpa using this
      obtain ⟨y, hy1, hy2⟩ := h3 q q (by simp [hq])
      rw [hr0] at hy1; injection hy1 with hy1; subst hy1
      exact ⟨r0.1, hy2, rfl, hq⟩
    refine ⟨by simp [h2], ?_, ?_, ?_, ?_⟩
    · intro q r hr a u
      obtain ⟨row, e1, e2, hq⟩ := key q r hr
      obtain ⟨row', acc', f1, _, _, f2, _⟩ := opRow_spec hN hq
      rw [e1] at f1; injection f1 with f1; injection f1 with f1 f1'; subst f1
      rw [e2, ← f2]
      unfold opSort
      rw [List.mem_insertionSort]
    · intro q r hr u
      obtain ⟨row, e1, e2, hq⟩ := key q r hr
      obtain ⟨row', acc', f1, _, _, _, f2⟩ := opRow_spec hN hq
      rw [e1] at f1; injection f1 with f1; injection f1 with f1 f1'; subst f1'
      rw [f2]
    · intro q r hr
      obtain ⟨row, e1, e2, hq⟩ := key q r hr
      obtain ⟨row', acc', f1, _, f2, _⟩ := opRow_spec hN hq
      rw [e1] at f1; injection f1 with f1; injection f1 with f1 f1'; subst f1'
      exact f2
    · intro q r hr
      obtain ⟨row, e1, e2, hq⟩ := key q r hr
      rw [e2]
      refine (opDisjoint_iff (opSort_pairwise row)).mp ?_
      rw [← e2]
      by_contra hc
      refine hd (List.any_eq_true.mpr ⟨r, List.mem_of_getElem? hr, by simpa using hc⟩)

theorem row_unique {r : OpRow} (h : r.Pairwise (fun x y => x.1.hi < y.1.lo)) {x y : U8Atom × Upd} {c : UInt8}
    (hx : x ∈ r) (hy : y ∈ r) (h1 : x.1.check c = true) (h2 : y.1.check c = true) : x = y := by
  by_contra hne
  have hsym : r.Pairwise (fun x y => ¬ (x.1.check c = true ∧ y.1.check c = true)) := by
    refine h.imp ?_
    rintro a b hab ⟨ha, hb⟩
    unfold U8Atom.check at ha hb
    rw [Bool.and_eq_true, decide_eq_true_eq, decide_eq_true_eq] at ha hb
    exact absurd (UInt8.lt_of_lt_of_le hab (UInt8.le_trans hb.1 ha.2)) (UInt8.lt_irrefl _)
  haveI : Std.Symm (fun x y : U8Atom × Upd => ¬ (x.1.check c = true ∧ y.1.check c = true)) :=
    ⟨fun a b h hh => h ⟨hh.2, hh.1⟩⟩
  exact hsym.forall hx hy hne ⟨h1, h2⟩

/-! ### Runs of the table -/

/-- May the update be used before the symbol at offset `off`? -/
def opGuard (off : Nat) (u : Upd) : Bool := !u.endOnly && (!u.startOnly || off == 0)

theorem mem_tagsOf_start {l : List (Bool × Bool)} {g : Nat} :
    Tag.startCapture g ∈ tagsOf l ↔ ∃ p, l[g]? = some p ∧ p.1 = true := by
  unfold tagsOf
  rw [List.mem_flatMap]
  constructor
  · rintro ⟨⟨⟨a, b⟩, i⟩, h1, h2⟩
    rw [List.mem_zipIdx_iff_getElem?] at h1
    cases a <;> cases b <;> simp at h2
    all_goals subst h2; exact ⟨_, h1, rfl⟩
  · rintro ⟨p, h1, h2⟩
    exact ⟨(p, g), List.mem_zipIdx_iff_getElem?.mpr h1, by simp [h2]⟩

theorem mem_tagsOf_end {l : List (Bool × Bool)} {g : Nat} :
    Tag.endCapture g ∈ tagsOf l ↔ ∃ p, l[g]? = some p ∧ p.2 = true := by
  unfold tagsOf
  rw [List.mem_flatMap]
  constructor
  · rintro ⟨⟨⟨a, b⟩, i⟩, h1, h2⟩
    rw [List.mem_zipIdx_iff_getElem?] at h1
    cases a <;> cases b <;> simp at h2
    all_goals subst h2; exact ⟨_, h1, rfl⟩
  · rintro ⟨p, h1, h2⟩
    exact ⟨(p, g), List.mem_zipIdx_iff_getElem?.mpr h1, by simp [h2]⟩

theorem mem_tagsOf_lt {l : List (Bool × Bool)} {t : Tag} (h : t ∈ tagsOf l) : t.group < l.length := by
  cases t with
  | startCapture g =>
    obtain ⟨p, h1, _⟩ := mem_tagsOf_start.mp h
    exact (List.getElem?_eq_some_iff.mp h1).1
  | endCapture g =>
    obtain ⟨p, h1, _⟩ := mem_tagsOf_end.mp h
    exact (List.getElem?_eq_some_iff.mp h1).1

theorem summary_caps_get {k p g : Nat} {ls : List EpsType} (h : g < k) : (opSummary k p ls).caps[g]? =
    some (ls.contains (.startCapture g), ls.contains (.endCapture g)) := by
  simp [opSummary, h]

theorem applyTags_op {k off p : Nat} {ls : List EpsType} (c : Caps) :
    (tagsOf (opSummary k p ls).caps).foldlM (applyTag off) (slotsOf k c) =
      .ok (slotsOf k (c ++ walkEvents off ls)) := by
  have hlen : (slotsOf k c).length = k := by simp [slotsOf]
  obtain ⟨s', h1, h2, h3⟩ := applyTags_ok off (tagsOf (opSummary k p ls).caps) (slotsOf k c) (by
    intro t ht
    have := mem_tagsOf_lt ht
    rw [hlen]; simpa [opSummary] using this)
  rw [h1]
  congr 1
  refine List.ext_getElem? fun g => ?_
  by_cases hg : g < k
  · rw [h3 g _ (slotsOf_get hg), slotsOf_get hg, start?_append, end?_append, walkEvents_start, walkEvents_end]
    have e1 : Tag.startCapture g ∈ tagsOf (opSummary k p ls).caps ↔ EpsType.startCapture g ∈ ls := by
      rw [mem_tagsOf_start, summary_caps_get hg]; simp
    have e2 : Tag.endCapture g ∈ tagsOf (opSummary k p ls).caps ↔ EpsType.endCapture g ∈ ls := by
      rw [mem_tagsOf_end, summary_caps_get hg]; simp
    simp only [e1, e2]
    congr 2
    · split <;> simp
    · split <;> simp
  · rw [List.getElem?_eq_none (by omega), List.getElem?_eq_none (by simp [slotsOf]; omega)]

theorem guard_op {k off total p : Nat} {ls : List EpsType} :
    (∀ e ∈ ls, epsGuard off total e = true) ↔
      ((opSummary k p ls).startOnly = true → off = 0) ∧ ((opSummary k p ls).endOnly = true → off = total) := by
  rw [guard_walk (p := p)]
  simp [walkSummary, opSummary]

theorem seed_step {N : NFA U8Atom} {rows : List (OpRow × List Upd)} (hT : OpTable N rows)
    {text pre : List UInt8} {off c cs q r} (ht : text = pre ++ c :: cs) (ho : off = unitLen U8Atom pre)
    (hU : ∀ s, N.Seed text s off (c :: cs) ↔ s = q) (hr : rows[q]? = some r) (s : Nat) :
    N.Seed text s (off + 1) cs ↔ ∃ t ∈ r.1, t.1.check c = true ∧ opGuard off t.2 = true ∧ t.2.state = s := by
  have htot : off < unitLen U8Atom text := by
    rw [ht, unitLen_append, ho, unitLen_u8, unitLen_u8]; simp
  constructor
  · rintro (⟨_, h, _⟩ | ⟨q0, off0, c0, a, h1, h2, h3, h4⟩)
    · omega
    · obtain ⟨rfl, rfl⟩ := at_unique ht ho h1
      obtain ⟨s0, hs0, hp⟩ := at_iff.mp h1
      have := (hU s0).mp hs0
      subst this
      obtain ⟨ls, hw, hg⟩ := epsPath_walk.mp hp
      refine ⟨(a, opSummary N.numCaptureGroups s ls), (hT.row _ _ hr _ _).mpr ⟨q0, ls, hw, h3, rfl⟩, h4, ?_, rfl⟩
      obtain ⟨g1, g2⟩ := (guard_op (k := N.numCaptureGroups) (p := s)).mp hg
      unfold opGuard
      rw [Bool.and_eq_true]
      constructor
      · cases he : (opSummary N.numCaptureGroups s ls).endOnly with
        | false => rfl
        | true => have := g2 he; omega
      · cases he : (opSummary N.numCaptureGroups s ls).startOnly with
        | false => rfl
        | true => simp [g1 he]
  · rintro ⟨⟨a, u⟩, h1, h2, h3, rfl⟩
    obtain ⟨p, ls, hw, he, hu⟩ := (hT.row _ _ hr _ _).mp h1
    refine Or.inr ⟨p, off, c, a, at_iff.mpr ⟨q, (hU q).mpr rfl, epsPath_walk.mpr ⟨ls, hw, ?_⟩⟩, rfl, he, h2⟩
    refine (guard_op (k := N.numCaptureGroups) (p := u.state)).mpr ?_
    rw [← hu]
    simp only [opGuard, Bool.and_eq_true, Bool.not_eq_true', Bool.or_eq_true, beq_iff_eq] at h3
    constructor
    · intro hh
      rcases h3.2 with h | h
      · rw [hh] at h; simp at h
      · exact h
    · intro hh
      rw [h3.1] at hh; simp at hh

/-- The state of the machine in the middle of a text. -/
structure OpAt (N : NFA U8Atom) (text : List UInt8) (off : Nat) (rest : List UInt8) (q : Nat) (caps : Slots) :
    Prop where
  uniq : ∀ s, N.Seed text s off rest ↔ s = q
  run : ThreadOk N text off rest ⟨q, caps⟩

theorem OpAt.lt {N : NFA U8Atom} (hN : Ready N) {text off rest q caps} (h : OpAt N text off rest q caps) :
    q < N.length := (seed_lt hN.wf hN.ne ((h.uniq q).mpr rfl)).1

theorem OpAt.init {N : NFA U8Atom} (text : List UInt8) :
    OpAt N text 0 text 0 (List.replicate N.numCaptureGroups (none, none)) :=
  ⟨fun s => seed_start text s, ((seedThreads_start text).sound _ (by simp)).1⟩

theorem OpAt.step {N : NFA U8Atom} {rows : List (OpRow × List Upd)} (hT : OpTable N rows)
    {text pre : List UInt8} {off c cs q caps r t} (ht : text = pre ++ c :: cs) (ho : off = unitLen U8Atom pre)
    (h : OpAt N text off (c :: cs) q caps) (hr : rows[q]? = some r) (hm : t ∈ r.1) (hc : t.1.check c = true)
    (hg : opGuard off t.2 = true) :
    ∃ caps', (tagsOf t.2.caps).foldlM (applyTag off) caps = .ok caps' ∧
      OpAt N text (off + 1) cs t.2.state caps' := by
  obtain ⟨a, u⟩ := t
  obtain ⟨p, ls, hw, he, hu⟩ := (hT.row _ _ hr _ _).mp hm
  obtain ⟨evs, h1, h2⟩ := h.run
  simp only at h2
  refine ⟨slotsOf N.numCaptureGroups (evs ++ walkEvents off ls), ?_, ?_, ?_⟩
  · rw [h2]
    simp only
    rw [hu]
    exact applyTags_op evs
  · intro s
    rw [seed_step hT ht ho h.uniq hr]
    constructor
    · rintro ⟨t', hm', hc', _, rfl⟩
      rw [row_unique (hT.disj _ _ hr) hm' hm hc' hc]
    · rintro rfl
      exact ⟨_, hm, hc, hg, rfl⟩
  · refine ⟨evs ++ walkEvents off ls, ?_, rfl⟩
    have htot : off + unitLen U8Atom (c :: cs) = unitLen U8Atom text := by rw [ht, unitLen_append, ho]
    have hlt : off < unitLen U8Atom text := by rw [← htot, unitLen_u8]; simp
    have hg' : ∀ e ∈ ls, epsGuard off (unitLen U8Atom text) e = true := by
      refine (guard_op (k := N.numCaptureGroups) (p := u.state)).mpr ?_
      rw [← hu]
      simp only [opGuard, Bool.and_eq_true, Bool.not_eq_true', Bool.or_eq_true, beq_iff_eq] at hg
      constructor
      · intro hh
        rcases hg.2 with h | h
        · rw [hh] at h; simp at h
        · exact h
      · intro hh
        rw [hg.1] at hh; simp at hh
    refine reachE_trans h1 (reachE_trans (walkRun hw hg' htot evs) ?_)
    refine reachE_step (d := ⟨off, c :: cs, evs ++ walkEvents off ls⟩)
      (d' := ⟨off + 1, cs, evs ++ walkEvents off ls⟩) he ?_
    show symStep a ⟨off, c :: cs, evs ++ walkEvents off ls⟩ = _
    exact symStep_iff.mpr ⟨c, cs, rfl, hc, rfl⟩

/-- Acceptance at the end of the text. -/
theorem final_spec {N : NFA U8Atom} {rows : List (OpRow × List Upd)} (hT : OpTable N rows)
    {text : List UInt8} {q caps r} (h : OpAt N text (unitLen U8Atom text) [] q caps)
    (hr : rows[q]? = some r) :
    (N.At text (N.length - 1) (unitLen U8Atom text) [] ↔
      ∃ u ∈ r.2, u.startOnly = true → text.length = 0) ∧
    ∀ u ∈ r.2, ∃ caps', (tagsOf u.caps).foldlM (applyTag text.length) caps = .ok caps' ∧
      ((u.startOnly = true → text.length = 0) →
        ThreadOk N text (unitLen U8Atom text) [] ⟨N.length - 1, caps'⟩) := by
  have hl : unitLen U8Atom text = text.length := unitLen_u8 text
  constructor
  · rw [at_iff]
    constructor
    · rintro ⟨s, hs, hp⟩
      have := (h.uniq s).mp hs
      subst this
      obtain ⟨ls, hw, hg⟩ := epsPath_walk.mp hp
      refine ⟨_, (hT.acc _ _ hr _).mpr ⟨ls, hw, rfl⟩, ?_⟩
      rw [← hl]
      exact ((guard_op (k := N.numCaptureGroups) (p := N.length - 1)).mp hg).1
    · rintro ⟨u, hu, hg⟩
      obtain ⟨ls, hw, rfl⟩ := (hT.acc _ _ hr _).mp hu
      refine ⟨q, (h.uniq q).mpr rfl, epsPath_walk.mpr ⟨ls, hw, ?_⟩⟩
      refine (guard_op (k := N.numCaptureGroups) (p := N.length - 1)).mpr ⟨?_, fun _ => rfl⟩
      rw [hl]; exact hg
  · intro u hu
    obtain ⟨ls, hw, rfl⟩ := (hT.acc _ _ hr _).mp hu
    obtain ⟨evs, h1, h2⟩ := h.run
    simp only at h2
    refine ⟨slotsOf N.numCaptureGroups (evs ++ walkEvents text.length ls), by rw [h2]; exact applyTags_op evs, ?_⟩
    intro hg
    refine ⟨evs ++ walkEvents text.length ls, reachE_trans h1 ?_, rfl⟩
    have := walkRun (N := N) (total := unitLen U8Atom text) (rest := ([] : List UInt8)) (off := unitLen U8Atom text) hw
      ((guard_op (k := N.numCaptureGroups) (p := N.length - 1)).mpr ⟨by rw [hl]; exact hg, fun _ => rfl⟩)
      (by rw [unitLen_nil]; rfl) evs
    rw [hl] at this ⊢
    exact this

/-- What both programs do on a text. -/
def OpResult (N : NFA U8Atom) (text : List UInt8) (test : Except Err Bool) (slots : Except Err (Option Slots)) :
    Prop :=
  (test = .ok false ∧ slots = .ok none ∧ ¬ N.At text (N.length - 1) (unitLen U8Atom text) []) ∨
  ∃ caps, test = .ok true ∧ slots = .ok (some caps) ∧
    ThreadOk N text (unitLen U8Atom text) [] ⟨N.length - 1, caps⟩

theorem opExcluded_iff {N : NFA U8Atom} {q : Nat} : N.opExcluded q = false ↔
    q = 0 ∨ ∃ p a, N.HasEdge p (.sym a) q := by
  unfold NFA.opExcluded
  rw [Bool.not_eq_false', Bool.or_eq_true, beq_iff_eq, List.any_eq_true]
  refine or_congr Iff.rfl ?_
  constructor
  · rintro ⟨s, hs, h⟩
    obtain ⟨t, ht, h⟩ := List.any_eq_true.mp h
    obtain ⟨p, hp⟩ := List.mem_iff_getElem?.mp hs
    rw [beq_iff_eq] at h
    subst h
    exact ⟨p, t.symbol, s, hp, ht⟩
  · rintro ⟨p, a, s, hs, h⟩
    exact ⟨s, List.mem_of_getElem? hs, List.any_eq_true.mpr ⟨_, h, by simp⟩⟩

theorem seed_excluded {N : NFA U8Atom} {text : List UInt8} {s off rest} (h : N.Seed text s off rest) :
    N.opExcluded s = false := by
  rcases h with ⟨rfl, _, _⟩ | ⟨q0, off0, c, a, _, _, h3, _⟩
  · exact opExcluded_iff.mpr (Or.inl rfl)
  · exact opExcluded_iff.mpr (Or.inr ⟨_, _, h3⟩)

/-! ### The vm-like program -/

theorem mem_arms {N : NFA U8Atom} {rows : List (OpRow × List Upd)} {a : VmArm} :
    a ∈ (codegenVm N rows).arms ↔ ∃ (q : Nat) (r : OpRow × List Upd), rows[q]? = some r ∧ N.opExcluded q = false ∧
      ∃ t ∈ r.1, N.opExcluded t.2.state = false ∧ t.2.endOnly = false ∧
        a = ⟨q, t.1, t.2.startOnly, tagsOf t.2.caps, t.2.state⟩ := by
  unfold codegenVm
  simp only
  rw [List.mem_flatMap]
  constructor
  · rintro ⟨⟨r, q⟩, h1, h2⟩
    rw [List.mem_zipIdx_iff_getElem?] at h1
    simp only at h1 h2
    split at h2
    · simp at h2
    · rename_i hex
      unfold vmArms at h2
      obtain ⟨t, ht, rfl⟩ := List.mem_map.mp h2
      rw [List.mem_filter, Bool.and_eq_true, Bool.not_eq_true', Bool.not_eq_true'] at ht
      exact ⟨q, r, h1, by simpa using hex, t, ht.1, ht.2.1, ht.2.2, rfl⟩
  · rintro ⟨q, r, h1, h2, t, h3, h4, h5, rfl⟩
    refine ⟨(r, q), List.mem_zipIdx_iff_getElem?.mpr h1, ?_⟩
    simp only [h2]
    unfold vmArms
    refine List.mem_map.mpr ⟨t, List.mem_filter.mpr ⟨h3, by simp [h4, h5]⟩, rfl⟩

theorem mem_ends {N : NFA U8Atom} {rows : List (OpRow × List Upd)} {e : VmEnd} :
    e ∈ (codegenVm N rows).ends ↔ ∃ (q : Nat) (r : OpRow × List Upd), rows[q]? = some r ∧ N.opExcluded q = false ∧
      ∃ u ∈ r.2, e = ⟨q, u.startOnly, tagsOf u.caps⟩ := by
  unfold codegenVm
  simp only
  rw [List.mem_flatMap]
  constructor
  · rintro ⟨⟨r, q⟩, h1, h2⟩
    rw [List.mem_zipIdx_iff_getElem?] at h1
    simp only at h1 h2
    split at h2
    · simp at h2
    · rename_i hex
      unfold vmEnds at h2
      obtain ⟨t, ht, rfl⟩ := List.mem_map.mp h2
      exact ⟨q, r, h1, by simpa using hex, t, ht, rfl⟩
  · rintro ⟨q, r, h1, h2, t, h3, rfl⟩
    refine ⟨(r, q), List.mem_zipIdx_iff_getElem?.mpr h1, ?_⟩
    simp only [h2]
    exact List.mem_map.mpr ⟨t, h3, rfl⟩

theorem vm_step {N : NFA U8Atom} {rows : List (OpRow × List Upd)} (hT : OpTable N rows) {q off : Nat} {c : UInt8}
    {r} (hr : rows[q]? = some r) (hex : N.opExcluded q = false) :
    ((codegenVm N rows).step q off c = none ∧ ∀ t ∈ r.1, ¬ (t.1.check c = true ∧ opGuard off t.2 = true)) ∨
    ∃ t ∈ r.1, t.1.check c = true ∧ opGuard off t.2 = true ∧
      (codegenVm N rows).step q off c = some ⟨q, t.1, t.2.startOnly, tagsOf t.2.caps, t.2.state⟩ := by
  unfold VmProg.step
  cases hf : (codegenVm N rows).arms.find? (fun a => a.src == q && a.range.check c && (!a.guard || off == 0)) with
  | none =>
    refine Or.inl ⟨rfl, ?_⟩
    rintro t ht ⟨h1, h2⟩
    unfold opGuard at h2
    rw [Bool.and_eq_true, Bool.not_eq_true'] at h2
    obtain ⟨p, ls, hw, he, hu⟩ := (hT.row q r hr t.1 t.2).mp ht
    have := List.find?_eq_none.mp hf _ (mem_arms.mpr ⟨q, r, hr, hex, t, ht,
      opExcluded_iff.mpr (Or.inr ⟨_, _, he⟩), h2.1, rfl⟩)
    simp [h1] at this
    rcases Bool.or_eq_true_iff.mp h2.2 with h | h
    · simp [this.1] at h
    · simp at h; exact this.2 h
  | some a =>
    have h1 := List.mem_of_find?_eq_some hf
    have h2 := List.find?_some hf
    rw [Bool.and_eq_true, Bool.and_eq_true, beq_iff_eq] at h2
    obtain ⟨q', r', hr', hex', t, ht, h3, h4, rfl⟩ := mem_arms.mp h1
    simp only at h2
    obtain ⟨⟨rfl, h5⟩, h6⟩ := h2
    rw [hr] at hr'
    injection hr' with hr'
    subst hr'
    exact Or.inr ⟨t, ht, h5, by unfold opGuard; rw [h4]; simpa using h6, rfl⟩

theorem vmLoop_spec {N : NFA U8Atom} (hN : Ready N) {rows : List (OpRow × List Upd)} (hT : OpTable N rows)
    (text : List UInt8) : ∀ (rest pre : List UInt8) (off q : Nat) (caps : Slots), text = pre ++ rest →
      off = unitLen U8Atom pre → OpAt N text off rest q caps →
      OpResult N text (.ok ((codegenVm N rows).testLoop off q rest))
        ((codegenVm N rows).execLoop off q caps rest) := by
  intro rest
  induction rest with
  | nil =>
    intro pre off q caps ht ho h
    rw [List.append_nil] at ht
    subst ht
    have hq : q < rows.length := by rw [hT.len]; exact h.lt hN
    have hr : rows[q]? = some rows[q] := List.getElem?_eq_getElem hq
    have hex := seed_excluded ((h.uniq q).mpr rfl)
    have hl : off = text.length := by rw [ho, unitLen_u8]
    rw [ho] at h
    obtain ⟨f1, f2⟩ := final_spec hT h hr
    unfold VmProg.testLoop VmProg.execLoop VmProg.final
    cases hf : (codegenVm N rows).ends.find? (fun e => e.src == q && (!e.guard || off == 0)) with
    | none =>
      refine Or.inl ⟨rfl, rfl, ?_⟩
      rw [f1]
      rintro ⟨u, hu, hg⟩
      have := List.find?_eq_none.mp hf _ (mem_ends.mpr ⟨q, _, hr, hex, u, hu, rfl⟩)
      simp at this
      have h2 := hg this.1
      rw [hl] at this
      exact this.2 h2
    | some e =>
      have h1 := List.mem_of_find?_eq_some hf
      have h2 := List.find?_some hf
      rw [Bool.and_eq_true, beq_iff_eq] at h2
      obtain ⟨q', r', hr', hex', u, hu, rfl⟩ := mem_ends.mp h1
      simp only at h2
      obtain ⟨rfl, h6⟩ := h2
      rw [hr] at hr'
      injection hr' with hr'
      subst hr'
      obtain ⟨caps', g1, g2⟩ := f2 u hu
      refine Or.inr ⟨caps', rfl, ?_, g2 ?_⟩
      · simp only
        rw [hl, g1]
      · intro hs
        rw [hs] at h6
        simp at h6
        rw [← hl]; exact h6
  | cons c cs ih =>
    intro pre off q caps ht ho h
    have hq : q < rows.length := by rw [hT.len]; exact h.lt hN
    have hr : rows[q]? = some rows[q] := List.getElem?_eq_getElem hq
    have hex := seed_excluded ((h.uniq q).mpr rfl)
    unfold VmProg.testLoop VmProg.execLoop
    have ht' : text = (pre ++ [c]) ++ cs := by rw [ht]; simp
    have ho' : off + 1 = unitLen U8Atom (pre ++ [c]) := by
      rw [unitLen_append, ho]; simp [unitLen, Sym.len]
    rcases vm_step hT (off := off) (c := c) hr hex with ⟨h1, h2⟩ | ⟨t, h1, h2, h3, h4⟩
    · rw [h1]
      refine Or.inl ⟨rfl, rfl, no_seed ht' ho' ?_ _⟩
      intro s hs
      obtain ⟨t, h3, h4, h5, _⟩ := (seed_step hT ht ho h.uniq hr s).mp hs
      exact h2 t h3 ⟨h4, h5⟩
    · rw [h4]
      simp only
      obtain ⟨caps', h5, h6⟩ := h.step hT ht ho hr h1 h2 h3
      rw [h5]
      exact ih _ _ _ _ ht' ho' h6

end Ere
