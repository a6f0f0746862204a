import Verif.Model.Flat
import Verif.Proofs.EpsProp
import Verif.Proofs.Pipeline

/-! The flat lockstep engines: `test`. -/

namespace Ere
variable {σ α : Type}

theorem mapM_ok {β γ ε : Type} {f : β → Except ε γ} {l : List β} (h : ∀ x ∈ l, ∃ y, f x = .ok y) :
    ∃ ys, l.mapM f = .ok ys ∧ ys.length = l.length ∧
      ∀ (i : Nat) x, l[i]? = some x → ∃ y, ys[i]? = some y ∧ f x = .ok y := by
  induction l with
  | nil => exact ⟨[], rfl, rfl, by simp⟩
  | cons a l ih =>
    obtain ⟨ys, h1, h2, h3⟩ := ih (fun x hx => h x (by simp [hx]))
    obtain ⟨y, hy⟩ := h a (by simp)
    refine ⟨y :: ys, ?_, by simp [h2], ?_⟩
    · rw [List.mapM_cons, hy, h1]; rfl
    · intro i x hx
      cases i with
      | zero => simp at hx; subst hx; exact ⟨y, by simp, hy⟩
      | succ i => simpa using h3 i x (by simpa using hx)

/-- What the macro computed. -/
structure FlatOk (N : NFA σ) (F : Flat σ) : Prop where
  nfa : F.nfa = N
  groups : F.groups = N.numCaptureGroups
  mem : ∀ q, q < N.length → N.excludedFlat q = false → ∀ t, t ∈ F.at q ↔
    N.keepsThread t = true ∧ ∃ ls, EWalk N q ls t.state ∧ t = walkSummary t.state ls
  none : ∀ q, N.excludedFlat q = true ∨ N.length ≤ q → F.at q = []

theorem compileFlat_spec {N : NFA σ} (hN : N.WF) (hne : N ≠ []) :
    ∃ F, compileFlat N = .ok F ∧ FlatOk N F := by
  have hrow : ∀ q ∈ List.range N.length, ∃ y, N.flatRow q = .ok y := by
    intro q hq
    unfold NFA.flatRow
    split
    · exact ⟨_, rfl⟩
    · obtain ⟨R, h1, _⟩ := epsProps_spec hN (List.mem_range.mp hq)
      rw [h1]; exact ⟨_, rfl⟩
  obtain ⟨ts, h1, h2, h3⟩ := mapM_ok hrow
  refine ⟨⟨N, N.numCaptureGroups, ts⟩, ?_, rfl, rfl, ?_, ?_⟩
  · unfold compileFlat
    rw [if_neg (by simpa using hne), h1]
  · intro q hq hex t
    obtain ⟨y, h4, h5⟩ := h3 q q (by simp [hq])
    obtain ⟨R, h6, _, h7⟩ := epsProps_spec hN hq
    unfold NFA.flatRow at h5
    rw [hex, h6] at h5
    simp only [Bool.false_eq_true, if_false, Except.ok.injEq] at h5
    unfold Flat.at
    rw [h4]
    simp only [Option.getD_some]
    rw [← h5, List.mem_filter, h7]
    constructor
    · rintro ⟨⟨p, ls, h8, rfl⟩, h9⟩; exact ⟨h9, ls, h8, rfl⟩
    · rintro ⟨h8, ls, h9, h10⟩; exact ⟨⟨_, ls, h9, h10⟩, h8⟩
  · intro q hq
    unfold Flat.at
    rcases Nat.lt_or_ge q N.length with hlt | hge
    · rcases hq with hq | hq
      · obtain ⟨y, h4, h5⟩ := h3 q q (by simp [hlt])
        unfold NFA.flatRow at h5
        rw [if_pos hq] at h5
        injection h5 with h5
        rw [h4, ← h5]; rfl
      · omega
    · rw [List.getElem?_eq_none (by simpa [h2] using hge)]; rfl

theorem mem_updates {F : Flat σ} {s e : Bool} {q t} : t ∈ F.updates s e q ↔
    t ∈ F.at q ∧ (t.startOnly = true → s = true) ∧ (t.endOnly = true → e = true) := by
  unfold Flat.updates
  cases s <;> cases e <;> cases hs : t.startOnly <;> cases he : t.endOnly <;>
    simp [List.mem_filter, hs, he]

theorem epsPath_walk {N : NFA σ} {off total q p} : N.EpsPath off total q p ↔
    ∃ ls, EWalk N q ls p ∧ ∀ e ∈ ls, epsGuard off total e = true := by
  constructor
  · intro h
    unfold NFA.EpsPath at h
    induction h with
    | refl => exact ⟨[], .refl, by simp⟩
    | tail _ h2 ih =>
      obtain ⟨ls, h3, h4⟩ := ih
      obtain ⟨l, h5, h6⟩ := h2
      cases l with
      | sym a => simp [Sel] at h5
      | eps e =>
        refine ⟨ls ++ [e], .tail h3 h6, ?_⟩
        intro e' he'
        rcases List.mem_append.mp he' with h | h
        · exact h4 _ h
        · simp at h; subst h; exact h5
  · rintro ⟨ls, h1, h2⟩
    induction h1 with
    | refl => exact .refl
    | tail h3 h4 ih =>
      refine Relation.ReflTransGen.tail (ih fun e he => h2 e (by simp [he])) ⟨.eps _, ?_, h4⟩
      exact h2 _ (by simp)

theorem guard_walk {off total p} {ls : List EpsType} :
    (∀ e ∈ ls, epsGuard off total e = true) ↔
      ((walkSummary p ls).startOnly = true → (off == 0) = true) ∧
      ((walkSummary p ls).endOnly = true → (off == total) = true) := by
  simp only [walkSummary, List.contains_iff_mem]
  constructor
  · intro h
    exact ⟨fun hs => h _ hs, fun hs => h _ hs⟩
  · rintro ⟨h1, h2⟩ e he
    cases e <;> first | rfl | exact h1 he | exact h2 he

/-- The states a thread may rest at. -/
def NFA.Rest (N : NFA σ) (p : Nat) : Prop := (∃ a q, N.HasEdge p (.sym a) q) ∨ p + 1 = N.length

theorem keeps_rest {N : NFA σ} {t : EpsProp} : N.keepsThread t = true ↔ N.Rest t.state := by
  unfold NFA.keepsThread NFA.Rest
  rw [Bool.or_eq_true, beq_iff_eq]
  refine or_congr ?_ Iff.rfl
  unfold NFA.HasEdge
  cases h : N[t.state]? with
  | none => simp
  | some s =>
    simp only [Option.any_some, Bool.not_eq_true', List.isEmpty_eq_false_iff]
    constructor
    · intro hne
      obtain ⟨t', ht⟩ := List.exists_mem_of_ne_nil _ hne
      exact ⟨t'.symbol, t'.dst, s, rfl, ht⟩
    · rintro ⟨a, q, s', hs', hm⟩ hnil
      injection hs' with hs'; subst hs'
      simp [hnil] at hm

theorem excluded_iff {N : NFA σ} {q : Nat} : N.excludedFlat q = false ↔
    q = 0 ∨ N.Rest q ∨ ∃ p a, N.HasEdge p (.sym a) q := by
  have h1 := keeps_rest (N := N) (t := ⟨q, [], false, false⟩)
  unfold NFA.keepsThread at h1
  unfold NFA.excludedFlat
  simp only [Bool.not_eq_false', Bool.or_eq_true, beq_iff_eq] at h1 ⊢
  have h2 : (N.any fun s => s.transitions.any fun t => t.dst == q) = true ↔ ∃ p a, N.HasEdge p (.sym a) q := by
    simp only [List.any_eq_true, beq_iff_eq]
    constructor
    · rintro ⟨s, hs, t, ht, rfl⟩
      obtain ⟨p, hp⟩ := List.mem_iff_getElem?.mp hs
      exact ⟨p, t.symbol, s, hp, ht⟩
    · rintro ⟨p, a, s, hp, ht⟩
      exact ⟨s, List.mem_of_getElem? hp, _, ht, rfl⟩
  rw [h2, ← h1]
  tauto

/-- The states reached by the updates of a state. -/
theorem updates_path {N : NFA σ} {F : Flat σ} (hF : FlatOk N F) {off total q p} (hq : q < N.length)
    (hex : N.excludedFlat q = false) :
    (∃ t ∈ F.updates (off == 0) (off == total) q, t.state = p) ↔
      N.Rest p ∧ N.EpsPath off total q p := by
  rw [epsPath_walk]
  constructor
  · rintro ⟨t, h1, rfl⟩
    obtain ⟨h2, h3, h4⟩ := mem_updates.mp h1
    obtain ⟨h5, ls, h6, h7⟩ := (hF.mem q hq hex t).mp h2
    refine ⟨keeps_rest.mp h5, ls, h6, (guard_walk (p := t.state)).mpr ?_⟩
    rw [← h7]
    exact ⟨h3, h4⟩
  · rintro ⟨h1, ls, h2, h3⟩
    refine ⟨walkSummary p ls, mem_updates.mpr ⟨(hF.mem q hq hex _).mpr ⟨keeps_rest.mpr h1, ls, h2, rfl⟩,
      guard_walk.mp h3⟩, rfl⟩

/-- One direction without looking at excluded states. -/
theorem updates_sound {N : NFA σ} {F : Flat σ} (hF : FlatOk N F) {off total q t}
    (h : t ∈ F.updates (off == 0) (off == total) q) : q < N.length ∧ N.excludedFlat q = false := by
  have h1 := (mem_updates.mp h).1
  by_contra hc
  have : F.at q = [] := hF.none q (by
    by_cases h2 : N.excludedFlat q = true
    · exact Or.inl h2
    · refine Or.inr ?_
      simp only [Bool.not_eq_true] at h2
      by_contra h3
      exact hc ⟨by omega, h2⟩)
  rw [this] at h1
  simp at h1

theorem epsPath_lt {N : NFA σ} (hN : N.WF) {off total q p} (h : N.EpsPath off total q p)
    (hq : q < N.length) : p < N.length := by
  unfold NFA.EpsPath at h
  induction h with
  | refl => exact hq
  | tail _ h2 _ => obtain ⟨l, _, h3⟩ := h2; exact hN _ _ _ h3

/-- The in-place epsilon phase. -/
theorem epsTest_fold {N : NFA σ} (hN : N.WF) {F : Flat σ} (hF : FlatOk N F) {off total} (qs : List Nat)
    (list : List Bool) (hl : list.length = N.length) :
    let r := qs.foldl (fun l q =>
      if flag l q then
        (F.updates (off == 0) (off == total) q).foldl (fun l t => l.set t.state true) l
      else l) list
    r.length = N.length ∧ (∀ x, flag list x = true → flag r x = true) ∧
    (∀ x, flag r x = true → flag list x = true ∨ ∃ s, flag list s = true ∧ N.EpsPath off total s x) ∧
    (∀ s ∈ qs, flag list s = true → ∀ t ∈ F.updates (off == 0) (off == total) s, flag r t.state = true) := by
  induction qs generalizing list with
  | nil => simp [hl]; intro x h; exact Or.inl h
  | cons q qs ih =>
    simp only [List.foldl_cons]
    have hstep : ∃ l', (if flag list q then
        (F.updates (off == 0) (off == total) q).foldl (fun l t => l.set t.state true) list
        else list) = l' ∧ l'.length = N.length ∧ ∀ x, flag l' x = true ↔ flag list x = true ∨
          (flag list q = true ∧ ∃ t ∈ F.updates (off == 0) (off == total) q, t.state = x) := by
      refine ⟨_, rfl, ?_⟩
      split
      · rename_i hf
        have h1 := foldl_set_spec ((F.updates (off == 0) (off == total) q).map (·.state)) list (by
          intro t ht
          obtain ⟨u, hu, rfl⟩ := List.mem_map.mp ht
          obtain ⟨hq, hex⟩ := updates_sound hF hu
          rw [hl]
          exact epsPath_lt hN ((updates_path hF hq hex).mp ⟨u, hu, rfl⟩).2 hq)
        rw [List.foldl_map] at h1
        refine ⟨h1.1.trans hl, fun x => ?_⟩
        rw [h1.2 x, List.mem_map]
        simp [hf]
      · rename_i hf
        refine ⟨hl, fun x => ?_⟩
        simp [hf]
    obtain ⟨l', h1, h2, h3⟩ := hstep
    rw [h1]
    obtain ⟨i1, i2, i3, i4⟩ := ih l' h2
    have hsnd : ∀ x, flag l' x = true → flag list x = true ∨ ∃ s, flag list s = true ∧ N.EpsPath off total s x := by
      intro x hx
      rcases (h3 x).mp hx with h | ⟨h, t, ht, rfl⟩
      · exact Or.inl h
      · obtain ⟨hq, hex⟩ := updates_sound hF ht
        exact Or.inr ⟨q, h, ((updates_path hF hq hex).mp ⟨t, ht, rfl⟩).2⟩
    refine ⟨i1, fun x hx => i2 x ((h3 x).mpr (Or.inl hx)), ?_, ?_⟩
    · intro x hx
      rcases i3 x hx with h | ⟨s, h, hp⟩
      · exact hsnd x h
      · rcases hsnd s h with h' | ⟨s', h', hp'⟩
        · exact Or.inr ⟨s, h', hp⟩
        · exact Or.inr ⟨s', h', hp'.trans hp⟩
    · intro s hs hfs t ht
      rcases List.mem_cons.mp hs with rfl | hs
      · exact i2 _ ((h3 _).mpr (Or.inr ⟨hfs, t, ht, rfl⟩))
      · exact i4 s hs ((h3 s).mpr (Or.inl hfs)) t ht

section
variable [Sym σ α]

/-- Marks that cover exactly what the next step needs. -/
structure Covers (N : NFA σ) (text : List α) (off : Nat) (rest : List α) (list : List Bool) : Prop where
  len : list.length = N.length
  sound : ∀ x, flag list x = true → N.At text x off rest
  complete : ∀ x, N.Rest x → N.At text x off rest → flag list x = true

theorem seed_lt {N : NFA σ} (hN : N.WF) (hne : N ≠ []) {text : List α} {s off rest}
    (h : N.Seed text s off rest) : s < N.length ∧ N.excludedFlat s = false := by
  rcases h with ⟨rfl, _, _⟩ | ⟨q0, off0, c, a, _, _, h3, _⟩
  · exact ⟨List.length_pos_iff.mpr hne, excluded_iff.mpr (Or.inl rfl)⟩
  · exact ⟨hN _ _ _ h3, excluded_iff.mpr (Or.inr (Or.inr ⟨_, _, h3⟩))⟩

theorem epsTest_covers {N : NFA σ} (hN : N.WF) (hne : N ≠ []) {F : Flat σ} (hF : FlatOk N F)
    {text : List α} {off rest} {list : List Bool} (hl : list.length = N.length)
    (hs : ∀ s, flag list s = true ↔ N.Seed text s off rest) :
    Covers N text off rest (F.epsTest off (unitLen σ text) list) := by
  obtain ⟨h1, _, h3, h4⟩ := epsTest_fold hN hF (off := off) (total := unitLen σ text)
    (List.range N.length) list hl
  have heq : F.epsTest off (unitLen σ text) list = (List.range N.length).foldl (fun l q =>
      if flag l q then
        (F.updates (off == 0) (off == unitLen σ text) q).foldl (fun l t => l.set t.state true) l
      else l) list := by unfold Flat.epsTest; rw [hF.nfa]
  rw [heq]
  refine ⟨h1, ?_, ?_⟩
  · intro x hx
    rw [at_iff]
    rcases h3 x hx with h | ⟨s, h, hp⟩
    · exact ⟨x, (hs x).mp h, .refl⟩
    · exact ⟨s, (hs s).mp h, hp⟩
  · intro x hr hx
    obtain ⟨s, h5, h6⟩ := at_iff.mp hx
    obtain ⟨hlt, hex⟩ := seed_lt hN hne h5
    obtain ⟨t, ht, rfl⟩ := (updates_path hF hlt hex).mpr ⟨hr, h6⟩
    exact h4 s (List.mem_range.mpr hlt) ((hs s).mpr h5) t ht

theorem symbolStep_seed {N : NFA σ} (hN : N.WF) {text pre : List α} {off c cs} {list : List Bool}
    (ht : text = pre ++ c :: cs) (ho : off = unitLen σ pre)
    (h : Covers N text off (c :: cs) list) (s : Nat) :
    flag (N.symbolStep list c) s = true ↔ N.Seed text s (off + Sym.len (σ := σ) c) cs := by
  rw [(symbolStep_spec hN).2]
  have hlen := Sym.len_pos (σ := σ) c
  constructor
  · rintro ⟨q, a, h1, h2, h3⟩
    exact Or.inr ⟨q, off, c, a, h.sound q h1, rfl, h2, h3⟩
  · rintro (⟨_, h1, _⟩ | ⟨q, off0, c0, a, h1, h2, h3, h4⟩)
    · omega
    · obtain ⟨p0, e1, e2⟩ := at_pos h1
      rw [ht] at e1
      have hl : pre.length = p0.length := by
        have := congrArg List.length e1; simp at this; omega
      obtain ⟨rfl, he⟩ := List.append_inj e1 hl
      injection he with he _
      subst he
      rw [← ho] at e2
      subst e2
      exact ⟨q, a, h.complete q (Or.inl ⟨a, s, h3⟩) h1, h3, h4⟩

/-- Nothing can be reached once there is no seed. -/
theorem no_seed {N : NFA σ} {text pre rest : List α} {off} (ht : text = pre ++ rest)
    (ho : off = unitLen σ pre) (h : ∀ s, ¬ N.Seed text s off rest) :
    ∀ q, ¬ N.At text q (unitLen σ text) [] := by
  have key : ∀ (k : Nat) (pre rest : List α), rest.length = k → text = pre ++ rest →
      (∀ s, ¬ N.Seed text s (unitLen σ pre) rest) → ∀ q, ¬ N.At text q (unitLen σ text) [] := by
    intro k
    induction k with
    | zero =>
      intro pre rest hk ht hs q hq
      have : rest = [] := List.length_eq_zero_iff.mp hk
      subst this
      obtain ⟨s, h1, _⟩ := at_iff.mp hq
      refine hs s ?_
      rw [ht] at h1 ⊢
      simpa using h1
    | succ k ih =>
      intro pre rest hk ht hs
      cases rest with
      | nil => simp at hk
      | cons c cs =>
        refine ih (pre ++ [c]) cs (by simpa using hk) (by simp [ht]) ?_
        rintro s (⟨_, _, h1⟩ | ⟨q, off0, c0, a, h1, h2, h3, h4⟩)
        · have := congrArg List.length h1
          rw [ht] at this; simp at this; omega
        · obtain ⟨p0, e1, e2⟩ := at_pos h1
          rw [ht] at e1
          have hl : pre.length = p0.length := by
            have := congrArg List.length e1; simp at this; omega
          obtain ⟨rfl, he⟩ := List.append_inj e1 hl
          injection he with he _
          subst he
          rw [e2] at h1
          obtain ⟨s0, h5, _⟩ := at_iff.mp h1
          exact hs s0 h5
  subst ho
  exact key _ pre rest rfl ht h

theorem flatTestLoop_spec {N : NFA σ} (hN : N.WF) (hne : N ≠ []) {F : Flat σ} (hF : FlatOk N F)
    (text : List α) : ∀ (rest pre : List α) (off : Nat) (list : List Bool), text = pre ++ rest →
      off = unitLen σ pre → Covers N text off rest list →
      (F.testLoop (unitLen σ text) off rest list = true ↔
        N.At text (N.length - 1) (unitLen σ text) []) := by
  intro rest
  induction rest with
  | nil =>
    intro pre off list h1 h2 h3
    have : off = unitLen σ text := by rw [h1, List.append_nil, h2]
    subst this
    unfold Flat.testLoop
    rw [hF.nfa]
    refine ⟨h3.sound _, h3.complete _ (Or.inr ?_)⟩
    have := List.length_pos_iff.mpr hne
    omega
  | cons c cs ih =>
    intro pre off list h1 h2 h3
    have hseed := symbolStep_seed hN h1 h2 h3
    have e1 : text = (pre ++ [c]) ++ cs := by simp [h1]
    have e2 : off + Sym.len (σ := σ) c = unitLen σ (pre ++ [c]) := by
      rw [unitLen_append, h2]; simp [unitLen]
    unfold Flat.testLoop
    simp only
    rw [hF.nfa]
    split
    · rename_i hall
      have := no_seed (N := N) e1 e2 (fun s hs => by
        have h4 := (hseed s).mpr hs
        rw [flag_iff] at h4
        have := List.all_eq_true.mp hall _ (List.mem_of_getElem? h4)
        simp at this)
      exact ⟨fun h => by simp at h, fun h => absurd h (this _)⟩
    · exact ih (pre ++ [c]) _ _ e1 e2 (epsTest_covers hN hne hF (symbolStep_spec hN).1 hseed)

theorem seed_start {N : NFA σ} (text : List α) (s : Nat) :
    N.Seed text s 0 text ↔ s = 0 := by
  constructor
  · rintro (⟨rfl, _, _⟩ | ⟨_, _, c, _, _, h, _⟩)
    · rfl
    · have := Sym.len_pos (σ := σ) c; omega
  · rintro rfl; exact Or.inl ⟨rfl, rfl, rfl⟩

/-- `test` of the flat lockstep engines. -/
theorem flatTest_spec {N : NFA σ} (hN : N.WF) (hne : N ≠ []) {F : Flat σ} (hF : FlatOk N F)
    (text : List α) : F.test text = true ↔
      ∃ caps, N.Acc ⟨0, text, []⟩ ⟨unitLen σ text, [], caps⟩ := by
  have hpos := List.length_pos_iff.mpr hne
  unfold Flat.test
  have hc := epsTest_covers hN hne hF (text := text) (off := 0) (rest := text)
    (list := (List.replicate N.length false).set 0 true) (by simp) (by
      intro s
      rw [seed_start, flag_iff, get_set_true' (by simpa using hpos), List.getElem?_replicate]
      constructor
      · rintro (h | rfl)
        · split at h <;> simp at h
        · rfl
      · exact Or.inr)
  rw [hF.nfa]
  refine (flatTestLoop_spec hN hne hF text text [] 0 _ rfl rfl hc).trans ?_
  constructor
  · rintro ⟨caps, h⟩; exact ⟨caps, hne, h⟩
  · rintro ⟨caps, _, h⟩; exact ⟨caps, h⟩

end

end Ere
