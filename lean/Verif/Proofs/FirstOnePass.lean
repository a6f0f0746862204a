import Verif.Proofs.FirstTop
import Verif.Proofs.OnePassTop

/-! The one-pass engine: where the ends are unique there is only one run, which is then the preferred one. -/

namespace Ere

/-- A run that has just read a unit (or not begun). -/
def NFA.SeedRun (N : NFA U8Atom) (text : List UInt8) (q off : Nat) (rest : List UInt8) (evs : Caps) : Prop :=
  (q = 0 ∧ off = 0 ∧ rest = text ∧ evs = []) ∨
  ∃ p off0 c a, ReachE N.HasEdge (0, ⟨0, text, []⟩) (p, ⟨off0, c :: rest, evs⟩) ∧ off = off0 + 1 ∧
    N.HasEdge p (.sym a) q ∧ a.check c = true

/-- Every run is such a run and a walk. -/
theorem reach_split {N : NFA U8Atom} {text : List UInt8} {p : Nat} {d : Cfg UInt8}
    (h : ReachE N.HasEdge (0, ⟨0, text, []⟩) (p, d)) :
    ∃ q evs ls, N.SeedRun text q d.off d.rest evs ∧ EWalk N q ls p ∧ d.caps = evs ++ walkEvents d.off ls := by
  suffices ∀ x, ReachE N.HasEdge (0, ⟨0, text, []⟩) x →
      ∃ q evs ls, N.SeedRun text q x.2.off x.2.rest evs ∧ EWalk N q ls x.1 ∧ x.2.caps = evs ++ walkEvents x.2.off ls from
    this _ h
  intro x hx
  induction hx with
  | refl => exact ⟨0, [], [], Or.inl ⟨rfl, rfl, rfl, rfl⟩, .refl, rfl⟩
  | @tail y z hy hz ih =>
    obtain ⟨p, d⟩ := y
    obtain ⟨r, d'⟩ := z
    obtain ⟨l, he, hs⟩ := hz
    obtain ⟨q, evs, ls, h1, h2, h3⟩ := ih
    cases l with
    | sym a =>
      obtain ⟨c, cs, h4, h5, rfl⟩ := symStep_iff.mp (show symStep a d = some d' from hs)
      obtain ⟨off, rest, caps⟩ := d
      simp only at h4
      subst h4
      exact ⟨r, caps, [], Or.inr ⟨p, off, c, a, hy, rfl, he, h5⟩, .refl, by simp [walkEvents]⟩
    | eps e =>
      have hd : d'.off = d.off ∧ d'.rest = d.rest ∧ d'.caps = d.caps ++ walkEvents d.off [e] := by
        have hs : epsStep e d = some d' := hs
        cases e with
        | none => simp only [epsStep, Option.some.injEq] at hs; subst hs; simp [walkEvents]
        | startAnchor =>
          simp only [epsStep] at hs
          split at hs
          · injection hs with hs; subst hs; simp [walkEvents]
          · simp at hs
        | endAnchor =>
          simp only [epsStep] at hs
          split at hs
          · injection hs with hs; subst hs; simp [walkEvents]
          · simp at hs
        | startCapture g => simp only [epsStep, Option.some.injEq] at hs; subst hs; simp [walkEvents, Caps.setStart]
        | endCapture g => simp only [epsStep, Option.some.injEq] at hs; subst hs; simp [walkEvents, Caps.setEnd]
      obtain ⟨e1, e2, e3⟩ := hd
      refine ⟨q, evs, ls ++ [e], ?_, .tail h2 he, ?_⟩
      · simp only at h1 ⊢
        rw [e1, e2]; exact h1
      · simp only at h3 ⊢
        rw [e1, e3, h3, walkEvents_append, List.append_assoc]

theorem seedRun_entry {N : NFA U8Atom} {text q off rest evs} (h : N.SeedRun text q off rest evs) : N.Entry q := by
  rcases h with ⟨h, _⟩ | ⟨p, _, _, a, _, _, h, _⟩
  · exact Or.inl h
  · exact Or.inr ⟨p, a, h⟩

theorem entry_lt {N : NFA U8Atom} (hN : Ready N) {q} (h : N.Entry q) : q < N.length := by
  rcases h with rfl | ⟨p, a, h⟩
  · exact List.length_pos_iff.mpr hN.ne
  · exact hN.wf _ _ _ h

theorem slots_congr {k off : Nat} {evs evs' : Caps} (h : slotsOf k evs = slotsOf k evs') {p : Nat} {ls ls' : List EpsType}
    (hs : opSummary k p ls = opSummary k p ls') :
    slotsOf k (evs ++ walkEvents off ls) = slotsOf k (evs' ++ walkEvents off ls') := by
  have h1 := applyTags_op (k := k) (off := off) (p := p) (ls := ls) evs
  have h2 := applyTags_op (k := k) (off := off) (p := p) (ls := ls') evs'
  rw [hs, h, h2] at h1
  exact (Except.ok.inj h1).symm

/-- There is only one run up to each place. -/
theorem seedRun_unique {N : NFA U8Atom} (hN : Ready N) {rows : List (OpRow × List Upd)} (hT : OpTable N rows)
    {text : List UInt8} : ∀ (off : Nat) (rest : List UInt8) (q q' : Nat) (evs evs' : Caps),
      N.SeedRun text q off rest evs → N.SeedRun text q' off rest evs' →
      q = q' ∧ slotsOf N.numCaptureGroups evs = slotsOf N.numCaptureGroups evs' := by
  intro off
  induction off with
  | zero =>
    rintro rest q q' evs evs' (⟨rfl, _, _, rfl⟩ | ⟨_, _, _, _, _, h, _⟩) (⟨rfl, _, _, rfl⟩ | ⟨_, _, _, _, _, h', _⟩)
    · exact ⟨rfl, rfl⟩
    all_goals omega
  | succ off ih =>
    rintro rest q q' evs evs' (⟨_, h, _⟩ | ⟨p, o, c, a, h1, h2, h3, h4⟩)
    · omega
    rintro (⟨_, h, _⟩ | ⟨p', o', c', a', h1', h2', h3', h4'⟩)
    · omega
    obtain rfl : o = off := by omega
    obtain rfl : o' = o := by omega
    -- both runs read the same unit
    have hc : c = c' := by
      obtain ⟨pre, e1, e2⟩ := at_pos (⟨_, h1⟩ : N.At text p o' (c :: rest))
      obtain ⟨pre', e1', e2'⟩ := at_pos (⟨_, h1'⟩ : N.At text p' o' (c' :: rest))
      rw [e1] at e1'
      rw [e2, unitLen_u8, unitLen_u8] at e2'
      have := (List.append_inj e1' e2').2
      injection this
    subst hc
    obtain ⟨s, ev, ls, g1, g2, g3⟩ := reach_split h1
    obtain ⟨s', ev', ls', g1', g2', g3'⟩ := reach_split h1'
    simp only at g1 g3 g1' g3'
    obtain ⟨rfl, hev⟩ := ih _ _ _ _ _ g1 g1'
    have hlt : s < rows.length := by rw [hT.len]; exact entry_lt hN (seedRun_entry g1)
    have hr : rows[s]? = some rows[s] := List.getElem?_eq_getElem hlt
    have m1 := (hT.row s _ hr a (opSummary N.numCaptureGroups q ls)).mpr ⟨p, ls, g2, h3, rfl⟩
    have m2 := (hT.row s _ hr a' (opSummary N.numCaptureGroups q' ls')).mpr ⟨p', ls', g2', h3', rfl⟩
    have he := row_unique (hT.disj s _ hr) m1 m2 h4 h4'
    have he := (Prod.mk.inj he).2
    have hq : q = q' := congrArg Upd.state he
    subst hq
    refine ⟨rfl, ?_⟩
    rw [g3, g3']
    exact slots_congr hev he

/-- If no state has two different ends, all runs over a text set the same slots. -/
theorem run_unique {N : NFA U8Atom} (hN : Ready N) {rows : List (OpRow × List Upd)} (hT : OpTable N rows)
    (h2 : ¬ N.TwoEnds) {text : List UInt8} {off : Nat} {evs evs' : Caps}
    (h : ReachE N.HasEdge (0, ⟨0, text, []⟩) (N.length - 1, ⟨off, [], evs⟩))
    (h' : ReachE N.HasEdge (0, ⟨0, text, []⟩) (N.length - 1, ⟨off, [], evs'⟩)) :
    slotsOf N.numCaptureGroups evs = slotsOf N.numCaptureGroups evs' := by
  obtain ⟨q, ev, ls, g1, g2, g3⟩ := reach_split h
  obtain ⟨q', ev', ls', g1', g2', g3'⟩ := reach_split h'
  simp only at g1 g3 g1' g3'
  obtain ⟨rfl, hev⟩ := seedRun_unique hN hT _ _ _ _ _ _ g1 g1'
  rw [g3, g3']
  refine slots_congr hev ((opSummary_eq_iff hN g2 g2').mpr ?_)
  intro m hm
  have hent := seedRun_entry g1
  constructor
  · intro hl
    by_contra hn
    exact h2 ⟨q, ls, ls', m, hent, g2, g2', hm, hl, hn⟩
  · intro hl
    by_contra hn
    exact h2 ⟨q, ls', ls, m, hent, g2', g2, hm, hl, hn⟩

/-- No state of the emitted program has two final arms. (The functional program with two ends does not
compile.) -/
def OnePass.OneEnd : OnePass → Prop
  | .vm P => (P.ends.map (·.src)).Nodup
  | .fn _ => True

theorem oneEnd_twoEnds {N : NFA U8Atom} (hN : Ready N) {P : OnePass} (hP : OnePassOk N P) (hc : P.compiles = true)
    (h : P.OneEnd) : ¬ N.TwoEnds := by
  obtain ⟨rows, hT, rfl | hac⟩ := hP.table
  · rintro ⟨q, ls, ls', m, h1, h2, h3, h4, h5, h6⟩
    have hlt : q < rows.length := by rw [hT.len]; exact entry_lt hN h1
    have hr : rows[q]? = some rows[q] := List.getElem?_eq_getElem hlt
    have m1 := (hT.acc q _ hr _).mpr ⟨ls, h2, rfl⟩
    have m2 := (hT.acc q _ hr _).mpr ⟨ls', h3, rfl⟩
    have hne : opSummary N.numCaptureGroups (N.length - 1) ls ≠ opSummary N.numCaptureGroups (N.length - 1) ls' := by
      intro he
      exact h6 (((opSummary_eq_iff hN h2 h3).mp he m h4).mp h5)
    have hsub : (vmEnds q rows[q].2).Sublist (codegenVm N rows).ends := by
      have hmem : (rows[q], q) ∈ rows.zipIdx := List.mem_zipIdx_iff_getElem?.mpr hr
      have := List.sublist_flatten_of_mem (List.mem_map.mpr ⟨(rows[q], q), hmem, rfl⟩ :
        (fun r : (OpRow × List Upd) × Nat => if N.opExcluded r.2 then [] else vmEnds r.2 r.1.2) (rows[q], q) ∈
          rows.zipIdx.map (fun r => if N.opExcluded r.2 then [] else vmEnds r.2 r.1.2))
      simp only [opExcluded_iff.mpr h1] at this
      unfold codegenVm
      simp only [List.flatMap_def]
      simpa [List.flatMap_def] using this
    have hnd : ((vmEnds q rows[q].2).map (·.src)).Nodup := List.Nodup.sublist (hsub.map _) h
    unfold vmEnds at hnd
    rw [List.map_map] at hnd
    have hlen : rows[q].2.length ≤ 1 := by
      match hl : rows[q].2 with
      | [] => simp
      | [_] => simp
      | a :: b :: l => rw [hl] at hnd; simp [Function.comp_def] at hnd
    match hl : rows[q].2, hlen with
    | [], _ => rw [hl] at m1; simp at m1
    | [u], _ =>
      rw [hl] at m1 m2
      exact hne ((List.mem_singleton.mp m1).trans (List.mem_singleton.mp m2).symm)
  · exact (hP.acyclic hac).mp hc

/-- The macro. -/
theorem onePass_first (U : Utf8Seqs) {e : ERE} (hp : e.progress = true)
    {N : NFA Atom} {M : NFA U8Atom} (h1 : workingNew (Tree.fromERE e).1 = .ok N) (h2 : u8New U.seqs N = .ok M)
    (hne : M ≠ []) {P : OnePass} (hP : OnePassOk M P) (hc : P.compiles = true) (ho : P.OneEnd) (text : List Char) :
    FirstOk e text P.groups (P.exec text (encode text)) := by
  obtain ⟨hN, hM, hacc, henc⟩ := pipeline_ne U e h1 h2 hne
  obtain ⟨rows, hT, _⟩ := hP.table
  have htwo := oneEnd_twoEnds hM hP hc ho
  obtain ⟨r, h4, h5⟩ := workingNew_first e hp h1 hN.ne text
  have h6 := u8New_first hN (workingNew_oneSym (starOk_fromERE e) h1 hN.ne) h2 hM.ne h4
  unfold OnePass.exec
  rcases h5 with ⟨rfl, h7⟩ | ⟨caps, S, rfl, h7, h8⟩
  · refine Or.inl ⟨?_, h7⟩
    rcases hP.result hc (encode text) with ⟨_, k2, _⟩ | ⟨sl, _, _, c, hr, _⟩
    · rw [k2]
    · exfalso
      have := NFA.Fst.none_reach (K := atEnd) hM.sink h6 hr
      simp [atEnd] at this
  · have hcap := first_captures h7
    obtain ⟨d', k1, k2⟩ := NFA.Fst.reach h6
    have hrest : d'.rest = [] ∧ d'.caps = caps := by
      unfold atEnd at k2
      split at k2
      · rename_i hh
        injection k2 with k2
        exact ⟨by simpa using hh, k2⟩
      · simp at k2
    obtain ⟨o, rs, cs⟩ := d'
    obtain ⟨k3, k4⟩ := hrest
    simp only at k3 k4
    subst k3 k4
    have hoff : o = unitLen U8Atom (encode text) := by
      obtain ⟨p, e1, e2⟩ := at_pos (⟨cs, k1⟩ : M.At (encode text) (M.length - 1) o [])
      rw [List.append_nil] at e1
      rw [e1]; exact e2
    subst hoff
    rcases hP.result hc (encode text) with ⟨_, _, k5⟩ | ⟨sl, _, k5, c, hr, hsl⟩
    · exact absurd ⟨cs, k1⟩ k5
    · simp only at hsl
      rw [k5]
      simp only
      rw [hsl, run_unique hM hT htwo hr k1, slots_first _ h8 hcap]
      refine Or.inr ⟨_, S, rfl, h7, by simp [hP.groups], first_slots h8 h6⟩

end Ere
