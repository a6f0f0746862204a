import Verif.Proofs.Fixed
import Verif.Proofs.StartSafe

/-! # Groups of the compiled automata -/

namespace Ere
variable {σ α : Type}

/-- Without crossing an opening edge of the group its slot stays empty, and conversely. -/
theorem run_unset_path [Sym σ α] {N : NFA σ} {q off g : Nat} {text rest : List α} {caps : Caps}
    (h : ReachE N.HasEdge (0, ⟨0, text, []⟩) (q, ⟨off, rest, caps⟩)) (hc : caps.start? g = none) :
    N.Path (· != .startCapture g) true 0 q := by
  have key : N.Path (· != .startCapture g) true 0 q ∨ caps.start? g ≠ none := by
    refine reachE_tail_induction (P := fun q d => N.Path (· != .startCapture g) true 0 q ∨ d.caps.start? g ≠ none)
      h (.inl .refl) ?_
    intro q1 d1 l q2 d2 _ ih he hl
    cases l with
    | sym a =>
      obtain ⟨c, r, _, _, rfl⟩ := symStep_iff.mp (show symStep a d1 = some d2 from hl)
      exact ih.imp (fun h => h.tail ⟨.sym a, rfl, he⟩) id
    | eps e =>
      rw [step_events (σ := σ) (show epsStep e d1 = some d2 from hl)]
      by_cases hg : e = .startCapture g
      · right
        subst hg
        simp only
        rw [start?_append, walkEvents_start]
        simp
      · rcases ih with h1 | h1
        · exact .inl (h1.tail ⟨.eps e, by simpa [Sel] using hg, he⟩)
        · right
          simp only
          rw [start?_append]
          exact fun h => h1 (Option.or_eq_none_iff.mp h).2
  exact key.resolve_right (fun h => h hc)

/-- A run that captures the group crosses an opening edge. -/
theorem run_set_edge [Sym σ α] {N : NFA σ} {q off g : Nat} {text rest : List α} {caps : Caps}
    (h : ReachE N.HasEdge (0, ⟨0, text, []⟩) (q, ⟨off, rest, caps⟩)) (hc : caps.start? g ≠ none) :
    g < N.numCaptureGroups := by
  by_contra hg
  exact hc (reach_start_none h (by omega))

theorem epsQ_iff {Q} {N : NFA σ} : EpsQ Q N ↔ ∀ p e q, N.HasEdge p (.eps e) q → e = .none ∨ Q e := by
  constructor
  · intro h p e q he; exact h.edge he
  · intro h s hs e he
    obtain ⟨i, hi⟩ := List.mem_iff_getElem?.mp hs
    exact h i e.special e.dst ⟨s, hi, he⟩

theorem IsSimS.epsQ {Q} {N' N : NFA σ} {R} (h : IsSimS N' N R) (hs : EpsQ Q N) : EpsQ Q N' := by
  rw [epsQ_iff] at *
  intro p' e q' he
  by_cases hn : e = .none
  · exact .inl hn
  · obtain ⟨p, hp⟩ := h.total _ _ _ he
    obtain ⟨p1, q, _, h2, _⟩ := h.mark _ _ _ _ hp hn he
    exact hs _ _ _ h2

theorem epsQ_stable [Sym σ α] {Q} : Stable α (EpsQ (σ := σ) Q) :=
  stable_of_sim (fun _ h => h.epsQ) (fun fe ft h => epsQ_filter h fe ft)

theorem epsQ_pipeline (U : Utf8Seqs) (e : ERE) {Q} (hQ : (Tree.fromERE e).1.MarkQ Q)
    {N : NFA Atom} {M : NFA U8Atom} (h1 : workingNew (Tree.fromERE e).1 = .ok N) (hN : Ready N)
    (h2 : u8New U.seqs N = .ok M) (hM : M ≠ []) : EpsQ Q N ∧ EpsQ Q M := by
  have ht := starOk_fromERE e
  have hb := build_shape _ ht
  have hc1 : Shape (build (Tree.fromERE e).1).cleanStartAnchors := filterEdges_shape hb
  have hc : Shape (build (Tree.fromERE e).1).cleanStartAnchors.cleanEndAnchors := filterEdges_shape hc1
  have hL : EpsQ Q ((build (Tree.fromERE e).1).cleanStartAnchors.cleanEndAnchors.withLoops anyAtom true true) :=
    epsQ_withLoops (epsQ_filter (epsQ_filter (build_epsQ _ hQ) _ _) _ _) _ _ _
  rw [workingNew, newLoopOpt] at h1
  have hNs : EpsQ Q N :=
    (epsQ_stable (α := Char)).finish (withLoops_shape hc anyAtom true true) (epsQ_filter hL _ _) h1 hN.ne
  refine ⟨hNs, ?_⟩
  obtain ⟨B, ms, ss, I, h3, h4⟩ := u8Build_spec U hN.ne
  rw [u8New, u8NewLoopOpt, h3] at h2
  have h5 : B.finish = .ok M := h2
  refine (epsQ_stable (α := UInt8)).finish (u8Build_shape hN.wf hN.ne hN.rank hN.mix hN.sink h4)
    (epsQ_filter ?_ _ _) h5 hM
  rw [epsQ_iff]
  intro p e q he
  rcases (h4.edge _ _ _).mp he with h6 | ⟨_, h6, _⟩ | ⟨j, _, h6⟩
  · exact hNs.edge ((h4.st.eps _ _ _).mp h6)
  · injection h6 with h6; exact .inl h6
  · obtain ⟨s, h7, h8⟩ := hasEdge_iff.mp h6
    have := h4.st.subs.noeps s (List.mem_of_getElem? h7)
    simp [State.Has, this] at h8

theorem groups_eq_groupCount (e : ERE) : e.groups = e.groupCount := by
  have h1 := Tree.count_sub e 0
  rw [groups_fromSubERE] at h1
  omega

theorem foldl_max_lt {l : List Nat} {a k : Nat} (ha : a < k) (h : ∀ x ∈ l, x < k) : l.foldl max a < k := by
  induction l generalizing a with
  | nil => exact ha
  | cons x l ih =>
    rw [List.foldl_cons]
    exact ih (by have := h x (by simp); omega) (fun y hy => h y (by simp [hy]))

theorem numCaptureGroups_le {N : NFA σ} {k : Nat}
    (h : ∀ p g q, N.HasEdge p (.eps (.startCapture g)) q → g ≤ k) : N.numCaptureGroups ≤ k + 1 := by
  unfold NFA.numCaptureGroups
  have := foldl_max_lt (l := (N.flatMap (·.epsilons)).map (fun e => match e.special with
    | .startCapture g => g
    | _ => 0)) (a := 0) (k := k + 1) (by omega) (by
      intro x hx
      obtain ⟨e, he, rfl⟩ := List.mem_map.1 hx
      obtain ⟨s, hs, hes⟩ := List.mem_flatMap.1 he
      obtain ⟨i, hi⟩ := List.mem_iff_getElem?.mp hs
      obtain ⟨d, sp⟩ := e
      cases sp with
      | startCapture g => exact Nat.lt_succ_of_le (h i g d ⟨s, hi, hes⟩)
      | _ => simp)
  exact this

/-- Both automata have at most as many groups as the pattern. -/
theorem groups_le (U : Utf8Seqs) (e : ERE) {N : NFA Atom} {M : NFA U8Atom}
    (h1 : workingNew (Tree.fromERE e).1 = .ok N) (hN : Ready N) (h2 : u8New U.seqs N = .ok M) (hM : M ≠ []) :
    N.numCaptureGroups ≤ e.groups + 1 ∧ M.numCaptureGroups ≤ e.groups + 1 := by
  obtain ⟨h3, h4⟩ := epsQ_pipeline U e (Q := fun s => ∀ g, s = .startCapture g → g ≤ e.groups)
    (markQ_fromERE e (by simp) (by simp) (fun k _ hk => by
      rw [groups_eq_groupCount]
      constructor
      · rintro g ⟨⟩; omega
      · rintro g ⟨⟩)) h1 hN h2 hM
  constructor
  · refine numCaptureGroups_le fun p g q he => ?_
    rcases h3.edge he with h | h
    · cases h
    · exact h g rfl
  · refine numCaptureGroups_le fun p g q he => ?_
    rcases h4.edge he with h | h
    · cases h
    · exact h g rfl

theorem optionalDebug_eq {N : NFA σ} (hN : Ready N) (g : Nat) :
    N.groupIsOptionalDebug g = .ok (N.groupIsOptional g) := by
  have hpos := List.length_pos_of_ne_nil hN.ne
  rw [NFA.groupIsOptionalDebug, if_neg (by simpa using hN.ne), if_neg ?_]
  · rfl
  · rw [List.any_eq_true]
    rintro ⟨⟨s, p⟩, hp, h⟩
    rw [List.mem_zipIdx_iff_getElem?] at hp
    simp only [Bool.and_eq_true, List.any_eq_true, beq_iff_eq] at h
    obtain ⟨h1, ⟨d, sp⟩, h2, h3⟩ := h
    simp only at h3 hp
    subst h3
    rw [(reachFrom_spec hN.wf hpos).2] at h1
    refine hN.close g ?_
    have key : ∀ x, N.Path (· != .startCapture g) true x p → CanClose N g x := by
      intro x hx
      induction hx using Relation.ReflTransGen.head_induction_on with
      | refl => exact .here (q' := d) ⟨s, hp, h2⟩
      | head h2 _ ih =>
        obtain ⟨l, hs, hl⟩ := h2
        refine .step hl ?_ ih
        rintro rfl
        simp [Sel] at hs
    exact key 0 h1

end Ere
