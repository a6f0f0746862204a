import Verif.Proofs.Framed
import Verif.Proofs.Fixed

/-! Fixed offsets of patterns with anchors only around the branches: every walk of the automaton is a match. -/

namespace Ere

/-- A walk that reads one byte for each symbol and ignores anchors is a run over some bytes. -/
theorem drift_run {M : NFA U8Atom} {A : Nat → Nat} (hA : GOkL frS A 0 M) (hs : SymP (fun a : U8Atom => a.lo ≤ a.hi) M)
    {q o c} (h : M.Drift q o c) : ∃ bs : List UInt8, bs.length = o ∧ (A q = 0 → bs = []) ∧
      ∀ rest, (A q = 2 → rest = []) → ReachE M.HasEdge (0, (⟨0, bs ++ rest, []⟩ : Cfg UInt8)) (q, ⟨o, rest, c⟩) := by
  have key : ∀ x, Relation.ReflTransGen (DStep M) (0, 0, []) x → ∃ bs : List UInt8, bs.length = x.2.1 ∧
      (A x.1 = 0 → bs = []) ∧ ∀ rest, (A x.1 = 2 → rest = []) →
        ReachE M.HasEdge (0, (⟨0, bs ++ rest, []⟩ : Cfg UInt8)) (x.1, ⟨x.2.1, rest, x.2.2⟩) := by
    intro x hx
    induction hx with
    | refl => exact ⟨[], rfl, fun _ => rfl, fun _ _ => reachE_refl⟩
    | tail _ hd ih =>
      obtain ⟨bs, hl, h0, hr⟩ := ih
      cases hd with
      | @sym q o c a q' he =>
        have hph := hA _ _ _ he
        rw [Nat.zero_add] at hph
        obtain ⟨hp, hq⟩ := hph
        simp only at hl h0 hr ⊢
        refine ⟨bs ++ [a.lo], by simp [hl], by omega, fun rest _ => ?_⟩
        rw [List.append_assoc, List.singleton_append]
        exact reachE_trans (hr (a.lo :: rest) (by omega)) (reachE_step he (lo_step (hs _ _ _ he) _ _ rfl))
      | @eps q o c e q' he =>
        have hph := hA _ _ _ he
        rw [Nat.zero_add] at hph
        simp only at hl h0 hr ⊢
        have hrest : ∀ rest : List UInt8, (A q' = 2 → rest = []) → (A q = 2 → rest = []) := by
          intro rest h h2
          apply h
          cases e <;> simp only [frS, frE] at hph <;> omega
        refine ⟨bs, hl, ?_, fun rest h => ?_⟩
        · intro hq
          apply h0
          cases e <;> simp only [frS, frE] at hph <;> omega
        · refine reachE_trans (hr rest (hrest rest h)) (reachE_step he ?_)
          show epsStep e _ = some _
          cases e with
          | none => simp [epsStep, walkEvents]
          | startAnchor =>
            have : o = 0 := by rw [← hl, h0 hph.1]; rfl
            subst this
            simp [epsStep, walkEvents]
          | endAnchor => rw [h hph.2]; simp [epsStep, walkEvents]
          | startCapture g => simp [epsStep, walkEvents, Caps.setStart]
          | endCapture g => simp [epsStep, walkEvents, Caps.setEnd]
  exact key _ h

section
variable (U : Utf8Seqs) {e : ERE} {N : NFA Atom} {M : NFA U8Atom}
  (h1 : workingNew (Tree.fromERE e).1 = .ok N) (h2 : u8New U.seqs N = .ok M) (hne : M ≠ [])
include h1 h2 hne

/-- If the walks to the accept state agree, all matches of all texts capture the same. -/
theorem no_conflict (hc : ¬ M.Conflict) :
    ∀ text S text' S', e.Captures text S → e.Captures text' S' → ∀ g, lastSpan S g = lastSpan S' g := by
  intro text S text' S' hS hS' g
  obtain ⟨caps, r1, a1⟩ := captures_acc U h1 h2 hne hS
  obtain ⟨caps', r2, a2⟩ := captures_acc U h1 h2 hne hS'
  have hu : slotsOf M.numCaptureGroups caps = slotsOf M.numCaptureGroups caps' :=
    Classical.byContradiction fun hd => hc ⟨_, _, _, _, run_drift a1.2, run_drift a2.2, hd⟩
  by_cases hg : g < M.numCaptureGroups
  · rw [lastSpan_of r1 r2]
    have := congrArg (fun l => l[g]?) hu
    simp only [slotsOf_get hg, Option.some.injEq, Prod.mk.injEq] at this
    exact this
  · have n1 := reach_start_none a1.2 (g := g) (by omega)
    have n2 := reach_start_none a2.2 (g := g) (by omega)
    rw [(reads_last r1 g).1, Option.map_eq_none_iff] at n1
    rw [(reads_last r2 g).1, Option.map_eq_none_iff] at n2
    rw [n1, n2]

/-- The walks to the accept state agree exactly if all matches of all texts capture the same. -/
theorem conflict_iff {s t : Bool} (he : e.Framed s t) : ¬ M.Conflict ↔
    ∀ text S text' S', e.Captures text S → e.Captures text' S' → ∀ g, lastSpan S g = lastSpan S' g := by
  obtain ⟨hN, hM, _, _⟩ := pipeline_ne U e h1 h2 hne
  constructor
  · exact no_conflict U h1 h2 hne
  · rintro hall ⟨o, c, o', c', d1, d2, hd⟩
    obtain ⟨A, _, _, hA⟩ := frS_byte U he h1 hN h2 hne
    have hs := u8New_symP U hN h2 hne
    have run : ∀ {o c}, M.Drift (M.length - 1) o c → ∃ text S, e.Captures text S ∧ Reads c S := by
      intro o c d
      obtain ⟨bs, hl, _, hr⟩ := drift_run hA hs d
      have hacc : M.Acc (α := UInt8) ⟨0, bs, []⟩ ⟨bs.length, [], c⟩ := by
        refine ⟨hM.ne, ?_⟩
        have := hr [] (fun _ => rfl)
        rw [List.append_nil] at this
        rw [hl]
        exact this
      obtain ⟨text, rfl⟩ := accepted_text U hN h2 hacc
      rw [encode_length] at hacc
      obtain ⟨S, k1, k2⟩ := acc_captures U h1 h2 hne hacc
      exact ⟨text, S, k1, k2⟩
    obtain ⟨text, S, k1, k2⟩ := run d1
    obtain ⟨text', S', k3, k4⟩ := run d2
    apply hd
    unfold slotsOf
    apply List.map_congr_left
    intro g _
    have := (lastSpan_of k2 k4 g).mp (hall _ _ _ _ k1 k3 g)
    rw [this.1, this.2]
end

end Ere
