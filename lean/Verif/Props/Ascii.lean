import Verif.Props.Unset
import Verif.Proofs.AtomCanon

/-!
# Property theorems about patterns that match only ASCII texts: C62

For them `[:graph:]` and `[:xdigit:]` do no harm: the engine over characters, whose symbols are the only ones that are
written with the names of the classes, is not chosen.
-/

namespace Ere.Props
open Ere

section
variable {σ α : Type} [Sym σ α]

/-- A state is reached over some text that contains `x`. -/
def ComesOver (M : NFA σ) (A : Nat → Nat) (x : α) (q : Nat) : Prop :=
  ∃ (xs : List α) (caps : Caps), x ∈ xs ∧ A q ≠ 0 ∧
    ∀ rest, (A q = 2 → rest = []) →
      ReachE M.HasEdge (0, (⟨0, xs ++ rest, []⟩ : Cfg α)) (q, ⟨unitLen σ xs, rest, caps⟩)

theorem comesOver_enter {M : NFA σ} {A : Nat → Nat} (hA : GOkL frS A 0 M) {p a q} (he : M.HasEdge p (.sym a) q) {x : α}
    (hx : Sym.check a x = true) (h : Comes (α := α) M A (fun _ => True) p) : ComesOver M A x q := by
  obtain ⟨xs, caps, _, _, hr⟩ := h
  have hph := hA _ _ _ he
  rw [Nat.zero_add] at hph
  obtain ⟨hp1, hq1⟩ := hph
  refine ⟨xs ++ [x], caps, by simp, by omega, fun rest _ => ?_⟩
  rw [List.append_assoc, List.singleton_append]
  refine reachE_trans (hr (x :: rest) (by omega)) (reachE_step he ?_)
  unfold labStep
  exact symStep_iff.mpr ⟨x, rest, rfl, hx, by simp [unitLen]⟩

theorem comesOver_step {M : NFA σ} {A : Nat → Nat} (hA : GOkL frS A 0 M)
    (hs : SymP (fun a => ∃ y, Sym.check (α := α) a y = true) M) {p l q} (he : M.HasEdge p l q) {x : α}
    (h : ComesOver M A x p) : ComesOver M A x q := by
  obtain ⟨xs, caps, hm, h0, hr⟩ := h
  have hph := hA _ _ _ he
  rw [Nat.zero_add] at hph
  cases l with
  | sym a =>
    obtain ⟨y, hy⟩ := hs _ _ _ he
    obtain ⟨hp1, hq1⟩ := hph
    refine ⟨xs ++ [y], caps, by simp [hm], by omega, fun rest _ => ?_⟩
    rw [List.append_assoc, List.singleton_append]
    refine reachE_trans (hr (y :: rest) (by omega)) (reachE_step he ?_)
    unfold labStep
    exact symStep_iff.mpr ⟨y, rest, rfl, hy, by simp [unitLen]⟩
  | eps m =>
    refine ⟨xs, caps ++ walkEvents (unitLen σ xs) [m], hm, ?_, fun rest h => ?_⟩
    · cases m <;> simp only [frS, frE] at hph <;> omega
    · have h2 : A p = 2 → rest = [] := by
        intro h2
        apply h
        cases m <;> simp only [frS, frE] at hph <;> omega
      refine reachE_trans (hr rest h2) (reachE_step he ?_)
      show epsStep m _ = some _
      cases m with
      | none => simp [epsStep, walkEvents]
      | startAnchor => exact absurd hph.1 h0
      | endAnchor => rw [h hph.2]; simp [epsStep, walkEvents]
      | startCapture g => simp [epsStep, walkEvents, Caps.setStart]
      | endCapture g => simp [epsStep, walkEvents, Caps.setEnd]

/-- Whatever a symbol of the automaton accepts occurs in some accepted text. -/
theorem symbol_occurs {M : NFA σ} (hM : Ready M) {A : Nat → Nat} (hA : GOkL frS A 0 M)
    (hs : SymP (fun a => ∃ y, Sym.check (α := α) a y = true) M) {p a q} (he : M.HasEdge p (.sym a) q) {x : α}
    (hx : Sym.check a x = true) : ∃ (xs : List α) (caps : Caps), x ∈ xs ∧
      M.Acc ⟨0, xs, []⟩ ⟨unitLen σ xs, [], caps⟩ := by
  have h2 : ComesOver M A x q := comesOver_enter hA he hx (comes_any hA hs (hM.trim p (hasEdge_lt he)).1)
  have h3 : ∀ {r}, M.Path (fun _ => true) true q r → ComesOver M A x r := by
    intro r hr
    induction hr with
    | refl => exact h2
    | tail _ he ih =>
      obtain ⟨l, _, he⟩ := he
      exact comesOver_step hA hs he ih
  obtain ⟨xs, caps, hm, _, hr⟩ := h3 (hM.trim q (hM.wf _ _ _ he)).2
  refine ⟨xs, caps, hm, hM.ne, ?_⟩
  have := hr [] (fun _ => rfl)
  rw [List.append_nil] at this
  exact this
end

open Classical in
/-- Every atom of the pattern can be read, and its ranges are written in order. -/
def GoodAtoms (e : ERE) : Prop := e.atomsAll (fun a => decide ((∃ c, a.check c = true) ∧ a.Ordered)) = true

/-- The pattern matches only ASCII texts. -/
def OnlyAscii (e : ERE) : Prop := ∀ text, e.MatchesIn text → ∀ c ∈ text, c.toNat < 128

/-- The automaton of a pattern that matches only ASCII texts has only ASCII symbols. -/
theorem isAscii_of {e : ERE} {N : NFA Atom} (h1 : charNFA e = .ok N) (hne : N ≠ []) {s t : Bool} (he : e.Framed s t)
    (hg : GoodAtoms e) (ho : OnlyAscii e) : N.isAscii = true := by
  classical
  obtain ⟨hN, h3⟩ := workingNew_ne e h1 hne
  obtain ⟨A, _, _, hA⟩ := frS_char he h1 hne
  have hsq := (symQ_pipeline e hg (by
    simp only [decide_eq_true_eq]; exact ⟨⟨'a', by simp [anyAtom, Atom.check]⟩, by simp [anyAtom, Atom.Ordered]⟩) h1 hne).symP
  have hl : SymP (fun a : Atom => ∃ c, Sym.check a c = true) N := fun p a q h => (of_decide_eq_true (hsq p a q h)).1
  unfold NFA.isAscii
  simp only [List.all_eq_true, decide_eq_true_eq]
  intro st hst tr htr r hr
  obtain ⟨i, hi, rfl⟩ := List.mem_iff_getElem.mp hst
  have hE : N.HasEdge i (.sym tr.symbol) tr.dst := hasEdge_iff.mpr ⟨_, List.getElem?_eq_getElem hi, htr⟩
  have hord := (of_decide_eq_true (hsq _ _ _ hE)).2
  have hle : r.lo ≤ r.hi := (Atom.toRanges_canonical hord).1 r hr
  obtain ⟨xs, caps, hm, hacc⟩ := symbol_occurs hN hA hl hE (x := r.hi)
    ((Atom.toRanges_check _ _).mp ⟨r, hr, hle, Char.le_refl _⟩)
  obtain ⟨S, k1, _⟩ := run_captures ((h3 _ _).1 hacc)
  exact ho xs (captures_matchesIn.mp ⟨S, k1⟩) _ hm

/-- **C62 for patterns that match only ASCII texts.** Let the pattern have anchors only around its branches and match only
ASCII texts (so that it has both anchors); it may contain `[:graph:]` and `[:xdigit:]`. Then the flat engine over characters
is not chosen, and the emitted program compiles unless it is one of the one-pass engine for which
`C62_framed_compiles_iff` says that it does not. No crate has to be named. -/
theorem C62_ascii_compiles_iff (U : Utf8Seqs) {s t : Bool} {p : List Char} {e : ERE} (hp : parseStr p = .ok e)
    (he : e.Framed s t) (hg : GoodAtoms e) (ho : OnlyAscii e) {E : Engine} (h : compileRegex U.seqs p = .ok (some E))
    (cr : List String) : (∀ F, E.base ≠ .flatChar F) ∧ (E.compiles cr = false ↔ (∃ P, E.base = .onePass P) ∧
      ((e.Unbounded ∧ s = true ∧ e.MatchesIn []) ∨ (¬ e.Unbounded ∧ ¬ e.OneReading))) := by
  have hE := compileRegex_pick hp h
  have hno : ∀ F, E.base ≠ .flatChar F := by
    intro F hF
    obtain ⟨N, h1, h2, _⟩ := pickEngine_flatChar hE hF
    by_cases hne : N = []
    · subst hne; simp [NFA.isAscii] at h2
    · rw [isAscii_of h1 hne he hg ho] at h2
      simp at h2
  refine ⟨hno, framed_compiles_iff U he hE ?_⟩
  rw [compiles_iff U hE]
  exact ⟨fun h => h.1, fun h => ⟨h, fun F hF => absurd hF (hno F)⟩⟩

end Ere.Props
