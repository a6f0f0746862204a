import Verif.Proofs.Framed
import Verif.Proofs.FirstOnePass
import Verif.Proofs.Spans
import Verif.Proofs.Laws

/-! If a pattern without `$` has a one-pass table, the text determines what its groups capture. -/

namespace Ere

mutual
theorem CapERE.noEnd : {e : ERE} → {g : Nat} → {pre mid post : List Char} → {S : List Span} → CapERE e g pre mid post S →
    e.hasEnd = false → ∀ post', CapERE e g pre mid post' S
  | _, _, _, _, _, _, .intro (b := b) hb h, hs, post' =>
    .intro hb (h.noEnd (branchesHaveEnd_mem hs (by rw [hb]; simp)) post')
theorem CapBranch.noEnd : {e : EREBranch} → {g : Nat} → {pre mid post : List Char} → {S : List Span} →
    CapBranch e g pre mid post S → e.hasEnd = false → ∀ post', CapBranch e g pre mid post' S
  | _, _, _, _, _, _, .nil, _, _ => .nil
  | _, _, _, _, _, _, .cons (p := p) (ps := ps) h1 h2, hs, post' => by
    have hs' : (p.hasEnd || partsHaveEnd ps) = false := hs
    rw [Bool.or_eq_false_iff] at hs'
    exact .cons (h1.noEnd hs'.1 _) (h2.noEnd hs'.2 _)
theorem CapPart.noEnd : {e : EREPart} → {g : Nat} → {pre mid post : List Char} → {S : List Span} →
    CapPart e g pre mid post S → e.hasEnd = false → ∀ post', CapPart e g pre mid post' S
  | _, _, _, _, _, _, .single h, hs, post' => .single (h.noEnd hs post')
  | _, _, _, _, _, _, .quantified h1 h2 h, hs, post' => .quantified h1 h2 (h.noEnd hs post')
  | _, _, _, _, _, _, .end_, hs, _ => by simp [EREPart.hasEnd] at hs
  | _, _, _, _, _, _, .start, _, _ => .start
theorem CapTimes.noEnd : {e : EREExpr} → {n g : Nat} → {pre mid post : List Char} → {S : List Span} →
    CapTimes e n g pre mid post S → e.hasEnd = false → ∀ post', CapTimes e n g pre mid post' S
  | _, _, _, _, _, _, _, .zero, _, _ => .zero
  | _, _, _, _, _, _, _, .succ h1 h2, hs, _ => .succ (h1.noEnd hs _) (h2.noEnd hs _)
theorem CapExpr.noEnd : {e : EREExpr} → {g : Nat} → {pre mid post : List Char} → {S : List Span} →
    CapExpr e g pre mid post S → e.hasEnd = false → ∀ post', CapExpr e g pre mid post' S
  | _, _, _, _, _, _, .atom h, _, _ => .atom h
  | _, _, _, _, _, _, .sub h, hs, post' => .sub (h.noEnd hs post')
end

/-- A match of a pattern without `$` is one in every longer text too. -/
theorem captures_after {e : ERE} (hs : e.hasEnd = false) {text : List Char} {S} (h : e.Captures text S) (b : List Char) :
    e.Captures (text ++ b) S := by
  obtain ⟨pre, mid, post, S', ht, hm, hS⟩ := h
  exact ⟨pre, mid, post ++ b, S', by simp [ht], hm.noEnd hs _, hS⟩

theorem lastSpan_le {e : ERE} {text : List Char} {S} (h : e.Captures text S) {g a b : Nat} (hg : lastSpan S g = some (a, b)) :
    a ≤ byteLen text ∧ b ≤ byteLen text := by
  obtain ⟨i, j, _, _, h3, h4⟩ := captures_spans h
  have := h4 _ (lastSpan_mem hg)
  simp only at this
  omega

/-- Marks behind the last byte of the text are not made. -/
theorem marks_before {c : Caps} {n : Nat} {ls : List EpsType} {S : List Span} (hr : Reads (c ++ walkEvents n ls) S)
    (h : ∀ g a b, lastSpan S g = some (a, b) → a < n ∧ b < n) (g : Nat) :
    Caps.start? (c ++ walkEvents n ls) g = Caps.start? c g ∧ Caps.end? (c ++ walkEvents n ls) g = Caps.end? c g := by
  obtain ⟨r1, r2⟩ := reads_last hr g
  constructor
  · rw [start?_append, walkEvents_start] at r1 ⊢
    by_cases hm : EpsType.startCapture g ∈ ls
    · rw [if_pos hm] at r1
      cases hl : lastSpan S g with
      | none => rw [hl] at r1; simp at r1
      | some p =>
        obtain ⟨a, b⟩ := p
        rw [hl] at r1
        simp at r1
        have := h g a b hl
        omega
    · rw [if_neg hm]; rfl
  · rw [end?_append, walkEvents_end] at r2 ⊢
    by_cases hm : EpsType.endCapture g ∈ ls
    · rw [if_pos hm] at r2
      cases hl : lastSpan S g with
      | none => rw [hl] at r2; simp at r2
      | some p =>
        obtain ⟨a, b⟩ := p
        rw [hl] at r2
        simp at r2
        have := h g a b hl
        omega
    · rw [if_neg hm]; rfl

section
variable (U : Utf8Seqs) {e : ERE} {N : NFA Atom} {M : NFA U8Atom}
  (h1 : workingNew (Tree.fromERE e).1 = .ok N) (h2 : u8New U.seqs N = .ok M) (hne : M ≠ [])
include h1 h2 hne

theorem oneReading_open (hs : e.hasEnd = false) {rows : List (OpRow × List Upd)} (hT : OpTable M rows) : e.OneReading := by
  obtain ⟨hN, hM, _, _⟩ := pipeline_ne U e h1 h2 hne
  intro text S S' hS hS' g
  obtain ⟨caps, r1, a1⟩ := captures_acc U h1 h2 hne (captures_after hs hS ['a'])
  obtain ⟨caps', r2, a2⟩ := captures_acc U h1 h2 hne (captures_after hs hS' ['a'])
  obtain ⟨q, ev, ls, g1, g2, g3⟩ := reach_split a1.2
  obtain ⟨q', ev', ls', g1', g2', g3'⟩ := reach_split a2.2
  simp only at g1 g3 g1' g3'
  obtain ⟨_, hev⟩ := seedRun_unique hM hT _ _ _ _ _ _ g1 g1'
  have hlen : byteLen text < byteLen (text ++ ['a']) := by
    rw [byteLen_append]
    have := charLen_pos 'a'
    rw [byteLen_cons, byteLen_nil]
    omega
  have m1 := marks_before (g3 ▸ r1) (fun g a b hg => by have := lastSpan_le hS hg; omega) g
  have m2 := marks_before (g3' ▸ r2) (fun g a b hg => by have := lastSpan_le hS' hg; omega) g
  rw [lastSpan_of r1 r2]
  by_cases hg : g < M.numCaptureGroups
  · rw [g3, g3', m1.1, m1.2, m2.1, m2.2]
    have := congrArg (fun l => l[g]?) hev
    simp only [slotsOf_get hg, Option.some.injEq, Prod.mk.injEq] at this
    exact this
  · have n1 := reach_start_none a1.2 (g := g) (by omega)
    have n2 := reach_start_none a2.2 (g := g) (by omega)
    have l1 : lastSpan S g = none := by
      have := n1
      rw [(reads_last r1 g).1, Option.map_eq_none_iff] at this
      exact this
    have l2 : lastSpan S' g = none := by
      have := n2
      rw [(reads_last r2 g).1, Option.map_eq_none_iff] at this
      exact this
    rw [n1, n2, (reads_last r1 g).2, (reads_last r2 g).2, l1, l2]
    exact ⟨rfl, rfl⟩
end

end Ere
