import Verif.Props.Flat
import Mathlib.Computability.MyhillNerode
import Mathlib.Data.Set.Finite.List

/-! The texts accepted by the flat engine over characters form a regular language: what the loop does with the rest of
the text depends only on the vector of active states. -/

namespace Ere

variable {F : Flat Atom}

theorem epsTest_flags {off total off' total' : Nat} (h1 : (off == 0) = (off' == 0))
    (h2 : (off == total) = (off' == total')) (l : List Bool) : F.epsTest off total l = F.epsTest off' total' l := by
  unfold Flat.epsTest
  rw [h1, h2]

/-- Total length of a text as the engine counts it. -/
def lenOf (v : List Char) : Nat := (v.map (Sym.len (σ := Atom))).sum

theorem lenOf_cons (c : Char) (v : List Char) : lenOf (c :: v) = Sym.len (σ := Atom) c + lenOf v := rfl

theorem len_pos (c : Char) : 0 < Sym.len (σ := Atom) c := by
  show 0 < charLen c
  unfold charLen
  split <;> [skip; split] <;> [skip; skip; split] <;> omega

theorem lenOf_pos {v : List Char} (h : v ≠ []) : 0 < lenOf v := by
  cases v with
  | nil => exact absurd rfl h
  | cons c v => rw [lenOf_cons]; have := len_pos c; omega

/-- What the loop does with the rest `v`, `l` being the states before their epsilon transitions are followed. -/
def runFrom (F : Flat Atom) (l : List Bool) (v : List Char) : Bool :=
  if l.all (!·) then false else F.testLoop (1 + lenOf v) 1 v (F.epsTest 1 (1 + lenOf v) l)

theorem testLoop_shift (v : List Char) : ∀ {off off' : Nat} (l : List Bool), 0 < off → 0 < off' →
    F.testLoop (off + lenOf v) off v (F.epsTest off (off + lenOf v) l) =
      F.testLoop (off' + lenOf v) off' v (F.epsTest off' (off' + lenOf v) l) := by
  induction v with
  | nil =>
    intro off off' l h h'
    rw [epsTest_flags (off := off) (off' := off') (total' := off' + lenOf [])]
    · rfl
    · rw [beq_eq_false_iff_ne.2 (by omega), beq_eq_false_iff_ne.2 (by omega)]
    · simp [lenOf]
  | cons c v ih =>
    intro off off' l h h'
    have hc := len_pos c
    rw [epsTest_flags (off := off) (off' := off') (total' := off' + lenOf (c :: v))]
    · rw [Flat.testLoop, Flat.testLoop]
      split
      · rfl
      · rw [lenOf_cons, ← Nat.add_assoc, ← Nat.add_assoc]
        exact ih _ (by omega) (by omega)
    · rw [beq_eq_false_iff_ne.2 (by omega), beq_eq_false_iff_ne.2 (by omega)]
    · have := lenOf_cons c v
      rw [beq_eq_false_iff_ne.2 (by omega), beq_eq_false_iff_ne.2 (by omega)]

/-- The states after a character that is not the last to be looked at. -/
def stepFrom (F : Flat Atom) (l : List Bool) (c : Char) : List Bool := F.nfa.symbolStep (F.epsTest 1 2 l) c

theorem runFrom_cons (l : List Bool) (c : Char) (v : List Char) :
    runFrom F l (c :: v) = if l.all (!·) then false else runFrom F (stepFrom F l c) v := by
  unfold runFrom
  split
  · rfl
  · have hc := len_pos c
    have e1 : F.epsTest 1 (1 + lenOf (c :: v)) l = F.epsTest 1 2 l := by
      apply epsTest_flags
      · rfl
      · rw [lenOf_cons, beq_eq_false_iff_ne.2 (by omega)]; rfl
    rw [Flat.testLoop, e1]
    show (if (stepFrom F l c).all (!·) then _ else _) = _
    split
    · rfl
    · rw [lenOf_cons, ← Nat.add_assoc]
      exact testLoop_shift v _ (by omega) (by omega)

/-- The states after a text. -/
def stepsFrom (F : Flat Atom) (l : List Bool) (w : List Char) : List Bool :=
  w.foldl (fun l c => if l.all (!·) then l else stepFrom F l c) l

theorem runFrom_append (l : List Bool) (w v : List Char) : runFrom F l (w ++ v) = runFrom F (stepsFrom F l w) v := by
  induction w generalizing l with
  | nil => rfl
  | cons c w ih =>
    rw [List.cons_append, runFrom_cons]
    show _ = runFrom F (stepsFrom F (if l.all (!·) then l else stepFrom F l c) w) v
    rw [← ih]
    split
    · rename_i h
      unfold runFrom
      rw [if_pos h]
    · rfl

theorem foldl_set_length (xs : List Nat) (l : List Bool) : (xs.foldl (fun l x => l.set x true) l).length = l.length := by
  induction xs generalizing l with
  | nil => rfl
  | cons x xs ih => rw [List.foldl_cons, ih, List.length_set]

theorem stepFrom_length (l : List Bool) (c : Char) : (stepFrom F l c).length = F.nfa.length := by
  unfold stepFrom NFA.symbolStep
  rw [foldl_set_length, List.length_replicate]

theorem stepsFrom_length (l : List Bool) (w : List Char) (h : l.length = F.nfa.length) :
    (stepsFrom F l w).length = F.nfa.length := by
  induction w generalizing l with
  | nil => exact h
  | cons c w ih =>
    refine ih _ ?_
    show (if l.all (!·) then l else stepFrom F l c).length = _
    split
    · exact h
    · exact stepFrom_length l c

/-- The states after the first character of a text. -/
def firstStep (F : Flat Atom) (c : Char) : List Bool :=
  F.nfa.symbolStep (F.epsTest 0 1 ((List.replicate F.nfa.length false).set 0 true)) c

theorem test_cons (c : Char) (v : List Char) : F.test (c :: v) = runFrom F (firstStep F c) v := by
  have hc := len_pos c
  show F.testLoop (lenOf (c :: v)) 0 (c :: v) (F.epsTest 0 (lenOf (c :: v)) _) = _
  rw [epsTest_flags (off := 0) (off' := 0) (total' := 1) rfl]
  · rw [Flat.testLoop]
    show (if (firstStep F c).all (!·) then _ else _) = _
    unfold runFrom
    split
    · rfl
    · rw [lenOf_cons]
      have := testLoop_shift (F := F) v (off := 0 + Sym.len (σ := Atom) c) (off' := 1) (firstStep F c) (by omega) (by omega)
      rw [Nat.zero_add] at this ⊢
      exact this
  · rw [lenOf_cons, beq_eq_false_iff_ne.2 (by omega)]; rfl

/-- The texts accepted by the flat engine over characters form a regular language. -/
theorem flat_regular (F : Flat Atom) : Language.IsRegular (show Language Char from {text | F.test text = true}) := by
  apply Language.IsRegular.of_finite_range_leftQuotient
  have hfin : Set.Finite {l : List Bool | l.length = F.nfa.length} := List.finite_length_eq Bool _
  refine Set.Finite.subset ((hfin.image (fun l => (show Language Char from {v | runFrom F l v = true}))).insert
    (show Language Char from {text | F.test text = true})) ?_
  rintro _ ⟨w, rfl⟩
  cases w with
  | nil => exact .inl rfl
  | cons c w =>
    refine .inr ⟨stepsFrom F (firstStep F c) w, ?_, ?_⟩
    · refine stepsFrom_length _ _ ?_
      unfold firstStep NFA.symbolStep
      rw [foldl_set_length, List.length_replicate]
    · ext v
      show runFrom F _ v = true ↔ F.test (c :: (w ++ v)) = true
      rw [test_cons, runFrom_append]

end Ere
