import Verif.Spec.Delimited
import Verif.Props.Fields
import Verif.Props.Scan

/-! C88: a pattern of an opening string, a class with `*?` or `*`, and a closing string finds delimited text. -/

namespace Ere.Props
open Ere

/-- The parts for a fixed string. -/
def litParts (w : List Char) : List EREPart := w.map fun c => .single (.atom (.normal c))

/-- The class with `*?` (`z`) or `*`, in parentheses if `grp`. -/
def bodyPart (z grp : Bool) (a : Atom) : EREPart :=
  if grp then .single (.sub (.mk [.mk [.quantified (.atom a) ⟨.star, z⟩]])) else .quantified (.atom a) ⟨.star, z⟩

/-- The pattern. -/
def delimERE (z grp : Bool) (a : Atom) (o c : List Char) : ERE := .mk [.mk (litParts o ++ bodyPart z grp a :: litParts c)]

/-! ## What the search means -/

theorem body_none {z : Bool} {ok : Char → Bool} {cl : List Char} : ∀ {rest : List Char}, bodyOf z ok cl rest = none →
    ∀ w' post', rest = w' ++ (cl ++ post') → (∀ x ∈ w', ok x = true) → False
  | [], h, w', post', he, _ => by
    have h2 := (List.append_eq_nil_iff.mp (List.append_eq_nil_iff.mp he.symm).2).1
    subst h2
    simp [bodyOf] at h
  | c :: r, h, w', post', he, hok => by
    rw [bodyOf] at h
    have h : (if cl.isPrefixOf (c :: r) then some ([] : List Char) else none) = none ∧
        (if ok c then (bodyOf z ok cl r).map (c :: ·) else none) = none := by
      cases z with
      | true => simpa only [if_true, Option.or_eq_none_iff] using h
      | false => simpa only [Bool.false_eq_true, if_false, Option.or_eq_none_iff, and_comm] using h
    cases w' with
    | nil =>
      rw [if_pos (List.isPrefixOf_iff_prefix.mpr ⟨post', he.symm⟩)] at h
      cases h.1
    | cons d w' =>
      rw [List.cons_append, List.cons.injEq] at he
      have h2 := h.2
      rw [if_pos (by rw [he.1]; exact hok d (by simp)), Option.map_eq_none_iff] at h2
      exact body_none h2 w' post' he.2 fun x hx => hok x (by simp [hx])

theorem body_some {z : Bool} {ok : Char → Bool} {cl : List Char} : ∀ {rest w : List Char}, bodyOf z ok cl rest = some w →
    ∃ post, rest = w ++ (cl ++ post) ∧ (∀ x ∈ w, ok x = true) ∧ ∀ w' post', rest = w' ++ (cl ++ post') → (∀ x ∈ w', ok x = true) →
      if z then w.length ≤ w'.length else w'.length ≤ w.length
  | [], w, h => by
    rw [bodyOf] at h
    split at h
    · cases h
      rename_i hc
      have : cl = [] := by simpa using hc
      subst this
      refine ⟨[], rfl, by simp, fun w' post' he _ => ?_⟩
      have : w' = [] := (List.append_eq_nil_iff.mp he.symm).1
      subst this
      cases z <;> simp
    · cases h
  | c :: r, w, h => by
    have hhere : ∀ {u : List Char}, (if cl.isPrefixOf (c :: r) then some [] else none) = some u → u = [] ∧ ∃ post, c :: r = cl ++ post := by
      intro u hu
      split at hu
      · cases hu
        rename_i hp
        obtain ⟨post, hp⟩ := List.isPrefixOf_iff_prefix.mp hp
        exact ⟨rfl, post, hp.symm⟩
      · cases hu
    have hnot : (if cl.isPrefixOf (c :: r) then some ([] : List Char) else none) = none → ∀ post, c :: r ≠ cl ++ post := by
      intro hu post he
      rw [if_pos (List.isPrefixOf_iff_prefix.mpr ⟨post, he.symm⟩)] at hu
      cases hu
    have hfur : ∀ {u}, (if ok c then (bodyOf z ok cl r).map (c :: ·) else none) = some u → ok c = true ∧ ∃ u', u = c :: u' ∧
        bodyOf z ok cl r = some u' := by
      intro u hu
      split at hu
      · obtain ⟨u', h1, rfl⟩ := Option.map_eq_some_iff.mp hu
        exact ⟨by assumption, u', rfl, h1⟩
      · cases hu
    rw [bodyOf] at h
    cases z with
    | true =>
      simp only [if_true] at h ⊢
      rcases Option.or_eq_some_iff.mp h with h | ⟨hn, h⟩
      · obtain ⟨rfl, post, hp⟩ := hhere h
        exact ⟨post, hp, by simp, fun w' _ _ _ => by simp⟩
      · obtain ⟨hc, u, rfl, hu⟩ := hfur h
        obtain ⟨post, rfl, h2, h3⟩ := body_some hu
        refine ⟨post, rfl, fun x hx => ?_, fun w' post' he hok => ?_⟩
        · rcases List.mem_cons.mp hx with rfl | hx
          · exact hc
          · exact h2 x hx
        · cases w' with
          | nil => exact absurd he (hnot hn _)
          | cons d w' =>
            rw [List.cons_append, List.cons.injEq] at he
            have := h3 w' post' he.2 fun x hx => hok x (by simp [hx])
            simpa using this
    | false =>
      simp only [Bool.false_eq_true, if_false] at h ⊢
      rcases Option.or_eq_some_iff.mp h with h | ⟨hn, h⟩
      · obtain ⟨hc, u, rfl, hu⟩ := hfur h
        obtain ⟨post, rfl, h2, h3⟩ := body_some hu
        refine ⟨post, rfl, fun x hx => ?_, fun w' post' he hok => ?_⟩
        · rcases List.mem_cons.mp hx with rfl | hx
          · exact hc
          · exact h2 x hx
        · cases w' with
          | nil => simp
          | cons d w' =>
            rw [List.cons_append, List.cons.injEq] at he
            have := h3 w' post' he.2 fun x hx => hok x (by simp [hx])
            simpa using this
      · obtain ⟨rfl, post, hp⟩ := hhere h
        refine ⟨post, hp, by simp, fun w' post' he hok => ?_⟩
        cases w' with
        | nil => simp
        | cons d w' =>
          exfalso
          rw [List.cons_append, List.cons.injEq] at he
          rw [if_pos (by rw [he.1]; exact hok d (by simp)), Option.map_eq_none_iff] at hn
          exact body_none hn w' post' he.2 fun x hx => hok x (by simp [hx])

/-- A place of delimited text: `w` between the delimiters, behind `pre`. -/
def DelimAt (ok : Char → Bool) (o c text pre w post : List Char) : Prop :=
  text = pre ++ (o ++ (w ++ (c ++ post))) ∧ ∀ x ∈ w, ok x = true

theorem here_some {z grp : Bool} {ok : Char → Bool} {o c : List Char} {off : Nat} {rest : List Char} {r}
    (h : enclosedHere z grp ok o c off rest = some r) : ∃ w post, DelimAt ok o c rest [] w post ∧
      r = some (off, off + byteLen (o ++ w ++ c)) :: (if grp then [some (off + byteLen o, off + byteLen (o ++ w))] else []) ∧
      ∀ w' post', DelimAt ok o c rest [] w' post' → if z then w.length ≤ w'.length else w'.length ≤ w.length := by
  unfold enclosedHere at h
  split at h
  · rename_i hp
    obtain ⟨rest', rfl⟩ := List.isPrefixOf_iff_prefix.mp hp
    rw [List.drop_left] at h
    obtain ⟨w, h1, rfl⟩ := Option.map_eq_some_iff.mp h
    obtain ⟨post, h2, h3, h4⟩ := body_some h1
    refine ⟨w, post, ⟨by rw [h2]; rfl, h3⟩, rfl, fun w' post' hd => h4 w' post' ?_ hd.2⟩
    have := hd.1
    simpa using this
  · cases h

theorem here_none {z grp : Bool} {ok : Char → Bool} {o c : List Char} {off : Nat} {rest : List Char}
    (h : enclosedHere z grp ok o c off rest = none) (w post : List Char) : ¬ DelimAt ok o c rest [] w post := by
  rintro ⟨he, hw⟩
  rw [List.nil_append] at he
  unfold enclosedHere at h
  rw [if_pos (List.isPrefixOf_iff_prefix.mpr ⟨_, he.symm⟩), Option.map_eq_none_iff, he, List.drop_left] at h
  exact body_none h w post rfl hw

theorem in_some {z grp : Bool} {ok : Char → Bool} {o c : List Char} : ∀ {rest : List Char} {off : Nat} {r},
    enclosedIn z grp ok o c off rest = some r → ∃ pre w post, DelimAt ok o c rest pre w post ∧
      r = some (off + byteLen pre, off + byteLen (pre ++ (o ++ w ++ c))) ::
        (if grp then [some (off + byteLen (pre ++ o), off + byteLen (pre ++ (o ++ w)))] else []) ∧
      ∀ pre' w' post', DelimAt ok o c rest pre' w' post' → pre.length ≤ pre'.length ∧
        (pre' = pre → if z then w.length ≤ w'.length else w'.length ≤ w.length)
  | [], off, r, h => by
    obtain ⟨w, post, h1, rfl, h3⟩ := here_some h
    refine ⟨[], w, post, h1, by simp [byteLen], fun pre' w' post' h => ⟨by simp, ?_⟩⟩
    rintro rfl
    exact h3 w' post' h
  | x :: rest, off, r, h => by
    rw [enclosedIn] at h
    cases hh : enclosedHere z grp ok o c off (x :: rest) with
    | some a =>
      rw [hh] at h
      cases h
      obtain ⟨w, post, h1, rfl, h3⟩ := here_some hh
      refine ⟨[], w, post, h1, by simp [byteLen], fun pre' w' post' h => ⟨by simp, ?_⟩⟩
      rintro rfl
      exact h3 w' post' h
    | none =>
      rw [hh] at h
      obtain ⟨pre, w, post, h1, rfl, h3⟩ := in_some h
      refine ⟨x :: pre, w, post, ⟨by rw [h1.1]; rfl, h1.2⟩, ?_, fun pre' w' post' hd => ?_⟩
      · simp only [List.cons_append, byteLen_cons, Nat.add_assoc]
      · cases pre' with
        | nil => exact absurd hd (here_none hh w' post')
        | cons y pre' =>
          have he := hd.1
          rw [List.cons_append, List.cons.injEq] at he
          have := h3 pre' w' post' ⟨he.2, hd.2⟩
          refine ⟨by simpa using this.1, fun hp => this.2 (List.cons.inj hp).2⟩

theorem in_none {z grp : Bool} {ok : Char → Bool} {o c : List Char} : ∀ {rest : List Char} {off : Nat},
    enclosedIn z grp ok o c off rest = none → ∀ pre w post, ¬ DelimAt ok o c rest pre w post
  | [], off, h, pre, w, post, hd => by
    have : pre = [] := (List.append_eq_nil_iff.mp hd.1.symm).1
    subst this
    exact here_none h w post hd
  | x :: rest, off, h, pre, w, post, hd => by
    rw [enclosedIn] at h
    cases hh : enclosedHere z grp ok o c off (x :: rest) with
    | some a => rw [hh] at h; cases h
    | none =>
      rw [hh] at h
      cases pre with
      | nil => exact here_none hh w post hd
      | cons y pre =>
        have he := hd.1
        rw [List.cons_append, List.cons.injEq] at he
        exact in_none h pre w post ⟨he.2, hd.2⟩

/-! ## The order of preference -/

theorem try_lit (w : List Char) : ∀ (g : Nat) (p : Pos), tryParts (litParts w) g p =
    if w.isPrefixOf p.rest then [⟨p.off + byteLen w, p.rest.drop w.length, p.spans⟩] else [] := by
  induction w with
  | nil => intro g p; simp [litParts, tryParts, byteLen]
  | cons c w ih =>
    rintro g ⟨off, rest, sp⟩
    rw [litParts, List.map_cons]
    simp only [tryParts, tryPart, tryExpr]
    cases rest with
    | nil => simp
    | cons d r =>
      by_cases hc : c = d
      · subst hc
        simp only [Atom.check, beq_self_eq_true, if_true, List.flatMap_cons, List.flatMap_nil, List.append_nil]
        refine (ih _ _).trans ?_
        simp [byteLen_cons, Nat.add_assoc]
      · have h1 : (Atom.normal c).check d = false := by simpa [Atom.check] using hc
        simp [h1, hc]

theorem try_lit_append (w : List Char) (ps : List EREPart) : ∀ (g : Nat) (p : Pos), tryParts (litParts w ++ ps) g p =
    if w.isPrefixOf p.rest then tryParts ps g ⟨p.off + byteLen w, p.rest.drop w.length, p.spans⟩ else [] := by
  induction w with
  | nil => rintro g ⟨off, rest, sp⟩; simp [litParts, byteLen]
  | cons c w ih =>
    rintro g ⟨off, rest, sp⟩
    rw [litParts, List.map_cons, List.cons_append]
    simp only [tryParts, tryPart, tryExpr]
    cases rest with
    | nil => simp
    | cons d r =>
      by_cases hc : c = d
      · subst hc
        simp only [Atom.check, beq_self_eq_true, if_true, List.flatMap_cons, List.flatMap_nil, List.append_nil]
        refine (ih _ _).trans ?_
        simp [byteLen_cons, Nat.add_assoc, EREPart.groups, EREExpr.groups]
      · have h1 : (Atom.normal c).check d = false := by simpa [Atom.check] using hc
        simp [h1, hc]

/-- Rounds of the class, followed by something that needs the closing string. -/
theorem try_rounds (z : Bool) (a : Atom) (cl : List Char) (g : Nat) {K : Pos → List Pos} {R : Pos → Pos}
    (hK : ∀ p, K p = if cl.isPrefixOf p.rest then [R p] else []) : ∀ (rest : List Char) (k off : Nat) (sp : List Span),
    rest.length ≤ k → ((optTimes (tryExpr (.atom a) g) (!z) k ⟨off, rest, sp⟩).flatMap K).head? =
      (bodyOf z a.check cl rest).map fun w => R ⟨off + byteLen w, rest.drop w.length, sp⟩
  | [], k, off, sp, _ => by
    have h0 : optTimes (tryExpr (.atom a) g) (!z) k ⟨off, [], sp⟩ = [⟨off, [], sp⟩] := by
      cases k with
      | zero => rfl
      | succ k => cases z <;> simp [optTimes, tryExpr]
    rw [h0, List.flatMap_cons, List.flatMap_nil, List.append_nil, hK, bodyOf]
    cases cl <;> simp [byteLen]
  | c :: r, k, off, sp, hk => by
    obtain ⟨k, rfl⟩ : ∃ k', k = k' + 1 := ⟨k - 1, by simp at hk; omega⟩
    have ih := try_rounds z a cl g hK r k (off + charLen c) sp (by simpa using hk)
    have hfur : (((tryExpr (.atom a) g ⟨off, c :: r, sp⟩).flatMap (optTimes (tryExpr (.atom a) g) (!z) k)).flatMap K).head? =
        (if a.check c then (bodyOf z a.check cl r).map (c :: ·) else none).map fun w =>
          R ⟨off + byteLen w, (c :: r).drop w.length, sp⟩ := by
      have hx : tryExpr (.atom a) g ⟨off, c :: r, sp⟩ = if a.check c then [⟨off + charLen c, r, sp⟩] else [] := by simp [tryExpr]
      rw [hx]
      by_cases hc : a.check c = true
      · simp only [hc, if_true, List.flatMap_cons, List.flatMap_nil, List.append_nil]
        rw [ih, Option.map_map]
        congr 1
        funext w
        simp [byteLen_cons, Nat.add_assoc]
      · simp [hc]
    have hhere : (K ⟨off, c :: r, sp⟩).head? = (if cl.isPrefixOf (c :: r) then some ([] : List Char) else none).map fun w =>
          R ⟨off + byteLen w, (c :: r).drop w.length, sp⟩ := by
      rw [hK]
      by_cases hc : cl.isPrefixOf (c :: r) = true
      · simp [hc, byteLen]
      · simp [hc]
    rw [bodyOf]
    cases z with
    | true =>
      simp only [Bool.not_true, optTimes, Bool.false_eq_true, if_false, if_true] at hfur ⊢
      rw [List.flatMap_cons, List.head?_append, hhere, hfur, ← Option.map_or]
    | false =>
      simp only [Bool.not_false, optTimes, Bool.false_eq_true, if_false, if_true] at hfur ⊢
      rw [List.flatMap_append, List.head?_append, hfur, List.flatMap_cons, List.flatMap_nil, List.append_nil, hhere,
        ← Option.map_or]

/-- The stretches that belong to an answer. -/
def delimSpans (z grp : Bool) (ok : Char → Bool) (o c : List Char) (off : Nat) (rest : List Char) : Option (List Span) :=
  if o.isPrefixOf rest then
    (bodyOf z ok c (rest.drop o.length)).map fun w =>
      numbered 1 (if grp then [(off + byteLen o, off + byteLen (o ++ w))] else []) ++ [⟨0, off, off + byteLen (o ++ w ++ c)⟩]
  else none

theorem try_group (z : Bool) (a : Atom) (g : Nat) (p : Pos) : tryPart (bodyPart z true a) g p =
    (optTimes (tryExpr (.atom a) (g + 1)) (!z) p.rest.length p).map fun q => ⟨q.off, q.rest, q.spans ++ [⟨g, p.off, q.off⟩]⟩ := by
  rw [bodyPart, if_pos rfl, tryPart, tryExpr, tryERE, tryBranches, tryBranches, tryBranch]
  have h : ∀ q : Pos, tryParts [] (g + 1 + (EREPart.quantified (.atom a) ⟨.star, z⟩).groups) q = [q] := fun q => by rw [tryParts]
  have h2 : tryParts [] (g + 1 + (EREPart.quantified (.atom a) ⟨.star, z⟩).groups) = fun q => [q] := funext h
  rw [tryParts, tryPart, h2]
  simp [QType.min, QType.max, times]

theorem try_delim (z grp : Bool) (a : Atom) (o c : List Char) (off : Nat) (rest : List Char) :
    ((tryERE (delimERE z grp a o c) 1 ⟨off, rest, []⟩).head?.map fun p => p.spans ++ [⟨0, off, p.off⟩]) =
      delimSpans z grp a.check o c off rest := by
  rw [delimERE, tryERE, tryBranches, tryBranches, List.append_nil, tryBranch, try_lit_append, delimSpans]
  split
  · rw [tryParts]
    cases grp with
    | false =>
      simp only [bodyPart, Bool.false_eq_true, if_false, tryPart, QType.min, QType.max, times, List.flatMap_cons, List.flatMap_nil,
        List.append_nil]
      rw [try_rounds z a c 1 (fun p => try_lit c _ p) _ _ _ _ (Nat.le_refl _), Option.map_map]
      congr 1
      funext w
      simp [numbered, byteLen_append, Nat.add_assoc]
    | true =>
      rw [try_group, List.flatMap_map]
      have := try_rounds z a c 2 (K := fun q => tryParts (litParts c) (1 + (bodyPart z true a).groups)
          ⟨q.off, q.rest, q.spans ++ [⟨1, off + byteLen o, q.off⟩]⟩) (fun p => try_lit c _ _)
        (rest.drop o.length) (rest.drop o.length).length (off + byteLen o) [] (Nat.le_refl _)
      refine (congrArg (Option.map _) this).trans ?_
      rw [Option.map_map]
      congr 1
      funext w
      simp [numbered, byteLen_append, Nat.add_assoc]
  · rfl

theorem first_delim (z grp : Bool) (a : Atom) (o c text : List Char) :
    (delimERE z grp a o c).first text = scanSpans (delimSpans z grp a.check o c) 0 text := by
  rw [ERE.first, firstFrom_scan (try_delim z grp a o c)]

theorem delimSpans_answer (z grp : Bool) (ok : Char → Bool) (o c : List Char) (off : Nat) (rest : List Char) :
    (delimSpans z grp ok o c off rest).map (answerOf ((if grp then 1 else 0) + 1)) = enclosedHere z grp ok o c off rest := by
  unfold delimSpans enclosedHere
  by_cases h : o.isPrefixOf rest = true
  · rw [if_pos h, if_pos h, Option.map_map]
    congr 1
    funext w
    have := answer_fields (if grp then [(off + byteLen o, off + byteLen (o ++ w))] else []) off (off + byteLen (o ++ w ++ c))
    cases grp <;> exact this
  · rw [if_neg h, if_neg h]; rfl

theorem delim_answer (z grp : Bool) (ok : Char → Bool) (o c : List Char) : ∀ (rest : List Char) (off : Nat),
    (scanSpans (delimSpans z grp ok o c) off rest).map (answerOf ((if grp then 1 else 0) + 1)) = enclosedIn z grp ok o c off rest
  | [], off => delimSpans_answer z grp ok o c off []
  | x :: r, off => by
    have h := delimSpans_answer z grp ok o c off (x :: r)
    rw [scanSpans, enclosedIn, ← h]
    cases delimSpans z grp ok o c off (x :: r) with
    | none => exact delim_answer z grp ok o c r _
    | some S => rfl

/-! ## The shape of the pattern -/

theorem lit_noStart (w : List Char) : partsHaveStart (litParts w) = false := word_noStart w

theorem haveStart_append (ps qs : List EREPart) : partsHaveStart (ps ++ qs) = (partsHaveStart ps || partsHaveStart qs) := by
  induction ps with
  | nil => simp [partsHaveStart]
  | cons p ps ih => rw [List.cons_append, partsHaveStart, partsHaveStart, ih, Bool.or_assoc]

theorem haveEnd_append (ps qs : List EREPart) : partsHaveEnd (ps ++ qs) = (partsHaveEnd ps || partsHaveEnd qs) := by
  induction ps with
  | nil => simp [partsHaveEnd]
  | cons p ps ih => rw [List.cons_append, partsHaveEnd, partsHaveEnd, ih, Bool.or_assoc]

theorem delim_noAnchor (z grp : Bool) (a : Atom) (o c : List Char) :
    partsHaveStart (litParts o ++ bodyPart z grp a :: litParts c) = false ∧
    partsHaveEnd (litParts o ++ bodyPart z grp a :: litParts c) = false := by
  have h1 : (bodyPart z grp a).hasStart = false := by cases grp <;> rfl
  have h2 : (bodyPart z grp a).hasEnd = false := by cases grp <;> rfl
  rw [haveStart_append, haveEnd_append, partsHaveStart, partsHaveEnd, h1, h2]
  simp [litParts, word_noStart, word_noEnd]

theorem framed_delim (z grp : Bool) (a : Atom) (o c : List Char) : (delimERE z grp a o c).Framed false false := by
  refine ⟨_, rfl, fun b hb => ?_⟩
  rw [List.mem_singleton] at hb
  subst hb
  exact ⟨_, by simp, delim_noAnchor z grp a o c⟩

theorem delim_noStart (z grp : Bool) (a : Atom) (o c : List Char) : (delimERE z grp a o c).hasStart = false := by
  simp [delimERE, ERE.hasStart, branchesHaveStart, EREBranch.hasStart, delim_noAnchor]

theorem lit_shape (w : List Char) : partsAtoms plainAtom (litParts w) = true ∧ progressParts (litParts w) = true ∧
    groupsParts (litParts w) = 0 := by
  have h1 := word_atoms false false w
  have h2 := word_progress false false w
  have h3 := word_groups false false w
  simp only [wordParts, Bool.false_eq_true, if_false, List.nil_append, List.append_nil] at h1 h2 h3
  exact ⟨h1, h2, h3⟩

theorem delim_shape (z grp : Bool) (a : Atom) (o c : List Char) :
    (plainAtom a = true → (delimERE z grp a o c).atomsAll plainAtom = true) ∧ (delimERE z grp a o c).progress = true ∧
    (delimERE z grp a o c).groups = if grp then 1 else 0 := by
  obtain ⟨h1, h2, h3⟩ := lit_shape c
  have a1 : ∀ ps qs, partsAtoms plainAtom (ps ++ qs) = (partsAtoms plainAtom ps && partsAtoms plainAtom qs) := by
    intro ps qs
    induction ps with
    | nil => simp [partsAtoms]
    | cons p ps ih => rw [List.cons_append, partsAtoms, partsAtoms, ih, Bool.and_assoc]
  have a2 : ∀ ps qs, progressParts (ps ++ qs) = (progressParts ps && progressParts qs) := by
    intro ps qs
    induction ps with
    | nil => simp [progressParts]
    | cons p ps ih => rw [List.cons_append, progressParts, progressParts, ih, Bool.and_assoc]
  have a3 : ∀ ps qs, groupsParts (ps ++ qs) = groupsParts ps + groupsParts qs := by
    intro ps qs
    induction ps with
    | nil => simp [groupsParts]
    | cons p ps ih => rw [List.cons_append, groupsParts, groupsParts, ih, Nat.add_assoc]
  obtain ⟨k1, k2, k3⟩ := lit_shape o
  refine ⟨fun ha => ?_, ?_, ?_⟩
  · simp only [delimERE, ERE.atomsAll, branchesAtoms, EREBranch.atomsAll, a1, partsAtoms, h1, k1]
    cases grp <;> simp [bodyPart, EREPart.atomsAll, EREExpr.atomsAll, ERE.atomsAll, branchesAtoms, EREBranch.atomsAll, partsAtoms, ha]
  · simp only [delimERE, ERE.progress, progressBranches, EREBranch.progress, a2, progressParts, h2, k2]
    cases grp <;> rfl
  · simp only [delimERE, ERE.groups, groupsBranches, EREBranch.groups, a3, groupsParts, h3, k3]
    cases grp <;> rfl

theorem body_isSome (z : Bool) (ok : Char → Bool) (c rest : List Char) (h : c.isPrefixOf rest = true) :
    (bodyOf z ok c rest).isSome = true := by
  obtain ⟨post, rfl⟩ := List.isPrefixOf_iff_prefix.mp h
  cases hb : bodyOf z ok c (c ++ post) with
  | some w => rfl
  | none => exact (body_none hb [] post rfl (by simp)).elim

theorem delim_lastUsed (z grp : Bool) (a : Atom) (o c : List Char) : LastUsed (delimERE z grp a o c) := by
  obtain ⟨w, hw⟩ := Option.isSome_iff_exists.mp (body_isSome z a.check c c (List.isPrefixOf_iff_prefix.mpr ⟨[], by simp⟩))
  have h0 : delimSpans z grp a.check o c 0 (o ++ c) = some (numbered 1 (if grp then [(0 + byteLen o, 0 + byteLen (o ++ w))] else []) ++
      [⟨0, 0, 0 + byteLen (o ++ w ++ c)⟩]) := by
    rw [delimSpans, if_pos (List.isPrefixOf_iff_prefix.mpr ⟨c, rfl⟩), List.drop_left, hw]; rfl
  refine ⟨o ++ c, numbered 1 (if grp then [(0 + byteLen o, 0 + byteLen (o ++ w))] else []) ++ [⟨0, 0, 0 + byteLen (o ++ w ++ c)⟩],
    (first_delim z grp a o c _).trans ?_, ?_⟩
  · cases hx : o ++ c with
    | nil => rw [hx] at h0; exact h0
    | cons x r => rw [hx] at h0; rw [scanSpans, h0]
  · rw [(delim_shape z grp a o c).2.2]
    cases grp <;> simp [numbered, lastSpan]

theorem delim_matches (z grp : Bool) (a : Atom) (o c : List Char) : ∃ text, (delimERE z grp a o c).MatchesIn text := by
  obtain ⟨text, S, h, _⟩ := delim_lastUsed z grp a o c
  exact ⟨text, (first_isSome (delim_shape z grp a o c).2.1 text).mp (by rw [h]; rfl)⟩

/-! ## C88 -/

section
variable (U : Utf8Seqs) (z grp : Bool) {a : Atom} (ha : plainAtom a = true) (o c : List Char)
  {p : List Char} (hp : parseStr p = .ok (delimERE z grp a o c)) {cr : List String} (hcr : "ere" ∈ cr)
include ha hp hcr

/-- **C88.** Let the pattern be a string, a class (not `[:graph:]` or `[:xdigit:]`) with `*?` (`z`) or `*`, in parentheses if `grp`, and another
string. `compile_regex!` gives a program, it compiles, it has one group besides group 0 if there are parentheses, and `test` and
`exec` find the delimited text: from the first place of the opening string behind which there is a closing one, up to the first
(`*?`) or last (`*`) closing string that can be reached. -/
theorem C88_delimited : ∃ E, compileRegex U.seqs p = .ok (some E) ∧ E.compiles cr = true ∧
    E.groups = (if grp then 1 else 0) + 1 ∧
    ∀ text, E.test text = .ok (enclosedIn z grp a.check o c 0 text).isSome ∧
      E.exec text = .ok (enclosedIn z grp a.check o c 0 text) := by
  have hF := framed_delim z grp a o c
  obtain ⟨hat, hg, hgr⟩ := delim_shape z grp a o c
  have hex := delim_matches z grp a o c
  obtain ⟨E, h⟩ := C17_compile_returns_partial U hp hex
  have hE := compileRegex_ok hp h
  have hc : E.compiles cr = true := by
    cases hc : E.compiles cr with
    | true => rfl
    | false =>
      obtain ⟨_, hx⟩ := (C62_framed_compiles_iff U hp hF (hat ha) h hcr).mp hc
      rcases hx with ⟨_, h2, _⟩ | ⟨h1, _⟩
      · cases h2
      · exact absurd (unbounded_of_open (.inl (delim_noStart z grp a o c)) hex) h1
  have hG : E.groups = (if grp then 1 else 0) + 1 := by
    rw [C29_compile_regex_partial U hg (delim_lastUsed z grp a o c) hE hc fun _ _ => framed_startSimple hF, hgr]
  refine ⟨E, h, hc, hG, fun text => ⟨?_, ?_⟩⟩
  · obtain ⟨b, h1, h2⟩ := (C65_framed U hp hF h hc).test text
    rw [h1, Bool.eq_iff_iff.mpr (h2.trans (first_isSome hg text).symm), first_delim, ← delim_answer, Option.isSome_map]
  · rw [← delim_answer, ← first_delim]
    rcases C65_framed_preferred U hp hF hg h hc (fun k => by cases k) text with ⟨h1, h2⟩ | ⟨r, S, h1, h2, h3, h4⟩
    · rw [h1, h2]; rfl
    · rw [h1, h2, answerOf_eq (h3.trans hG) h4]; rfl

/-- **C88 (attribute macro).** The struct has one or two fields; `test` and `exec` are the same. -/
theorem C88_attribute : ∃ A, compileAttr U.seqs p ((if grp then 1 else 0) + 1) = .ok (some A) ∧ A.compiles cr = true ∧
    ∀ text, A.test text = .ok (enclosedIn z grp a.check o c 0 text).isSome ∧
      A.exec text = .ok (enclosedIn z grp a.check o c 0 text) := by
  obtain ⟨E, hE, hc, hG, hx⟩ := C88_delimited U z grp ha o c hp hcr
  obtain ⟨_, hg, hgr⟩ := delim_shape z grp a o c
  obtain ⟨A, h1, h2, h3⟩ := attr_of_regex U hp (framed_delim z grp a o c) hg (delim_lastUsed z grp a o c) hE hc
  rw [hgr] at h1
  exact ⟨A, h1, h2, fun text => by rw [(h3 text).1, (h3 text).2]; exact hx text⟩

omit ha hcr in
/-- **C88 (the engines one by one).** The macros for the single engines. -/
theorem C88_engines : (∀ F, compileFlatChar (delimERE z grp a o c) = .ok F → ∀ text,
      F.exec text text = .ok (enclosedIn z grp a.check o c 0 text)) ∧
    (∀ F, compileFlatU8 U.seqs (delimERE z grp a o c) = .ok F → ∀ text,
      F.exec text (encode text) = .ok (enclosedIn z grp a.check o c 0 text)) ∧
    ∀ G, compileDfaU8 U.seqs (delimERE z grp a o c) = .ok (some G) → ∀ text,
      G.tdfa.exec text (encode text) = .ok (enclosedIn z grp a.check o c 0 text) := by
  obtain ⟨_, hg, hgr⟩ := delim_shape z grp a o c
  have hF := framed_delim z grp a o c
  have hu := delim_lastUsed z grp a o c
  have hev := framed_evenAnchors ((C43_parser_grammar _ _).mp hp) hF
  obtain ⟨N, M, k1, k2, k3, k4⟩ := C29_groups_exact_partial U _ (lastUsed_captures hu)
  rw [hgr] at k3 k4
  have key : ∀ {k text res}, k = (if grp then 1 else 0) + 1 → FirstOk (delimERE z grp a o c) text k res →
      res = .ok (enclosedIn z grp a.check o c 0 text) := by
    intro k text res hk h
    rw [← delim_answer, ← first_delim]
    rcases h with ⟨h1, h2⟩ | ⟨r, S, h1, h2, h3, h4⟩
    · rw [h1, h2]; rfl
    · rw [h1, h2, answerOf_eq (h3.trans hk) h4]; rfl
  refine ⟨fun F h text => key ?_ (C46_flat_char_partial hg hev h text), fun F h text => key ?_ (C46_flat_u8_partial U hg hev h text),
    fun G h text => key ?_ (C46_dfa_partial U hg (framed_startSimple hF) h text)⟩
  · unfold compileFlatChar at h
    rw [k1] at h
    rw [compileFlat_groups h, k3]
  · unfold compileFlatU8 at h
    rw [k2] at h
    rw [compileFlat_groups h, k4]
  · rw [C29_dfa_exact_partial U hg (framed_startSimple hF) hu h, hgr]
end

/-- **C88 (what is found).** The text is `pre`, the opening string, allowed characters `w`, the closing string and something; the
answer are these places. There is no place further left, and none with a shorter (`*?`) or longer (`*`) `w` at the same place. -/
theorem C88_found {z grp : Bool} {ok : Char → Bool} {o c text : List Char} {r} (h : enclosedIn z grp ok o c 0 text = some r) :
    ∃ pre w post, DelimAt ok o c text pre w post ∧
      r = some (byteLen pre, byteLen (pre ++ (o ++ w ++ c))) ::
        (if grp then [some (byteLen (pre ++ o), byteLen (pre ++ (o ++ w)))] else []) ∧
      ∀ pre' w' post', DelimAt ok o c text pre' w' post' → pre.length ≤ pre'.length ∧
        (pre' = pre → if z then w.length ≤ w'.length else w'.length ≤ w.length) := by
  have := in_some h
  simpa only [Nat.zero_add] using this

/-- **C88 (when nothing is found).** -/
theorem C88_not_found {z grp : Bool} {ok : Char → Bool} {o c text : List Char} (h : enclosedIn z grp ok o c 0 text = none)
    (pre w post : List Char) : ¬ DelimAt ok o c text pre w post := in_none h pre w post

/-! ## The same with the standard library -/

theorem once_body {ok : Char → Bool} {c : List Char} : ∀ {rest : List Char}, (∀ x ∈ rest, ok x = true) →
    bodyOf true ok c rest = (onceSplit c rest).map Prod.fst
  | [], _ => by
    rw [bodyOf, onceSplit]
    split <;> rfl
  | x :: r, h => by
    have ih := once_body (ok := ok) (c := c) (rest := r) fun y hy => h y (by simp [hy])
    rw [bodyOf, onceSplit]
    simp only [if_true, h x (by simp), ih]
    split
    · rfl
    · simp only [Option.none_or, Option.map_map]
      rfl

theorem once_some {w : List Char} : ∀ {text a b : List Char}, onceSplit w text = some (a, b) → text = a ++ (w ++ b)
  | [], a, b, h => by
    rw [onceSplit] at h
    split at h
    · cases h
      rename_i hw
      simpa using hw
    · cases h
  | x :: r, a, b, h => by
    rw [onceSplit] at h
    split at h
    · rename_i hp
      obtain ⟨post, hp⟩ := List.isPrefixOf_iff_prefix.mp hp
      rw [← hp, List.drop_left] at h
      cases h
      rw [← hp]; rfl
    · obtain ⟨⟨a', b'⟩, h1, h2⟩ := Option.map_eq_some_iff.mp h
      cases h2
      rw [once_some h1]; rfl

/-- The search for delimited text, by `split_once`. -/
def bySplit (grp : Bool) (o c : List Char) (off : Nat) (text : List Char) : Option (List (Option (Nat × Nat))) :=
  match onceSplit o text with
  | none => none
  | some (a, b) => (onceSplit c b).map fun m =>
      some (off + byteLen a, off + byteLen (a ++ (o ++ m.1 ++ c))) ::
        if grp then [some (off + byteLen (a ++ o), off + byteLen (a ++ (o ++ m.1)))] else []

theorem in_split {grp : Bool} {ok : Char → Bool} {o c : List Char} : ∀ {text : List Char} (off : Nat), (∀ x ∈ text, ok x = true) →
    enclosedIn true grp ok o c off text = bySplit grp o c off text
  | [], off, _ => by
    rw [enclosedIn, enclosedHere, bySplit, onceSplit]
    cases o with
    | nil =>
      simp only [List.isPrefixOf_nil_left, if_true, List.length_nil, List.drop_nil, List.isEmpty_nil]
      rw [once_body (by simp), Option.map_map]
      rfl
    | cons y o => simp
  | x :: r, off, h => by
    have ih := in_split (grp := grp) (o := o) (c := c) (off + charLen x) (text := r) fun y hy => h y (by simp [hy])
    rw [enclosedIn, bySplit, onceSplit]
    by_cases hp : o.isPrefixOf (x :: r) = true
    · have hd : ∀ y ∈ (x :: r).drop o.length, ok y = true := fun y hy => h y (List.mem_of_mem_drop hy)
      have hh : enclosedHere true grp ok o c off (x :: r) = (onceSplit c ((x :: r).drop o.length)).map fun m =>
          some (off + byteLen ([] : List Char), off + byteLen ([] ++ (o ++ m.1 ++ c))) ::
            if grp then [some (off + byteLen ([] ++ o), off + byteLen ([] ++ (o ++ m.1)))] else [] := by
        rw [enclosedHere, if_pos hp, once_body hd, Option.map_map]
        rfl
      rw [if_pos hp, hh]
      cases hb : onceSplit c ((x :: r).drop o.length) with
      | some m => simp [hb]
      | none =>
        simp only [Option.map_none, hb]
        cases hi : enclosedIn true grp ok o c (off + charLen x) r with
        | none => rfl
        | some a =>
          exfalso
          obtain ⟨pre, w, post, ⟨h1, h2⟩, _⟩ := in_some hi
          have hn : bodyOf true ok c ((x :: r).drop o.length) = none := by rw [once_body hd, hb]; rfl
          refine body_none hn (((x :: pre) ++ o).drop o.length ++ w) post ?_ ?_
          · have : x :: r = ((x :: pre) ++ o) ++ (w ++ (c ++ post)) := by rw [h1]; simp
            rw [this, List.drop_append_of_le_length (by simp only [List.length_append]; omega), List.append_assoc]
          · intro y hy
            rcases List.mem_append.mp hy with hy | hy
            · have := List.mem_of_mem_drop hy
              exact h y (by rw [h1]; simp only [List.mem_append, List.mem_cons] at this ⊢; tauto)
            · exact h2 y hy
    · rw [if_neg hp, enclosedHere, if_neg hp]
      show enclosedIn _ _ _ _ _ _ _ = _
      rw [ih, bySplit]
      cases onceSplit o r with
      | none => rfl
      | some ab =>
        obtain ⟨a, b⟩ := ab
        simp only [Option.map_some, List.cons_append, byteLen_cons, Nat.add_assoc]

/-- **C88 (by hand).** If all characters of the text are allowed between the delimiters, the lazy search is
`let (a, b) = text.split_once(open)?; let (m, d) = b.split_once(close)?;`, in Rust. -/
theorem C88_split_once {grp : Bool} {ok : Char → Bool} (o c : List Char) {text : List Char} (h : ∀ x ∈ text, ok x = true) :
    enclosedIn true grp ok o c 0 text = match onceSplit o text with
      | none => none
      | some (a, b) => (onceSplit c b).map fun m =>
          some (byteLen a, byteLen (a ++ (o ++ m.1 ++ c))) ::
            if grp then [some (byteLen (a ++ o), byteLen (a ++ (o ++ m.1)))] else [] := by
  rw [in_split 0 h, bySplit]
  simp only [Nat.zero_add]

theorem scan_delim {grp : Bool} {ok : Char → Bool} {o c : List Char} (hne : o ++ c ≠ [])
    {exec : List Char → Except Err (Option (List (Option (Nat × Nat))))}
    (hx : ∀ text, exec text = .ok (enclosedIn true grp ok o c 0 text)) : ∀ (k off : Nat) (text : List Char), text.length < k →
    (∀ x ∈ text, ok x = true) → scanAll exec k off text = .ok (allEnclosed o c k off text) := by
  intro k
  induction k with
  | zero => intro off text hk; omega
  | succ k ih =>
    intro off text hk h
    have he := hx text
    rw [in_split 0 h, bySplit] at he
    rw [allEnclosed]
    cases h1 : onceSplit o text with
    | none => simp only [h1] at he; simp only [scanAll, he]
    | some ab =>
      obtain ⟨a, b⟩ := ab
      simp only [h1] at he ⊢
      cases h2 : onceSplit c b with
      | none => simp only [h2, Option.map_none] at he; simp only [scanAll, he]
      | some md =>
        obtain ⟨m, d⟩ := md
        simp only [h2, Option.map_some, Nat.zero_add] at he ⊢
        have ht : text = (a ++ (o ++ m ++ c)) ++ d := by rw [once_some h1, once_some h2]; simp
        have hd : dropBytes (byteLen (a ++ (o ++ m ++ c))) text = .ok d := by
          conv => lhs; rw [ht]
          exact dropBytes_append _ _
        have hpos : 0 < byteLen (o ++ c) := by
          rcases Nat.eq_zero_or_pos (byteLen (o ++ c)) with h0 | h0
          · exact absurd (byteLen_eq_zero.mp h0) hne
          · exact h0
        have hlen : d.length < k := by
          have h3 := congrArg List.length ht
          have h4 : 0 < (o ++ c).length := List.length_pos_iff.mpr hne
          simp only [List.length_append] at h3 h4
          omega
        have hne' : byteLen a ≠ byteLen (a ++ (o ++ m ++ c)) := by
          simp only [byteLen_append] at hpos ⊢; omega
        have := ih (off + byteLen (a ++ (o ++ m ++ c))) d hlen fun x hx => h x (by rw [ht]; simp [hx])
        simp only [scanAll, he, List.getElem?_cons_zero, Option.join_some, hd, if_neg hne', this]
        rfl

/-- **C88 (all of them).** If the delimiters are not both empty and the text has only allowed characters, calling `exec` again and
again on what follows the match finds what `split_once` finds when it is used to cut off one delimited stretch after the other. -/
theorem C88_all (U : Utf8Seqs) (grp : Bool) {a : Atom} (ha : plainAtom a = true) {o c : List Char} (hne : o ++ c ≠ [])
    {p : List Char} (hp : parseStr p = .ok (delimERE true grp a o c)) {cr : List String} (hcr : "ere" ∈ cr) :
    ∃ E, compileRegex U.seqs p = .ok (some E) ∧ E.compiles cr = true ∧ ∀ text, (∀ x ∈ text, a.check x = true) →
      scanAll E.exec (text.length + 1) 0 text = .ok (allEnclosed o c (text.length + 1) 0 text) := by
  obtain ⟨E, h1, h2, _, h3⟩ := C88_delimited U true grp ha o c hp hcr
  exact ⟨E, h1, h2, fun text h => scan_delim hne (fun t => (h3 t).2) _ 0 text (Nat.lt_succ_self _) h⟩

/-! ## The text of such a pattern -/

theorem spells_litParts {w v : List Char} {ps : List EREPart} (h : SpellsBranch (.mk ps) v) :
    SpellsBranch (.mk (litParts w ++ ps)) (escapeText w ++ v) := by
  induction w with
  | nil => exact h
  | cons c w ih =>
    have he : escapeText (c :: w) = (if c ∈ escapables then ['\\', c] else [c]) ++ escapeText w := rfl
    rw [he, litParts, List.map_cons, List.cons_append, List.append_assoc]
    refine .cons (.single (.atom ?_)) ih
    split
    · exact .escaped (by assumption)
    · rename_i h
      exact .plain (fun hm => h (by simp [escapables, hm]))

/-- The two strings with their special characters escaped, and between them the class with its quantifier. -/
theorem parse_delim {z grp : Bool} {a : Atom} (o c : List Char) {w : List Char} (h : SpellsPart (bodyPart z grp a) w) :
    parseStr (escapeText o ++ (w ++ escapeText c)) = .ok (delimERE z grp a o c) := by
  refine parseStr_iff.mpr (.one (spells_litParts (.cons h ?_)))
  have := spells_litParts (w := c) SpellsBranch.nil
  simpa using this

/-! ## Comments -/

theorem parse_comment : parseStr "<!--.*?-->".toList = .ok (delimERE true false .dot "<!--".toList "-->".toList) :=
  parse_delim (z := true) (grp := false) "<!--".toList "-->".toList (w := ".*?".toList)
    (.quantified (w := ['.']) (v := ['*', '?']) (.atom .dot) (.lazy (w := ['*']) .star))

/-- **C88 (comments).** The pattern `<!--.*?-->` of the tests: the program exists and compiles, and on every text without NUL `exec`
gives the place from the first `<!--` to the next `-->` behind it, and repeated calls give all comments. -/
theorem C88_comments (U : Utf8Seqs) {cr : List String} (hcr : "ere" ∈ cr) :
    ∃ E, compileRegex U.seqs "<!--.*?-->".toList = .ok (some E) ∧ E.compiles cr = true ∧ E.groups = 1 ∧
      ∀ text, '\x00' ∉ text →
        E.exec text = .ok ((onceSplit "<!--".toList text).bind fun ab => (onceSplit "-->".toList ab.2).map fun md =>
          [some (byteLen ab.1, byteLen ab.1 + 4 + byteLen md.1 + 3)]) ∧
        scanAll E.exec (text.length + 1) 0 text = .ok (allEnclosed "<!--".toList "-->".toList (text.length + 1) 0 text) := by
  obtain ⟨E, h1, h2, h3, h4⟩ := C88_delimited U true false (a := .dot) rfl _ _ parse_comment hcr
  refine ⟨E, h1, h2, h3, fun text hn => ?_⟩
  have hok : ∀ x ∈ text, Atom.dot.check x = true := by
    intro x hx
    simp only [Atom.check, bne_iff_ne, ne_eq]
    rintro rfl
    exact hn hx
  refine ⟨?_, scan_delim (by simp) (fun t => (h4 t).2) _ 0 text (Nat.lt_succ_self _) hok⟩
  rw [(h4 text).2, C88_split_once _ _ hok]
  refine congrArg Except.ok ?_
  cases onceSplit "<!--".toList text with
  | none => rfl
  | some ab =>
    obtain ⟨a, b⟩ := ab
    have k1 : byteLen "<!--".toList = 4 := by decide
    have k2 : byteLen "-->".toList = 3 := by decide
    simp only [byteLen_append, k1, k2, Nat.add_assoc, Option.bind_some, Bool.false_eq_true, if_false]

/-- non-vacuity: a comment in `a<!-- é --> b -->`, and a text with two. -/
example : enclosedIn true false Atom.dot.check "<!--".toList "-->".toList 0 "a<!-- é --> b -->".toList = some [some (1, 12)] ∧
    enclosedIn false false Atom.dot.check "<!--".toList "-->".toList 0 "a<!-- é --> b -->".toList = some [some (1, 18)] ∧
    enclosedIn true true Atom.dot.check "<!--".toList "-->".toList 0 "<!--<!---->".toList = some [some (0, 11), some (4, 8)] ∧
    allEnclosed "<!--".toList "-->".toList 20 0 "<!---->x<!--y-->".toList = [(0, 7), (8, 16)] ∧
    onceSplit "-->".toList "a-->b-->".toList = some ("a".toList, "b-->".toList) := by decide +kernel

/-! ## One closing character that is not allowed between the delimiters -/

/-- **C88 (lazy or not).** If the closing string begins with a character that is not allowed in front of it, `*` and `*?` are the
same. -/
theorem body_same {ok : Char → Bool} {q : Char} (hq : ok q = false) (c : List Char) : ∀ rest : List Char,
    bodyOf false ok (q :: c) rest = bodyOf true ok (q :: c) rest
  | [] => rfl
  | x :: r => by
    rw [bodyOf, bodyOf, body_same hq c r]
    by_cases hx : x = q
    · subst hx
      simp [hq]
    · have : (q :: c).isPrefixOf (x :: r) = false := by
        simp only [List.isPrefixOf]
        rw [beq_eq_false_iff_ne.mpr (Ne.symm hx), Bool.false_and]
      simp [this]

theorem here_same {grp : Bool} {ok : Char → Bool} {q : Char} (hq : ok q = false) (o c : List Char) (off : Nat) (rest : List Char) :
    enclosedHere false grp ok o (q :: c) off rest = enclosedHere true grp ok o (q :: c) off rest := by
  rw [enclosedHere, enclosedHere, body_same hq]

theorem C88_lazy_greedy {grp : Bool} {ok : Char → Bool} {q : Char} (hq : ok q = false) (o c : List Char) :
    ∀ (off : Nat) (text : List Char), enclosedIn false grp ok o (q :: c) off text = enclosedIn true grp ok o (q :: c) off text
  | off, [] => here_same hq o c off []
  | off, x :: r => by
    rw [enclosedIn, enclosedIn, here_same hq, C88_lazy_greedy hq o c (off + charLen x) r]

theorem once_none {q : Char} : ∀ {rest : List Char}, onceSplit [q] rest = none → q ∉ rest
  | [], _ => by simp
  | x :: r, h => by
    rw [onceSplit] at h
    split at h
    · cases h
    · rename_i hx
      have := once_none (Option.map_eq_none_iff.mp h)
      simp only [List.isPrefixOf, Bool.and_true, beq_iff_eq] at hx
      simp only [List.mem_cons, not_or]
      exact ⟨hx, this⟩

theorem quote_body {ok : Char → Bool} {q : Char} (hok : ∀ x, ok x = true ↔ x ≠ q) : ∀ rest : List Char,
    bodyOf true ok [q] rest = (onceSplit [q] rest).map Prod.fst
  | [] => rfl
  | x :: r => by
    rw [bodyOf, onceSplit, quote_body hok r]
    by_cases hx : x = q
    · subst hx
      simp
    · have : [q].isPrefixOf (x :: r) = false := by
        simp only [List.isPrefixOf]
        rw [beq_eq_false_iff_ne.mpr (Ne.symm hx), Bool.false_and]
      simp [this, (hok x).mpr hx, Option.map_map]
      rfl

theorem quote_split {grp : Bool} {ok : Char → Bool} {q : Char} (hok : ∀ x, ok x = true ↔ x ≠ q) {o : List Char} :
    ∀ (text : List Char) (off : Nat), enclosedIn true grp ok o [q] off text = bySplit grp o [q] off text
  | [], off => by
    rw [enclosedIn, enclosedHere, bySplit, onceSplit]
    cases o with
    | nil => rfl
    | cons y o => simp
  | x :: r, off => by
    have ih := quote_split (grp := grp) hok (o := o) r (off + charLen x)
    rw [enclosedIn, bySplit, onceSplit]
    by_cases hp : o.isPrefixOf (x :: r) = true
    · have hh : enclosedHere true grp ok o [q] off (x :: r) = (onceSplit [q] ((x :: r).drop o.length)).map fun m =>
          some (off + byteLen ([] : List Char), off + byteLen ([] ++ (o ++ m.1 ++ [q]))) ::
            if grp then [some (off + byteLen ([] ++ o), off + byteLen ([] ++ (o ++ m.1)))] else [] := by
        rw [enclosedHere, if_pos hp, quote_body hok, Option.map_map]
        rfl
      rw [if_pos hp, hh]
      cases hb : onceSplit [q] ((x :: r).drop o.length) with
      | some m => simp [hb]
      | none =>
        simp only [Option.map_none, hb]
        cases hi : enclosedIn true grp ok o [q] (off + charLen x) r with
        | none => rfl
        | some a =>
          exfalso
          obtain ⟨pre, w, post, ⟨h1, _⟩, _⟩ := in_some hi
          refine once_none hb ?_
          have : x :: r = ((x :: pre) ++ o) ++ (w ++ ([q] ++ post)) := by rw [h1]; simp
          rw [this, List.drop_append_of_le_length (by simp only [List.length_append]; omega)]
          simp
    · rw [if_neg hp, enclosedHere, if_neg hp]
      show enclosedIn _ _ _ _ _ _ _ = _
      rw [ih, bySplit]
      cases onceSplit o r with
      | none => rfl
      | some ab =>
        obtain ⟨a, b⟩ := ab
        simp only [Option.map_some, List.cons_append, byteLen_cons, Nat.add_assoc]

theorem parse_quotes : parseStr "\"([^\"]*)\"".toList = .ok (delimERE false true (.nonmatching [.single '"']) ['"'] ['"']) :=
  parse_delim (z := false) (grp := true) ['"'] ['"'] (w := "([^\"]*)".toList)
    (.single (.sub (w := "[^\"]*".toList) (.one (.cons (w := "[^\"]*".toList) (v := []) (.quantified (w := "[^\"]".toList) (v := ['*'])
      (.atom (.nonmatching (w := ['"', ']']) (.plain (by decide) (.single (by decide) (by decide)
        (by rintro ⟨k, hk⟩; cases k <;> simp [classText] at hk) .close)))) (.greedy .star)) .nil))))

/-- **C88 (quoted strings).** The pattern `"([^"]*)"`: on every text `exec` reports the text from the first quotation mark to the
second one, and as group 1 what is between them. -/
theorem C88_quoted (U : Utf8Seqs) {cr : List String} (hcr : "ere" ∈ cr) :
    ∃ E, compileRegex U.seqs "\"([^\"]*)\"".toList = .ok (some E) ∧ E.compiles cr = true ∧ E.groups = 2 ∧
      ∀ text, E.exec text = .ok ((onceSplit ['"'] text).bind fun ab => (onceSplit ['"'] ab.2).map fun md =>
        [some (byteLen ab.1, byteLen ab.1 + 1 + byteLen md.1 + 1), some (byteLen ab.1 + 1, byteLen ab.1 + 1 + byteLen md.1)]) := by
  obtain ⟨E, h1, h2, h3, h4⟩ := C88_delimited U false true (a := .nonmatching [.single '"']) rfl _ _ parse_quotes hcr
  refine ⟨E, h1, h2, h3, fun text => ?_⟩
  have hok : ∀ x, (Atom.nonmatching [.single '"']).check x = true ↔ x ≠ '"' := by
    intro x
    simp [Atom.check, Term.check]
    exact ne_comm
  have hq : (Atom.nonmatching [.single '"']).check '"' = false := by decide
  rw [(h4 text).2, C88_lazy_greedy hq, quote_split hok, bySplit]
  refine congrArg Except.ok ?_
  cases onceSplit ['"'] text with
  | none => rfl
  | some ab =>
    obtain ⟨a, b⟩ := ab
    have k1 : byteLen ['"'] = 1 := by decide
    simp only [byteLen_append, k1, Nat.add_assoc, Option.bind_some, Nat.zero_add, if_true]

/-- non-vacuity: the first quoted string of `say "é", "b"`. -/
example : ((onceSplit ['"'] "say \"é\", \"b\"".toList).bind fun ab => (onceSplit ['"'] ab.2).map fun md =>
    (byteLen ab.1, md.1)) = some (4, ['é']) := by decide +kernel

end Ere.Props
