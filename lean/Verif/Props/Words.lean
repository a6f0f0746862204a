import Verif.Spec.Words
import Verif.Props.Rewrite
import Verif.Props.Parser
import Verif.Props.Attribute

/-! C80: a list of fixed strings as a pattern is a search for these strings. -/

namespace Ere.Props
open Ere

/-- The parts of a branch for the string `w`, with `^` in front if `s` and `$` behind if `t`. -/
def wordParts (s t : Bool) (w : List Char) : List EREPart :=
  (if s then [.start] else []) ++ w.map (fun c => .single (.atom (.normal c))) ++ (if t then [.end_] else [])

/-- The pattern for a list of strings. -/
def wordsERE (s t : Bool) (ws : List (List Char)) : ERE := .mk (ws.map fun w => .mk (wordParts s t w))

/-- The text of the pattern for one string: special characters are escaped. -/
def wordText (s t : Bool) (w : List Char) : List Char :=
  (if s then ['^'] else []) ++ escapeText w ++ (if t then ['$'] else [])

/-- The text of the pattern for the strings `w :: ws`, as `w|…`. -/
def wordsText (s t : Bool) (w : List Char) : List (List Char) → List Char
  | [] => wordText s t w
  | v :: ws => wordText s t w ++ '|' :: wordsText s t v ws

example : wordsText true true "a+b".toList ["c".toList] = "^a\\+b$|^c$".toList := by decide

theorem spells_word (s t : Bool) (w : List Char) : SpellsBranch (.mk (wordParts s t w)) (wordText s t w) := by
  have hend : SpellsBranch (.mk (if t then [.end_] else [])) (if t then ['$'] else []) := by
    cases t with
    | false => exact .nil
    | true => exact .cons (w := ['$']) (v := []) .end_ .nil
  have hmid : SpellsBranch (.mk (w.map (fun c => .single (.atom (.normal c))) ++ (if t then [.end_] else [])))
      (escapeText w ++ (if t then ['$'] else [])) := by
    induction w with
    | nil => exact hend
    | cons c w ih =>
      have : escapeText (c :: w) = (if c ∈ escapables then ['\\', c] else [c]) ++ escapeText w := rfl
      rw [this, List.map_cons, List.cons_append, List.append_assoc]
      refine .cons (.single (.atom ?_)) ih
      split
      · exact .escaped (by assumption)
      · rename_i h
        exact .plain (fun hm => h (by simp [escapables, hm]))
  cases s with
  | false => simpa [wordParts, wordText] using hmid
  | true =>
    have := SpellsBranch.cons (w := ['^']) .start hmid
    simpa [wordParts, wordText] using this

theorem spells_words (s t : Bool) (w : List Char) (ws : List (List Char)) :
    SpellsERE (wordsERE s t (w :: ws)) (wordsText s t w ws) := by
  induction ws generalizing w with
  | nil => exact .one (spells_word s t w)
  | cons v ws ih => exact .more (spells_word s t w) (ih v)

theorem parse_words (s t : Bool) (w : List Char) (ws : List (List Char)) :
    parseStr (wordsText s t w ws) = .ok (wordsERE s t (w :: ws)) := parseStr_iff.2 (spells_words s t w ws)

theorem word_noStart (w : List Char) : partsHaveStart (w.map fun c => EREPart.single (.atom (.normal c))) = false := by
  induction w with
  | nil => rfl
  | cons c w ih => simpa [partsHaveStart, EREPart.hasStart, EREExpr.hasStart] using ih

theorem word_noEnd (w : List Char) : partsHaveEnd (w.map fun c => EREPart.single (.atom (.normal c))) = false := by
  induction w with
  | nil => rfl
  | cons c w ih => simpa [partsHaveEnd, EREPart.hasEnd, EREExpr.hasEnd] using ih

theorem framed_words (s t : Bool) (ws : List (List Char)) : (wordsERE s t ws).Framed s t := by
  refine ⟨_, rfl, fun b hb => ?_⟩
  obtain ⟨w, _, rfl⟩ := List.mem_map.mp hb
  exact ⟨_, rfl, word_noStart w, word_noEnd w⟩

theorem words_noStart (t : Bool) (ws : List (List Char)) : (wordsERE false t ws).hasStart = false := by
  rw [wordsERE, ERE.hasStart]
  induction ws with
  | nil => rfl
  | cons w ws ih =>
    have h : partsHaveStart (wordParts false t w) = false := by
      have : ∀ ps : List EREPart, partsHaveStart ps = false → partsHaveStart (ps ++ if t then [.end_] else []) = false := by
        intro ps
        induction ps with
        | nil => intro _; cases t <;> rfl
        | cons p ps ih =>
          intro h
          rw [partsHaveStart, Bool.or_eq_false_iff] at h
          rw [List.cons_append, partsHaveStart, h.1, ih h.2]; rfl
      exact this _ (word_noStart w)
    rw [List.map_cons, branchesHaveStart, ih, EREBranch.hasStart, h]; rfl

/-! ## The order of preference -/

theorem try_word (t : Bool) (w : List Char) : ∀ (g off : Nat) (rest : List Char),
    tryParts (w.map (fun c => .single (.atom (.normal c))) ++ (if t then [.end_] else [])) g ⟨off, rest, []⟩ =
      if stands t w rest then [⟨off + byteLen w, rest.drop w.length, []⟩] else [] := by
  induction w with
  | nil =>
    intro g off rest
    cases t with
    | false => simp [tryParts, stands, byteLen]
    | true => cases rest <;> simp [tryParts, tryPart, stands, byteLen]
  | cons c w ih =>
    intro g off rest
    rw [List.map_cons, List.cons_append]
    simp only [tryParts, tryPart, tryExpr]
    cases rest with
    | nil => cases t <;> simp [stands]
    | cons d r =>
      by_cases hc : c = d
      · subst hc
        simp only [Atom.check, beq_self_eq_true, if_true, List.flatMap_cons, List.flatMap_nil, List.append_nil]
        rw [ih]
        have : stands t (c :: w) (c :: r) = stands t w r := by cases t <;> simp [stands, List.isPrefixOf]
        rw [this, byteLen_cons, Nat.add_assoc]
        rfl
      · have h1 : (Atom.normal c).check d = false := by simpa [Atom.check] using hc
        have h2 : stands t (c :: w) (d :: r) = false := by cases t <;> simp [stands, List.isPrefixOf, hc]
        simp only [h1, h2]
        rfl

theorem try_words (s t : Bool) : ∀ (ws : List (List Char)) (g off : Nat) (rest : List Char),
    ((tryBranches (ws.map fun w => .mk (wordParts s t w)) g ⟨off, rest, []⟩).head?.map fun p => p.spans ++ [⟨0, off, p.off⟩]) =
      if s = true ∧ off ≠ 0 then none else (findHere t ws off rest).map fun p => [⟨0, p.1, p.2⟩]
  | [], g, off, rest => by simp [tryBranches, findHere]
  | w :: ws, g, off, rest => by
    have ih := fun g => try_words s t ws g off rest
    rw [List.map_cons, tryBranches, tryBranch]
    by_cases hs : s = true ∧ off ≠ 0
    · have h0 : tryParts (wordParts s t w) g ⟨off, rest, []⟩ = [] := by
        obtain ⟨rfl, h⟩ := hs
        simp [wordParts, tryParts, tryPart, h]
      rw [h0, List.nil_append, ih, if_pos hs, if_pos hs]
    · have h0 : tryParts (wordParts s t w) g ⟨off, rest, []⟩ =
          if stands t w rest then [⟨off + byteLen w, rest.drop w.length, []⟩] else [] := by
        cases s with
        | false => simpa [wordParts] using try_word t w g off rest
        | true =>
          have hoff : off = 0 := by simpa using hs
          subst hoff
          have := try_word t w g 0 rest
          simpa [wordParts, tryParts, tryPart, EREPart.groups] using this
      rw [h0]
      by_cases hw : stands t w rest = true
      · simp [hw, hs, findHere]
      · rw [if_neg hw, List.nil_append, ih, if_neg hs, if_neg hs]
        simp [findHere, hw]

theorem firstFrom_words (t : Bool) (ws : List (List Char)) : ∀ (rest : List Char) (off : Nat),
    (wordsERE false t ws).firstFrom off rest = (findIn t ws off rest).map fun p => [⟨0, p.1, p.2⟩]
  | [], off => by
    have := try_words false t ws 1 off []
    simpa [ERE.firstFrom, wordsERE, tryERE, findIn] using this
  | c :: r, off => by
    have h1 := try_words false t ws 1 off (c :: r)
    rw [if_neg (by simp)] at h1
    have ih := firstFrom_words t ws r (off + charLen c)
    rw [ERE.firstFrom, findIn]
    rw [wordsERE, tryERE] at *
    cases hh : (tryBranches (ws.map fun w => .mk (wordParts false t w)) 1 ⟨off, c :: r, []⟩).head? with
    | none =>
      rw [hh] at h1
      cases hf : findHere t ws off (c :: r) with
      | none => exact ih
      | some p => rw [hf] at h1; simp at h1
    | some q =>
      rw [hh] at h1
      cases hf : findHere t ws off (c :: r) with
      | none => rw [hf] at h1; simp at h1
      | some p => rw [hf] at h1; exact h1

theorem firstFrom_none (t : Bool) (ws : List (List Char)) : ∀ (rest : List Char) (off : Nat), off ≠ 0 →
    (wordsERE true t ws).firstFrom off rest = none
  | [], off, h => by
    have := try_words true t ws 1 off []
    simpa [ERE.firstFrom, wordsERE, tryERE, h] using this
  | c :: r, off, h => by
    have h1 := try_words true t ws 1 off (c :: r)
    rw [if_pos ⟨rfl, h⟩, Option.map_eq_none_iff] at h1
    have ih := firstFrom_none t ws r (off + charLen c) (by omega)
    rw [ERE.firstFrom]
    rw [wordsERE, tryERE] at *
    rw [h1]
    exact ih

theorem charLen_ne (c : Char) : charLen c ≠ 0 := by
  have := Sym.len_pos (σ := Atom) c
  have h : Sym.len (σ := Atom) c = charLen c := rfl
  omega

theorem first_words (s t : Bool) (ws : List (List Char)) (text : List Char) :
    (wordsERE s t ws).first text = (findWord s t ws text).map fun p => [⟨0, p.1, p.2⟩] := by
  cases s with
  | false => exact firstFrom_words t ws text 0
  | true =>
    rw [findWord, if_pos rfl, ERE.first]
    have h1 := try_words true t ws 1 0 text
    rw [if_neg (by simp)] at h1
    cases text with
    | nil => simpa [ERE.firstFrom, wordsERE, tryERE] using h1
    | cons c r =>
      rw [ERE.firstFrom]
      have ih := firstFrom_none t ws r (0 + charLen c) (by have := charLen_ne c; omega)
      rw [wordsERE, tryERE] at *
      cases hh : (tryBranches (ws.map fun w => .mk (wordParts true t w)) 1 ⟨0, c :: r, []⟩).head? with
      | none => rw [hh] at h1; simp only [Option.map_none] at h1; rw [← h1]; exact ih
      | some q => rw [hh] at h1; exact h1

/-! ## Matches of such a pattern -/

theorem cap_word {s t : Bool} {w : List Char} {g : Nat} {pre mid post : List Char} {S : List Span}
    (h : CapBranch (.mk (wordParts s t w)) g pre mid post S) :
    mid = w ∧ S = [] ∧ (s = true → pre = []) ∧ (t = true → post = []) := by
  have hend : ∀ {g pre mid post S}, CapBranch (.mk (if t then [.end_] else [])) g pre mid post S →
      mid = [] ∧ S = [] ∧ (t = true → post = []) := by
    intro g pre mid post S h
    cases t with
    | false => cases h; exact ⟨rfl, rfl, fun k => by cases k⟩
    | true =>
      cases h with
      | cons h1 h2 =>
        cases h2
        generalize hz : [] ++ post = z at h1
        cases h1
        exact ⟨rfl, rfl, fun _ => by simpa using hz⟩
  have hmid : ∀ {g pre mid post S},
      CapBranch (.mk (w.map (fun c => .single (.atom (.normal c))) ++ (if t then [.end_] else []))) g pre mid post S →
      mid = w ∧ S = [] ∧ (t = true → post = []) := by
    clear h
    induction w with
    | nil => exact fun h => hend h
    | cons c w ih =>
      intro g pre mid post S h
      cases h with
      | cons h1 h2 =>
        obtain ⟨rfl, rfl, k⟩ := ih h2
        cases h1 with
        | single h1 =>
          cases h1 with
          | atom h1 =>
            simp only [Atom.check, beq_iff_eq] at h1
            exact ⟨by rw [h1]; rfl, rfl, k⟩
  cases s with
  | false =>
    obtain ⟨h1, h2, h3⟩ := hmid (by simpa [wordParts] using h)
    exact ⟨h1, h2, fun k => (by cases k), h3⟩
  | true =>
    have h : CapBranch (.mk (.start :: (w.map (fun c => .single (.atom (.normal c))) ++ (if t then [.end_] else [])))) g
      pre mid post S := by simpa [wordParts] using h
    cases h with
    | cons h1 h2 =>
      obtain ⟨rfl, rfl, k⟩ := hmid h2
      cases h1
      exact ⟨rfl, rfl, fun _ => rfl, k⟩

theorem captures_words {s t : Bool} {ws : List (List Char)} {text : List Char} {S : List Span}
    (h : (wordsERE s t ws).Captures text S) : ∃ pre w post, w ∈ ws ∧ text = pre ++ w ++ post ∧ (s = true → pre = []) ∧
      (t = true → post = []) ∧ S = [⟨0, byteLen pre, byteLen (pre ++ w)⟩] := by
  obtain ⟨pre, mid, post, S', rfl, h, rfl⟩ := h
  cases h with
  | intro h1 h2 =>
    rename_i bs1 b bs2
    have hb : b ∈ ws.map fun w => EREBranch.mk (wordParts s t w) := by rw [h1]; simp
    obtain ⟨w, hw, rfl⟩ := List.mem_map.mp hb
    obtain ⟨rfl, rfl, h3, h4⟩ := cap_word h2
    exact ⟨pre, mid, post, hw, rfl, h3, h4, rfl⟩

theorem word_atoms (s t : Bool) (w : List Char) : partsAtoms plainAtom (wordParts s t w) = true := by
  have h1 : partsAtoms plainAtom (if t then [.end_] else []) = true := by cases t <;> rfl
  have h2 : partsAtoms plainAtom (w.map (fun c => .single (.atom (.normal c))) ++ (if t then [.end_] else [])) = true := by
    induction w with
    | nil => exact h1
    | cons c w ih => rw [List.map_cons, List.cons_append, partsAtoms, ih]; rfl
  cases s with
  | false => simpa [wordParts] using h2
  | true => simpa [wordParts, partsAtoms, EREPart.atomsAll] using h2

theorem words_atoms (s t : Bool) (ws : List (List Char)) : (wordsERE s t ws).atomsAll plainAtom = true := by
  rw [wordsERE, ERE.atomsAll]
  induction ws with
  | nil => rfl
  | cons w ws ih => rw [List.map_cons, branchesAtoms, ih, EREBranch.atomsAll, word_atoms]; rfl

theorem word_progress (s t : Bool) (w : List Char) : progressParts (wordParts s t w) = true := by
  have h1 : progressParts (if t then [.end_] else []) = true := by cases t <;> rfl
  have h2 : progressParts (w.map (fun c => .single (.atom (.normal c))) ++ (if t then [.end_] else [])) = true := by
    induction w with
    | nil => exact h1
    | cons c w ih => rw [List.map_cons, List.cons_append, progressParts, ih]; rfl
  cases s with
  | false => simpa [wordParts] using h2
  | true => simpa [wordParts, progressParts, EREPart.progress] using h2

theorem words_progress (s t : Bool) (ws : List (List Char)) : (wordsERE s t ws).progress = true := by
  rw [wordsERE, ERE.progress]
  induction ws with
  | nil => rfl
  | cons w ws ih => rw [List.map_cons, progressBranches, ih, EREBranch.progress, word_progress]; rfl

theorem word_groups (s t : Bool) (w : List Char) : groupsParts (wordParts s t w) = 0 := by
  have h1 : groupsParts (if t then [.end_] else []) = 0 := by cases t <;> rfl
  have h2 : groupsParts (w.map (fun c => .single (.atom (.normal c))) ++ (if t then [.end_] else [])) = 0 := by
    induction w with
    | nil => exact h1
    | cons c w ih => rw [List.map_cons, List.cons_append, groupsParts, ih]; rfl
  cases s with
  | false => simpa [wordParts] using h2
  | true => simpa [wordParts, groupsParts, EREPart.groups] using h2

theorem words_groups (s t : Bool) (ws : List (List Char)) : (wordsERE s t ws).groups = 0 := by
  rw [wordsERE, ERE.groups]
  induction ws with
  | nil => rfl
  | cons w ws ih => rw [List.map_cons, groupsBranches, ih, EREBranch.groups, word_groups]

theorem stands_self (t : Bool) (w : List Char) : stands t w w = true := by cases t <;> simp [stands]

theorem findHere_self {t : Bool} {w : List Char} {ws : List (List Char)} (h : w ∈ ws) (off : Nat) :
    (findHere t ws off w).isSome = true := by
  rw [findHere, Option.isSome_map, List.find?_isSome]
  exact ⟨w, h, stands_self t w⟩

theorem find_self (s t : Bool) {w : List Char} {ws : List (List Char)} (h : w ∈ ws) : (findWord s t ws w).isSome = true := by
  have h0 := findHere_self (t := t) h 0
  cases s with
  | true => exact h0
  | false =>
    rw [findWord, if_neg (by simp)]
    cases w with
    | nil => exact h0
    | cons c r =>
      rw [findIn]
      cases hf : findHere t ws 0 (c :: r) with
      | none => rw [hf] at h0; cases h0
      | some p => rfl

theorem words_matches (s t : Bool) {w : List Char} {ws : List (List Char)} (h : w ∈ ws) : (wordsERE s t ws).MatchesIn w := by
  rw [← first_isSome (words_progress s t ws), first_words, Option.isSome_map]
  exact find_self s t h

theorem length_le_sum {w : List Char} {ws : List (List Char)} (h : w ∈ ws) : w.length ≤ (ws.map List.length).sum := by
  induction ws with
  | nil => cases h
  | cons v ws ih =>
    rw [List.map_cons, List.sum_cons]
    rcases List.mem_cons.mp h with rfl | h
    · omega
    · have := ih h; omega

/-! ## C80 -/

/-- The search fails to compile at most for strings to be found at the beginning, one of which is empty. -/
theorem words_compiles (U : Utf8Seqs) (s t : Bool) (w : List Char) (ws : List (List Char))
    (h0 : s = true → t = false → [] ∉ w :: ws) {cr : List String} (hcr : "ere" ∈ cr) {E : Engine}
    (h : compileRegex U.seqs (wordsText s t w ws) = .ok (some E)) : E.compiles cr = true := by
  have hx := C62_framed_compiles_iff U (parse_words s t w ws) (framed_words s t _) (words_atoms s t _) h hcr
  cases hc : E.compiles cr with
  | true => rfl
  | false =>
    obtain ⟨_, hx⟩ := hx.mp hc
    have hbound : s = true → t = true → ¬ (wordsERE s t (w :: ws)).Unbounded := by
      rintro rfl rfl hu
      obtain ⟨text, S, hS, hn⟩ := hu (((w :: ws).map List.length).sum + 2)
      obtain ⟨pre, v, post, hv, rfl, h1, h2, rfl⟩ := captures_words hS
      rw [h1 rfl, h2 rfl] at hn
      have := length_le_sum hv
      simp only [List.nil_append, List.append_nil, List.length_singleton] at hn
      omega
    rcases hx with ⟨h1, h2, h3⟩ | ⟨h1, h2⟩
    · obtain ⟨S, hS⟩ := captures_matchesIn.mpr h3
      obtain ⟨pre, v, post, hv, he, _⟩ := captures_words hS
      have hv0 : v = [] := by
        have := congrArg List.length he
        simp only [List.length_nil, List.length_append] at this
        exact List.eq_nil_of_length_eq_zero (by omega)
      rw [hv0] at hv
      cases t with
      | false => exact absurd hv (h0 h2 rfl)
      | true => exact absurd h1 (hbound h2 rfl)
    · exfalso
      cases hs : s with
      | false =>
        subst hs
        refine h1 (unbounded_of_open (.inl ?_) ⟨w, words_matches _ _ (by simp)⟩)
        exact words_noStart t _
      | true =>
        cases ht : t with
        | false =>
          subst ht
          exact h1 (unbounded_of_open (.inr (framed_noEnd (framed_words s false _))) ⟨w, words_matches _ _ (by simp)⟩)
        | true =>
          subst hs ht
          refine h2 fun text S S' hS hS' g => ?_
          obtain ⟨pre, v, post, _, e1, h3, h4, rfl⟩ := captures_words hS
          obtain ⟨pre', v', post', _, e2, h3', h4', rfl⟩ := captures_words hS'
          rw [h3 rfl, h4 rfl] at e1
          rw [h3' rfl, h4' rfl] at e2
          rw [h3 rfl, h3' rfl]
          simp only [List.nil_append, List.append_nil] at e1 e2
          rw [← e1, ← e2]

/-- What the emitted program answers. -/
theorem words_answers (U : Utf8Seqs) (s t : Bool) (w : List Char) (ws : List (List Char)) {cr : List String} {E : Engine}
    (h : compileRegex U.seqs (wordsText s t w ws) = .ok (some E)) (hc : E.compiles cr = true) :
    E.groups = 1 ∧ ∀ text, E.test text = .ok (findWord s t (w :: ws) text).isSome ∧
      E.exec text = .ok ((findWord s t (w :: ws) text).map fun p => [some p]) := by
  have hp := parse_words s t w ws
  have hF := framed_words s t (w :: ws)
  have hg := words_progress s t (w :: ws)
  have hE := compileRegex_ok hp h
  have hG : E.groups = 1 := by
    have := C29_compile_regex_partial U hg ⟨w, _, Option.eq_some_of_isSome (by
      rw [first_words, Option.isSome_map]; exact find_self s t (by simp)), ?_⟩ hE hc fun _ _ => framed_startSimple hF
    · rw [this, words_groups]
    · rw [words_groups]
      obtain ⟨p, hp⟩ := Option.isSome_iff_exists.mp (find_self s t (ws := w :: ws) (List.mem_cons_self))
      simp [first_words, hp, lastSpan]
  have hok := C65_framed U hp hF h hc
  refine ⟨hG, fun text => ⟨?_, ?_⟩⟩
  · obtain ⟨b, h1, h2⟩ := hok.test text
    rw [h1, Bool.eq_iff_iff.mpr (h2.trans (first_isSome hg text).symm), first_words, Option.isSome_map]
  · rcases C46_framed_whole U hp hF hg h hc text with ⟨h1, h2⟩ | ⟨r, S, h1, h2, h3⟩
    · rw [h1]
      rw [first_words, Option.map_eq_none_iff] at h2
      rw [h2]; rfl
    · have hl : r.length = 1 := by
        rcases hok.exec text with ⟨k, _⟩ | ⟨r', _, k, _, kl, _⟩
        · rw [h1] at k; simp at k
        · rw [h1] at k
          simp only [Except.ok.injEq, Option.some.injEq] at k
          rw [k, kl, hG]
      obtain ⟨x, rfl⟩ := List.length_eq_one_iff.mp hl
      rw [first_words] at h2
      cases hf : findWord s t (w :: ws) text with
      | none => rw [hf] at h2; simp at h2
      | some p =>
        rw [hf] at h2
        simp only [Option.map_some, Option.some.injEq] at h2
        subst h2
        rw [h1]
        have : x = some p := by simpa [lastSpan] using h3
        rw [this]; rfl

/-- **C80.** For any strings, with their special characters escaped, separated by `|`, each with `^` in front if `s` and `$`
behind if `t` (not with `^` only, if one of the strings is empty): `compile_regex!` gives a program, it compiles, it has one
group, and `test` and `exec` are the search for the strings as the standard library does it. -/
theorem C80_words (U : Utf8Seqs) (s t : Bool) (w : List Char) (ws : List (List Char))
    (h0 : s = true → t = false → [] ∉ w :: ws) {cr : List String} (hcr : "ere" ∈ cr) :
    ∃ E, compileRegex U.seqs (wordsText s t w ws) = .ok (some E) ∧ E.compiles cr = true ∧ E.groups = 1 ∧
      ∀ text, E.test text = .ok (findWord s t (w :: ws) text).isSome ∧
        E.exec text = .ok ((findWord s t (w :: ws) text).map fun p => [some p]) := by
  obtain ⟨E, hE⟩ := C17_compile_returns_partial U (parse_words s t w ws) ⟨w, words_matches s t (ws := w :: ws) (by simp)⟩
  have hc := words_compiles U s t w ws h0 hcr hE
  obtain ⟨h1, h2⟩ := words_answers U s t w ws hE hc
  exact ⟨E, hE, hc, h1, h2⟩

/-- **C80 (attribute macro).** The struct has one field; `test` and `exec` are the same. -/
theorem C80_attribute (U : Utf8Seqs) (s t : Bool) (w : List Char) (ws : List (List Char))
    (h0 : s = true → t = false → [] ∉ w :: ws) {cr : List String} (hcr : "ere" ∈ cr) :
    ∃ A, compileAttr U.seqs (wordsText s t w ws) 1 = .ok (some A) ∧ A.compiles cr = true ∧
      ∀ text, A.test text = .ok (findWord s t (w :: ws) text).isSome ∧
        A.exec text = .ok ((findWord s t (w :: ws) text).map fun p => [some p]) := by
  obtain ⟨E, hE, hc, hG, hx⟩ := C80_words U s t w ws h0 hcr
  have hp := parse_words s t w ws
  have hE' := compileRegex_ok hp hE
  have hg := words_progress s t (w :: ws)
  have hl : LastUsed (wordsERE s t (w :: ws)) := by
    obtain ⟨p, hp⟩ := Option.isSome_iff_exists.mp (find_self s t (ws := w :: ws) (List.mem_cons_self))
    exact ⟨w, _, by rw [first_words, hp]; rfl, by rw [words_groups]; simp [lastSpan]⟩
  obtain ⟨N, M, k1, k2, k3, k4⟩ := C29_groups_exact_partial U _ (lastUsed_captures hl)
  rw [words_groups] at k3
  have hne : N ≠ [] := by
    obtain ⟨M', hM', hn⟩ := (C17_pick_returns_iff U _).mp ⟨_, hE'⟩
    intro h0
    unfold byteNFA at hM'
    rw [k1, h0] at hM'
    simp only [u8New_nil] at hM'
    simp at hM'
  obtain ⟨opt, ho, hol⟩ := mapM_range_ok (fun i => ⟨_, (C28_mandatory_groups k1 hne i).1⟩) (List.range N.numCaptureGroups)
  rw [List.length_range, k3] at hol
  have hA : compileAttr U.seqs (wordsText s t w ws) 1 = .ok (some ⟨N.numCaptureGroups, opt, E⟩) := by
    unfold compileAttr
    simp only [hp, k1, ho, hol, hE', if_true]
  obtain ⟨e', he', hk⟩ := C44_attribute_compiles_partial U hA hc
  rw [hp] at he'
  cases he'
  have hc' := (hk hg hl fun _ _ => framed_startSimple (framed_words s t _)).1
  obtain ⟨E', j1, _, _, j4⟩ := C45_same_program U hA hc'
  rw [hE] at j1
  cases j1
  exact ⟨_, hA, hc', fun text => by rw [(j4 text).1, (j4 text).2]; exact hx text⟩

/-! ## What the search says -/

theorem stands_iff {t : Bool} {w rest : List Char} :
    stands t w rest = true ↔ ∃ post, rest = w ++ post ∧ (t = true → post = []) := by
  cases t with
  | true =>
    simp only [stands, if_true, beq_iff_eq, true_implies]
    exact ⟨fun h => ⟨[], by rw [List.append_nil, h], rfl⟩, fun ⟨r, h, hr⟩ => by rw [h, hr, List.append_nil]⟩
  | false =>
    simp only [stands, Bool.false_eq_true, if_false, List.isPrefixOf_iff_prefix, false_implies, and_true]
    exact ⟨fun ⟨r, h⟩ => ⟨r, h.symm⟩, fun ⟨r, h⟩ => ⟨r, h.symm⟩⟩

theorem findHere_some {t : Bool} {ws : List (List Char)} {off i j : Nat} {rest : List Char}
    (h : findHere t ws off rest = some (i, j)) : ∃ ws1 w ws2 post, ws = ws1 ++ w :: ws2 ∧ rest = w ++ post ∧
      (t = true → post = []) ∧ i = off ∧ j = off + byteLen w ∧ ∀ v ∈ ws1, stands t v rest = false := by
  rw [findHere, Option.map_eq_some_iff] at h
  obtain ⟨w, h1, h2⟩ := h
  cases h2
  obtain ⟨h2, ws1, ws2, h3, h4⟩ := List.find?_eq_some_iff_append.mp h1
  obtain ⟨post, h5, h6⟩ := stands_iff.mp h2
  exact ⟨ws1, w, ws2, post, h3, h5, h6, rfl, rfl, fun v hv => by simpa using h4 v hv⟩

theorem findHere_none {t : Bool} {ws : List (List Char)} {off : Nat} {rest : List Char} :
    findHere t ws off rest = none ↔ ∀ w ∈ ws, stands t w rest = false := by
  simp [findHere]

theorem findIn_some {t : Bool} {ws : List (List Char)} : ∀ {rest : List Char} {off i j : Nat},
    findIn t ws off rest = some (i, j) → ∃ pre rest', rest = pre ++ rest' ∧ findHere t ws (off + byteLen pre) rest' = some (i, j) ∧
      ∀ pre' rest'', rest = pre' ++ rest'' → pre'.length < pre.length → ∀ w ∈ ws, stands t w rest'' = false
  | [], off, i, j, h => ⟨[], [], rfl, by simpa [findIn, byteLen] using h, fun _ _ _ h => by simp at h⟩
  | c :: r, off, i, j, h => by
    rw [findIn] at h
    cases hf : findHere t ws off (c :: r) with
    | some p =>
      rw [hf] at h
      exact ⟨[], c :: r, rfl, by rw [← h, byteLen]; exact hf, fun _ _ _ h => by simp at h⟩
    | none =>
      rw [hf] at h
      obtain ⟨pre, rest', rfl, h1, h2⟩ := findIn_some h
      refine ⟨c :: pre, rest', rfl, by rw [byteLen_cons, ← Nat.add_assoc]; exact h1, fun pre' rest'' he hl => ?_⟩
      cases pre' with
      | nil =>
        rw [List.nil_append] at he
        rw [← he]
        exact findHere_none.mp hf
      | cons d pre' =>
        rw [List.cons_append, List.cons.injEq] at he
        exact h2 pre' rest'' he.2 (by simpa using hl)

theorem findIn_none {t : Bool} {ws : List (List Char)} : ∀ {rest : List Char} {off : Nat}, findIn t ws off rest = none →
    ∀ pre rest', rest = pre ++ rest' → ∀ w ∈ ws, stands t w rest' = false
  | [], off, h, pre, rest', he => by
    have : rest' = [] := by simpa using (List.append_eq_nil_iff.mp he.symm).2
    rw [this]
    exact findHere_none.mp h
  | c :: r, off, h, pre, rest', he => by
    rw [findIn] at h
    cases hf : findHere t ws off (c :: r) with
    | some p => rw [hf] at h; simp at h
    | none =>
      rw [hf] at h
      cases pre with
      | nil =>
        rw [List.nil_append] at he
        rw [← he]
        exact findHere_none.mp hf
      | cons d pre =>
        rw [List.cons_append, List.cons.injEq] at he
        exact findIn_none h pre rest' he.2

/-- `v` stands in the text `pre ++ rest` behind `pre`, as far as the anchors allow. -/
def WordAt (s t : Bool) (v pre rest : List Char) : Prop :=
  ∃ post, rest = v ++ post ∧ (s = true → pre = []) ∧ (t = true → post = [])

/-- **C80 (what is found).** If the search finds something, it is one of the strings, at a place of the text allowed by the
anchors; none of the strings stands further left, and none of those given before it stands at the same place. -/
theorem C80_found {s t : Bool} {ws : List (List Char)} {text : List Char} {i j : Nat}
    (h : findWord s t ws text = some (i, j)) : ∃ pre rest ws1 w ws2, text = pre ++ rest ∧ ws = ws1 ++ w :: ws2 ∧
      WordAt s t w pre rest ∧ i = byteLen pre ∧ j = byteLen (pre ++ w) ∧
      (∀ pre' rest', text = pre' ++ rest' → pre'.length < pre.length → ∀ v ∈ ws, ¬ WordAt s t v pre' rest') ∧
      ∀ v ∈ ws1, ¬ WordAt s t v pre rest := by
  have key : ∀ {v pre rest}, stands t v rest = false → ¬ WordAt s t v pre rest := by
    rintro v pre rest h ⟨post, h1, _, h2⟩
    rw [stands_iff.mpr ⟨post, h1, h2⟩] at h
    cases h
  cases s with
  | true =>
    rw [findWord, if_pos rfl] at h
    obtain ⟨ws1, w, ws2, post, h1, h2, h3, h4, h5, h6⟩ := findHere_some h
    exact ⟨[], text, ws1, w, ws2, rfl, h1, ⟨post, h2, fun _ => rfl, h3⟩, by simp [h4, byteLen], by simp [h5],
      fun _ _ _ hl => by simp at hl, fun v hv => key (h6 v hv)⟩
  | false =>
    rw [findWord, if_neg (by simp)] at h
    obtain ⟨pre, rest, rfl, h1, h2⟩ := findIn_some h
    obtain ⟨ws1, w, ws2, post, h3, h4, h5, h6, h7, h8⟩ := findHere_some h1
    refine ⟨pre, rest, ws1, w, ws2, rfl, h3, ⟨post, h4, fun k => (by cases k), h5⟩, by simp [h6], by simp [h7, byteLen], ?_,
      fun v hv => key (h8 v hv)⟩
    exact fun pre' rest' he hl v hv => key (h2 pre' rest' he hl v hv)

/-- **C80 (when nothing is found).** -/
theorem C80_not_found {s t : Bool} {ws : List (List Char)} {text : List Char} (h : findWord s t ws text = none) :
    ∀ pre rest, text = pre ++ rest → ∀ v ∈ ws, ¬ WordAt s t v pre rest := by
  have key : ∀ {v pre rest}, stands t v rest = false → ¬ WordAt s t v pre rest := by
    rintro v pre rest h ⟨post, h1, _, h2⟩
    rw [stands_iff.mpr ⟨post, h1, h2⟩] at h
    cases h
  cases s with
  | true =>
    rintro pre rest rfl v hv hw
    obtain ⟨_, _, h1, _⟩ := id hw
    rw [h1 rfl] at h hw
    exact key (findHere_none.mp h v hv) hw
  | false => exact fun pre rest he v hv => key (findIn_none h pre rest he v hv)

theorem find_isSome {s t : Bool} {ws : List (List Char)} {text : List Char} :
    (findWord s t ws text).isSome = true ↔ ∃ pre rest, text = pre ++ rest ∧ ∃ v ∈ ws, WordAt s t v pre rest := by
  cases h : findWord s t ws text with
  | none =>
    refine ⟨fun k => (by cases k), fun ⟨pre, rest, h1, v, hv, h2⟩ => absurd h2 (C80_not_found h pre rest h1 v hv)⟩
  | some p =>
    obtain ⟨pre, rest, ws1, w, ws2, h1, h2, h3, _⟩ := C80_found h
    exact ⟨fun _ => ⟨pre, rest, h1, w, by rw [h2]; simp, h3⟩, fun _ => rfl⟩

/-- **C80 (`test`).** In the words of the standard library: `w` is `contains`, `^w` is `starts_with`, `w$` is `ends_with` and
`^w$` is `==`. -/
theorem C80_test (w text : List Char) :
    ((findWord false false [w] text).isSome = true ↔ w <:+: text) ∧
    ((findWord true false [w] text).isSome = true ↔ w <+: text) ∧
    ((findWord false true [w] text).isSome = true ↔ w <:+ text) ∧
    ((findWord true true [w] text).isSome = true ↔ w = text) := by
  simp only [find_isSome, WordAt, List.mem_singleton, exists_eq_left, Bool.false_eq_true, false_implies, true_implies, true_and,
    and_true]
  refine ⟨⟨?_, ?_⟩, ⟨?_, ?_⟩, ⟨?_, ?_⟩, ⟨?_, ?_⟩⟩
  · rintro ⟨pre, _, rfl, post, rfl⟩; exact ⟨pre, post, by simp⟩
  · rintro ⟨pre, post, rfl⟩; exact ⟨pre, w ++ post, by simp, post, rfl⟩
  · rintro ⟨_, _, rfl, post, rfl, rfl⟩; exact ⟨post, by simp⟩
  · rintro ⟨post, rfl⟩; exact ⟨[], _, rfl, post, rfl, rfl⟩
  · rintro ⟨pre, _, rfl, _, rfl, rfl⟩; exact ⟨pre, by simp⟩
  · rintro ⟨pre, rfl⟩; exact ⟨pre, w, rfl, [], by simp, rfl⟩
  · rintro ⟨_, _, rfl, _, rfl, rfl, rfl⟩; simp
  · rintro rfl; exact ⟨[], w, rfl, [], by simp, rfl, rfl⟩

/-- non-vacuity: the strings `a.b` and `é` in `xaéa.b`; the earlier place counts, and at the same place the earlier string. -/
example : findWord false false ["a.b".toList, "é".toList] "xaéa.b".toList = some (2, 4) ∧
    findWord false false ["a".toList, "ab".toList] "xab".toList = some (1, 2) ∧
    findWord false true ["a".toList, "ab".toList] "aab".toList = some (1, 3) := by decide +kernel

/-- The condition of C80 is needed: `^` alone (the empty string at the beginning) is accepted but the program does not
compile. -/
theorem C80_negation : wordsText true false [] [] = "^".toList ∧
    ∃ E, compileRegex utf8Sequences (wordsText true false [] []) = .ok (some E) ∧ E.compiles ["ere", "ere_core"] = false :=
  ⟨rfl, C62_negation "^" (by simp)⟩

end Ere.Props
