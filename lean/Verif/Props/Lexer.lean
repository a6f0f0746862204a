import Verif.Spec.Lexer
import Verif.Props.Fields

/-! C84: alternatives of sequences of classes are a lexer. -/

namespace Ere.Props
open Ere

/-- The pattern for several kinds of tokens, each with `^` in front if `s`. -/
def lexERE (s : Bool) (kinds : List (List FieldPat)) : ERE :=
  .mk (kinds.map fun xs => .mk ((if s then [.start] else []) ++ fieldParts false xs))

/-- The kinds as they are to be read. -/
def kindsOf (kinds : List (List FieldPat)) : List (List Field) := kinds.map fun xs => xs.map FieldPat.field

/-- The stretches for the first kind that can be read. -/
def lexSpans : Nat → List (List Field) → Nat → List Char → Option (List Span × Nat)
  | _, [], _, _ => none
  | g, fs :: kinds, off, rest =>
    match readFields false fs off rest with
    | some r => some (numbered g r.1, r.2)
    | none => lexSpans (g + reported fs) kinds off rest

/-- Stretches with group 0 at the end. -/
def withWhole (off : Nat) (r : List Span × Nat) : List Span := r.1 ++ [⟨0, off, r.2⟩]

theorem branch_groups (s : Bool) (xs : List FieldPat) :
    EREBranch.groups (.mk ((if s then [.start] else []) ++ fieldParts false xs)) = reported (xs.map FieldPat.field) := by
  have := fields_groups s false xs
  rw [fieldsERE, ERE.groups, groupsBranches, groupsBranches, Nat.add_zero] at this
  rw [this, reported, field_groups]

theorem lex_groups (s : Bool) (kinds : List (List FieldPat)) : (lexERE s kinds).groups = reportedAll (kindsOf kinds) := by
  rw [lexERE, ERE.groups]
  induction kinds with
  | nil => rfl
  | cons xs kinds ih =>
    rw [List.map_cons, groupsBranches, ih, branch_groups]
    rfl

/-! ## The order of preference -/

/-- The preferred match at one place. -/
theorem try_lex {s : Bool} {off : Nat} (ho : s = true → off = 0) (rest : List Char) : ∀ {kinds : List (List FieldPat)},
    (∀ xs ∈ kinds, (∀ x ∈ xs, x.field.possible) ∧ separated (xs.map FieldPat.field)) → ∀ (g : Nat),
    ((tryBranches (kinds.map fun xs => .mk ((if s then [.start] else []) ++ fieldParts false xs)) g ⟨off, rest, []⟩).head?.map
      fun q => (q.spans, q.off)) = lexSpans g (kindsOf kinds) off rest
  | [], _, g => rfl
  | xs :: kinds, h, g => by
    have ih := try_lex ho rest (kinds := kinds) (fun ys hy => h ys (by simp [hy])) (g + reported (xs.map FieldPat.field))
    have hx := try_fields (t := false) (h xs (by simp)).1 (h xs (by simp)).2 g ⟨off, rest, []⟩
    have hb : tryBranch (.mk ((if s then [.start] else []) ++ fieldParts false xs)) g ⟨off, rest, []⟩ =
        tryParts (fieldParts false xs) g ⟨off, rest, []⟩ := by
      cases s with
      | false => rfl
      | true =>
        have := ho rfl
        subst this
        simp [tryBranch, tryParts, tryPart, EREPart.groups]
    rw [List.map_cons, tryBranches, hb, branch_groups, List.head?_append]
    show _ = lexSpans g (xs.map FieldPat.field :: kindsOf kinds) off rest
    rw [lexSpans]
    cases hr : readFields false (xs.map FieldPat.field) off rest with
    | none =>
      rw [hr, Option.map_none, Option.map_eq_none_iff] at hx
      rw [hx, Option.none_or]
      exact ih
    | some r =>
      rw [hr] at hx
      obtain ⟨q, h1, h2⟩ := Option.map_eq_some_iff.mp hx
      simp only [List.nil_append, Prod.mk.injEq] at h2
      rw [h1, Option.some_or, Option.map_some, h2.1, h2.2]

theorem try_lexERE {s : Bool} {kinds : List (List FieldPat)}
    (h : ∀ xs ∈ kinds, (∀ x ∈ xs, x.field.possible) ∧ separated (xs.map FieldPat.field)) (off : Nat) (rest : List Char) :
    ((tryERE (lexERE s kinds) 1 ⟨off, rest, []⟩).head?.map fun p => p.spans ++ [⟨0, off, p.off⟩]) =
      if s = true ∧ off ≠ 0 then none else (lexSpans 1 (kindsOf kinds) off rest).map (withWhole off) := by
  rw [lexERE, tryERE]
  by_cases ho : s = true ∧ off ≠ 0
  · rw [if_pos ho, Option.map_eq_none_iff, List.head?_eq_none_iff]
    obtain ⟨rfl, ho⟩ := ho
    generalize 1 = g
    clear h
    induction kinds generalizing g with
    | nil => rfl
    | cons xs kinds ih =>
      rw [List.map_cons, tryBranches, ih, List.append_nil]
      simp [tryBranch, tryParts, tryPart, ho]
  · rw [if_neg ho, ← try_lex (s := s) (fun hs => Classical.not_not.mp fun h0 => ho ⟨hs, h0⟩) rest h, Option.map_map]
    rfl

/-- What is found in a text. -/
def lexText (s : Bool) (kinds : List (List Field)) (text : List Char) : Option (List Span) :=
  if s then (lexSpans 1 kinds 0 text).map (withWhole 0)
  else scanSpans (fun off rest => (lexSpans 1 kinds off rest).map (withWhole off)) 0 text

theorem first_lex {s : Bool} {kinds : List (List FieldPat)}
    (h : ∀ xs ∈ kinds, (∀ x ∈ xs, x.field.possible) ∧ separated (xs.map FieldPat.field)) (text : List Char) :
    (lexERE s kinds).first text = lexText s (kindsOf kinds) text := by
  rw [ERE.first, firstFrom_scan (try_lexERE h)]
  cases s with
  | false => simp [lexText]
  | true =>
    rw [lexText, if_pos rfl]
    cases text with
    | nil => simp [scanSpans]
    | cons c r =>
      rw [scanSpans, if_neg (by simp)]
      cases hh : (lexSpans 1 (kindsOf kinds) 0 (c :: r)).map (withWhole 0) with
      | some a => rfl
      | none => exact scan_start r _ (by have := charLen_ne c; omega)

/-! ## The answers -/

theorem numbered_bounds : ∀ {gs : List (Nat × Nat)} {g : Nat}, ∀ s ∈ numbered g gs, g ≤ s.group ∧ s.group < g + gs.length
  | [], g, s, h => by cases h
  | p :: gs, g, s, h => by
    rcases List.mem_cons.mp h with rfl | h
    · simp
    · have := numbered_bounds s h
      simp only [List.length_cons]
      omega

/-- Places reported and stretches matched are the same. -/
theorem lex_answer : ∀ {kinds : List (List Field)} {g off : Nat} {rest : List Char},
    match lexSpans g kinds off rest, lexHere kinds off rest with
    | none, none => True
    | some (S, j), some (l, j') => j = j' ∧ l.length = reportedAll kinds ∧ (∀ s ∈ S, g ≤ s.group) ∧
        ∀ i, (l[i]?).join = lastSpan S (g + i)
    | _, _ => False
  | [], g, off, rest => trivial
  | fs :: kinds, g, off, rest => by
    rw [lexSpans, lexHere]
    cases hr : readFields false fs off rest with
    | some r =>
      have hl : r.1.length = reported fs := readFields_groups hr
      refine ⟨rfl, by simp [hl, reportedAll], fun s hs => (numbered_bounds s hs).1, fun i => ?_⟩
      rw [lastSpan_numbered]
      by_cases hi : i < r.1.length
      · rw [List.getElem?_append_left (by simpa using hi), List.getElem?_map, List.getElem?_eq_getElem hi]
        rfl
      · rw [List.getElem?_append_right (by simpa using Nat.le_of_not_lt hi), List.getElem?_eq_none (Nat.le_of_not_lt hi),
          List.getElem?_replicate]
        split <;> rfl
    | none =>
      have ih := lex_answer (kinds := kinds) (g := g + reported fs) (off := off) (rest := rest)
      revert ih
      simp only []
      cases lexSpans (g + reported fs) kinds off rest with
      | none =>
        cases lexHere kinds off rest with
        | none => exact fun _ => trivial
        | some r => exact fun h => h
      | some r =>
        cases lexHere kinds off rest with
        | none => exact fun h => h
        | some r' =>
          rintro ⟨h1, h2, h3, h4⟩
          refine ⟨h1, by simp [h2, reportedAll], fun s hs => by have := h3 s hs; omega, fun i => ?_⟩
          by_cases hi : i < reported fs
          · rw [List.getElem?_append_left (by simpa using hi), List.getElem?_replicate, if_pos hi,
              lastSpan_none fun s hs => by have := h3 s hs; omega]
            rfl
          · rw [List.getElem?_append_right (by simpa using Nat.le_of_not_lt hi), List.length_replicate, h4]
            congr 1
            omega

theorem lexSpans_answer (kinds : List (List Field)) (off : Nat) (rest : List Char) :
    ((lexSpans 1 kinds off rest).map (withWhole off)).map (answerOf (reportedAll kinds + 1)) = tokenHere kinds off rest := by
  have h := lex_answer (kinds := kinds) (g := 1) (off := off) (rest := rest)
  unfold tokenHere
  revert h
  cases lexSpans 1 kinds off rest with
  | none =>
    cases lexHere kinds off rest with
    | none => exact fun _ => rfl
    | some r => exact fun h => h.elim
  | some r =>
    cases lexHere kinds off rest with
    | none => exact fun h => h.elim
    | some r' =>
      rintro ⟨h1, h2, h3, h4⟩
      simp only [Option.map_some, Option.some.injEq]
      symm
      refine answerOf_eq (by simp [h2]) fun g => ?_
      cases g with
      | zero =>
        rw [withWhole, lastSpan_whole, h1]
        rfl
      | succ g =>
        have h0 : lastSpan [(⟨0, off, r.2⟩ : Span)] (g + 1) = none := lastSpan_none (by simp)
        rw [withWhole, lastSpan_append, h0, Option.none_or, Nat.add_comm g 1, ← h4 g, Nat.add_comm 1 g]
        rfl

theorem lexText_answer (s : Bool) (kinds : List (List Field)) (text : List Char) :
    (lexText s kinds text).map (answerOf (reportedAll kinds + 1)) = nextToken s kinds text := by
  have hscan : ∀ (rest : List Char) (off : Nat),
      (scanSpans (fun off rest => (lexSpans 1 kinds off rest).map (withWhole off)) off rest).map
        (answerOf (reportedAll kinds + 1)) = tokenIn kinds off rest := by
    intro rest
    induction rest with
    | nil => intro off; exact lexSpans_answer kinds off []
    | cons c r ih =>
      intro off
      have h := lexSpans_answer kinds off (c :: r)
      rw [scanSpans, tokenIn, ← h]
      cases (lexSpans 1 kinds off (c :: r)).map (withWhole off) with
      | none => exact ih _
      | some S => rfl
  cases s with
  | false => exact hscan text 0
  | true => exact lexSpans_answer kinds 0 text

/-! ## The form of the pattern -/

theorem framed_lex (s : Bool) (kinds : List (List FieldPat)) : (lexERE s kinds).Framed s false := by
  refine ⟨_, rfl, fun b hb => ?_⟩
  obtain ⟨xs, _, rfl⟩ := List.mem_map.mp hb
  exact ⟨xs.map FieldPat.part, by simp [fieldParts], fields_noStart xs, fields_noEnd xs⟩

theorem lex_noStart (kinds : List (List FieldPat)) : (lexERE false kinds).hasStart = false := by
  rw [lexERE, ERE.hasStart]
  induction kinds with
  | nil => rfl
  | cons xs kinds ih =>
    rw [List.map_cons, branchesHaveStart, ih, EREBranch.hasStart]
    simp [fieldParts, fields_noStart]

theorem lex_progress (s : Bool) (kinds : List (List FieldPat)) : (lexERE s kinds).progress = true := by
  rw [lexERE, ERE.progress]
  induction kinds with
  | nil => rfl
  | cons xs kinds ih =>
    have := fields_progress s false xs
    rw [fieldsERE, ERE.progress, progressBranches, progressBranches, Bool.and_true] at this
    rw [List.map_cons, progressBranches, ih, this]; rfl

theorem lex_atoms {s : Bool} {kinds : List (List FieldPat)} (h : ∀ xs ∈ kinds, ∀ x ∈ xs, plainAtom x.atom = true) :
    (lexERE s kinds).atomsAll plainAtom = true := by
  rw [lexERE, ERE.atomsAll]
  induction kinds with
  | nil => rfl
  | cons xs kinds ih =>
    have := fields_atoms (s := s) (t := false) (h xs (by simp))
    rw [fieldsERE, ERE.atomsAll, branchesAtoms, branchesAtoms, Bool.and_true] at this
    rw [List.map_cons, branchesAtoms, ih fun ys hy => h ys (by simp [hy]), this]; rfl

theorem lex_notEmpty {s : Bool} {kinds : List (List FieldPat)}
    (h : ∀ xs ∈ kinds, (∀ x ∈ xs, x.field.possible) ∧ separated (xs.map FieldPat.field))
    (hn : ∀ xs ∈ kinds, ∃ x ∈ xs, x.field.least ≠ 0) : ¬ (lexERE s kinds).MatchesIn [] := by
  rw [← first_isSome (lex_progress s kinds), first_lex h]
  have : ∀ (kinds : List (List FieldPat)) (g : Nat), (∀ xs ∈ kinds, ∃ x ∈ xs, x.field.least ≠ 0) →
      lexSpans g (kindsOf kinds) 0 [] = none := by
    intro kinds
    induction kinds with
    | nil => intro g _; rfl
    | cons xs kinds ih =>
      intro g hn
      show lexSpans g (xs.map FieldPat.field :: kindsOf kinds) 0 [] = none
      obtain ⟨x, h1, h2⟩ := hn xs (by simp)
      rw [lexSpans, readFields_nil ⟨_, List.mem_map_of_mem h1, h2⟩]
      exact ih _ fun ys hy => hn ys (by simp [hy])
  have := this kinds 1 hn
  cases s <;> simp [lexText, scanSpans, this]

/-! ## C84 -/

section
variable (U : Utf8Seqs) {s : Bool} {kinds : List (List FieldPat)}
  (hk : ∀ xs ∈ kinds, (∀ x ∈ xs, x.field.possible) ∧ separated (xs.map FieldPat.field))
  (hne : s = true → ∀ xs ∈ kinds, ∃ x ∈ xs, x.field.least ≠ 0) (hpl : ∀ xs ∈ kinds, ∀ x ∈ xs, plainAtom x.atom = true)
  (hlast : ∃ text l, nextToken s (kindsOf kinds) text = some l ∧ (l.getLast?.join).isSome = true)
  {p : List Char} (hp : parseStr p = .ok (lexERE s kinds)) {cr : List String} (hcr : "ere" ∈ cr)
include hk hlast

theorem lex_lastUsed : LastUsed (lexERE s kinds) := by
  obtain ⟨text, l, h1, h2⟩ := hlast
  rw [← lexText_answer, ← first_lex hk] at h1
  obtain ⟨S, h3, rfl⟩ := Option.map_eq_some_iff.mp h1
  refine ⟨text, S, h3, ?_⟩
  rw [lex_groups]
  rw [answerOf, List.getLast?_map, List.getLast?_range] at h2
  simpa using h2

include hne hpl hp hcr

/-- **C84.** Let the pattern consist of alternatives, each a sequence of classes (without `[:graph:]` and `[:xdigit:]`) with
quantifiers, in parentheses or not, such that within an alternative no class of variable length contains a character with which
what follows may begin; all with `^` in front (then each must demand a character) or none. Let some text use the last group.
Then `compile_regex!` gives a program, it compiles, it has one group for every pair of parentheses besides group 0, and on every
text `test` and `exec` do what the lexer does: at the first place where there is a token, the first kind that can be read there,
each field as long as possible, and `None` for the groups of the other kinds. -/
theorem C84_lexer : ∃ E, compileRegex U.seqs p = .ok (some E) ∧ E.compiles cr = true ∧
    E.groups = reportedAll (kindsOf kinds) + 1 ∧
    ∀ text, E.test text = .ok (nextToken s (kindsOf kinds) text).isSome ∧
      E.exec text = .ok (nextToken s (kindsOf kinds) text) := by
  have hF := framed_lex s kinds
  have hg := lex_progress s kinds
  have hl := lex_lastUsed hk hlast
  have hex : ∃ text, (lexERE s kinds).MatchesIn text := by
    obtain ⟨text, S, h1, _⟩ := hl
    exact ⟨text, captures_matchesIn.mp ⟨S, first_captures h1⟩⟩
  obtain ⟨E, h⟩ := C17_compile_returns_partial U hp hex
  have hE := compileRegex_ok hp h
  have hc : E.compiles cr = true := by
    cases hc : E.compiles cr with
    | true => rfl
    | false =>
      obtain ⟨_, hx⟩ := (C62_framed_compiles_iff U hp hF (lex_atoms hpl) h hcr).mp hc
      rcases hx with ⟨_, h2, h3⟩ | ⟨h1, _⟩
      · exact absurd h3 (lex_notEmpty hk (hne h2))
      · exact absurd (unbounded_of_open (.inr (framed_noEnd hF)) hex) h1
  have hG : E.groups = reportedAll (kindsOf kinds) + 1 := by
    rw [C29_compile_regex_partial U hg hl hE hc fun _ _ => framed_startSimple hF, lex_groups]
  refine ⟨E, h, hc, hG, fun text => ⟨?_, ?_⟩⟩
  · obtain ⟨b, h1, h2⟩ := (C65_framed U hp hF h hc).test text
    rw [h1, Bool.eq_iff_iff.mpr (h2.trans (first_isSome hg text).symm), first_lex hk, ← lexText_answer, Option.isSome_map]
  · rw [← lexText_answer, ← first_lex hk]
    rcases C65_framed_preferred U hp hF hg h hc (fun k => by cases k) text with ⟨h1, h2⟩ | ⟨r, S, h1, h2, h3, h4⟩
    · rw [h1, h2]; rfl
    · rw [h1, h2, answerOf_eq (h3.trans hG) h4]; rfl

/-- **C84 (attribute macro).** The struct has as many fields; `test` and `exec` are the same. -/
theorem C84_attribute : ∃ A, compileAttr U.seqs p (reportedAll (kindsOf kinds) + 1) = .ok (some A) ∧ A.compiles cr = true ∧
    ∀ text, A.test text = .ok (nextToken s (kindsOf kinds) text).isSome ∧
      A.exec text = .ok (nextToken s (kindsOf kinds) text) := by
  obtain ⟨E, hE, hc, hG, hx⟩ := C84_lexer U hk hne hpl hlast hp hcr
  obtain ⟨A, h1, h2, h3⟩ := attr_of_regex U hp (framed_lex s kinds) (lex_progress s kinds) (lex_lastUsed hk hlast) hE hc
  rw [lex_groups] at h1
  exact ⟨A, h1, h2, fun text => by rw [(h3 text).1, (h3 text).2]; exact hx text⟩
end

/-! ## The text of the pattern -/

/-- The text for one kind of token. -/
def kindText (s : Bool) (ws : List (FieldPat × List Char)) : List Char :=
  (if s then ['^'] else []) ++ (ws.map Prod.snd).flatten

/-- The text for the kinds `k :: ks`. -/
def lexPattern (s : Bool) (k : List (FieldPat × List Char)) : List (List (FieldPat × List Char)) → List Char
  | [] => kindText s k
  | k' :: ks => kindText s k ++ '|' :: lexPattern s k' ks

theorem spells_kind (s : Bool) {ws : List (FieldPat × List Char)} (h : ∀ w ∈ ws, SpellsPart w.1.part w.2) :
    SpellsBranch (.mk ((if s then [.start] else []) ++ fieldParts false (ws.map Prod.fst))) (kindText s ws) := by
  have hmid : SpellsBranch (.mk (fieldParts false (ws.map Prod.fst))) (ws.map Prod.snd).flatten := by
    unfold fieldParts
    induction ws with
    | nil => exact .nil
    | cons w ws ih =>
      rw [List.map_cons, List.map_cons, List.map_cons, List.cons_append, List.flatten_cons]
      exact .cons (h w (by simp)) (ih fun v hv => h v (by simp [hv]))
  cases s with
  | false => exact hmid
  | true => exact .cons (w := ['^']) .start hmid

theorem parse_lex (s : Bool) (k : List (FieldPat × List Char)) (ks : List (List (FieldPat × List Char)))
    (h : ∀ ws ∈ k :: ks, ∀ w ∈ ws, SpellsPart w.1.part w.2) :
    parseStr (lexPattern s k ks) = .ok (lexERE s ((k :: ks).map fun ws => ws.map Prod.fst)) := by
  refine parseStr_iff.mpr ?_
  induction ks generalizing k with
  | nil => exact .one (spells_kind s (h k (by simp)))
  | cons k' ks ih => exact .more (spells_kind s (h k (by simp))) (ih k' fun ws hw => h ws (by simp at hw ⊢; exact .inr hw))

/-! ## Non-vacuity: names, numbers and `=` -/

/-- `([a-z]+)`, `([0-9]+)`, `(=)`. -/
def smallLexer : List (List (FieldPat × List Char)) :=
  [[(⟨.matching [.range 'a' 'z'], some .plus, true⟩, "([a-z]+)".toList)], [(⟨digitAtom, some .plus, true⟩, "([0-9]+)".toList)],
    [(⟨.normal '=', none, true⟩, "(=)".toList)]]

/-- `([a-z]+)|([0-9]+)|(=)` and `^([a-z]+)|^([0-9]+)|^(=)` on every text. -/
theorem C84_small (U : Utf8Seqs) (s : Bool) {cr : List String} (hcr : "ere" ∈ cr) :
    ∃ E, compileRegex U.seqs (if s then "^([a-z]+)|^([0-9]+)|^(=)".toList else "([a-z]+)|([0-9]+)|(=)".toList) = .ok (some E) ∧
      E.compiles cr = true ∧ E.groups = 4 ∧ ∀ text,
        E.exec text = .ok (nextToken s (kindsOf (smallLexer.map fun ws => ws.map Prod.fst)) text) := by
  have h1 : SpellsPart (FieldPat.part ⟨.matching [.range 'a' 'z'], some .plus, true⟩) "([a-z]+)".toList :=
    .single (.sub (w := "[a-z]+".toList) (.one (.cons (w := "[a-z]+".toList) (v := []) (.quantified (w := "[a-z]".toList) (v := ['+'])
      (.atom (.matching (w := ['a', '-', 'z', ']']) (by decide) (.plain (by decide) (.range (by decide) (by decide) .close))))
      (.greedy .plus)) .nil)))
  have h2 : SpellsPart (FieldPat.part ⟨digitAtom, some .plus, true⟩) "([0-9]+)".toList :=
    .single (.sub (w := "[0-9]+".toList) (.one (.cons (w := "[0-9]+".toList) (v := []) (.quantified (w := "[0-9]".toList) (v := ['+'])
      (.atom (.matching (w := ['0', '-', '9', ']']) (by decide) (.plain (by decide) (.range (by decide) (by decide) .close))))
      (.greedy .plus)) .nil)))
  have h3 : SpellsPart (FieldPat.part ⟨.normal '=', none, true⟩) "(=)".toList :=
    .single (.sub (w := ['=']) (.one (.cons (w := ['=']) (v := []) (.single (.atom (.plain (by decide)))) .nil)))
  have hp := parse_lex s _ _ (show ∀ ws ∈ smallLexer, ∀ w ∈ ws, SpellsPart w.1.part w.2 by
    intro ws hw w hx
    simp only [smallLexer, List.mem_cons, List.not_mem_nil, or_false] at hw
    rcases hw with rfl | rfl | rfl <;> (rw [List.mem_singleton] at hx; subst hx)
    · exact h1
    · exact h2
    · exact h3)
  have ht : (if s then "^([a-z]+)|^([0-9]+)|^(=)".toList else "([a-z]+)|([0-9]+)|(=)".toList) =
      lexPattern s [(⟨.matching [.range 'a' 'z'], some .plus, true⟩, "([a-z]+)".toList)] smallLexer.tail := by
    cases s <;> decide
  rw [ht]
  have hall : ∀ {P : List FieldPat → Prop}, P [⟨.matching [.range 'a' 'z'], some .plus, true⟩] → P [⟨digitAtom, some .plus, true⟩] →
      P [⟨.normal '=', none, true⟩] → ∀ xs ∈ smallLexer.map (fun ws => ws.map Prod.fst), P xs := by
    intro P p1 p2 p3 xs hx
    simp only [smallLexer, List.map_cons, List.map_nil, List.mem_cons, List.not_mem_nil, or_false] at hx
    rcases hx with rfl | rfl | rfl
    · exact p1
    · exact p2
    · exact p3
  have hone : ∀ {x : FieldPat} {P : FieldPat → Prop}, P x → ∀ y ∈ [x], P y := by
    intro x P hx y hy; rw [List.mem_singleton] at hy; subst hy; exact hx
  obtain ⟨E, e1, e2, e3, e4⟩ := C84_lexer U (s := s) (kinds := smallLexer.map fun ws => ws.map Prod.fst)
    (hall
      ⟨hone ⟨by simp [FieldPat.field, QType.max], fun _ => ⟨'a', by decide⟩⟩, .inr fun _ _ => rfl, trivial⟩
      ⟨hone ⟨by simp [FieldPat.field, QType.max], fun _ => ⟨'0', by decide⟩⟩, .inr fun _ _ => rfl, trivial⟩
      ⟨hone ⟨by simp [FieldPat.field], fun _ => ⟨'=', by decide⟩⟩, .inl rfl, trivial⟩)
    (fun _ => hall ⟨_, List.mem_singleton.mpr rfl, by decide⟩ ⟨_, List.mem_singleton.mpr rfl, by decide⟩
      ⟨_, List.mem_singleton.mpr rfl, by decide⟩)
    (hall (hone (by decide)) (hone (by decide)) (hone (by decide)))
    ⟨['='], [some (0, 1), none, none, some (0, 1)], by cases s <;> decide, by decide⟩ hp hcr
  exact ⟨E, e1, e2, e3, fun text => (e4 text).2⟩

example : nextToken false (kindsOf (smallLexer.map fun ws => ws.map Prod.fst)) "é 80px".toList =
    some [some (3, 5), none, some (3, 5), none] := by decide

example : nextToken true (kindsOf (smallLexer.map fun ws => ws.map Prod.fst)) "px=".toList =
    some [some (0, 2), some (0, 2), none, none] := by decide

/-- That the last group is used somewhere is needed: in `a|(a)` the second kind is never read, … -/
example (text : List Char) (l) (h : nextToken true (kindsOf [[⟨.normal 'a', none, false⟩], [⟨.normal 'a', none, true⟩]]) text = some l) :
    (l.getLast?.join).isSome = false := by
  cases text with
  | nil => simp [nextToken, tokenHere, kindsOf, lexHere, readFields, Field.run, FieldPat.field] at h
  | cons c r =>
    by_cases hc : Atom.check (.normal 'a') c = true
    · simp [nextToken, tokenHere, kindsOf, lexHere, readFields, Field.run, FieldPat.field, hc] at h
      subst h
      rfl
    · simp [nextToken, tokenHere, kindsOf, lexHere, readFields, Field.run, FieldPat.field, hc] at h

end Ere.Props
