import Verif.Proofs.Language
import Verif.Proofs.Regular
import Verif.Props.Total
import Verif.Props.Longest

/-! # C76, C77: `test` as a decision procedure for formal languages -/

namespace Ere.Props

open scoped Computability
open Language

/-! ## C76 -/

/-- **C76 (meaning).** A pattern without anchors matches exactly the texts of its language, wherever they stand. -/
theorem C76_meaning {e : ERE} (h1 : e.hasStart = false) (h2 : e.hasEnd = false) (pre mid post : List Char) :
    MatchesERE e pre mid post ↔ mid ∈ e.lang :=
  ⟨MatchesERE.lang, e.of_lang h1 h2⟩

theorem partsLang_append (ps qs : List EREPart) : partsLang (ps ++ qs) = partsLang ps * partsLang qs := by
  induction ps with
  | nil => rw [List.nil_append, partsLang, one_mul]
  | cons p ps ih => rw [List.cons_append, partsLang, partsLang, ih, mul_assoc]

theorem mem_branchesLang {bs : List EREBranch} {w : List Char} : w ∈ branchesLang bs ↔ ∃ b ∈ bs, w ∈ b.lang := by
  induction bs with
  | nil => rw [branchesLang]; exact ⟨fun h => absurd h (notMem_zero _), by simp⟩
  | cons b bs ih =>
    rw [branchesLang, mem_add, ih]
    simp

theorem branch_then_end {ps : List EREPart} {pre mid : List Char} (h : MatchesBranch (.mk ps) pre mid []) :
    MatchesBranch (.mk (ps ++ [.end_])) pre mid [] := by
  induction ps generalizing pre mid with
  | nil =>
    cases h
    exact .cons (m1 := []) (m2 := []) .end_ .nil
  | cons p ps ih =>
    cases h with
    | cons h1 h2 => exact .cons h1 (ih h2)

/-- The same for patterns with anchors around the branches: what they match is in the language and has nothing on the
sides of the anchors. -/
theorem C76_framed {s t : Bool} {e : ERE} (he : e.Framed s t) (pre mid post : List Char) :
    MatchesERE e pre mid post ↔ mid ∈ e.lang ∧ (s = true → pre = []) ∧ (t = true → post = []) := by
  constructor
  · intro h
    refine ⟨h.lang, ?_, ?_⟩
    · rintro rfl
      obtain ⟨bs, rfl, hb⟩ := he
      cases h with
      | intro hm h =>
        obtain ⟨ps, rfl, _, _⟩ := hb _ hm
        simp only [if_true, List.cons_append, List.nil_append] at h
        cases h with
        | cons h1 _ => cases h1; rfl
    · rintro rfl
      obtain ⟨bs, rfl, hb⟩ := he
      cases h with
      | intro hm h =>
        obtain ⟨ps, rfl, _, _⟩ := hb _ hm
        simp only [if_true] at h
        obtain ⟨_, _, k⟩ := matches_parts _ [.end_] h
        cases k with
        | cons k1 k2 =>
          cases k2
          cases k1
          rfl
  · rintro ⟨hl, hs, ht⟩
    obtain ⟨bs, rfl, hb⟩ := he
    rw [ERE.lang, mem_branchesLang] at hl
    obtain ⟨b, hm, hl⟩ := hl
    refine .intro hm ?_
    obtain ⟨ps, rfl, h1, h2⟩ := hb b hm
    rw [EREBranch.lang, partsLang_append, partsLang_append] at hl
    have a1 : partsLang (if s = true then [EREPart.start] else []) = 1 := by
      split <;> simp [partsLang, EREPart.lang]
    have a2 : partsLang (if t = true then [EREPart.end_] else []) = 1 := by
      split <;> simp [partsLang, EREPart.lang]
    rw [a1, a2, one_mul, mul_one] at hl
    have hm1 : MatchesBranch (.mk ps) pre mid post := parts_of_lang ps h1 h2 hl
    have hb2 : MatchesBranch (.mk (ps ++ if t = true then [EREPart.end_] else [])) pre mid post := by
      cases t with
      | false => simpa using hm1
      | true =>
        have := ht rfl
        subst this
        exact branch_then_end hm1
    cases s with
    | false => simpa using hb2
    | true =>
      have := hs rfl
      subst this
      exact .cons (m1 := []) .start hb2

theorem framed_matchesIn {s t : Bool} {e : ERE} (he : e.Framed s t) (text : List Char) :
    e.MatchesIn text ↔ text ∈ beside s * e.lang * beside t := by
  have side (a : Bool) (w : List Char) : w ∈ beside a ↔ (a = true → w = []) := by
    cases a with
    | false => exact ⟨fun _ => nofun, fun _ => trivial⟩
    | true => exact ⟨fun h _ => h, fun h => h rfl⟩
  simp only [ERE.MatchesIn, C76_framed he, mem_mul, side]
  constructor
  · rintro ⟨pre, mid, post, rfl, h1, h2, h3⟩
    exact ⟨pre ++ mid, ⟨pre, h2, mid, h1, rfl⟩, post, h3, rfl⟩
  · rintro ⟨_, ⟨pre, h2, mid, h1, rfl⟩, post, h3, rfl⟩
    exact ⟨pre, mid, post, rfl, h1, h2, h3⟩

/-- **C76.** For a pattern with anchors only around the branches: if the program emitted by `compile_regex!` compiles, its
`test` decides membership in the language of the pattern, with anything before and behind it where there is no anchor. -/
theorem C76_compile_regex (U : Utf8Seqs) {s t : Bool} {w : List Char} {e : ERE} (hp : parseStr w = .ok e)
    (he : e.Framed s t) {E : Engine} (h : compileRegex U.seqs w = .ok (some E)) {cr : List String}
    (hc : E.compiles cr = true) (text : List Char) :
    ∃ b, E.test text = .ok b ∧ (b = true ↔ text ∈ beside s * e.lang * beside t) := by
  obtain ⟨⟨b, h1, h2⟩, _⟩ := C41_test_partial U (compileRegex_ok hp h) hc
    (fun _ _ => .inr (framed_startSimple he)) text
  exact ⟨b, h1, h2.trans (framed_matchesIn he text)⟩

/-- The same for the attribute macro. -/
theorem C76_attribute (U : Utf8Seqs) {s t : Bool} {w : List Char} {e : ERE} (hp : parseStr w = .ok e)
    (he : e.Framed s t) {k : Nat} {A : Attr} (h : compileAttr U.seqs w k = .ok (some A)) {cr : List String}
    (hc : A.compiles cr = true) (text : List Char) :
    ∃ b, A.test text = .ok b ∧ (b = true ↔ text ∈ beside s * e.lang * beside t) := by
  obtain ⟨E, h1, h2, _, h4⟩ := C45_same_program U h hc
  rw [(h4 text).1]
  exact C76_compile_regex U hp he h1 h2 text

/-- The flat engines. -/
theorem C76_flat (U : Utf8Seqs) {s t : Bool} {e : ERE} (he : e.Framed s t) (text : List Char) :
    (∀ F, compileFlatChar e = .ok F → (F.test text = true ↔ text ∈ beside s * e.lang * beside t)) ∧
    ∀ F, compileFlatU8 U.seqs e = .ok F → (F.test (encode text) = true ↔ text ∈ beside s * e.lang * beside t) :=
  ⟨fun _ h => (C18_flat_char_test h text).trans (framed_matchesIn he text),
    fun _ h => (C19_flat_u8_test U h text).trans (framed_matchesIn he text)⟩

/-- **C76 (equality).** Two patterns with `^` and `$` around all branches give the same answers on all texts exactly if
they have the same language; so every law of Kleene algebra may be used to rewrite such a pattern. -/
theorem C76_same_language (U : Utf8Seqs) {w w' : List Char} {e e' : ERE} (hp : parseStr w = .ok e)
    (hp' : parseStr w' = .ok e') (he : e.Framed true true) (he' : e'.Framed true true) {E E' : Engine}
    (h : compileRegex U.seqs w = .ok (some E)) (h' : compileRegex U.seqs w' = .ok (some E')) {cr : List String}
    (hc : E.compiles cr = true) (hc' : E'.compiles cr = true) :
    (∀ text, E.test text = E'.test text) ↔ e.lang = e'.lang := by
  have hb : beside true = 1 := rfl
  have k := fun text => C76_compile_regex U hp he h hc text
  have k' := fun text => C76_compile_regex U hp' he' h' hc' text
  simp only [hb, one_mul, mul_one] at k k'
  constructor
  · intro hx
    ext text
    obtain ⟨b, h1, h2⟩ := k text
    obtain ⟨b', h1', h2'⟩ := k' text
    rw [hx, h1'] at h1
    cases h1
    exact h2.symm.trans h2'
  · intro hx text
    obtain ⟨b, h1, h2⟩ := k text
    obtain ⟨b', h1', h2'⟩ := k' text
    rw [hx] at h2
    rw [h1, h1', Bool.eq_iff_iff.2 (h2.trans h2'.symm)]

/-- Rewriting also keeps the answers for the other kinds of anchoring. -/
theorem C76_rewrite (U : Utf8Seqs) {s t : Bool} {w w' : List Char} {e e' : ERE} (hp : parseStr w = .ok e)
    (hp' : parseStr w' = .ok e') (he : e.Framed s t) (he' : e'.Framed s t) (hl : e.lang = e'.lang) {E E' : Engine}
    (h : compileRegex U.seqs w = .ok (some E)) (h' : compileRegex U.seqs w' = .ok (some E')) {cr : List String}
    (hc : E.compiles cr = true) (hc' : E'.compiles cr = true) (text : List Char) : E.test text = E'.test text := by
  obtain ⟨b, h1, h2⟩ := C76_compile_regex U hp he h hc text
  obtain ⟨b', h1', h2'⟩ := C76_compile_regex U hp' he' h' hc' text
  rw [hl] at h2
  rw [h1, h1', Bool.eq_iff_iff.2 (h2.trans h2'.symm)]

/-- The pattern `^(a*)*b$`. -/
def patStars : ERE := .mk [.mk [.start, .quantified (.sub (.mk [.mk [.quantified (.atom (.normal 'a')) ⟨.star, false⟩]]))
  ⟨.star, false⟩, .single (.atom (.normal 'b')), .end_]]

/-- non-vacuity: the programs for `^a*b$` and `^(a*)*b$` compile, the patterns are framed and have the same language by
a law of Kleene algebra, `(x∗)∗ = x∗`; so they answer alike on all texts. -/
theorem C76_case : patLong.Framed true true ∧ patStars.Framed true true ∧ patLong.lang = patStars.lang ∧
    ['a', 'a', 'b'] ∈ patLong.lang ∧ ['a', 'a'] ∉ patLong.lang ∧
    parseStr "^(a*)*b$".toList = .ok patStars ∧
    (compileRegex utf8Sequences "^a*b$".toList).map (·.map (fun E => E.compiles ["ere"])) = .ok (some true) ∧
    (compileRegex utf8Sequences "^(a*)*b$".toList).map (·.map (fun E => E.compiles ["ere"])) = .ok (some true) := by
  have f1 : patLong.Framed true true := ⟨_, rfl, fun b hb =>
    ⟨[.quantified (.atom (.normal 'a')) ⟨.star, false⟩, .single (.atom (.normal 'b'))], by simpa using hb, by decide,
      by decide⟩⟩
  have f2 : patStars.Framed true true := ⟨_, rfl, fun b hb => ⟨[.quantified (.sub (.mk [.mk [.quantified
    (.atom (.normal 'a')) ⟨.star, false⟩]])) ⟨.star, false⟩, .single (.atom (.normal 'b'))], by simpa using hb, by decide,
      by decide⟩⟩
  have key : ∀ w, w ∈ patLong.lang ↔ patLong.MatchesIn w := by
    intro w
    rw [framed_matchesIn f1, show beside true = 1 from rfl, one_mul, mul_one]
  refine ⟨f1, f2, ?_, (key _).2 (patLong_matches 2), ?_, ?_, by decide +kernel, by decide +kernel⟩
  · simp only [patLong, patStars, ERE.lang, branchesLang, EREBranch.lang, partsLang, EREPart.lang, EREExpr.lang,
      QType.lang, mul_one, one_mul, add_zero, kstar_idem]
  · rw [key]
    intro h
    obtain ⟨F, hF⟩ := (C17_flat_returns utf8Crate patLong ⟨_, h⟩).2
    have hx : (compileFlatU8 utf8Sequences patLong).map (fun F => F.test (encode ['a', 'a'])) = .ok false := by
      decide +kernel
    have e1 : compileFlatU8 utf8Sequences patLong = .ok F := hF
    rw [e1] at hx
    have := (C19_flat_u8_test utf8Crate hF ['a', 'a']).2 h
    simp only [Except.map, Except.ok.injEq] at hx
    rw [hx] at this
    cases this
  · refine (C43_parser_grammar _ _).2 (.one (.cons (w := ['^']) .start (.cons (w := "(a*)*".toList) ?_
      (.cons (w := ['b']) (.single (.atom (.plain (by decide)))) (.cons (w := ['$']) (v := []) .end_ .nil)))))
    exact .quantified (w := "(a*)".toList) (.sub (w := "a*".toList) (.one (.cons (w := "a*".toList) (v := [])
      (.quantified (w := ['a']) (.atom (.plain (by decide))) (.greedy .star)) .nil))) (.greedy .star)

/-! ## C77 -/

/-- **C77.** The texts in which a pattern matches form a regular language, for every pattern with anchors anywhere. -/
theorem C77_regular (e : ERE) : Language.IsRegular (show Language Char from {text | e.MatchesIn text}) := by
  by_cases hm : ∃ text, e.MatchesIn text
  · obtain ⟨⟨F, hF⟩, _⟩ := C17_flat_returns utf8Crate e hm
    have : (show Language Char from {text | e.MatchesIn text}) = (show Language Char from {text | F.test text = true}) := by
      ext text
      exact (C18_flat_char_test hF text).symm
    rw [this]
    exact flat_regular F
  · have : (show Language Char from {text | e.MatchesIn text}) = 0 := by
      ext text
      exact ⟨fun h => absurd ⟨text, h⟩ hm, fun h => absurd h (notMem_zero _)⟩
    rw [this]
    apply Language.IsRegular.of_finite_range_leftQuotient
    refine (Set.finite_singleton (0 : Language Char)).subset ?_
    rintro _ ⟨w, rfl⟩
    rfl

/-- So no pattern tells the texts `aⁿbⁿ` from the others. -/
theorem C77_not_balanced (e : ERE) :
    ¬ ∀ text, e.MatchesIn text ↔ ∃ n, text = List.replicate n 'a' ++ List.replicate n 'b' := by
  intro h
  have hf := (C77_regular e).finite_range_leftQuotient
  have : Finite (Set.range (Language.leftQuotient (show Language Char from {text | e.MatchesIn text}))) := hf
  obtain ⟨m, n, hne, heq⟩ := Finite.exists_ne_map_eq_of_infinite (fun n : Nat =>
    (⟨_, List.replicate n 'a', rfl⟩ :
      Set.range (Language.leftQuotient (show Language Char from {text | e.MatchesIn text}))))
  have hq := congrArg Subtype.val heq
  have h1 : List.replicate m 'b' ∈ Language.leftQuotient (show Language Char from {text | e.MatchesIn text})
      (List.replicate m 'a') := (h _).2 ⟨m, rfl⟩
  simp only at hq
  rw [hq] at h1
  obtain ⟨k, hk⟩ := (h _).1 h1
  have ca := congrArg (List.count 'a') hk
  have cb := congrArg (List.count 'b') hk
  simp [List.count_replicate] at ca cb
  omega

end Ere.Props
