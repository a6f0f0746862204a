import Verif.Proofs.Predict
import Verif.Props.Decided
import Verif.Props.Documented
import Verif.Props.Fields
import Verif.Props.Language

/-! # C86: where the next character decides, `exec` is a predictive reader -/

namespace Ere.Props

/-- What the only match is, the reader finds out. -/
theorem onlyOk_read {e : ERE} (hd : e.Decided fun _ => True) (hg : e.progress = true) {text : List Char} {k : Nat} {res}
    (h : OnlyOk e text k res) : res = .ok ((e.readFrom 0 text).map (answerOf k)) := by
  have h0 : byteLen [] = 0 := rfl
  rcases h with ⟨rfl, hm⟩ | ⟨r, S, rfl, hS, hl, hr⟩
  · cases hf : e.readFrom 0 text with
    | none => rfl
    | some S =>
      have := readFrom_sound (pre := []) hf
      exact absurd (captures_matchesIn.mp ⟨S, this⟩) hm
  · obtain ⟨pre, mid, post, S0, rfl, hc, rfl⟩ := hS.1
    obtain ⟨T, i, j, h1, h2, h3⟩ := readFrom_only hd hg (rest := pre ++ mid ++ post) (pre := []) (pre' := pre)
      (by simp) hc
    rw [h0] at h1
    have hT := readFrom_sound (pre := []) h1
    obtain ⟨a, b, a', b', k1, k2, k3⟩ := hS.2 T hT
    rw [lastSpan_whole] at k1
    rw [h2] at k2
    cases k1
    cases k2
    rcases k3 with k3 | k3
    · simp only [List.nil_append] at h3
      omega
    · rw [h1, k3, Option.map_some, answerOf_eq hl hr]

theorem read_isSome {e : ERE} (hd : e.Decided fun _ => True) (hg : e.progress = true) (text : List Char) :
    (e.readFrom 0 text).isSome = true ↔ e.MatchesIn text := by
  constructor
  · intro h
    obtain ⟨S, hS⟩ := Option.isSome_iff_exists.mp h
    exact captures_matchesIn.mp ⟨S, readFrom_sound (pre := []) hS⟩
  · intro h
    obtain ⟨_, pre, mid, post, S0, rfl, hc, rfl⟩ := captures_matchesIn.mpr h
    obtain ⟨T, i, j, h1, _⟩ := readFrom_only hd hg (rest := pre ++ mid ++ post) (pre := []) (pre' := pre) (by simp) hc
    rw [show (0 : Nat) = byteLen [] from rfl, h1]
    rfl

/-- **C86.** Let the next character decide in the pattern, let its repetitions without bound consume a character per round, and
let anchors stand only around the branches. If the program emitted by `compile_regex!` compiles, then `test` and `exec` do on
every text what the predictive reader does: it goes through the text from left to right, from the first place where the reading
succeeds, and never takes a choice back. -/
theorem C86_compile_regex (U : Utf8Seqs) {s t : Bool} {p : List Char} {e : ERE} (hp : parseStr p = .ok e) (he : e.Framed s t)
    (hd : e.Decided fun _ => True) (hg : e.progress = true) {E : Engine} (h : compileRegex U.seqs p = .ok (some E))
    {cr : List String} (hc : E.compiles cr = true) (text : List Char) :
    E.test text = .ok (e.readFrom 0 text).isSome ∧ E.exec text = .ok ((e.readFrom 0 text).map (answerOf E.groups)) := by
  refine ⟨?_, onlyOk_read hd hg (C73_compile_regex_partial U hp hd h hc (fun _ _ => framed_startSimple he) text)⟩
  obtain ⟨b, h1, h2⟩ := (C65_framed U hp he h hc).test text
  rw [h1, Bool.eq_iff_iff.mpr (h2.trans (read_isSome hd hg text).symm)]

/-- **C86 (attribute macro).** The same, with one field per group. -/
theorem C86_attribute (U : Utf8Seqs) {s t : Bool} {p : List Char} {e : ERE} (hp : parseStr p = .ok e) (he : e.Framed s t)
    (hd : e.Decided fun _ => True) (hg : e.progress = true) {k : Nat} {A : Attr} (h : compileAttr U.seqs p k = .ok (some A))
    {cr : List String} (hc : A.compiles cr = true) (text : List Char) :
    A.test text = .ok (e.readFrom 0 text).isSome ∧ A.exec text = .ok ((e.readFrom 0 text).map (answerOf k)) := by
  refine ⟨?_, onlyOk_read hd hg (C73_attribute_partial U hp hd h hc (fun _ _ => framed_startSimple he) text)⟩
  obtain ⟨E, h1, h2, _, h4⟩ := C45_same_program U h hc
  rw [(h4 text).1]
  exact (C86_compile_regex U hp he hd hg h1 h2 text).1

/-- **C86 (the engines one by one).** The flat engines and the one-pass engine with anchors anywhere; the DFA for patterns with
anchors only around the branches. -/
theorem C86_engines (U : Utf8Seqs) {e : ERE} (hd : e.Decided fun _ => True) (hg : e.progress = true) (text : List Char) :
    (∀ F, compileFlatChar e = .ok F → F.test text = (e.readFrom 0 text).isSome ∧
      F.exec text text = .ok ((e.readFrom 0 text).map (answerOf F.groups))) ∧
    (∀ F, compileFlatU8 U.seqs e = .ok F → F.test (encode text) = (e.readFrom 0 text).isSome ∧
      F.exec text (encode text) = .ok ((e.readFrom 0 text).map (answerOf F.groups))) ∧
    (∀ P, compileOnePassU8 U.seqs e = .ok (some P) → P.compiles = true →
      P.exec text (encode text) = .ok ((e.readFrom 0 text).map (answerOf P.groups))) ∧
    ∀ G s t, compileDfaU8 U.seqs e = .ok (some G) → e.Framed s t →
      G.tdfa.exec text (encode text) = .ok ((e.readFrom 0 text).map (answerOf G.tdfa.numCaptureGroups)) :=
  ⟨fun _ h => ⟨Bool.eq_iff_iff.mpr ((C18_flat_char_test h text).trans (read_isSome hd hg text).symm),
      onlyOk_read hd hg (C73_flat_char hd h text)⟩,
    fun _ h => ⟨Bool.eq_iff_iff.mpr ((C19_flat_u8_test U h text).trans (read_isSome hd hg text).symm),
      onlyOk_read hd hg (C73_flat_u8 U hd h text)⟩,
    fun _ h hc => onlyOk_read hd hg (C73_one_pass U hd h hc text),
    fun _ _ _ h he => onlyOk_read hd hg (C73_dfa_partial U hd (framed_startSimple he) h text)⟩

/-! ## The program compiles -/

theorem framed_noStart {t : Bool} {e : ERE} (he : e.Framed false t) : e.hasStart = false := by
  obtain ⟨bs, rfl, hb⟩ := he
  rw [ERE.hasStart]
  induction bs with
  | nil => rfl
  | cons b bs ih =>
    rw [branchesHaveStart, ih fun x hx => hb x (List.mem_cons_of_mem _ hx), Bool.or_false]
    obtain ⟨ps, rfl, h1, _⟩ := hb b (by simp)
    rw [EREBranch.hasStart]
    have happ : ∀ as cs : List EREPart, partsHaveStart (as ++ cs) = (partsHaveStart as || partsHaveStart cs) := by
      intro as cs
      induction as with
      | nil => rfl
      | cons a as ih => rw [List.cons_append, partsHaveStart, partsHaveStart, ih, Bool.or_assoc]
    rw [happ, happ, h1]
    cases t <;> rfl

theorem decided_oneReading {t : Bool} {e : ERE} (he : e.Framed true t) (hd : e.Decided fun _ => True) : e.OneReading := by
  have h0 : ∀ {text S}, e.Captures text S → ∃ j, lastSpan S 0 = some (0, j) := by
    rintro text S ⟨pre, mid, post, S', _, h, rfl⟩
    have := ((C76_framed he pre mid post).mp h.matches).2.1 rfl
    subst this
    exact ⟨_, by rw [lastSpan_whole]; rfl⟩
  intro text S S' h h' g
  obtain ⟨j, hj⟩ := h0 h
  obtain ⟨j', hj'⟩ := h0 h'
  rw [C73_one_way hd h h' hj hj']

/-- **C86 (the program compiles).** If moreover something can be read, nothing can be read in the empty text (or there is no `^`),
and the classes are neither `[:graph:]` nor `[:xdigit:]`, then `compile_regex!` gives a program and it compiles. -/
theorem C86_compiles (U : Utf8Seqs) {s t : Bool} {p : List Char} {e : ERE} (hp : parseStr p = .ok e) (he : e.Framed s t)
    (hd : e.Decided fun _ => True) (hg : e.progress = true) (ha : e.atomsAll plainAtom = true)
    (h0 : s = true → e.readFrom 0 [] = none) (h1 : ∃ text, (e.readFrom 0 text).isSome = true) {cr : List String} (hcr : "ere" ∈ cr) :
    ∃ E, compileRegex U.seqs p = .ok (some E) ∧ E.compiles cr = true := by
  obtain ⟨text, hm⟩ := h1
  rw [read_isSome hd hg] at hm
  obtain ⟨E, h⟩ := C17_compile_returns_partial U hp ⟨text, hm⟩
  refine ⟨E, h, ?_⟩
  cases hc : E.compiles cr with
  | true => rfl
  | false =>
    exfalso
    obtain ⟨_, hx⟩ := (C62_framed_compiles_iff U hp he ha h hcr).mp hc
    rcases hx with ⟨_, h2, h3⟩ | ⟨h2, h3⟩
    · rw [← read_isSome hd hg, h0 h2] at h3
      cases h3
    · cases s with
      | false => exact h2 (unbounded_of_open (.inl (framed_noStart he)) ⟨text, hm⟩)
      | true => exact h3 (decided_oneReading he hd)

/-! ## Non-vacuity: quoted strings with escapes -/

/-- Neither `"` nor a backslash. -/
def plainChar : Atom := .nonmatching [.single '"', .single '\\']

/-- `([^"\]|\\.)`. -/
def quotedChar : EREExpr :=
  .sub (.mk [.mk [.single (.atom plainChar)], .mk [.single (.atom (.normal '\\')), .single (.atom .dot)]])

/-- `^"([^"\]|\\.)*"$`. -/
def quotedERE : ERE :=
  .mk [.mk [.start, .single (.atom (.normal '"')), .quantified quotedChar ⟨.star, false⟩, .single (.atom (.normal '"')), .end_]]

theorem parse_quoted : parseStr "^\"([^\"\\]|\\\\.)*\"$".toList = .ok quotedERE :=
  parseStr_iff.mpr (.one (.cons (w := ['^']) .start (.cons (w := ['"']) (.single (.atom (.plain (by decide))))
    (.cons (w := "([^\"\\]|\\\\.)*".toList) (v := "\"$".toList)
      (.quantified (w := "([^\"\\]|\\\\.)".toList) (v := ['*'])
        (.sub (w := "[^\"\\]|\\\\.".toList) (.more (w := "[^\"\\]".toList) (v := "\\\\.".toList)
          (.cons (w := "[^\"\\]".toList) (v := []) (.single (.atom (.nonmatching (w := ['"', '\\', ']'])
            (.plain (by decide) (.single (by decide) (by decide) (by rintro ⟨k, t, ht⟩; simp [classText] at ht)
              (.single (by decide) (by decide) (by rintro ⟨k, t, ht⟩; simp [classText] at ht) .close)))))) .nil)
          (.one (.cons (w := ['\\', '\\']) (v := ['.']) (.single (.atom (.escaped (by decide))))
            (.cons (w := ['.']) (v := []) (.single (.atom .dot)) .nil)))))
        (.greedy .star))
      (.cons (w := ['"']) (v := ['$']) (.single (.atom (.plain (by decide)))) (.cons (w := ['$']) (v := []) .end_ .nil))))))

/-- By hand: the rest of a quoted text behind the opening quote. A backslash takes the next character (but not NUL) with it; the
first other quote must be the last character. -/
def closes : List Char → Bool
  | [] => false
  | c :: r =>
    if c = '"' then r.isEmpty
    else if c = '\\' then
      match r with
      | [] => false
      | d :: r' => d != '\x00' && closes r'
    else closes r

/-- By hand: the text is a quoted string. -/
def isQuoted : List Char → Bool
  | [] => false
  | c :: r => c == '"' && closes r

theorem quoted_decided : quotedERE.Decided fun _ => True := by
  refine ⟨by simp, ⟨trivial, trivial, ⟨⟨?_, ⟨trivial, trivial⟩, ⟨trivial, trivial, trivial⟩, trivial⟩, .inr ?_⟩, trivial, trivial,
    trivial⟩, trivial⟩
  · refine List.pairwise_cons.mpr ⟨?_, by simp⟩
    intro b hb l ⟨⟨c, h1, h2⟩, h3⟩
    rw [List.mem_singleton] at hb
    subst hb
    obtain ⟨d, h4, h5⟩ := h3
    rw [h1] at h4
    cases h4
    simp only [Atom.check, beq_iff_eq] at h5
    subst h5
    revert h2
    decide
  · rintro l ⟨⟨c, h1, h2⟩, h3⟩
    simp only [Atom.check, beq_iff_eq] at h2
    subst h2 h1
    rcases h3 with ⟨d, h4, h5⟩ | ⟨d, h4, h5⟩ | h3
    · cases h4
      revert h5
      decide
    · cases h4
      revert h5
      decide
    · exact h3

theorem plainChar_check (c : Char) : plainChar.check c = (c != '"' && c != '\\') := by
  have h1 : (('"' == c) = (c == '"')) := Bool.beq_comm
  have h2 : (('\\' == c) = (c == '\\')) := Bool.beq_comm
  simp [plainChar, Atom.check, Term.check, bne, h1, h2]

theorem loop_look (c : Char) : quotedChar.look (fun _ => true) (some c) = (c != '"') := by
  have h0 := plainChar_check c
  by_cases h1 : c = '"'
  · subst h1; decide
  · by_cases h2 : c = '\\'
    · subst h2; decide
    · rw [bne_iff_ne.mpr h1, bne_iff_ne.mpr h2] at h0
      simp [quotedChar, EREExpr.look, ERE.look, branchesLook, EREBranch.look, partsLook, EREPart.look, h0, h1]

theorem loop_plain {c : Char} (h1 : c ≠ '"') (h2 : c ≠ '\\') (g : Nat) (F : Option Char → Bool) (off : Nat) (r : List Char) :
    quotedChar.read g F off (c :: r) = some ([⟨g, off, off + charLen c⟩], off + charLen c, r) := by
  have hc : plainChar.check c = true := by simp [plainChar_check, h1, h2]
  simp [quotedChar, EREExpr.read, ERE.read, readBranches, EREBranch.look, partsLook, EREPart.look, EREExpr.look, EREBranch.read,
    readParts, EREPart.read, andThen, hc]

theorem loop_escape (g : Nat) (F : Option Char → Bool) (off : Nat) (r : List Char) :
    quotedChar.read g F off ('\\' :: r) = match r with
      | [] => none
      | d :: r' => if d = '\x00' then none else some ([⟨g, off, off + 1 + charLen d⟩], off + 1 + charLen d, r') := by
  have h1 : plainChar.check '\\' = false := by decide
  have h2 : (Atom.normal '\\').check '\\' = true := by decide
  have h3 : charLen '\\' = 1 := by decide
  cases r with
  | nil =>
    simp [quotedChar, EREExpr.read, ERE.read, readBranches, EREBranch.look, partsLook, EREPart.look, EREExpr.look, EREBranch.read,
      readParts, EREPart.read, andThen, h1, h2]
  | cons d r' =>
    by_cases hd : d = '\x00'
    · simp [quotedChar, EREExpr.read, ERE.read, readBranches, EREBranch.look, partsLook, EREPart.look, EREExpr.look, EREBranch.read,
        readParts, EREPart.read, andThen, h1, h2, hd, show Atom.dot.check '\x00' = false by decide]
    · have h4 : Atom.dot.check d = true := by simp [Atom.check, hd]
      simp [quotedChar, EREExpr.read, ERE.read, readBranches, EREBranch.look, partsLook, EREPart.look, EREExpr.look, EREBranch.read,
        readParts, EREPart.read, andThen, h1, h2, h3, h4, hd]

theorem andThen_isSome (W T : Nat → List Char → Option Reading) (S : List Span) (o : Nat) (r : List Char) :
    ((andThen W (S, o, r)).bind (andThen T)).isSome = ((W o r).bind (andThen T)).isSome := by
  cases h : W o r with
  | none => simp [andThen, h]
  | some q => simp [andThen, h]

theorem andThen_isSome1 (W : Nat → List Char → Option Reading) (S : List Span) (o : Nat) (r : List Char) :
    (andThen W (S, o, r)).isSome = (W o r).isSome := Option.isSome_map

theorem quoted_loop (g g' : Nat) (F G : Option Char → Bool) : ∀ (n : Nat) (r : List Char) (k off : Nat), r.length ≤ n → r.length ≤ k →
    ((readWhile (quotedChar.read g F) (quotedChar.look fun _ => true) k off r).bind
      (andThen (readParts [.single (.atom (.normal '"')), .end_] g' G))).isSome = closes r
  | n, [], k, off, _, _ => by
    have h : readWhile (quotedChar.read g F) (quotedChar.look fun _ => true) k off [] = some ([], off, []) := by
      cases k with
      | zero => rfl
      | succ k => exact if_neg (by simp [quotedChar, EREExpr.look, ERE.look, branchesLook, EREBranch.look, partsLook, EREPart.look])
    rw [h]
    rfl
  | n, c :: r, 0, off, _, h => by simp at h
  | 0, c :: r, k + 1, off, h, _ => by simp at h
  | n + 1, c :: r, k + 1, off, hn, h => by
    simp only [List.length_cons] at h hn
    rw [readWhile, List.head?_cons, loop_look, closes.eq_def]
    simp only []
    by_cases h1 : c = '"'
    · subst h1
      have hq : (Atom.normal '"').check '"' = true := by decide
      cases r <;> simp [readParts, EREPart.read, EREExpr.read, andThen, hq]
    · rw [if_pos (by simpa using h1), if_neg h1]
      by_cases h2 : c = '\\'
      · subst h2
        rw [if_pos rfl, loop_escape]
        cases r with
        | nil => rfl
        | cons d r' =>
          simp only [List.length_cons] at h hn
          by_cases hd : d = '\x00'
          · subst hd; rfl
          · simp only [if_neg hd, Option.bind_some]
            rw [andThen_isSome, quoted_loop g g' F G n r' k _ (by omega) (by omega)]
            simp [hd]
      · rw [if_neg h2, loop_plain h1 h2, Option.bind_some, andThen_isSome, quoted_loop g g' F G n r k _ (by omega) (by omega)]

theorem quoted_later {off : Nat} (h : off ≠ 0) : ∀ rest, quotedERE.readFrom off rest = none
  | [] => by
    have : ∀ rest, quotedERE.readAt off rest = none := by
      intro rest
      simp [ERE.readAt, quotedERE, ERE.read, readBranches, EREBranch.read, readParts, EREPart.read, h]
    exact this []
  | c :: r => by
    have : ∀ rest, quotedERE.readAt off rest = none := by
      intro rest
      simp [ERE.readAt, quotedERE, ERE.read, readBranches, EREBranch.read, readParts, EREPart.read, h]
    rw [ERE.readFrom, this]
    exact quoted_later (by omega) r

theorem quoted_read (text : List Char) : (quotedERE.readFrom 0 text).isSome = isQuoted text := by
  cases text with
  | nil => decide
  | cons c r =>
    have hl : quotedERE.readFrom (0 + charLen c) r = none := quoted_later (by have := charLen_pos c; omega) r
    rw [ERE.readFrom, hl]
    have : (quotedERE.readAt 0 (c :: r)).isSome = isQuoted (c :: r) := by
      by_cases h1 : c = '"'
      · subst h1
        have hq : (Atom.normal '"').check '"' = true := by decide
        have := quoted_loop 1 2 (fun l => partsLook [.single (.atom (.normal '"')), .end_] (fun _ => true) l ||
          quotedChar.look (fun _ => true) l) (fun _ => true) _ r r.length (charLen '"') (Nat.le_refl _) (Nat.le_refl _)
        rw [isQuoted, ← this]
        rw [ERE.readAt, Option.isSome_map, quotedERE, ERE.read, readBranches, if_pos (by rw [List.head?_cons]; decide), EREBranch.read, readParts,
          EREPart.read, if_pos rfl, Option.bind_some, andThen_isSome1, readParts, EREPart.read, EREExpr.read, if_pos hq,
          Option.bind_some, andThen_isSome1, readParts, EREPart.read, if_neg (by decide)]
        exact andThen_isSome _ _ [] _ r
      · have hq : (Atom.normal '"').check c = false := by simpa [Atom.check] using fun h => h1 h.symm
        simp [ERE.readAt, quotedERE, ERE.read, readBranches, EREBranch.look, partsLook, EREPart.look, EREExpr.look, hq, isQuoted, h1]
    cases h : quotedERE.readAt 0 (c :: r) with
    | none => rw [h] at this; simpa using this
    | some S => rw [h] at this; simpa using this

theorem quoted_framed : quotedERE.Framed true true :=
  ⟨_, rfl, fun b hb => by
    rw [List.mem_singleton] at hb
    subst hb
    exact ⟨[.single (.atom (.normal '"')), .quantified quotedChar ⟨.star, false⟩, .single (.atom (.normal '"'))], rfl, by decide, by decide⟩⟩

/-- **C86 (example: quoted strings).** `^"([^"\]|\\.)*"$` compiles, and `test` decides on every text whether it is a quoted string:
a backslash takes the next character with it, and the first quote that is not taken is the last character. -/
theorem C86_quoted (U : Utf8Seqs) {cr : List String} (hcr : "ere" ∈ cr) :
    ∃ E, compileRegex U.seqs "^\"([^\"\\]|\\\\.)*\"$".toList = .ok (some E) ∧ E.compiles cr = true ∧
      ∀ text, E.test text = .ok (isQuoted text) ∧ E.exec text = .ok ((quotedERE.readFrom 0 text).map (answerOf E.groups)) := by
  obtain ⟨E, h, hc⟩ := C86_compiles U parse_quoted quoted_framed quoted_decided (by decide) (by decide) (fun _ => by decide)
    ⟨"\"\"".toList, by rw [quoted_read]; decide⟩ hcr
  refine ⟨E, h, hc, fun text => ?_⟩
  have := C86_compile_regex U parse_quoted quoted_framed quoted_decided (by decide) h hc text
  rw [quoted_read] at this
  exact this

/-- The quote behind the backslash is taken by it; group 1 holds the last character taken. -/
example : isQuoted "\"a\\\"b\"".toList = true ∧ isQuoted "\"a\\\"".toList = false ∧ isQuoted "\"a\"b\"".toList = false ∧
    (quotedERE.readFrom 0 "\"a\\\"\"".toList).map (answerOf 2) = some [some (0, 5), some (2, 4)] := by decide

/-- `(a|ab)c`: the next character does not decide, and the reader, which takes the first branch, does not find the match. -/
example : (ERE.mk [.mk [.single (.sub (.mk [.mk [.single (.atom (.normal 'a'))],
      .mk [.single (.atom (.normal 'a')), .single (.atom (.normal 'b'))]])), .single (.atom (.normal 'c'))]]).readFrom 0 "abc".toList = none := by
  decide

/-- Not only the anchored case: `x([0-9])` is found inside a text. -/
example : ((ERE.mk [.mk [.single (.atom (.normal 'x')), .single (.sub (.mk [.mk [.single (.atom (.matching [.range '0' '9']))]]))]]).readFrom 0
      "éx7".toList).map (answerOf 2) = some [some (2, 4), some (3, 4)] := by decide

end Ere.Props
