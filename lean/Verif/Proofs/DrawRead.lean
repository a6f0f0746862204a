import Verif.Model.Draw
import Verif.Spec.Picture
import Verif.Proofs.ParseTop

/-!
# Reading the drawings back
-/

namespace Ere

theorem expect_append (p r : List Char) : expect p (p ++ r) = some r := by
  induction p with
  | nil => rfl
  | cons c p ih => simp [expect, ih]

theorem optional_append (p r : List Char) : optional p (p ++ r) = (true, r) := by
  rw [optional, expect_append]

theorem optional_none {p s : List Char} (h : expect p s = none) : optional p s = (false, s) := by
  rw [optional, h]

/-- Texts that begin with different characters. -/
theorem expect_ne {c d : Char} {p s : List Char} (h : c ≠ d) : expect (c :: p) (d :: s) = none := by
  simp [expect, h]

theorem takeWhile_digits {ds r : List Char} (h : ∀ c ∈ ds, c.isDigit = true)
    (hr : ∀ c, r.head? = some c → c.isDigit = false) :
    (ds ++ r).takeWhile Char.isDigit = ds ∧ (ds ++ r).dropWhile Char.isDigit = r := by
  induction ds with
  | nil =>
    cases r with
    | nil => simp
    | cons c r => have := hr c rfl; simp [this]
  | cons d ds ih =>
    have hd := h d (by simp)
    have := ih (fun c hc => h c (by simp [hc]))
    simp [hd, this.1, this.2]

theorem readNum_decimal {n : Nat} {r : List Char} (hr : ∀ c, r.head? = some c → c.isDigit = false) :
    readNum (decimal n ++ r) = some (n, r) := by
  obtain ⟨h1, h2, h3⟩ := decimal_spec n
  obtain ⟨t1, t2⟩ := takeWhile_digits h2 hr
  unfold readNum
  rw [t1, t2]
  cases hd : decimal n with
  | nil => exact absurd hd h1
  | cons c ds => rw [hd] at h3; simp only [h3]

theorem decimal_head (n : Nat) : ∃ c ds, decimal n = c :: ds ∧ c.isDigit = true := by
  obtain ⟨h1, h2, _⟩ := decimal_spec n
  cases hd : decimal n with
  | nil => exact absurd hd h1
  | cons c ds => exact ⟨c, ds, rfl, h2 c (by simp [hd])⟩

theorem readInt_signed {z : Int} {r : List Char} (hr : ∀ c, r.head? = some c → c.isDigit = false) :
    readInt (signed z ++ r) = some (z, r) := by
  cases z with
  | ofNat n =>
    obtain ⟨c, ds, hd, hc⟩ := decimal_head n
    have hn : c ≠ '-' := by rintro rfl; exact absurd hc (by decide)
    have h := readNum_decimal (n := n) hr
    simp only [signed]
    rw [hd] at h ⊢
    rw [List.cons_append] at h ⊢
    unfold readInt
    split
    · rename_i heq; exact absurd (List.cons.inj heq).1 hn
    · rw [h]; rfl
  | negSucc n =>
    simp only [signed, List.cons_append, readInt, readNum_decimal hr, Option.map_some]
    rfl

/-- A text that may stand in a group: reading goes through it and leaves the nesting as it was. -/
def Neutral (l : List Char) : Prop :=
  ∀ d r, readGroup d (l ++ r) = (readGroup d r).map (fun p => (l ++ p.1, p.2))

theorem Neutral.nil : Neutral [] := by
  intro d r; rw [List.nil_append]; cases readGroup d r <;> rfl

theorem Neutral.append {l m : List Char} (hl : Neutral l) (hm : Neutral m) : Neutral (l ++ m) := by
  intro d r
  rw [List.append_assoc, hl, hm]
  cases readGroup d r with
  | none => rfl
  | some p => simp

theorem Neutral.char {c : Char} (h1 : c ≠ '\\') (h2 : c ≠ '{') (h3 : c ≠ '}') : Neutral [c] := by
  intro d r
  rw [List.singleton_append]
  conv_lhs => unfold readGroup
  split
  all_goals first
    | (rename_i heq; simp at heq; done)
    | (rename_i heq; exact absurd (List.cons.inj heq).1 (by assumption))
    | (rename_i heq; obtain ⟨rfl, rfl⟩ := List.cons.inj heq; rfl)

theorem Neutral.esc (c : Char) : Neutral ['\\', c] := by
  intro d r
  simp only [List.cons_append, List.nil_append]
  conv_lhs => unfold readGroup
  rfl

theorem Neutral.group {l : List Char} (hl : Neutral l) : Neutral ('{' :: (l ++ ['}'])) := by
  intro d r
  have h1 : readGroup d ('{' :: (l ++ ['}']) ++ r) =
      (readGroup (d + 1) (l ++ ('}' :: r))).map (fun p => ('{' :: p.1, p.2)) := by
    rw [show '{' :: (l ++ ['}']) ++ r = '{' :: (l ++ ('}' :: r)) by simp]
    conv_lhs => unfold readGroup
    rfl
  have h2 : readGroup (d + 1) ('}' :: r) = (readGroup d r).map (fun p => ('}' :: p.1, p.2)) := by
    conv_lhs => unfold readGroup
    rfl
  rw [h1, hl, h2]
  cases readGroup d r with
  | none => rfl
  | some p => simp

theorem Neutral.read {l : List Char} (hl : Neutral l) (r : List Char) :
    readGroup 0 (l ++ '}' :: r) = some (l, r) := by
  have h2 : readGroup 0 ('}' :: r) = some ([], r) := by
    unfold readGroup
    rfl
  rw [hl, h2]
  simp

theorem Neutral.all {l : List Char} (h : ∀ c ∈ l, c ≠ '\\' ∧ c ≠ '{' ∧ c ≠ '}') : Neutral l := by
  induction l with
  | nil => exact .nil
  | cons c l ih =>
    have hc := h c (by simp)
    exact Neutral.append (l := [c]) (.char hc.1 hc.2.1 hc.2.2) (ih (fun d hd => h d (by simp [hd])))

theorem Neutral.decimal (n : Nat) : Neutral (decimal n) := by
  refine .all (fun c hc => ?_)
  have := (decimal_spec n).2.1 c hc
  refine ⟨?_, ?_, ?_⟩ <;> rintro rfl <;> exact absurd this (by decide)

theorem escapeLatexChar_cases (c : Char) :
    (c = '\\' ∧ escapeLatexChar c = "{\\textbackslash}".toList) ∨
    (c = '~' ∧ escapeLatexChar c = "{\\textasciitilde}".toList) ∨
    (c = '^' ∧ escapeLatexChar c = "{\\textasciicircum}".toList) ∨
    escapeLatexChar c = ['\\', c] ∨
    (escapeLatexChar c = [c] ∧ c ≠ '\\' ∧ c ≠ '{' ∧ c ≠ '}' ∧ c ≠ '$') := by
  unfold escapeLatexChar
  split
  · exact .inl ⟨rfl, rfl⟩
  · exact .inr (.inr (.inr (.inl rfl)))
  · exact .inr (.inr (.inr (.inl rfl)))
  · exact .inr (.inr (.inr (.inl rfl)))
  · exact .inr (.inr (.inr (.inl rfl)))
  · exact .inr (.inr (.inr (.inl rfl)))
  · exact .inr (.inr (.inr (.inl rfl)))
  · exact .inr (.inr (.inr (.inl rfl)))
  · exact .inr (.inl ⟨rfl, rfl⟩)
  · exact .inr (.inr (.inl ⟨rfl, rfl⟩))
  · exact .inr (.inr (.inr (.inr ⟨rfl, by assumption, by assumption, by assumption, by assumption⟩)))

theorem backslash_eq : "{\\textbackslash}".toList =
    '{' :: (['\\', 't', 'e', 'x', 't', 'b', 'a', 'c', 'k', 's', 'l', 'a', 's', 'h'] ++ ['}']) := by rfl
theorem tilde_eq : "{\\textasciitilde}".toList =
    '{' :: (['\\', 't', 'e', 'x', 't', 'a', 's', 'c', 'i', 'i', 't', 'i', 'l', 'd', 'e'] ++ ['}']) := by rfl
theorem circum_eq : "{\\textasciicircum}".toList =
    '{' :: (['\\', 't', 'e', 'x', 't', 'a', 's', 'c', 'i', 'i', 'c', 'i', 'r', 'c', 'u', 'm'] ++ ['}']) := by
  rfl

theorem Neutral.word {c : Char} {l : List Char} (h : ∀ c ∈ l, c ≠ '\\' ∧ c ≠ '{' ∧ c ≠ '}') :
    Neutral ('{' :: (('\\' :: c :: l) ++ ['}'])) :=
  .group (Neutral.append (l := ['\\', c]) (.esc c) (.all h))

theorem Neutral.escapeLatexChar (c : Char) : Neutral (escapeLatexChar c) := by
  rcases escapeLatexChar_cases c with ⟨_, h⟩ | ⟨_, h⟩ | ⟨_, h⟩ | h | ⟨h, h1, h2, h3, _⟩
  · rw [h, backslash_eq]; exact .word (by decide)
  · rw [h, tilde_eq]; exact .word (by decide)
  · rw [h, circum_eq]; exact .word (by decide)
  · rw [h]; exact .esc c
  · rw [h]; exact .char h1 h2 h3

theorem Neutral.escapeLatex (s : List Char) : Neutral (escapeLatex s) := by
  induction s with
  | nil => exact .nil
  | cons c s ih => exact .append (.escapeLatexChar c) ih

theorem escapeLatexChar_tex (c : Char) :
    (c = '\\' ∧ escapeLatexChar c = "{\\textbackslash}".toList) ∨
    (c = '~' ∧ escapeLatexChar c = "{\\textasciitilde}".toList) ∨
    (c = '^' ∧ escapeLatexChar c = "{\\textasciicircum}".toList) ∨
    (c ∈ ['&', '%', '$', '#', '_', '{', '}'] ∧ escapeLatexChar c = ['\\', c]) ∨
    (c ∉ texSpecials ∧ escapeLatexChar c = [c]) := by
  unfold escapeLatexChar
  split
  · exact .inl ⟨rfl, rfl⟩
  · exact .inr (.inr (.inr (.inl ⟨by decide, rfl⟩)))
  · exact .inr (.inr (.inr (.inl ⟨by decide, rfl⟩)))
  · exact .inr (.inr (.inr (.inl ⟨by decide, rfl⟩)))
  · exact .inr (.inr (.inr (.inl ⟨by decide, rfl⟩)))
  · exact .inr (.inr (.inr (.inl ⟨by decide, rfl⟩)))
  · exact .inr (.inr (.inr (.inl ⟨by decide, rfl⟩)))
  · exact .inr (.inr (.inr (.inl ⟨by decide, rfl⟩)))
  · exact .inr (.inl ⟨rfl, rfl⟩)
  · exact .inr (.inr (.inl ⟨rfl, rfl⟩))
  · refine .inr (.inr (.inr (.inr ⟨?_, rfl⟩)))
    simp only [texSpecials, List.mem_cons, List.not_mem_nil, or_false, not_or]
    exact ⟨by assumption, by assumption, by assumption, by assumption, by assumption, by assumption, by assumption,
      by assumption, by assumption, by assumption⟩

theorem texShows_plain {c : Char} (h : c ∉ texSpecials) (r : List Char) :
    texShows (c :: r) = (texShows r).map (c :: ·) := by
  have h1 : c ≠ '\\' := by rintro rfl; exact h (by decide)
  have h2 : c ≠ '{' := by rintro rfl; exact h (by decide)
  conv_lhs => unfold texShows
  split
  all_goals first
    | (rename_i heq; simp at heq; done)
    | (rename_i heq; exact absurd (List.cons.inj heq).1 (by assumption))
    | (rename_i heq; obtain ⟨rfl, rfl⟩ := List.cons.inj heq; rw [if_neg h])

theorem texShows_char (c : Char) (r : List Char) :
    texShows (Ere.escapeLatexChar c ++ r) = (texShows r).map (c :: ·) := by
  rcases escapeLatexChar_tex c with ⟨hc, h⟩ | ⟨hc, h⟩ | ⟨hc, h⟩ | ⟨hc, h⟩ | ⟨hc, h⟩
  · rw [h, backslash_eq, hc]; rfl
  · rw [h, tilde_eq, hc]; rfl
  · rw [h, circum_eq, hc]; rfl
  · rw [h, List.cons_append, List.singleton_append, texShows, if_pos hc]
  · rw [h, List.singleton_append, texShows_plain hc]

/-- Escaping loses nothing. -/
theorem texShows_escapeLatex (s : List Char) : texShows (Ere.escapeLatex s) = some s := by
  induction s with
  | nil => rfl
  | cons c s ih =>
    show texShows (Ere.escapeLatexChar c ++ Ere.escapeLatex s) = _
    rw [texShows_char, ih]
    rfl

theorem lit1 : ", initial".toList = [',', ' ', 'i', 'n', 'i', 't', 'i', 'a', 'l'] := by rfl
theorem lit2 : ", accepting".toList = [',', ' ', 'a', 'c', 'c', 'e', 'p', 't', 'i', 'n', 'g'] := by rfl
theorem lit3 : ", right of=q".toList = [',', ' ', 'r', 'i', 'g', 'h', 't', ' ', 'o', 'f', '=', 'q'] := by rfl
theorem lit4 : "](q".toList = [']', '(', 'q'] := by rfl
theorem lit5 : "](q0){".toList = "](q".toList ++ (decimal 0 ++ (")".toList ++ "{".toList)) := by
  rw [decimal]; rfl
theorem lit6 : "){".toList = ")".toList ++ "{".toList := by rfl
theorem lit7 : ") at (".toList = ")".toList ++ " at (".toList := by rfl
theorem lit8 : ") {".toList = ") ".toList ++ "{".toList := by rfl
theorem lit9 : "};\n".toList = '}' :: ";\n".toList := by rfl

theorem readFlags (s : GState) {r : List Char} (h1 : expect ", initial".toList r = none)
    (h2 : expect ", accepting".toList r = none) :
    optional ", initial".toList (s.modifiers ++ r) =
      (s.initial, (if s.accept then ", accepting".toList else []) ++ r) ∧
    optional ", accepting".toList ((if s.accept then ", accepting".toList else []) ++ r) = (s.accept, r) := by
  constructor
  · rw [GState.modifiers, List.append_assoc]
    cases s.initial
    · rw [if_neg (by decide), List.nil_append]
      cases s.accept
      · rw [if_neg (by decide), List.nil_append, optional_none h1]
      · rw [if_pos rfl, optional_none]
        rw [lit1, lit2]; rfl
    · rw [if_pos rfl, optional_append]
  · cases s.accept
    · rw [if_neg (by decide), List.nil_append, optional_none h2]
    · rw [if_pos rfl, optional_append]

theorem notDigit_of {c : Char} {r : List Char} (h : c.isDigit = false) :
    ∀ d, (c :: r).head? = some d → d.isDigit = false := by
  intro d hd
  cases hd
  exact h

/-- Reading a node line, from the options on. -/
theorem readNode_rest (s : GState) (idx : Nat) {R T r l : List Char} {pl pl' : Place}
    (h1 : expect ", initial".toList R = none) (h2 : expect ", accepting".toList R = none)
    (h3 : readRight R = some (pl, "](q".toList ++ (decimal idx ++ (")".toList ++ T))))
    (h4 : readAt pl T = some (pl', "{".toList ++ (l ++ '}' :: (";\n".toList ++ r)))) (hl : Neutral l) :
    readNode ("\\node[state".toList ++ (s.modifiers ++ R)) =
      some (⟨idx, s.initial, s.accept, pl', l⟩, r) := by
  unfold readNode
  rw [expect_append]
  obtain ⟨f1, f2⟩ := readFlags s h1 h2
  simp only [Option.bind_eq_bind, Option.bind_some, f1, f2, h3, expect_append]
  rw [readNum_decimal (hr := by exact notDigit_of (c := ')') rfl)]
  simp only [Option.bind_some, expect_append, h4, hl.read]
  rfl

theorem readRight_none (r : List Char) : readRight ("](q".toList ++ r) = some (.origin, "](q".toList ++ r) := by
  rw [readRight, show expect ", right of=q".toList ("](q".toList ++ r) = none by rw [lit3, lit4]; rfl]

theorem readRight_some (k : Nat) (r : List Char) :
    readRight (", right of=q".toList ++ (decimal k ++ ("](q".toList ++ r))) =
      some (.rightOf k, "](q".toList ++ r) := by
  rw [readRight, expect_append]
  simp only
  rw [readNum_decimal (hr := by exact notDigit_of (c := ']') rfl)]
  rfl

theorem readAt_none (pl : Place) (r : List Char) :
    readAt pl ("{".toList ++ r) = some (pl, "{".toList ++ r) := by
  rw [readAt, show expect " at (".toList ("{".toList ++ r) = none by rfl]

theorem readAt_some (pl : Place) (x y : Int) (r : List Char) :
    readAt pl (" at (".toList ++ (signed x ++ (", ".toList ++ (signed y ++ (") ".toList ++ r))))) =
      some (.at x y, r) := by
  rw [readAt, expect_append]
  simp only
  rw [readInt_signed (hr := by exact notDigit_of (c := ',') rfl)]
  simp only [Option.bind_eq_bind, Option.bind_some, expect_append]
  rw [readInt_signed (hr := by exact notDigit_of (c := ')') rfl)]
  simp only [Option.bind_some, expect_append]
  rfl

theorem readNode_inLine (s : GState) (idx : Nat) (r : List Char) :
    readNode (s.displayInLine idx ++ r) =
      some (⟨idx, s.initial, s.accept, if idx = 0 then .origin else .rightOf (idx - 1),
        escapeLatex s.label⟩, r) := by
  unfold GState.displayInLine
  by_cases h : idx = 0
  · subst h
    rw [if_pos rfl, if_pos rfl, lit5, lit9]
    simp only [List.append_assoc, List.cons_append]
    exact readNode_rest s 0 (by rw [lit1, lit4]; rfl) (by rw [lit2, lit4]; rfl) (readRight_none _)
      (readAt_none _ _) (.escapeLatex _)
  · rw [if_neg h, if_neg h, lit6, lit9]
    simp only [List.append_assoc, List.cons_append]
    exact readNode_rest s idx (by rw [lit1, lit3]; rfl) (by rw [lit2, lit3]; rfl) (readRight_some _ _)
      (readAt_none _ _) (.escapeLatex _)

theorem readNode_at (s : GState) (idx : Nat) (x y : Int) (r : List Char) :
    readNode (s.displayAt idx x y ++ r) =
      some (⟨idx, s.initial, s.accept, .at x y, escapeLatex s.label⟩, r) := by
  unfold GState.displayAt
  rw [lit7, lit8, lit9]
  simp only [List.append_assoc, List.cons_append]
  exact readNode_rest s idx (by rw [lit1, lit4]; rfl) (by rw [lit2, lit4]; rfl) (readRight_none _)
    (readAt_some _ _ _ _) (.escapeLatex _)

theorem lit10 : "} (q".toList = '}' :: " (q".toList := by rfl
theorem lit11 : " node {".toList = " ".toList ++ "node {".toList := by rfl
theorem lit12 : ") edge node {".toList = ") edge ".toList ++ "node {".toList := by rfl

theorem readShape_bent (r : List Char) : readShape ("[bend left] ".toList ++ r) = (.bent, r) := by
  rw [readShape, expect_append]

theorem readShape_loop (r : List Char) : readShape ("[loop below]".toList ++ r) = (.loop, r) := by
  rw [readShape, show expect "[bend left] ".toList ("[loop below]".toList ++ r) = none by rfl, expect_append]

theorem readShape_straight (r : List Char) :
    readShape ("node {".toList ++ r) = (.straight, "node {".toList ++ r) := by
  rw [readShape, show expect "[bend left] ".toList ("node {".toList ++ r) = none by rfl,
    show expect "[loop below]".toList ("node {".toList ++ r) = none by rfl]

/-- Reading an edge line, from the shape on. -/
theorem readEdge_rest (src dst : Nat) {R T r l : List Char} {sh : EdgeShape} {b : Bool}
    (h1 : readShape R = (sh, T)) (h2 : optional " ".toList T =
      (b, "node {".toList ++ (l ++ '}' :: (" (q".toList ++ (decimal dst ++ (");\n".toList ++ r))))))
    (hl : Neutral l) :
    readEdge ("\\path[->] (q".toList ++ (decimal src ++ (") edge ".toList ++ R))) =
      some (⟨src, sh, l, dst⟩, r) := by
  unfold readEdge
  rw [expect_append]
  simp only [Option.bind_eq_bind, Option.bind_some]
  rw [readNum_decimal (hr := by exact notDigit_of (c := ')') rfl)]
  simp only [Option.bind_some, expect_append, h1, h2, hl.read]
  rw [readNum_decimal (hr := by exact notDigit_of (c := ')') rfl)]
  simp only [Option.bind_some, expect_append]
  rfl

theorem readEdge_inLine (t : GTrans) (src : Nat) (r : List Char) (hl : Neutral t.label) :
    readEdge (t.displayInLine src ++ r) =
      some (⟨src, if t.dst = src then .loop else .bent, t.label, t.dst⟩, r) := by
  unfold GTrans.displayInLine
  rw [lit10, lit11]
  simp only [List.append_assoc, List.cons_append]
  by_cases h : t.dst = src
  · rw [if_pos h, if_pos h]
    exact readEdge_rest src t.dst (readShape_loop _) (optional_append _ _) hl
  · rw [if_neg h, if_neg h]
    exact readEdge_rest src t.dst (readShape_bent _) (optional_append _ _) hl

theorem readEdge_straight (t : GTrans) (src : Nat) (r : List Char) (hl : Neutral t.label) :
    readEdge (t.displayStraight src ++ r) = some (⟨src, .straight, t.label, t.dst⟩, r) := by
  unfold GTrans.displayStraight
  rw [lit10, lit12]
  simp only [List.append_assoc, List.cons_append]
  exact readEdge_rest src t.dst (readShape_straight _) (optional_none rfl) hl

end Ere
