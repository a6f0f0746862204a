import Verif.Spec.Quoted
import Verif.Props.Delimited

/-!
# C89: the pattern for quoted strings

`"((\\"|[^"])*)"` (`tests/pure_regex.rs` 330–368): a backslash is matched by both alternatives, the closing quotation mark may be an
escaped one if there is no other.
-/

namespace Ere.Props

/-- `(\\"|[^"])`. -/
def pieceExpr : EREExpr :=
  .sub (.mk [.mk [.single (.atom (.normal '\\')), .single (.atom (.normal '"'))], .mk [.single (.atom (.nonmatching [.single '"']))]])

/-- `((\\"|[^"])*)`. -/
def piecesPart : EREPart := .single (.sub (.mk [.mk [.quantified pieceExpr ⟨.star, false⟩]]))

/-- `"((\\"|[^"])*)"`. -/
def escapedERE : ERE := .mk [.mk [.single (.atom (.normal '"')), piecesPart, .single (.atom (.normal '"'))]]

theorem parse_escapedERE : parseStr "\"((\\\\\"|[^\"])*)\"".toList = .ok escapedERE := by
  have h1 : SpellsExpr pieceExpr "(\\\\\"|[^\"])".toList :=
    .sub (w := "\\\\\"|[^\"]".toList) (.more (w := "\\\\\"".toList) (v := "[^\"]".toList)
      (.cons (w := "\\\\".toList) (v := ['"']) (.single (.atom (.escaped (by decide))))
        (.cons (w := ['"']) (v := []) (.single (.atom (.plain (by decide)))) .nil))
      (.one (.cons (w := "[^\"]".toList) (v := []) (.single (.atom (.nonmatching (w := ['"', ']']) (.plain (by decide)
        (.single (by decide) (by decide) (by rintro ⟨k, hk⟩; cases k <;> simp [classText] at hk) .close))))) .nil)))
  have h2 : SpellsPart piecesPart "((\\\\\"|[^\"])*)".toList :=
    .single (.sub (w := "(\\\\\"|[^\"])*".toList) (.one (.cons (w := "(\\\\\"|[^\"])*".toList) (v := [])
      (.quantified (w := "(\\\\\"|[^\"])".toList) (v := ['*']) h1 (.greedy .star)) .nil)))
  exact parseStr_iff.mpr (.one (.cons (w := ['"']) (v := "((\\\\\"|[^\"])*)\"".toList) (.single (.atom (.plain (by decide))))
    (.cons (w := "((\\\\\"|[^\"])*)".toList) (v := ['"']) h2
      (.cons (w := ['"']) (v := []) (.single (.atom (.plain (by decide)))) .nil))))

/-! ## What the reader means -/

theorem q_quote (r : List Char) : quotedBody ('"' :: r) = some [] := by
  unfold quotedBody; rfl

theorem q_esc (r : List Char) : quotedBody ('\\' :: '"' :: r) = ((quotedBody r).map (['\\', '"'] :: ·)).or (some [['\\']]) := by
  conv => lhs; unfold quotedBody
  rfl

theorem q_other {x : Char} {r : List Char} (h1 : x ≠ '"') (h2 : x = '\\' → r.head? ≠ some '"') :
    quotedBody (x :: r) = (quotedBody r).map ([x] :: ·) := by
  conv => lhs; unfold quotedBody
  rw [if_neg h1]
  by_cases hx : x = '\\'
  · rw [if_pos hx]
    subst hx
    cases r with
    | nil => simp [quotedBody]
    | cons y r =>
      have : y ≠ '"' := by simpa using h2 rfl
      simp only [if_neg this]
  · rw [if_neg hx]

/-- The four cases. -/
theorem quoted_ind {P : List Char → Prop} (h0 : P []) (h1 : ∀ r, P ('"' :: r)) (h2 : ∀ r, P r → P ('\\' :: '"' :: r))
    (h3 : ∀ x r, x ≠ '"' → (x = '\\' → r.head? ≠ some '"') → P r → P (x :: r)) : ∀ rest, P rest
  | [] => h0
  | [x] => by
    by_cases hx : x = '"'
    · subst hx; exact h1 []
    · exact h3 x [] hx (by simp) h0
  | x :: y :: r => by
    by_cases hx : x = '"'
    · subst hx; exact h1 _
    · by_cases hy : x = '\\' ∧ y = '"'
      · obtain ⟨rfl, rfl⟩ := hy
        exact h2 r (quoted_ind h0 h1 h2 h3 r)
      · exact h3 x (y :: r) hx (fun h => by simpa using fun h' => hy ⟨h, h'⟩) (quoted_ind h0 h1 h2 h3 (y :: r))

/-- **C89 (when nothing is found).** A string is read exactly if there is another quotation mark. -/
theorem C89_closed (rest : List Char) : (quotedBody rest).isSome = true ↔ '"' ∈ rest := by
  induction rest using quoted_ind with
  | h0 => simp [quotedBody]
  | h1 r => simp [q_quote]
  | h2 r ih =>
    rw [q_esc]
    cases quotedBody r <;> simp
  | h3 x r h1 h2 ih =>
    rw [q_other h1 h2, Option.isSome_map, ih]
    simp [Ne.symm h1]

theorem quoted_split : ∀ {rest : List Char} {ps}, quotedBody rest = some ps → ∃ post, rest = ps.flatten ++ '"' :: post := by
  intro rest
  induction rest using quoted_ind with
  | h0 => intro ps h; simp [quotedBody] at h
  | h1 r =>
    intro ps h
    rw [q_quote] at h
    cases h
    exact ⟨r, rfl⟩
  | h2 r ih =>
    intro ps h
    rw [q_esc] at h
    cases hb : quotedBody r with
    | none =>
      rw [hb] at h
      cases h
      exact ⟨r, rfl⟩
    | some qs =>
      rw [hb] at h
      cases h
      obtain ⟨post, hp⟩ := ih hb
      exact ⟨post, by conv => lhs; rw [hp]
                      simp⟩
  | h3 x r h1 h2 ih =>
    intro ps h
    rw [q_other h1 h2] at h
    obtain ⟨qs, hb, rfl⟩ := Option.map_eq_some_iff.mp h
    obtain ⟨post, hp⟩ := ih hb
    exact ⟨post, by conv => lhs; rw [hp]
                    simp⟩

/-- A quotation mark that is not escaped, behind `w`. -/
def BareAt (rest w post : List Char) : Prop := rest = w ++ '"' :: post ∧ w.getLast? ≠ some '\\'

/-- **C89 (the closing quotation mark).** If there is a quotation mark without a backslash in front, the string ends at the first
such. -/
theorem C89_first_bare : ∀ {rest w post : List Char}, BareAt rest w post → ∃ ps post', quotedBody rest = some ps ∧
    BareAt rest ps.flatten post' ∧ ps.flatten.length ≤ w.length := by
  intro rest
  induction rest using quoted_ind with
  | h0 => intro w post h; simp [BareAt] at h
  | h1 r =>
    intro w post h
    exact ⟨[], r, q_quote r, ⟨rfl, by simp⟩, by simp⟩
  | h2 r ih =>
    rintro w post ⟨h1, h2⟩
    match w, h1, h2 with
    | [], h1, _ => simp at h1
    | [y], h1, h2 =>
      simp only [List.cons_append, List.nil_append, List.cons.injEq] at h1
      rw [← h1.1] at h2
      simp at h2
    | y :: y' :: w, h1, h2 =>
      simp only [List.cons_append, List.cons.injEq] at h1
      obtain ⟨rfl, rfl, h1⟩ := h1
      obtain ⟨ps, post', k1, ⟨k2, k3⟩, k4⟩ := ih (w := w) (post := post) ⟨h1, by
        cases w with
        | nil => simp
        | cons z w => simpa using h2⟩
      refine ⟨['\\', '"'] :: ps, post', by rw [q_esc, k1]; rfl, ⟨?_, ?_⟩, ?_⟩
      · conv => lhs; rw [k2]
        simp
      · rw [List.flatten_cons]
        cases hf : ps.flatten with
        | nil => simp
        | cons z u => rw [hf] at k3; simpa using k3
      · simpa using k4
  | h3 x r h1 h2 ih =>
    rintro w post ⟨k1, k2⟩
    cases w with
    | nil =>
      simp only [List.nil_append, List.cons.injEq] at k1
      exact absurd k1.1 h1
    | cons y w =>
      simp only [List.cons_append, List.cons.injEq] at k1
      obtain ⟨rfl, k1⟩ := k1
      obtain ⟨ps, post', k3, ⟨k4, k5⟩, k6⟩ := ih (w := w) (post := post) ⟨k1, by
        cases w with
        | nil => simp
        | cons z w => simpa using k2⟩
      refine ⟨[x] :: ps, post', by rw [q_other h1 h2, k3]; rfl, ⟨?_, ?_⟩, ?_⟩
      · conv => lhs; rw [k4]
        simp
      · rw [List.flatten_cons]
        cases hf : ps.flatten with
        | nil =>
          rw [hf] at k4
          simp only [List.append_nil, List.getLast?_singleton, ne_eq, Option.some.injEq]
          intro hx
          exact h2 hx (by rw [k4]; rfl)
        | cons z u => rw [hf] at k5; simpa using k5
      · simpa using k6

/-- **C89 (the closing quotation mark, if all are escaped).** Otherwise it ends at the last one. -/
theorem C89_last_escaped : ∀ {rest : List Char} {ps}, (∀ w post, ¬ BareAt rest w post) → quotedBody rest = some ps →
    ∃ post, rest = ps.flatten ++ '"' :: post ∧ '"' ∉ post := by
  intro rest
  induction rest using quoted_ind with
  | h0 => intro ps _ h; simp [quotedBody] at h
  | h1 r =>
    intro ps hn _
    exact absurd ⟨rfl, by simp⟩ (hn [] r)
  | h2 r ih =>
    intro ps hn h
    rw [q_esc] at h
    cases hb : quotedBody r with
    | none =>
      rw [hb] at h
      cases h
      refine ⟨r, rfl, fun hm => ?_⟩
      have := (C89_closed r).mpr hm
      rw [hb] at this
      cases this
    | some qs =>
      rw [hb] at h
      cases h
      obtain ⟨post, hp, hq⟩ := ih (fun w post hw => hn ('\\' :: '"' :: w) post ⟨by rw [hw.1]; rfl, by
        cases w with
        | nil => simp
        | cons z w => simpa using hw.2⟩) hb
      exact ⟨post, by conv => lhs; rw [hp]
                      simp, hq⟩
  | h3 x r h1 h2 ih =>
    intro ps hn h
    rw [q_other h1 h2] at h
    obtain ⟨qs, hb, rfl⟩ := Option.map_eq_some_iff.mp h
    obtain ⟨post, hp, hq⟩ := ih (fun w post hw => hn (x :: w) post ⟨by rw [hw.1]; rfl, by
        cases w with
        | nil =>
          simp only [List.getLast?_singleton, ne_eq, Option.some.injEq]
          intro hx
          exact h2 hx (by rw [hw.1]; rfl)
        | cons z w => simpa using hw.2⟩) hb
    exact ⟨post, by conv => lhs; rw [hp]
                    simp, hq⟩

/-! ## The order of preference -/

theorem try_piece_nil (off : Nat) (sp : List Span) : tryExpr pieceExpr 2 ⟨off, [], sp⟩ = [] := by
  simp [pieceExpr, tryExpr, tryERE, tryBranches, tryBranch, tryParts, tryPart]

theorem try_piece_quote (off : Nat) (r : List Char) (sp : List Span) : tryExpr pieceExpr 2 ⟨off, '"' :: r, sp⟩ = [] := by
  simp [pieceExpr, tryExpr, tryERE, tryBranches, tryBranch, tryParts, tryPart, Atom.check, Term.check]

theorem try_piece_esc (off : Nat) (r : List Char) (sp : List Span) : tryExpr pieceExpr 2 ⟨off, '\\' :: '"' :: r, sp⟩ =
    [⟨off + 2, r, sp ++ [⟨2, off, off + 2⟩]⟩, ⟨off + 1, '"' :: r, sp ++ [⟨2, off, off + 1⟩]⟩] := by
  have h1 : charLen '\\' = 1 := by decide
  have h2 : charLen '"' = 1 := by decide
  simp [pieceExpr, tryExpr, tryERE, tryBranches, tryBranch, tryParts, tryPart, Atom.check, Term.check, h1, h2]

theorem try_piece_other (off : Nat) {x : Char} {r : List Char} (sp : List Span) (h1 : x ≠ '"')
    (h2 : x = '\\' → r.head? ≠ some '"') : tryExpr pieceExpr 2 ⟨off, x :: r, sp⟩ =
    [⟨off + charLen x, r, sp ++ [⟨2, off, off + charLen x⟩]⟩] := by
  have k1 : (Atom.nonmatching [.single '"']).check x = true := by
    simp [Atom.check, Term.check]; exact Ne.symm h1
  by_cases hx : x = '\\'
  · subst hx
    cases r with
    | nil => simp [pieceExpr, tryExpr, tryERE, tryBranches, tryBranch, tryParts, tryPart, Atom.check, Term.check]
    | cons y r =>
      have : ¬ '"' = y := by have := h2 rfl; simp at this; exact Ne.symm this
      simp [pieceExpr, tryExpr, tryERE, tryBranches, tryBranch, tryParts, tryPart, Atom.check, Term.check, this]
  · have k2 : (Atom.normal '\\').check x = false := by simp [Atom.check]; exact Ne.symm hx
    simp [pieceExpr, tryExpr, tryERE, tryBranches, tryBranch, tryParts, tryPart, k1, k2]

/-- The stretches of the pieces. -/
def pieceSpans (off : Nat) : List (List Char) → List Span
  | [] => []
  | w :: ps => ⟨2, off, off + byteLen w⟩ :: pieceSpans (off + byteLen w) ps

theorem try_pieces {K : Pos → List Pos} {R : Pos → Pos} (hK : ∀ p, K p = if ['"'].isPrefixOf p.rest then [R p] else []) :
    ∀ (rest : List Char) (k off : Nat) (sp : List Span), rest.length ≤ k →
    ((optTimes (tryExpr pieceExpr 2) true k ⟨off, rest, sp⟩).flatMap K).head? =
      (quotedBody rest).map fun ps => R ⟨off + byteLen ps.flatten, rest.drop ps.flatten.length, sp ++ pieceSpans off ps⟩ := by
  have hq : ∀ k off r sp, optTimes (tryExpr pieceExpr 2) true k ⟨off, '"' :: r, sp⟩ = [⟨off, '"' :: r, sp⟩] := by
    intro k off r sp
    cases k with
    | zero => rfl
    | succ k => simp [optTimes, try_piece_quote]
  intro rest
  induction rest using quoted_ind with
  | h0 =>
    intro k off sp _
    have h0 : optTimes (tryExpr pieceExpr 2) true k ⟨off, [], sp⟩ = [⟨off, [], sp⟩] := by
      cases k with
      | zero => rfl
      | succ k => simp [optTimes, try_piece_nil]
    simp [h0, hK, quotedBody]
  | h1 r =>
    intro k off sp _
    simp [hq, hK, q_quote, pieceSpans, byteLen]
  | h2 r ih =>
    intro k off sp hk
    obtain ⟨k, rfl⟩ : ∃ k', k = k' + 1 := ⟨k - 1, by simp at hk; omega⟩
    have hd : K ⟨off, '\\' :: '"' :: r, sp⟩ = [] := by rw [hK]; simp
    have hb : byteLen ['\\', '"'] = 2 := by decide
    have hb1 : byteLen ['\\'] = 1 := by decide
    have := ih k (off + 2) (sp ++ [⟨2, off, off + 2⟩]) (by simp at hk; omega)
    simp only [optTimes, if_true, try_piece_esc, List.flatMap_append, List.flatMap_cons, List.flatMap_nil, List.append_nil, hd, hq,
      List.head?_append, this, q_esc]
    rw [hK]
    cases quotedBody r with
    | none => simp [pieceSpans, hb1]
    | some ps =>
      have hl : (List.flatten (['\\', '"'] :: ps)).length = ps.flatten.length + 1 + 1 := by
        rw [List.flatten_cons, List.length_append, List.length_cons, List.length_cons, List.length_nil]; omega
      have hf : byteLen (List.flatten (['\\', '"'] :: ps)) = 2 + byteLen ps.flatten := by rw [List.flatten_cons, byteLen_append, hb]
      simp only [Option.map_some, Option.some_or, hl, hf, List.drop_succ_cons, pieceSpans, hb, Nat.add_assoc, List.append_assoc,
        List.cons_append, List.nil_append]
  | h3 x r h1 h2 ih =>
    intro k off sp hk
    obtain ⟨k, rfl⟩ : ∃ k', k = k' + 1 := ⟨k - 1, by simp at hk; omega⟩
    have hd : K ⟨off, x :: r, sp⟩ = [] := by rw [hK]; simp [Ne.symm h1]
    have hb : byteLen [x] = charLen x := by simp [byteLen]
    have := ih k (off + charLen x) (sp ++ [⟨2, off, off + charLen x⟩]) (by simpa using hk)
    simp only [optTimes, if_true, try_piece_other off sp h1 h2, List.flatMap_append, List.flatMap_cons, List.flatMap_nil,
      List.append_nil, hd, this, q_other h1 h2, Option.map_map]
    congr 1
    funext ps
    have hl : (List.flatten ([x] :: ps)).length = ps.flatten.length + 1 := by
      rw [List.flatten_cons, List.length_append, List.length_cons, List.length_nil]; omega
    have hf : byteLen (List.flatten ([x] :: ps)) = charLen x + byteLen ps.flatten := by rw [List.flatten_cons, byteLen_append, hb]
    simp only [Function.comp_apply, hl, hf, List.drop_succ_cons, pieceSpans, hb, Nat.add_assoc, List.append_assoc,
      List.cons_append, List.nil_append]

/-- The stretches that belong to an answer. -/
def quotedSpans (off : Nat) : List Char → Option (List Span)
  | [] => none
  | x :: r => if x = '"' then (quotedBody r).map fun ps =>
      pieceSpans (off + 1) ps ++ [⟨1, off + 1, off + 1 + byteLen ps.flatten⟩] ++ [⟨0, off, off + 1 + byteLen ps.flatten + 1⟩]
    else none

theorem try_quoted (off : Nat) (rest : List Char) :
    ((tryERE escapedERE 1 ⟨off, rest, []⟩).head?.map fun p => p.spans ++ [⟨0, off, p.off⟩]) = quotedSpans off rest := by
  have hl : charLen '"' = 1 := by decide
  have hE : escapedERE = .mk [.mk (litParts ['"'] ++ piecesPart :: litParts ['"'])] := rfl
  have hb : byteLen ['"'] = 1 := by decide
  rw [hE, tryERE, tryBranches, tryBranches, List.append_nil, tryBranch, try_lit_append]
  cases rest with
  | nil => simp [quotedSpans]
  | cons x r =>
    rw [quotedSpans]
    by_cases hx : x = '"'
    · subst hx
      rw [if_pos (by simp), if_pos rfl, tryParts]
      have hp : ∀ p : Pos, tryPart piecesPart 1 p = (optTimes (tryExpr pieceExpr 2) true p.rest.length p).map fun q =>
          ⟨q.off, q.rest, q.spans ++ [⟨1, p.off, q.off⟩]⟩ := by
        intro p
        rw [piecesPart, tryPart, tryExpr, tryERE, tryBranches, tryBranches, tryBranch]
        have h2 : tryParts [] (1 + 1 + (EREPart.quantified pieceExpr ⟨.star, false⟩).groups) = fun q => [q] :=
          funext fun q => by rw [tryParts]
        rw [tryParts, tryPart, h2]
        simp [QType.min, QType.max, times]
      rw [hp, List.flatMap_map]
      have := try_pieces (K := fun q => tryParts (litParts ['"']) (1 + piecesPart.groups)
          ⟨q.off, q.rest, q.spans ++ [⟨1, off + byteLen ['"'], q.off⟩]⟩) (fun p => try_lit ['"'] _ _)
        r r.length (off + byteLen ['"']) [] (Nat.le_refl _)
      refine (congrArg (Option.map _) this).trans ?_
      rw [Option.map_map]
      congr 1
    · rw [if_neg (by simpa using Ne.symm hx), if_neg hx]
      rfl

theorem first_quoted (text : List Char) : escapedERE.first text = scanSpans quotedSpans 0 text := by
  rw [ERE.first, firstFrom_scan try_quoted]

theorem last_piece : ∀ (ps : List (List Char)) (off : Nat) (T : List Span), (∀ s ∈ T, s.group ≠ 2) →
    lastSpan (pieceSpans off ps ++ T) 2 = lastPiece off ps := by
  have hT : ∀ (S T : List Span), (∀ s ∈ T, s.group ≠ 2) → lastSpan (S ++ T) 2 = lastSpan S 2 := by
    intro S T hT
    unfold lastSpan
    rw [List.reverse_append, List.find?_append]
    have : T.reverse.find? (fun s => s.group == 2) = none := by
      rw [List.find?_eq_none]
      intro s hs
      simpa using hT s (List.mem_reverse.mp hs)
    rw [this]; rfl
  intro ps off T h
  rw [hT _ _ h]
  induction ps generalizing off with
  | nil => rfl
  | cons w ps ih =>
    cases ps with
    | nil => simp [pieceSpans, lastSpan, lastPiece]
    | cons v ps =>
      rw [lastPiece, ← ih (off + byteLen w), pieceSpans]
      unfold lastSpan
      rw [List.reverse_cons, List.find?_append]
      have : ((pieceSpans (off + byteLen w) (v :: ps)).reverse.find? (fun s => s.group == 2)).isSome = true := by
        rw [List.find?_isSome]
        exact ⟨⟨2, off + byteLen w, off + byteLen w + byteLen v⟩, by simp [pieceSpans], rfl⟩
      obtain ⟨s, hs⟩ := Option.isSome_iff_exists.mp this
      rw [hs]; rfl

theorem quoted_answer : ∀ (rest : List Char) (off : Nat), (scanSpans quotedSpans off rest).map (answerOf 3) =
    (onceSplit ['"'] rest).bind fun ab => (quotedBody ab.2).map fun ps =>
      [some (off + byteLen ab.1, off + byteLen ab.1 + 1 + byteLen ps.flatten + 1),
        some (off + byteLen ab.1 + 1, off + byteLen ab.1 + 1 + byteLen ps.flatten), lastPiece (off + byteLen ab.1 + 1) ps]
  | [], off => rfl
  | x :: r, off => by
    have ih := quoted_answer r (off + charLen x)
    rw [scanSpans, onceSplit, quotedSpans]
    by_cases hx : x = '"'
    · subst hx
      rw [if_pos rfl, if_pos (by simp)]
      cases hb : quotedBody r with
      | some ps =>
        have h2 := last_piece ps (off + 1) ([⟨1, off + 1, off + 1 + byteLen ps.flatten⟩] ++
          [⟨0, off, off + 1 + byteLen ps.flatten + 1⟩]) (by simp)
        have hr : List.range 3 = [0, 1, 2] := rfl
        simp only [Option.map_some, Option.bind_some, List.length_cons, List.length_nil, List.drop_succ_cons, List.drop_zero, hb,
          answerOf, hr, List.map_cons, List.map_nil, List.append_assoc, h2]
        simp [lastSpan, byteLen]
      | none =>
        have hn : '"' ∉ r := fun hm => by
          have := (C89_closed r).mpr hm
          rw [hb] at this; cases this
        have h0 : onceSplit ['"'] r = none := by
          cases ho : onceSplit ['"'] r with
          | none => rfl
          | some ab =>
            have := once_some ho
            exact absurd (by rw [this]; simp) hn
        rw [h0] at ih
        simp only [Option.map_none, ih, Option.bind_some, Option.bind_none, List.length_cons, List.length_nil, List.drop_succ_cons,
          List.drop_zero, hb]
    · rw [if_neg hx, if_neg (by simpa using Ne.symm hx), ih]
      cases onceSplit ['"'] r with
      | none => rfl
      | some ab =>
        simp only [Option.map_some, Option.bind_some, byteLen_cons, Nat.add_assoc]

theorem first_quotedIn (text : List Char) : (escapedERE.first text).map (answerOf 3) = quotedIn text := by
  rw [first_quoted, quoted_answer, quotedIn]
  simp only [Nat.zero_add]

theorem framed_quoted : escapedERE.Framed false false := by
  refine ⟨_, rfl, fun b hb => ?_⟩
  rw [List.mem_singleton] at hb
  subst hb
  exact ⟨[.single (.atom (.normal '"')), piecesPart, .single (.atom (.normal '"'))], rfl, by decide, by decide⟩

theorem quoted_shape : escapedERE.atomsAll plainAtom = true ∧ escapedERE.progress = true ∧ escapedERE.groups = 2 ∧
    escapedERE.hasStart = false := by decide +kernel

theorem quoted_lastUsed : LastUsed escapedERE := by
  have h : escapedERE.first "\"a\"".toList = some [⟨2, 1, 2⟩, ⟨1, 1, 2⟩, ⟨0, 0, 3⟩] := by rw [first_quoted]; decide +kernel
  exact ⟨_, _, h, by rw [quoted_shape.2.2.1]; decide⟩

theorem quoted_matches : ∃ text, escapedERE.MatchesIn text := by
  obtain ⟨text, S, h, _⟩ := quoted_lastUsed
  exact ⟨text, (first_isSome quoted_shape.2.1 text).mp (by rw [h]; rfl)⟩

/-! ## C89 -/

/-- **C89.** The pattern `"((\\"|[^"])*)"` of the tests. `compile_regex!` gives a program, it compiles, and on every text `exec` reports the
string from the first quotation mark to its closing one, as group 1 what is between them, and as group 2 its last piece: the last
character, or `\"`; nothing for the empty string. -/
theorem C89_quoted (U : Utf8Seqs) {cr : List String} (hcr : "ere" ∈ cr) :
    ∃ E, compileRegex U.seqs "\"((\\\\\"|[^\"])*)\"".toList = .ok (some E) ∧ E.compiles cr = true ∧ E.groups = 3 ∧
      ∀ text, E.test text = .ok (quotedIn text).isSome ∧ E.exec text = .ok (quotedIn text) := by
  have hp := parse_escapedERE
  have hF := framed_quoted
  obtain ⟨hat, hg, hgr, hns⟩ := quoted_shape
  have hex := quoted_matches
  obtain ⟨E, h⟩ := C17_compile_returns_partial U hp hex
  have hE := compileRegex_ok hp h
  have hc : E.compiles cr = true := by
    cases hc : E.compiles cr with
    | true => rfl
    | false =>
      obtain ⟨_, hx⟩ := (C62_framed_compiles_iff U hp hF hat h hcr).mp hc
      rcases hx with ⟨_, h2, _⟩ | ⟨h1, _⟩
      · cases h2
      · exact absurd (unbounded_of_open (.inl hns) hex) h1
  have hG : E.groups = 3 := by
    rw [C29_compile_regex_partial U hg quoted_lastUsed hE hc fun _ _ => framed_startSimple hF, hgr]
  refine ⟨E, h, hc, hG, fun text => ⟨?_, ?_⟩⟩
  · obtain ⟨b, h1, h2⟩ := (C65_framed U hp hF h hc).test text
    rw [h1, Bool.eq_iff_iff.mpr (h2.trans (first_isSome hg text).symm), ← first_quotedIn, Option.isSome_map]
  · rw [← first_quotedIn]
    rcases C65_framed_preferred U hp hF hg h hc (fun k => by cases k) text with ⟨h1, h2⟩ | ⟨r, S, h1, h2, h3, h4⟩
    · rw [h1, h2]; rfl
    · rw [h1, h2, answerOf_eq (h3.trans hG) h4]; rfl

/-- **C89 (attribute macro).** The same for the macro on a struct with three fields. -/
theorem C89_attribute (U : Utf8Seqs) {cr : List String} (hcr : "ere" ∈ cr) :
    ∃ A, compileAttr U.seqs "\"((\\\\\"|[^\"])*)\"".toList 3 = .ok (some A) ∧ A.compiles cr = true ∧
      ∀ text, A.test text = .ok (quotedIn text).isSome ∧ A.exec text = .ok (quotedIn text) := by
  obtain ⟨E, hE, hc, hG, hx⟩ := C89_quoted U hcr
  obtain ⟨_, hg, hgr, _⟩ := quoted_shape
  obtain ⟨A, h1, h2, h3⟩ := attr_of_regex U parse_escapedERE framed_quoted hg quoted_lastUsed hE hc
  rw [hgr] at h1
  exact ⟨A, h1, h2, fun text => by rw [(h3 text).1, (h3 text).2]; exact hx text⟩

/-- **C89 (the engines one by one).** The macros that the test uses. -/
theorem C89_engines (U : Utf8Seqs) : (∀ F, compileFlatChar escapedERE = .ok F → ∀ text, F.exec text text = .ok (quotedIn text)) ∧
    (∀ F, compileFlatU8 U.seqs escapedERE = .ok F → ∀ text, F.exec text (encode text) = .ok (quotedIn text)) ∧
    ∀ G, compileDfaU8 U.seqs escapedERE = .ok (some G) → ∀ text, G.tdfa.exec text (encode text) = .ok (quotedIn text) := by
  obtain ⟨_, hg, hgr, _⟩ := quoted_shape
  have hF := framed_quoted
  have hu := quoted_lastUsed
  have hev := framed_evenAnchors ((C43_parser_grammar _ _).mp parse_escapedERE) hF
  obtain ⟨N, M, k1, k2, k3, k4⟩ := C29_groups_exact_partial U _ (lastUsed_captures hu)
  rw [hgr] at k3 k4
  have key : ∀ {k text res}, k = 3 → FirstOk escapedERE text k res → res = .ok (quotedIn text) := by
    intro k text res hk h
    rw [← first_quotedIn]
    rcases h with ⟨h1, h2⟩ | ⟨r, S, h1, h2, h3, h4⟩
    · rw [h1, h2]; rfl
    · rw [h1, h2, answerOf_eq (h3.trans hk) h4]; rfl
  refine ⟨fun F h text => key ?_ (C46_flat_char_partial hg hev h text), fun F h text => key ?_ (C46_flat_u8_partial U hg hev h text),
    fun G h text => key ?_ (C46_dfa_partial U hg (framed_startSimple hF) h text)⟩
  · unfold compileFlatChar at h
    rw [k1] at h
    rw [compileFlat_groups h, k3]
  · unfold compileFlatU8 at h
    rw [k2] at h
    rw [compileFlat_groups h, k4]
  · rw [C29_dfa_exact_partial U hg (framed_startSimple hF) hu h, hgr]

/-- non-vacuity: an escaped quotation mark inside, one that has to close the string, the empty string. -/
example : quotedIn "é \"a\\\"c\" \"".toList = some [some (3, 9), some (4, 8), some (7, 8)] ∧
    quotedIn "\"a\\\"c".toList = some [some (0, 4), some (1, 3), some (2, 3)] ∧
    quotedIn "\"a\\\"\"".toList = some [some (0, 5), some (1, 4), some (2, 4)] ∧
    quotedIn "\"\"".toList = some [some (0, 2), some (1, 1), none] ∧ quotedIn "a\"b".toList = none := by decide +kernel

end Ere.Props
