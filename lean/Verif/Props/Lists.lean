import Verif.Spec.Lists
import Verif.Props.Fields
import Verif.Props.Language

/-! # C85: lists with a separator -/

namespace Ere.Props

open scoped Computability
open Language

/-! ## The patterns -/

/-- A further item: the separator and the item. -/
def furtherERE (sep : Char) (ps : List EREPart) : ERE := .mk [.mk (.single (.atom (.normal sep)) :: ps)]

/-- `^item(sep item)q$`. -/
def listERE (sep : Char) (q : QType) (ps : List EREPart) : ERE :=
  .mk [.mk (.start :: (ps ++ [.quantified (.sub (furtherERE sep ps)) ⟨q, false⟩, .end_]))]

/-! ## Splitting -/

theorem pieces_free {sep : Char} : ∀ {w : List Char}, sep ∉ w → pieces sep w = [w]
  | [], _ => rfl
  | c :: w, h => by
    rw [pieces, if_neg (fun k => h (by simp [k])), pieces_free fun k => h (List.mem_cons_of_mem _ k)]

theorem pieces_sep {sep : Char} : ∀ {w : List Char}, sep ∉ w → ∀ r, pieces sep (w ++ sep :: r) = w :: pieces sep r
  | [], _, r => by rw [List.nil_append, pieces, if_pos rfl]
  | c :: w, h, r => by
    rw [List.cons_append, pieces, if_neg (fun k => h (by simp [k])), pieces_sep fun k => h (List.mem_cons_of_mem _ k)]

theorem pieces_list {sep : Char} : ∀ {w : List Char} {ws : List (List Char)}, sep ∉ w → (∀ v ∈ ws, sep ∉ v) →
    pieces sep (w ++ (ws.map (sep :: ·)).flatten) = w :: ws
  | w, [], hw, _ => by simp [pieces_free hw]
  | w, v :: ws, hw, h => by
    rw [List.map_cons, List.flatten_cons, List.cons_append, pieces_sep hw,
      pieces_list (h v (by simp)) fun u hu => h u (List.mem_cons_of_mem _ hu)]

/-- The pieces with the separators between them are the text. -/
theorem pieces_join (sep : Char) : ∀ text, ∃ w ws, pieces sep text = w :: ws ∧ text = w ++ (ws.map (sep :: ·)).flatten
  | [] => ⟨[], [], rfl, rfl⟩
  | c :: r => by
    obtain ⟨w, ws, h1, h2⟩ := pieces_join sep r
    rw [pieces]
    split
    · rename_i h
      subst h
      exact ⟨[], w :: ws, by rw [h1], by simp [← h2]⟩
    · exact ⟨c :: w, ws, by rw [h1], by simp [← h2]⟩

/-! ## The language of a list -/

theorem one_lang (ps : List EREPart) : (ERE.mk [.mk ps]).lang = partsLang ps := by
  rw [ERE.lang, branchesLang, branchesLang, EREBranch.lang, add_zero]

theorem sep_lang (sep : Char) (ps : List EREPart) (w : List Char) :
    w ∈ (furtherERE sep ps).lang ↔ ∃ v ∈ partsLang ps, w = sep :: v := by
  rw [furtherERE, one_lang, partsLang, mem_mul]
  constructor
  · rintro ⟨a, ⟨c, hc, rfl⟩, v, hv, rfl⟩
    have : c = sep := by
      have := (C75_atoms _ _).2 hc
      simp only [Atom.check, beq_iff_eq] at this
      exact this.symm
    subst this
    exact ⟨v, hv, rfl⟩
  · rintro ⟨v, hv, rfl⟩
    exact ⟨[sep], ⟨sep, (C75_atoms _ _).1 (by simp [Atom.check]), rfl⟩, v, hv, rfl⟩

theorem list_lang {sep : Char} {q : QType} {ps : List EREPart} (hs : ∀ w ∈ (ERE.mk [.mk ps]).lang, sep ∉ w) (text : List Char) :
    text ∈ (listERE sep q ps).lang ↔ (∀ w ∈ pieces sep text, w ∈ (ERE.mk [.mk ps]).lang) ∧
      q.min + 1 ≤ (pieces sep text).length ∧ ∀ m, q.max = some m → (pieces sep text).length ≤ m + 1 := by
  have hl : (listERE sep q ps).lang = partsLang ps * q.lang (furtherERE sep ps).lang := by
    rw [listERE, one_lang, partsLang, partsLang_append, partsLang, partsLang, partsLang]
    simp only [EREPart.lang, one_mul, mul_one, EREExpr.lang]
  rw [one_lang] at hs ⊢
  rw [hl, mem_mul]
  constructor
  · rintro ⟨w, hw, r, hr, rfl⟩
    obtain ⟨n, h1, h2, h3⟩ := mem_qlang.mp hr
    obtain ⟨S, rfl, h4, h5⟩ := mem_pow.mp h3
    have : ∃ ws : List (List Char), S = ws.map (sep :: ·) ∧ ∀ v ∈ ws, v ∈ partsLang ps := by
      clear h4 h3 hr
      induction S with
      | nil => exact ⟨[], rfl, by simp⟩
      | cons y S ih =>
        obtain ⟨v, hv, rfl⟩ := (sep_lang _ _ _).mp (h5 y (by simp))
        obtain ⟨ws, rfl, hws⟩ := ih fun z hz => h5 z (List.mem_cons_of_mem _ hz)
        exact ⟨v :: ws, rfl, by simpa using ⟨hv, hws⟩⟩
    obtain ⟨ws, rfl, hws⟩ := this
    rw [pieces_list (hs _ hw) fun v hv => hs v (hws v hv)]
    rw [List.length_map] at h4
    subst h4
    refine ⟨by simpa using ⟨hw, hws⟩, by simpa using h1, fun m hm => by simpa using h2 m hm⟩
  · rintro ⟨h1, h2, h3⟩
    obtain ⟨w, ws, e1, e2⟩ := pieces_join sep text
    rw [e1] at h1 h2 h3
    refine ⟨w, h1 w (by simp), _, mem_qlang.mpr ⟨ws.length, by simpa using h2, fun m hm => by simpa using h3 m hm,
      mem_pow.mpr ⟨ws.map (sep :: ·), rfl, by simp, ?_⟩⟩, e2.symm⟩
    intro y hy
    obtain ⟨v, hv, rfl⟩ := List.mem_map.mp hy
    exact (sep_lang _ _ _).mpr ⟨v, h1 v (List.mem_cons_of_mem _ hv), rfl⟩

theorem noStart_append {ps qs : List EREPart} : partsHaveStart (ps ++ qs) = (partsHaveStart ps || partsHaveStart qs) := by
  induction ps with
  | nil => rfl
  | cons p ps ih => rw [List.cons_append, partsHaveStart, partsHaveStart, ih, Bool.or_assoc]

theorem noEnd_append {ps qs : List EREPart} : partsHaveEnd (ps ++ qs) = (partsHaveEnd ps || partsHaveEnd qs) := by
  induction ps with
  | nil => rfl
  | cons p ps ih => rw [List.cons_append, partsHaveEnd, partsHaveEnd, ih, Bool.or_assoc]

theorem list_framed {sep : Char} {q : QType} {ps : List EREPart} (h1 : partsHaveStart ps = false) (h2 : partsHaveEnd ps = false) :
    (listERE sep q ps).Framed true true := by
  refine ⟨_, rfl, fun b hb => ?_⟩
  rw [List.mem_singleton] at hb
  refine ⟨ps ++ [.quantified (.sub (furtherERE sep ps)) ⟨q, false⟩], by rw [hb]; simp, ?_, ?_⟩
  · rw [noStart_append, h1]
    simp [partsHaveStart, EREPart.hasStart, EREExpr.hasStart, ERE.hasStart, branchesHaveStart, EREBranch.hasStart, furtherERE, h1]
  · rw [noEnd_append, h2]
    simp [partsHaveEnd, EREPart.hasEnd, EREExpr.hasEnd, ERE.hasEnd, branchesHaveEnd, EREBranch.hasEnd, furtherERE, h2]

theorem list_matches {sep : Char} {q : QType} {ps : List EREPart} (h1 : partsHaveStart ps = false) (h2 : partsHaveEnd ps = false)
    (text : List Char) : (listERE sep q ps).MatchesIn text ↔ text ∈ (listERE sep q ps).lang := by
  rw [framed_matchesIn (list_framed h1 h2), show beside true = 1 from rfl, one_mul, mul_one]

/-! ## C85 -/

/-- **C85.** Let `ps` be an item: parts without anchors, none of whose strings contains the character `sep`. If the program that
`compile_regex!` emits for `^ps(sep ps)q$` compiles, its `test` splits the text at `sep`, checks every piece against `ps`, and
compares the number of separators with the bounds of `q`. -/
theorem C85_list (U : Utf8Seqs) {sep : Char} {q : QType} {ps : List EREPart} (h1 : partsHaveStart ps = false)
    (h2 : partsHaveEnd ps = false) (hs : ∀ w ∈ (ERE.mk [.mk ps]).lang, sep ∉ w) {p : List Char}
    (hp : parseStr p = .ok (listERE sep q ps)) {E : Engine} (h : compileRegex U.seqs p = .ok (some E)) {cr : List String}
    (hc : E.compiles cr = true) (text : List Char) : ∃ b, E.test text = .ok b ∧
      (b = true ↔ (∀ w ∈ pieces sep text, w ∈ (ERE.mk [.mk ps]).lang) ∧ q.min + 1 ≤ (pieces sep text).length ∧
        ∀ m, q.max = some m → (pieces sep text).length ≤ m + 1) := by
  obtain ⟨b, k1, k2⟩ := C76_compile_regex U hp (list_framed h1 h2) h hc text
  rw [show beside true = 1 from rfl, one_mul, mul_one, list_lang hs] at k2
  exact ⟨b, k1, k2⟩

/-- **C85 (the program compiles).** If moreover there are such lists, the empty string is not an item, the classes are neither
`[:graph:]` nor `[:xdigit:]`, and the length of the list is not bounded or the text determines what the groups capture, then
`compile_regex!` gives a program and it compiles. -/
theorem C85_compiles (U : Utf8Seqs) {sep : Char} {q : QType} {ps : List EREPart} (h1 : partsHaveStart ps = false)
    (h2 : partsHaveEnd ps = false) (hs : ∀ w ∈ (ERE.mk [.mk ps]).lang, sep ∉ w) (ha : partsAtoms plainAtom ps = true)
    (hb : ∀ m, q.max = some m → q.min ≤ m) (hi : ∃ w, w ∈ (ERE.mk [.mk ps]).lang) (he : [] ∉ (ERE.mk [.mk ps]).lang)
    (hr : q.max = none ∨ (listERE sep q ps).OneReading) {p : List Char} (hp : parseStr p = .ok (listERE sep q ps)) {cr : List String}
    (hcr : "ere" ∈ cr) : ∃ E, compileRegex U.seqs p = .ok (some E) ∧ E.compiles cr = true := by
  obtain ⟨w, hw⟩ := hi
  have hin : ∀ n, q.min ≤ n → (∀ m, q.max = some m → n ≤ m) →
      (listERE sep q ps).MatchesIn (w ++ ((List.replicate n w).map (sep :: ·)).flatten) := by
    intro n hn hm
    rw [list_matches h1 h2, list_lang hs, pieces_list (hs w hw) fun v hv => by rw [List.eq_of_mem_replicate hv]; exact hs w hw]
    refine ⟨fun v hv => ?_, by simpa using hn, fun m k => by simpa using hm m k⟩
    rcases List.mem_cons.mp hv with rfl | hv
    · exact hw
    · rw [List.eq_of_mem_replicate hv]; exact hw
  obtain ⟨E, h⟩ := C17_compile_returns_partial U hp ⟨_, hin q.min (Nat.le_refl _) hb⟩
  refine ⟨E, h, ?_⟩
  cases hc : E.compiles cr with
  | true => rfl
  | false =>
    exfalso
    have hat : (listERE sep q ps).atomsAll plainAtom = true := by
      have happ : ∀ (as bs : List EREPart), partsAtoms plainAtom (as ++ bs) = (partsAtoms plainAtom as && partsAtoms plainAtom bs) := by
        intro as bs
        induction as with
        | nil => simp [partsAtoms]
        | cons a as ih => rw [List.cons_append, partsAtoms, partsAtoms, ih, Bool.and_assoc]
      have hsep : plainAtom (.normal sep) = true := rfl
      simp [listERE, furtherERE, ERE.atomsAll, branchesAtoms, EREBranch.atomsAll, partsAtoms, EREPart.atomsAll, EREExpr.atomsAll,
        happ, ha, hsep]
    obtain ⟨_, hx⟩ := (C62_framed_compiles_iff U hp (list_framed h1 h2) hat h hcr).mp hc
    rcases hx with ⟨_, _, h3⟩ | ⟨k1, k2⟩
    · rw [list_matches h1 h2, list_lang hs] at h3
      exact he (h3.1 [] (by simp [pieces]))
    · rcases hr with hr | hr
      · apply k1
        intro n
        obtain ⟨S, hS⟩ := captures_matchesIn.mpr (hin (q.min + n) (by omega) (by simp [hr]))
        refine ⟨_, S, hS, ?_⟩
        have hlen : ∀ k, k ≤ (((List.replicate k w).map (sep :: ·)).flatten).length := by
          intro k
          induction k with
          | zero => simp
          | succ k ih => rw [List.replicate_succ, List.map_cons, List.flatten_cons, List.length_append, List.length_cons]; omega
        have := hlen (q.min + n)
        rw [List.length_append]
        omega
      · exact k2 hr

/-! ## Items that are read field by field -/

theorem fields_lang {xs : List FieldPat} (hpo : ∀ x ∈ xs, x.field.possible) (hse : separated (xs.map FieldPat.field)) (w : List Char) :
    w ∈ (ERE.mk [.mk (xs.map FieldPat.part)]).lang ↔ Consists (xs.map FieldPat.field) w := by
  have hl : (fieldsERE true true xs).lang = (ERE.mk [.mk (xs.map FieldPat.part)]).lang := by
    rw [fieldsERE, one_lang, one_lang, fieldParts, partsLang_append, partsLang_append]
    simp [partsLang, EREPart.lang]
  have h := framed_matchesIn (framed_fields true true xs) w
  rw [show beside true = 1 from rfl, one_mul, mul_one, hl, ← first_isSome (fields_progress true true xs), first_fields hpo hse] at h
  rw [← h, ← C82_whole hse w, ← spansText_answer (field_groups xs), Option.isSome_map]

theorem consists_free {c : Char} {fs : List Field} (h : ∀ f ∈ fs, f.ok c = false) {w : List Char} (hw : Consists fs w) : c ∉ w := by
  induction hw with
  | nil => simp
  | cons h1 _ ih =>
    rename_i f fs w rest _
    intro hc
    rcases List.mem_append.mp hc with hc | hc
    · have := h1.1 c hc
      rw [h f (by simp)] at this
      cases this
    · exact ih (fun g hg => h g (List.mem_cons_of_mem _ hg)) hc

theorem consists_exists : ∀ {fs : List Field}, (∀ f ∈ fs, f.possible) → ∃ w, Consists fs w
  | [], _ => ⟨[], .nil⟩
  | f :: fs, h => by
    obtain ⟨w, hw⟩ := consists_exists fun g hg => h g (List.mem_cons_of_mem _ hg)
    obtain ⟨k1, k2⟩ := h f (by simp)
    by_cases h0 : f.least = 0
    · exact ⟨[] ++ w, .cons ⟨by simp, by simp [h0], by simp⟩ hw⟩
    · obtain ⟨c, hc⟩ := k2 h0
      exact ⟨List.replicate f.least c ++ w, .cons ⟨fun d hd => by rw [List.eq_of_mem_replicate hd]; exact hc, by simp,
        fun m hm => by simpa using k1 m hm⟩ hw⟩

theorem consists_notEmpty {fs : List Field} (h : ∃ f ∈ fs, f.least ≠ 0) : ¬ Consists fs [] := by
  have key : ∀ {w : List Char}, Consists fs w → w ≠ [] := by
    intro w hw
    induction hw with
    | nil => simp at h
    | cons h1 _ ih =>
      rename_i f fs w rest _
      intro he
      obtain ⟨rfl, rfl⟩ := List.append_eq_nil_iff.mp he
      obtain ⟨g, hg, h2⟩ := h
      rcases List.mem_cons.mp hg with rfl | hg
      · have := h1.2.1
        simp at this
        exact h2 this
      · exact ih ⟨g, hg, h2⟩ rfl
  exact fun hw => key hw rfl

theorem partsSee_append (ps qs : List EREPart) (F : Sight → Prop) : partsSee (ps ++ qs) F = partsSee ps (partsSee qs F) := by
  induction ps with
  | nil => rw [List.nil_append]; funext l; rfl
  | cons p ps ih => funext l; rw [List.cons_append, partsSee, partsSee, ih]

theorem partsDecided_append (ps qs : List EREPart) (F : Sight → Prop) :
    partsDecided (ps ++ qs) F ↔ partsDecided ps (partsSee qs F) ∧ partsDecided qs F := by
  induction ps with
  | nil => simp [partsDecided]
  | cons p ps ih => rw [List.cons_append, partsDecided, partsDecided, ih, partsSee_append, and_assoc]

theorem fieldPart_decided {x : FieldPat} {F : Sight → Prop}
    (h : x.field.most = some x.field.least ∨ ∀ c, x.field.ok c = true → ¬ F (some c)) : x.part.Decided F := by
  have hbase : x.base.Decided F := by
    obtain ⟨a, q, grp⟩ := x
    cases q with
    | none => exact trivial
    | some q =>
      refine ⟨trivial, ?_⟩
      rcases h with h | h
      · exact .inl h
      · refine .inr ?_
        rintro l ⟨h1, c, rfl, h2⟩
        exact h c h2 h1
  unfold FieldPat.part
  split
  · exact ⟨by simp, ⟨hbase, trivial⟩, trivial⟩
  · exact hbase

theorem items_see {F : Sight → Prop} {l : Sight} : ∀ {xs : List FieldPat}, partsSee (xs.map FieldPat.part) F l →
    F l ∨ ∃ c, l = some c ∧ mayBegin (xs.map FieldPat.field) c = true
  | [], h => .inl h
  | x :: xs, h => by
    rcases part_sees (x := x) h with ⟨c, h1, h2⟩ | ⟨h1, h2⟩
    · exact .inr ⟨c, h1, by simp [mayBegin, h2]⟩
    · rcases items_see h2 with h | ⟨c, h3, h4⟩
      · exact .inl h
      · exact .inr ⟨c, h3, by simp [mayBegin, h1, h4]⟩

theorem items_decided {F : Sight → Prop} : ∀ {xs : List FieldPat}, separated (xs.map FieldPat.field) →
    (∀ x ∈ xs, ∀ c, x.field.ok c = true → ¬ F (some c)) → partsDecided (xs.map FieldPat.part) F
  | [], _, _ => trivial
  | x :: xs, hs, hF => by
    refine ⟨fieldPart_decided ?_, items_decided hs.2 fun y hy => hF y (List.mem_cons_of_mem _ hy)⟩
    rcases hs.1 with h | h
    · exact .inl h
    · refine .inr fun c hc k => ?_
      rcases items_see k with k | ⟨d, k1, k2⟩
      · exact hF x (by simp) c hc k
      · cases k1
        rw [h c hc] at k2
        cases k2

theorem further_sees {sep : Char} {ps : List EREPart} {F : Sight → Prop} {l : Sight}
    (h : (EREExpr.sub (furtherERE sep ps)).sees F l) : l = some sep := by
  simp only [furtherERE, EREExpr.sees, ERE.sees, branchesSee, EREBranch.sees, partsSee, EREPart.sees, or_false] at h
  obtain ⟨c, h1, h2⟩ := h
  simp only [Atom.check, beq_iff_eq] at h2
  rw [h1, h2]

theorem list_decided {sep : Char} {q : QType} {xs : List FieldPat} (hse : separated (xs.map FieldPat.field))
    (hsp : ∀ x ∈ xs, x.field.ok sep = false) : (listERE sep q (xs.map FieldPat.part)).Decided fun _ => True := by
  have hno : ∀ {F : Sight → Prop}, (∀ l, F l → l = none ∨ l = some sep) → partsDecided (xs.map FieldPat.part) F := by
    intro F hF
    refine items_decided hse fun x hx c hc k => ?_
    rcases hF _ k with k | k
    · cases k
    · cases k
      rw [hsp x hx] at hc
      cases hc
  refine ⟨by simp, ⟨trivial, (partsDecided_append _ _ _).mpr ⟨hno ?_, ⟨⟨?_, .inr ?_⟩, trivial, trivial⟩⟩⟩, trivial⟩
  · intro l hl
    rcases hl with ⟨_, hl⟩ | ⟨_, hl⟩
    · exact .inl hl.1
    · exact .inr (further_sees hl)
  · refine ⟨by simp, ⟨trivial, hno ?_⟩, trivial⟩
    intro l hl
    rcases hl with hl | hl
    · exact .inl hl.1
    · exact .inr (further_sees hl)
  · rintro l ⟨h1, h2⟩
    have := h1.1
    rw [further_sees h2] at this
    cases this

theorem list_oneReading {sep : Char} {q : QType} {xs : List FieldPat} (hse : separated (xs.map FieldPat.field))
    (hsp : ∀ x ∈ xs, x.field.ok sep = false) : (listERE sep q (xs.map FieldPat.part)).OneReading := by
  have h0 : ∀ {text S}, (listERE sep q (xs.map FieldPat.part)).Captures text S → ∃ j, lastSpan S 0 = some (0, j) := by
    rintro text S ⟨pre, mid, post, S', _, h, rfl⟩
    have h := capERE_one.mp h
    obtain ⟨m1, m2, S1, S2, _, _, h1, _⟩ := capBranch_cons.mp h
    obtain ⟨rfl, _⟩ := capPart_start.mp h1
    exact ⟨_, by rw [lastSpan_whole]; rfl⟩
  intro text S S' h h' g
  obtain ⟨j, hj⟩ := h0 h
  obtain ⟨j', hj'⟩ := h0 h'
  rw [C73_one_way (list_decided hse hsp) h h' hj hj']

/-- **C85 (fields).** Let an item be a sequence of classes with quantifiers as in C82, none of which contains `sep`, and let it
demand a character. Then `compile_regex!` gives a program for `^item(sep item)q$`, it compiles, and its `test` splits the text at
`sep`, checks that every piece consists of strings for the fields, and compares the number of separators with the bounds of `q`. -/
theorem C85_fields (U : Utf8Seqs) {sep : Char} {q : QType} {xs : List FieldPat} (hpo : ∀ x ∈ xs, x.field.possible)
    (hse : separated (xs.map FieldPat.field)) (hne : ∃ x ∈ xs, x.field.least ≠ 0) (hpl : ∀ x ∈ xs, plainAtom x.atom = true)
    (hsp : ∀ x ∈ xs, x.field.ok sep = false) (hb : ∀ m, q.max = some m → q.min ≤ m) {p : List Char}
    (hp : parseStr p = .ok (listERE sep q (xs.map FieldPat.part))) {cr : List String} (hcr : "ere" ∈ cr) :
    ∃ E, compileRegex U.seqs p = .ok (some E) ∧ E.compiles cr = true ∧ ∀ text, ∃ b, E.test text = .ok b ∧
      (b = true ↔ (∀ w ∈ pieces sep text, Consists (xs.map FieldPat.field) w) ∧ q.min + 1 ≤ (pieces sep text).length ∧
        ∀ m, q.max = some m → (pieces sep text).length ≤ m + 1) := by
  have hmem : ∀ f ∈ xs.map FieldPat.field, f.possible := by
    intro f hf
    obtain ⟨x, hx, rfl⟩ := List.mem_map.mp hf
    exact hpo x hx
  have hl := fields_lang hpo hse
  have hs : ∀ w ∈ (ERE.mk [.mk (xs.map FieldPat.part)]).lang, sep ∉ w := by
    intro w hw
    refine consists_free ?_ ((hl w).mp hw)
    intro f hf
    obtain ⟨x, hx, rfl⟩ := List.mem_map.mp hf
    exact hsp x hx
  have ha : partsAtoms plainAtom (xs.map FieldPat.part) = true := by
    have := fields_atoms (s := false) (t := false) hpl
    simpa [fieldsERE, fieldParts, ERE.atomsAll, branchesAtoms, EREBranch.atomsAll] using this
  obtain ⟨w, hw⟩ := consists_exists hmem
  obtain ⟨E, h1, h2⟩ := C85_compiles U (fields_noStart xs) (fields_noEnd xs) hs ha hb ⟨w, (hl w).mpr hw⟩
    (fun k => consists_notEmpty (by obtain ⟨x, h1, h2⟩ := hne; exact ⟨_, List.mem_map_of_mem h1, h2⟩) ((hl []).mp k))
    (.inr (list_oneReading hse hsp)) hp hcr
  refine ⟨E, h1, h2, fun text => ?_⟩
  obtain ⟨b, k1, k2⟩ := C85_list U (fields_noStart xs) (fields_noEnd xs) hs hp h1 h2 text
  refine ⟨b, k1, k2.trans ?_⟩
  simp only [hl]

/-! ## What is reported -/

theorem lastSep_free {sep : Char} : ∀ {w : List Char} {off : Nat}, sep ∉ w → lastSep sep off w = none
  | [], _, _ => rfl
  | c :: w, off, h => by
    rw [lastSep, lastSep_free fun k => h (List.mem_cons_of_mem _ k)]
    exact if_neg fun k => h (by simp [k])

theorem lastSep_at {sep : Char} {v : List Char} (h : sep ∉ v) : ∀ (a : List Char) (off : Nat),
    lastSep sep off (a ++ sep :: v) = some (off + byteLen a)
  | [], off => by
    rw [List.nil_append, lastSep, lastSep_free h]
    simp [byteLen]
  | c :: a, off => by
    rw [List.cons_append, lastSep, lastSep_at h a, byteLen_cons, Nat.add_assoc]

theorem capBranch_append {qs : List EREPart} : ∀ {ps : List EREPart} {g : Nat} {pre mid post : List Char} {S : List Span},
    CapBranch (.mk (ps ++ qs)) g pre mid post S → ∃ m1 m2 S1 S2, mid = m1 ++ m2 ∧ S = S1 ++ S2 ∧
      CapBranch (.mk ps) g pre m1 (m2 ++ post) S1 ∧ CapBranch (.mk qs) (g + groupsParts ps) (pre ++ m1) m2 post S2
  | [], g, pre, mid, post, S, h => ⟨[], mid, [], S, rfl, rfl, .nil, by simpa [groupsParts] using h⟩
  | p :: ps, g, pre, mid, post, S, h => by
    obtain ⟨m1, m2, S1, S2, rfl, rfl, h1, h2⟩ := capBranch_cons.mp h
    obtain ⟨n1, n2, T1, T2, rfl, rfl, k1, k2⟩ := capBranch_append h2
    refine ⟨m1 ++ n1, n2, S1 ++ T1, T2, by simp, by simp, .cons (by simpa using h1) k1, ?_⟩
    rw [groupsParts, ← Nat.add_assoc, ← List.append_assoc]
    exact k2

/-- The last round of the repetition. -/
theorem times_last {sep : Char} {ps : List EREPart} {g : Nat} : ∀ {n : Nat} {pre mid post : List Char} {S : List Span},
    CapTimes (.sub (furtherERE sep ps)) n g pre mid post S → (n = 0 ∧ mid = [] ∧ S = []) ∨
      ∃ a v, mid = a ++ sep :: v ∧ v ∈ partsLang ps ∧ lastSpan S g = some (byteLen (pre ++ a), byteLen (pre ++ mid))
  | 0, _, _, _, _, h => by cases h; exact .inl ⟨rfl, rfl, rfl⟩
  | n + 1, pre, _, post, _, h => by
    cases h with
    | @succ _ _ _ _ m1 m2 _ S1 S2 h1 h2 =>
      refine .inr ?_
      rcases times_last h2 with ⟨rfl, rfl, rfl⟩ | ⟨a, v, rfl, hv, hl⟩
      · have hm := h1.matches.lang
        rw [EREExpr.lang, sep_lang] at hm
        obtain ⟨v, hv, rfl⟩ := hm
        obtain ⟨S', rfl, _⟩ := capExpr_sub.mp h1
        refine ⟨[], v, by simp, hv, ?_⟩
        rw [lastSpan_append, lastSpan_append]
        simp [lastSpan]
      · refine ⟨m1 ++ a, v, by simp, hv, ?_⟩
        rw [lastSpan_append, hl]
        simp

/-- **C85 (what is reported).** If the program compiles, `exec` finds something exactly where `test` says so; it then reports the
whole text as group 0, and for the parentheses of the further items the stretch from the last separator to the end of the text,
or nothing if there is no separator. -/
theorem C85_groups (U : Utf8Seqs) {sep : Char} {q : QType} {ps : List EREPart} (h1 : partsHaveStart ps = false)
    (h2 : partsHaveEnd ps = false) (hs : ∀ w ∈ (ERE.mk [.mk ps]).lang, sep ∉ w) {p : List Char}
    (hp : parseStr p = .ok (listERE sep q ps)) {E : Engine} (h : compileRegex U.seqs p = .ok (some E)) {cr : List String}
    (hc : E.compiles cr = true) (text : List Char) :
    (E.test text = .ok false ∧ E.exec text = .ok none) ∨ ∃ r, E.test text = .ok true ∧ E.exec text = .ok (some r) ∧
      r[0]?.join = some (0, byteLen text) ∧
      r[groupsParts ps + 1]?.join = (lastSep sep 0 text).map fun i => (i, byteLen text) := by
  have hok := C65_framed U hp (list_framed h1 h2) h hc
  obtain ⟨b, hb1, hb2⟩ := hok.test text
  rcases hok.exec text with ⟨k1, k2⟩ | ⟨r, S, k1, k2, _, k4⟩
  · refine .inl ⟨?_, k1⟩
    cases b with
    | false => exact hb1
    | true => exact absurd (hb2.mp rfl) k2
  · refine .inr ⟨r, by rw [hb1, hb2.mpr (captures_matchesIn.mp ⟨S, k2⟩)], k1, ?_⟩
    rw [k4, k4]
    rw [one_lang] at hs
    obtain ⟨pre, mid, post, S', rfl, hS, rfl⟩ := k2
    rw [listERE, capERE_one, capBranch_cons] at hS
    obtain ⟨m0, m1, S0, S1, rfl, rfl, j1, j2⟩ := hS
    obtain ⟨rfl, rfl, rfl⟩ := capPart_start.mp j1
    obtain ⟨w, m2, S2, S3, rfl, rfl, j3, j4⟩ := capBranch_append j2
    obtain ⟨r', m3, S4, S5, rfl, rfl, j5, j6⟩ := capBranch_cons.mp j4
    obtain ⟨m4, m5, S6, S7, rfl, rfl, j7, j8⟩ := capBranch_cons.mp j6
    obtain ⟨rfl, rfl⟩ := capBranch_nil.mp j8
    simp only [List.append_nil, List.nil_append] at *
    obtain ⟨rfl, rfl, rfl⟩ := capPart_end.mp j7
    have hw : w ∈ partsLang ps := by
      have := j3.matches.lang
      rwa [EREBranch.lang] at this
    refine ⟨by rw [lastSpan_whole]; simp [byteLen], ?_⟩
    have hsp := Tree.in_parts ps _ _ _ _ _ j3
    have hn : lastSpan S2 (groupsParts ps + 1) = none := lastSpan_none fun s hs => by
      have := (hsp s hs).2.1
      simp only [EREPart.groups] at this
      omega
    have hg0 : ∀ i j : Nat, lastSpan [⟨0, i, j⟩] (groupsParts ps + 1) = none := fun i j => lastSpan_none fun s hs => by
      simp only [List.mem_singleton] at hs
      subst hs
      simp
    simp only [List.append_nil] at *
    rw [lastSpan_append, hg0, Option.none_or, lastSpan_append, hn, Option.or_none]
    cases j5 with
    | quantified _ _ j5 =>
      rcases times_last j5 with ⟨_, rfl, rfl⟩ | ⟨a, v, rfl, hv, hl⟩
      · rw [List.append_nil, lastSep_free (hs w hw)]
        rfl
      · have hl' := hl
        rw [show 1 + EREPart.start.groups + groupsParts ps = groupsParts ps + 1 by simp only [EREPart.groups]; omega] at hl'
        rw [hl', ← List.append_assoc, lastSep_at (hs v hv)]
        simp

/-! ## Non-vacuity: four numbers with dots between them, and lists of numbers -/

/-- One to three digits. -/
def shortNumber : FieldPat := ⟨digitAtom, some (.range 1 (some 3)), false⟩

/-- Any number of digits, but at least one. -/
def anyNumber : FieldPat := ⟨digitAtom, some .plus, false⟩

theorem shortNumber_spelled : SpellsPart shortNumber.part "[0-9]{1,3}".toList :=
  .quantified (w := "[0-9]".toList) (v := "{1,3}".toList)
    (.atom (.matching (w := ['0', '-', '9', ']']) (by decide) (.plain (by decide) (.range (by decide) (by decide) .close))))
    (.greedy (.between (w := ['1']) (v := ['3']) (.digits (by decide) (by decide) (by decide) (by decide)) (.digits (by decide) (by decide) (by decide) (by decide))))

theorem anyNumber_spelled : SpellsPart anyNumber.part "[0-9]+".toList :=
  .quantified (w := "[0-9]".toList) (v := ['+'])
    (.atom (.matching (w := ['0', '-', '9', ']']) (by decide) (.plain (by decide) (.range (by decide) (by decide) .close))))
    (.greedy .plus)

theorem parse_dotted : parseStr "^[0-9]{1,3}(\\.[0-9]{1,3}){3}$".toList = .ok (listERE '.' (.multiple 3) [shortNumber.part]) :=
  parseStr_iff.mpr (.one (.cons (w := ['^']) .start (.cons (w := "[0-9]{1,3}".toList) shortNumber_spelled
    (.cons (w := "(\\.[0-9]{1,3}){3}".toList) (v := ['$']) (.quantified (w := "(\\.[0-9]{1,3})".toList) (v := "{3}".toList)
      (.sub (w := "\\.[0-9]{1,3}".toList) (.one (.cons (w := "\\.".toList) (.single (.atom (.escaped (by decide))))
        (.cons (w := "[0-9]{1,3}".toList) (v := []) shortNumber_spelled .nil))))
      (.greedy (.multiple (w := ['3']) (.digits (by decide) (by decide) (by decide) (by decide)))))
      (.cons (w := ['$']) (v := []) .end_ .nil)))))

theorem parse_numbers : parseStr "^[0-9]+(,[0-9]+)*$".toList = .ok (listERE ',' .star [anyNumber.part]) :=
  parseStr_iff.mpr (.one (.cons (w := ['^']) .start (.cons (w := "[0-9]+".toList) anyNumber_spelled
    (.cons (w := "(,[0-9]+)*".toList) (v := ['$']) (.quantified (w := "(,[0-9]+)".toList) (v := ['*'])
      (.sub (w := ",[0-9]+".toList) (.one (.cons (w := [',']) (.single (.atom (.plain (by decide))))
        (.cons (w := "[0-9]+".toList) (v := []) anyNumber_spelled .nil))))
      (.greedy .star))
      (.cons (w := ['$']) (v := []) .end_ .nil)))))

theorem consists_one {f : Field} {w : List Char} : Consists [f] w ↔ f.fits w := by
  constructor
  · intro h
    cases h with
    | cons h1 h2 => cases h2; simpa using h1
  · intro h
    simpa using Consists.cons h .nil

/-- `^[0-9]{1,3}(\.[0-9]{1,3}){3}$`: four pieces between dots, each of one to three digits. -/
theorem C85_dotted (U : Utf8Seqs) {cr : List String} (hcr : "ere" ∈ cr) :
    ∃ E, compileRegex U.seqs "^[0-9]{1,3}(\\.[0-9]{1,3}){3}$".toList = .ok (some E) ∧ E.compiles cr = true ∧
      ∀ text, E.test text = .ok (decide ((pieces '.' text).length = 4 ∧
        ∀ w ∈ pieces '.' text, 1 ≤ w.length ∧ w.length ≤ 3 ∧ ∀ c ∈ w, docDigit c = true)) := by
  obtain ⟨E, h1, h2, h3⟩ := C85_fields U (sep := '.') (q := .multiple 3) (xs := [shortNumber])
    (by
      intro x hx
      rw [List.mem_singleton] at hx
      subst hx
      exact ⟨by simp [shortNumber, FieldPat.field, QType.max, QType.min], fun _ => ⟨'0', by decide⟩⟩)
    ⟨.inr fun _ _ => rfl, trivial⟩ ⟨_, List.mem_singleton.mpr rfl, by decide⟩
    (by
      intro x hx
      rw [List.mem_singleton] at hx
      subst hx
      decide)
    (by
      intro x hx
      rw [List.mem_singleton] at hx
      subst hx
      decide)
    (by simp [QType.max, QType.min]) parse_dotted hcr
  refine ⟨E, h1, h2, fun text => ?_⟩
  obtain ⟨b, k1, k2⟩ := h3 text
  refine k1.trans (congrArg Except.ok ?_)
  rw [Bool.eq_iff_iff, k2, decide_eq_true_iff]
  simp only [List.map_cons, List.map_nil, consists_one, Field.fits, shortNumber, FieldPat.field, QType.min, QType.max,
    Option.some.injEq, forall_eq', digitAtom_check]
  constructor
  · rintro ⟨a, b, c⟩
    exact ⟨by omega, fun w hw => ⟨(a w hw).2.1, (a w hw).2.2, (a w hw).1⟩⟩
  · rintro ⟨a, b⟩
    exact ⟨fun w hw => ⟨(b w hw).2.2, (b w hw).1, (b w hw).2.1⟩, by omega, by omega⟩

/-- `^[0-9]+(,[0-9]+)*$`: all pieces between commas consist of digits and are not empty; group 1 is the last of them with its
comma. -/
theorem C85_numbers (U : Utf8Seqs) {cr : List String} (hcr : "ere" ∈ cr) :
    ∃ E, compileRegex U.seqs "^[0-9]+(,[0-9]+)*$".toList = .ok (some E) ∧ E.compiles cr = true ∧
      (∀ text, E.test text = .ok (decide (∀ w ∈ pieces ',' text, w ≠ [] ∧ ∀ c ∈ w, docDigit c = true))) ∧
      ∀ text r, E.exec text = .ok (some r) → r[0]?.join = some (0, byteLen text) ∧
        r[1]?.join = (lastSep ',' 0 text).map fun i => (i, byteLen text) := by
  have hpo : ∀ x ∈ [anyNumber], x.field.possible := by
    intro x hx
    rw [List.mem_singleton] at hx
    subst hx
    exact ⟨by simp [anyNumber, FieldPat.field, QType.max], fun _ => ⟨'0', by decide⟩⟩
  have hse : separated ([anyNumber].map FieldPat.field) := ⟨.inr fun _ _ => rfl, trivial⟩
  have hsp : ∀ x ∈ [anyNumber], x.field.ok ',' = false := by
    intro x hx
    rw [List.mem_singleton] at hx
    subst hx
    decide
  obtain ⟨E, h1, h2, h3⟩ := C85_fields U (sep := ',') (q := .star) hpo hse ⟨_, List.mem_singleton.mpr rfl, by decide⟩
    (by
      intro x hx
      rw [List.mem_singleton] at hx
      subst hx
      decide)
    hsp (by simp [QType.max]) parse_numbers hcr
  refine ⟨E, h1, h2, fun text => ?_, fun text r hr => ?_⟩
  · obtain ⟨b, k1, k2⟩ := h3 text
    refine k1.trans (congrArg Except.ok ?_)
    rw [Bool.eq_iff_iff, k2, decide_eq_true_iff]
    obtain ⟨w, ws, e1, _⟩ := pieces_join ',' text
    simp only [List.map_cons, List.map_nil, consists_one, Field.fits, anyNumber, FieldPat.field, QType.min, QType.max,
      digitAtom_check]
    constructor
    · rintro ⟨a, _⟩ w hw
      exact ⟨fun k => by have := (a w hw).2.1; simp [k] at this, (a w hw).1⟩
    · intro a
      exact ⟨fun w hw => ⟨(a w hw).2, List.length_pos_iff.mpr (a w hw).1, by simp⟩, by simp [e1], by simp⟩
  · have hs : ∀ w ∈ (ERE.mk [.mk [anyNumber.part]]).lang, ',' ∉ w := by
      intro w hw
      refine consists_free ?_ ((fields_lang hpo hse w).mp hw)
      intro f hf
      obtain ⟨x, hx, rfl⟩ := List.mem_map.mp hf
      exact hsp x hx
    rcases C85_groups U (fields_noStart [anyNumber]) (fields_noEnd [anyNumber]) hs parse_numbers h1 h2 text with
      ⟨_, k⟩ | ⟨r', _, k1, k2, k3⟩
    · rw [k] at hr; cases hr
    · rw [k1] at hr
      cases hr
      exact ⟨k2, k3⟩

example : pieces '.' "192.168.0.12".toList = ["192".toList, "168".toList, ['0'], "12".toList] := by decide

example : pieces ',' "1,,2".toList = [['1'], [], ['2']] ∧ lastSep ',' 0 "1,22,333".toList = some 4 := by decide

/-- That the items do not contain the separator is needed: `^[0-9,]+(,[0-9,]+){1}$` matches `1,2,3`, which has three pieces. -/
example : MatchesERE (listERE ',' (.multiple 1) [.quantified (.atom (.matching [.range '0' '9', .single ','])) ⟨.plus, false⟩]) []
    "1,2,3".toList [] ∧ (pieces ',' "1,2,3".toList).length = 3 := by
  refine ⟨?_, by decide⟩
  have hi : ∀ pre post, MatchesPart (.quantified (.atom (.matching [.range '0' '9', .single ','])) ⟨.plus, false⟩) pre "1,2".toList post := by
    intro pre post
    exact .quantified (n := 3) (by decide) (by simp [QType.max])
      (.succ (m1 := ['1']) (m2 := [',', '2']) (.atom (by decide)) (.succ (m1 := [',']) (m2 := ['2']) (.atom (by decide))
        (.succ (m1 := ['2']) (m2 := []) (.atom (by decide)) .zero)))
  have hj : ∀ pre post, MatchesPart (.quantified (.atom (.matching [.range '0' '9', .single ','])) ⟨.plus, false⟩) pre ['3'] post := by
    intro pre post
    exact .quantified (n := 1) (by decide) (by simp [QType.max]) (.succ (m1 := ['3']) (m2 := []) (.atom (by decide)) .zero)
  refine .intro (List.mem_singleton.mpr rfl) (.cons (m1 := []) .start (.cons (m1 := "1,2".toList) (m2 := ",3".toList) (hi _ _)
    (.cons (m1 := ",3".toList) (m2 := []) ?_ (.cons (m1 := []) .end_ .nil))))
  exact .quantified (n := 1) (by decide) (by simp [QType.max]) (.succ (m1 := ",3".toList) (m2 := [])
    (.sub (.intro (List.mem_singleton.mpr rfl) (.cons (m1 := [',']) (m2 := ['3']) (.single (.atom (by decide)))
      (.cons (m1 := ['3']) (m2 := []) (hj _ _) .nil)))) .zero)

end Ere.Props
