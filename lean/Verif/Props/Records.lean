import Verif.Spec.Records
import Verif.Props.Lists

/-! # C87: records with separators -/

namespace Ere.Props

open scoped Computability
open Language

/-! ## The patterns -/

/-- The fields in parentheses with the separators between them. -/
def recordParts : List (ERE × Char) → ERE → List EREPart
  | [], last => [.single (.sub last)]
  | (i, s) :: xs, last => .single (.sub i) :: .single (.atom (.normal s)) :: recordParts xs last

/-- `^(i₁)s₁(i₂)s₂…(iₙ)$`. -/
def recordERE (xs : List (ERE × Char)) (last : ERE) : ERE := .mk [.mk (.start :: (recordParts xs last ++ [.end_]))]

/-- A field: no anchors and no groups. -/
structure Simple (i : ERE) : Prop where
  start : i.hasStart = false
  end_ : i.hasEnd = false
  groups : i.groups = 0

/-- The languages of the fields. -/
def recordLangs (xs : List (ERE × Char)) (last : ERE) : List (Language Char) := xs.map (·.1.lang) ++ [last.lang]

/-- The separators. -/
abbrev seps (xs : List (ERE × Char)) : List Char := xs.map (·.2)

/-- No string of a field contains the separator behind it. -/
def Apart (xs : List (ERE × Char)) : Prop := ∀ x ∈ xs, ∀ w ∈ x.1.lang, x.2 ∉ w

/-! ## Cutting -/

theorem span_free {s : Char} : ∀ {w : List Char}, s ∉ w → ∀ r, (w ++ s :: r).takeWhile (· != s) = w ∧
    (w ++ s :: r).dropWhile (· != s) = s :: r
  | [], _, r => by simp
  | c :: w, h, r => by
    obtain ⟨h1, h2⟩ := span_free (fun k => h (List.mem_cons_of_mem _ k)) r
    have hc : (c != s) = true := by simpa using fun k : c = s => h (by simp [k])
    simp [hc, h1, h2]

theorem cutAt_sep {s : Char} {ss w : List Char} (h : s ∉ w) (r : List Char) :
    cutAt (s :: ss) (w ++ s :: r) = (cutAt ss r).map (w :: ·) := by
  obtain ⟨h1, h2⟩ := span_free h r
  rw [cutAt, h2, h1]

theorem cutAt_some {s : Char} {ss text : List Char} {ws : List (List Char)} (h : cutAt (s :: ss) text = some ws) :
    ∃ w vs r, ws = w :: vs ∧ cutAt ss r = some vs ∧ text = w ++ s :: r ∧ s ∉ w := by
  rw [cutAt] at h
  cases hd : text.dropWhile (· != s) with
  | nil => rw [hd] at h; simp at h
  | cons c r =>
    rw [hd] at h
    obtain ⟨vs, h1, rfl⟩ := Option.map_eq_some_iff.mp h
    have hc : c = s := by
      have := List.head?_dropWhile_not (· != s) text
      rw [hd] at this
      simpa using this
    subst hc
    refine ⟨_, vs, r, rfl, h1, ?_, fun k => ?_⟩
    · rw [← hd, List.takeWhile_append_dropWhile]
    · have := List.all_takeWhile (p := (· != c)) (l := text)
      rw [List.all_eq_true] at this
      simpa using this _ k

theorem sepChar_lang {s : Char} {ps : List EREPart} {w : List Char} :
    w ∈ partsLang (.single (.atom (.normal s)) :: ps) ↔ ∃ v ∈ partsLang ps, w = s :: v := by
  rw [← sep_lang, furtherERE, one_lang]

/-- The language of the parts: the pieces are strings of the fields. -/
theorem record_lang {last : ERE} : ∀ {xs : List (ERE × Char)}, Apart xs → ∀ text, text ∈ partsLang (recordParts xs last) ↔
    ∃ ws, cutAt (seps xs) text = some ws ∧ Each (recordLangs xs last) ws
  | [], _, text => by
    simp [recordParts, partsLang, EREPart.lang, EREExpr.lang, seps, cutAt, recordLangs, Each]
  | (i, s) :: xs, h, text => by
    have ih := record_lang (last := last) (xs := xs) fun x hx => h x (List.mem_cons_of_mem _ hx)
    have hi := h (i, s) (by simp)
    rw [recordParts, partsLang, mem_mul]
    constructor
    · rintro ⟨w, hw, r, hr, rfl⟩
      obtain ⟨v, hv, rfl⟩ := sepChar_lang.mp hr
      obtain ⟨ws, h1, h2⟩ := (ih v).mp hv
      refine ⟨w :: ws, ?_, hw, h2⟩
      rw [seps, List.map_cons, cutAt_sep (hi w hw), h1]
      rfl
    · rintro ⟨ws, h1, h2⟩
      obtain ⟨w, vs, r, rfl, h3, rfl, _⟩ := cutAt_some h1
      exact ⟨w, h2.1, s :: r, sepChar_lang.mpr ⟨r, (ih r).mpr ⟨vs, h3, h2.2⟩, rfl⟩, rfl⟩

/-! ## What the groups capture -/

/-- Groups spansFrom from `g` on. -/
def spansFrom : Nat → List (Nat × Nat) → List Span
  | _, [] => []
  | g, p :: ps => ⟨g, p.1, p.2⟩ :: spansFrom (g + 1) ps

theorem lastSpan_spansFrom : ∀ {ps : List (Nat × Nat)} {g k : Nat},
    lastSpan (spansFrom g ps) k = if k < g then none else ps[k - g]?
  | [], g, k => by simp [spansFrom, lastSpan]
  | p :: ps, g, k => by
    rw [spansFrom, show (⟨g, p.1, p.2⟩ : Span) :: spansFrom (g + 1) ps = [⟨g, p.1, p.2⟩] ++ spansFrom (g + 1) ps from rfl,
      lastSpan_append, lastSpan_spansFrom]
    rcases Nat.lt_trichotomy k g with h | h | h
    · rw [if_pos (by omega), if_pos h, Option.none_or]
      exact lastSpan_none (by simp; omega)
    · subst h
      rw [if_pos (by omega), if_neg (by omega), Option.none_or, Nat.sub_self]
      simp [lastSpan]
    · rw [if_neg (by omega), if_neg (by omega), show k - g = (k - (g + 1)) + 1 by omega, List.getElem?_cons_succ,
        lastSpan_none (S := [⟨g, p.1, p.2⟩]) (by simp; omega), Option.or_none]

theorem plain_cap {i : ERE} (hi : Simple i) {g : Nat} {pre mid post : List Char} {S : List Span}
    (h : CapPart (.single (.sub i)) g pre mid post S) :
    mid ∈ i.lang ∧ S = [⟨g, byteLen pre, byteLen pre + byteLen mid⟩] := by
  obtain ⟨S', rfl, h1⟩ := capExpr_sub.mp (capPart_single.mp h)
  refine ⟨h1.matches.lang, ?_⟩
  have hsp := Tree.in_sub i _ _ _ _ _ h1
  rw [hi.groups] at hsp
  have : S' = [] := List.eq_nil_iff_forall_not_mem.mpr fun s hs => by have := hsp s hs; omega
  rw [this, byteLen_append]
  rfl

theorem record_cap {last : ERE} (hl : Simple last) : ∀ {xs : List (ERE × Char)}, (∀ x ∈ xs, Simple x.1) → Apart xs →
    ∀ {g : Nat} {pre mid post : List Char} {S : List Span}, CapBranch (.mk (recordParts xs last ++ [.end_])) g pre mid post S →
      post = [] ∧ ∃ ws, cutAt (seps xs) mid = some ws ∧ Each (recordLangs xs last) ws ∧
        S = spansFrom g (stretches (byteLen pre) (seps xs) ws)
  | [], _, _, g, pre, mid, post, S, h => by
    obtain ⟨m1, m2, S1, S2, rfl, rfl, h1, h2⟩ := capBranch_cons.mp h
    obtain ⟨m3, m4, S3, S4, rfl, rfl, h3, h4⟩ := capBranch_cons.mp h2
    obtain ⟨rfl, rfl⟩ := capBranch_nil.mp h4
    obtain ⟨hpost, rfl, rfl⟩ := capPart_end.mp h3
    obtain ⟨k1, rfl⟩ := plain_cap hl h1
    refine ⟨by simpa using hpost, [m1], by simp [cutAt], ⟨k1, trivial⟩, ?_⟩
    simp [stretches, spansFrom]
  | (i, s) :: xs, hx, ha, g, pre, mid, post, S, h => by
    obtain ⟨m1, m2, S1, S2, rfl, rfl, h1, h2⟩ := capBranch_cons.mp h
    obtain ⟨m3, m4, S3, S4, rfl, rfl, h3, h4⟩ := capBranch_cons.mp h2
    obtain ⟨rfl, rfl⟩ := capPart_char.mp h3
    obtain ⟨k1, rfl⟩ := plain_cap (hx (i, s) (by simp)) h1
    obtain ⟨rfl, ws, j1, j2, rfl⟩ := record_cap hl (fun x hm => hx x (List.mem_cons_of_mem _ hm))
      (fun x hm => ha x (List.mem_cons_of_mem _ hm)) h4
    refine ⟨rfl, m1 :: ws, ?_, ⟨k1, j2⟩, ?_⟩
    · rw [seps, List.map_cons, List.cons_append, List.nil_append, cutAt_sep (ha (i, s) (by simp) m1 k1), j1]
      rfl
    · have hg : g + (EREPart.single (.sub i)).groups + (EREPart.single (.atom (.normal s))).groups = g + 1 := by
        simp [EREPart.groups, EREExpr.groups, (hx (i, s) (by simp)).groups]
      rw [hg, byteLen_append, byteLen_append]
      simp [stretches, spansFrom, byteLen]

/-! ## The whole pattern -/

theorem record_free {last : ERE} (hl : Simple last) : ∀ {xs : List (ERE × Char)}, (∀ x ∈ xs, Simple x.1) →
    partsHaveStart (recordParts xs last) = false ∧ partsHaveEnd (recordParts xs last) = false ∧
      groupsParts (recordParts xs last) = xs.length + 1
  | [], _ => by
    simp [recordParts, partsHaveStart, EREPart.hasStart, EREExpr.hasStart, hl.start, partsHaveEnd, EREPart.hasEnd,
      EREExpr.hasEnd, hl.end_, groupsParts, EREPart.groups, EREExpr.groups, hl.groups]
  | (i, s) :: xs, hx => by
    obtain ⟨h1, h2, h3⟩ := record_free hl (xs := xs) fun x hm => hx x (List.mem_cons_of_mem _ hm)
    have hi := hx (i, s) (by simp)
    simp [recordParts, partsHaveStart, EREPart.hasStart, EREExpr.hasStart, hi.start, partsHaveEnd, EREPart.hasEnd,
      EREExpr.hasEnd, hi.end_, groupsParts, EREPart.groups, EREExpr.groups, hi.groups, h1, h2, h3]
    omega

section
variable {xs : List (ERE × Char)} {last : ERE} (hx : ∀ x ∈ xs, Simple x.1) (hl : Simple last)
include hx hl

theorem record_framed : (recordERE xs last).Framed true true := by
  refine ⟨_, rfl, fun b hb => ?_⟩
  rw [List.mem_singleton] at hb
  obtain ⟨h1, h2, _⟩ := record_free hl hx
  exact ⟨recordParts xs last, by rw [hb]; simp, h1, h2⟩

theorem record_groups : (recordERE xs last).groups = xs.length + 1 := by
  obtain ⟨_, _, h3⟩ := record_free hl hx
  have happ : ∀ as bs : List EREPart, groupsParts (as ++ bs) = groupsParts as + groupsParts bs := by
    intro as bs
    induction as with
    | nil => simp [groupsParts]
    | cons a as ih => rw [List.cons_append, groupsParts, groupsParts, ih, Nat.add_assoc]
  simp [recordERE, ERE.groups, groupsBranches, EREBranch.groups, groupsParts, EREPart.groups, happ, h3]

variable (ha : Apart xs)
include ha

theorem record_matches (text : List Char) : (recordERE xs last).MatchesIn text ↔
    ∃ ws, cutAt (seps xs) text = some ws ∧ Each (recordLangs xs last) ws := by
  rw [framed_matchesIn (record_framed hx hl), show beside true = 1 from rfl, one_mul, mul_one, recordERE, one_lang, partsLang,
    partsLang_append, partsLang, partsLang]
  simp only [EREPart.lang, one_mul, mul_one]
  exact record_lang ha text

theorem record_captures {text : List Char} {S : List Span} (h : (recordERE xs last).Captures text S) :
    ∃ ws, cutAt (seps xs) text = some ws ∧ Each (recordLangs xs last) ws ∧
      S = spansFrom 1 (stretches 0 (seps xs) ws) ++ [⟨0, 0, byteLen text⟩] := by
  obtain ⟨pre, mid, post, S', rfl, hS, rfl⟩ := h
  rw [recordERE, capERE_one, capBranch_cons] at hS
  obtain ⟨m0, m1, S0, S1, rfl, rfl, j1, j2⟩ := hS
  obtain ⟨rfl, rfl, rfl⟩ := capPart_start.mp j1
  obtain ⟨rfl, ws, h1, h2, rfl⟩ := record_cap hl hx ha j2
  exact ⟨ws, by simpa using h1, h2, by simp [EREPart.groups, byteLen]⟩

theorem record_oneReading : (recordERE xs last).OneReading := by
  intro text S S' h h' g
  obtain ⟨ws, h1, _, rfl⟩ := record_captures hx hl ha h
  obtain ⟨ws', h1', _, rfl⟩ := record_captures hx hl ha h'
  rw [h1] at h1'
  cases h1'
  rfl

omit hx hl ha in
theorem stretches_length : ∀ {xs : List (ERE × Char)} {ws : List (List Char)} {off : Nat}, Each (recordLangs xs last) ws →
    (stretches off (seps xs) ws).length = xs.length + 1
  | [], [_], _, _ => by simp [stretches]
  | [], [], _, h => by simp [recordLangs, Each] at h
  | [], _ :: _ :: _, _, h => by simp [recordLangs, Each] at h
  | _ :: _, [], _, h => by simp [recordLangs, Each] at h
  | x :: xs, w :: ws, off, h => by
    have := stretches_length (xs := xs) (off := off + byteLen w + charLen x.2) h.2
    simp [stretches, this]

omit hx hl ha in
theorem lastSpan_record {text : List Char} {ps : List (Nat × Nat)} (g : Nat) :
    lastSpan (spansFrom 1 ps ++ [⟨0, 0, byteLen text⟩]) g = ((0, byteLen text) :: ps)[g]? := by
  cases g with
  | zero => rw [lastSpan_whole]; rfl
  | succ g =>
    rw [lastSpan_append, lastSpan_none (S := [⟨0, 0, byteLen text⟩]) (by simp), Option.none_or, lastSpan_spansFrom,
      if_neg (by omega), List.getElem?_cons_succ, Nat.add_sub_cancel]

/-- What `exec` reports for the pieces: the whole text, then the pieces. -/
def recordAnswer (xs : List (ERE × Char)) (text : List Char) (ws : List (List Char)) : List (Option (Nat × Nat)) :=
  some (0, byteLen text) :: (stretches 0 (seps xs) ws).map some

/-- The right answers of an engine. -/
theorem record_exec {text : List Char} {res} (h : ExecOk (recordERE xs last) text (xs.length + 2) res) :
    (res = .ok none ∧ ¬ ∃ ws, cutAt (seps xs) text = some ws ∧ Each (recordLangs xs last) ws) ∨
      ∃ ws, cutAt (seps xs) text = some ws ∧ Each (recordLangs xs last) ws ∧ res = .ok (some (recordAnswer xs text ws)) := by
  rcases h with ⟨h1, h2⟩ | ⟨r, S, h1, h2, h3, h4⟩
  · exact .inl ⟨h1, fun k => h2 ((record_matches hx hl ha text).mpr k)⟩
  · obtain ⟨ws, k1, k2, rfl⟩ := record_captures hx hl ha h2
    refine .inr ⟨ws, k1, k2, h1.trans (congrArg (fun r => Except.ok (some r)) ?_)⟩
    have hlen := stretches_length (off := 0) k2
    apply List.ext_getElem?
    intro g
    have hg := h4 g
    rw [lastSpan_record] at hg
    unfold recordAnswer
    rw [show some (0, byteLen text) :: (stretches 0 (seps xs) ws).map some =
      (((0, byteLen text) :: stretches 0 (seps xs) ws)).map some from rfl, List.getElem?_map]
    by_cases hk : g < xs.length + 2
    · rw [List.getElem?_eq_getElem (by omega)] at hg ⊢
      rw [List.getElem?_eq_getElem (by simp [hlen]; omega)] at hg ⊢
      simpa using hg
    · rw [List.getElem?_eq_none (by omega), List.getElem?_eq_none (by simp [hlen]; omega)]
      rfl

theorem record_lastUsed (hg : (recordERE xs last).progress = true) {text : List Char} (h : (recordERE xs last).MatchesIn text) :
    LastUsed (recordERE xs last) := by
  obtain ⟨S, hS⟩ := Option.isSome_iff_exists.mp ((first_isSome hg text).mpr h)
  refine ⟨text, S, hS, ?_⟩
  obtain ⟨ws, _, k2, rfl⟩ := record_captures hx hl ha (first_captures hS)
  rw [record_groups hx hl, lastSpan_record, List.getElem?_cons_succ,
    List.getElem?_eq_getElem (by rw [stretches_length k2]; omega)]
  rfl
end

/-- Strings of the fields can be put together. -/
theorem record_possible {last : ERE} {xs : List (ERE × Char)} (ha : Apart xs) (ws : List (List Char))
    (h : Each (recordLangs xs last) ws) : ∃ text, cutAt (seps xs) text = some ws := by
  revert ha ws h
  induction xs with
  | nil =>
    intro _ ws h
    match ws, h with
    | [w], _ => exact ⟨w, by simp [cutAt]⟩
    | [], h => simp [recordLangs, Each] at h
    | _ :: _ :: _, h => simp [recordLangs, Each] at h
  | cons x xs ih =>
    intro ha ws h
    match ws, h with
    | w :: ws, h =>
      obtain ⟨text, ht⟩ := ih (fun y hy => ha y (List.mem_cons_of_mem _ hy)) ws h.2
      exact ⟨w ++ x.2 :: text, by rw [seps, List.map_cons, cutAt_sep (ha x (by simp) w h.1), ht]; rfl⟩
    | [], h => simp [recordLangs, Each] at h

/-! ## C87 -/

/-- **C87.** Let the fields be patterns without anchors and groups, and let no string of a field contain the separator behind it.
If the program that `compile_regex!` emits for `^(i₁)s₁(i₂)s₂…(iₙ)$` compiles, it does what one would write by hand: it cuts the
text at the first `s₁`, the rest at the first `s₂`, and so on; it accepts exactly if there are enough separators and every piece is
a string of its field; and then it reports the whole text as group 0 and the pieces as groups `1` to `n`. -/
theorem C87_records (U : Utf8Seqs) {xs : List (ERE × Char)} {last : ERE} (hx : ∀ x ∈ xs, Simple x.1) (hl : Simple last)
    (ha : Apart xs) (hg : (recordERE xs last).progress = true) {p : List Char} (hp : parseStr p = .ok (recordERE xs last))
    {E : Engine} (h : compileRegex U.seqs p = .ok (some E)) {cr : List String} (hc : E.compiles cr = true) (text : List Char) :
    (E.test text = .ok false ∧ E.exec text = .ok none ∧
      ¬ ∃ ws, cutAt (seps xs) text = some ws ∧ Each (recordLangs xs last) ws) ∨
    ∃ ws, cutAt (seps xs) text = some ws ∧ Each (recordLangs xs last) ws ∧ E.test text = .ok true ∧
      E.exec text = .ok (some (recordAnswer xs text ws)) := by
  have he := record_framed hx hl
  have hok := C65_framed U hp he h hc
  obtain ⟨b, hb1, hb2⟩ := hok.test text
  rw [record_matches hx hl ha] at hb2
  by_cases hm : ∃ ws, cutAt (seps xs) text = some ws ∧ Each (recordLangs xs last) ws
  · have hG : E.groups = xs.length + 2 := by
      rw [C29_compile_regex_partial U hg (record_lastUsed hx hl ha hg ((record_matches hx hl ha text).mpr hm))
        (compileRegex_ok hp h) hc fun _ _ => framed_startSimple he, record_groups hx hl]
    have hex := hok.exec text
    rw [hG] at hex
    rcases record_exec hx hl ha hex with ⟨_, k⟩ | ⟨ws, k1, k2, k3⟩
    · exact absurd hm k
    · exact .inr ⟨ws, k1, k2, by rw [hb1, hb2.mpr hm], k3⟩
  · refine .inl ⟨?_, ?_, hm⟩
    · cases b with
      | false => exact hb1
      | true => exact absurd (hb2.mp rfl) hm
    · rcases hok.exec text with ⟨k, _⟩ | ⟨r, S, _, k, _⟩
      · exact k
      · exact absurd ((record_matches hx hl ha text).mp (captures_matchesIn.mp ⟨S, k⟩)) hm

/-- **C87 (the program compiles).** If moreover there is at least one separator, every field has a string, and the classes are
neither `[:graph:]` nor `[:xdigit:]`, then `compile_regex!` gives a program and it compiles. -/
theorem C87_compiles (U : Utf8Seqs) {xs : List (ERE × Char)} {last : ERE} (hx : ∀ x ∈ xs, Simple x.1) (hl : Simple last)
    (ha : Apart xs) (h0 : xs ≠ []) (hi : ∃ ws, Each (recordLangs xs last) ws) (hat : (recordERE xs last).atomsAll plainAtom = true)
    {p : List Char} (hp : parseStr p = .ok (recordERE xs last)) {cr : List String} (hcr : "ere" ∈ cr) :
    ∃ E, compileRegex U.seqs p = .ok (some E) ∧ E.compiles cr = true := by
  obtain ⟨ws, hw⟩ := hi
  obtain ⟨text, ht⟩ := record_possible ha ws hw
  obtain ⟨E, h⟩ := C17_compile_returns_partial U hp ⟨text, (record_matches hx hl ha text).mpr ⟨ws, ht, hw⟩⟩
  refine ⟨E, h, ?_⟩
  cases hc : E.compiles cr with
  | true => rfl
  | false =>
    exfalso
    obtain ⟨_, hx'⟩ := (C62_framed_compiles_iff U hp (record_framed hx hl) hat h hcr).mp hc
    rcases hx' with ⟨_, _, h3⟩ | ⟨_, k2⟩
    · obtain ⟨ws, h3, _⟩ := (record_matches hx hl ha []).mp h3
      cases xs with
      | nil => exact h0 rfl
      | cons x xs => simp [cutAt] at h3
    · exact k2 (record_oneReading hx hl ha)

/-- **C87 (attribute macro).** The same for a struct with one field per group. -/
theorem C87_attribute (U : Utf8Seqs) {xs : List (ERE × Char)} {last : ERE} (hx : ∀ x ∈ xs, Simple x.1) (hl : Simple last)
    (ha : Apart xs) (h0 : xs ≠ []) (hi : ∃ ws, Each (recordLangs xs last) ws) (hat : (recordERE xs last).atomsAll plainAtom = true)
    (hg : (recordERE xs last).progress = true) {p : List Char} (hp : parseStr p = .ok (recordERE xs last)) {cr : List String}
    (hcr : "ere" ∈ cr) : ∃ A, compileAttr U.seqs p (xs.length + 2) = .ok (some A) ∧ A.compiles cr = true ∧ ∀ text,
      (A.test text = .ok false ∧ A.exec text = .ok none ∧
        ¬ ∃ ws, cutAt (seps xs) text = some ws ∧ Each (recordLangs xs last) ws) ∨
      ∃ ws, cutAt (seps xs) text = some ws ∧ Each (recordLangs xs last) ws ∧ A.test text = .ok true ∧
        A.exec text = .ok (some (recordAnswer xs text ws)) := by
  obtain ⟨E, h, hc⟩ := C87_compiles U hx hl ha h0 hi hat hp hcr
  obtain ⟨ws, hw⟩ := hi
  obtain ⟨text, ht⟩ := record_possible ha ws hw
  have hu := record_lastUsed hx hl ha hg ((record_matches hx hl ha text).mpr ⟨ws, ht, hw⟩)
  obtain ⟨A, k1, k2, k3⟩ := attr_of_regex U hp (record_framed hx hl) hg hu h hc
  rw [record_groups hx hl] at k1
  refine ⟨A, k1, k2, fun text => ?_⟩
  rw [(k3 text).1, (k3 text).2]
  exact C87_records U hx hl ha hg hp h hc text

/-- **C87 (the engines one by one).** The flat engines, the one-pass engine and the DFA, as the macros for the single engines give
them. -/
theorem C87_engines (U : Utf8Seqs) {xs : List (ERE × Char)} {last : ERE} (hx : ∀ x ∈ xs, Simple x.1) (hl : Simple last)
    (ha : Apart xs) (hg : (recordERE xs last).progress = true) {text : List Char} {ws : List (List Char)}
    (h1 : cutAt (seps xs) text = some ws) (h2 : Each (recordLangs xs last) ws) :
    (∀ F, compileFlatChar (recordERE xs last) = .ok F → F.exec text text = .ok (some (recordAnswer xs text ws))) ∧
    (∀ F, compileFlatU8 U.seqs (recordERE xs last) = .ok F → F.exec text (encode text) = .ok (some (recordAnswer xs text ws))) ∧
    (∀ P, compileOnePassU8 U.seqs (recordERE xs last) = .ok (some P) → P.compiles = true →
      P.exec text (encode text) = .ok (some (recordAnswer xs text ws))) ∧
    ∀ G, compileDfaU8 U.seqs (recordERE xs last) = .ok (some G) →
      G.tdfa.exec text (encode text) = .ok (some (recordAnswer xs text ws)) := by
  have hm := (record_matches hx hl ha text).mpr ⟨ws, h1, h2⟩
  have hu := record_lastUsed hx hl ha hg hm
  have hs := framed_startSimple (record_framed hx hl)
  obtain ⟨N, M, k1, k2, k3, k4⟩ := C29_groups_exact_partial U _ (lastUsed_captures hu)
  rw [record_groups hx hl] at k3 k4
  have key : ∀ {k res}, k = xs.length + 2 → ExecOk (recordERE xs last) text k res → res = .ok (some (recordAnswer xs text ws)) := by
    rintro k res rfl h
    rcases record_exec hx hl ha h with ⟨_, k⟩ | ⟨ws', k1, _, k3⟩
    · exact absurd ⟨ws, h1, h2⟩ k
    · rw [h1] at k1
      cases k1
      exact k3
  refine ⟨fun F h => key ?_ (C23_flat_char_exec h text), fun F h => key ?_ (C23_flat_u8_exec U h text),
    fun P h hc => key ?_ (C23_one_pass_exec U h hc text), fun G h => key ?_ (C23_dfa_exec_partial U hs h text)⟩
  · unfold compileFlatChar at h
    rw [k1] at h
    rw [compileFlat_groups h, k3]
  · unfold compileFlatU8 at h
    rw [k2] at h
    rw [compileFlat_groups h, k4]
  · obtain ⟨M'', j1, _, j2, _⟩ := onePass_compiled U h
    rw [j2.groups, ok_unique j1 k2, k4]
  · rw [C29_dfa_exact_partial U hg hs hu h, record_groups hx hl]

end Ere.Props
