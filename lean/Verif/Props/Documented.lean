import Verif.Spec.Documented
import Verif.Props.Ascii
import Verif.Props.Rewrite
import Verif.Props.Parser
import Verif.Props.Attribute

/-! C81: the patterns of the documentation do, on every text, what the documentation uses them for. -/

namespace Ere.Props
open Ere

/-! ## From a function that reads the text to the emitted program -/

/-- If a function gives, for every text, the only way in which the pattern matches. -/
def ReadBy (e : ERE) (f : List Char → Option (List Span)) : Prop := ∀ text S, e.Captures text S ↔ f text = some S

/-- What the program returns if the groups match these stretches. -/
def answerOf (n : Nat) (S : List Span) : List (Option (Nat × Nat)) := (List.range n).map (lastSpan S)

theorem ReadBy.one {e : ERE} {f} (h : ReadBy e f) : e.OneReading := by
  intro text S S' h1 h2 g
  have h1 := (h _ _).mp h1
  have h2 := (h _ _).mp h2
  rw [h1] at h2
  cases h2
  rfl

theorem ReadBy.first {e : ERE} {f} (h : ReadBy e f) (hg : e.progress = true) (text : List Char) : e.first text = f text := by
  cases hf : e.first text with
  | some S => exact ((h _ _).mp (first_captures hf)).symm
  | none =>
    cases hr : f text with
    | none => rfl
    | some S =>
      have := (first_isSome hg text).mpr (captures_matchesIn.mp ⟨S, (h _ _).mpr hr⟩)
      rw [hf] at this
      cases this

theorem answerOf_eq {S : List Span} {n : Nat} {r : List (Option (Nat × Nat))} (hl : r.length = n)
    (h : ∀ g, (r[g]?).join = lastSpan S g) : r = answerOf n S := by
  apply List.ext_getElem?
  intro g
  unfold answerOf
  by_cases hg : g < n
  · rw [List.getElem?_map, List.getElem?_range hg, Option.map_some, ← h g, List.getElem?_eq_getElem (by omega)]
    rfl
  · rw [List.getElem?_eq_none (by omega), List.getElem?_eq_none (by simp; omega)]

section
variable (U : Utf8Seqs) {s t : Bool} {p : List Char} {e : ERE} (hp : parseStr p = .ok e) (he : e.Framed s t)
  (hg : e.progress = true) {f : List Char → Option (List Span)} (hf : ReadBy e f)
  (hlast : ∃ text S, f text = some S ∧ (lastSpan S e.groups).isSome = true)
include hp he hg hf hlast

/-- The program, if it compiles. -/
theorem readBy_regex {E : Engine} (hE : compileRegex U.seqs p = .ok (some E)) {cr : List String}
    (hc : E.compiles cr = true) : E.groups = e.groups + 1 ∧ ∀ text, E.test text = .ok (f text).isSome ∧
      E.exec text = .ok ((f text).map (answerOf (e.groups + 1))) := by
  obtain ⟨text0, S0, h0, h1⟩ := hlast
  have hG : E.groups = e.groups + 1 := C29_compile_regex_partial U hg ⟨text0, S0, by rw [hf.first hg, h0], h1⟩
    (compileRegex_ok hp hE) hc fun _ _ => framed_startSimple he
  have hok := C65_framed U hp he hE hc
  refine ⟨hG, fun text => ⟨?_, ?_⟩⟩
  · obtain ⟨b, h1, h2⟩ := hok.test text
    rw [h1, Bool.eq_iff_iff.mpr (h2.trans (first_isSome hg text).symm), hf.first hg]
  · rcases hok.exec text with ⟨h1, h2⟩ | ⟨r, S, h1, h2, h3, h4⟩
    · rw [h1]
      cases hr : f text with
      | none => rfl
      | some S => exact absurd (captures_matchesIn.mp ⟨S, (hf _ _).mpr hr⟩) h2
    · rw [h1, (hf _ _).mp h2, answerOf_eq (h3.trans hG) h4]
      rfl

/-- The attribute macro, if the program compiles. -/
theorem readBy_attr {E : Engine} (hE : compileRegex U.seqs p = .ok (some E)) {cr : List String}
    (hc : E.compiles cr = true) : ∃ A, compileAttr U.seqs p (e.groups + 1) = .ok (some A) ∧ A.compiles cr = true ∧
      ∀ text, A.test text = .ok (f text).isSome ∧ A.exec text = .ok ((f text).map (answerOf (e.groups + 1))) := by
  obtain ⟨hG, hx⟩ := readBy_regex U hp he hg hf hlast hE hc
  have hE' := compileRegex_ok hp hE
  obtain ⟨text0, S0, h0, h1⟩ := hlast
  have hl : LastUsed e := ⟨text0, S0, by rw [hf.first hg, h0], h1⟩
  obtain ⟨N, M, k1, k2, k3, k4⟩ := C29_groups_exact_partial U _ (lastUsed_captures hl)
  have hne : N ≠ [] := by
    obtain ⟨M', hM', hn⟩ := (C17_pick_returns_iff U _).mp ⟨_, hE'⟩
    intro h0
    unfold byteNFA at hM'
    rw [k1, h0] at hM'
    simp only [u8New_nil] at hM'
    simp at hM'
  obtain ⟨opt, ho, hol⟩ := mapM_range_ok (fun i => ⟨_, (C28_mandatory_groups k1 hne i).1⟩) (List.range N.numCaptureGroups)
  rw [List.length_range, k3] at hol
  have hA : compileAttr U.seqs p (e.groups + 1) = .ok (some ⟨N.numCaptureGroups, opt, E⟩) := by
    unfold compileAttr
    simp only [hp, k1, ho, hol, hE', if_true]
  obtain ⟨e', he', hk⟩ := C44_attribute_compiles_partial U hA hc
  rw [hp] at he'
  cases he'
  have hc' := (hk hg hl fun _ _ => framed_startSimple he).1
  obtain ⟨E', j1, _, _, j4⟩ := C45_same_program U hA hc'
  rw [hE] at j1
  cases j1
  exact ⟨_, hA, hc', fun text => by rw [(j4 text).1, (j4 text).2]; exact hx text⟩
end

/-! ## Reading the parts of the two patterns -/

theorem capTimes_atom {a : Atom} {g : Nat} : ∀ {n : Nat} {pre mid post : List Char} {S : List Span},
    CapTimes (.atom a) n g pre mid post S ↔ mid.length = n ∧ (∀ c ∈ mid, a.check c = true) ∧ S = []
  | 0, pre, mid, post, S => by
    constructor
    · intro h; cases h; simp
    · rintro ⟨h1, _, rfl⟩
      rw [List.eq_nil_of_length_eq_zero h1]
      exact .zero
  | n + 1, pre, mid, post, S => by
    constructor
    · intro h
      cases h with
      | succ h1 h2 =>
        cases h1 with
        | atom hc =>
          obtain ⟨k1, k2, rfl⟩ := capTimes_atom.mp h2
          refine ⟨by simp [k1], ?_, rfl⟩
          intro c hm
          rcases List.mem_append.mp hm with hm | hm
          · rw [List.mem_singleton] at hm; rw [hm]; exact hc
          · exact k2 c hm
    · rintro ⟨h1, h2, rfl⟩
      cases mid with
      | nil => cases h1
      | cons c mid =>
        exact CapTimes.succ (m1 := [c]) (S1 := []) (.atom (h2 c (by simp)))
          (capTimes_atom.mpr ⟨by simpa using h1, fun d hd => h2 d (by simp [hd]), rfl⟩)

theorem capBranch_nil {g : Nat} {pre mid post : List Char} {S : List Span} :
    CapBranch (.mk []) g pre mid post S ↔ mid = [] ∧ S = [] := by
  constructor
  · intro h; cases h; simp
  · rintro ⟨rfl, rfl⟩; exact .nil

theorem capBranch_cons {p : EREPart} {ps : List EREPart} {g : Nat} {pre mid post : List Char} {S : List Span} :
    CapBranch (.mk (p :: ps)) g pre mid post S ↔ ∃ m1 m2 S1 S2, mid = m1 ++ m2 ∧ S = S1 ++ S2 ∧
      CapPart p g pre m1 (m2 ++ post) S1 ∧ CapBranch (.mk ps) (g + p.groups) (pre ++ m1) m2 post S2 := by
  constructor
  · intro h
    cases h with
    | cons h1 h2 => exact ⟨_, _, _, _, rfl, rfl, h1, h2⟩
  · rintro ⟨m1, m2, S1, S2, rfl, rfl, h1, h2⟩
    exact .cons h1 h2

theorem capERE_one {b : EREBranch} {g : Nat} {pre mid post : List Char} {S : List Span} :
    CapERE (.mk [b]) g pre mid post S ↔ CapBranch b g pre mid post S := by
  constructor
  · intro h
    cases h with
    | @intro _ bs1 b' bs2 _ _ _ _ _ h1 h2 =>
      cases bs1 with
      | nil => simp only [List.nil_append, List.cons.injEq] at h1; rw [h1.1]; simpa [groupsBranches] using h2
      | cons _ bs1 => simp at h1
  · intro h
    exact .intro (bs1 := []) (bs2 := []) rfl (by simpa [groupsBranches] using h)

theorem capPart_start {g : Nat} {pre mid post : List Char} {S : List Span} :
    CapPart .start g pre mid post S ↔ pre = [] ∧ mid = [] ∧ S = [] := by
  constructor
  · intro h; cases h; simp
  · rintro ⟨rfl, rfl, rfl⟩; exact .start

theorem capPart_end {g : Nat} {pre mid post : List Char} {S : List Span} :
    CapPart .end_ g pre mid post S ↔ post = [] ∧ mid = [] ∧ S = [] := by
  constructor
  · intro h; cases h; simp
  · rintro ⟨rfl, rfl, rfl⟩; exact .end_

theorem capPart_char {c : Char} {g : Nat} {pre mid post : List Char} {S : List Span} :
    CapPart (.single (.atom (.normal c))) g pre mid post S ↔ mid = [c] ∧ S = [] := by
  constructor
  · intro h
    cases h with
    | single h =>
      cases h with
      | atom h => simp only [Atom.check, beq_iff_eq] at h; subst h; simp
  · rintro ⟨rfl, rfl⟩
    exact .single (.atom (by simp [Atom.check]))

theorem capPart_count {a : Atom} {n g : Nat} {alt : Bool} {pre mid post : List Char} {S : List Span} :
    CapPart (.quantified (.atom a) ⟨.multiple n, alt⟩) g pre mid post S ↔
      mid.length = n ∧ (∀ c ∈ mid, a.check c = true) ∧ S = [] := by
  constructor
  · intro h
    cases h with
    | quantified h1 h2 h3 =>
      obtain ⟨k1, k2, k3⟩ := capTimes_atom.mp h3
      have := h2 n rfl
      simp only [QType.min] at h1
      exact ⟨by omega, k2, k3⟩
  · rintro ⟨rfl, h2, rfl⟩
    exact .quantified (n := mid.length) (by simp [QType.min]) (by simp [QType.max]) (capTimes_atom.mpr ⟨rfl, h2, rfl⟩)

theorem capPart_opt {x : EREExpr} {g : Nat} {alt : Bool} {pre mid post : List Char} {S : List Span} :
    CapPart (.quantified x ⟨.question, alt⟩) g pre mid post S ↔ (mid = [] ∧ S = []) ∨ CapExpr x g pre mid post S := by
  constructor
  · intro h
    cases h with
    | @quantified _ _ n _ _ _ _ _ h1 h2 h3 =>
      have := h2 1 rfl
      cases h3 with
      | zero => simp
      | @succ _ k _ _ m1 m2 _ S1 S2 h4 h5 =>
        cases h5 with
        | zero => right; simpa using h4
        | succ => omega
  · rintro (⟨rfl, rfl⟩ | h)
    · exact .quantified (n := 0) (by simp [QType.min]) (by simp [QType.max]) .zero
    · refine .quantified (n := 1) (by simp [QType.min]) (by simp [QType.max]) ?_
      have := CapTimes.succ (m2 := []) (S2 := []) (n := 0) (by simpa using h) (CapTimes.zero (post := post))
      simpa using this

theorem capExpr_sub {e : ERE} {g : Nat} {pre mid post : List Char} {S : List Span} :
    CapExpr (.sub e) g pre mid post S ↔ ∃ S', S = S' ++ [⟨g, byteLen pre, byteLen (pre ++ mid)⟩] ∧
      CapERE e (g + 1) pre mid post S' := by
  constructor
  · intro h
    cases h with
    | sub h => exact ⟨_, rfl, h⟩
  · rintro ⟨S', rfl, h⟩
    exact .sub h

theorem capPart_single {x : EREExpr} {g : Nat} {pre mid post : List Char} {S : List Span} :
    CapPart (.single x) g pre mid post S ↔ CapExpr x g pre mid post S := by
  constructor
  · intro h; cases h; assumption
  · exact .single

/-! ## The classes -/

theorem char_of_toNat {c d : Char} (h : c.toNat = d.toNat) : c = d := by
  rw [← Char.ofNat_toNat c, h, Char.ofNat_toNat]

/-- `[0-9]`. -/
def digitAtom : Atom := .matching [.range '0' '9']

/-- `[[:xdigit:]]`. -/
def hexDigitAtom : Atom := .matching [.cls .hexDigit]

theorem docDigit_iff {c : Char} : docDigit c = true ↔ 48 ≤ c.toNat ∧ c.toNat ≤ 57 := by
  simp only [docDigit, List.mem_cons, List.not_mem_nil, or_false, decide_eq_true_eq]
  constructor
  · rintro (rfl | rfl | rfl | rfl | rfl | rfl | rfl | rfl | rfl | rfl) <;> decide
  · intro h
    have : c.toNat = 48 ∨ c.toNat = 49 ∨ c.toNat = 50 ∨ c.toNat = 51 ∨ c.toNat = 52 ∨ c.toNat = 53 ∨ c.toNat = 54 ∨
      c.toNat = 55 ∨ c.toNat = 56 ∨ c.toNat = 57 := by omega
    rcases this with h | h | h | h | h | h | h | h | h | h
    · exact .inl (char_of_toNat (d := '0') h)
    · exact .inr (.inl (char_of_toNat (d := '1') h))
    · exact .inr (.inr (.inl (char_of_toNat (d := '2') h)))
    · exact .inr (.inr (.inr (.inl (char_of_toNat (d := '3') h))))
    · exact .inr (.inr (.inr (.inr (.inl (char_of_toNat (d := '4') h)))))
    · exact .inr (.inr (.inr (.inr (.inr (.inl (char_of_toNat (d := '5') h))))))
    · exact .inr (.inr (.inr (.inr (.inr (.inr (.inl (char_of_toNat (d := '6') h)))))))
    · exact .inr (.inr (.inr (.inr (.inr (.inr (.inr (.inl (char_of_toNat (d := '7') h))))))))
    · exact .inr (.inr (.inr (.inr (.inr (.inr (.inr (.inr (.inl (char_of_toNat (d := '8') h)))))))))
    · exact .inr (.inr (.inr (.inr (.inr (.inr (.inr (.inr (.inr (char_of_toNat (d := '9') h)))))))))

theorem digitAtom_check (c : Char) : digitAtom.check c = docDigit c := by
  rw [Bool.eq_iff_iff, docDigit_iff]
  simp only [digitAtom, Atom.check, Term.check, List.any_cons, List.any_nil, Bool.or_false, Bool.and_eq_true,
    decide_eq_true_eq, char_le]
  exact Iff.rfl

theorem mem_six {c a b d e f g : Char} (h1 : b.toNat = a.toNat + 1) (h2 : d.toNat = a.toNat + 2) (h3 : e.toNat = a.toNat + 3)
    (h4 : f.toNat = a.toNat + 4) (h5 : g.toNat = a.toNat + 5) :
    c ∈ [a, b, d, e, f, g] ↔ a.toNat ≤ c.toNat ∧ c.toNat ≤ a.toNat + 5 := by
  simp only [List.mem_cons, List.not_mem_nil, or_false]
  constructor
  · rintro (rfl | rfl | rfl | rfl | rfl | rfl) <;> omega
  · intro h
    have : c.toNat = a.toNat ∨ c.toNat = a.toNat + 1 ∨ c.toNat = a.toNat + 2 ∨ c.toNat = a.toNat + 3 ∨
      c.toNat = a.toNat + 4 ∨ c.toNat = a.toNat + 5 := by omega
    rcases this with h | h | h | h | h | h
    · exact .inl (char_of_toNat h)
    · exact .inr (.inl (char_of_toNat (h.trans h1.symm)))
    · exact .inr (.inr (.inl (char_of_toNat (h.trans h2.symm))))
    · exact .inr (.inr (.inr (.inl (char_of_toNat (h.trans h3.symm)))))
    · exact .inr (.inr (.inr (.inr (.inl (char_of_toNat (h.trans h4.symm))))))
    · exact .inr (.inr (.inr (.inr (.inr (char_of_toNat (h.trans h5.symm))))))

theorem docHex_iff {c : Char} : docHex c = true ↔ (48 ≤ c.toNat ∧ c.toNat ≤ 57) ∨ (65 ≤ c.toNat ∧ c.toNat ≤ 70) ∨
    (97 ≤ c.toNat ∧ c.toNat ≤ 102) := by
  have h1 : c ∈ ['a', 'b', 'c', 'd', 'e', 'f'] ↔ _ := mem_six rfl rfl rfl rfl rfl
  have h2 : c ∈ ['A', 'B', 'C', 'D', 'E', 'F'] ↔ _ := mem_six rfl rfl rfl rfl rfl
  simp only [docHex, Bool.or_eq_true, docDigit_iff, decide_eq_true_eq, h1, h2]
  have e1 : 'a'.toNat = 97 := rfl
  have e2 : 'A'.toNat = 65 := rfl
  omega

theorem hexDigitAtom_check (c : Char) : hexDigitAtom.check c = docHex c := by
  rw [Bool.eq_iff_iff, docHex_iff]
  simp only [hexDigitAtom, Atom.check, Term.check, List.any_cons, List.any_nil, Bool.or_false,
    BracketCharClass.checkAscii, BracketCharClass.isAsciiDigit, Bool.or_eq_true, decide_eq_true_eq]
  omega

theorem docHex_ascii {c : Char} (h : docHex c = true) : c.toNat < 128 := by
  have := docHex_iff.mp h; omega

theorem docDigit_hex {c : Char} (h : docDigit c = true) : docHex c = true := by simp [docHex, h]

theorem byteLen_of_ascii {w : List Char} (h : ∀ c ∈ w, c.toNat < 128) : byteLen w = w.length := by
  induction w with
  | nil => rfl
  | cons c w ih =>
    rw [byteLen_cons, ih fun d hd => h d (by simp [hd]), charLen, if_pos (h c (by simp)), List.length_cons]
    omega

/-! ## Telephone numbers -/

/-- A character that stands for itself. -/
def litPart (c : Char) : EREPart := .single (.atom (.normal c))

/-- `[0-9]{n}`. -/
def digitsPart (n : Nat) : EREPart := .quantified (.atom digitAtom) ⟨.multiple n, false⟩

/-- The pattern of README line 12. -/
def phonePattern : List Char := "^(\\+1 )?[0-9]{3}-[0-9]{3}-[0-9]{4}$".toList

/-- … as a tree. -/
def phoneERE : ERE := .mk [.mk [.start, .quantified (.sub (.mk [.mk [litPart '+', litPart '1', litPart ' ']])) ⟨.question, false⟩,
  digitsPart 3, litPart '-', digitsPart 3, litPart '-', digitsPart 4, .end_]]

theorem spells_lit {c : Char} (h : c ∉ specials) : SpellsPart (litPart c) [c] := .single (.atom (.plain h))

theorem spells_digits {n : Nat} {d : Char} (h : d.isDigit = true) (hn : decValue [d] = n) (h2 : n < 2 ^ 32) :
    SpellsPart (digitsPart n) ("[0-9]".toList ++ ['{', d, '}']) :=
  .quantified (.atom (.matching (w := ['0', '-', '9', ']']) (by decide) (.plain (by decide)
    (.range (by decide) (by decide) .close)))) (.greedy (.multiple (w := [d]) (.digits (by simp) (by simpa using h) hn h2)))

theorem parse_phone : parseStr phonePattern = .ok phoneERE :=
  parseStr_iff.mpr (.one (.cons (w := ['^']) .start (.cons (w := ['(', '\\', '+', '1', ' ', ')', '?'])
    (.quantified (w := ['(', '\\', '+', '1', ' ', ')']) (v := ['?']) (.sub (w := ['\\', '+', '1', ' '])
      (.one (.cons (w := ['\\', '+']) (.single (.atom (.escaped (by decide))))
        (.cons (w := ['1']) (spells_lit (by decide)) (.cons (w := [' ']) (v := []) (spells_lit (by decide)) .nil)))))
      (.greedy .question))
    (.cons (w := ['[', '0', '-', '9', ']', '{', '3', '}']) (spells_digits (by decide) (by decide) (by decide))
    (.cons (w := ['-']) (spells_lit (by decide))
    (.cons (w := ['[', '0', '-', '9', ']', '{', '3', '}']) (spells_digits (by decide) (by decide) (by decide))
    (.cons (w := ['-']) (spells_lit (by decide))
    (.cons (w := ['[', '0', '-', '9', ']', '{', '4', '}']) (spells_digits (by decide) (by decide) (by decide))
    (.cons (w := ['$']) (v := []) .end_ .nil)))))))))

theorem phone_framed : phoneERE.Framed true true :=
  ⟨_, rfl, fun b hb => ⟨[.quantified (.sub (.mk [.mk [litPart '+', litPart '1', litPart ' ']])) ⟨.question, false⟩,
    digitsPart 3, litPart '-', digitsPart 3, litPart '-', digitsPart 4], by simpa using hb, rfl, rfl⟩⟩

/-- `phoneNumber` as a concatenation. -/
theorem phoneNumber_iff {w : List Char} : phoneNumber w = true ↔ ∃ d1 d2 d3, w = d1 ++ '-' :: (d2 ++ '-' :: d3) ∧
    d1.length = 3 ∧ (∀ c ∈ d1, docDigit c = true) ∧ d2.length = 3 ∧ (∀ c ∈ d2, docDigit c = true) ∧
    d3.length = 4 ∧ ∀ c ∈ d3, docDigit c = true := by
  constructor
  · intro h
    unfold phoneNumber at h
    split at h
    · rename_i a b c x d e f y g i j k
      simp only [List.all_cons, List.all_nil, Bool.and_true, Bool.and_eq_true, beq_iff_eq] at h
      obtain ⟨⟨⟨h1, h2, h3, h4, h5, h6, h7, h8, h9, h10⟩, rfl⟩, rfl⟩ := h
      exact ⟨[a, b, c], [d, e, f], [g, i, j, k], rfl, rfl, by simp [h1, h2, h3], rfl, by simp [h4, h5, h6], rfl,
        by simp [h7, h8, h9, h10]⟩
    · cases h
  · rintro ⟨d1, d2, d3, rfl, l1, h1, l2, h2, l3, h3⟩
    match d1, l1, d2, l2, d3, l3 with
    | [a, b, c], _, [d, e, f], _, [g, h, i, j], _ =>
      simp only [List.mem_cons, List.not_mem_nil, or_false, forall_eq_or_imp, forall_eq] at h1 h2 h3
      simp [phoneNumber, h1, h2, h3]

/-- Where the groups are. -/
def phoneRead (text : List Char) : Option (List Span) :=
  if phoneNumber text then some [⟨0, 0, 12⟩]
  else match text with
    | '+' :: '1' :: ' ' :: rest => if phoneNumber rest then some [⟨1, 0, 3⟩, ⟨0, 0, 15⟩] else none
    | _ => none

theorem phoneNumber_ascii {w : List Char} (h : phoneNumber w = true) : w.length = 12 ∧ ∀ c ∈ w, c.toNat < 128 := by
  obtain ⟨d1, d2, d3, rfl, l1, h1, l2, h2, l3, h3⟩ := phoneNumber_iff.mp h
  refine ⟨by simp [l1, l2, l3], fun c hc => ?_⟩
  simp only [List.mem_append, List.mem_cons] at hc
  rcases hc with hc | rfl | hc | rfl | hc
  · exact docHex_ascii (docDigit_hex (h1 c hc))
  · decide
  · exact docHex_ascii (docDigit_hex (h2 c hc))
  · decide
  · exact docHex_ascii (docDigit_hex (h3 c hc))

theorem capPart_digits {n g : Nat} {pre mid post : List Char} {S : List Span} :
    CapPart (digitsPart n) g pre mid post S ↔ mid.length = n ∧ (∀ c ∈ mid, docDigit c = true) ∧ S = [] := by
  unfold digitsPart
  simp only [capPart_count, digitAtom_check]

theorem phone_captures {text : List Char} {S : List Span} : phoneERE.Captures text S ↔
    (phoneNumber text = true ∧ S = [⟨0, 0, 12⟩]) ∨
    ∃ rest, text = '+' :: '1' :: ' ' :: rest ∧ phoneNumber rest = true ∧ S = [⟨1, 0, 3⟩, ⟨0, 0, 15⟩] := by
  simp only [ERE.Captures, phoneERE, capERE_one, capBranch_cons, capBranch_nil, capPart_start, capPart_end, capPart_digits,
    capPart_opt, capExpr_sub]
  constructor
  · rintro ⟨pre, mid, post, S', rfl, ⟨m0, m, S0, S1, rfl, rfl, ⟨rfl, rfl, rfl⟩, m1, m', S1', S2, rfl, rfl, hopt, d1, m, _, _, rfl,
      rfl, ⟨l1, k1, rfl⟩, c1, m, _, _, rfl, rfl, hc1, d2, m, _, _, rfl, rfl, ⟨l2, k2, rfl⟩, c2, m, _, _, rfl, rfl, hc2,
      d3, m, _, _, rfl, rfl, ⟨l3, k3, rfl⟩, _, _, _, _, rfl, rfl, ⟨hpost, rfl, rfl⟩, rfl, rfl⟩, rfl⟩
    obtain ⟨rfl, rfl⟩ := capPart_char.mp hc1
    obtain ⟨rfl, rfl⟩ := capPart_char.mp hc2
    simp only [List.nil_append] at hpost
    subst hpost
    have hnum : phoneNumber (d1 ++ '-' :: (d2 ++ '-' :: d3)) = true :=
      phoneNumber_iff.mpr ⟨d1, d2, d3, rfl, l1, k1, l2, k2, l3, k3⟩
    obtain ⟨hl, ha⟩ := phoneNumber_ascii hnum
    have hb := byteLen_of_ascii ha
    rw [hl] at hb
    rcases hopt with ⟨rfl, rfl⟩ | ⟨S', rfl, a, m, _, _, rfl, rfl, ha, b, m, _, _, rfl, rfl, hb', c, m, _, _, rfl, rfl, hc, rfl, rfl⟩
    · left
      refine ⟨by simpa using hnum, ?_⟩
      simpa [byteLen_nil] using hb
    · right
      obtain ⟨rfl, rfl⟩ := capPart_char.mp ha
      obtain ⟨rfl, rfl⟩ := capPart_char.mp hb'
      obtain ⟨rfl, rfl⟩ := capPart_char.mp hc
      refine ⟨d1 ++ '-' :: (d2 ++ '-' :: d3), by simp, hnum, ?_⟩
      have e1 : byteLen ['+', '1', ' '] = 3 := by decide
      have e2 : byteLen ('+' :: '1' :: ' ' :: (d1 ++ '-' :: (d2 ++ '-' :: d3))) = 15 := by
        have := byteLen_append ['+', '1', ' '] (d1 ++ '-' :: (d2 ++ '-' :: d3))
        rw [hb, e1] at this
        exact this
      simp [e1, e2, byteLen_nil, EREPart.groups]
  · rintro (⟨hnum, rfl⟩ | ⟨rest, rfl, hnum, rfl⟩)
    · obtain ⟨hl, ha⟩ := phoneNumber_ascii hnum
      have hb := byteLen_of_ascii ha
      rw [hl] at hb
      obtain ⟨d1, d2, d3, rfl, l1, h1, l2, h2, l3, h3⟩ := phoneNumber_iff.mp hnum
      refine ⟨[], d1 ++ '-' :: (d2 ++ '-' :: d3), [], [], by simp, ⟨[], _, [], [], rfl, rfl, ⟨rfl, rfl, rfl⟩, [], _, [], [], rfl, rfl,
        .inl ⟨rfl, rfl⟩, d1, _, [], [], rfl, rfl, ⟨l1, h1, rfl⟩, ['-'], _, [], [], rfl, rfl, capPart_char.mpr ⟨rfl, rfl⟩,
        d2, _, [], [], rfl, rfl, ⟨l2, h2, rfl⟩, ['-'], _, [], [], rfl, rfl, capPart_char.mpr ⟨rfl, rfl⟩,
        d3, [], [], [], by simp, rfl, ⟨l3, h3, rfl⟩, [], [], [], [], rfl, rfl, ⟨rfl, rfl, rfl⟩, rfl, rfl⟩, ?_⟩
      simp [hb, byteLen_nil]
    · obtain ⟨hl, ha⟩ := phoneNumber_ascii hnum
      have hb := byteLen_of_ascii ha
      rw [hl] at hb
      obtain ⟨d1, d2, d3, rfl, l1, h1, l2, h2, l3, h3⟩ := phoneNumber_iff.mp hnum
      have e1 : byteLen ['+', '1', ' '] = 3 := by decide
      have e2 : byteLen ('+' :: '1' :: ' ' :: (d1 ++ '-' :: (d2 ++ '-' :: d3))) = 15 := by
        have := byteLen_append ['+', '1', ' '] (d1 ++ '-' :: (d2 ++ '-' :: d3))
        rw [hb, e1] at this
        exact this
      refine ⟨[], ['+', '1', ' '] ++ (d1 ++ '-' :: (d2 ++ '-' :: d3)), [], [⟨1, 0, 3⟩], by simp,
        ⟨[], _, [], [⟨1, 0, 3⟩], rfl, rfl, ⟨rfl, rfl, rfl⟩, ['+', '1', ' '], _, [⟨1, 0, 3⟩], [], rfl, rfl,
        .inr ⟨[], by rw [e1.symm]; rfl, ['+'], ['1', ' '], [], [], rfl, rfl, capPart_char.mpr ⟨rfl, rfl⟩, ['1'], [' '], [], [], rfl, rfl,
          capPart_char.mpr ⟨rfl, rfl⟩, [' '], [], [], [], rfl, rfl, capPart_char.mpr ⟨rfl, rfl⟩, rfl, rfl⟩,
        d1, _, [], [], rfl, rfl, ⟨l1, h1, rfl⟩, ['-'], _, [], [], rfl, rfl, capPart_char.mpr ⟨rfl, rfl⟩,
        d2, _, [], [], rfl, rfl, ⟨l2, h2, rfl⟩, ['-'], _, [], [], rfl, rfl, capPart_char.mpr ⟨rfl, rfl⟩,
        d3, [], [], [], by simp, rfl, ⟨l3, h3, rfl⟩, [], [], [], [], rfl, rfl, ⟨rfl, rfl, rfl⟩, rfl, rfl⟩, ?_⟩
      simp [e2, byteLen_nil]

theorem phoneNumber_plus (w : List Char) : phoneNumber ('+' :: w) = false := by
  cases h : phoneNumber ('+' :: w) with
  | false => rfl
  | true =>
    obtain ⟨d1, d2, d3, e, l1, h1, _⟩ := phoneNumber_iff.mp h
    cases d1 with
    | nil => cases l1
    | cons c d1 =>
      injection e with e _
      have := h1 c (by simp)
      rw [← e] at this
      cases this

theorem phone_read : ReadBy phoneERE phoneRead := by
  intro text S
  rw [phone_captures]
  unfold phoneRead
  constructor
  · rintro (⟨h, rfl⟩ | ⟨rest, rfl, h, rfl⟩)
    · rw [if_pos h]
    · rw [phoneNumber_plus, if_neg (by simp)]
      simp [h]
  · intro h
    split at h
    · rename_i hn
      cases h
      exact .inl ⟨hn, rfl⟩
    · split at h
      · split at h
        · rename_i rest _ hn
          cases h
          exact .inr ⟨_, rfl, hn, rfl⟩
        · cases h
      · cases h

theorem phone_answer (text : List Char) : (phoneRead text).map (answerOf 2) = phoneAnswer text := by
  unfold phoneRead phoneAnswer
  split
  · rfl
  · split
    · rename_i rest _
      cases h : phoneNumber rest
      · simp [h]
      · simp [h]; decide
    · rename_i hx
      split
      · exact absurd rfl (hx _)
      · rfl

theorem phone_bounded : ¬ phoneERE.Unbounded := by
  intro hu
  obtain ⟨text, S, hS, hn⟩ := hu 18
  rcases phone_captures.mp hS with ⟨h, rfl⟩ | ⟨rest, rfl, h, rfl⟩
  · have := (phoneNumber_ascii h).1
    simp only [List.length_cons, List.length_nil] at hn
    omega
  · have := (phoneNumber_ascii h).1
    simp only [List.length_cons, List.length_nil] at hn
    omega

theorem phone_last : ∃ text S, phoneRead text = some S ∧ (lastSpan S phoneERE.groups).isSome = true :=
  ⟨"+1 555-555-5555".toList, [⟨1, 0, 3⟩, ⟨0, 0, 15⟩], by decide, by decide⟩

theorem readBy_matches {e : ERE} {f} (h : ReadBy e f) {text : List Char} {S} (hS : f text = some S) : e.MatchesIn text :=
  captures_matchesIn.mp ⟨S, (h _ _).mpr hS⟩

/-- The program for telephone numbers exists and compiles. -/
theorem phone_compiles (U : Utf8Seqs) {cr : List String} (hcr : "ere" ∈ cr) :
    ∃ E, compileRegex U.seqs phonePattern = .ok (some E) ∧ E.compiles cr = true := by
  obtain ⟨text0, S0, h0, _⟩ := phone_last
  obtain ⟨E, hE⟩ := C17_compile_returns_partial U parse_phone ⟨text0, readBy_matches phone_read h0⟩
  refine ⟨E, hE, ?_⟩
  cases hc : E.compiles cr with
  | true => rfl
  | false =>
    obtain ⟨_, h | h⟩ := (C62_framed_compiles_iff U parse_phone phone_framed (by decide) hE hcr).mp hc
    · exact absurd h.1 phone_bounded
    · exact absurd phone_read.one h.2

/-! ## Colours -/

/-- `([[:xdigit:]]{2})`. -/
def hexGroup : EREExpr := .sub (.mk [.mk [.quantified (.atom hexDigitAtom) ⟨.multiple 2, false⟩]])

/-- The pattern of README lines 26-28, and of the documentation of the attribute macro. -/
def colorPattern : List Char :=
  "^#?([[:xdigit:]]{2})([[:xdigit:]]{2})([[:xdigit:]]{2})([[:xdigit:]]{2})?$".toList

/-- … as a tree. -/
def colorERE : ERE := .mk [.mk [.start, .quantified (.atom (.normal '#')) ⟨.question, false⟩, .single hexGroup, .single hexGroup,
  .single hexGroup, .quantified hexGroup ⟨.question, false⟩, .end_]]

/-- The spelling of a group. -/
def hexText : List Char :=
  ['(', '[', '[', ':', 'x', 'd', 'i', 'g', 'i', 't', ':', ']', ']', '{', '2', '}', ')']

theorem spells_hexGroup : SpellsExpr hexGroup hexText :=
  .sub (w := ['[', '[', ':', 'x', 'd', 'i', 'g', 'i', 't', ':', ']', ']', '{', '2', '}'])
    (.one (.cons (w := ['[', '[', ':', 'x', 'd', 'i', 'g', 'i', 't', ':', ']', ']', '{', '2', '}']) (v := [])
      (.quantified (w := ['[', '[', ':', 'x', 'd', 'i', 'g', 'i', 't', ':', ']', ']']) (v := ['{', '2', '}'])
        (.atom (.matching (w := ['[', ':', 'x', 'd', 'i', 'g', 'i', 't', ':', ']', ']']) (by decide) (.plain (by decide)
          (.cls (k := .hexDigit) .close))))
        (.greedy (.multiple (w := ['2']) (.digits (by simp) (by decide) (by decide) (by decide))))) .nil))

theorem parse_color : parseStr colorPattern = .ok colorERE :=
  parseStr_iff.mpr (.one (.cons (w := ['^']) .start (.cons (w := ['#', '?'])
    (.quantified (w := ['#']) (v := ['?']) (.atom (.plain (by decide))) (.greedy .question))
    (.cons (w := hexText) (.single spells_hexGroup) (.cons (w := hexText) (.single spells_hexGroup)
    (.cons (w := hexText) (.single spells_hexGroup) (.cons (w := hexText ++ ['?'])
      (.quantified (w := hexText) (v := ['?']) spells_hexGroup (.greedy .question))
    (.cons (w := ['$']) (v := []) .end_ .nil))))))))

theorem color_framed : colorERE.Framed true true :=
  ⟨_, rfl, fun b hb => ⟨[.quantified (.atom (.normal '#')) ⟨.question, false⟩, .single hexGroup, .single hexGroup,
    .single hexGroup, .quantified hexGroup ⟨.question, false⟩], by simpa using hb, rfl, rfl⟩⟩

theorem capExpr_hexGroup {g : Nat} {pre mid post : List Char} {S : List Span} : CapExpr hexGroup g pre mid post S ↔
    mid.length = 2 ∧ (∀ c ∈ mid, docHex c = true) ∧ S = [⟨g, byteLen pre, byteLen pre + 2⟩] := by
  simp only [hexGroup, capExpr_sub, capERE_one, capBranch_cons, capBranch_nil, capPart_count, hexDigitAtom_check]
  constructor
  · rintro ⟨S', rfl, m1, m2, S1, S2, rfl, rfl, ⟨h1, h2, rfl⟩, rfl, rfl⟩
    have hb := byteLen_of_ascii fun c hc => docHex_ascii (h2 c hc)
    refine ⟨by simpa using h1, by simpa using h2, ?_⟩
    simp [byteLen_append, hb, h1]
  · rintro ⟨h1, h2, rfl⟩
    have hb := byteLen_of_ascii fun c hc => docHex_ascii (h2 c hc)
    exact ⟨[], by simp [byteLen_append, hb, h1], mid, [], [], [], by simp, rfl, ⟨h1, h2, rfl⟩, rfl, rfl⟩

theorem capExpr_char {c : Char} {g : Nat} {pre mid post : List Char} {S : List Span} :
    CapExpr (.atom (.normal c)) g pre mid post S ↔ mid = [c] ∧ S = [] := capPart_single.symm.trans capPart_char

/-- Where the groups are, after `k` other bytes. -/
def hexSpans (k n : Nat) : List Span :=
  [⟨1, k, k + 2⟩, ⟨2, k + 2, k + 4⟩, ⟨3, k + 4, k + 6⟩] ++ (if n = 8 then [⟨4, k + 6, k + 8⟩] else []) ++ [⟨0, 0, k + n⟩]

theorem color_captures {text : List Char} {S : List Span} : colorERE.Captures text S ↔
    ∃ h ds, (h = [] ∨ h = ['#']) ∧ text = h ++ ds ∧ (∀ c ∈ ds, docHex c = true) ∧ (ds.length = 6 ∨ ds.length = 8) ∧
      S = hexSpans h.length ds.length := by
  simp only [ERE.Captures, colorERE, capERE_one, capBranch_cons, capBranch_nil, capPart_start, capPart_end,
    capPart_opt, capPart_single, capExpr_hexGroup, capExpr_char]
  constructor
  · rintro ⟨pre, mid, post, S', rfl, ⟨m0, m, S0, S1, rfl, rfl, ⟨rfl, rfl, rfl⟩, h, m', S1', S2, rfl, rfl, hopt, a, m, _, _, rfl,
      rfl, ⟨l1, k1, rfl⟩, b, m, _, _, rfl, rfl, ⟨l2, k2, rfl⟩, c, m, _, _, rfl, rfl, ⟨l3, k3, rfl⟩,
      d, m, _, _, rfl, rfl, hd, _, _, _, _, rfl, rfl, ⟨hpost, rfl, rfl⟩, rfl, rfl⟩, rfl⟩
    have hh : (h = [] ∨ h = ['#']) ∧ S1' = [] ∧ byteLen h = h.length := by
      rcases hopt with ⟨rfl, rfl⟩ | ⟨rfl, rfl⟩
      · exact ⟨.inl rfl, rfl, rfl⟩
      · exact ⟨.inr rfl, rfl, by decide⟩
    obtain ⟨hh, rfl, hb⟩ := hh
    simp only [List.nil_append] at hpost
    subst hpost
    have ba := byteLen_of_ascii fun c hc => docHex_ascii (k1 c hc)
    have bb := byteLen_of_ascii fun c hc => docHex_ascii (k2 c hc)
    have bc := byteLen_of_ascii fun c hc => docHex_ascii (k3 c hc)
    refine ⟨h, a ++ (b ++ (c ++ d)), hh, by simp, ?_, ?_, ?_⟩
    · intro x hx
      simp only [List.mem_append] at hx
      rcases hx with hx | hx | hx | hx
      · exact k1 x hx
      · exact k2 x hx
      · exact k3 x hx
      · rcases hd with ⟨rfl, _⟩ | ⟨_, k4, _⟩
        · cases hx
        · exact k4 x hx
    · rcases hd with ⟨rfl, _⟩ | ⟨l4, _, _⟩
      · left; simp [l1, l2, l3]
      · right; simp [l1, l2, l3, l4]
    · rcases hd with ⟨rfl, rfl⟩ | ⟨l4, k4, rfl⟩
      · simp [hexSpans, byteLen_append, byteLen_nil, hb, ba, bb, bc, l1, l2, l3, EREPart.groups, EREExpr.groups, hexGroup, ERE.groups,
          groupsBranches, EREBranch.groups, groupsParts]
      · have bd := byteLen_of_ascii fun c hc => docHex_ascii (k4 c hc)
        simp [hexSpans, byteLen_append, byteLen_nil, hb, ba, bb, bc, bd, l1, l2, l3, l4, EREPart.groups, EREExpr.groups, hexGroup,
          ERE.groups, groupsBranches, EREBranch.groups, groupsParts]
  · rintro ⟨h, ds, hh, rfl, hx, hl, rfl⟩
    obtain ⟨a, b, c, d, rfl, l1, l2, l3, l4⟩ : ∃ a b c d, ds = a ++ (b ++ (c ++ d)) ∧ a.length = 2 ∧ b.length = 2 ∧
        c.length = 2 ∧ (d = [] ∨ d.length = 2) := by
      refine ⟨ds.take 2, (ds.drop 2).take 2, (ds.drop 4).take 2, ds.drop 6, ?_, ?_, ?_, ?_, ?_⟩
      · have e1 : ds.drop 4 = (ds.drop 2).drop 2 := by rw [List.drop_drop]
        have e2 : ds.drop 6 = ((ds.drop 2).drop 2).drop 2 := by rw [List.drop_drop, List.drop_drop]
        rw [e1, e2, List.take_append_drop, List.take_append_drop, List.take_append_drop]
      · rw [List.length_take]; omega
      · rw [List.length_take, List.length_drop]; omega
      · rw [List.length_take, List.length_drop]; omega
      · rcases hl with hl | hl
        · left; exact List.eq_nil_of_length_eq_zero (by rw [List.length_drop]; omega)
        · right; rw [List.length_drop]; omega
    have hb : byteLen h = h.length := by rcases hh with rfl | rfl <;> decide
    have k1 : ∀ x ∈ a, docHex x = true := fun x h => hx x (by simp [h])
    have k2 : ∀ x ∈ b, docHex x = true := fun x h => hx x (by simp [h])
    have k3 : ∀ x ∈ c, docHex x = true := fun x h => hx x (by simp [h])
    have k4 : ∀ x ∈ d, docHex x = true := fun x h => hx x (by simp [h])
    have ba := byteLen_of_ascii fun c hc => docHex_ascii (k1 c hc)
    have bb := byteLen_of_ascii fun c hc => docHex_ascii (k2 c hc)
    have bc := byteLen_of_ascii fun c hc => docHex_ascii (k3 c hc)
    have bd := byteLen_of_ascii fun c hc => docHex_ascii (k4 c hc)
    have hd : ∀ g pre, ((d = [] ∧ (if d = [] then [] else [⟨g, byteLen pre, byteLen pre + 2⟩] : List Span) = []) ∨
        d.length = 2 ∧ (∀ c ∈ d, docHex c = true) ∧
          (if d = [] then [] else [⟨g, byteLen pre, byteLen pre + 2⟩]) = ([⟨g, byteLen pre, byteLen pre + 2⟩] : List Span)) := by
      intro g pre
      by_cases h0 : d = []
      · exact .inl ⟨h0, by rw [if_pos h0]⟩
      · exact .inr ⟨l4.resolve_left h0, k4, by rw [if_neg h0]⟩
    refine ⟨[], h ++ (a ++ (b ++ (c ++ d))), [], _, by simp, ⟨[], _, [], _, rfl, rfl, ⟨rfl, rfl, rfl⟩, h, _, [], _, rfl, rfl,
      hh.imp (fun h => ⟨h, rfl⟩) (fun h => ⟨h, rfl⟩),
      a, _, _, _, rfl, rfl, ⟨l1, k1, rfl⟩, b, _, _, _, rfl, rfl, ⟨l2, k2, rfl⟩, c, d, _, _, rfl, rfl, ⟨l3, k3, rfl⟩,
      d, [], _, [], by simp, rfl, hd _ _, [], [], [], [], rfl, rfl, ⟨rfl, rfl, rfl⟩, rfl, rfl⟩, ?_⟩
    rcases l4 with rfl | l4
    · simp [hexSpans, byteLen_append, byteLen_nil, hb, ba, bb, bc, l1, l2, l3, EREPart.groups, EREExpr.groups, hexGroup, ERE.groups,
        groupsBranches, EREBranch.groups, groupsParts]
    · have h0 : d ≠ [] := by rintro rfl; cases l4
      simp [hexSpans, byteLen_append, byteLen_nil, hb, ba, bb, bc, bd, l1, l2, l3, l4, EREPart.groups, EREExpr.groups, hexGroup,
        ERE.groups, groupsBranches, EREBranch.groups, groupsParts, h0]

/-- Where the groups are. -/
def colorRead (text : List Char) : Option (List Span) :=
  let p : Nat × List Char := match text with
    | '#' :: ds => (1, ds)
    | ds => (0, ds)
  if p.2.all docHex && (p.2.length == 6 || p.2.length == 8) then some (hexSpans p.1 p.2.length) else none

theorem colorRead_hash (ds : List Char) : colorRead ('#' :: ds) =
    if ds.all docHex && (ds.length == 6 || ds.length == 8) then some (hexSpans 1 ds.length) else none := rfl

theorem colorRead_plain {text : List Char} (h : text.head? ≠ some '#') : colorRead text =
    if text.all docHex && (text.length == 6 || text.length == 8) then some (hexSpans 0 text.length) else none := by
  unfold colorRead
  have : (match text with | '#' :: ds => ((1, ds) : Nat × List Char) | ds => (0, ds)) = (0, text) := by
    split
    · simp at h
    · rfl
  simp only [this]

theorem color_read : ReadBy colorERE colorRead := by
  intro text S
  rw [color_captures]
  constructor
  · rintro ⟨h, ds, rfl | rfl, rfl, hx, hl, rfl⟩
    · rw [colorRead_plain, if_pos (by simpa using ⟨hx, hl⟩)]
      · rfl
      · intro h
        cases text with
        | nil => cases h
        | cons c ds =>
          simp only [List.head?_cons, Option.some.injEq] at h
          have := hx c (by simp)
          rw [h] at this
          cases this
    · rw [List.singleton_append, colorRead_hash, if_pos (by simpa using ⟨hx, hl⟩)]
      rfl
  · intro h
    by_cases h0 : text.head? = some '#'
    · cases text with
      | nil => cases h0
      | cons c ds =>
        simp only [List.head?_cons, Option.some.injEq] at h0
        subst h0
        rw [colorRead_hash] at h
        split at h
        · rename_i hc
          cases h
          simp only [Bool.and_eq_true, List.all_eq_true, Bool.or_eq_true, beq_iff_eq] at hc
          exact ⟨['#'], ds, .inr rfl, rfl, hc.1, hc.2, rfl⟩
        · cases h
    · rw [colorRead_plain h0] at h
      split at h
      · rename_i hc
        cases h
        simp only [Bool.and_eq_true, List.all_eq_true, Bool.or_eq_true, beq_iff_eq] at hc
        exact ⟨[], text, .inl rfl, rfl, hc.1, hc.2, rfl⟩
      · cases h

theorem hexSpans_answer (k : Nat) (ds : List Char) :
    (if ds.all docHex && (ds.length == 6 || ds.length == 8) then some (hexSpans k ds.length) else none).map (answerOf 5) =
      colorDigits k ds := by
  unfold colorDigits
  cases h1 : ds.all docHex with
  | false => simp
  | true =>
    by_cases h6 : ds.length = 6
    · simp [h6, hexSpans, answerOf, lastSpan, List.range_succ]
    · by_cases h8 : ds.length = 8
      · simp [h8, hexSpans, answerOf, lastSpan, List.range_succ]
      · simp [h6, h8]

theorem color_answer (text : List Char) : (colorRead text).map (answerOf 5) = colorAnswer text := by
  unfold colorAnswer
  split
  · rw [colorRead_hash, hexSpans_answer]
  · rename_i hx
    rw [colorRead_plain, hexSpans_answer]
    intro h
    cases text with
    | nil => cases h
    | cons c ds =>
      simp only [List.head?_cons, Option.some.injEq] at h
      subst h
      exact hx _ rfl

theorem color_bounded : ¬ colorERE.Unbounded := by
  intro hu
  obtain ⟨text, S, hS, hn⟩ := hu 15
  obtain ⟨h, ds, hh, rfl, _, hl, rfl⟩ := color_captures.mp hS
  have h1 : h.length ≤ 1 := by rcases hh with rfl | rfl <;> decide
  have h2 : (hexSpans h.length ds.length).length ≤ 5 := by
    unfold hexSpans
    split <;> simp
  rw [List.length_append] at hn
  omega

theorem color_ascii : OnlyAscii colorERE := by
  intro text hm c hc
  obtain ⟨S, hS⟩ := captures_matchesIn.mpr hm
  obtain ⟨h, ds, hh, rfl, hx, _⟩ := color_captures.mp hS
  rcases List.mem_append.mp hc with hc | hc
  · rcases hh with rfl | rfl
    · cases hc
    · rw [List.mem_singleton] at hc; subst hc; decide
  · exact docHex_ascii (hx c hc)

theorem color_atoms : GoodAtoms colorERE := by
  simp only [GoodAtoms, colorERE, hexGroup, ERE.atomsAll, branchesAtoms, EREBranch.atomsAll, partsAtoms, EREPart.atomsAll,
    EREExpr.atomsAll, Bool.and_true, Bool.true_and, Bool.and_eq_true, decide_eq_true_eq, and_self]
  exact ⟨⟨⟨'#', by decide⟩, by simp [Atom.Ordered]⟩, ⟨'0', by decide⟩, by simp [hexDigitAtom, Atom.Ordered, Term.Ordered]⟩

theorem color_last : ∃ text S, colorRead text = some S ∧ (lastSpan S colorERE.groups).isSome = true :=
  ⟨"ffffff80".toList, hexSpans 0 8, by decide, by decide⟩

/-- The program for colours exists and compiles, although the pattern contains `[:xdigit:]`. -/
theorem color_compiles (U : Utf8Seqs) (cr : List String) :
    ∃ E, compileRegex U.seqs colorPattern = .ok (some E) ∧ E.compiles cr = true := by
  obtain ⟨text0, S0, h0, _⟩ := color_last
  obtain ⟨E, hE⟩ := C17_compile_returns_partial U parse_color ⟨text0, readBy_matches color_read h0⟩
  refine ⟨E, hE, ?_⟩
  cases hc : E.compiles cr with
  | true => rfl
  | false =>
    obtain ⟨_, h | h⟩ := ((C62_ascii_compiles_iff U parse_color color_framed color_atoms color_ascii hE cr).2).mp hc
    · exact absurd h.1 color_bounded
    · exact absurd color_read.one h.2

/-! ## C81 -/

/-- **C81 (telephone numbers).** `compile_regex!` gives a `Regex<2>` for the first pattern of the README, in every crate that
depends on `ere`, and on every text `test` and `exec` are `phoneAnswer`. -/
theorem C81_phone (U : Utf8Seqs) {cr : List String} (hcr : "ere" ∈ cr) :
    ∃ E, compileRegex U.seqs "^(\\+1 )?[0-9]{3}-[0-9]{3}-[0-9]{4}$".toList = .ok (some E) ∧ E.compiles cr = true ∧
      E.groups = 2 ∧ ∀ text, E.test text = .ok (phoneAnswer text).isSome ∧ E.exec text = .ok (phoneAnswer text) := by
  obtain ⟨E, hE, hc⟩ := phone_compiles U hcr
  obtain ⟨h1, h2⟩ := readBy_regex U parse_phone phone_framed (by decide) phone_read phone_last hE hc
  refine ⟨E, hE, hc, h1, fun text => ?_⟩
  rw [← phone_answer, Option.isSome_map]
  exact h2 text

/-- **C81 (colours).** The same for the second pattern, a `Regex<5>`. -/
theorem C81_color (U : Utf8Seqs) (cr : List String) :
    ∃ E, compileRegex U.seqs "^#?([[:xdigit:]]{2})([[:xdigit:]]{2})([[:xdigit:]]{2})([[:xdigit:]]{2})?$".toList =
        .ok (some E) ∧ E.compiles cr = true ∧ E.groups = 5 ∧
      ∀ text, E.test text = .ok (colorAnswer text).isSome ∧ E.exec text = .ok (colorAnswer text) := by
  obtain ⟨E, hE, hc⟩ := color_compiles U cr
  obtain ⟨h1, h2⟩ := readBy_regex U parse_color color_framed (by decide) color_read color_last hE hc
  refine ⟨E, hE, hc, h1, fun text => ?_⟩
  rw [← color_answer, Option.isSome_map]
  exact h2 text

/-- **C81 (colours, attribute macro).** The struct of the documentation, with five fields. -/
theorem C81_color_attribute (U : Utf8Seqs) (cr : List String) :
    ∃ A, compileAttr U.seqs "^#?([[:xdigit:]]{2})([[:xdigit:]]{2})([[:xdigit:]]{2})([[:xdigit:]]{2})?$".toList 5 =
        .ok (some A) ∧ A.compiles cr = true ∧
      ∀ text, A.test text = .ok (colorAnswer text).isSome ∧ A.exec text = .ok (colorAnswer text) := by
  obtain ⟨E, hE, hc⟩ := color_compiles U cr
  obtain ⟨A, hA, hc', h2⟩ := readBy_attr U parse_color color_framed (by decide) color_read color_last hE hc
  refine ⟨A, hA, hc', fun text => ?_⟩
  rw [← color_answer, Option.isSome_map]
  exact h2 text

/-- **One assertion of the README is false**: for `1F2e3D` it gives the whole match as `1F2E3D`, but the answer is the whole
text, and that is another string. -/
theorem C81_readme_negation (U : Utf8Seqs) (cr : List String) :
    ∃ E r, compileRegex U.seqs "^#?([[:xdigit:]]{2})([[:xdigit:]]{2})([[:xdigit:]]{2})([[:xdigit:]]{2})?$".toList =
        .ok (some E) ∧ E.compiles cr = true ∧ E.exec "1F2e3D".toList = .ok (some (some (0, 6) :: r)) ∧
      byteLen "1F2e3D".toList = 6 ∧ "1F2e3D" ≠ "1F2E3D" := by
  obtain ⟨E, h1, h2, _, h3⟩ := C81_color U cr
  exact ⟨E, [some (0, 2), some (2, 4), some (4, 6), none], h1, h2, (h3 _).2, by decide, by decide⟩

/-- The other answers that the README asserts. -/
example : phoneAnswer "012-345-6789".toList = some [some (0, 12), none] ∧
    phoneAnswer "+1 555-555-5555".toList = some [some (0, 15), some (0, 3)] ∧ phoneAnswer "abcd".toList = none ∧
    phoneAnswer "0123456789".toList = none ∧ phoneAnswer "012--345-6789".toList = none ∧
    phoneAnswer "(555) 555-5555".toList = none ∧ phoneAnswer "1 555-555-5555".toList = none ∧
    phoneAnswer "green".toList = none ∧ phoneAnswer "%FFFFFF".toList = none ∧ phoneAnswer "#2".toList = none := by decide
example : colorAnswer "#000000".toList = some [some (0, 7), some (1, 3), some (3, 5), some (5, 7), none] ∧
    colorAnswer "1F2e3D".toList = some [some (0, 6), some (0, 2), some (2, 4), some (4, 6), none] ∧
    colorAnswer "ffffff80".toList = some [some (0, 8), some (0, 2), some (2, 4), some (4, 6), some (6, 8)] := by decide

end Ere.Props
