import Verif.Spec.Posix
import Verif.Props.Atoms
import Verif.Props.Laws
import Verif.Props.Attribute

/-! # C74, C75: patterns are read as POSIX says

`Spec/Posix.lean` is the POSIX grammar of extended regular expressions and the POSIX meaning of their atoms. -/

namespace Ere.Props

/-! ## C75: the meaning of atoms -/

theorem posixMembers_small (k : BracketCharClass) : ∀ c ∈ posixMembers k, c.toNat < 128 := by
  cases k <;> decide +kernel

theorem checkAscii_small (k : BracketCharClass) (c : Char) (h : k.checkAscii c = true) : c.toNat < 128 := by
  cases k <;> simp only [BracketCharClass.checkAscii, BracketCharClass.isAsciiDigit, BracketCharClass.isAsciiUpper,
    BracketCharClass.isAsciiLower, Bool.or_eq_true, decide_eq_true_eq, beq_iff_eq] at h
  case space => rcases h with (((((h | h) | h) | h) | h) | h) <;> subst h <;> decide
  case blank => rcases h with h | h <;> subst h <;> decide
  all_goals omega

theorem checkAscii_table : ∀ k ∈ [BracketCharClass.alphanumeric, .control, .lower, .space, .alphabet, .digit, .print,
    .upper, .blank, .graphic, .punctuation, .hexDigit], ∀ n ∈ List.range 128,
    k.checkAscii (Char.ofNat n) = decide (Char.ofNat n ∈ posixMembers k) := by
  decide +kernel

/-- **C75 (classes).** A named class accepts exactly the characters that POSIX lists for it (in the POSIX locale). -/
theorem C75_classes (k : BracketCharClass) (c : Char) : k.checkAscii c = true ↔ c ∈ posixMembers k := by
  have key (h : c.toNat < 128) : k.checkAscii c = true ↔ c ∈ posixMembers k := by
    have := checkAscii_table k (by cases k <;> decide) c.toNat (by simpa using h)
    rw [Char.ofNat_toNat] at this
    rw [this, decide_eq_true_eq]
  exact ⟨fun h => (key (checkAscii_small k c h)).1 h, fun h => (key (posixMembers_small k c h)).2 h⟩

theorem term_means (t : Term) (c : Char) : t.check c = true ↔ t.Means c := by
  cases t with
  | single a => simp only [Term.check, Term.Means, beq_iff_eq]; exact eq_comm
  | range a b => simp only [Term.check, Term.Means, Bool.and_eq_true, decide_eq_true_eq, char_le]
  | cls k => exact C75_classes k c

/-- **C75.** Every atom accepts exactly the characters POSIX says: a character itself, the dot every character but NUL, a
bracket expression the characters (not) listed, ranges by code point, classes by their POSIX members. -/
theorem C75_atoms (a : Atom) (c : Char) : a.check c = true ↔ a.Means c := by
  cases a with
  | normal a => simp only [Atom.check, Atom.Means, beq_iff_eq]; exact eq_comm
  | dot =>
    simp only [Atom.check, Atom.Means, bne_iff_ne, ne_eq]
    rw [not_iff_not]
    constructor
    · rintro rfl; rfl
    · intro h
      rw [← Char.ofNat_toNat c, h]
  | matching ts => simp only [Atom.check, Atom.Means, List.any_eq_true, term_means]
  | nonmatching ts =>
    simp only [Atom.check, Atom.Means, Bool.not_eq_true', ← Bool.not_eq_true, List.any_eq_true, term_means]

/-- The tests of characters in the generated code accept exactly the characters POSIX says. -/
theorem C75_emitted (a : Atom) (c : Char) :
    (a.serializeCheck c = true ↔ a.Means c) ∧ ((∃ r ∈ a.toRanges, r.lo ≤ c ∧ c ≤ r.hi) ↔ a.Means c) := by
  rw [C01_serialize_check, C01_atom_ranges_exact]
  exact ⟨C75_atoms a c, C75_atoms a c⟩

/-- non-vacuity: `[^[:space:]a-f]` accepts `g` and `é` but not the vertical tab or `e`. -/
example : (Atom.nonmatching [.cls .space, .range 'a' 'f']).Means 'g' ∧
    (Atom.nonmatching [.cls .space, .range 'a' 'f']).Means 'é' ∧
    ¬ (Atom.nonmatching [.cls .space, .range 'a' 'f']).Means '\x0b' ∧
    ¬ (Atom.nonmatching [.cls .space, .range 'a' 'f']).Means 'e' := by
  simp only [← C75_atoms]
  decide

/-! ## C74: the grammar -/

theorem posix_items {first : Bool} {ts : List Term} {w : List Char} (h : PosixItems false first ts w) :
    (first = false → SpellsItems ts w) ∧ (first = true → SpellsList ts w) := by
  induction h with
  | close => exact ⟨fun _ => .close, nofun⟩
  | dash => exact ⟨fun _ => .single (by decide) (by decide) (by
      rintro ⟨k, hk⟩
      have := hk.getElem (i := 0) (by simp [classText])
      simp [classText] at this) .close, nofun⟩
  | @single first c ts w hc hw ih =>
    have hi := ih.1 rfl
    have hn : ¬ StartsClass (c :: w) := by
      rintro ⟨k, t, ht⟩
      simp only [classText, List.cons_append, List.cons.injEq] at ht
      obtain ⟨rfl, rfl⟩ := ht
      exact hc.2.2 rfl ⟨':', by simp, rfl⟩
    have key (h : c ≠ ']') : SpellsItems (.single c :: ts) (c :: w) := by
      cases hw with
      | dash => exact .dash h
      | close => exact .single h (by decide) hn hi
      | single hd hr =>
        refine .single h ?_ hn hi
        rintro hh
        simp only [List.head?_cons, Option.some.injEq] at hh
        exact absurd (hd.2.1 hh) (by decide)
      | range hd =>
        refine .single h ?_ hn hi
        rintro hh
        simp only [List.head?_cons, Option.some.injEq] at hh
        exact absurd (hd.2.1 hh) (by decide)
      | cls hr => exact .single h (by simp [classText]) hn hi
      | symbol hf => cases hf
      | symbolRange hf => cases hf
      | equiv hf => cases hf
    refine ⟨fun hf => key (fun h => ?_), fun _ => ?_⟩
    · have := hc.1 h
      rw [hf] at this
      cases this
    · by_cases h : c = ']'
      · subst h; exact .bracket hi
      · exact .plain (by simpa using h) (key h)
  | @range first a b ts v w hc hb he hab hw ih =>
    have ha : a ≠ ']' := fun h => absurd (hb h) (by decide)
    have key : SpellsItems (.range a b :: ts) (a :: '-' :: (v ++ w)) := by
      cases he with
      | plain h1 h2 => exact .range ha h1 (ih.1 rfl)
      | symbol hf => cases hf
    exact ⟨fun _ => key, fun _ => .plain (by simpa using ha) key⟩
  | cls hw ih => exact ⟨fun _ => .cls (ih.1 rfl), fun _ => .plain (by simp [classText]) (.cls (ih.1 rfl))⟩
  | symbol hf => cases hf
  | symbolRange hf => cases hf
  | equiv hf => cases hf

theorem posix_atom {top : Bool} {a : Atom} {w : List Char} (h : PosixAtom false top a w) : SpellsAtom a w := by
  cases h with
  | ordinary h => exact .plain h
  | paren hf => cases hf
  | quoted h => exact .escaped (by simp [escapables, h])
  | dot => exact .dot
  | matching h1 h2 => exact .matching h1 ((posix_items h2).2 rfl)
  | nonmatching h => exact .nonmatching ((posix_items h).2 rfl)

theorem posix_num {n : Nat} {w : List Char} (h : PosixNum n w) : SpellsNum n w :=
  .digits h.1 h.2.1 h.2.2.1 (by have := h.2.2.2; omega)

theorem posix_dup {q : QType} {w : List Char} (h : PosixDup q w) : SpellsQType q w := by
  cases h with
  | star => exact .star
  | plus => exact .plus
  | question => exact .question
  | multiple h => exact .multiple (posix_num h)
  | atLeast h => exact .atLeast (posix_num h)
  | between h1 h2 h3 => exact .between (posix_num h1) (posix_num h2)

mutual
theorem posix_ere {top : Bool} {e : ERE} {w : List Char} (h : PosixERE false top e w) : SpellsERE e w := by
  cases h with
  | one h => exact .one (posix_branch h)
  | more h1 h2 => exact .more (posix_branch h1) (posix_ere h2)
theorem posix_branch {top : Bool} {b : EREBranch} {w : List Char} (h : PosixBranch false top b w) : SpellsBranch b w := by
  cases h with
  | one h => simpa using SpellsBranch.cons (posix_part h) .nil
  | more h1 h2 => exact .cons (posix_part h1) (posix_branch h2)
theorem posix_part {top : Bool} {p : EREPart} {w : List Char} (h : PosixPart false top p w) : SpellsPart p w := by
  cases h with
  | start => exact .start
  | end_ => exact .end_
  | single h => exact .single (posix_expr h)
  | quantified h1 h2 => exact .quantified (posix_expr h1) (.greedy (posix_dup h2))
theorem posix_expr {top : Bool} {x : EREExpr} {w : List Char} (h : PosixExpr false top x w) : SpellsExpr x w := by
  cases h with
  | atom h => exact .atom (posix_atom h)
  | sub h => exact .sub (posix_ere h)
end

/-- **C74.** Every POSIX extended regular expression that has no unmatched `)`, no collating symbol, no equivalence class
and no range that starts with `]` is accepted by the parser and read as POSIX says. (Missing from the full claim: the
four constructs, which the code rejects or reads differently, see `C74_paren`, `C74_collating`, `C74_equivalence`,
`C74_bracket_range`.) -/
theorem C74_parser_partial {e : ERE} {w : List Char} (h : IsPlainPosix e w) : parseStr w = .ok e :=
  parseStr_iff.2 (posix_ere h)

/-- Such a text has only one reading. -/
theorem C74_one_reading {e e' : ERE} {w : List Char} (h : IsPlainPosix e w) (h' : IsPlainPosix e' w) : e = e' :=
  C43_unambiguous (posix_ere h) (posix_ere h')

/-- The macro: the program that `compile_regex!` emits for such a text answers `test` by the POSIX reading, provided the
program compiles (C38 to C41 say when) and the DFA engine is not used for a pattern with conditional anchors
(`TestOk`). -/
theorem C74_compile_regex_partial (U : Utf8Seqs) {e : ERE} {w : List Char} (hw : IsPlainPosix e w) {E : Engine}
    (h : compileRegex U.seqs w = .ok (some E)) {cr : List String} (hc : E.compiles cr = true) (hs : TestOk e E)
    (text : List Char) : ∃ b, E.test text = .ok b ∧ (b = true ↔ e.MatchesIn text) := by
  exact (C41_test_partial U (compileRegex_ok (C74_parser_partial hw) h) hc hs text).1

/-- The same for the attribute macro. -/
theorem C74_attribute_partial (U : Utf8Seqs) {e : ERE} {w : List Char} (hw : IsPlainPosix e w) {k : Nat} {A : Attr}
    (h : compileAttr U.seqs w k = .ok (some A)) {cr : List String} (hc : A.compiles cr = true)
    (hs : TestOk e A.engine) (text : List Char) : ∃ b, A.test text = .ok b ∧ (b = true ↔ e.MatchesIn text) := by
  obtain ⟨e', N, he', _, hE, _⟩ := compileAttr_ok h
  rw [C74_parser_partial hw] at he'
  cases he'
  simp only [Attr.compiles, Bool.and_eq_true, beq_iff_eq] at hc
  exact (C41_test_partial U hE hc.1 hs text).1

/-- The plain part of the grammar is part of the grammar. -/
theorem plain_items {first : Bool} {ts : List Term} {w : List Char} (h : PosixItems false first ts w) :
    PosixItems true first ts w := by
  induction h with
  | close => exact .close
  | dash => exact .dash
  | single hc _ ih => exact .single hc ih
  | range hc _ he hab _ ih =>
    refine .range hc (fun _ => rfl) ?_ hab ih
    cases he with
    | plain h1 h2 => exact .plain h1 h2
    | symbol hf => cases hf
  | cls _ ih => exact .cls ih
  | symbol hf => cases hf
  | symbolRange hf => cases hf
  | equiv hf => cases hf

theorem plain_atom {top : Bool} {a : Atom} {w : List Char} (h : PosixAtom false top a w) : PosixAtom true top a w := by
  cases h with
  | ordinary h => exact .ordinary h
  | paren hf => cases hf
  | quoted h => exact .quoted h
  | dot => exact .dot
  | matching h1 h2 => exact .matching h1 (plain_items h2)
  | nonmatching h => exact .nonmatching (plain_items h)

mutual
theorem plain_ere {top : Bool} {e : ERE} {w : List Char} (h : PosixERE false top e w) : PosixERE true top e w := by
  cases h with
  | one h => exact .one (plain_branch h)
  | more h1 h2 => exact .more (plain_branch h1) (plain_ere h2)
theorem plain_branch {top : Bool} {b : EREBranch} {w : List Char} (h : PosixBranch false top b w) :
    PosixBranch true top b w := by
  cases h with
  | one h => exact .one (plain_part h)
  | more h1 h2 => exact .more (plain_part h1) (plain_branch h2)
theorem plain_part {top : Bool} {p : EREPart} {w : List Char} (h : PosixPart false top p w) : PosixPart true top p w := by
  cases h with
  | start => exact .start
  | end_ => exact .end_
  | single h => exact .single (plain_expr h)
  | quantified h1 h2 => exact .quantified (plain_expr h1) h2
theorem plain_expr {top : Bool} {x : EREExpr} {w : List Char} (h : PosixExpr false top x w) : PosixExpr true top x w := by
  cases h with
  | atom h => exact .atom (plain_atom h)
  | sub h => exact .sub (plain_ere h)
end

/-- What is read as POSIX says is a POSIX extended regular expression. -/
theorem C74_plain_posix {e : ERE} {w : List Char} (h : IsPlainPosix e w) : IsPosix e w := plain_ere h

/-- non-vacuity: `^([]a-c[:digit:]-]{2,3}|\.x)$` is such a text. -/
def patPosix : ERE := .mk [.mk [.start, .single (.sub (.mk [
  .mk [.quantified (.atom (.matching [.single ']', .range 'a' 'c', .cls .digit, .single '-'])) ⟨.range 2 (some 3), false⟩],
  .mk [.single (.atom (.normal '.')), .single (.atom (.normal 'x'))]])), .end_]]

theorem patPosix_posix : IsPlainPosix patPosix "^([]a-c[:digit:]-]{2,3}|\\.x)$".toList := by
  have b : PosixAtom false false (.matching [.single ']', .range 'a' 'c', .cls .digit, .single '-'])
      "[]a-c[:digit:]-]".toList := by
    refine .matching (by decide) (.single ⟨by simp, by simp, by simp⟩ ?_)
    refine .range (v := ['c']) ⟨by simp, by simp, by simp⟩ (by simp) (.plain (by decide) (by simp)) (by decide) ?_
    exact .cls (k := .digit) .dash
  have q : PosixDup (.range 2 (some 3)) "{2,3}".toList :=
    .between (w := ['2']) (v := ['3']) ⟨by simp, by decide, by decide, by decide⟩
      ⟨by simp, by decide, by decide, by decide⟩ (by decide)
  have g : PosixERE false false (.mk [.mk [.quantified (.atom (.matching [.single ']', .range 'a' 'c', .cls .digit,
      .single '-'])) ⟨.range 2 (some 3), false⟩], .mk [.single (.atom (.normal '.')), .single (.atom (.normal 'x'))]])
      ("[]a-c[:digit:]-]".toList ++ "{2,3}".toList ++ '|' :: (['\\', '.'] ++ ['x'])) :=
    .more (.one (.quantified (.atom b) q))
      (.one (.more (.single (.atom (.quoted (by decide)))) (.one (.single (.atom (.ordinary (by decide)))))))
  exact .one (.more .start (.more (w := "([]a-c[:digit:]-]{2,3}|\\.x)".toList) (.single (.sub g)) (.one .end_)))

example : parseStr "^([]a-c[:digit:]-]{2,3}|\\.x)$".toList = .ok patPosix := C74_parser_partial patPosix_posix

/-- non-vacuity of the theorem about the macro: the program emitted for this text compiles, and `patPosix` begins with
`^`. -/
example : (compileRegex utf8Sequences "^([]a-c[:digit:]-]{2,3}|\\.x)$".toList).map (·.map (fun E =>
      (E.compiles ["ere"], decide (E.test "]2-".toList = .ok true), decide (E.test "]z".toList = .ok true)))) =
    .ok (some (true, true, false)) ∧ ∀ E, TestOk patPosix E := by
  refine ⟨by decide +kernel, fun _ _ _ => .inr (.inr (.inl (by decide)))⟩

/-! ## What is not read as POSIX says -/

/-- **C74 is false for unmatched `)`:** a pattern followed by `)` is never accepted, whatever comes after it. -/
theorem C74_paren {e : ERE} {w : List Char} (h : SpellsERE e w) (v : List Char) :
    parseStr (w ++ ')' :: v) = .error (.invalidAtom ')') := by
  have := (take_complete_ere h (')' :: v) (.inr rfl)).1 (parseFuel (w ++ ')' :: v)) (by
    simp only [parseFuel, List.length_append]; omega)
  unfold parseStr
  rw [this]

/-- What the code makes of `[[.c.]]` and `[[=c=]]`: one of three characters, and then a `]`. -/
def misread (m c : Char) : ERE := .mk [.mk [.single (.atom (.matching [.single '[', .single m, .single c, .single m])),
  .single (.atom (.normal ']'))]]

theorem misread_spells {m c : Char} (hm : m = '.' ∨ m = '=') (h1 : c ≠ ']') (h2 : c ≠ '-') :
    SpellsERE (misread m c) ['[', '[', m, c, m, ']', ']'] := by
  have hn : ∀ (a : Char) (w : List Char), (a ≠ '[' ∨ w.head? ≠ some ':') → ¬ StartsClass (a :: w) := by
    rintro a w h ⟨k, t, ht⟩
    simp only [classText, List.cons_append, List.cons.injEq] at ht
    obtain ⟨rfl, rfl⟩ := ht
    rcases h with h | h <;> exact h rfl
  have hm1 : m ≠ ']' := by rcases hm with rfl | rfl <;> decide
  have hm2 : m ≠ '-' := by rcases hm with rfl | rfl <;> decide
  have hm3 : m ≠ ':' := by rcases hm with rfl | rfl <;> decide
  have hm4 : m ≠ '[' := by rcases hm with rfl | rfl <;> decide
  refine .one (.cons (w := ['[', '[', m, c, m, ']']) (v := [']']) (.single (.atom (.matching (by simp) (.plain (by simp)
    (.single (by decide) (by simpa using hm2) (hn _ _ (by simpa using hm3)) (.single hm1 (by simpa using h2)
      (hn _ _ (.inl hm4)) (.single h1 (by simpa using hm2) (hn _ _ (by simp [hm3])) (.single hm1 (by decide)
        (hn _ _ (.inl hm4)) .close)))))))) ?_)
  exact .cons (w := [']']) (v := []) (.single (.atom (.plain (by decide)))) .nil

theorem misread_short {m c : Char} {text : List Char} (h : text.length < 2) : ¬ (misread m c).MatchesIn text := by
  rintro ⟨pre, mid, post, rfl, hm⟩
  cases hm with
  | intro hb hm =>
    simp only [List.mem_singleton] at hb
    subst hb
    cases hm with
    | cons p1 hr =>
      cases hr with
      | cons p2 hr =>
        cases hr
        cases p1 with
        | single p1 =>
          cases p1 with
          | atom p1 =>
            cases p2 with
            | single p2 =>
              cases p2 with
              | atom p2 => simp at h; omega

/-- **C74 is false for collating symbols:** `[[.c.]]` is POSIX for the character `c`, is accepted, and matches no text of
one character; in particular not `c`. -/
theorem C74_collating {c : Char} (h1 : c ≠ ']') (h2 : c ≠ '-') :
    let w := ['[', '[', '.', c, '.', ']', ']']
    IsPosix (.mk [.mk [.single (.atom (.matching [.single c]))]]) w ∧
    (ERE.mk [.mk [.single (.atom (.matching [.single c]))]]).MatchesIn [c] ∧
    ∃ e, parseStr w = .ok e ∧ ∀ text, text.length < 2 → ¬ e.MatchesIn text := by
  refine ⟨.one (.one (.single (.atom (.matching (by simp) (.symbol (w := [']']) rfl .close))))), ?_,
    misread '.' c, parseStr_iff.2 (misread_spells (.inl rfl) h1 h2), fun _ => misread_short⟩
  refine ⟨[], [c], [], rfl, .intro (List.mem_singleton.2 rfl) (.cons (m1 := [c]) (m2 := []) (.single (.atom ?_)) .nil)⟩
  simp [Atom.check, Term.check]

/-- **C74 is false for equivalence classes:** likewise for `[[=c=]]`. -/
theorem C74_equivalence {c : Char} (h1 : c ≠ ']') (h2 : c ≠ '-') :
    let w := ['[', '[', '=', c, '=', ']', ']']
    IsPosix (.mk [.mk [.single (.atom (.matching [.single c]))]]) w ∧
    (ERE.mk [.mk [.single (.atom (.matching [.single c]))]]).MatchesIn [c] ∧
    ∃ e, parseStr w = .ok e ∧ ∀ text, text.length < 2 → ¬ e.MatchesIn text := by
  refine ⟨.one (.one (.single (.atom (.matching (by simp) (.equiv (w := [']']) rfl .close))))), ?_,
    misread '=' c, parseStr_iff.2 (misread_spells (.inr rfl) h1 h2), fun _ => misread_short⟩
  refine ⟨[], [c], [], rfl, .intro (List.mem_singleton.2 rfl) (.cons (m1 := [c]) (m2 := []) (.single (.atom ?_)) .nil)⟩
  simp [Atom.check, Term.check]

/-- **C74 is false for ranges that start with `]`:** `[]-c]` is POSIX for the range from `]` to `c`; the code accepts it
as one of the characters `]`, `-`, `c`. -/
theorem C74_bracket_range {c : Char} (h1 : ']' < c) :
    let w := ['[', ']', '-', c, ']']
    IsPosix (.mk [.mk [.single (.atom (.matching [.range ']' c]))]]) w ∧
    ∃ ts, parseStr w = .ok (.mk [.mk [.single (.atom (.matching ts))]]) ∧
      ∀ x, (Atom.matching ts).Means x ↔ x = ']' ∨ x = '-' ∨ x = c := by
  have hc : ']'.toNat < c.toNat := h1
  have c1 : c ≠ ']' := by rintro rfl; exact absurd hc (by decide)
  have c2 : c ≠ '-' := by rintro rfl; exact absurd hc (by decide)
  have c3 : c ≠ '[' := by rintro rfl; exact absurd hc (by decide)
  refine ⟨.one (.one (.single (.atom (.matching (by simp) (.range (v := [c]) (w := [']'])
    ⟨by simp, by simp, by simp⟩ (by simp) (.plain c1 (fun h => absurd h c3)) (Nat.le_of_lt hc) .close))))),
    [.single ']', .single '-', .single c], parseStr_iff.2 ?_, ?_⟩
  · have hn : ∀ (a : Char) (w : List Char), a ≠ '[' → ¬ StartsClass (a :: w) := by
      rintro a w h ⟨k, t, ht⟩
      simp only [classText, List.cons_append, List.cons.injEq] at ht
      exact h ht.1.symm
    have := SpellsBranch.cons (SpellsPart.single (.atom (.matching (by simp) (.bracket (.single (a := '-') (by decide)
      (by simpa using c2) (hn _ _ (by decide)) (.single c1 (by decide) (hn _ _ c3) .close)))))) .nil
    exact .one (by simpa using this)
  · intro x
    simp [Atom.Means, Term.Means]

/-- **C74 is false in general:** POSIX texts that are rejected, read differently, or read correctly but refused by the
macro (`a^b`, which POSIX calls valid though it matches nothing, XBD 9.4.9). -/
theorem C74_negation :
    (∃ e, IsPosix e "a)".toList ∧ ∀ e', parseStr "a)".toList ≠ .ok e') ∧
    (∃ e e', IsPosix e "[]-a]".toList ∧ parseStr "[]-a]".toList = .ok e' ∧ e.MatchesIn ['_'] ∧ ¬ e'.MatchesIn ['_']) ∧
    (∃ e, IsPlainPosix e "a^b".toList ∧ compileRegex utf8Sequences "a^b".toList = .error .panic) := by
  refine ⟨?_, ?_, ?_⟩
  · refine ⟨.mk [.mk [.single (.atom (.normal 'a')), .single (.atom (.normal ')'))]], ?_, ?_⟩
    · exact .one (.more (w := ['a']) (.single (.atom (.ordinary (by decide)))) (.one (.single (.atom (.paren rfl rfl)))))
    · intro e' h
      have := C74_paren (w := ['a']) (.one (.cons (w := ['a']) (.single (.atom (.plain (by decide)))) .nil)) []
      rw [show "a)".toList = ['a'] ++ ')' :: [] from rfl, this] at h
      cases h
  · obtain ⟨h1, ts, h2, h3⟩ := C74_bracket_range (c := 'a') (by decide)
    refine ⟨_, _, h1, h2, ?_, ?_⟩
    · exact ⟨[], ['_'], [], rfl, .intro (List.mem_singleton.2 rfl) (.cons (m1 := ['_']) (m2 := [])
        (.single (.atom (by decide))) .nil)⟩
    · rintro ⟨pre, mid, post, ht, hm⟩
      cases hm with
      | intro hb hm =>
        simp only [List.mem_singleton] at hb
        subst hb
        cases hm with
        | cons p1 hr =>
          cases hr
          cases p1 with
          | single p1 =>
            cases p1 with
            | atom p1 =>
              have := (h3 _).1 ((C75_atoms _ _).1 p1)
              rcases this with rfl | rfl | rfl <;> simp [List.cons_eq_append_iff] at ht
  · refine ⟨.mk [.mk [.single (.atom (.normal 'a')), .start, .single (.atom (.normal 'b'))]], ?_,
      (C17_negation "a^b" (by simp)).2⟩
    exact .one (.more (w := ['a']) (.single (.atom (.ordinary (by decide)))) (.more .start
      (.one (.single (.atom (.ordinary (by decide)))))))

end Ere.Props
