import Verif.Proofs.CharMap
import Verif.Props.Total
import Verif.Props.Laws
import Verif.Props.Attribute

/-! # C78: upper and lower case -/

namespace Ere.Props

theorem asciiLower_toNat (c : Char) :
    (asciiLower c).toNat = if 65 ≤ c.toNat ∧ c.toNat ≤ 90 then c.toNat + 32 else c.toNat := by
  have hA : ('A' ≤ c ∧ c ≤ 'Z') ↔ (65 ≤ c.toNat ∧ c.toNat ≤ 90) := Iff.rfl
  unfold asciiLower
  rw [show (if 'A' ≤ c ∧ c ≤ 'Z' then Char.ofNat (c.toNat + 32) else c) =
    if 65 ≤ c.toNat ∧ c.toNat ≤ 90 then Char.ofNat (c.toNat + 32) else c from if_congr hA rfl rfl]
  split
  · rename_i h
    exact toNat_ofNat (.inl (by omega))
  · rfl

theorem asciiUpper_toNat (c : Char) :
    (asciiUpper c).toNat = if 97 ≤ c.toNat ∧ c.toNat ≤ 122 then c.toNat - 32 else c.toNat := by
  have hA : ('a' ≤ c ∧ c ≤ 'z') ↔ (97 ≤ c.toNat ∧ c.toNat ≤ 122) := Iff.rfl
  unfold asciiUpper
  rw [show (if 'a' ≤ c ∧ c ≤ 'z' then Char.ofNat (c.toNat - 32) else c) =
    if 97 ≤ c.toNat ∧ c.toNat ≤ 122 then Char.ofNat (c.toNat - 32) else c from if_congr hA rfl rfl]
  split
  · rename_i h
    exact toNat_ofNat (.inl (by omega))
  · rfl

theorem asciiLower_upper (c : Char) : asciiLower (asciiUpper c) = asciiLower c := by
  refine Char.ext (UInt32.toNat_inj.1 ?_)
  show (asciiLower (asciiUpper c)).toNat = (asciiLower c).toNat
  rw [asciiLower_toNat, asciiLower_toNat, asciiUpper_toNat]
  split <;> split <;> (try split) <;> omega

/-- Lower-casing keeps the length of every character, so positions in the lower-cased text are positions in the text. -/
theorem asciiLower_len (c : Char) : charLen (asciiLower c) = charLen c := by
  unfold charLen
  rw [asciiLower_toNat]
  split
  · rw [if_pos (by omega), if_pos (by omega)]
  · rfl

theorem blind_reads {a a' : Atom} (h1 : LowAtom a) (h2 : BlindAtom a a') : ReadsAs asciiLower a a' := by
  intro c
  rw [Bool.eq_iff_iff, h2]
  constructor
  · rintro (h | h | h)
    · exact h1 c h
    · exact h
    · rw [← asciiLower_upper]
      exact h1 _ h
  · exact fun h => .inr (.inl h)

theorem caseBlind_reads {e e' : ERE} (h : e.CaseBlind e') : AltERE (ReadsAs asciiLower) e e' :=
  AltERE.mono (fun _ _ k => blind_reads k.1 k.2) h

/-- **C78 (meaning).** If `e'` is the pattern `e` modified so that it does not distinguish upper and lower case, and `e` does
not ask for upper-case letters, then `e'` matches a stretch of a text exactly if `e` matches the lower-cased stretch in the
lower-cased text, and the preferred match is at the same positions. -/
theorem C78_meaning {e e' : ERE} (h : e.CaseBlind e') :
    (∀ pre mid post, MatchesERE e' pre mid post ↔
      MatchesERE e (pre.map asciiLower) (mid.map asciiLower) (post.map asciiLower)) ∧
    ∀ text, e'.first text = e.first (text.map asciiLower) :=
  ⟨(caseBlind_reads h).map, (caseBlind_reads h).first asciiLower_len⟩

/-- **C78.** Let the anchors of the pattern stand only around its branches, and let the two emitted programs compile. Then
`test` of the modified pattern on a text is `test` of the pattern on the lower-cased text. -/
theorem C78_test (U : Utf8Seqs) {s t : Bool} {w w' : List Char} {e e' : ERE} (hp : parseStr w = .ok e)
    (hp' : parseStr w' = .ok e') (hb : e.CaseBlind e') (he : e.Framed s t) {E E' : Engine}
    (h : compileRegex U.seqs w = .ok (some E)) (h' : compileRegex U.seqs w' = .ok (some E')) {cr : List String}
    (hc : E.compiles cr = true) (hc' : E'.compiles cr = true) (text : List Char) :
    E'.test text = E.test (text.map asciiLower) := by
  obtain ⟨⟨b, h1, h2⟩, _⟩ := C41_test_partial U (compileRegex_ok hp h) hc
    (fun _ _ => .inr (framed_startSimple he)) (text.map asciiLower)
  obtain ⟨⟨b', h1', h2'⟩, _⟩ := C41_test_partial U (compileRegex_ok hp' h') hc'
    (fun _ _ => .inr (framed_startSimple (AltERE.framed hb he))) text
  rw [h1, h1', Bool.eq_iff_iff.2 (h2'.trans (((caseBlind_reads hb).matchesIn text).trans h2.symm))]

/-- The same for the attribute macro. -/
theorem C78_attribute (U : Utf8Seqs) {s t : Bool} {w w' : List Char} {e e' : ERE} (hp : parseStr w = .ok e)
    (hp' : parseStr w' = .ok e') (hb : e.CaseBlind e') (he : e.Framed s t) {k k' : Nat} {A A' : Attr}
    (h : compileAttr U.seqs w k = .ok (some A)) (h' : compileAttr U.seqs w' k' = .ok (some A')) {cr : List String}
    (hc : A.compiles cr = true) (hc' : A'.compiles cr = true) (text : List Char) :
    A'.test text = A.test (text.map asciiLower) := by
  obtain ⟨E, h1, h2, _, h4⟩ := C45_same_program U h hc
  obtain ⟨E', h1', h2', _, h4'⟩ := C45_same_program U h' hc'
  rw [(h4 _).1, (h4' _).1]
  exact C78_test U hp hp' hb he h1 h1' h2 h2' text

/-- The flat engines, for patterns with anchors anywhere. -/
theorem C78_flat (U : Utf8Seqs) {e e' : ERE} (hb : e.CaseBlind e') (text : List Char) :
    (∀ F F', compileFlatChar e = .ok F → compileFlatChar e' = .ok F' → F'.test text = F.test (text.map asciiLower)) ∧
    ∀ F F', compileFlatU8 U.seqs e = .ok F → compileFlatU8 U.seqs e' = .ok F' →
      F'.test (encode text) = F.test (encode (text.map asciiLower)) := by
  have k := (caseBlind_reads hb).matchesIn text
  exact ⟨fun F F' h h' => Bool.eq_iff_iff.2 ((C18_flat_char_test h' _).trans (k.trans (C18_flat_char_test h _).symm)),
    fun F F' h h' => Bool.eq_iff_iff.2 ((C19_flat_u8_test U h' _).trans (k.trans (C19_flat_u8_test U h _).symm))⟩

/-- **C78 (captures).** Let moreover every expression that is repeated without bound consume a character per round, and if
the branches end with `$` and a one-pass engine has been chosen, let the text determine what the groups capture. Then `exec`
of the modified pattern on a text reports the same positions as `exec` of the pattern on the lower-cased text. -/
theorem C78_exec (U : Utf8Seqs) {s t : Bool} {w w' : List Char} {e e' : ERE} (hp : parseStr w = .ok e)
    (hp' : parseStr w' = .ok e') (hb : e.CaseBlind e') (he : e.Framed s t) (hg : e.progress = true) {E E' : Engine}
    (h : compileRegex U.seqs w = .ok (some E)) (h' : compileRegex U.seqs w' = .ok (some E')) {cr : List String}
    (hc : E.compiles cr = true) (hc' : E'.compiles cr = true) (ho : t = true → (∃ P, E.base = .onePass P) → e.OneReading)
    (ho' : t = true → (∃ P, E'.base = .onePass P) → e'.OneReading) (text : List Char) :
    (E'.exec text = .ok none ∧ E.exec (text.map asciiLower) = .ok none) ∨
    ∃ (r' r : List (Option (Nat × Nat))), E'.exec text = .ok (some r') ∧ E.exec (text.map asciiLower) = .ok (some r) ∧
      ∀ g : Nat, (r'[g]?).join = (r[g]?).join := by
  have k := C65_framed_preferred U hp he hg h hc ho (text.map asciiLower)
  have k' := C65_framed_preferred U hp' (AltERE.framed hb he) (by rw [AltERE.progress hb, hg]) h' hc' ho' text
  have hf := (C78_meaning hb).2 text
  rcases k with ⟨k1, k2⟩ | ⟨r, S, k1, k2, _, k3⟩ <;> rcases k' with ⟨k1', k2'⟩ | ⟨r', S', k1', k2', _, k3'⟩ <;>
    rw [hf, k2] at k2'
  · exact .inl ⟨k1', k1⟩
  · cases k2'
  · cases k2'
  · cases k2'
    exact .inr ⟨r', r, k1', k1, fun g => by rw [k3', k3]⟩

/-! ### The atoms for which this holds -/

theorem low_range {x y : Char} {a : Atom} (ha : ∀ c, a.check c = true ↔ (x.toNat ≤ c.toNat ∧ c.toNat ≤ y.toNat))
    (hx : 97 ≤ x.toNat) : LowAtom a := by
  intro c
  rw [ha, ha, asciiLower_toNat]
  split <;> omega

/-- A lower-case letter `x` becomes `[xX]`. -/
theorem C78_letter {x : Char} (hx : 'a' ≤ x ∧ x ≤ 'z') :
    LowAtom (.normal x) ∧ BlindAtom (.normal x) (.matching [.single x, .single (asciiUpper x)]) := by
  have hx : 97 ≤ x.toNat ∧ x.toNat ≤ 122 := hx
  refine ⟨low_range (x := x) (y := x) (fun c => ?_) hx.1, fun c => ?_⟩
  · simp only [Atom.check, beq_iff_eq, char_eq]
    omega
  · simp only [Atom.check, Term.check, List.any_cons, List.any_nil, Bool.or_false, Bool.or_eq_true, beq_iff_eq, char_eq,
      asciiLower_toNat, asciiUpper_toNat, if_pos hx]
    split <;> split <;> omega

/-- A character that is no letter of ASCII remains. -/
theorem C78_other {x : Char} (h1 : ¬ ('a' ≤ x ∧ x ≤ 'z')) (h2 : ¬ ('A' ≤ x ∧ x ≤ 'Z')) :
    LowAtom (.normal x) ∧ BlindAtom (.normal x) (.normal x) := by
  have h1 : ¬ (97 ≤ x.toNat ∧ x.toNat ≤ 122) := h1
  have h2 : ¬ (65 ≤ x.toNat ∧ x.toNat ≤ 90) := h2
  refine ⟨fun c => ?_, fun c => ?_⟩ <;>
    simp only [Atom.check, beq_iff_eq, char_eq, asciiLower_toNat, asciiUpper_toNat]
  · split <;> omega
  · split <;> split <;> omega

/-- The dot remains. -/
theorem C78_dot : LowAtom .dot ∧ BlindAtom .dot .dot := by
  have h0 : '\x00'.toNat = 0 := rfl
  refine ⟨fun c => ?_, fun c => ?_⟩ <;>
    simp only [Atom.check, bne_iff_ne, ne_eq, char_eq, asciiLower_toNat, asciiUpper_toNat, h0]
  · split <;> omega
  · split <;> split <;> omega

/-- A range of lower-case letters `[x-y]` becomes `[x-yX-Y]`. -/
theorem C78_range {x y : Char} (hx : 'a' ≤ x) (hxy : x ≤ y) (hy : y ≤ 'z') :
    LowAtom (.matching [.range x y]) ∧
      BlindAtom (.matching [.range x y]) (.matching [.range x y, .range (asciiUpper x) (asciiUpper y)]) := by
  have hx : 97 ≤ x.toNat := hx
  have hy : y.toNat ≤ 122 := hy
  have hxy : x.toNat ≤ y.toNat := hxy
  refine ⟨low_range (x := x) (y := y) (fun c => ?_) hx, fun c => ?_⟩
  · simp [Atom.check, Term.check, char_le]
  · simp only [Atom.check, Term.check, List.any_cons, List.any_nil, Bool.or_false, Bool.or_eq_true, Bool.and_eq_true,
      decide_eq_true_iff, char_le, asciiLower_toNat, asciiUpper_toNat, if_pos (show 97 ≤ x.toNat ∧ x.toNat ≤ 122 by omega),
      if_pos (show 97 ≤ y.toNat ∧ y.toNat ≤ 122 by omega)]
    split <;> split <;> omega

/-- Of the named classes, `[:lower:]` becomes `[:alpha:]`, `[:upper:]` asks for upper case, and the others remain. -/
theorem C78_classes (k : BracketCharClass) (hk : k ≠ .upper) : LowAtom (.matching [.cls k]) ∧
    BlindAtom (.matching [.cls k]) (.matching [.cls (if k = .lower then .alphabet else k)]) := by
  have n1 : ' '.toNat = 32 := rfl
  have n2 : '\t'.toNat = 9 := rfl
  have n3 : '\n'.toNat = 10 := rfl
  have n4 : '\x0c'.toNat = 12 := rfl
  have n5 : '\r'.toNat = 13 := rfl
  have n6 : '\x0b'.toNat = 11 := rfl
  refine ⟨fun c => ?_, fun c => ?_⟩
  · have l := asciiLower_toNat c
    generalize asciiLower c = d at l
    cases k <;> (try exact absurd rfl hk) <;>
      simp only [Atom.check, Term.check, List.any_cons, List.any_nil, Bool.or_false, BracketCharClass.checkAscii,
        BracketCharClass.isAsciiDigit, BracketCharClass.isAsciiUpper, BracketCharClass.isAsciiLower, Bool.or_eq_true,
        decide_eq_true_iff, beq_iff_eq, char_eq, n1, n2, n3, n4, n5, n6] <;> split at l <;> omega
  · have l := asciiLower_toNat c
    have u := asciiUpper_toNat c
    generalize asciiLower c = d at l
    generalize asciiUpper c = f at u
    cases k <;> (try exact absurd rfl hk) <;>
      simp only [Atom.check, Term.check, List.any_cons, List.any_nil, Bool.or_false, BracketCharClass.checkAscii,
        BracketCharClass.isAsciiDigit, BracketCharClass.isAsciiUpper, BracketCharClass.isAsciiLower, Bool.or_eq_true,
        decide_eq_true_iff, beq_iff_eq, char_eq, n1, n2, n3, n4, n5, n6, reduceCtorEq, if_true, if_false] <;>
      split at l <;> split at u <;> omega

/-! ### Cases -/

/-- The pattern `^bx*`. -/
def patLower : ERE := .mk [.mk [.start, .single (.atom (.normal 'b')), .quantified (.atom (.normal 'x')) ⟨.star, false⟩]]

/-- The pattern `^[bB][xX]*`. -/
def patBlind : ERE := .mk [.mk [.start, .single (.atom (.matching [.single 'b', .single 'B'])),
  .quantified (.atom (.matching [.single 'x', .single 'X'])) ⟨.star, false⟩]]

/-- non-vacuity: `^bx*` and `^[bB][xX]*` meet the hypotheses of `C78_test` and `C78_exec` (neither ends with `$`), and
`BxX` in `BxXé` is found by both ways. -/
theorem C78_case : patLower.CaseBlind patBlind ∧ patLower.Framed true false ∧ patLower.progress = true ∧
    parseStr "^bx*".toList = .ok patLower ∧ parseStr "^[bB][xX]*".toList = .ok patBlind ∧
    (compileRegex utf8Sequences "^bx*".toList).map (·.map (fun E => (E.compiles ["ere"],
      decide (E.exec (['B', 'x', 'X', 'é'].map asciiLower) = .ok (some [some (0, 3)])),
      decide (E.test ['B', 'x', 'X', 'é'] = .ok false)))) = .ok (some (true, true, true)) ∧
    (compileRegex utf8Sequences "^[bB][xX]*".toList).map (·.map (fun E => (E.compiles ["ere"],
      decide (E.exec ['B', 'x', 'X', 'é'] = .ok (some [some (0, 3)]))))) = .ok (some (true, true)) := by
  have hn : ∀ (a : Char) (w : List Char), a ≠ '[' → ¬ StartsClass (a :: w) := by
    rintro a w ha ⟨k, hk⟩
    cases k <;> simp [classText, ha.symm] at hk
  have two : ∀ a b : Char, a ≠ ']' → b ≠ ']' → a ≠ '[' → b ≠ '[' → b ≠ '-' → a ≠ '^' →
      SpellsAtom (.matching [.single a, .single b]) ['[', a, b, ']'] := fun a b h1 h2 h3 h4 h5 h6 =>
    .matching (by simp [h6]) (.plain (by simp [h1]) (.single h1 (by simp [h5]) (hn _ _ h3)
      (.single h2 (by simp) (hn _ _ h4) .close)))
  refine ⟨.mk (.cons (.mk (.cons .start (.cons (.single (.atom (C78_letter (by decide))))
    (.cons (.quantified (.atom (C78_letter (by decide)))) .nil)))) .nil), ⟨_, rfl, fun b hb => ?_⟩, rfl, ?_, ?_,
    by decide +kernel, by decide +kernel⟩
  · simp only [List.mem_singleton] at hb
    subst hb
    exact ⟨[.single (.atom (.normal 'b')), .quantified (.atom (.normal 'x')) ⟨.star, false⟩], rfl, by decide, by decide⟩
  · exact (C43_parser_grammar _ _).2 (.one (.cons (w := ['^']) .start (.cons (w := ['b']) (.single (.atom (.plain (by decide))))
      (.cons (w := "x*".toList) (v := []) (.quantified (w := ['x']) (.atom (.plain (by decide))) (.greedy .star)) .nil))))
  · exact (C43_parser_grammar _ _).2 (.one (.cons (w := ['^']) .start (.cons (w := ['[', 'b', 'B', ']']) (.single (.atom (two _ _ (by decide)
      (by decide) (by decide) (by decide) (by decide) (by decide))))
      (.cons (w := "[xX]*".toList) (v := []) (.quantified (w := ['[', 'x', 'X', ']']) (.atom (two _ _ (by decide)
      (by decide) (by decide) (by decide) (by decide) (by decide))) (.greedy .star)) .nil))))

/-- The condition that the pattern does not ask for upper-case letters cannot be dropped: `^[Aa]` finds a match in `a`, but `^A`
finds none in the lower-cased text, whatever the case of the text. -/
theorem C78_upper_negation :
    BlindAtom (.normal 'A') (.matching [.single 'A', .single 'a']) ∧
    ¬ LowAtom (.normal 'A') ∧
    (compileRegex utf8Sequences "^[Aa]".toList).map (·.map (fun E => (E.compiles ["ere"],
      decide (E.test ['a'] = .ok true), decide (E.test ['A'] = .ok true)))) = .ok (some (true, true, true)) ∧
    (compileRegex utf8Sequences "^A".toList).map (·.map (fun E => (E.compiles ["ere"],
      decide (E.test (['a'].map asciiLower) = .ok false), decide (E.test (['A'].map asciiLower) = .ok false)))) =
        .ok (some (true, true, true)) := by
  refine ⟨fun c => ?_, fun h => absurd (h 'A' (by decide)) (by decide), by decide +kernel, by decide +kernel⟩
  have n1 : 'A'.toNat = 65 := rfl
  have n2 : 'a'.toNat = 97 := rfl
  simp only [Atom.check, Term.check, List.any_cons, List.any_nil, Bool.or_false, Bool.or_eq_true, beq_iff_eq, char_eq,
      asciiLower_toNat, asciiUpper_toNat, n1, n2]
  split <;> split <;> omega

end Ere.Props
