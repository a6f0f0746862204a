import Verif.Spec.Clock
import Verif.Props.Predict
import Verif.Proofs.Bytes

/-!
# C86: the time pattern of the tests

`^T?([01][0-9]|2[0-3]):([0-5][0-9]):([0-5][0-9]([.,][0-9]+)?)$` (`tests/pure_regex.rs` 242–273): everywhere the next character
decides, so the program is a reader without backtracking; here the reader is compared with one written by hand.
-/

namespace Ere.Props

/-- `[01]`. -/
def d01 : Atom := .matching [.single '0', .single '1']
/-- `[0-3]`. -/
def d03 : Atom := .matching [.range '0' '3']
/-- `[0-5]`. -/
def d05 : Atom := .matching [.range '0' '5']
/-- `[.,]`. -/
def pointAtom : Atom := .matching [.single '.', .single ',']

/-- `([01][0-9]|2[0-3])`. -/
def hourExpr : EREExpr := .sub (.mk [.mk [.single (.atom d01), .single (.atom digitAtom)],
  .mk [.single (.atom (.normal '2')), .single (.atom d03)]])
/-- `([0-5][0-9])`. -/
def minuteExpr : EREExpr := .sub (.mk [.mk [.single (.atom d05), .single (.atom digitAtom)]])
/-- `([.,][0-9]+)`. -/
def fractionExpr : EREExpr := .sub (.mk [.mk [.single (.atom pointAtom), .quantified (.atom digitAtom) ⟨.plus, false⟩]])
/-- `([0-5][0-9]([.,][0-9]+)?)`. -/
def secondExpr : EREExpr := .sub (.mk [.mk [.single (.atom d05), .single (.atom digitAtom),
  .quantified fractionExpr ⟨.question, false⟩]])

/-- The parts between `^` and `$`. -/
def clockParts : List EREPart := [.quantified (.atom (.normal 'T')) ⟨.question, false⟩, .single hourExpr,
  .single (.atom (.normal ':')), .single minuteExpr, .single (.atom (.normal ':')), .single secondExpr]

/-- The pattern. -/
def clockERE : ERE := .mk [.mk (.start :: (clockParts ++ [.end_]))]

theorem noClass {a : Char} {w : List Char} (h : a ≠ '[') : ¬ StartsClass (a :: w) := by
  rintro ⟨k, t, ht⟩
  simp only [classText, List.cons_append, List.cons.injEq] at ht
  exact h ht.1.symm

theorem parse_clock : parseStr "^T?([01][0-9]|2[0-3]):([0-5][0-9]):([0-5][0-9]([.,][0-9]+)?)$".toList = .ok clockERE := by
  have hr : ∀ b, b ≠ ']' → SpellsAtom (.matching [.range '0' b]) ['[', '0', '-', b, ']'] := fun b hb =>
    .matching (w := ['0', '-', b, ']']) (by simp) (.plain (by simp) (.range (by decide) hb .close))
  have hdig : SpellsPart (.single (.atom digitAtom)) "[0-9]".toList := .single (.atom (hr '9' (by decide)))
  have h05 : SpellsPart (.single (.atom d05)) "[0-5]".toList := .single (.atom (hr '5' (by decide)))
  have h03 : SpellsPart (.single (.atom d03)) "[0-3]".toList := .single (.atom (hr '3' (by decide)))
  have h01 : SpellsPart (.single (.atom d01)) "[01]".toList := .single (.atom (.matching (w := "01]".toList) (by decide)
    (.plain (by decide) (.single (by decide) (by decide) (noClass (by decide)) (.single (by decide) (by decide) (noClass (by decide)) .close)))))
  have hpt : SpellsPart (.single (.atom pointAtom)) "[.,]".toList := .single (.atom (.matching (w := ".,]".toList) (by decide)
    (.plain (by decide) (.single (by decide) (by decide) (noClass (by decide)) (.single (by decide) (by decide) (noClass (by decide)) .close)))))
  have hhour : SpellsExpr hourExpr "([01][0-9]|2[0-3])".toList :=
    .sub (w := "[01][0-9]|2[0-3]".toList) (.more (w := "[01][0-9]".toList) (v := "2[0-3]".toList)
      (.cons (w := "[01]".toList) (v := "[0-9]".toList) h01 (.cons (w := "[0-9]".toList) (v := []) hdig .nil))
      (.one (.cons (w := ['2']) (v := "[0-3]".toList) (.single (.atom (.plain (by decide))))
        (.cons (w := "[0-3]".toList) (v := []) h03 .nil))))
  have hmin : SpellsExpr minuteExpr "([0-5][0-9])".toList :=
    .sub (w := "[0-5][0-9]".toList) (.one (.cons (w := "[0-5]".toList) (v := "[0-9]".toList) h05
      (.cons (w := "[0-9]".toList) (v := []) hdig .nil)))
  have hfrac : SpellsExpr fractionExpr "([.,][0-9]+)".toList :=
    .sub (w := "[.,][0-9]+".toList) (.one (.cons (w := "[.,]".toList) (v := "[0-9]+".toList) hpt
      (.cons (w := "[0-9]+".toList) (v := []) (.quantified (w := "[0-9]".toList) (v := ['+']) (.atom (hr '9' (by decide)))
        (.greedy .plus)) .nil)))
  have hsec : SpellsExpr secondExpr "([0-5][0-9]([.,][0-9]+)?)".toList :=
    .sub (w := "[0-5][0-9]([.,][0-9]+)?".toList) (.one (.cons (w := "[0-5]".toList) (v := "[0-9]([.,][0-9]+)?".toList) h05
      (.cons (w := "[0-9]".toList) (v := "([.,][0-9]+)?".toList) hdig
        (.cons (w := "([.,][0-9]+)?".toList) (v := []) (.quantified (w := "([.,][0-9]+)".toList) (v := ['?']) hfrac
          (.greedy .question)) .nil))))
  have hcol : SpellsPart (.single (.atom (.normal ':'))) [':'] := .single (.atom (.plain (by decide)))
  exact parseStr_iff.mpr (.one (.cons (w := ['^']) .start
    (.cons (w := ['T', '?']) (.quantified (w := ['T']) (v := ['?']) (.atom (.plain (by decide))) (.greedy .question))
    (.cons (w := "([01][0-9]|2[0-3])".toList) (.single hhour) (.cons (w := [':']) hcol
    (.cons (w := "([0-5][0-9])".toList) (.single hmin) (.cons (w := [':']) hcol
    (.cons (w := "([0-5][0-9]([.,][0-9]+)?)".toList) (.single hsec) (.cons (w := ['$']) (v := []) .end_ .nil)))))))))

/-! ## The reader -/

theorem read_atom (a : Atom) (ps : List EREPart) (g : Nat) (F : Option Char → Bool) (off : Nat) (c : Char) (r : List Char) :
    readParts (.single (.atom a) :: ps) g F off (c :: r) = if a.check c then readParts ps g F (off + charLen c) r else none := by
  rw [readParts, EREPart.read, EREExpr.read]
  by_cases h : a.check c = true
  · rw [if_pos h, if_pos h, Option.bind_some, andThen]
    have hg : g + (EREPart.single (.atom a)).groups = g := rfl
    rw [hg]
    cases readParts ps g F (off + charLen c) r <;> rfl
  · rw [if_neg h, if_neg h]; rfl

theorem read_atom_nil (a : Atom) (ps : List EREPart) (g : Nat) (F : Option Char → Bool) (off : Nat) :
    readParts (.single (.atom a) :: ps) g F off [] = none := by
  rw [readParts, EREPart.read, EREExpr.read]; rfl

theorem charLen_low {c m : Char} (hm : charLen m = 1) (h : c ≤ m) : charLen c = 1 := by
  have h1 := charLen_mono h
  have h2 := charLen_pos c
  omega

theorem charLen_digit {m c : Char} (hm : charLen m = 1) (h : digitTo m c = true) : charLen c = 1 := by
  simp only [digitTo, Bool.and_eq_true, decide_eq_true_eq] at h
  exact charLen_low hm h.2

theorem d01_check (c : Char) : d01.check c = (c == '0' || c == '1') := by
  simp [d01, Atom.check, Term.check, Bool.beq_comm]
theorem d03_check (c : Char) : d03.check c = digitTo '3' c := by simp [d03, Atom.check, Term.check, digitTo]
theorem d05_check (c : Char) : d05.check c = digitTo '5' c := by simp [d05, Atom.check, Term.check, digitTo]
theorem dig_check (c : Char) : digitAtom.check c = digitTo '9' c := by simp [digitAtom, Atom.check, Term.check, digitTo]
theorem point_check (c : Char) : pointAtom.check c = (c == '.' || c == ',') := by
  simp [pointAtom, Atom.check, Term.check, Bool.beq_comm]

/-- Reading two digits. -/
theorem read_sixty (ps : List EREPart) (g : Nat) (F : Option Char → Bool) (off : Nat) (rest : List Char) :
    readParts (.single (.atom d05) :: .single (.atom digitAtom) :: ps) g F off rest =
      (twoChars sixtyDigits rest).bind fun r => readParts ps g F (off + 2) r := by
  match rest with
  | [] => rw [read_atom_nil]; rfl
  | [a] =>
    rw [read_atom, read_atom_nil]
    split <;> rfl
  | a :: b :: r =>
    rw [read_atom, read_atom, d05_check, dig_check, twoChars, sixtyDigits]
    by_cases ha : digitTo '5' a = true
    · by_cases hb : digitTo '9' b = true
      · rw [if_pos ha, if_pos hb, charLen_digit (by decide) ha, charLen_digit (by decide) hb, if_pos (by simp [ha, hb])]
        rfl
      · rw [if_pos ha, if_neg hb, if_neg (by simp [hb])]; rfl
    · rw [if_neg ha, if_neg (by simp [ha])]; rfl

theorem read_minute (g : Nat) (F : Option Char → Bool) (off : Nat) (rest : List Char) :
    minuteExpr.read g F off rest = (twoChars sixtyDigits rest).map fun r => ([⟨g, off, off + 2⟩], off + 2, r) := by
  rw [minuteExpr, EREExpr.read, ERE.read, readBranches]
  by_cases hl : (EREBranch.mk [.single (.atom d05), .single (.atom digitAtom)]).look F rest.head? = true
  · rw [if_pos hl, EREBranch.read, read_sixty]
    cases twoChars sixtyDigits rest <;> rfl
  · rw [if_neg hl, readBranches]
    match rest with
    | [] => rfl
    | [a] => rfl
    | a :: b :: r =>
      have : digitTo '5' a = false := by
        rw [← d05_check]
        simpa [EREBranch.look, partsLook, EREPart.look, EREExpr.look] using hl
      simp [twoChars, sixtyDigits, this]

theorem read_hour (g : Nat) (F : Option Char → Bool) (off : Nat) (rest : List Char) :
    hourExpr.read g F off rest = (twoChars hourDigits rest).map fun r => ([⟨g, off, off + 2⟩], off + 2, r) := by
  have hl1 : ∀ l, (EREBranch.mk [.single (.atom d01), .single (.atom digitAtom)]).look F l = l.any d01.check := fun l => rfl
  have hl2 : ∀ l, (EREBranch.mk [.single (.atom (.normal '2')), .single (.atom d03)]).look F l = l.any (Atom.normal '2').check :=
    fun l => rfl
  rw [hourExpr, EREExpr.read, ERE.read, readBranches, readBranches, readBranches, hl1, hl2, EREBranch.read, EREBranch.read]
  have h2 : ∀ c, (Atom.normal '2').check c = (c == '2') := fun c => by simp [Atom.check, Bool.beq_comm]
  match rest with
  | [] => rfl
  | [a] =>
    rw [read_atom, read_atom, read_atom_nil, read_atom_nil]
    simp [twoChars]
  | a :: b :: r =>
    have hnil : ∀ g' o, readParts [] g' F o r = some ([], o, r) := fun g' o => by rw [readParts]
    rw [read_atom, read_atom, read_atom, read_atom, hnil, hnil]
    simp only [List.head?_cons, Option.any_some, d01_check, h2, dig_check, d03_check, twoChars, hourDigits]
    by_cases ha : a = '0' ∨ a = '1'
    · have hl : charLen a = 1 := by rcases ha with rfl | rfl <;> decide
      have ha' : (a == '0' || a == '1') = true := by simpa using ha
      have hn : (a == '2') = false := by rcases ha with rfl | rfl <;> decide
      simp only [ha', hn, if_true, Bool.true_and, Bool.false_and, Bool.or_false, hl]
      by_cases hb : digitTo '9' b = true
      · simp [hb, charLen_digit (by decide) hb]
      · simp [hb]
    · have ha' : (a == '0' || a == '1') = false := by simpa using ha
      simp only [ha', Bool.false_eq_true, if_false, Bool.false_and, Bool.false_or]
      by_cases hn : a = '2'
      · subst hn
        have hl : charLen '2' = 1 := by decide
        by_cases hb : digitTo '3' b = true
        · simp [hb, charLen_digit (by decide) hb, hl]
        · simp [hb]
      · simp [hn]

theorem read_step {e : EREExpr} {step : List Char → Option (List Char)} {g k off : Nat} {S : List Span} {ps : List EREPart}
    {F : Option Char → Bool} {rest : List Char}
    (h : e.read g (partsLook ps F) off rest = (step rest).map fun r => (S, off + k, r)) :
    readParts (.single e :: ps) g F off rest = (step rest).bind fun r =>
      (readParts ps (g + e.groups) F (off + k) r).map fun q => (S ++ q.1, q.2) := by
  rw [readParts, EREPart.read, h]
  cases step rest <;> rfl

theorem read_colon (ps : List EREPart) (g : Nat) (F : Option Char → Bool) (off : Nat) (rest : List Char) :
    readParts (.single (.atom (.normal ':')) :: ps) g F off rest = (readColon rest).bind fun r => readParts ps g F (off + 1) r := by
  cases rest with
  | nil => rw [read_atom_nil]; rfl
  | cons c r =>
    rw [read_atom, readColon]
    by_cases hc : c = ':'
    · subst hc
      have : charLen ':' = 1 := by decide
      rw [if_pos (by decide), if_pos rfl, this]; rfl
    · rw [if_neg (by simpa [Atom.check] using Ne.symm hc), if_neg hc]; rfl

theorem digits_while (g : Nat) (F : Option Char → Bool) : ∀ (r : List Char) (k off : Nat), r.length ≤ k →
    readWhile ((EREExpr.atom digitAtom).read g F) ((EREExpr.atom digitAtom).look fun _ => true) k off r =
      some ([], off + (r.takeWhile (digitTo '9')).length, r.dropWhile (digitTo '9'))
  | [], k, off, _ => by
    cases k with
    | zero => rfl
    | succ k => rfl
  | c :: r, 0, off, h => by simp at h
  | c :: r, k + 1, off, h => by
    rw [readWhile]
    have hm : (EREExpr.atom digitAtom).look (fun _ => true) (c :: r).head? = digitTo '9' c := by
      rw [List.head?_cons, EREExpr.look, Option.any_some, dig_check]
    rw [hm]
    by_cases hc : digitTo '9' c = true
    · have hx : (EREExpr.atom digitAtom).read g F off (c :: r) = some ([], off + 1, r) := by
        rw [EREExpr.read, dig_check, if_pos hc, charLen_digit (by decide) hc]
      rw [if_pos hc, hx, Option.bind_some, andThen, digits_while g F r k (off + 1) (by simpa using h)]
      simp [hc]
      omega
    · rw [if_neg hc]
      simp [hc]

theorem digits_plus (g : Nat) (F : Option Char → Bool) (off : Nat) (d : Char) (r : List Char) :
    (EREPart.quantified (.atom digitAtom) ⟨.plus, false⟩).read g F off (d :: r) =
      if digitTo '9' d then some ([], off + 1 + (r.takeWhile (digitTo '9')).length, r.dropWhile (digitTo '9')) else none := by
  rw [EREPart.read, if_neg (by simp [QType.max])]
  simp only [QType.min, readTimes, QType.extra, QType.max]
  rw [EREExpr.read, dig_check]
  by_cases hd : digitTo '9' d = true
  · rw [if_pos hd, if_pos hd, charLen_digit (by decide) hd]
    simp only [Option.bind_some, andThen, Option.map_some]
    rw [digits_while _ _ _ _ _ (Nat.le_refl _)]
    rfl
  · rw [if_neg hd, if_neg hd]; rfl

theorem digits_plus_nil (g : Nat) (F : Option Char → Bool) (off : Nat) :
    (EREPart.quantified (.atom digitAtom) ⟨.plus, false⟩).read g F off [] = none := by
  rw [EREPart.read, if_neg (by simp [QType.max])]
  rfl

theorem run_all {p : Char → Bool} : ∀ {r : List Char}, r.all p = true ↔ r.dropWhile p = [] ∧ r.takeWhile p = r
  | [] => by simp
  | c :: r => by
    have := run_all (p := p) (r := r)
    by_cases hc : p c = true
    · simp only [List.all_cons, hc, Bool.true_and, this, List.dropWhile_cons, List.takeWhile_cons, if_true, List.cons.injEq,
        true_and]
    · simp [hc]

/-- The end of the pattern: the fraction, and nothing behind it. -/
theorem read_fraction (g : Nat) (F : Option Char → Bool) (off : Nat) (rest : List Char) :
    ((readParts [.quantified fractionExpr ⟨.question, false⟩] g F off rest).bind fun q => if q.2.2 = [] then some q else none) =
      (fractionLen rest).map fun n => (if n = 0 then [] else [⟨g, off, off + n⟩], off + n, []) := by
  have hnil : ∀ g' F' (o : Nat) r, readParts [] g' F' o r = some ([], o, r) := fun g' F' o r => by rw [readParts]
  have hfn : ∀ g' F', readParts [] g' F' = fun o r => some ([], o, r) := fun g' F' => funext fun o => funext fun r => hnil g' F' o r
  have hlook : ∀ l, fractionExpr.look (fun _ => true) l = l.any pointAtom.check := fun l => by
    simp [fractionExpr, EREExpr.look, ERE.look, branchesLook, EREBranch.look, partsLook, EREPart.look]
  have hid : ∀ q : Reading, andThen (fun o r => some ([], o, r)) q = some q := by
    rintro ⟨S, o, r⟩
    simp [andThen]
  rw [readParts, hfn, EREPart.read, if_neg (by simp [QType.max, QType.min])]
  simp only [QType.min, QType.max, readTimes, QType.extra, Option.bind_some, andThen, readWhile, Nat.sub_zero, hlook]
  cases rest with
  | nil => simp [fractionLen, Option.any, hid]
  | cons c ds =>
    simp only [List.head?_cons, Option.any_some, point_check]
    by_cases hc : c = '.' ∨ c = ','
    · have hc' : (c == '.' || c == ',') = true := by simpa using hc
      have hl : charLen c = 1 := by rcases hc with rfl | rfl <;> decide
      have hb : ∀ F' l, (EREBranch.mk [.single (.atom pointAtom), .quantified (.atom digitAtom) ⟨.plus, false⟩]).look F' l =
        l.any pointAtom.check := fun F' l => rfl
      rw [if_pos hc']
      simp only [fractionExpr, EREExpr.read, ERE.read, readBranches, hb, List.head?_cons, Option.any_some, point_check, hc',
        if_true, EREBranch.read, read_atom, hl]
      rw [readParts, hfn]
      cases ds with
      | nil => rw [digits_plus_nil]; simp [fractionLen]
      | cons d r =>
        rw [digits_plus]
        by_cases hd : digitTo '9' d = true
        · rw [if_pos hd]
          by_cases hr : r.all (digitTo '9') = true
          · have h1 : r.takeWhile (digitTo '9') = r := (run_all.mp hr).2
            have h2 : r.dropWhile (digitTo '9') = [] := (run_all.mp hr).1
            have h3 : fractionLen (c :: d :: r) = some (r.length + 1 + 1) := by
              rw [fractionLen, if_pos]
              · simp
              · simp only [hc', List.isEmpty_cons, Bool.not_false, List.all_cons, hd, hr, Bool.and_self]
            simp only [h1, h2, h3, Option.bind_some, Option.map_some, andThen]
            simp
            omega
          · have h2 : r.dropWhile (digitTo '9') ≠ [] := fun h => hr (run_all.mpr ⟨h, by
              have := List.takeWhile_append_dropWhile (p := digitTo '9') (l := r)
              rwa [h, List.append_nil] at this⟩)
            have h3 : fractionLen (c :: d :: r) = none := by
              rw [fractionLen, if_neg]
              simp only [List.all_cons, hr, Bool.and_false]
              simp
            simp [h3, h2, andThen]
        · rw [if_neg hd]
          have h3 : fractionLen (c :: d :: r) = none := by
            rw [fractionLen, if_neg]
            simp [hd]
          simp [h3]
    · have hc' : (c == '.' || c == ',') = false := by simpa using hc
      rw [if_neg (by simp [hc'])]
      simp [fractionLen, hc', hid]

theorem read_second (F : Option Char → Bool) (off : Nat) (rest : List Char) :
    readParts [.single secondExpr, .end_] 3 F off rest = (twoChars sixtyDigits rest).bind fun r => (fractionLen r).map fun n =>
      ((if n = 0 then [] else [⟨4, off + 2, off + 2 + n⟩]) ++ [⟨3, off, off + 2 + n⟩], off + 2 + n, []) := by
  have hend : ∀ g, readParts [.end_] g F = fun o r => if r = [] then some ([], o, r) else none := fun g =>
    funext fun o => funext fun r => by
      rw [readParts, EREPart.read]
      split
      · simp [andThen, readParts]
      · rfl
  have hand : ∀ q : Reading, andThen (fun o r => if r = [] then some ([], o, r) else none) q = if q.2.2 = [] then some q else none := by
    rintro ⟨S, o, r⟩
    simp only [andThen]
    split <;> simp
  rw [readParts, hend, EREPart.read, secondExpr, EREExpr.read, ERE.read, readBranches]
  generalize partsLook [.end_] F = F'
  by_cases hl : (EREBranch.mk [.single (.atom d05), .single (.atom digitAtom),
      .quantified fractionExpr ⟨.question, false⟩]).look F' rest.head? = true
  · rw [if_pos hl, EREBranch.read, read_sixty]
    cases twoChars sixtyDigits rest with
    | none => rfl
    | some r =>
      have h := read_fraction 4 F' (off + 2) r
      simp only [Option.bind_some]
      have hm : (fractionLen r).map (fun n => ((if n = 0 then ([] : List Span) else [⟨4, off + 2, off + 2 + n⟩]) ++
            [⟨3, off, off + 2 + n⟩], off + 2 + n, ([] : List Char))) =
          ((fractionLen r).map fun n => ((if n = 0 then [] else [⟨4, off + 2, off + 2 + n⟩], off + 2 + n, []) : Reading)).map
            fun q => (q.1 ++ [⟨3, off, q.2.1⟩], q.2) := by
        rw [Option.map_map]; rfl
      rw [hm, ← h]
      cases readParts [.quantified fractionExpr ⟨.question, false⟩] 4 F' (off + 2) r with
      | none => rfl
      | some q =>
        simp only [Option.map_some, Option.bind_some, hand]
        split <;> simp
  · rw [if_neg hl, readBranches]
    match rest with
    | [] => rfl
    | [a] => rfl
    | a :: b :: r =>
      have : digitTo '5' a = false := by
        rw [← d05_check]
        simpa [EREBranch.look, partsLook, EREPart.look, EREExpr.look] using hl
      simp [twoChars, sixtyDigits, this]

/-- The pattern without `^T?`. -/
theorem read_tail (F : Option Char → Bool) (o : Nat) (rest : List Char) :
    readParts [.single hourExpr, .single (.atom (.normal ':')), .single minuteExpr, .single (.atom (.normal ':')), .single secondExpr,
      .end_] 1 F o rest = (twoChars hourDigits rest).bind fun r => (readColon r).bind fun r => (twoChars sixtyDigits r).bind fun r =>
        (readColon r).bind fun r => (twoChars sixtyDigits r).bind fun r => (fractionLen r).map fun n =>
          ([⟨1, o, o + 2⟩, ⟨2, o + 3, o + 5⟩] ++ ((if n = 0 then [] else [⟨4, o + 8, o + 8 + n⟩]) ++ [⟨3, o + 6, o + 8 + n⟩]),
            o + 8 + n, []) := by
  rw [read_step (read_hour _ _ _ _)]
  cases twoChars hourDigits rest with
  | none => rfl
  | some r =>
    simp only [Option.bind_some]
    rw [read_colon]
    cases readColon r with
    | none => rfl
    | some r =>
      simp only [Option.bind_some]
      rw [show 1 + hourExpr.groups = 2 from rfl, read_step (read_minute _ _ _ _)]
      cases twoChars sixtyDigits r with
      | none => rfl
      | some r =>
        simp only [Option.bind_some]
        rw [read_colon]
        cases readColon r with
        | none => rfl
        | some r =>
          simp only [Option.bind_some]
          rw [show 2 + minuteExpr.groups = 3 from rfl, read_second]
          cases twoChars sixtyDigits r with
          | none => rfl
          | some r =>
            simp only [Option.bind_some]
            cases fractionLen r with
            | none => rfl
            | some n => simp [Nat.add_assoc]

theorem tail_answer (F : Option Char → Bool) (o : Nat) (rest : List Char) :
    ((readParts [.single hourExpr, .single (.atom (.normal ':')), .single minuteExpr, .single (.atom (.normal ':')),
      .single secondExpr, .end_] 1 F o rest).map fun r => answerOf 5 (r.1 ++ [⟨0, 0, r.2.1⟩])) = clockAt o rest := by
  rw [read_tail, clockAt]
  cases twoChars hourDigits rest with
  | none => rfl
  | some r =>
  simp only [Option.bind_some]
  cases readColon r with
  | none => rfl
  | some r =>
  simp only [Option.bind_some]
  cases twoChars sixtyDigits r with
  | none => rfl
  | some r =>
  simp only [Option.bind_some]
  cases readColon r with
  | none => rfl
  | some r =>
  simp only [Option.bind_some]
  cases twoChars sixtyDigits r with
  | none => rfl
  | some r =>
  simp only [Option.bind_some]
  cases fractionLen r with
  | none => rfl
  | some n =>
    have hr : List.range 5 = [0, 1, 2, 3, 4] := rfl
    by_cases hn : n = 0
    · simp [answerOf, hr, lastSpan, hn]
    · simp [answerOf, hr, lastSpan, hn]

theorem clock_later {off : Nat} (h : off ≠ 0) : ∀ rest, clockERE.readFrom off rest = none := by
  have h0 : ∀ rest, clockERE.readAt off rest = none := by
    intro rest
    simp [ERE.readAt, clockERE, ERE.read, readBranches, EREBranch.read, readParts, EREPart.read, h]
  intro rest
  induction rest generalizing off with
  | nil => exact h0 []
  | cons c r ih =>
    rw [ERE.readFrom, h0]
    exact ih (by omega) fun rest => by
      simp [ERE.readAt, clockERE, ERE.read, readBranches, EREBranch.read, readParts, EREPart.read]
      intro _ h'
      omega

theorem clock_at (text : List Char) : (clockERE.readAt 0 text).map (answerOf 5) = clock text := by
  rw [ERE.readAt, clockERE, ERE.read, readBranches, readBranches, Option.map_map]
  have hT : ∀ c, (Atom.normal 'T').check c = (c == 'T') := fun c => by simp [Atom.check, Bool.beq_comm]
  have hlook : ∀ l, (EREBranch.mk (.start :: (clockParts ++ [.end_]))).look (fun _ => true) l =
      (l.any d01.check || l.any (Atom.normal '2').check || l.any (Atom.normal 'T').check) := by
    intro l
    simp [EREBranch.look, clockParts, partsLook, EREPart.look, EREExpr.look, QType.min, QType.max, hourExpr, ERE.look, branchesLook]
    rfl
  have hq : ∀ (F : Option Char → Bool) (rest : List Char), (EREPart.quantified (.atom (.normal 'T')) ⟨.question, false⟩).read 1 F 0 rest =
      match rest with
      | [] => some ([], 0, [])
      | c :: r => if c = 'T' then some ([], 1, r) else some ([], 0, c :: r) := by
    intro F rest
    rw [EREPart.read, if_neg (by simp [QType.max, QType.min])]
    simp only [QType.min, QType.max, readTimes, QType.extra, Option.bind_some, andThen, readWhile, Nat.sub_zero]
    cases rest with
    | nil => rfl
    | cons c r =>
      simp only [List.head?_cons, EREExpr.look, Option.any_some, hT]
      by_cases hc : c = 'T'
      · subst hc
        simp [EREExpr.read, hT, andThen, show charLen 'T' = 1 by decide]
      · simp [hc]
  rw [hlook]
  have hread : (EREBranch.mk (.start :: (clockParts ++ [.end_]))).read 1 (fun _ => true) 0 text =
      match text with
      | [] => readParts (clockParts.tail ++ [.end_]) 1 (fun _ => true) 0 []
      | c :: r => if c = 'T' then readParts (clockParts.tail ++ [.end_]) 1 (fun _ => true) 1 r
        else readParts (clockParts.tail ++ [.end_]) 1 (fun _ => true) 0 (c :: r) := by
    have hid : ∀ x : Option Reading, x.map (fun r => (([] : List Span) ++ r.1, r.2)) = x := by
      rintro (_ | ⟨S, o, r⟩) <;> rfl
    rw [EREBranch.read, readParts, EREPart.read, if_pos rfl, Option.bind_some, andThen, hid, clockParts, List.cons_append, readParts]
    rw [show (1 + EREPart.start.groups) = 1 from rfl, hq]
    cases text with
    | nil => simp only [Option.bind_some, andThen]; rw [hid]; rfl
    | cons c r =>
      by_cases hc : c = 'T'
      · simp only [if_pos hc, Option.bind_some, andThen]; rw [hid]; rfl
      · simp only [if_neg hc, Option.bind_some, andThen]; rw [hid]; rfl
  rw [hread]
  cases text with
  | nil => rfl
  | cons c r =>
    simp only [List.head?_cons, Option.any_some, hT, d01_check, show (Atom.normal '2').check c = (c == '2') by simp [Atom.check, Bool.beq_comm]]
    by_cases hc : c = 'T'
    · subst hc
      rw [if_pos (by decide), if_pos rfl, clock, if_pos rfl]
      exact tail_answer _ 1 r
    · rw [if_neg hc, clock, if_neg hc]
      by_cases hl : (c == '0' || c == '1' || c == '2' || c == 'T') = true
      · rw [if_pos hl]
        exact tail_answer _ 0 (c :: r)
      · rw [if_neg hl]
        have : twoChars hourDigits (c :: r) = none := by
          cases r with
          | nil => rfl
          | cons b r =>
            simp only [Bool.or_eq_true, not_or, Bool.not_eq_true] at hl
            simp [twoChars, hourDigits, hl.1.1.1, hl.1.1.2, hl.1.2]
        rw [clockAt, this]; rfl

theorem clock_read (text : List Char) : (clockERE.readFrom 0 text).map (answerOf 5) = clock text := by
  rw [← clock_at]
  cases text with
  | nil => rfl
  | cons c r =>
    rw [ERE.readFrom, clock_later (by have := charLen_pos c; omega)]
    cases clockERE.readAt 0 (c :: r) <;> rfl

/-! ## The next character decides -/

theorem clock_decided : clockERE.Decided fun _ => True := by
  have h01 : ∀ c, d01.check c = true → c = '0' ∨ c = '1' := fun c h => by simpa [d01_check] using h
  have hn : ∀ {a c : Char}, (Atom.normal a).check c = true → a = c := fun h => by simpa [Atom.check] using h
  have hp : ∀ c, pointAtom.check c = true → c = '.' ∨ c = ',' := fun c h => by simpa [point_check] using h
  refine ⟨by simp, ⟨trivial, ⟨trivial, .inr ?_⟩, ⟨?_, ⟨trivial, trivial, trivial⟩, ⟨trivial, trivial, trivial⟩, trivial⟩, trivial,
    ⟨by simp, ⟨trivial, trivial, trivial⟩, trivial⟩, trivial,
    ⟨by simp, ⟨trivial, trivial, ⟨⟨by simp, ⟨trivial, ⟨trivial, .inr ?_⟩, trivial⟩, trivial⟩, .inr ?_⟩, trivial⟩, trivial⟩, trivial, trivial⟩,
    trivial⟩
  · rintro l ⟨(⟨c, h1, h2⟩ | ⟨c, h1, h2⟩ | h), ⟨d, h3, h4⟩⟩
    · rw [h1] at h3
      cases h3
      rw [← hn h4] at h2
      revert h2; decide
    · rw [h1] at h3
      cases h3
      rw [← hn h4] at h2
      revert h2; decide
    · exact h
  · refine List.pairwise_cons.mpr ⟨?_, by simp⟩
    rintro b hb l ⟨⟨c, h1, h2⟩, h3⟩
    rw [List.mem_singleton] at hb
    subst hb
    obtain ⟨d, h4, h5⟩ := h3
    rw [h1] at h4
    cases h4
    rw [← hn h5] at h2
    revert h2; decide
  · rintro l ⟨h, ⟨d, h3, h4⟩⟩
    subst h3
    rcases h with ⟨h, _⟩ | ⟨c, h1, h2⟩ | h
    · cases h
    · cases h1
      rcases hp _ h2 with rfl | rfl <;> revert h4 <;> decide
    · exact h
  · rintro l ⟨⟨rfl, _⟩, (⟨d, h3, h4⟩ | h)⟩
    · cases h3
    · exact h

theorem clock_framed : clockERE.Framed true true :=
  ⟨_, rfl, fun b hb => by
    rw [List.mem_singleton] at hb
    subst hb
    exact ⟨clockParts, rfl, by decide, by decide⟩⟩

theorem clock_shape : clockERE.progress = true ∧ clockERE.atomsAll plainAtom = true ∧ clockERE.groups = 4 := by decide +kernel

theorem clock_lastUsed : LastUsed clockERE := by
  have h : clockERE.first "00:00:00.5".toList = some [⟨1, 0, 2⟩, ⟨2, 3, 5⟩, ⟨4, 8, 10⟩, ⟨3, 6, 10⟩, ⟨0, 0, 10⟩] := by decide +kernel
  exact ⟨_, _, h, by rw [clock_shape.2.2]; decide⟩

/-- **C86 (example: times).** The pattern of `iso8601_time_extended`: it compiles, has five groups, and on every text `test` and `exec`
read a time of day as one would by hand: with `T` or without, hours up to 23, minutes and seconds up to 59, a fraction or none. -/
theorem C86_time (U : Utf8Seqs) {cr : List String} (hcr : "ere" ∈ cr) :
    ∃ E, compileRegex U.seqs "^T?([01][0-9]|2[0-3]):([0-5][0-9]):([0-5][0-9]([.,][0-9]+)?)$".toList = .ok (some E) ∧
      E.compiles cr = true ∧ E.groups = 5 ∧ ∀ text, E.test text = .ok (clock text).isSome ∧ E.exec text = .ok (clock text) := by
  obtain ⟨hg, ha, hgr⟩ := clock_shape
  have hs : ∀ text, (clockERE.readFrom 0 text).isSome = (clock text).isSome := fun text => by
    rw [← clock_read, Option.isSome_map]
  obtain ⟨E, h, hc⟩ := C86_compiles U parse_clock clock_framed clock_decided hg ha
    (fun _ => Option.isSome_eq_false_iff.mp (hs [])|> Option.isNone_iff_eq_none.mp) ⟨"00:00:00".toList, by rw [hs]; decide +kernel⟩ hcr
  have hG : E.groups = 5 := by
    rw [C29_compile_regex_partial U hg clock_lastUsed (compileRegex_ok parse_clock h) hc fun _ _ => framed_startSimple clock_framed, hgr]
  refine ⟨E, h, hc, hG, fun text => ?_⟩
  have := C86_compile_regex U parse_clock clock_framed clock_decided hg h hc text
  rw [hs, hG, clock_read] at this
  exact this

/-- With the number of groups, if the last one is used. -/
theorem engines_read (U : Utf8Seqs) {e : ERE} {s t : Bool} (hd : e.Decided fun _ => True) (hg : e.progress = true)
    (he : e.Framed s t) (hl : LastUsed e) (text : List Char) :
    (∀ F, compileFlatChar e = .ok F → F.exec text text = .ok ((e.readFrom 0 text).map (answerOf (e.groups + 1)))) ∧
    (∀ F, compileFlatU8 U.seqs e = .ok F → F.exec text (encode text) = .ok ((e.readFrom 0 text).map (answerOf (e.groups + 1)))) ∧
    (∀ P, compileOnePassU8 U.seqs e = .ok (some P) → P.compiles = true →
      P.exec text (encode text) = .ok ((e.readFrom 0 text).map (answerOf (e.groups + 1)))) ∧
    ∀ G, compileDfaU8 U.seqs e = .ok (some G) →
      G.tdfa.exec text (encode text) = .ok ((e.readFrom 0 text).map (answerOf (e.groups + 1))) := by
  obtain ⟨h1, h2, h3, h4⟩ := C86_engines U hd hg text
  obtain ⟨N, M, k1, k2, k3, k4⟩ := C29_groups_exact_partial U _ (lastUsed_captures hl)
  refine ⟨fun F h => ?_, fun F h => ?_, fun P h hc => ?_, fun G h => ?_⟩
  · have hG : F.groups = e.groups + 1 := by
      have h := h
      unfold compileFlatChar at h
      rw [k1] at h
      rw [compileFlat_groups h, k3]
    rw [(h1 F h).2, hG]
  · have hG : F.groups = e.groups + 1 := by
      have h := h
      unfold compileFlatU8 at h
      rw [k2] at h
      rw [compileFlat_groups h, k4]
    rw [(h2 F h).2, hG]
  · have hG : P.groups = e.groups + 1 := by
      obtain ⟨M'', j1, _, j2, _⟩ := onePass_compiled U h
      rw [j2.groups, ok_unique j1 k2, k4]
    rw [h3 P h hc, hG]
  · rw [h4 G s t h he, C29_dfa_exact_partial U hg (framed_startSimple he) hl h]

/-- **C86 (example: times, the engines one by one).** The four macros that the test uses. -/
theorem C86_time_engines (U : Utf8Seqs) (text : List Char) :
    (∀ F, compileFlatChar clockERE = .ok F → F.exec text text = .ok (clock text)) ∧
    (∀ F, compileFlatU8 U.seqs clockERE = .ok F → F.exec text (encode text) = .ok (clock text)) ∧
    (∀ P, compileOnePassU8 U.seqs clockERE = .ok (some P) → P.compiles = true → P.exec text (encode text) = .ok (clock text)) ∧
    ∀ G, compileDfaU8 U.seqs clockERE = .ok (some G) → G.tdfa.exec text (encode text) = .ok (clock text) := by
  have h := engines_read U clock_decided clock_shape.1 clock_framed clock_lastUsed text
  rw [clock_shape.2.2, clock_read] at h
  exact h

/-- non-vacuity: the texts of the test. -/
example : clock "T00:00:00".toList = some [some (0, 9), some (1, 3), some (4, 6), some (7, 9), none] ∧
    clock "23:59:59.9999".toList = some [some (0, 13), some (0, 2), some (3, 5), some (6, 13), some (8, 13)] ∧
    clock "24:00:00".toList = none ∧ clock "00:00:60".toList = none ∧ clock "00:00:00.".toList = none := by decide +kernel

end Ere.Props
