import Verif.Spec.Uri
import Verif.Props.Clock

/-!
# C90: the URI pattern of the tests

`^([[:alpha:]][[:alnum:]-+.]+)://([^?#]+)([?][^#]*)?(#[^#]*)?$` (`tests/pure_regex.rs` 623–681). The predictive reader of C86 is
compared with one written by hand, and every match is shown to be read.
-/

namespace Ere.Props

/-- `[[:alpha:]]`. -/
def alphaAtom : Atom := .matching [.cls .alphabet]
/-- `[[:alnum:]-+.]`. -/
def schemeAtom : Atom := .matching [.cls .alphanumeric, .single '-', .single '+', .single '.']
/-- `[^?#]`. -/
def pathAtom : Atom := .nonmatching [.single '?', .single '#']
/-- `[?]`. -/
def askAtom : Atom := .matching [.single '?']
/-- `[^#]`. -/
def noHash : Atom := .nonmatching [.single '#']

/-- `([[:alpha:]][[:alnum:]-+.]+)`. -/
def schemeExpr : EREExpr := .sub (.mk [.mk [.single (.atom alphaAtom), .quantified (.atom schemeAtom) ⟨.plus, false⟩]])
/-- `([^?#]+)`. -/
def pathExpr : EREExpr := .sub (.mk [.mk [.quantified (.atom pathAtom) ⟨.plus, false⟩]])
/-- A character and `[^#]*`, in parentheses. -/
def tailExpr (a : Atom) : EREExpr := .sub (.mk [.mk [.single (.atom a), .quantified (.atom noHash) ⟨.star, false⟩]])

/-- `(a[^#]*)?`. -/
def tailPart (a : Atom) : EREPart := .quantified (tailExpr a) ⟨.question, false⟩

/-- The parts between `^` and `$`. -/
def uriParts : List EREPart := [.single schemeExpr, .single (.atom (.normal ':')), .single (.atom (.normal '/')),
  .single (.atom (.normal '/')), .single pathExpr, tailPart askAtom, tailPart (.normal '#')]

/-- The pattern. -/
def uriERE : ERE := .mk [.mk (.start :: (uriParts ++ [.end_]))]

theorem parse_uri : parseStr "^([[:alpha:]][[:alnum:]-+.]+)://([^?#]+)([?][^#]*)?(#[^#]*)?$".toList = .ok uriERE := by
  have ha : SpellsAtom alphaAtom "[[:alpha:]]".toList := .matching (w := "[:alpha:]]".toList) (by decide) (.plain (by decide)
    (.cls (k := .alphabet) (w := [']']) .close))
  have hs : SpellsAtom schemeAtom "[[:alnum:]-+.]".toList := .matching (w := "[:alnum:]-+.]".toList) (by decide) (.plain (by decide)
    (.cls (k := .alphanumeric) (w := "-+.]".toList) (.single (by decide) (by decide) (noClass (by decide))
      (.single (by decide) (by decide) (noClass (by decide)) (.single (by decide) (by decide) (noClass (by decide)) .close)))))
  have hp : SpellsAtom pathAtom "[^?#]".toList := .nonmatching (w := "?#]".toList) (.plain (by decide)
    (.single (by decide) (by decide) (noClass (by decide)) (.single (by decide) (by decide) (noClass (by decide)) .close)))
  have hq : SpellsAtom askAtom "[?]".toList := .matching (w := "?]".toList) (by decide) (.plain (by decide)
    (.single (by decide) (by decide) (noClass (by decide)) .close))
  have hh : SpellsAtom noHash "[^#]".toList := .nonmatching (w := "#]".toList) (.plain (by decide)
    (.single (by decide) (by decide) (noClass (by decide)) .close))
  have h1 : SpellsExpr schemeExpr "([[:alpha:]][[:alnum:]-+.]+)".toList :=
    .sub (w := "[[:alpha:]][[:alnum:]-+.]+".toList) (.one (.cons (w := "[[:alpha:]]".toList) (v := "[[:alnum:]-+.]+".toList)
      (.single (.atom ha)) (.cons (w := "[[:alnum:]-+.]+".toList) (v := []) (.quantified (w := "[[:alnum:]-+.]".toList) (v := ['+'])
        (.atom hs) (.greedy .plus)) .nil)))
  have h2 : SpellsExpr pathExpr "([^?#]+)".toList := .sub (w := "[^?#]+".toList) (.one (.cons (w := "[^?#]+".toList) (v := [])
    (.quantified (w := "[^?#]".toList) (v := ['+']) (.atom hp) (.greedy .plus)) .nil))
  have h3 : SpellsPart (tailPart askAtom) "([?][^#]*)?".toList := .quantified (w := "([?][^#]*)".toList) (v := ['?'])
    (.sub (w := "[?][^#]*".toList) (.one (.cons (w := "[?]".toList) (v := "[^#]*".toList) (.single (.atom hq))
      (.cons (w := "[^#]*".toList) (v := []) (.quantified (w := "[^#]".toList) (v := ['*']) (.atom hh) (.greedy .star)) .nil))))
    (.greedy .question)
  have h4 : SpellsPart (tailPart (.normal '#')) "(#[^#]*)?".toList := .quantified (w := "(#[^#]*)".toList) (v := ['?'])
    (.sub (w := "#[^#]*".toList) (.one (.cons (w := ['#']) (v := "[^#]*".toList) (.single (.atom (.plain (by decide))))
      (.cons (w := "[^#]*".toList) (v := []) (.quantified (w := "[^#]".toList) (v := ['*']) (.atom hh) (.greedy .star)) .nil))))
    (.greedy .question)
  have hc : ∀ c, c ∉ specials → SpellsPart (.single (.atom (.normal c))) [c] := fun c hc => .single (.atom (.plain hc))
  exact parseStr_iff.mpr (.one (.cons (w := ['^']) .start (.cons (w := "([[:alpha:]][[:alnum:]-+.]+)".toList) (.single h1)
    (.cons (w := [':']) (hc _ (by decide)) (.cons (w := ['/']) (hc _ (by decide)) (.cons (w := ['/']) (hc _ (by decide))
    (.cons (w := "([^?#]+)".toList) (.single h2) (.cons (w := "([?][^#]*)?".toList) h3 (.cons (w := "(#[^#]*)?".toList) h4
    (.cons (w := ['$']) (v := []) .end_ .nil))))))))))

/-! ## The reader -/

/-- Runs of a class. -/
theorem class_while (a : Atom) (g : Nat) (F : Option Char → Bool) : ∀ (r : List Char) (k off : Nat), r.length ≤ k →
    readWhile ((EREExpr.atom a).read g F) ((EREExpr.atom a).look fun _ => true) k off r =
      some ([], off + byteLen (r.takeWhile a.check), r.drop (r.takeWhile a.check).length)
  | [], k, off, _ => by
    cases k with
    | zero => rfl
    | succ k => rfl
  | c :: r, 0, off, h => by simp at h
  | c :: r, k + 1, off, h => by
    rw [readWhile]
    have hm : (EREExpr.atom a).look (fun _ => true) (c :: r).head? = a.check c := by
      rw [List.head?_cons, EREExpr.look, Option.any_some]
    rw [hm]
    by_cases hc : a.check c = true
    · have hx : (EREExpr.atom a).read g F off (c :: r) = some ([], off + charLen c, r) := by
        rw [EREExpr.read, if_pos hc]
      rw [if_pos hc, hx, Option.bind_some, andThen, class_while a g F r k (off + charLen c) (by simpa using h)]
      simp [hc, byteLen_cons, Nat.add_assoc]
    · rw [if_neg hc]
      simp [hc, byteLen]

theorem class_star (a : Atom) (g : Nat) (F : Option Char → Bool) (off : Nat) (r : List Char) :
    (EREPart.quantified (.atom a) ⟨.star, false⟩).read g F off r =
      some ([], off + byteLen (r.takeWhile a.check), r.drop (r.takeWhile a.check).length) := by
  rw [EREPart.read, if_neg (by simp [QType.max])]
  simp only [QType.min, readTimes, QType.extra, QType.max, Option.bind_some, andThen]
  rw [class_while _ _ _ _ _ _ (Nat.le_refl _)]
  rfl

theorem class_plus (a : Atom) (g : Nat) (F : Option Char → Bool) (off : Nat) (r : List Char) :
    (EREPart.quantified (.atom a) ⟨.plus, false⟩).read g F off r = if (r.takeWhile a.check).isEmpty then none else
      some ([], off + byteLen (r.takeWhile a.check), r.drop (r.takeWhile a.check).length) := by
  rw [EREPart.read, if_neg (by simp [QType.max])]
  simp only [QType.min, readTimes, QType.extra, QType.max]
  cases r with
  | nil => rfl
  | cons d r =>
    rw [EREExpr.read]
    by_cases hd : a.check d = true
    · simp only [if_pos hd, Option.bind_some, andThen, Option.map_some]
      rw [class_while _ _ _ _ _ _ (Nat.le_refl _)]
      simp [hd, byteLen_cons, Nat.add_assoc]
    · rw [if_neg hd]
      simp [hd]

/-- A pattern with one branch that begins with a class: looking ahead makes no difference. -/
theorem read_single (a : Atom) (ps : List EREPart) (g : Nat) (F : Option Char → Bool) (off : Nat) (rest : List Char) :
    (ERE.mk [.mk (.single (.atom a) :: ps)]).read g F off rest = readParts (.single (.atom a) :: ps) g F off rest := by
  rw [ERE.read, readBranches, readBranches, EREBranch.read]
  have hl : (EREBranch.mk (.single (.atom a) :: ps)).look F rest.head? = rest.head?.any a.check := rfl
  rw [hl]
  cases rest with
  | nil => rw [read_atom_nil]; rfl
  | cons c r =>
    rw [read_atom, List.head?_cons, Option.any_some]
    split <;> rfl

theorem read_nil (g : Nat) (F : Option Char → Bool) : readParts [] g F = fun o r => some ([], o, r) :=
  funext fun o => funext fun r => by rw [readParts]

theorem andThen_id (q : Reading) : andThen (fun o r => some ([], o, r)) q = some q := by
  obtain ⟨S, o, r⟩ := q
  simp [andThen]

theorem read_last (p : EREPart) (g : Nat) (F : Option Char → Bool) (off : Nat) (rest : List Char) :
    readParts [p] g F off rest = p.read g (partsLook [] F) off rest := by
  rw [readParts, read_nil]
  cases p.read g (partsLook [] F) off rest with
  | none => rfl
  | some q => rw [Option.bind_some, andThen_id]

theorem alpha_check (c : Char) : alphaAtom.check c = BracketCharClass.alphabet.checkAscii c := by
  simp [alphaAtom, Atom.check, Term.check]

theorem scheme_check : schemeAtom.check = schemeChar := by
  funext c
  simp only [schemeAtom, Atom.check, Term.check, List.any_cons, List.any_nil, Bool.or_false, schemeChar, Bool.or_assoc,
    Bool.beq_comm (a := c)]

theorem path_check : pathAtom.check = fun c => c != '?' && c != '#' := by
  funext c
  simp [pathAtom, Atom.check, Term.check, bne, Bool.beq_comm (a := c)]

theorem noHash_check : noHash.check = fun c => c != '#' := by
  funext c
  simp [noHash, Atom.check, Term.check, bne, Bool.beq_comm (a := c)]

theorem ask_check (c : Char) : askAtom.check c = (c == '?') := by
  simp [askAtom, Atom.check, Term.check, Bool.beq_comm (a := c)]

/-- What is taken for the scheme. -/
def schemeOf : List Char → Option (List Char)
  | [] => none
  | c :: r => if BracketCharClass.alphabet.checkAscii c && !(r.takeWhile schemeChar).isEmpty then some (c :: r.takeWhile schemeChar)
    else none

theorem read_scheme (g : Nat) (F : Option Char → Bool) (off : Nat) (rest : List Char) :
    schemeExpr.read g F off rest =
      (schemeOf rest).map fun w => ([⟨g, off, off + byteLen w⟩], off + byteLen w, rest.drop w.length) := by
  rw [schemeExpr, EREExpr.read, read_single]
  cases rest with
  | nil => rw [read_atom_nil]; rfl
  | cons c r =>
    rw [read_atom, alpha_check, schemeOf, read_last, class_plus, scheme_check]
    by_cases hc : BracketCharClass.alphabet.checkAscii c = true
    · rw [if_pos hc]
      by_cases hr : (r.takeWhile schemeChar).isEmpty = true
      · rw [if_pos hr, if_neg (by simp [hr])]; rfl
      · rw [if_neg hr, if_pos (by simp only [hc, Bool.true_and, Bool.not_eq_true'] ; simpa using hr)]
        simp [byteLen_cons, Nat.add_assoc]
    · rw [if_neg hc, if_neg (by simp [hc])]; rfl

/-- What is taken for the authority and the path. -/
def pathOf (rest : List Char) : List Char := rest.takeWhile fun c => c != '?' && c != '#'

theorem read_path (g : Nat) (F : Option Char → Bool) (off : Nat) (rest : List Char) :
    pathExpr.read g F off rest = if (pathOf rest).isEmpty then none else
      some ([⟨g, off, off + byteLen (pathOf rest)⟩], off + byteLen (pathOf rest), rest.drop (pathOf rest).length) := by
  rw [pathExpr, EREExpr.read, ERE.read, readBranches, readBranches, EREBranch.read, read_last, class_plus, path_check]
  have hl : ∀ l, (EREBranch.mk [.quantified (.atom pathAtom) ⟨.plus, false⟩]).look F l = l.any pathAtom.check := fun l => by
    simp [EREBranch.look, partsLook, EREPart.look, EREExpr.look, QType.min, QType.max]
  rw [hl]
  show Option.map _ (if rest.head?.any pathAtom.check = true then
    (if (pathOf rest).isEmpty then none else some ([], off + byteLen (pathOf rest), rest.drop (pathOf rest).length)) else none) = _
  cases rest with
  | nil => rfl
  | cons c r =>
    rw [List.head?_cons, Option.any_some]
    by_cases hc : pathAtom.check c = true
    · rw [if_pos hc]
      split <;> rfl
    · have : pathOf (c :: r) = [] := by
        rw [path_check] at hc
        exact List.takeWhile_cons_of_neg hc
      rw [if_neg hc, this]
      rfl

theorem read_tailPart {a : Atom} {m : Char} (ha : ∀ c, a.check c = (c == m)) (g : Nat) (F : Option Char → Bool) (off : Nat)
    (rest : List Char) : (tailPart a).read g F off rest =
      some (if (tailPiece m rest).isEmpty then [] else [⟨g, off, off + byteLen (tailPiece m rest)⟩],
        off + byteLen (tailPiece m rest), rest.drop (tailPiece m rest).length) := by
  have hlook : ∀ l, (tailExpr a).look (fun _ => true) l = l.any a.check := fun l => by
    simp [tailExpr, EREExpr.look, ERE.look, branchesLook, EREBranch.look, partsLook, EREPart.look]
  have hex : ∀ F' c r, a.check c = true → (tailExpr a).read g F' off (c :: r) =
      some ([⟨g, off, off + byteLen (c :: r.takeWhile noHash.check)⟩], off + byteLen (c :: r.takeWhile noHash.check),
        r.drop (r.takeWhile noHash.check).length) := by
    intro F' c r hc
    rw [tailExpr, EREExpr.read, read_single, read_atom, if_pos hc, read_last, class_star]
    simp [byteLen_cons, Nat.add_assoc]
  rw [tailPart, EREPart.read, if_neg (by simp [QType.max, QType.min])]
  simp only [QType.min, QType.max, readTimes, QType.extra, Option.bind_some, andThen, readWhile, Nat.sub_zero, hlook]
  cases rest with
  | nil => simp [tailPiece, byteLen]
  | cons c r =>
    by_cases hc : c = m
    · subst hc
      have hcc : a.check c = true := by rw [ha]; simp
      have ht : tailPiece c (c :: r) = c :: r.takeWhile (fun x => x != '#') := if_pos rfl
      have hx := hex (fun l => F l || Option.any a.check l) c r hcc
      rw [noHash_check] at hx
      simp [hcc, ht, hx, andThen]
    · have hcc : a.check c = false := by rw [ha]; simpa using hc
      have ht : tailPiece m (c :: r) = [] := if_neg hc
      simp [hcc, ht, byteLen]

theorem read_slashes (ps : List EREPart) (g : Nat) (F : Option Char → Bool) (off : Nat) (rest : List Char) :
    readParts (.single (.atom (.normal ':')) :: .single (.atom (.normal '/')) :: .single (.atom (.normal '/')) :: ps) g F off rest =
      (skipSlashes rest).bind fun r => readParts ps g F (off + 3) r := by
  have hn : ∀ a c : Char, (Atom.normal a).check c = decide (c = a) := fun a c => by
    rw [Bool.eq_iff_iff, Atom.check, beq_iff_eq, decide_eq_true_iff]; exact ⟨Eq.symm, Eq.symm⟩
  have h1 : charLen ':' = 1 := by decide
  have h2 : charLen '/' = 1 := by decide
  match rest with
  | [] => rw [read_atom_nil]; rfl
  | [a] =>
    rw [read_atom, read_atom_nil]
    simp [skipSlashes]
  | [a, b] =>
    rw [read_atom, read_atom, read_atom_nil]
    simp [skipSlashes]
  | a :: b :: c :: r =>
    rw [read_atom, read_atom, read_atom, hn, hn, hn]
    by_cases ha : a = ':'
    · by_cases hb : b = '/'
      · by_cases hc : c = '/'
        · subst ha hb hc
          simp [skipSlashes, h1, h2]
        · subst ha hb
          have : skipSlashes (':' :: '/' :: c :: r) = none := by
            unfold skipSlashes
            split
            · rename_i h; simp at h; exact absurd h.1 hc
            · rfl
          simp [this, hc]
      · have : skipSlashes (a :: b :: c :: r) = none := by
          unfold skipSlashes
          split
          · rename_i h; simp at h; exact absurd h.2.1 hb
          · rfl
        simp [this, hb]
    · have : skipSlashes (a :: b :: c :: r) = none := by
        unfold skipSlashes
        split
        · rename_i h; simp at h; exact absurd h.1 ha
        · rfl
      simp [this, ha]

/-- What is behind the path. -/
theorem read_tails (F : Option Char → Bool) (o : Nat) (rest : List Char) :
    readParts [tailPart askAtom, tailPart (.normal '#'), .end_] 3 F o rest =
      (fun (q f : List Char) =>
        if ((rest.drop q.length).drop f.length).isEmpty then
          some ((if q.isEmpty then [] else [⟨3, o, o + byteLen q⟩]) ++
            (if f.isEmpty then [] else [⟨4, o + byteLen q, o + byteLen q + byteLen f⟩]), o + byteLen q + byteLen f,
            (rest.drop q.length).drop f.length)
        else none) (tailPiece '?' rest) (tailPiece '#' (rest.drop (tailPiece '?' rest).length)) := by
  have hh : ∀ c, (Atom.normal '#').check c = (c == '#') := fun c => by simp [Atom.check, Bool.beq_comm (a := c)]
  have hend : ∀ o r, readParts [.end_] (3 + (tailPart askAtom).groups + (tailPart (.normal '#')).groups) F o r =
      if r = [] then some ([], o, r) else none := fun o r => by rw [read_last, EREPart.read]
  rw [readParts, read_tailPart ask_check, Option.bind_some, andThen, readParts, read_tailPart hh, Option.bind_some, andThen, hend]
  have hg : 3 + (tailPart askAtom).groups = 4 := rfl
  rw [hg]
  generalize tailPiece '?' rest = q
  generalize tailPiece '#' _ = f
  by_cases h : (rest.drop q.length).drop f.length = []
  · simp only [h, if_true, List.isEmpty_nil, Option.map_some, List.append_nil]
  · have h' : ((rest.drop q.length).drop f.length).isEmpty = false := by
      cases hh : (rest.drop q.length).drop f.length with
      | nil => exact absurd hh h
      | cons => rfl
    simp only [if_neg h, h', Option.map_none]
    rfl

theorem uri_parts (F : Option Char → Bool) (rest : List Char) :
    ((readParts (uriParts ++ [.end_]) 1 F 0 rest).map fun r => answerOf 5 (r.1 ++ [⟨0, 0, r.2.1⟩])) = uriPlaces rest := by
  show (readParts [.single schemeExpr, .single (.atom (.normal ':')), .single (.atom (.normal '/')), .single (.atom (.normal '/')),
    .single pathExpr, tailPart askAtom, tailPart (.normal '#'), .end_] 1 F 0 rest).map _ = _
  rw [readParts, EREPart.read, read_scheme, uriPlaces]
  cases rest with
  | nil => rfl
  | cons c r =>
    rw [uriPieces, schemeOf]
    by_cases hc : (BracketCharClass.alphabet.checkAscii c && !(r.takeWhile schemeChar).isEmpty) = true
    · rw [if_pos hc]
      simp only [if_pos hc]
      have hd : (c :: r).drop (c :: r.takeWhile schemeChar).length = r.drop (r.takeWhile schemeChar).length := rfl
      rw [Option.map_some, Option.bind_some, andThen, read_slashes, hd]
      cases skipSlashes (r.drop (r.takeWhile schemeChar).length) with
      | none => rfl
      | some r2 =>
        simp only [Option.bind_some]
        rw [readParts, EREPart.read, read_path, pathOf]
        generalize List.takeWhile (fun c => c != '?' && c != '#') r2 = p
        by_cases hp : p.isEmpty = true
        · rw [if_pos hp, if_neg (by simp [hp])]; rfl
        · have hg : 1 + (EREPart.single schemeExpr).groups + (EREPart.single pathExpr).groups = 3 := rfl
          have hg2 : 1 + (EREPart.single schemeExpr).groups = 2 := rfl
          have hp' : p.isEmpty = false := by simpa using hp
          rw [if_neg hp, Option.bind_some, andThen, hg, hg2, read_tails]
          simp only [hp', Bool.not_false, Bool.true_and]
          generalize List.drop p.length r2 = r3
          generalize tailPiece '?' r3 = q
          generalize List.drop q.length r3 = r4
          generalize tailPiece '#' r4 = f
          split
          · have hr : List.range 5 = [0, 1, 2, 3, 4] := rfl
            simp only [Option.map_some]
            rw [answerOf, hr]
            by_cases hq : q.isEmpty = true <;> by_cases hf : f.isEmpty = true <;> simp [lastSpan, hq, hf]
          · rfl
    · rw [if_neg hc]
      simp only [if_neg hc]
      rfl

theorem uri_later {off : Nat} (h : off ≠ 0) : ∀ rest, uriERE.readFrom off rest = none := by
  have h0 : ∀ {off : Nat}, off ≠ 0 → ∀ rest, uriERE.readAt off rest = none := by
    intro off h rest
    simp [ERE.readAt, uriERE, ERE.read, readBranches, EREBranch.read, readParts, EREPart.read, h]
  intro rest
  induction rest generalizing off with
  | nil => exact h0 h []
  | cons c r ih =>
    rw [ERE.readFrom, h0 h]
    exact ih (by omega)

theorem uri_at (text : List Char) : (uriERE.readAt 0 text).map (answerOf 5) = uriPlaces text := by
  rw [ERE.readAt, uriERE, ERE.read, readBranches, readBranches, Option.map_map]
  have hlook : ∀ l, (EREBranch.mk (.start :: (uriParts ++ [.end_]))).look (fun _ => true) l = l.any alphaAtom.check := by
    intro l
    simp [EREBranch.look, uriParts, partsLook, EREPart.look, EREExpr.look, schemeExpr, ERE.look, branchesLook]
  have hread : (EREBranch.mk (.start :: (uriParts ++ [.end_]))).read 1 (fun _ => true) 0 text =
      readParts (uriParts ++ [.end_]) 1 (fun _ => true) 0 text := by
    have hid : ∀ x : Option Reading, x.map (fun r => (([] : List Span) ++ r.1, r.2)) = x := by
      rintro (_ | ⟨S, o, r⟩) <;> rfl
    rw [EREBranch.read, readParts, EREPart.read, if_pos rfl, Option.bind_some, andThen, hid]
    rfl
  rw [hlook, hread]
  cases text with
  | nil => rfl
  | cons c r =>
    rw [List.head?_cons, Option.any_some, alpha_check]
    by_cases hc : BracketCharClass.alphabet.checkAscii c = true
    · rw [if_pos hc]
      exact uri_parts _ (c :: r)
    · rw [if_neg hc, uriPlaces, uriPieces]
      simp [hc]

theorem uri_read (text : List Char) : (uriERE.readFrom 0 text).map (answerOf 5) = uriPlaces text := by
  rw [← uri_at]
  cases text with
  | nil => rfl
  | cons c r =>
    rw [ERE.readFrom, uri_later (by have := charLen_pos c; omega)]
    cases uriERE.readAt 0 (c :: r) <;> rfl

/-! ## Every match is read

In `([?][^#]*)?` the class `[^#]` also contains the `?`; as there is only one round, the next character decides all the same. This is
not covered by `ERE.Decided`, which does not tell the first round from the next, so that the parts are put together here. -/

theorem full_cons {p : EREPart} {ps : List EREPart} {g : Nat} {F : Option Char → Bool}
    (h1 : FullRead (CapPart p g) (partsLook ps F) (p.read g (partsLook ps F)))
    (h2 : FullRead (CapBranch (.mk ps) (g + p.groups)) F (readParts ps (g + p.groups) F)) :
    FullRead (CapBranch (.mk (p :: ps)) g) F (readParts (p :: ps) g F) := by
  intro pre mid r S h hF
  cases h with
  | @cons _ _ _ _ m1 m2 _ S1 S2 k1 k2 =>
    have hs := k2.seen (F := fun l => F l = true) hF
    rw [EREBranch.sees] at hs
    rw [readParts, List.append_assoc, h1 _ _ _ _ k1 ((partsLook_iff _ _ _).mpr hs), Option.bind_some]
    exact andThen_some.mpr ⟨S2, by rw [h2 _ _ _ _ k2 hF, List.append_assoc], rfl⟩

theorem full_tail {a : Atom} {m : Char} (ha : ∀ c, a.check c = (c == m)) (g : Nat) {F : Option Char → Bool}
    (hF : ∀ c, F (some c) = true → c ≠ m ∧ c = '#') : FullRead (CapPart (tailPart a) g) F ((tailPart a).read g F) := by
  intro pre mid r S h hr
  rw [read_tailPart ha]
  cases h with
  | @quantified _ _ n _ _ _ _ _ _ hm h =>
    have hn : n ≤ 1 := hm 1 rfl
    obtain rfl | rfl : n = 0 ∨ n = 1 := by omega
    · cases h
      have : tailPiece m r = [] := by
        cases r with
        | nil => rfl
        | cons c r => exact if_neg (hF c hr).1
      simp [this, byteLen]
    · cases h with
      | @succ _ _ _ _ m1 m2 _ S1 S2 h1 h2 =>
      cases h2
      have hd : (tailExpr a).Decided fun l => F l = true := by
        refine ⟨by simp, ⟨trivial, ⟨trivial, .inr ?_⟩, trivial⟩, trivial⟩
        rintro l ⟨h, ⟨c, rfl, h4⟩⟩
        have := (hF c h).2
        subst this
        revert h4; decide
      have hf := EREExpr.read_full (tailExpr a) g F hd rfl _ _ _ _ h1 hr
      rw [List.append_nil, List.append_nil]
      rw [List.nil_append] at hf
      cases hx : m1 ++ r with
      | nil =>
        rw [hx, tailExpr, EREExpr.read, read_single, read_atom_nil] at hf
        cases hf
      | cons c rest =>
        rw [hx, tailExpr, EREExpr.read, read_single, read_atom, read_last, class_star, noHash_check, ha] at hf
        by_cases hc : c = m
        · have ht : tailPiece m (c :: rest) = c :: rest.takeWhile (fun x => x != '#') := if_pos hc
          simp only [hc, beq_self_eq_true, if_true, Option.map_some, Option.some.injEq, Prod.mk.injEq] at hf
          rw [← hf.1, ← hf.2.1, ← hf.2.2, ht]
          subst hc
          simp [byteLen_cons, Nat.add_assoc]
        · rw [if_neg (by simpa using hc)] at hf
          cases hf

theorem uri_full : FullRead (CapERE uriERE 1) (fun _ => true) (uriERE.read 1 fun _ => true) := by
  have hn : ∀ {a c : Char}, (Atom.normal a).check c = true → a = c := fun h => by simpa [Atom.check] using h
  have hany : ∀ {a : Atom} {l : Option Char}, l.any a.check = true → ∃ c, l = some c ∧ a.check c = true := by
    intro a l h
    cases l with
    | none => cases h
    | some c => exact ⟨c, rfl, h⟩
  have hh : ∀ c, (Atom.normal '#').check c = (c == '#') := fun c => by simp [Atom.check, Bool.beq_comm (a := c)]
  have hlook2 : ∀ c, partsLook [tailPart (.normal '#'), .end_] (fun _ => true) (some c) = true → c = '#' := by
    intro c h
    simpa [partsLook, EREPart.look, tailPart, tailExpr, EREExpr.look, ERE.look, branchesLook, EREBranch.look, hh, QType.max] using h
  have hlook3 : ∀ c, partsLook [tailPart askAtom, tailPart (.normal '#'), .end_] (fun _ => true) (some c) = true → c = '?' ∨ c = '#' := by
    intro c h
    simp [partsLook, EREPart.look, tailPart, tailExpr, EREExpr.look, ERE.look, branchesLook, EREBranch.look, hh, ask_check, QType.min,
      QType.max] at h
    exact h.symm
  have hsingle : ∀ (a : Atom) (g : Nat) (F : Option Char → Bool), FullRead (CapPart (.single (.atom a)) g) F
      ((EREPart.single (.atom a)).read g F) := fun a g F => EREPart.read_full _ _ _ trivial rfl
  have hb : FullRead (CapBranch (.mk (.start :: (uriParts ++ [.end_]))) 1) (fun _ => true)
      (readParts (.start :: (uriParts ++ [.end_])) 1 fun _ => true) := by
    refine full_cons (EREPart.read_full .start _ _ trivial rfl) (full_cons (EREPart.read_full _ _ _ ?_ rfl) (full_cons (hsingle _ _ _)
      (full_cons (hsingle _ _ _) (full_cons (hsingle _ _ _) (full_cons (EREPart.read_full _ _ _ ?_ rfl) (full_cons
        (full_tail ask_check _ ?_) (full_cons (full_tail hh _ ?_) (full_cons (EREPart.read_full .end_ _ _ trivial rfl) ?_))))))))
    · refine ⟨by simp, ⟨trivial, ⟨trivial, .inr ?_⟩, trivial⟩, trivial⟩
      rintro l ⟨h, ⟨d, rfl, h4⟩⟩
      have h : (Atom.normal ':').check d = true := h
      rw [← hn h] at h4
      revert h4; decide
    · refine ⟨by simp, ⟨⟨trivial, .inr ?_⟩, trivial⟩, trivial⟩
      rintro l ⟨h, ⟨d, rfl, h4⟩⟩
      rcases hlook3 d h with rfl | rfl <;> revert h4 <;> decide
    · intro c h
      have := hlook2 c h
      subst this
      exact ⟨by decide, rfl⟩
    · intro c h
      cases h
    · exact readParts_full [] _ _ trivial rfl
  intro pre mid r S h hF
  cases h with
  | @intro _ bs1 b bs2 _ _ _ _ _ hb' h =>
    have hone : bs1 = [] ∧ b = .mk (.start :: (uriParts ++ [.end_])) := by
      cases bs1 with
      | nil => exact ⟨rfl, (List.cons.inj hb').1.symm⟩
      | cons x bs1 =>
        have := congrArg List.length hb'
        simp at this
    obtain ⟨rfl, rfl⟩ := hone
    have hs := h.seen (F := fun l => (fun _ => true : Option Char → Bool) l = true) rfl
    rw [uriERE, ERE.read, readBranches, if_pos ((EREBranch.look_iff _ _ _).mpr hs), EREBranch.read]
    exact hb _ _ _ _ h rfl

/-! ## In the text

For any pattern with `^` in front all of whose matches are read. -/

/-- The only match is what is read. -/
theorem captures_read {e : ERE} {t : Bool} (he : e.Framed true t) (hf : FullRead (CapERE e 1) (fun _ => true) (e.read 1 fun _ => true))
    {text : List Char} {S : List Span} (h : e.Captures text S) : e.readFrom 0 text = some S := by
  obtain ⟨pre, mid, post, S0, rfl, hc, rfl⟩ := h
  have := ((C76_framed he pre mid post).mp hc.matches).2.1 rfl
  subst this
  have h0 : e.readAt 0 (mid ++ post) = some (S0 ++ [⟨0, byteLen [], byteLen ([] ++ mid)⟩]) := by
    rw [ERE.readAt, show (0 : Nat) = byteLen [] from rfl, hf _ _ _ _ hc rfl]
    rfl
  have key : ∀ {l : List Char} {T : List Span}, e.readAt 0 l = some T → e.readFrom 0 l = some T := by
    intro l T h
    cases l with
    | nil => exact h
    | cons c r => rw [ERE.readFrom, h]
  exact key h0

theorem full_isSome {e : ERE} {t : Bool} (he : e.Framed true t) (hf : FullRead (CapERE e 1) (fun _ => true) (e.read 1 fun _ => true))
    (text : List Char) : (e.readFrom 0 text).isSome = true ↔ e.MatchesIn text := by
  rw [← captures_matchesIn]
  constructor
  · intro h
    obtain ⟨S, hS⟩ := Option.isSome_iff_exists.mp h
    exact ⟨S, readFrom_sound (pre := []) hS⟩
  · rintro ⟨S, h⟩
    rw [captures_read he hf h]
    rfl

theorem full_exec {e : ERE} {t : Bool} (he : e.Framed true t) (hf : FullRead (CapERE e 1) (fun _ => true) (e.read 1 fun _ => true))
    {text : List Char} {k : Nat} {res} (h : ExecOk e text k res) : res = .ok ((e.readFrom 0 text).map (answerOf k)) := by
  rcases h with ⟨rfl, hm⟩ | ⟨r, S, rfl, hS, hl, hr⟩
  · cases hx : e.readFrom 0 text with
    | none => rfl
    | some S => exact absurd ((full_isSome he hf text).mp (by rw [hx]; rfl)) hm
  · rw [captures_read he hf hS, Option.map_some, answerOf_eq hl hr]

theorem full_oneReading {e : ERE} {t : Bool} (he : e.Framed true t)
    (hf : FullRead (CapERE e 1) (fun _ => true) (e.read 1 fun _ => true)) : e.OneReading := by
  intro text S S' h h' g
  have := (captures_read he hf h).symm.trans (captures_read he hf h')
  rw [Option.some.inj this]

theorem full_compiles (U : Utf8Seqs) {t : Bool} {p : List Char} {e : ERE} (hp : parseStr p = .ok e) (he : e.Framed true t)
    (hf : FullRead (CapERE e 1) (fun _ => true) (e.read 1 fun _ => true)) (ha : e.atomsAll plainAtom = true)
    (h0 : e.readFrom 0 [] = none) (h1 : ∃ text, (e.readFrom 0 text).isSome = true) {cr : List String} (hcr : "ere" ∈ cr) :
    ∃ E, compileRegex U.seqs p = .ok (some E) ∧ E.compiles cr = true ∧ ∀ text, E.test text = .ok (e.readFrom 0 text).isSome ∧
      E.exec text = .ok ((e.readFrom 0 text).map (answerOf E.groups)) := by
  obtain ⟨text, hm⟩ := h1
  rw [full_isSome he hf] at hm
  obtain ⟨E, h⟩ := C17_compile_returns_partial U hp ⟨text, hm⟩
  have hc : E.compiles cr = true := by
    cases hc : E.compiles cr with
    | true => rfl
    | false =>
      exfalso
      obtain ⟨_, hx⟩ := (C62_framed_compiles_iff U hp he ha h hcr).mp hc
      rcases hx with ⟨_, h2, h3⟩ | ⟨h2, h3⟩
      · rw [← full_isSome he hf, h0] at h3
        cases h3
      · exact h3 (full_oneReading he hf)
  refine ⟨E, h, hc, fun text => ⟨?_, full_exec he hf ((C65_framed U hp he h hc).exec text)⟩⟩
  obtain ⟨b, k1, k2⟩ := (C65_framed U hp he h hc).test text
  rw [k1, Bool.eq_iff_iff.mpr (k2.trans (full_isSome he hf text).symm)]

theorem full_engines (U : Utf8Seqs) {t : Bool} {e : ERE} (hg : e.progress = true) (he : e.Framed true t)
    (hf : FullRead (CapERE e 1) (fun _ => true) (e.read 1 fun _ => true)) (hl : LastUsed e) (text : List Char) :
    (∀ F, compileFlatChar e = .ok F → F.exec text text = .ok ((e.readFrom 0 text).map (answerOf (e.groups + 1)))) ∧
    (∀ F, compileFlatU8 U.seqs e = .ok F → F.exec text (encode text) = .ok ((e.readFrom 0 text).map (answerOf (e.groups + 1)))) ∧
    (∀ P, compileOnePassU8 U.seqs e = .ok (some P) → P.compiles = true →
      P.exec text (encode text) = .ok ((e.readFrom 0 text).map (answerOf (e.groups + 1)))) ∧
    ∀ G, compileDfaU8 U.seqs e = .ok (some G) →
      G.tdfa.exec text (encode text) = .ok ((e.readFrom 0 text).map (answerOf (e.groups + 1))) := by
  obtain ⟨N, M, k1, k2, k3, k4⟩ := C29_groups_exact_partial U _ (lastUsed_captures hl)
  refine ⟨fun F h => ?_, fun F h => ?_, fun P h hc => ?_, fun G h => ?_⟩
  · have hG : F.groups = e.groups + 1 := by
      have h := h
      unfold compileFlatChar at h
      rw [k1] at h
      rw [compileFlat_groups h, k3]
    rw [full_exec he hf (C23_flat_char_exec h text), hG]
  · have hG : F.groups = e.groups + 1 := by
      have h := h
      unfold compileFlatU8 at h
      rw [k2] at h
      rw [compileFlat_groups h, k4]
    rw [full_exec he hf (C23_flat_u8_exec U h text), hG]
  · have hG : P.groups = e.groups + 1 := by
      obtain ⟨M'', j1, _, j2, _⟩ := onePass_compiled U h
      rw [j2.groups, ok_unique j1 k2, k4]
    rw [full_exec he hf (C23_one_pass_exec U h hc text), hG]
  · rw [full_exec he hf (C23_dfa_exec_partial U (framed_startSimple he) h text),
      C29_dfa_exact_partial U hg (framed_startSimple he) hl h]

/-! ## The pattern -/

theorem uri_framed : uriERE.Framed true true :=
  ⟨_, rfl, fun b hb => by
    rw [List.mem_singleton] at hb
    subst hb
    exact ⟨uriParts, rfl, by decide, by decide⟩⟩

theorem uri_shape : uriERE.progress = true ∧ uriERE.atomsAll plainAtom = true ∧ uriERE.groups = 4 := by decide +kernel

theorem uri_lastUsed : LastUsed uriERE := by
  have h : uriERE.first "ab://c#".toList = some [⟨1, 0, 2⟩, ⟨2, 5, 6⟩, ⟨4, 6, 7⟩, ⟨0, 0, 7⟩] := by decide +kernel
  exact ⟨_, _, h, by rw [uri_shape.2.2]; decide⟩

/-- **C90.** The pattern of the test with URIs: it compiles, has five groups, and on every text `test` and `exec` take
a URI apart as one would by hand: scheme, authority with path, query and fragment, the last two possibly missing. -/
theorem C90_uri (U : Utf8Seqs) {cr : List String} (hcr : "ere" ∈ cr) :
    ∃ E, compileRegex U.seqs "^([[:alpha:]][[:alnum:]-+.]+)://([^?#]+)([?][^#]*)?(#[^#]*)?$".toList = .ok (some E) ∧
      E.compiles cr = true ∧ E.groups = 5 ∧ ∀ text, E.test text = .ok (uriPlaces text).isSome ∧ E.exec text = .ok (uriPlaces text) := by
  obtain ⟨hg, ha, hgr⟩ := uri_shape
  have hs : ∀ text, (uriERE.readFrom 0 text).isSome = (uriPlaces text).isSome := fun text => by
    rw [← uri_read, Option.isSome_map]
  obtain ⟨E, h, hc, hE⟩ := full_compiles U parse_uri uri_framed uri_full ha
    (Option.isSome_eq_false_iff.mp (hs []) |> Option.isNone_iff_eq_none.mp) ⟨"ab://c".toList, by rw [hs]; decide +kernel⟩ hcr
  have hG : E.groups = 5 := by
    rw [C29_compile_regex_partial U hg uri_lastUsed (compileRegex_ok parse_uri h) hc fun _ _ => framed_startSimple uri_framed, hgr]
  refine ⟨E, h, hc, hG, fun text => ?_⟩
  have := hE text
  rw [hs, hG, uri_read] at this
  exact this

/-- **C90 (the engines one by one).** The four macros that the test uses. -/
theorem C90_uri_engines (U : Utf8Seqs) (text : List Char) :
    (∀ F, compileFlatChar uriERE = .ok F → F.exec text text = .ok (uriPlaces text)) ∧
    (∀ F, compileFlatU8 U.seqs uriERE = .ok F → F.exec text (encode text) = .ok (uriPlaces text)) ∧
    (∀ P, compileOnePassU8 U.seqs uriERE = .ok (some P) → P.compiles = true → P.exec text (encode text) = .ok (uriPlaces text)) ∧
    ∀ G, compileDfaU8 U.seqs uriERE = .ok (some G) → G.tdfa.exec text (encode text) = .ok (uriPlaces text) := by
  have h := full_engines U uri_shape.1 uri_framed uri_full uri_lastUsed text
  rw [uri_shape.2.2, uri_read] at h
  exact h

/-- non-vacuity: with query and fragment, with one of them, with neither, and what is no URI. -/
example : uriPlaces "https://a.b/c?d=e#f".toList = some [some (0, 19), some (0, 5), some (8, 13), some (13, 17), some (17, 19)] ∧
    uriPlaces "https://a.b#".toList = some [some (0, 12), some (0, 5), some (8, 11), none, some (11, 12)] ∧
    uriPlaces "x+y://z?".toList = some [some (0, 8), some (0, 3), some (6, 7), some (7, 8), none] ∧
    uriPlaces "a://b".toList = none ∧ uriPlaces "ab:/c".toList = none ∧ uriPlaces "ab://?c".toList = none ∧
    uriPlaces "ab://c#d#e".toList = none := by decide +kernel

end Ere.Props
