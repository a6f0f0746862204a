import Verif.Proofs.DrawPicture
import Verif.Proofs.DrawLayout

/-!
# Labels, and the picture of an automaton
-/

namespace Ere

theorem expect_cons_ne {c : Char} {p s : List Char} (h : ∀ d, s.head? = some d → d ≠ c) :
    expect (c :: p) s = none := by
  cases s with
  | nil => rfl
  | cons d s => exact expect_ne (fun e => h d rfl e.symm)

theorem escapeLatexChar_head (c : Char) : ∃ d l, escapeLatexChar c = d :: l ∧ d ≠ '$' := by
  rcases escapeLatexChar_cases c with ⟨_, h⟩ | ⟨_, h⟩ | ⟨_, h⟩ | h | ⟨h, _, _, _, h4⟩
  · exact ⟨_, _, by rw [h, backslash_eq], by decide⟩
  · exact ⟨_, _, by rw [h, tilde_eq], by decide⟩
  · exact ⟨_, _, by rw [h, circum_eq], by decide⟩
  · exact ⟨_, _, h, by decide⟩
  · exact ⟨c, [], h, h4⟩

theorem escapeLatex_head {t : List Char} {d : Char} (h : (escapeLatex t).head? = some d) : d ≠ '$' := by
  cases t with
  | nil => cases h
  | cons c t =>
    obtain ⟨d', l, h1, h2⟩ := escapeLatexChar_head c
    have : escapeLatex (c :: t) = d' :: (l ++ escapeLatex t) := by
      show escapeLatexChar c ++ escapeLatex t = _
      rw [h1]; rfl
    rw [this] at h
    cases h
    exact h2

theorem mk1 : "$\\epsilon_{".toList = '$' :: "\\epsilon_{".toList := by rfl
theorem mk2 : "{\\textasciicircum}$_{".toList = "{\\textasciicircum}".toList ++ ('$' :: "_{".toList) := by rfl
theorem mk3 : "$\\$_{".toList = '$' :: "\\$_{".toList := by rfl
theorem mk4 : "$)".toList = '$' :: ")".toList := by rfl
theorem mk5 : "$".toList = ['$'] := by rfl

theorem expect_append_none {p q s : List Char} (h : expect q s = none) : expect (p ++ q) (p ++ s) = none := by
  induction p with
  | nil => exact h
  | cons c p ih => simp [expect, ih]

theorem expect_circum (t : List Char) : expect "{\\textasciicircum}$_{".toList (escapeLatex t) = none := by
  cases t with
  | nil => rw [mk2, circum_eq]; rfl
  | cons c t =>
    have e : escapeLatex (c :: t) = escapeLatexChar c ++ escapeLatex t := rfl
    rw [e]
    rcases escapeLatexChar_cases c with ⟨_, h⟩ | ⟨_, h⟩ | ⟨_, h⟩ | h | ⟨h, h1, h2, _, _⟩
    · rw [h, mk2, backslash_eq, circum_eq]; rfl
    · rw [h, mk2, tilde_eq, circum_eq]; rfl
    · rw [h, mk2]
      exact expect_append_none (expect_cons_ne (fun d hd => escapeLatex_head hd))
    · rw [h, mk2, circum_eq]; rfl
    · rw [h, mk2, circum_eq]
      exact expect_ne (fun e => h2 e.symm)

/-- The label of a symbol shows its text. -/
theorem readMark_escape (t : List Char) : readMark (escapeLatex t) = some (.text t) := by
  have h0 : ∀ p, expect ('$' :: p) (escapeLatex t) = none :=
    fun p => expect_cons_ne (fun d hd => escapeLatex_head hd)
  rw [readMark, mk1, h0, expect_circum, mk3, h0, mk4, h0, mk5, h0]
  simp only [texShows_escapeLatex, Option.map_some]

theorem readIndex_decimal (k : Nat) : readIndex (decimal k ++ "}$".toList) = some k := by
  unfold readIndex
  rw [readNum_decimal (hr := by exact notDigit_of (c := '}') rfl)]
  have he := expect_append "}$".toList []
  rw [List.append_nil] at he
  simp only [Option.bind_eq_bind, Option.bind_some, he]
  rfl

theorem tikz_none (k : Nat) : EpsType.tikz k .none = "$\\epsilon_{".toList ++ decimal k ++ "}$".toList := rfl
theorem tikz_start (k : Nat) :
    EpsType.tikz k .startAnchor = "{\\textasciicircum}$_{".toList ++ decimal k ++ "}$".toList := rfl
theorem tikz_end (k : Nat) : EpsType.tikz k .endAnchor = "$\\$_{".toList ++ decimal k ++ "}$".toList := rfl
theorem tikz_open (k g : Nat) : EpsType.tikz k (.startCapture g) =
    "$".toList ++ decimal g ++ "(_{".toList ++ decimal k ++ "}$".toList := rfl
theorem tikz_close (k g : Nat) : EpsType.tikz k (.endCapture g) =
    "$)".toList ++ decimal g ++ "_{".toList ++ decimal k ++ "}$".toList := rfl

theorem expect_circum_dollar (r : List Char) : expect "{\\textasciicircum}$_{".toList ("$".toList ++ r) = none := by
  rfl

/-- The label of an epsilon transition shows its kind and its number. -/
theorem readMark_eps (e : EpsType) (k : Nat) : readMark (e.tikz k) = some (.eps e k) := by
  have hd : ∀ g : Nat, ∀ r, expect "$\\epsilon_{".toList ("$".toList ++ (decimal g ++ r)) = none ∧
      expect "{\\textasciicircum}$_{".toList ("$".toList ++ (decimal g ++ r)) = none ∧
      expect "$\\$_{".toList ("$".toList ++ (decimal g ++ r)) = none ∧
      expect "$)".toList ("$".toList ++ (decimal g ++ r)) = none := by
    intro g r
    obtain ⟨c, ds, h1, h2⟩ := decimal_head g
    have hb : '\\' ≠ c := by rintro rfl; exact absurd h2 (by decide)
    have hp : ')' ≠ c := by rintro rfl; exact absurd h2 (by decide)
    rw [h1]
    refine ⟨?_, expect_circum_dollar _, ?_, ?_⟩
    · exact (by simp [expect, hb] : expect ('$' :: '\\' :: "epsilon_{".toList) ('$' :: c :: (ds ++ r)) = none)
    · exact (by simp [expect, hb] : expect ('$' :: '\\' :: "$_{".toList) ('$' :: c :: (ds ++ r)) = none)
    · exact (by simp [expect, hp] : expect ('$' :: ')' :: []) ('$' :: c :: (ds ++ r)) = none)
  cases e with
  | none =>
    rw [tikz_none]
    simp only [List.append_assoc]
    rw [readMark, expect_append]
    simp only [readIndex_decimal]
    rfl
  | startAnchor =>
    rw [tikz_start]
    simp only [List.append_assoc]
    rw [readMark, show expect "$\\epsilon_{".toList ("{\\textasciicircum}$_{".toList ++
      (decimal k ++ "}$".toList)) = none by rfl, expect_append]
    simp only [readIndex_decimal]
    rfl
  | endAnchor =>
    rw [tikz_end]
    simp only [List.append_assoc]
    rw [readMark, show expect "$\\epsilon_{".toList ("$\\$_{".toList ++
      (decimal k ++ "}$".toList)) = none by rfl,
      show expect "{\\textasciicircum}$_{".toList ("$\\$_{".toList ++
      (decimal k ++ "}$".toList)) = none by rfl, expect_append]
    simp only [readIndex_decimal]
    rfl
  | startCapture g =>
    rw [tikz_open]
    simp only [List.append_assoc]
    obtain ⟨h1, h2, h3, h4⟩ := hd g ("(_{".toList ++ (decimal k ++ "}$".toList))
    rw [readMark, h1, h2, h3, h4, expect_append]
    simp only
    rw [readNum_decimal (hr := by exact notDigit_of (c := '(') rfl)]
    simp only [Option.bind_eq_bind, Option.bind_some, expect_append, readIndex_decimal]
    rfl
  | endCapture g =>
    rw [tikz_close]
    simp only [List.append_assoc]
    rw [readMark, show expect "$\\epsilon_{".toList ("$)".toList ++
      (decimal g ++ ("_{".toList ++ (decimal k ++ "}$".toList)))) = none by rfl,
      show expect "{\\textasciicircum}$_{".toList ("$)".toList ++
      (decimal g ++ ("_{".toList ++ (decimal k ++ "}$".toList)))) = none by rfl,
      show expect "$\\$_{".toList ("$)".toList ++
      (decimal g ++ ("_{".toList ++ (decimal k ++ "}$".toList)))) = none by rfl, expect_append]
    simp only
    rw [readNum_decimal (hr := by exact notDigit_of (c := '_') rfl)]
    simp only [Option.bind_eq_bind, Option.bind_some, expect_append, readIndex_decimal]
    rfl

theorem Neutral.eps (e : EpsType) (k : Nat) : Neutral (e.tikz k) := by
  have hi : Neutral ('{' :: (Ere.decimal k ++ ['}'])) := .group (.decimal k)
  have hc : ∀ c : Char, c ≠ '\\' → c ≠ '{' → c ≠ '}' → ∀ {l}, Neutral l → Neutral (c :: l) :=
    fun c h1 h2 h3 l hl => Neutral.append (l := [c]) (.char h1 h2 h3) hl
  have hd : Neutral ['$'] := .char (by decide) (by decide) (by decide)
  have he : Neutral ('_' :: (('{' :: (Ere.decimal k ++ ['}'])) ++ ['$'])) :=
    hc _ (by decide) (by decide) (by decide) (.append hi hd)
  have eq1 : "}$".toList = ['}', '$'] := by rfl
  cases e with
  | none =>
    have : EpsType.tikz k .none = ['$'] ++ (['\\', 'e'] ++ (['p', 's', 'i', 'l', 'o', 'n'] ++
        ('_' :: (('{' :: (Ere.decimal k ++ ['}'])) ++ ['$'])))) := by
      simp only [tikz_none, eq1, show "$\\epsilon_{".toList = ['$', '\\', 'e', 'p', 's', 'i', 'l', 'o',
        'n', '_', '{'] by rfl]
      simp
    rw [this]
    exact .append hd (.append (.esc _) (.append (.all (by decide)) he))
  | startAnchor =>
    have : EpsType.tikz k .startAnchor = "{\\textasciicircum}".toList ++ (['$'] ++
        ('_' :: (('{' :: (Ere.decimal k ++ ['}'])) ++ ['$']))) := by
      simp only [tikz_start, eq1, mk2, show "_{".toList = ['_', '{'] by rfl]
      simp
    rw [this, circum_eq]
    exact .append (.word (by decide)) (.append hd he)
  | endAnchor =>
    have : EpsType.tikz k .endAnchor = ['$'] ++ (['\\', '$'] ++
        ('_' :: (('{' :: (Ere.decimal k ++ ['}'])) ++ ['$']))) := by
      simp only [tikz_end, eq1, show "$\\$_{".toList = ['$', '\\', '$', '_', '{'] by rfl]
      simp
    rw [this]
    exact .append hd (.append (.esc _) he)
  | startCapture g =>
    have : EpsType.tikz k (.startCapture g) = ['$'] ++ (Ere.decimal g ++ (['('] ++
        ('_' :: (('{' :: (Ere.decimal k ++ ['}'])) ++ ['$'])))) := by
      simp only [tikz_open, eq1, mk5, show "(_{".toList = ['(', '_', '{'] by rfl]
      simp
    rw [this]
    exact .append hd (.append (.decimal g) (.append (.char (by decide) (by decide) (by decide)) he))
  | endCapture g =>
    have : EpsType.tikz k (.endCapture g) = ['$'] ++ ([')'] ++ (Ere.decimal g ++
        ('_' :: (('{' :: (Ere.decimal k ++ ['}'])) ++ ['$'])))) := by
      simp only [tikz_close, eq1, show "$)".toList = ['$', ')'] by rfl, show "_{".toList = ['_', '{'] by rfl]
      simp
    rw [this]
    exact .append hd (.append (.char (by decide) (by decide) (by decide)) (.append (.decimal g) he))

end Ere
