import Verif.Model.Parse
import Verif.Spec.Grammar

/-! The parser reads exactly the spellings of the grammar. -/

namespace Ere

/-! ## Numbers -/

theorem digitVal_some {c : Char} {d : Nat} :
    digitVal c = some d ↔ c.isDigit = true ∧ d = c.toNat - '0'.toNat := by
  have h : c.isDigit = true ↔ 48 ≤ c.toNat ∧ c.toNat ≤ 57 := by
    simp only [Char.isDigit, Bool.and_eq_true, decide_eq_true_eq, UInt32.le_iff_toNat_le,
      Char.toNat]
    rfl
  unfold digitVal
  rw [h]
  have : '0'.toNat = 48 := rfl
  rw [this]
  split
  · rename_i h1; simp [h1, eq_comm]
  · rename_i h1; simp [h1]

theorem digitsVal_some {ds : List Char} : ∀ {acc n : Nat}, digitsVal acc ds = some n ↔
    (∀ c ∈ ds, c.isDigit = true) ∧ ds.foldl (fun n c => n * 10 + (c.toNat - '0'.toNat)) acc = n := by
  induction ds with
  | nil => intro acc n; simp [digitsVal]
  | cons c cs ih =>
    intro acc n
    rw [digitsVal]
    cases h : digitVal c with
    | none =>
      have hc : ¬ c.isDigit = true := fun hc => by
        have := (digitVal_some (c := c)).2 ⟨hc, rfl⟩
        rw [h] at this; cases this
      simp [hc]
    | some d =>
      obtain ⟨hc, hd⟩ := digitVal_some.1 h
      subst hd
      simp only [ih, List.mem_cons, forall_eq_or_imp, hc, true_and, List.foldl_cons]

theorem spellsNum_digits {n : Nat} {ds : List Char} (h : ds.head? ≠ some '+') :
    SpellsNum n ds ↔ ds ≠ [] ∧ (∀ c ∈ ds, c.isDigit = true) ∧ decValue ds = n ∧ n < 2 ^ 32 := by
  constructor
  · intro hs
    cases hs with
    | digits h1 h2 h3 h4 => exact ⟨h1, h2, h3, h4⟩
    | plus => simp at h
  · rintro ⟨h1, h2, h3, h4⟩
    exact .digits h1 h2 h3 h4

theorem spellsNum_plus {n : Nat} {ds : List Char} :
    SpellsNum n ('+' :: ds) ↔ ds ≠ [] ∧ (∀ c ∈ ds, c.isDigit = true) ∧ decValue ds = n ∧ n < 2 ^ 32 := by
  constructor
  · intro hs
    cases hs with
    | digits h1 h2 h3 h4 =>
      have := h2 '+' (by simp)
      exact absurd this (by decide)
    | plus h1 h2 h3 h4 => exact ⟨h1, h2, h3, h4⟩
  · rintro ⟨h1, h2, h3, h4⟩
    exact .plus h1 h2 h3 h4

theorem parseDigits_iff {ds : List Char} {n : Nat} :
    parseDigits ds = some n ↔
    ds ≠ [] ∧ (∀ c ∈ ds, c.isDigit = true) ∧ decValue ds = n ∧ n < 2 ^ 32 := by
  unfold parseDigits
  cases ds with
  | nil => simp
  | cons c cs =>
    simp only [List.isEmpty_cons, Bool.false_eq_true, if_false, ne_eq, reduceCtorEq,
      not_false_eq_true, true_and]
    cases h : digitsVal 0 (c :: cs) with
    | none =>
      simp only [reduceCtorEq, false_iff]
      rintro ⟨h1, h2, h3⟩
      have := (digitsVal_some (acc := 0)).2 ⟨h1, rfl⟩
      rw [h] at this; cases this
    | some m =>
      obtain ⟨h1, h2⟩ := digitsVal_some.1 h
      have h2' : decValue (c :: cs) = m := h2
      simp only [h2']
      constructor
      · intro h3
        split at h3
        · simp only [Option.some.injEq] at h3; subst h3
          exact ⟨h1, rfl, by assumption⟩
        · cases h3
      · rintro ⟨_, h4, h5⟩
        subst h4
        rw [if_pos h5]

theorem parseU32_iff {s : List Char} {n : Nat} : parseU32 s = some n ↔ SpellsNum n s := by
  unfold parseU32
  simp only [parseDigits_iff]
  by_cases h : s.head? = some '+'
  · cases s with
    | nil => simp at h
    | cons c cs =>
      simp only [List.head?_cons, Option.some.injEq] at h
      subst h
      rw [spellsNum_plus]
      simp
  · rw [spellsNum_digits h, if_neg h]

theorem spellsNum_chars {n : Nat} {w : List Char} (h : SpellsNum n w) :
    w ≠ [] ∧ ∀ c ∈ w, c.isDigit = true ∨ c = '+' := by
  cases h with
  | digits h1 h2 => exact ⟨h1, fun c hc => Or.inl (h2 c hc)⟩
  | plus h1 h2 =>
    refine ⟨by simp, fun c hc => ?_⟩
    rcases List.mem_cons.1 hc with rfl | hc
    · exact Or.inr rfl
    · exact Or.inl (h2 c hc)

/-! ## Quantifiers -/

theorem splitOnce_some {c : Char} : ∀ {s a b : List Char},
    splitOnce c s = some (a, b) ↔ s = a ++ c :: b ∧ c ∉ a := by
  intro s
  induction s with
  | nil => intro a b; simp [splitOnce]
  | cons x xs ih =>
    intro a b
    rw [splitOnce]
    by_cases hx : x = c
    · subst hx
      rw [if_pos rfl]
      constructor
      · intro h; simp only [Option.some.injEq, Prod.mk.injEq] at h
        obtain ⟨rfl, rfl⟩ := h
        simp
      · rintro ⟨h1, h2⟩
        cases a with
        | nil => simp at h1; simp [h1]
        | cons y a => simp at h1; simp [h1] at h2
    · rw [if_neg hx]
      cases h : splitOnce c xs with
      | none =>
        simp only [reduceCtorEq, false_iff]
        rintro ⟨h1, h2⟩
        cases a with
        | nil => simp at h1; exact hx h1.1
        | cons y a =>
          simp only [List.cons_append, List.cons.injEq] at h1
          have := ih.2 ⟨h1.2, fun hm => h2 (List.mem_cons_of_mem _ hm)⟩
          rw [h] at this; cases this
      | some p =>
        obtain ⟨a', b'⟩ := p
        obtain ⟨h1, h2⟩ := ih.1 h
        constructor
        · intro h3
          simp only [Option.some.injEq, Prod.mk.injEq] at h3
          obtain ⟨rfl, rfl⟩ := h3
          exact ⟨by rw [h1]; rfl, by simp [h2, Ne.symm hx]⟩
        · rintro ⟨h3, h4⟩
          cases a with
          | nil => simp at h3; exact absurd h3.1 hx
          | cons y a =>
            simp only [List.cons_append, List.cons.injEq] at h3
            have := ih.2 ⟨h3.2, fun hm => h4 (List.mem_cons_of_mem _ hm)⟩
            rw [h] at this
            simp only [Option.some.injEq, Prod.mk.injEq] at this
            simp [this, h3.1]

theorem splitOnce_none {c : Char} : ∀ {s : List Char}, splitOnce c s = none ↔ c ∉ s := by
  intro s
  induction s with
  | nil => simp [splitOnce]
  | cons x xs ih =>
    rw [splitOnce]
    by_cases hx : x = c
    · simp [hx]
    · rw [if_neg hx]
      cases h : splitOnce c xs with
      | none => simp [Ne.symm hx, ih.1 h]
      | some p =>
        have : ¬ c ∉ xs := fun hh => by rw [ih.2 hh] at h; cases h
        simp only [reduceCtorEq, false_iff]
        exact fun hh => this (fun hm => hh (List.mem_cons_of_mem _ hm))

/-- Spellings of the inside of braces. -/
inductive BraceText : QType → List Char → Prop
  | multiple {n w} : SpellsNum n w → BraceText (.multiple n) w
  | atLeast {n w} : SpellsNum n w → BraceText (.range n none) (w ++ [','])
  | between {n m w v} : SpellsNum n w → SpellsNum m v → BraceText (.range n (some m)) (w ++ ',' :: v)

theorem spellsNum_not_mem {n : Nat} {w : List Char} (h : SpellsNum n w) {c : Char}
    (hc : c.isDigit = false) (hp : c ≠ '+') : c ∉ w := by
  intro hm
  rcases (spellsNum_chars h).2 c hm with h1 | h1
  · rw [hc] at h1; cases h1
  · exact hp h1

theorem parseBraces_iff {s : List Char} {q : QType} : parseBraces s = some q ↔ BraceText q s := by
  unfold parseBraces
  constructor
  · intro h
    cases hs : splitOnce ',' s with
    | none =>
      rw [hs] at h
      simp only [Option.map_eq_some_iff] at h
      obtain ⟨n, h1, rfl⟩ := h
      exact .multiple (parseU32_iff.1 h1)
    | some p =>
      obtain ⟨mn, mx⟩ := p
      obtain ⟨h1, h2⟩ := splitOnce_some.1 hs
      rw [hs] at h
      simp only at h
      by_cases hx : mx.isEmpty
      · rw [if_pos hx] at h
        simp only [Option.map_eq_some_iff] at h
        obtain ⟨n, h3, rfl⟩ := h
        rw [List.isEmpty_iff] at hx
        subst hx; subst h1
        exact .atLeast (parseU32_iff.1 h3)
      · rw [if_neg hx] at h
        cases hn : parseU32 mn with
        | none => rw [hn] at h; cases h
        | some n =>
          rw [hn] at h
          simp only [Option.map_eq_some_iff] at h
          obtain ⟨m, h3, rfl⟩ := h
          subst h1
          exact .between (parseU32_iff.1 hn) (parseU32_iff.1 h3)
  · intro h
    cases h with
    | multiple h =>
      rw [splitOnce_none.2 (spellsNum_not_mem h (by decide) (by decide))]
      simp [parseU32_iff.2 h]
    | atLeast h =>
      rw [splitOnce_some.2 ⟨rfl, spellsNum_not_mem h (by decide) (by decide)⟩]
      simp [parseU32_iff.2 h]
    | between h h' =>
      rw [splitOnce_some.2 ⟨rfl, spellsNum_not_mem h (by decide) (by decide)⟩]
      have := (spellsNum_chars h').1
      simp [parseU32_iff.2 h, parseU32_iff.2 h', this]

theorem braceText_spells {q : QType} {s : List Char} (h : BraceText q s) :
    SpellsQType q ('{' :: (s ++ ['}'])) := by
  cases h with
  | multiple h => exact .multiple h
  | atLeast h => rw [List.append_assoc]; exact .atLeast h
  | between h h' => rw [List.append_assoc]; exact .between h h'

theorem braceText_not_mem {q : QType} {s : List Char} (h : BraceText q s) : '}' ∉ s := by
  cases h with
  | multiple h => exact spellsNum_not_mem h (by decide) (by decide)
  | atLeast h =>
    have := spellsNum_not_mem h (c := '}') (by decide) (by decide)
    simp [this]
  | between h h' =>
    have := spellsNum_not_mem h (c := '}') (by decide) (by decide)
    have := spellsNum_not_mem h' (c := '}') (by decide) (by decide)
    simp [*]

theorem takeQType_sound {s r : List Char} {q : QType} (h : takeQType s = some (r, q)) :
    ∃ w, s = w ++ r ∧ SpellsQType q w := by
  cases s with
  | nil => cases h
  | cons c t =>
    rw [takeQType] at h
    split at h
    · rename_i hc; subst hc
      simp only [Option.some.injEq, Prod.mk.injEq] at h
      obtain ⟨rfl, rfl⟩ := h
      exact ⟨_, rfl, .star⟩
    · split at h
      · rename_i hc; subst hc
        simp only [Option.some.injEq, Prod.mk.injEq] at h
        obtain ⟨rfl, rfl⟩ := h
        exact ⟨_, rfl, .plus⟩
      · split at h
        · rename_i hc; subst hc
          simp only [Option.some.injEq, Prod.mk.injEq] at h
          obtain ⟨rfl, rfl⟩ := h
          exact ⟨_, rfl, .question⟩
        · split at h
          · rename_i hc; subst hc
            cases hs : splitOnce '}' t with
            | none => rw [hs] at h; cases h
            | some p =>
              obtain ⟨i, r'⟩ := p
              rw [hs] at h
              simp only [Option.map_eq_some_iff, Prod.mk.injEq] at h
              obtain ⟨q', h1, rfl, rfl⟩ := h
              obtain ⟨h2, _⟩ := splitOnce_some.1 hs
              exact ⟨'{' :: (i ++ ['}']), by rw [h2]; simp, braceText_spells (parseBraces_iff.1 h1)⟩
          · cases h

theorem takeQType_brace {q : QType} {s : List Char} (h : BraceText q s) (r : List Char) :
    takeQType ('{' :: (s ++ ['}']) ++ r) = some (r, q) := by
  have h1 : splitOnce '}' (s ++ '}' :: r) = some (s, r) :=
    splitOnce_some.2 ⟨rfl, braceText_not_mem h⟩
  simp [takeQType, h1, parseBraces_iff.2 h]

theorem takeQType_complete {q : QType} {w : List Char} (h : SpellsQType q w) (r : List Char) :
    takeQType (w ++ r) = some (r, q) := by
  cases h with
  | star => rfl
  | plus => rfl
  | question => rfl
  | multiple h => exact takeQType_brace (.multiple h) r
  | atLeast h => have := takeQType_brace (.atLeast h) r; simpa using this
  | between h h' => have := takeQType_brace (.between h h') r; simpa using this

theorem takeQuantifier_sound {s r : List Char} {q : Quantifier} (h : takeQuantifier s = some (r, q)) :
    ∃ w, s = w ++ r ∧ SpellsQuant q w := by
  unfold takeQuantifier at h
  cases hs : takeQType s with
  | none => rw [hs] at h; cases h
  | some p =>
    obtain ⟨r', q'⟩ := p
    obtain ⟨w, h1, h2⟩ := takeQType_sound hs
    rw [hs] at h
    simp only at h
    split at h
    · rename_i hr
      simp only [Option.some.injEq, Prod.mk.injEq] at h
      obtain ⟨rfl, rfl⟩ := h
      cases r' with
      | nil => cases hr
      | cons c r' =>
        simp only [List.head?_cons, Option.some.injEq] at hr
        subst hr
        exact ⟨w ++ ['?'], by rw [h1]; simp, .lazy h2⟩
    · simp only [Option.some.injEq, Prod.mk.injEq] at h
      obtain ⟨rfl, rfl⟩ := h
      exact ⟨w, h1, .greedy h2⟩

theorem takeQuantifier_complete {q : Quantifier} {w : List Char} (h : SpellsQuant q w) {r : List Char}
    (hr : r.head? ≠ some '?') : takeQuantifier (w ++ r) = some (r, q) := by
  unfold takeQuantifier
  cases h with
  | greedy h =>
    rw [takeQType_complete h]
    simp only
    rw [if_neg hr]
  | lazy h =>
    rw [List.append_assoc, takeQType_complete h]
    simp

/-- A character with which a quantifier can begin. -/
def quantStart (c : Char) : Bool := c == '*' || c == '+' || c == '?' || c == '{'

theorem takeQuantifier_none {s : List Char} (h : ∀ c, s.head? = some c → quantStart c = false) :
    takeQuantifier s = none := by
  unfold takeQuantifier
  cases s with
  | nil => rfl
  | cons c t =>
    have := h c rfl
    simp only [quantStart, Bool.or_eq_false_iff, beq_eq_false_iff_ne] at this
    obtain ⟨⟨⟨h1, h2⟩, h3⟩, h4⟩ := this
    simp [takeQType, h1, h2, h3, h4]

/-! ## Brackets -/

theorem stripPrefix_some {p s r : List Char} : stripPrefix p s = some r ↔ s = p ++ r := by
  unfold stripPrefix
  split
  · rename_i h
    obtain ⟨t, rfl⟩ := List.isPrefixOf_iff_prefix.1 h
    simp [eq_comm]
  · rename_i h
    simp only [reduceCtorEq, false_iff]
    rintro rfl
    exact h (List.isPrefixOf_iff_prefix.2 ⟨r, rfl⟩)

theorem matchPrefix_sound {s r : List Char} {k : BracketCharClass} :
    ∀ {ps : List (List Char × BracketCharClass)}, matchPrefix s ps = some (r, k) →
    ∃ p, (p, k) ∈ ps ∧ s = p ++ r := by
  intro ps
  induction ps with
  | nil => intro h; cases h
  | cons x ps ih =>
    obtain ⟨p, k'⟩ := x
    intro h
    rw [matchPrefix] at h
    cases hs : stripPrefix p s with
    | none =>
      rw [hs] at h
      obtain ⟨p', h1, h2⟩ := ih h
      exact ⟨p', by simp [h1], h2⟩
    | some r' =>
      rw [hs] at h
      simp only [Option.some.injEq, Prod.mk.injEq] at h
      obtain ⟨rfl, rfl⟩ := h
      exact ⟨p, by simp, stripPrefix_some.1 hs⟩

theorem matchPrefix_none {s : List Char} :
    ∀ {ps : List (List Char × BracketCharClass)}, matchPrefix s ps = none →
    ∀ p ∈ ps, ¬ p.1 <+: s := by
  intro ps
  induction ps with
  | nil => intro _ p hp; simp at hp
  | cons x ps ih =>
    obtain ⟨p, k'⟩ := x
    intro h
    rw [matchPrefix] at h
    cases hs : stripPrefix p s with
    | none =>
      rw [hs] at h
      intro q hq
      rcases List.mem_cons.1 hq with rfl | hq
      · rintro ⟨t, ht⟩
        rw [stripPrefix_some.2 ht.symm] at hs
        cases hs
      · exact ih h q hq
    | some r => rw [hs] at h; cases h

theorem classNames_mem (k : BracketCharClass) :
    ((posixName k).toList ++ [':', ']'], k) ∈ classNames := by
  cases k <;> decide

theorem mem_classNames {p : List Char} {k : BracketCharClass} (h : (p, k) ∈ classNames) :
    p = (posixName k).toList ++ [':', ']'] := by
  simp only [classNames, List.mem_cons, Prod.mk.injEq, List.not_mem_nil, or_false] at h
  rcases h with ⟨rfl, rfl⟩ | ⟨rfl, rfl⟩ | ⟨rfl, rfl⟩ | ⟨rfl, rfl⟩ | ⟨rfl, rfl⟩ | ⟨rfl, rfl⟩ |
    ⟨rfl, rfl⟩ | ⟨rfl, rfl⟩ | ⟨rfl, rfl⟩ | ⟨rfl, rfl⟩ | ⟨rfl, rfl⟩ | ⟨rfl, rfl⟩ <;> rfl

theorem takeClass_sound {s r : List Char} {k : BracketCharClass} (h : takeClass s = some (r, k)) :
    s = classText k ++ r := by
  unfold takeClass at h
  cases hs : stripPrefix "[:".toList s with
  | none => rw [hs] at h; cases h
  | some t =>
    rw [hs] at h
    have h1 := stripPrefix_some.1 hs
    obtain ⟨p, h2, h3⟩ := matchPrefix_sound h
    rw [h1, h3, mem_classNames h2]
    rfl

theorem takeClass_none {s : List Char} (h : takeClass s = none) : ¬ StartsClass s := by
  rintro ⟨k, t, ht⟩
  unfold takeClass at h
  have h1 : stripPrefix "[:".toList s = some ((posixName k).toList ++ [':', ']'] ++ t) :=
    stripPrefix_some.2 (by rw [← ht]; rfl)
  rw [h1] at h
  exact matchPrefix_none h _ (classNames_mem k) ⟨t, rfl⟩

theorem takeClass_of_not {s : List Char} (h : ¬ StartsClass s) : takeClass s = none := by
  cases hs : takeClass s with
  | none => rfl
  | some p =>
    obtain ⟨r, k⟩ := p
    exact absurd ⟨k, r, (takeClass_sound hs).symm⟩ h

theorem takeClass_complete (k : BracketCharClass) (r : List Char) :
    takeClass (classText k ++ r) = some (r, k) := by
  cases k <;> rfl

theorem consItem_ok {i : Term} {x : Taken (List Term)} {r : List Char} {ts : List Term}
    (h : consItem i x = .ok (r, ts)) : ∃ ts', x = .ok (r, ts') ∧ ts = i :: ts' := by
  cases x with
  | error e => cases h
  | ok p =>
    simp only [consItem, Except.map, Except.ok.injEq, Prod.mk.injEq] at h
    exact ⟨p.2, by rw [← h.1], h.2.symm⟩

theorem takeItems_succ (k : Nat) (s : List Char) : takeItems (k + 1) s =
    if s.head? = some ']' then .ok (s.tail, [])
    else
      match takeClass s with
      | some (r, c) => consItem (.cls c) (takeItems k r)
      | none =>
        match s with
        | [] => .error .unterminatedCharSet
        | [_] => .error .unterminatedCharSet
        | first :: c :: r =>
          if c = '-' then
            match r with
            | [] => .error .unterminatedCharSet
            | second :: r' =>
              if second = ']' then .ok (r', [.single first, .single '-'])
              else consItem (.range first second) (takeItems k r')
          else consItem (.single first) (takeItems k (c :: r)) := rfl

theorem takeAtom_cons (c : Char) (r : List Char) : takeAtom (c :: r) =
    if c = '\\' then
      match r with
      | [] => .error (.invalidAtom '\\')
      | d :: r' => if isEscapable d then .ok (r', .normal d) else .error (.invalidEscapedChar d)
    else if c = '.' then .ok (r, .dot)
    else if c = '[' then takeBracket r
    else if isSpecial c then .error (.invalidAtom c)
    else .ok (r, .normal c) := rfl

theorem takeItems_sound : ∀ (k : Nat) {s r : List Char} {ts : List Term},
    takeItems k s = .ok (r, ts) → ∃ w, s = w ++ r ∧ SpellsItems ts w := by
  intro k
  induction k with
  | zero => intro s r ts h; cases h
  | succ k ih =>
    intro s r ts h
    rw [takeItems_succ] at h
    split at h
    · rename_i hs
      cases s with
      | nil => cases hs
      | cons c s =>
        simp only [List.head?_cons, Option.some.injEq] at hs
        subst hs
        simp only [List.tail_cons, Except.ok.injEq, Prod.mk.injEq] at h
        obtain ⟨rfl, rfl⟩ := h
        exact ⟨[']'], rfl, .close⟩
    · rename_i hs
      cases hc : takeClass s with
      | some p =>
        obtain ⟨r', c⟩ := p
        rw [hc] at h
        obtain ⟨ts', h1, rfl⟩ := consItem_ok h
        obtain ⟨w, rfl, h3⟩ := ih h1
        exact ⟨classText c ++ w, by rw [takeClass_sound hc]; simp, .cls h3⟩
      | none =>
        rw [hc] at h
        simp only at h
        have hn := takeClass_none hc
        split at h
        · cases h
        · cases h
        · rename_i a c t
          have ha : a ≠ ']' := fun hh => hs (by rw [hh]; rfl)
          split at h
          · rename_i hd
            subst hd
            split at h
            · cases h
            · rename_i b t'
              split at h
              · rename_i hb
                subst hb
                simp only [Except.ok.injEq, Prod.mk.injEq] at h
                obtain ⟨rfl, rfl⟩ := h
                exact ⟨[a, '-', ']'], rfl, .dash ha⟩
              · rename_i hb
                obtain ⟨ts', h1, rfl⟩ := consItem_ok h
                obtain ⟨w, rfl, h3⟩ := ih h1
                exact ⟨a :: '-' :: b :: w, rfl, .range ha hb h3⟩
          · rename_i hd
            obtain ⟨ts', h1, rfl⟩ := consItem_ok h
            obtain ⟨w, h2, h3⟩ := ih h1
            refine ⟨a :: w, by rw [h2]; rfl, .single ha ?_ ?_ h3⟩
            · cases w with
              | nil => simp
              | cons x w =>
                simp only [List.cons_append, List.cons.injEq] at h2
                simp only [List.head?_cons, ne_eq, Option.some.injEq]
                rw [← h2.1]; exact hd
            · rintro ⟨k', hk⟩
              refine hn ⟨k', hk.trans ⟨r, ?_⟩⟩
              rw [h2]; rfl

theorem spellsItems_close {ts : List Term} {w : List Char} (h : SpellsItems ts w) : ']' ∈ w := by
  induction h with
  | close => simp
  | cls _ ih => simp [ih]
  | range _ _ _ ih => simp [ih]
  | dash => simp
  | single _ _ _ _ ih => simp [ih]

theorem classText_length (k : BracketCharClass) : 1 ≤ (classText k).length := by
  simp [classText]

theorem classText_prefix (k : BracketCharClass) {w r : List Char} (h : classText k <+: w ++ r)
    (hw : ']' ∈ w) : classText k <+: w := by
  by_cases hl : (classText k).length ≤ w.length
  · exact List.prefix_of_prefix_length_le h (List.prefix_append w r) hl
  · exfalso
    have h1 : w <+: classText k :=
      List.prefix_of_prefix_length_le (List.prefix_append w r) h (by omega)
    have h2 : w <+: (classText k).dropLast := by
      rw [List.dropLast_eq_take]
      refine List.prefix_of_prefix_length_le h1 (List.take_prefix _ _) ?_
      rw [List.length_take]; omega
    have h3 : ']' ∈ (classText k).dropLast := h2.subset hw
    revert h3
    clear h1 h2 h hl hw
    cases k <;> decide

theorem takeItems_complete {ts : List Term} {w : List Char} (h : SpellsItems ts w) :
    ∀ {k : Nat} (r : List Char), w.length ≤ k → takeItems k (w ++ r) = .ok (r, ts) := by
  induction h with
  | close =>
    intro k r hk
    obtain ⟨k, rfl⟩ : ∃ j, k = j + 1 := ⟨k - 1, by simp at hk; omega⟩
    simp [takeItems]
  | @cls c ts w _ ih =>
    intro k r hk
    have := classText_length c
    obtain ⟨k, rfl⟩ : ∃ j, k = j + 1 := ⟨k - 1, by simp at hk; omega⟩
    rw [takeItems_succ, if_neg (by simp [classText]), List.append_assoc, takeClass_complete]
    simp only
    rw [ih r (by simp at hk; omega)]
    rfl
  | @range a b ts w ha hb _ ih =>
    intro k r hk
    obtain ⟨k, rfl⟩ : ∃ j, k = j + 1 := ⟨k - 1, by simp at hk; omega⟩
    have hn : takeClass ((a :: '-' :: b :: w) ++ r) = none := by
      refine takeClass_of_not ?_
      rintro ⟨k', t, ht⟩
      simp [classText] at ht
    rw [takeItems_succ, if_neg (by simp [ha]), hn]
    simp only [List.cons_append, if_true]
    rw [if_neg hb, ih r (by simp at hk; omega)]
    rfl
  | @dash a ha =>
    intro k r hk
    obtain ⟨k, rfl⟩ : ∃ j, k = j + 1 := ⟨k - 1, by simp at hk; omega⟩
    have hn : takeClass ([a, '-', ']'] ++ r) = none := by
      refine takeClass_of_not ?_
      rintro ⟨k', t, ht⟩
      simp [classText] at ht
    rw [takeItems_succ, if_neg (by simp [ha]), hn]
    simp
  | @single a ts w ha hd hc hw ih =>
    intro k r hk
    obtain ⟨k, rfl⟩ : ∃ j, k = j + 1 := ⟨k - 1, by simp at hk; omega⟩
    have hn : takeClass ((a :: w) ++ r) = none := by
      refine takeClass_of_not ?_
      rintro ⟨k', hk'⟩
      exact hc ⟨k', classText_prefix k' hk' (by simp [spellsItems_close hw])⟩
    rw [takeItems_succ, if_neg (by simp [ha]), hn]
    have hm := spellsItems_close hw
    cases w with
    | nil => simp at hm
    | cons x w =>
      simp only [List.head?_cons, ne_eq, Option.some.injEq] at hd
      simp only [List.cons_append]
      rw [if_neg hd]
      have := ih r (k := k) (by simp at hk ⊢; omega)
      rw [List.cons_append] at this
      rw [this]
      rfl

theorem takeItems_fuel : ∀ (k : Nat) (s : List Char), s.length < k → takeItems k s ≠ .error .fuel := by
  intro k
  induction k with
  | zero => intro s h; omega
  | succ k ih =>
    intro s hs
    have hcons : ∀ i t, t.length < k → consItem i (takeItems k t) ≠ .error .fuel := by
      intro i t ht
      have := ih t ht
      cases h : takeItems k t with
      | error e => rw [h] at this; simpa [consItem, Except.map] using this
      | ok p => simp [consItem, Except.map]
    rw [takeItems_succ]
    split
    · simp
    · cases hc : takeClass s with
      | some p =>
        obtain ⟨r, c⟩ := p
        refine hcons _ _ ?_
        have h1 := takeClass_sound hc
        have h2 := classText_length c
        rw [h1] at hs
        simp at hs; omega
      | none =>
        simp only
        split
        · simp
        · simp
        · split
          · split
            · simp
            · split
              · simp
              · exact hcons _ _ (by simp at hs ⊢; omega)
          · exact hcons _ _ (by simp at hs ⊢; omega)

/-- The list of a bracket expression. -/
def takeList (s1 : List Char) : Taken (List Term) :=
  if s1.head? = some ']' then consItem (.single ']') (takeItems (s1.length + 1) s1.tail)
  else takeItems (s1.length + 1) s1

theorem takeList_sound {s r : List Char} {ts : List Term} (h : takeList s = .ok (r, ts)) :
    ∃ w, s = w ++ r ∧ SpellsList ts w := by
  unfold takeList at h
  split at h
  · rename_i hs
    cases s with
    | nil => cases hs
    | cons c s =>
      simp only [List.head?_cons, Option.some.injEq] at hs
      subst hs
      obtain ⟨ts', h1, rfl⟩ := consItem_ok h
      obtain ⟨w, h2, h3⟩ := takeItems_sound _ h1
      refine ⟨']' :: w, ?_, .bracket h3⟩
      simp only [List.tail_cons] at h2
      rw [h2]; rfl
  · rename_i hs
    obtain ⟨w, rfl, h3⟩ := takeItems_sound _ h
    refine ⟨w, rfl, .plain ?_ h3⟩
    have hm := spellsItems_close h3
    cases w with
    | nil => simp at hm
    | cons x w => simpa using hs

theorem takeList_complete {ts : List Term} {w : List Char} (h : SpellsList ts w) (r : List Char) :
    takeList (w ++ r) = .ok (r, ts) := by
  unfold takeList
  cases h with
  | plain h1 h2 =>
    have hm := spellsItems_close h2
    cases w with
    | nil => simp at hm
    | cons x w =>
      rw [if_neg (by simpa using h1)]
      exact takeItems_complete h2 r (by simp; omega)
  | bracket h2 =>
    rw [if_pos (by simp)]
    simp only [List.cons_append, List.tail_cons]
    rw [takeItems_complete h2 r (by simp; omega)]
    rfl

theorem takeList_fuel (s : List Char) : takeList s ≠ .error .fuel := by
  unfold takeList
  split
  · have := takeItems_fuel (s.length + 1) s.tail (by simp; omega)
    cases h : takeItems (s.length + 1) s.tail with
    | error e => rw [h] at this; simpa [consItem, Except.map] using this
    | ok p => simp [consItem, Except.map]
  · exact takeItems_fuel _ _ (by omega)

theorem takeBracket_eq (s : List Char) : takeBracket s =
    if s.head? = some '^' then (takeList s.tail).map (fun p => (p.1, Atom.nonmatching p.2))
    else (takeList s).map (fun p => (p.1, Atom.matching p.2)) := by
  unfold takeBracket takeList
  by_cases h : s.head? = some '^'
  · simp [h]
  · simp [h]

theorem map_ok {β γ : Type} {x : Taken β} {f : List Char × β → List Char × γ} {y : List Char × γ}
    (h : Except.map f x = .ok y) : ∃ p, x = .ok p ∧ f p = y := by
  cases x with
  | error e => cases h
  | ok p => exact ⟨p, rfl, by simpa [Except.map] using h⟩

theorem isSpecial_iff {c : Char} : isSpecial c = true ↔ c ∈ specials := by
  simp [isSpecial, specials, or_assoc]

theorem isEscapable_iff {c : Char} : isEscapable c = true ↔ c ∈ escapables := by
  simp [isEscapable, isSpecial, escapables, specials, or_assoc]

theorem takeAtom_sound {s r : List Char} {a : Atom} (h : takeAtom s = .ok (r, a)) :
    ∃ w, s = w ++ r ∧ SpellsAtom a w := by
  cases s with
  | nil => cases h
  | cons c t =>
    rw [takeAtom_cons] at h
    split at h
    · rename_i hc
      subst hc
      cases t with
      | nil => cases h
      | cons d t =>
        simp only at h
        split at h
        · rename_i hd
          simp only [Except.ok.injEq, Prod.mk.injEq] at h
          obtain ⟨rfl, rfl⟩ := h
          exact ⟨['\\', d], rfl, .escaped (isEscapable_iff.1 hd)⟩
        · cases h
    · split at h
      · rename_i hc
        subst hc
        simp only [Except.ok.injEq, Prod.mk.injEq] at h
        obtain ⟨rfl, rfl⟩ := h
        exact ⟨['.'], rfl, .dot⟩
      · split at h
        · rename_i hc
          subst hc
          rw [takeBracket_eq] at h
          split at h
          · rename_i ht
            obtain ⟨p, h1, h2⟩ := map_ok h
            simp only [Prod.mk.injEq] at h2
            obtain ⟨h2, rfl⟩ := h2
            obtain ⟨p1, p2⟩ := p
            simp only at h2
            subst h2
            obtain ⟨w, h3, h4⟩ := takeList_sound h1
            cases t with
            | nil => cases ht
            | cons d t =>
              simp only [List.head?_cons, Option.some.injEq] at ht
              subst ht
              simp only [List.tail_cons] at h3
              exact ⟨'[' :: '^' :: w, by rw [h3]; rfl, .nonmatching h4⟩
          · rename_i ht
            obtain ⟨p, h1, h2⟩ := map_ok h
            simp only [Prod.mk.injEq] at h2
            obtain ⟨h2, rfl⟩ := h2
            obtain ⟨p1, p2⟩ := p
            simp only at h2
            subst h2
            obtain ⟨w, h3, h4⟩ := takeList_sound h1
            refine ⟨'[' :: w, by rw [h3]; rfl, .matching ?_ h4⟩
            intro hw
            cases w with
            | nil => cases hw
            | cons x w => rw [h3] at ht; exact ht (by simpa using hw)
        · split at h
          · cases h
          · rename_i hs
            simp only [Except.ok.injEq, Prod.mk.injEq] at h
            obtain ⟨rfl, rfl⟩ := h
            exact ⟨[c], rfl, .plain (fun hm => hs (isSpecial_iff.2 hm))⟩

theorem spellsList_ne {ts : List Term} {w : List Char} (h : SpellsList ts w) : w ≠ [] := by
  cases h with
  | plain _ h => intro hw; subst hw; simpa using spellsItems_close h
  | bracket => simp

theorem takeAtom_complete {a : Atom} {w : List Char} (h : SpellsAtom a w) (r : List Char) :
    takeAtom (w ++ r) = .ok (r, a) := by
  cases h with
  | escaped h => simp [takeAtom, isEscapable_iff.2 h]
  | @plain c h =>
    have h1 : c ≠ '\\' := by rintro rfl; exact h (by decide)
    have h2 : c ≠ '.' := by rintro rfl; exact h (by decide)
    have h3 : c ≠ '[' := by rintro rfl; exact h (by decide)
    have h4 : isSpecial c = false := by
      cases hs : isSpecial c with
      | false => rfl
      | true => exact absurd (isSpecial_iff.1 hs) h
    simp [takeAtom, h1, h2, h3, h4]
  | dot => rfl
  | @matching ts w h1 h2 =>
    have hne := spellsList_ne h2
    have : takeAtom ('[' :: w ++ r) = takeBracket (w ++ r) := rfl
    rw [this, takeBracket_eq, if_neg, takeList_complete h2]
    · rfl
    · cases w with
      | nil => exact absurd rfl hne
      | cons x w => simpa using h1
  | @nonmatching ts w h2 =>
    have : takeAtom ('[' :: '^' :: w ++ r) = takeBracket ('^' :: (w ++ r)) := rfl
    rw [this, takeBracket_eq, if_pos List.head?_cons, List.tail_cons, takeList_complete h2]
    rfl

theorem takeAtom_fuel (s : List Char) : takeAtom s ≠ .error .fuel := by
  cases s with
  | nil => simp [takeAtom]
  | cons c t =>
    rw [takeAtom_cons]
    split
    · cases t with
      | nil => simp
      | cons d t => simp only; split <;> simp
    · split
      · simp
      · split
        · rw [takeBracket_eq]
          split
          · have := takeList_fuel t.tail
            cases h : takeList t.tail with
            | error e => rw [h] at this; simpa [Except.map] using this
            | ok p => simp [Except.map]
          · have := takeList_fuel t
            cases h : takeList t with
            | error e => rw [h] at this; simpa [Except.map] using this
            | ok p => simp [Except.map]
        · split <;> simp

theorem spellsAtom_ne {a : Atom} {w : List Char} (h : SpellsAtom a w) : w ≠ [] := by
  cases h <;> simp

end Ere
