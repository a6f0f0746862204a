import Verif.Spec.Semantics

/-! The tree of a pattern matches what the pattern matches. -/

namespace Ere

theorem charLen_pos (c : Char) : 0 < charLen c := Sym.len_pos (σ := Atom) c

theorem byteLen_append (a b : List Char) : byteLen (a ++ b) = byteLen a + byteLen b := by
  simp [byteLen]

theorem byteLen_nil : byteLen [] = 0 := rfl

theorem byteLen_cons (c : Char) (b : List Char) : byteLen (c :: b) = charLen c + byteLen b := by
  simp [byteLen]

theorem byteLen_eq_zero {a : List Char} : byteLen a = 0 ↔ a = [] := by
  cases a with
  | nil => simp [byteLen_nil]
  | cons c a => have := charLen_pos c; simp [byteLen_cons]; omega

namespace Tree

theorem run_shape {t : Tree} {d d' : Cfg Char} (h : t.Run d d') :
    ∃ mid, d.rest = mid ++ d'.rest ∧ d'.off = d.off + byteLen mid := by
  induction h with
  | empty => exact ⟨[], rfl, rfl⟩
  | symbol hc => exact ⟨[_], rfl, by simp [byteLen]⟩
  | union _ _ ih => exact ih
  | capture _ ih => exact ih
  | concatNil => exact ⟨[], rfl, rfl⟩
  | concatCons _ _ ih1 ih2 =>
    obtain ⟨m1, h1, h2⟩ := ih1; obtain ⟨m2, h3, h4⟩ := ih2
    exact ⟨m1 ++ m2, by rw [h1, h3, List.append_assoc], by rw [byteLen_append]; omega⟩
  | repOne _ ih => exact ih
  | repSucc _ _ ih1 ih2 =>
    obtain ⟨m1, h1, h2⟩ := ih1; obtain ⟨m2, h3, h4⟩ := ih2
    exact ⟨m1 ++ m2, by rw [h1, h3, List.append_assoc], by rw [byteLen_append]; omega⟩
  | upToNone => exact ⟨[], rfl, rfl⟩
  | upToLast _ ih => exact ih
  | upToSucc _ _ ih1 ih2 =>
    obtain ⟨m1, h1, h2⟩ := ih1; obtain ⟨m2, h3, h4⟩ := ih2
    exact ⟨m1 ++ m2, by rw [h1, h3, List.append_assoc], by rw [byteLen_append]; omega⟩
  | starNil => exact ⟨[], rfl, rfl⟩
  | starCons _ _ ih1 ih2 =>
    obtain ⟨m1, h1, h2⟩ := ih1; obtain ⟨m2, h3, h4⟩ := ih2
    exact ⟨m1 ++ m2, by rw [h1, h3, List.append_assoc], by rw [byteLen_append]; omega⟩
  | start => exact ⟨[], rfl, rfl⟩
  | end_ => exact ⟨[], rfl, rfl⟩

/-- Runs do not depend on the captures so far. -/
theorem run_caps {t : Tree} {d d' : Cfg Char} (h : t.Run d d') (caps : Caps) :
    ∃ caps', t.Run ⟨d.off, d.rest, caps⟩ ⟨d'.off, d'.rest, caps'⟩ := by
  induction h generalizing caps with
  | empty => exact ⟨_, .empty⟩
  | symbol hc => exact ⟨_, .symbol hc⟩
  | union ht _ ih => obtain ⟨c, h⟩ := ih caps; exact ⟨c, .union ht h⟩
  | @capture t g d d' _ ih =>
    obtain ⟨c, h⟩ := ih (caps.setStart g d.off)
    exact ⟨_, .capture (d := ⟨d.off, d.rest, caps⟩) (d' := ⟨d'.off, d'.rest, c⟩) h⟩
  | concatNil => exact ⟨_, .concatNil⟩
  | concatCons _ _ ih1 ih2 =>
    obtain ⟨c, h1⟩ := ih1 caps; obtain ⟨c2, h2⟩ := ih2 c
    exact ⟨c2, .concatCons h1 h2⟩
  | repOne _ ih => obtain ⟨c, h⟩ := ih caps; exact ⟨c, .repOne h⟩
  | repSucc _ _ ih1 ih2 =>
    obtain ⟨c, h1⟩ := ih1 caps; obtain ⟨c2, h2⟩ := ih2 c
    exact ⟨c2, .repSucc h1 h2⟩
  | upToNone => exact ⟨_, .upToNone⟩
  | upToLast _ ih => obtain ⟨c, h⟩ := ih caps; exact ⟨c, .upToLast h⟩
  | upToSucc _ _ ih1 ih2 =>
    obtain ⟨c, h1⟩ := ih1 caps; obtain ⟨c2, h2⟩ := ih2 c
    exact ⟨c2, .upToSucc h1 h2⟩
  | starNil => exact ⟨_, .starNil⟩
  | starCons _ _ ih1 ih2 =>
    obtain ⟨c, h1⟩ := ih1 caps; obtain ⟨c2, h2⟩ := ih2 c
    exact ⟨c2, .starCons h1 h2⟩
  | start => exact ⟨_, .start⟩
  | end_ => exact ⟨_, .end_⟩

theorem matchesText_caps {t : Tree} {pre mid post} (h : t.MatchesText pre mid post) (caps : Caps) :
    ∃ caps', t.Run ⟨byteLen pre, mid ++ post, caps⟩ ⟨byteLen (pre ++ mid), post, caps'⟩ := by
  obtain ⟨c, c', h⟩ := h
  exact run_caps h caps

/-- Two runs in sequence. -/
theorem seq_iff {t u w : Tree}
    (hw : ∀ d d', w.Run d d' ↔ ∃ d1, t.Run d d1 ∧ u.Run d1 d') (pre mid post) :
    w.MatchesText pre mid post ↔ ∃ m1 m2, mid = m1 ++ m2 ∧ t.MatchesText pre m1 (m2 ++ post) ∧
      u.MatchesText (pre ++ m1) m2 post := by
  constructor
  · rintro ⟨c, c', h⟩
    obtain ⟨d1, h1, h2⟩ := (hw _ _).mp h
    obtain ⟨m1, e1, e2⟩ := run_shape h1
    obtain ⟨m2, e3, e4⟩ := run_shape h2
    obtain ⟨o1, r1, c1⟩ := d1
    simp only at e1 e2 e3 e4
    subst e3
    rw [← List.append_assoc] at e1
    have := List.append_cancel_right e1
    subst this
    refine ⟨m1, m2, rfl, ⟨c, c1, ?_⟩, ⟨c1, c', ?_⟩⟩
    · rw [byteLen_append, ← e2, ← List.append_assoc]; exact h1
    · rw [byteLen_append pre, ← e2, List.append_assoc]; exact h2
  · rintro ⟨m1, m2, rfl, ⟨c, c1, h1⟩, h2⟩
    obtain ⟨c', h2⟩ := matchesText_caps h2 c1
    refine ⟨c, c', (hw _ _).mpr ⟨⟨byteLen (pre ++ m1), m2 ++ post, c1⟩, ?_, ?_⟩⟩
    · rw [List.append_assoc]; exact h1
    · rw [← List.append_assoc pre]; exact h2

theorem mt_skip {t : Tree} (ht : ∀ d d', t.Run d d' ↔ d = d') (pre mid post) :
    t.MatchesText pre mid post ↔ mid = [] := by
  constructor
  · rintro ⟨c, c', h⟩
    have := congrArg Cfg.rest ((ht _ _).mp h)
    simpa using this
  · rintro rfl; exact ⟨[], [], (ht _ _).mpr (by simp)⟩

theorem mt_empty (pre mid post) : Tree.empty.MatchesText pre mid post ↔ mid = [] :=
  mt_skip (fun d d' => ⟨fun h => by cases h; rfl, fun h => by subst h; exact .empty⟩) _ _ _

theorem mt_concat_nil (pre mid post) : (Tree.concat []).MatchesText pre mid post ↔ mid = [] :=
  mt_skip (fun d d' => ⟨fun h => by cases h; rfl, fun h => by subst h; exact .concatNil⟩) _ _ _

theorem mt_concat_cons (t ts pre mid post) : (Tree.concat (t :: ts)).MatchesText pre mid post ↔
    ∃ m1 m2, mid = m1 ++ m2 ∧ t.MatchesText pre m1 (m2 ++ post) ∧
      (Tree.concat ts).MatchesText (pre ++ m1) m2 post :=
  seq_iff (fun d d' => ⟨fun h => by cases h with | concatCons h1 h2 => exact ⟨_, h1, h2⟩,
    fun ⟨_, h1, h2⟩ => .concatCons h1 h2⟩) _ _ _

theorem mt_congr {t u : Tree} (h : ∀ d d', t.Run d d' ↔ u.Run d d') (pre mid post) :
    t.MatchesText pre mid post ↔ u.MatchesText pre mid post := by
  unfold MatchesText; simp only [h]

theorem mt_or {t u w : Tree} (h : ∀ d d', t.Run d d' ↔ (u.Run d d' ∨ w.Run d d')) (pre mid post) :
    t.MatchesText pre mid post ↔ u.MatchesText pre mid post ∨ w.MatchesText pre mid post := by
  unfold MatchesText; simp only [h, exists_or]

theorem mt_rep_zero (t pre mid post) : (Tree.rep t 0).MatchesText pre mid post ↔
    t.MatchesText pre mid post :=
  mt_congr (fun _ _ => ⟨fun h => by cases h; assumption, fun h => .repOne h⟩) _ _ _

theorem mt_rep_succ (t n pre mid post) : (Tree.rep t (n + 1)).MatchesText pre mid post ↔
    ∃ m1 m2, mid = m1 ++ m2 ∧ t.MatchesText pre m1 (m2 ++ post) ∧
      (Tree.rep t n).MatchesText (pre ++ m1) m2 post :=
  seq_iff (fun d d' => ⟨fun h => by cases h with | repSucc h1 h2 => exact ⟨_, h1, h2⟩,
    fun ⟨_, h1, h2⟩ => .repSucc h1 h2⟩) _ _ _

theorem mt_upTo_zero (t l pre mid post) : (Tree.upTo t 0 l).MatchesText pre mid post ↔
    mid = [] ∨ t.MatchesText pre mid post := by
  rw [← mt_empty pre mid post]
  refine mt_or (fun d d' => ⟨fun h => ?_, ?_⟩) _ _ _
  · cases h with
    | upToNone => exact Or.inl .empty
    | upToLast h => exact Or.inr h
  · rintro (h | h)
    · cases h; exact .upToNone
    · exact .upToLast h

theorem mt_upTo_succ (t n l pre mid post) : (Tree.upTo t (n + 1) l).MatchesText pre mid post ↔
    mid = [] ∨ ∃ m1 m2, mid = m1 ++ m2 ∧ t.MatchesText pre m1 (m2 ++ post) ∧
      (Tree.upTo t n l).MatchesText (pre ++ m1) m2 post := by
  rw [← mt_empty pre mid post, ← seq_iff (w := .concat [t, .upTo t n l])]
  · refine mt_or (fun d d' => ⟨fun h => ?_, ?_⟩) _ _ _
    · cases h with
      | upToNone => exact Or.inl .empty
      | upToSucc h h' => exact Or.inr (.concatCons h (.concatCons h' .concatNil))
    · rintro (h | h)
      · cases h; exact .upToNone
      · cases h with | concatCons h1 h2 => cases h2 with | concatCons h2 h3 =>
          cases h3; exact .upToSucc h1 h2
  · intro d d'
    constructor
    · intro h
      cases h with | concatCons h1 h2 => cases h2 with | concatCons h2 h3 =>
          cases h3; exact ⟨_, h1, h2⟩
    · rintro ⟨d1, h1, h2⟩; exact .concatCons h1 (.concatCons h2 .concatNil)

theorem times_zero {t : Tree} {pre mid post} : t.MatchesTimes 0 pre mid post ↔ mid = [] :=
  ⟨fun h => by cases h; rfl, fun h => by subst h; exact .zero⟩

theorem times_succ {t : Tree} {n pre mid post} : t.MatchesTimes (n + 1) pre mid post ↔
    ∃ m1 m2, mid = m1 ++ m2 ∧ t.MatchesText pre m1 (m2 ++ post) ∧
      t.MatchesTimes n (pre ++ m1) m2 post := by
  constructor
  · intro h; cases h with | succ h1 h2 => exact ⟨_, _, rfl, h1, h2⟩
  · rintro ⟨m1, m2, rfl, h1, h2⟩; exact .succ h1 h2

theorem times_one {t : Tree} {pre mid post} :
    t.MatchesTimes 1 pre mid post ↔ t.MatchesText pre mid post := by
  rw [times_succ]
  constructor
  · rintro ⟨m1, m2, rfl, h1, h2⟩; rw [times_zero] at h2; subst h2; simpa using h1
  · intro h; exact ⟨mid, [], by simp, by simpa using h, .zero⟩

theorem times_add {t : Tree} {a b pre mid post} : t.MatchesTimes (a + b) pre mid post ↔
    ∃ m1 m2, mid = m1 ++ m2 ∧ t.MatchesTimes a pre m1 (m2 ++ post) ∧
      t.MatchesTimes b (pre ++ m1) m2 post := by
  induction a generalizing pre mid with
  | zero =>
    simp only [Nat.zero_add, times_zero]
    constructor
    · intro h; exact ⟨[], mid, rfl, rfl, by simpa using h⟩
    · rintro ⟨m1, m2, rfl, rfl, h⟩; simpa using h
  | succ a ih =>
    rw [Nat.succ_add, times_succ]
    simp only [ih, times_succ]
    constructor
    · rintro ⟨m1, _, rfl, h1, m2, m3, rfl, h2, h3⟩
      exact ⟨m1 ++ m2, m3, by simp, ⟨m1, m2, rfl, by simpa using h1, h2⟩, by simpa using h3⟩
    · rintro ⟨_, m3, rfl, ⟨m1, m2, rfl, h1, h2⟩, h3⟩
      exact ⟨m1, m2 ++ m3, by simp, by simpa using h1, m2, m3, rfl, h2, by simpa using h3⟩

theorem mt_repeat (t : Tree) (n pre mid post) :
    (t.repeat' n).MatchesText pre mid post ↔ t.MatchesTimes n pre mid post := by
  cases n with
  | zero => rw [repeat', mt_empty, times_zero]
  | succ n =>
    rw [repeat']
    induction n generalizing pre mid with
    | zero => rw [mt_rep_zero, times_one]
    | succ n ih => rw [mt_rep_succ, times_succ]; simp only [ih]

theorem mt_upto (t : Tree) (n l pre mid post) :
    (t.upto' n l).MatchesText pre mid post ↔ ∃ k, k ≤ n ∧ t.MatchesTimes k pre mid post := by
  cases n with
  | zero => rw [upto', mt_empty]; simp [times_zero]
  | succ n =>
    rw [upto']
    induction n generalizing pre mid with
    | zero =>
      rw [mt_upTo_zero]
      constructor
      · rintro (h | h)
        · exact ⟨0, by omega, times_zero.mpr h⟩
        · exact ⟨1, by omega, times_one.mpr h⟩
      · rintro ⟨k, hk, h⟩
        rcases (by omega : k = 0 ∨ k = 1) with rfl | rfl
        · exact Or.inl (times_zero.mp h)
        · exact Or.inr (times_one.mp h)
    | succ n ih =>
      rw [mt_upTo_succ]
      simp only [ih]
      constructor
      · rintro (h | ⟨m1, m2, rfl, h1, k, hk, h2⟩)
        · exact ⟨0, by omega, times_zero.mpr h⟩
        · exact ⟨k + 1, by omega, .succ h1 h2⟩
      · rintro ⟨k, hk, h⟩
        cases k with
        | zero => exact Or.inl (times_zero.mp h)
        | succ k =>
          obtain ⟨m1, m2, h0, h1, h2⟩ := times_succ.mp h
          exact Or.inr ⟨m1, m2, h0, h1, k, by omega, h2⟩

theorem times_run {t : Tree} {l n pre mid post} (h : t.MatchesTimes n pre mid post) :
    (Tree.star t l).MatchesText pre mid post := by
  induction h with
  | zero => exact ⟨[], [], by simpa using Run.starNil⟩
  | @succ n pre m1 m2 post h1 _ ih =>
    have h := (seq_iff (t := t) (u := .star t l) (w := .concat [t, .star t l]) (by
      intro d d'
      constructor
      · intro h
        cases h with | concatCons h1 h2 => cases h2 with | concatCons h2 h3 =>
            cases h3; exact ⟨_, h1, h2⟩
      · rintro ⟨d1, h1, h2⟩; exact .concatCons h1 (.concatCons h2 .concatNil)) _ _ _).mpr
      ⟨m1, m2, rfl, h1, ih⟩
    · obtain ⟨c, c', h⟩ := h
      cases h with | concatCons h1 h2 => cases h2 with | concatCons h2 h3 =>
        cases h3; exact ⟨_, _, .starCons h1 h2⟩

theorem star_times {t : Tree} {l} {d d' : Cfg Char} (h : (Tree.star t l).Run d d') :
    ∀ pre mid, d.off = byteLen pre → d.rest = mid ++ d'.rest →
      ∃ n, t.MatchesTimes n pre mid d'.rest := by
  generalize he : Tree.star t l = s at h
  induction h <;> simp only [reduceCtorEq, Tree.star.injEq] at he
  · rintro pre mid _ h
    have : mid = [] := by simpa using h
    subst this
    exact ⟨0, .zero⟩
  · rename_i t0 l0 d d1 d' h1 h2 _ ih
    obtain ⟨rfl, rfl⟩ := he
    intro pre mid ho hr
    obtain ⟨m1, e1, e2⟩ := run_shape h1
    obtain ⟨m2, e3, e4⟩ := run_shape h2
    obtain ⟨n, hn⟩ := ih rfl (pre ++ m1) m2 (by rw [byteLen_append]; omega) e3
    have : mid = m1 ++ m2 := by
      rw [e1, e3, ← List.append_assoc] at hr
      exact (List.append_cancel_right hr).symm
    subst this
    refine ⟨n + 1, .succ ?_ hn⟩
    obtain ⟨o, r, c⟩ := d
    obtain ⟨o1, r1, c1⟩ := d1
    simp only at *
    subst e3 e2 e1 ho
    exact ⟨c, c1, by rw [byteLen_append]; exact h1⟩

theorem mt_star (t l pre mid post) :
    (Tree.star t l).MatchesText pre mid post ↔ ∃ n, t.MatchesTimes n pre mid post := by
  constructor
  · rintro ⟨c, c', h⟩; exact star_times h pre mid rfl rfl
  · rintro ⟨n, h⟩; exact times_run h

theorem mt_concat_append (ts us pre mid post) :
    (Tree.concat (ts ++ us)).MatchesText pre mid post ↔
      ∃ m1 m2, mid = m1 ++ m2 ∧ (Tree.concat ts).MatchesText pre m1 (m2 ++ post) ∧
        (Tree.concat us).MatchesText (pre ++ m1) m2 post := by
  induction ts generalizing pre mid with
  | nil =>
    simp only [List.nil_append, mt_concat_nil]
    constructor
    · intro h; exact ⟨[], mid, rfl, rfl, by simpa using h⟩
    · rintro ⟨m1, m2, rfl, rfl, h⟩; simpa using h
  | cons t ts ih =>
    simp only [List.cons_append, mt_concat_cons, ih]
    constructor
    · rintro ⟨m1, _, rfl, h1, m2, m3, rfl, h2, h3⟩
      exact ⟨m1 ++ m2, m3, by simp, ⟨m1, m2, rfl, by simpa using h1, h2⟩, by simpa using h3⟩
    · rintro ⟨_, m3, rfl, ⟨m1, m2, rfl, h1, h2⟩, h3⟩
      exact ⟨m1, m2 ++ m3, by simp, by simpa using h1, m2, m3, rfl, h2, by simpa using h3⟩

theorem mt_concat_one (t pre mid post) :
    (Tree.concat [t]).MatchesText pre mid post ↔ t.MatchesText pre mid post := by
  rw [mt_concat_cons]
  simp only [mt_concat_nil]
  constructor
  · rintro ⟨m1, m2, rfl, h, rfl⟩; simpa using h
  · intro h; exact ⟨mid, [], by simp, by simpa using h, rfl⟩

theorem mt_concat' (t u : Tree) (pre mid post) :
    (t.concat' u).MatchesText pre mid post ↔
      ∃ m1 m2, mid = m1 ++ m2 ∧ t.MatchesText pre m1 (m2 ++ post) ∧
        u.MatchesText (pre ++ m1) m2 post := by
  unfold concat'
  split
  · rw [mt_concat_append]; simp only [mt_concat_one]
  · rw [mt_concat_cons]; simp only [mt_concat_one]

/-- Quantifiers count. -/
theorem mt_applyQuantifier (t : Tree) (q : Quantifier) (pre mid post) :
    (t.applyQuantifier q).MatchesText pre mid post ↔
      ∃ n, q.q.min ≤ n ∧ (∀ m, q.q.max = some m → n ≤ m) ∧ t.MatchesTimes n pre mid post := by
  obtain ⟨q, alt⟩ := q
  unfold applyQuantifier
  cases q with
  | star => simp [mt_star, QType.min, QType.max]
  | plus =>
    simp only [mt_concat', mt_star, QType.min, QType.max]
    constructor
    · rintro ⟨m1, m2, rfl, h1, n, h2⟩; exact ⟨n + 1, by omega, by simp, .succ h1 h2⟩
    · rintro ⟨n, hn, -, h⟩
      obtain ⟨k, rfl⟩ : ∃ k, n = k + 1 := ⟨n - 1, by omega⟩
      obtain ⟨m1, m2, h0, h1, h2⟩ := times_succ.mp h
      exact ⟨m1, m2, h0, h1, k, h2⟩
  | question =>
    simp only [optional', mt_upto, QType.min, QType.max]
    simp
  | multiple n =>
    simp only [mt_repeat, QType.min, QType.max]
    constructor
    · intro h; exact ⟨n, by omega, by simp, h⟩
    · rintro ⟨k, h1, h2, h⟩
      have := h2 n rfl
      have : k = n := by omega
      subst this; exact h
  | range n m =>
    cases m with
    | none =>
      simp only [mt_concat', mt_star, mt_repeat, QType.min, QType.max]
      constructor
      · rintro ⟨m1, m2, rfl, h1, k, h2⟩
        exact ⟨n + k, by omega, by simp, times_add.mpr ⟨m1, m2, rfl, h1, h2⟩⟩
      · rintro ⟨k, hk, -, h⟩
        obtain ⟨j, rfl⟩ : ∃ j, k = n + j := ⟨k - n, by omega⟩
        obtain ⟨m1, m2, h0, h1, h2⟩ := times_add.mp h
        exact ⟨m1, m2, h0, h1, j, h2⟩
    | some m =>
      simp only [QType.min, QType.max, Option.some.injEq, forall_eq']
      split
      · constructor
        · rintro ⟨c, c', h⟩; cases h
        · rintro ⟨k, h1, h2, _⟩; omega
      · split
        · rw [mt_repeat]
          constructor
          · intro h; exact ⟨n, by omega, by omega, h⟩
          · rintro ⟨k, h1, h2, h⟩
            have : k = n := by omega
            subst this; exact h
        · simp only [mt_concat', mt_repeat, mt_upto]
          constructor
          · rintro ⟨m1, m2, rfl, h1, k, hk, h2⟩
            exact ⟨n + k, by omega, by omega, times_add.mpr ⟨m1, m2, rfl, h1, h2⟩⟩
          · rintro ⟨k, hk, hm, h⟩
            obtain ⟨j, rfl⟩ : ∃ j, k = n + j := ⟨k - n, by omega⟩
            obtain ⟨m1, m2, h0, h1, h2⟩ := times_add.mp h
            exact ⟨m1, m2, h0, h1, j, by omega, h2⟩

theorem mt_capture (t g pre mid post) : (Tree.capture t g).MatchesText pre mid post ↔
    t.MatchesText pre mid post := by
  constructor
  · rintro ⟨c, c', h⟩
    generalize hd' : (⟨byteLen (pre ++ mid), post, c'⟩ : Cfg Char) = d' at h
    cases h with
    | @capture _ _ _ d1 h =>
      obtain ⟨o, r, c1⟩ := d1
      simp only [Cfg.mk.injEq] at hd'
      obtain ⟨rfl, rfl, _⟩ := hd'
      exact ⟨_, _, h⟩
  · intro h
    obtain ⟨c1, h1⟩ := matchesText_caps h (Caps.setStart [] g (byteLen pre))
    exact ⟨[], _, .capture (d := ⟨byteLen pre, mid ++ post, []⟩) h1⟩

theorem mt_union (ts pre mid post) : (Tree.union ts).MatchesText pre mid post ↔
    ∃ t ∈ ts, t.MatchesText pre mid post := by
  constructor
  · rintro ⟨c, c', h⟩
    cases h with | union ht h => exact ⟨_, ht, _, _, h⟩
  · rintro ⟨t, ht, c, c', h⟩; exact ⟨c, c', .union ht h⟩

theorem mt_symbol (a pre mid post) : (Tree.symbol a).MatchesText pre mid post ↔
    ∃ c, mid = [c] ∧ a.check c = true := by
  constructor
  · rintro ⟨cc, c', h⟩
    generalize hr : mid ++ post = rest at h
    generalize ho : byteLen (pre ++ mid) = off at h
    cases h with
    | symbol hc =>
      rename_i c
      refine ⟨c, ?_, hc⟩
      have : mid ++ post = [c] ++ post := by simpa using hr
      exact List.append_cancel_right this
  · rintro ⟨c, rfl, hc⟩
    refine ⟨[], [], ?_⟩
    rw [byteLen_append]
    have := @Run.symbol a c (byteLen pre) post [] hc
    simpa [byteLen] using this

theorem mt_start (pre mid post) : Tree.start.MatchesText pre mid post ↔ pre = [] ∧ mid = [] := by
  constructor
  · rintro ⟨cc, c', h⟩
    generalize hr : mid ++ post = rest at h
    generalize ho : byteLen (pre ++ mid) = off at h
    generalize ho2 : byteLen pre = off2 at h
    cases h
    exact ⟨byteLen_eq_zero.mp ho2, by simpa using hr⟩
  · rintro ⟨rfl, rfl⟩; exact ⟨[], [], .start⟩

theorem mt_end (pre mid post) : Tree.end_.MatchesText pre mid post ↔ mid = [] ∧ post = [] := by
  constructor
  · rintro ⟨cc, c', h⟩
    generalize hr : mid ++ post = rest at h
    generalize ho : byteLen (pre ++ mid) = off at h
    cases h
    simpa using hr
  · rintro ⟨rfl, rfl⟩; exact ⟨[], [], by simpa using Run.end_⟩

theorem times_expr {e : EREExpr} {t : Tree}
    (h : ∀ pre mid post, t.MatchesText pre mid post ↔ MatchesExpr e pre mid post) (n pre mid post) :
    t.MatchesTimes n pre mid post ↔ Ere.MatchesTimes e n pre mid post := by
  induction n generalizing pre mid with
  | zero =>
    rw [times_zero]
    constructor
    · rintro rfl; exact .zero
    · intro h; cases h; rfl
  | succ n ih =>
    rw [times_succ]
    simp only [h, ih]
    constructor
    · rintro ⟨m1, m2, rfl, h1, h2⟩; exact .succ h1 h2
    · intro h; cases h with | succ h1 h2 => exact ⟨_, _, rfl, h1, h2⟩

theorem mt_parts {ps : List EREPart} {ts : List Tree}
    (h : List.Forall₂ (fun p t => ∀ pre mid post, Tree.MatchesText t pre mid post ↔ MatchesPart p pre mid post) ps ts)
    (pre mid post) : (Tree.concat ts).MatchesText pre mid post ↔ MatchesBranch (.mk ps) pre mid post := by
  induction h generalizing pre mid with
  | nil =>
    rw [mt_concat_nil]
    constructor
    · rintro rfl; exact .nil
    · intro h; cases h; rfl
  | cons h1 _ ih =>
    rw [mt_concat_cons]
    simp only [h1, ih]
    constructor
    · rintro ⟨m1, m2, rfl, h1, h2⟩; exact .cons h1 h2
    · intro h; cases h with | cons h1 h2 => exact ⟨_, _, rfl, h1, h2⟩

mutual
theorem mt_sub : (e : ERE) → ∀ g pre mid post,
    (fromSubERE e g).1.MatchesText pre mid post ↔ MatchesERE e pre mid post
  | .mk bs => by
    intro g pre mid post
    rw [fromSubERE, mt_union]
    constructor
    · intro h
      obtain ⟨b, hb, h⟩ := (mt_branches bs g pre mid post).mp h
      exact .intro hb h
    · intro h; cases h with | intro hb h => exact (mt_branches bs g pre mid post).mpr ⟨_, hb, h⟩
theorem mt_branches : (bs : List EREBranch) → ∀ g pre mid post,
    (∃ t ∈ (fromBranches bs g).1, t.MatchesText pre mid post) ↔
      ∃ b ∈ bs, MatchesBranch b pre mid post
  | [] => by intro g pre mid post; simp [fromBranches]
  | b :: bs => by
    intro g pre mid post
    rw [fromBranches]
    simp only [List.mem_cons, exists_eq_or_imp]
    rw [mt_branch b, mt_branches bs]
theorem mt_branch : (b : EREBranch) → ∀ g pre mid post,
    (fromBranch b g).1.MatchesText pre mid post ↔ MatchesBranch b pre mid post
  | .mk ps => by
    intro g pre mid post
    rw [fromBranch]
    exact mt_parts (mt_partList ps g) _ _ _
theorem mt_partList : (ps : List EREPart) → ∀ g, List.Forall₂ (fun p t => ∀ pre mid post,
    Tree.MatchesText t pre mid post ↔ MatchesPart p pre mid post) ps (fromParts ps g).1
  | [] => by intro g; rw [fromParts]; exact .nil
  | p :: ps => by
    intro g
    rw [fromParts]
    exact .cons (mt_part p g) (mt_partList ps _)
theorem mt_part : (p : EREPart) → ∀ g pre mid post,
    (fromPart p g).1.MatchesText pre mid post ↔ MatchesPart p pre mid post
  | .single e => by
    intro g pre mid post
    rw [fromPart, mt_expr e]
    constructor
    · intro h; exact .single h
    · intro h; cases h; assumption
  | .quantified e q => by
    intro g pre mid post
    rw [fromPart]
    simp only [mt_applyQuantifier, times_expr (mt_expr e g)]
    constructor
    · rintro ⟨n, h1, h2, h3⟩; exact .quantified h1 h2 h3
    · intro h; cases h with | quantified h1 h2 h3 => exact ⟨_, h1, h2, h3⟩
  | .start => by
    intro g pre mid post
    rw [fromPart, mt_start]
    constructor
    · rintro ⟨rfl, rfl⟩; exact .start
    · intro h; cases h; exact ⟨rfl, rfl⟩
  | .end_ => by
    intro g pre mid post
    rw [fromPart, mt_end]
    constructor
    · rintro ⟨rfl, rfl⟩; exact .end_
    · intro h; cases h; exact ⟨rfl, rfl⟩
theorem mt_expr : (e : EREExpr) → ∀ g pre mid post,
    (fromExpr e g).1.MatchesText pre mid post ↔ MatchesExpr e pre mid post
  | .atom a => by
    intro g pre mid post
    rw [fromExpr, mt_symbol]
    constructor
    · rintro ⟨c, rfl, h⟩; exact .atom h
    · intro h; cases h with | atom h => exact ⟨_, rfl, h⟩
  | .sub e => by
    intro g pre mid post
    rw [fromExpr, mt_capture, mt_sub e]
    constructor
    · intro h; exact .sub h
    · intro h; cases h; assumption
end

theorem mt_fromERE (e : ERE) (pre mid post) :
    (fromERE e).1.MatchesText pre mid post ↔ MatchesERE e pre mid post := by
  rw [fromERE, mt_capture]; exact mt_sub e 1 pre mid post

end Tree
end Ere
