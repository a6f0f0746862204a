import Verif.Proofs.Trie

/-! `U8NFA::build`: the byte automaton has exactly the runs of the character automaton. -/

namespace Ere

/-- Edges of a stretch of states placed at `off`. -/
def SubE {σ : Type} (off : Nat) (ss : NFA σ) : Nat → Lab σ → Nat → Prop :=
  fun x l y => ∃ j, x = off + j ∧ ss.HasEdge j l y

theorem subE_append {σ : Type} {off : Nat} {A B : NFA σ} {x l y} :
    SubE off (A ++ B) x l y ↔ SubE off A x l y ∨ SubE (off + A.length) B x l y := by
  constructor
  · rintro ⟨j, rfl, h⟩
    rcases hasEdge_append.mp h with h1 | ⟨k, rfl, h1⟩
    · exact Or.inl ⟨j, rfl, h1⟩
    · exact Or.inr ⟨k, by omega, h1⟩
  · rintro (⟨j, rfl, h⟩ | ⟨j, rfl, h⟩)
    · exact ⟨j, rfl, hasEdge_append.mpr (Or.inl h)⟩
    · exact ⟨A.length + j, by omega, hasEdge_append.mpr (Or.inr ⟨j, rfl, h⟩)⟩

theorem subE_lt {σ : Type} {off : Nat} {A : NFA σ} {x l y} (h : SubE off A x l y) :
    off ≤ x ∧ x < off + A.length := by
  obtain ⟨j, rfl, h⟩ := h
  have := hasEdge_lt h
  omega

/-- Sub states `ss` placed at `off`: `I x d a w` says that state `x` belongs to a transition to `d`
with the atom `a` of which `w` has been read. -/
structure Subs (U : Utf8Seqs) (off : Nat) (ss : NFA U8Atom) (D : Nat → Atom → Prop)
    (I : Nat → Nat → Atom → List U8Atom → Prop) : Prop where
  noeps : ∀ s ∈ ss, s.epsilons = []
  range : ∀ x d a w, I x d a w → off ≤ x ∧ x < off + ss.length ∧ D d a
  cover : ∀ x, off ≤ x → x < off + ss.length → ∃ d a w, I x d a w
  step : ∀ x d a w b y, I x d a w → SubE off ss x (.sym b) y →
    (y = d ∧ w ++ [b] ∈ atomSeqs U.seqs a) ∨ I y d a (w ++ [b])
  uniq : ∀ x d a w d' a' w', I x d a w → I x d' a' w' → d = d' ∧ a = a' ∧ w = w'
  live : ∀ x d a w, I x d a w → ∃ w', w' ≠ [] ∧ w ++ w' ∈ atomSeqs U.seqs a

theorem subs_nil (U : Utf8Seqs) (off : Nat) (D) : Subs U off [] D (fun _ _ _ _ => False) :=
  ⟨by simp, by simp, by intro x h1 h2; simp at h2; omega, by simp, by simp, by simp⟩

theorem subs_append {U : Utf8Seqs} {off : Nat} {A B : NFA U8Atom} {D1 D2 D : Nat → Atom → Prop} {I J}
    (hA : Subs U off A D1 I) (hB : Subs U (off + A.length) B D2 J) (h1 : ∀ d a, D1 d a → D d a)
    (h2 : ∀ d a, D2 d a → D d a) :
    Subs U off (A ++ B) D (fun x d a w => I x d a w ∨ J x d a w) := by
  refine ⟨?_, ?_, ?_, ?_, ?_, ?_⟩
  · intro s hs
    rcases List.mem_append.mp hs with h | h
    · exact hA.noeps s h
    · exact hB.noeps s h
  · rintro x d a w (h | h)
    · have := hA.range _ _ _ _ h
      exact ⟨this.1, by simp; omega, h1 _ _ this.2.2⟩
    · have := hB.range _ _ _ _ h
      exact ⟨by omega, by simp; omega, h2 _ _ this.2.2⟩
  · intro x hx hx2
    rw [List.length_append] at hx2
    by_cases hl : x < off + A.length
    · obtain ⟨d, a, w, h⟩ := hA.cover x hx hl; exact ⟨d, a, w, Or.inl h⟩
    · obtain ⟨d, a, w, h⟩ := hB.cover x (by omega) (by omega); exact ⟨d, a, w, Or.inr h⟩
  · rintro x d a w b y hI he
    rcases subE_append.mp he with he | he
    · rcases hI with hI | hI
      · rcases hA.step _ _ _ _ _ _ hI he with h | h
        · exact Or.inl h
        · exact Or.inr (Or.inl h)
      · have := hB.range _ _ _ _ hI
        have := subE_lt he
        omega
    · rcases hI with hI | hI
      · have := hA.range _ _ _ _ hI
        have := subE_lt he
        omega
      · rcases hB.step _ _ _ _ _ _ hI he with h | h
        · exact Or.inl h
        · exact Or.inr (Or.inr h)
  · rintro x d a w d' a' w' (h | h) (h' | h')
    · exact hA.uniq _ _ _ _ _ _ _ h h'
    · have := hA.range _ _ _ _ h; have := hB.range _ _ _ _ h'; omega
    · have := hA.range _ _ _ _ h'; have := hB.range _ _ _ _ h; omega
    · exact hB.uniq _ _ _ _ _ _ _ h h'
  · rintro x d a w (h | h)
    · exact hA.live _ _ _ _ h
    · exact hB.live _ _ _ _ h

/-- Transitions `rs` of a state into the sub states, for the character transitions `ts`. -/
structure Roots (U : Utf8Seqs) (off : Nat) (ts : List (Trans Atom)) (rs : List (Trans U8Atom))
    (ss : NFA U8Atom) (I : Nat → Nat → Atom → List U8Atom → Prop) : Prop where
  root : ∀ t' ∈ rs, ∃ t ∈ ts, (t'.dst = t.dst ∧ [t'.symbol] ∈ atomSeqs U.seqs t.symbol) ∨
    I t'.dst t.dst t.symbol [t'.symbol]
  complete : ∀ t ∈ ts, ∀ s ∈ atomSeqs U.seqs t.symbol, ∃ t' ∈ rs, ∃ w, s = t'.symbol :: w ∧
    SPath (SubE off ss) t'.dst w t.dst

/-- One transition. -/
theorem one_spec (U : Utf8Seqs) {off : Nat} (hoff : 1 ≤ off) (t : Trans Atom) {P : NFA U8Atom} {word}
    (hP : SymSpec P (· ∈ atomSeqs U.seqs t.symbol) word) :
    ∃ I, Subs U off (((P.drop 1).take (P.length - 2)).map
        (fun s => ⟨s.transitions.map (mapTransition (P.length - 1) t.dst (off - 1)), []⟩))
        (fun d a => d = t.dst ∧ a = t.symbol) I ∧
      Roots U off [t] (((P.head?.map (·.transitions)).getD []).map
        (mapTransition (P.length - 1) t.dst (off - 1)))
        (((P.drop 1).take (P.length - 2)).map
        (fun s => ⟨s.transitions.map (mapTransition (P.length - 1) t.dst (off - 1)), []⟩)) I := by
  obtain ⟨f, hf⟩ : ∃ f, f = mapTransition (P.length - 1) t.dst (off - 1) := ⟨_, rfl⟩
  obtain ⟨ss, hss⟩ : ∃ ss : NFA U8Atom, ss = ((P.drop 1).take (P.length - 2)).map
        (fun s => ⟨s.transitions.map f, []⟩) := ⟨_, rfl⟩
  rw [← hf, ← hss]
  have hl2 := hP.len
  have hlen : ss.length = P.length - 2 := by rw [hss]; simp; omega
  have hget : ∀ j s, ss[j]? = some s ↔ j < P.length - 2 ∧ ∃ s0, P[j + 1]? = some s0 ∧
      s = ⟨s0.transitions.map f, []⟩ := by
    intro j s
    rw [hss, List.getElem?_map, List.getElem?_take]
    by_cases hj : j < P.length - 2
    · rw [if_pos hj, List.getElem?_drop, Nat.add_comm 1 j]
      rw [Option.map_eq_some_iff]
      constructor
      · rintro ⟨s0, h1, h2⟩; exact ⟨hj, s0, h1, h2.symm⟩
      · rintro ⟨_, s0, h1, h2⟩; exact ⟨s0, h1, h2.symm⟩
    · rw [if_neg hj]; simp [hj]
  have hfd : ∀ (x : Trans U8Atom), (f x).symbol = x.symbol ∧ (f x).dst =
      if x.dst = P.length - 1 then t.dst else x.dst + (off - 1) := by
    intro x
    rw [hf]; unfold mapTransition
    split <;> simp [Trans.addOffset]
  have hedge : ∀ j b y, ss.HasEdge j (.sym b) y ↔ j < P.length - 2 ∧ ∃ r, P.HasEdge (j + 1) (.sym b) r ∧
      y = if r = P.length - 1 then t.dst else r + (off - 1) := by
    intro j b y
    simp only [hasEdge_iff]
    constructor
    · rintro ⟨s, h1, h2⟩
      obtain ⟨hj, s0, h3, rfl⟩ := (hget j s).mp h1
      obtain ⟨x, h4, h5⟩ := List.mem_map.mp (show (⟨y, b⟩ : Trans U8Atom) ∈ _ from h2)
      have := hfd x
      rw [h5] at this
      obtain ⟨xd, xs⟩ := x
      simp only at this
      refine ⟨hj, xd, ⟨s0, h3, ?_⟩, this.2⟩
      rw [this.1]; exact h4
    · rintro ⟨hj, r, ⟨s0, h3, h4⟩, h5⟩
      refine ⟨_, (hget j _).mpr ⟨hj, s0, h3, rfl⟩, ?_⟩
      refine List.mem_map.mpr ⟨⟨r, b⟩, h4, ?_⟩
      have := hfd ⟨r, b⟩
      cases hx : f ⟨r, b⟩
      rw [hx] at this
      simp only at this
      rw [this.1, h5, this.2]
  have hroot : ∀ t', t' ∈ ((P.head?.map (·.transitions)).getD []).map f ↔
      ∃ r, P.HasEdge 0 (.sym t'.symbol) r ∧
        t'.dst = if r = P.length - 1 then t.dst else r + (off - 1) := by
    intro t'
    obtain ⟨p0, hp0⟩ : ∃ p0, P[0]? = some p0 := ⟨P[0]'(by omega), List.getElem?_eq_getElem _⟩
    have : P.head? = some p0 := by rw [List.head?_eq_getElem?]; exact hp0
    rw [this]
    simp only [Option.map_some, Option.getD_some, List.mem_map, hasEdge_iff]
    constructor
    · rintro ⟨x, h4, rfl⟩
      have := hfd x
      refine ⟨x.dst, ⟨p0, hp0, ?_⟩, this.2⟩
      rw [this.1]; exact h4
    · rintro ⟨r, ⟨s0, h3, h4⟩, h5⟩
      rw [hp0] at h3
      obtain rfl := Option.some.inj h3
      refine ⟨⟨r, t'.symbol⟩, h4, ?_⟩
      have := hfd ⟨r, t'.symbol⟩
      cases hx : f ⟨r, t'.symbol⟩
      rw [hx] at this
      simp only at this
      obtain ⟨td, tsy⟩ := t'
      simp only at *
      rw [this.1, h5, this.2]
  refine ⟨fun x d a w => ∃ j, x = off + j ∧ j < P.length - 2 ∧ d = t.dst ∧ a = t.symbol ∧
    w = word (j + 1), ⟨?_, ?_, ?_, ?_, ?_, ?_⟩, ⟨?_, ?_⟩⟩
  · intro s hs
    rw [hss] at hs
    obtain ⟨s0, _, rfl⟩ := List.mem_map.mp hs
    rfl
  · rintro x d a w ⟨j, rfl, hj, rfl, rfl, rfl⟩
    exact ⟨by omega, by omega, rfl, rfl⟩
  · intro x h1 h2
    exact ⟨t.dst, t.symbol, _, x - off, by omega, by omega, rfl, rfl, rfl⟩
  · rintro x d a w b y ⟨j, rfl, hj, rfl, rfl, rfl⟩ ⟨k, hk, he⟩
    have : k = j := by omega
    subst this
    obtain ⟨_, r, h1, rfl⟩ := (hedge k b y).mp he
    rcases (hP.edge _ _ _ h1).2 with ⟨rfl, h2⟩ | ⟨h2, h3, h4⟩
    · exact Or.inl ⟨if_pos rfl, h2⟩
    · rw [if_neg (by omega)]
      refine Or.inr ⟨r - 1, by omega, by omega, rfl, rfl, ?_⟩
      rw [← h4]; congr 1; omega
  · rintro x d a w d' a' w' ⟨j, rfl, hj, rfl, rfl, rfl⟩ ⟨k, hk, _, rfl, rfl, rfl⟩
    exact ⟨rfl, rfl, by rw [show j = k by omega]⟩
  · rintro x d a w ⟨j, rfl, hj, rfl, rfl, rfl⟩
    exact hP.live _ (by omega) (by omega)
  · intro t' ht'
    obtain ⟨r, h1, h2⟩ := (hroot t').mp ht'
    refine ⟨t, by simp, ?_⟩
    rcases (hP.edge _ _ _ h1).2 with ⟨rfl, h3⟩ | ⟨h3, h4, h5⟩
    · rw [if_pos rfl] at h2
      rw [hP.root] at h3
      exact Or.inl ⟨h2, h3⟩
    · rw [if_neg (by omega)] at h2
      refine Or.inr ⟨r - 1, by omega, by omega, rfl, rfl, ?_⟩
      have : r - 1 + 1 = r := by omega
      rw [this, h5, hP.root]; rfl
  · intro t1 ht1 s hs
    rw [List.mem_singleton] at ht1
    subst ht1
    have key : ∀ {q w z}, SPath P.HasEdge q w z → z = P.length - 1 → q ≠ 0 →
        SPath (SubE off ss) (if q = P.length - 1 then t1.dst else q + (off - 1)) w t1.dst := by
      intro q w z h
      induction h with
      | nil => intro hz _; rw [if_pos hz]; exact .nil
      | @cons q a r w z h1 _ ih =>
        intro hz hq
        have h2 := hP.edge _ _ _ h1
        rw [if_neg (by omega)]
        refine .cons ⟨q - 1, by omega, (hedge _ _ _).mpr ⟨by omega, r, ?_, rfl⟩⟩ (ih hz ?_)
        · have : q - 1 + 1 = q := by omega
          rw [this]; exact h1
        · rcases h2.2 with ⟨h3, _⟩ | ⟨_, h3, _⟩
          · omega
          · exact h3
    have hp := hP.complete s hs
    generalize hz : P.length - 1 = z at hp
    cases hp with
    | nil => omega
    | @cons _ b r w _ h1 h2 =>
      subst hz
      refine ⟨⟨if r = P.length - 1 then t1.dst else r + (off - 1), b⟩, (hroot _).mpr ⟨r, h1, rfl⟩, w,
        rfl, key h2 rfl ?_⟩
      rcases (hP.edge _ _ _ h1).2 with ⟨h3, _⟩ | ⟨_, h3, _⟩
      · omega
      · exact h3

theorem expandTrans_spec (U : Utf8Seqs) : ∀ (ts : List (Trans Atom)) (off : Nat), 1 ≤ off →
    ∃ rs ss I, expandTrans U.seqs off ts = .ok (rs, ss) ∧
      Subs U off ss (fun d a => ⟨d, a⟩ ∈ ts) I ∧ Roots U off ts rs ss I := by
  intro ts
  induction ts with
  | nil =>
    intro off _
    exact ⟨[], [], _, rfl, subs_nil U off _, ⟨by simp, by simp⟩⟩
  | cons t ts ih =>
    intro off hoff
    obtain ⟨P, word, h1, h2⟩ := u8Symbol_spec U t.symbol
    obtain ⟨I, h3, h4⟩ := one_spec U hoff t h2
    rw [expandTrans, h1]
    simp only
    generalize ((P.drop 1).take (P.length - 2)).map (fun s => (⟨s.transitions.map
        (mapTransition (P.length - 1) t.dst (off - 1)), []⟩ : State U8Atom)) = subs at *
    generalize ((P.head?.map (·.transitions)).getD []).map
        (mapTransition (P.length - 1) t.dst (off - 1)) = roots at *
    obtain ⟨rs, ss, J, h5, h6, h7⟩ := ih (off + subs.length) (by omega)
    rw [h5]
    refine ⟨roots ++ rs, subs ++ ss, _, rfl, subs_append h3 h6 ?_ ?_, ⟨?_, ?_⟩⟩
    · rintro d a ⟨rfl, rfl⟩; simp
    · intro d a h; simp [h]
    · intro t' ht'
      rcases List.mem_append.mp ht' with h | h
      · obtain ⟨t0, h8, h9⟩ := h4.root t' h
        rw [List.mem_singleton] at h8
        subst h8
        refine ⟨t0, by simp, ?_⟩
        rcases h9 with h9 | h9
        · exact Or.inl h9
        · exact Or.inr (Or.inl h9)
      · obtain ⟨t0, h8, h9⟩ := h7.root t' h
        refine ⟨t0, by simp [h8], ?_⟩
        rcases h9 with h9 | h9
        · exact Or.inl h9
        · exact Or.inr (Or.inr h9)
    · intro t0 ht0 s hs
      rcases List.mem_cons.mp ht0 with rfl | ht0
      · obtain ⟨t', h8, w, h9, h10⟩ := h4.complete t0 (by simp) s hs
        exact ⟨t', by simp [h8], w, h9, spath_mono (fun q a r h => subE_append.mpr (Or.inl h)) h10⟩
      · obtain ⟨t', h8, w, h9, h10⟩ := h7.complete t0 ht0 s hs
        exact ⟨t', by simp [h8], w, h9, spath_mono (fun q a r h => subE_append.mpr (Or.inr h)) h10⟩

/-- What the loops of `build` produce. -/
structure StatesSpec (U : Utf8Seqs) (off : Nat) (N : NFA Atom) (ms ss : NFA U8Atom)
    (I : Nat → Nat → Atom → List U8Atom → Prop) : Prop where
  len : ms.length = N.length
  eps : ∀ q e q', ms.HasEdge q (.eps e) q' ↔ N.HasEdge q (.eps e) q'
  subs : Subs U off ss (fun d a => ∃ q, N.HasEdge q (.sym a) d) I
  root : ∀ q b y, ms.HasEdge q (.sym b) y → ∃ a d, N.HasEdge q (.sym a) d ∧
    ((y = d ∧ [b] ∈ atomSeqs U.seqs a) ∨ I y d a [b])
  complete : ∀ q a d, N.HasEdge q (.sym a) d → ∀ s ∈ atomSeqs U.seqs a, ∃ b w y, s = b :: w ∧
    ms.HasEdge q (.sym b) y ∧ SPath (SubE off ss) y w d

theorem expandStates_spec (U : Utf8Seqs) : ∀ (N : NFA Atom) (off : Nat), 1 ≤ off →
    ∃ ms ss I, expandStates U.seqs off N = .ok (ms, ss) ∧ StatesSpec U off N ms ss I := by
  intro N
  induction N with
  | nil =>
    intro off _
    exact ⟨[], [], _, rfl, rfl, by intros; exact ⟨fun h => absurd h hasEdge_nil, fun h => absurd h hasEdge_nil⟩,
      subs_nil U off _, fun _ _ _ h => absurd h hasEdge_nil, fun _ _ _ h => absurd h hasEdge_nil⟩
  | cons s0 N ih =>
    intro off hoff
    obtain ⟨rs, subs, I, h1, h2, h3⟩ := expandTrans_spec U s0.transitions off hoff
    obtain ⟨ms, ss, J, h4, h5⟩ := ih (off + subs.length) (by omega)
    rw [expandStates, h1]
    simp only
    rw [h4]
    refine ⟨_, _, _, rfl, by simp [h5.len], ?_, subs_append h2 h5.subs ?_ ?_, ?_, ?_⟩
    · intro q e q'
      rw [hasEdge_cons, hasEdge_cons]
      simp only [h5.eps, State.Has]
    · intro d a h
      exact ⟨0, hasEdge_cons.mpr (Or.inl ⟨rfl, h⟩)⟩
    · rintro d a ⟨q, h⟩
      exact ⟨q + 1, hasEdge_cons.mpr (Or.inr ⟨q, rfl, h⟩)⟩
    · intro q b y h
      rcases hasEdge_cons.mp h with ⟨rfl, hh⟩ | ⟨x, rfl, hh⟩
      · obtain ⟨t, h6, h7⟩ := h3.root ⟨y, b⟩ hh
        refine ⟨t.symbol, t.dst, hasEdge_cons.mpr (Or.inl ⟨rfl, h6⟩), ?_⟩
        rcases h7 with h7 | h7
        · exact Or.inl h7
        · exact Or.inr (Or.inl h7)
      · obtain ⟨a, d, h6, h7⟩ := h5.root _ _ _ hh
        refine ⟨a, d, hasEdge_cons.mpr (Or.inr ⟨x, rfl, h6⟩), ?_⟩
        rcases h7 with h7 | h7
        · exact Or.inl h7
        · exact Or.inr (Or.inr h7)
    · intro q a d h s hs
      rcases hasEdge_cons.mp h with ⟨rfl, hh⟩ | ⟨x, rfl, hh⟩
      · obtain ⟨t', h6, w, h7, h8⟩ := h3.complete ⟨d, a⟩ hh s hs
        exact ⟨t'.symbol, w, t'.dst, h7, hasEdge_cons.mpr (Or.inl ⟨rfl, h6⟩),
          spath_mono (fun q a r h => subE_append.mpr (Or.inl h)) h8⟩
      · obtain ⟨b, w, y, h6, h7, h8⟩ := h5.complete _ _ _ hh s hs
        exact ⟨b, w, y, h6, hasEdge_cons.mpr (Or.inr ⟨x, rfl, h7⟩),
          spath_mono (fun q a r h => subE_append.mpr (Or.inr h)) h8⟩

/-! ### The whole automaton -/

/-- What `U8NFA::build` produces. -/
structure BuildSpec (U : Utf8Seqs) (N : NFA Atom) (M : NFA U8Atom) (ms ss : NFA U8Atom)
    (I : Nat → Nat → Atom → List U8Atom → Prop) : Prop where
  st : StatesSpec U N.length N ms ss I
  len : M.length = N.length + ss.length + 1
  edge : ∀ q l y, M.HasEdge q l y ↔ ms.HasEdge q l y ∨
    (q + 1 = N.length ∧ l = .eps .none ∧ y = N.length + ss.length) ∨ SubE N.length ss q l y

theorem u8Build_spec (U : Utf8Seqs) {N : NFA Atom} (hne : N ≠ []) :
    ∃ M ms ss I, u8Build U.seqs N = .ok M ∧ BuildSpec U N M ms ss I := by
  have hpos : 0 < N.length := List.length_pos_iff.mpr hne
  obtain ⟨ms, ss, I, h1, h2⟩ := expandStates_spec U N N.length hpos
  have hms : ms ≠ [] := by rw [← List.length_pos_iff, h2.len]; exact hpos
  refine ⟨_, ms, ss, I, by rw [u8Build, h1]; simp only; rw [if_neg (by simpa using hne)], h2, ?_, ?_⟩
  · simp [pushLast_length, h2.len]; omega
  · intro q l y
    rw [hasEdge_append, hasEdge_append, hasEdge_pushLast hms, pushLast_length, h2.len]
    constructor
    · rintro (((h | ⟨h, h', h''⟩) | ⟨x, h, h'⟩) | ⟨x, h, h'⟩)
      · exact Or.inl h
      · exact Or.inr (Or.inl ⟨h, h', h''⟩)
      · exact Or.inr (Or.inr ⟨x, h, h'⟩)
      · exact absurd (hasEdge_single.mp h').2 has_new
    · rintro (h | ⟨h, h', h''⟩ | ⟨x, h, h'⟩)
      · exact Or.inl (Or.inl (Or.inl h))
      · exact Or.inl (Or.inl (Or.inr ⟨h, h', h''⟩))
      · exact Or.inl (Or.inr ⟨x, h, h'⟩)

/-- A character configuration seen as bytes. -/
def encCfg (c : Cfg Char) : Cfg UInt8 := ⟨c.off, encode c.rest, c.caps⟩

theorem epsStep_enc (e : EpsType) (c : Cfg Char) : epsStep e (encCfg c) = (epsStep e c).map encCfg := by
  cases e with
  | none => rfl
  | startAnchor => by_cases h : c.off = 0 <;> simp [epsStep, encCfg, h]
  | endAnchor =>
    obtain ⟨o, r, k⟩ := c
    cases r with
    | nil => rfl
    | cons a r =>
      have : encode (a :: r) ≠ [] := by rw [Ne, encode_eq_nil]; simp
      simp [epsStep, encCfg, this]
  | startCapture g => rfl
  | endCapture g => rfl

theorem encCfg_inj {c c' : Cfg Char} (h : encCfg c = encCfg c') : c = c' := by
  obtain ⟨o, r, k⟩ := c
  obtain ⟨o', r', k'⟩ := c'
  simp only [encCfg, Cfg.mk.injEq] at h ⊢
  exact ⟨h.1, encode_inj h.2.1, h.2.2⟩

theorem symStep_u8 {b : U8Atom} {d d' : Cfg UInt8} :
    symStep b d = some d' ↔ ∃ x, b.check x = true ∧ d.rest = x :: d'.rest ∧ d'.off = d.off + 1 ∧
      d'.caps = d.caps := by
  obtain ⟨o, r, k⟩ := d
  obtain ⟨o', r', k'⟩ := d'
  unfold symStep
  cases r with
  | nil => simp
  | cons c r =>
    simp only [Sym.check, Sym.len]
    constructor
    · intro h
      split at h
      · rename_i hc
        obtain ⟨h1, h2, h3⟩ := Cfg.mk.inj (Option.some.inj h)
        exact ⟨c, hc, by rw [h2], h1.symm, h3.symm⟩
      · simp at h
    · rintro ⟨x, h1, h2, h3, h4⟩
      obtain ⟨rfl, rfl⟩ := List.cons.inj h2
      rw [if_pos h1, h3, h4]

theorem symStep_char {a : Atom} {c c' : Cfg Char} :
    symStep a c = some c' ↔ ∃ x, a.check x = true ∧ c.rest = x :: c'.rest ∧
      c'.off = c.off + charLen x ∧ c'.caps = c.caps := by
  obtain ⟨o, r, k⟩ := c
  obtain ⟨o', r', k'⟩ := c'
  unfold symStep
  cases r with
  | nil => simp
  | cons c r =>
    simp only [Sym.check, Sym.len]
    constructor
    · intro h
      split at h
      · rename_i hc
        obtain ⟨h1, h2, h3⟩ := Cfg.mk.inj (Option.some.inj h)
        exact ⟨c, hc, by rw [h2], h1.symm, h3.symm⟩
      · simp at h
    · rintro ⟨x, h1, h2, h3, h4⟩
      obtain ⟨rfl, rfl⟩ := List.cons.inj h2
      rw [if_pos h1, h3, h4]

theorem spath_reach {E : Nat → Lab U8Atom → Nat → Prop} {q w y} (h : SPath E q w y) :
    ∀ (bs r : List UInt8) (o : Nat) (k : Caps), MatchesSeq w bs →
      ReachE E (q, ⟨o, bs ++ r, k⟩) (y, ⟨o + bs.length, r, k⟩) := by
  induction h with
  | nil =>
    intro bs r o k hm
    have := matchesSeq_length hm
    have : bs = [] := List.length_eq_zero_iff.mp this
    subst this
    exact reachE_refl
  | @cons q a q1 w y h1 _ ih =>
    intro bs r o k hm
    cases bs with
    | nil => exact absurd hm (by simp [MatchesSeq])
    | cons b bs =>
      have h2 := ih bs r (o + 1) k hm.2
      have e1 : o + (b :: bs).length = o + 1 + bs.length := by simp; omega
      rw [e1]
      have h3 : symStep a ⟨o, b :: bs ++ r, k⟩ = some ⟨o + 1, bs ++ r, k⟩ :=
        symStep_u8.mpr ⟨b, hm.1, rfl, rfl, rfl⟩
      exact reachE_trans (reachE_step h1 h3) h2

theorem buildSpec_forward {U : Utf8Seqs} {N : NFA Atom} {M ms ss I} (hB : BuildSpec U N M ms ss I)
    {q q' : Nat} {c c' : Cfg Char} (h : ReachE N.HasEdge (q, c) (q', c')) :
    ReachE M.HasEdge (q, encCfg c) (q', encCfg c') := by
  refine reachE_tail_induction (P := fun q' c' => ReachE M.HasEdge (q, encCfg c) (q', encCfg c')) h
    reachE_refl ?_
  intro q1 c1 l q2 c2 _ ih he hl
  refine reachE_trans ih ?_
  cases l with
  | eps e =>
    refine reachE_step (l := .eps e) ((hB.edge _ _ _).mpr (Or.inl ((hB.st.eps _ _ _).mpr he))) ?_
    rw [labStep, epsStep_enc, show epsStep e c1 = some c2 from hl]; rfl
  | sym a =>
    obtain ⟨x, h1, h2, h3, h4⟩ := symStep_char.mp (show symStep a c1 = some c2 from hl)
    obtain ⟨s, hs, hm⟩ := (atomSeqs_exact U a _).mpr ⟨x, h1, rfl⟩
    obtain ⟨b, w, y, rfl, h5, h6⟩ := hB.st.complete _ _ _ he s hs
    have hp : SPath M.HasEdge q1 (b :: w) q2 :=
      .cons ((hB.edge _ _ _).mpr (Or.inl h5))
        (spath_mono (fun q a r h => (hB.edge _ _ _).mpr (Or.inr (Or.inr h))) h6)
    have := spath_reach hp _ (encode c2.rest) c1.off c1.caps hm
    rw [enc_length, ← encode_cons, ← h2, ← h3] at this
    unfold encCfg
    rw [h4]
    exact this

/-- Where a run of the byte automaton can be. -/
def BackInv (N : NFA Atom) (I : Nat → Nat → Atom → List U8Atom → Prop) (acc : Nat) (c0 : Cfg Char)
    (x : Nat) (d : Cfg UInt8) : Prop :=
  (x < N.length ∧ ∃ c, d = encCfg c ∧ ReachE N.HasEdge (0, c0) (x, c)) ∨
  (∃ dst a w q c bs, I x dst a w ∧ ReachE N.HasEdge (0, c0) (q, c) ∧ N.HasEdge q (.sym a) dst ∧
    MatchesSeq w bs ∧ encode c.rest = bs ++ d.rest ∧ d.off = c.off + bs.length ∧ d.caps = c.caps) ∨
  (x = acc ∧ ∃ c, d = encCfg c ∧ ReachE N.HasEdge (0, c0) (N.length - 1, c))

/-- Reading the last byte of a character completes a character step. -/
theorem complete_char {U : Utf8Seqs} {N : NFA Atom} {q dst : Nat} {a : Atom} {w : List U8Atom} {c : Cfg Char}
    {bs} {d : Cfg UInt8} (he : N.HasEdge q (.sym a) dst) (hw : w ∈ atomSeqs U.seqs a)
    (hm : MatchesSeq w bs) (h1 : encode c.rest = bs ++ d.rest) (h2 : d.off = c.off + bs.length)
    (h3 : d.caps = c.caps) : ∃ c', d = encCfg c' ∧ StepE N.HasEdge (q, c) (dst, c') := by
  obtain ⟨x, hx, rfl⟩ := (atomSeqs_exact U a bs).mp ⟨w, hw, hm⟩
  obtain ⟨o, r, k⟩ := c
  obtain ⟨o', r', k'⟩ := d
  simp only at h1 h2 h3
  cases r with
  | nil =>
    exfalso
    have := (List.append_eq_nil_iff.mp (show String.utf8EncodeChar x ++ r' = [] from h1.symm)).1
    exact enc_ne_nil x this
  | cons y r =>
    rw [encode_cons] at h1
    obtain ⟨rfl, rfl⟩ := enc_inj_append h1
    rw [enc_length] at h2
    refine ⟨⟨o + charLen y, r, k⟩, by simp [encCfg, h2, h3], .sym a, he, ?_⟩
    show symStep a ⟨o, y :: r, k⟩ = some ⟨o + charLen y, r, k⟩
    exact symStep_char.mpr ⟨y, hx, rfl, rfl, rfl⟩

theorem buildSpec_backward {U : Utf8Seqs} {N : NFA Atom} (hN : N.WF) (hne : N ≠ []) {M ms ss I}
    (hB : BuildSpec U N M ms ss I) {x : Nat} {c0 : Cfg Char} {d : Cfg UInt8}
    (h : ReachE M.HasEdge (0, encCfg c0) (x, d)) : BackInv N I (N.length + ss.length) c0 x d := by
  have hpos : 0 < N.length := List.length_pos_iff.mpr hne
  refine reachE_tail_induction (P := fun x d => BackInv N I (N.length + ss.length) c0 x d) h
    (Or.inl ⟨hpos, c0, rfl, reachE_refl⟩) ?_
  intro q d l q1 d1 _ ih he hl
  rcases ih with ⟨hq, c, rfl, hr⟩ | ⟨dst, a, w, q0, c, bs, hI, hr, hq0, hm, h1, h2, h3⟩ | ⟨rfl, _⟩
  · rcases (hB.edge _ _ _).mp he with h4 | ⟨h4, rfl, rfl⟩ | h4
    · cases l with
      | eps e =>
        have h5 := (hB.st.eps _ _ _).mp h4
        have hl' : epsStep e (encCfg c) = some d1 := hl
        rw [epsStep_enc] at hl'
        obtain ⟨c', h6, rfl⟩ := Option.map_eq_some_iff.mp hl'
        exact Or.inl ⟨hN _ _ _ h5, c', rfl, reachE_trans hr (reachE_step h5 h6)⟩
      | sym b =>
        obtain ⟨a, dd, h5, h6⟩ := hB.st.root _ _ _ h4
        obtain ⟨x, g1, g2, g3, g4⟩ := symStep_u8.mp (show symStep b (encCfg c) = some d1 from hl)
        rcases h6 with ⟨rfl, h6⟩ | h6
        · obtain ⟨c', rfl, h7⟩ := complete_char (d := d1) (bs := [x]) h5 h6 ⟨g1, trivial⟩
            (by simpa [encCfg] using g2) g3 g4
          exact Or.inl ⟨hN _ _ _ h5, c', rfl, hr.tail h7⟩
        · refine Or.inr (Or.inl ⟨dd, a, [b], q, c, [x], h6, hr, h5, ⟨g1, trivial⟩, ?_, g3, g4⟩)
          simpa [encCfg] using g2
    · refine Or.inr (Or.inr ⟨rfl, c, ?_, ?_⟩)
      · exact (Option.some.inj hl).symm
      · have : N.length - 1 = q := by omega
        rw [this]; exact hr
    · have := subE_lt h4; omega
  · have hrange := hB.st.subs.range _ _ _ _ hI
    rcases (hB.edge _ _ _).mp he with h4 | ⟨h4, rfl, rfl⟩ | h4
    · have := hasEdge_lt h4; rw [hB.st.len] at this; omega
    · omega
    · cases l with
      | eps e =>
        exfalso
        obtain ⟨j, _, s, hs, h5⟩ := h4
        have := hB.st.subs.noeps s (List.mem_of_getElem? hs)
        rw [this] at h5
        simp at h5
      | sym b =>
        obtain ⟨x, g1, g2, g3, g4⟩ := symStep_u8.mp (show symStep b d = some d1 from hl)
        have hm' : MatchesSeq (w ++ [b]) (bs ++ [x]) :=
          matchesSeq_append.mpr ⟨bs, [x], rfl, hm, g1, trivial⟩
        have e1 : encode c.rest = bs ++ [x] ++ d1.rest := by rw [h1, g2]; simp
        have e2 : d1.off = c.off + (bs ++ [x]).length := by rw [g3, h2]; simp; omega
        have e3 : d1.caps = c.caps := by rw [g4, h3]
        rcases hB.st.subs.step _ _ _ _ _ _ hI h4 with ⟨rfl, h5⟩ | h5
        · obtain ⟨c', rfl, h7⟩ := complete_char hq0 h5 hm' e1 e2 e3
          exact Or.inl ⟨hN _ _ _ hq0, c', rfl, hr.tail h7⟩
        · exact Or.inr (Or.inl ⟨dst, a, w ++ [b], q0, c, bs ++ [x], h5, hr, hq0, hm', e1, e2, e3⟩)
  · exfalso
    rcases (hB.edge _ _ _).mp he with h4 | ⟨h4, rfl, rfl⟩ | h4
    · have := hasEdge_lt h4; rw [hB.st.len] at this; omega
    · omega
    · have := subE_lt h4; omega

theorem u8Build_acc {U : Utf8Seqs} {N : NFA Atom} (hN : N.WF) (hne : N ≠ []) {M ms ss I}
    (hB : BuildSpec U N M ms ss I) (c : Cfg Char) (d : Cfg UInt8) :
    M.Acc (encCfg c) d ↔ ∃ c', d = encCfg c' ∧ N.Acc c c' := by
  have hpos : 0 < N.length := List.length_pos_iff.mpr hne
  have hMne : M ≠ [] := by rw [← List.length_pos_iff, hB.len]; omega
  have hlast : M.length - 1 = N.length + ss.length := by rw [hB.len]; omega
  constructor
  · rintro ⟨_, h⟩
    rw [hlast] at h
    rcases buildSpec_backward hN hne hB h with ⟨hq, _⟩ | ⟨dst, a, w, q0, c, bs, hI, _⟩ | ⟨_, c', h1, h2⟩
    · omega
    · have := hB.st.subs.range _ _ _ _ hI; omega
    · exact ⟨c', h1, hne, h2⟩
  · rintro ⟨c', rfl, _, h⟩
    refine ⟨hMne, ?_⟩
    rw [hlast]
    refine reachE_trans (buildSpec_forward hB h) (reachE_eps ((hB.edge _ _ _).mpr (Or.inr (Or.inl
      ⟨by omega, rfl, rfl⟩))))

theorem u8Build_shape {U : Utf8Seqs} {N : NFA Atom} (hN : N.WF) (hne : N ≠ []) (hr : N.Ranked)
    (hm : N.NoMix) (hs : N.Sink) {M ms ss I} (hB : BuildSpec U N M ms ss I) : Shape M := by
  have hpos : 0 < N.length := List.length_pos_iff.mpr hne
  have hsubs := hB.st.subs
  have hnoeps : ∀ q e y, ¬ SubE N.length ss q (.eps e) y := by
    rintro q e y ⟨j, _, s, h1, h2⟩
    have := hsubs.noeps s (List.mem_of_getElem? h1)
    rw [this] at h2
    simp at h2
  refine ⟨⟨by rw [Ne, ← List.length_eq_zero_iff, hB.len]; omega, ?_⟩, ?_, ?_, ?_⟩
  · intro q l y h
    rw [hB.len]
    rcases (hB.edge _ _ _).mp h with h | ⟨_, _, rfl⟩ | h
    · cases l with
      | eps e => have := hN _ _ _ ((hB.st.eps _ _ _).mp h); omega
      | sym b =>
        obtain ⟨a, d, h1, h2⟩ := hB.st.root _ _ _ h
        rcases h2 with ⟨rfl, _⟩ | h2
        · have := hN _ _ _ h1; omega
        · have := hsubs.range _ _ _ _ h2; omega
    · omega
    · cases l with
      | eps e => exact absurd h (hnoeps _ _ _)
      | sym b =>
        have h1 := subE_lt h
        obtain ⟨d, a, w, hI⟩ := hsubs.cover _ h1.1 h1.2
        rcases hsubs.step _ _ _ _ _ _ hI h with ⟨rfl, _⟩ | h2
        · obtain ⟨_, _, q', h3⟩ := hsubs.range _ _ _ _ hI
          have := hN _ _ _ h3; omega
        · have := hsubs.range _ _ _ _ h2; omega
  · obtain ⟨r, hr⟩ := hr
    obtain ⟨B, hBd⟩ := rank_bound r N.length
    refine ⟨fun q => if q < N.length then r q else B, ?_⟩
    intro q y h
    beta_reduce
    rcases (hB.edge _ _ _).mp h with h | ⟨h1, _, rfl⟩ | h
    · have h1 := (hB.st.eps _ _ _).mp h
      rw [if_pos (hasEdge_lt h1), if_pos (hN _ _ _ h1)]
      exact hr _ _ h1
    · rw [if_pos (by omega : q < N.length), if_neg (by omega)]
      exact hBd _ (by omega)
    · exact absurd h (hnoeps _ _ _)
  · rw [noMix_iff]
    rintro q b e y z ⟨h1, h2⟩
    rcases (hB.edge _ _ _).mp h2 with h2 | ⟨h2, _, _⟩ | h2
    · rcases (hB.edge _ _ _).mp h1 with h1 | ⟨_, h1, _⟩ | h1
      · obtain ⟨a, d, h3, _⟩ := hB.st.root _ _ _ h1
        exact noMix_iff.mp hm _ _ _ _ _ ⟨h3, (hB.st.eps _ _ _).mp h2⟩
      · simp at h1
      · have := subE_lt h1
        have := hasEdge_lt ((hB.st.eps _ _ _).mp h2)
        omega
    · rcases (hB.edge _ _ _).mp h1 with h1 | ⟨_, h1, _⟩ | h1
      · obtain ⟨a, d, h3, _⟩ := hB.st.root _ _ _ h1
        have : q = N.length - 1 := by omega
        subst this
        exact hs _ _ h3
      · simp at h1
      · have := subE_lt h1; omega
    · exact hnoeps _ _ _ h2
  · intro l y h
    rw [hB.len] at h
    rcases (hB.edge _ _ _).mp h with h | ⟨h, _, _⟩ | h
    · have := hasEdge_lt h; rw [hB.st.len] at this; omega
    · omega
    · have := subE_lt h; omega

/-- `U8NFA::new` on a nonempty automaton: it succeeds and its runs are the encoded runs. -/
theorem u8Build_sims {U : Utf8Seqs} {N : NFA Atom} (hN : N.WF) (hne : N ≠ [])
    {M ms ss I} (hB : BuildSpec U N M ms ss I) : Sims M N := by
  have hpos : 0 < N.length := List.length_pos_iff.mpr hne
  have hsubs := hB.st.subs
  have hnoeps : ∀ q e y, ¬ SubE N.length ss q (.eps e) y := by
    rintro q e y ⟨j, _, s, h1, h2⟩
    have := hsubs.noeps s (List.mem_of_getElem? h1)
    rw [this] at h2
    simp at h2
  have hms : ∀ {q l y}, ms.HasEdge q l y → q < N.length := by
    intro q l y h; rw [← hB.st.len]; exact hasEdge_lt h
  refine ⟨fun x p => (x < N.length ∧ p = x) ∨ (∃ a w, I x p a w) ∨ x = N.length + ss.length,
    Or.inl ⟨hpos, rfl⟩, ?_, ?_⟩
  · rintro x p y hr ⟨l, h1, h2⟩
    rcases (hB.edge _ _ _).mp h2 with h | ⟨_, rfl, rfl⟩ | h
    · have hx := hms h
      have hp : p = x := by
        rcases hr with hr | ⟨a, w, hr⟩ | hr
        · exact hr.2
        · have := hsubs.range _ _ _ _ hr; omega
        · omega
      subst hp
      cases l with
      | eps e =>
        have he := (hB.st.eps _ _ _).mp h
        exact ⟨y, .single ⟨.eps e, by intro e' h'; exact h1 _ (by injection h' with h'; rw [h']), he⟩,
          Or.inl ⟨hN _ _ _ he, rfl⟩⟩
      | sym b =>
        obtain ⟨a, d, h3, h4⟩ := hB.st.root _ _ _ h
        refine ⟨d, .single (sil_sym h3), ?_⟩
        rcases h4 with ⟨rfl, _⟩ | h4
        · exact Or.inl ⟨hN _ _ _ h3, rfl⟩
        · exact Or.inr (Or.inl ⟨a, _, h4⟩)
    · exact ⟨p, .refl, Or.inr (Or.inr rfl)⟩
    · cases l with
      | eps e => exact absurd h (hnoeps _ _ _)
      | sym b =>
        have hx := subE_lt h
        rcases hr with hr | ⟨a, w, hr⟩ | hr
        · omega
        · refine ⟨p, .refl, ?_⟩
          rcases hsubs.step _ _ _ _ _ _ hr h with ⟨rfl, _⟩ | h3
          · obtain ⟨q, hq⟩ := (hsubs.range _ _ _ _ hr).2.2
            exact Or.inl ⟨hN _ _ _ hq, rfl⟩
          · exact Or.inr (Or.inl ⟨a, _, h3⟩)
        · omega
  · rintro x p e y hr hne' h2
    rcases (hB.edge _ _ _).mp h2 with h | ⟨_, h3, rfl⟩ | h
    · have hx := hms h
      have hp : p = x := by
        rcases hr with hr | ⟨a, w, hr⟩ | hr
        · exact hr.2
        · have := hsubs.range _ _ _ _ hr; omega
        · omega
      subst hp
      have he := (hB.st.eps _ _ _).mp h
      exact ⟨p, y, .refl, he, Or.inl ⟨hN _ _ _ he, rfl⟩⟩
    · injection h3 with h3; exact absurd h3 hne'
    · exact absurd h (hnoeps _ _ _)

theorem u8New_sims {U : Utf8Seqs} {N : NFA Atom} (hN : N.WF) (hne : N ≠ []) (hr : N.Ranked)
    (hm : N.NoMix) (hs : N.Sink) {M} (h : u8New U.seqs N = .ok M) : Sims M N := by
  obtain ⟨B, ms, ss, I, h1, h2⟩ := u8Build_spec U hne
  have hsh := u8Build_shape hN hne hr hm hs h2
  obtain ⟨M', h3, h4⟩ := finish_spec (α := UInt8) hsh
  rw [u8New, u8NewLoopOpt, h1] at h
  have h5 : B.finish = .ok M := h
  rw [h3] at h5
  injection h5 with h5
  subst h5
  exact h4.sims.trans (u8Build_sims hN hne h2)

theorem u8New_spec (U : Utf8Seqs) {N : NFA Atom} (hN : N.WF) (hne : N ≠ []) (hr : N.Ranked)
    (hm : N.NoMix) (hs : N.Sink) : ∃ M, u8New U.seqs N = .ok M ∧ M.WF ∧ M.NoMix ∧ M.Sink ∧ M.Trim ∧
      M.Ranked ∧ ∀ c d, M.Acc (encCfg c) d ↔ ∃ c', d = encCfg c' ∧ N.Acc c c' := by
  obtain ⟨B, ms, ss, I, h1, h2⟩ := u8Build_spec U hne
  have hsh := u8Build_shape hN hne hr hm hs h2
  obtain ⟨M, h3, h4⟩ := finish_spec (α := UInt8) hsh
  refine ⟨M, ?_, h4.wf, h4.mix, h4.sink, h4.trim, h4.rank, fun c d => ?_⟩
  · rw [u8New, u8NewLoopOpt, h1]; exact h3
  · rw [h4.acc]; exact u8Build_acc hN hne h2 c d

end Ere
