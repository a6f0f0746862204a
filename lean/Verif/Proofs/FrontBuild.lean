import Verif.Proofs.Front
import Verif.Proofs.Lead
import Verif.Proofs.FirstBytes

/-! The automata of every pattern can be coloured in the sense of `Front`. -/

namespace Ere
variable {σ α : Type} [Sym σ α]

/-! ### How many units remain -/

/-- A character is one unit. -/
def charPhases : Phases Atom Char where
  ok := fun i _ j => i = 0 ∧ j = 0
  next := fun _ _ => 0
  ok_next := fun h _ => h.2.symm
  ok_same := fun _ h => h
  ok_src := fun h h' => h.1.trans h'.1.symm

/-- A continuation byte. -/
def contByte (b : UInt8) : Bool := decide (0x80 ≤ b.toNat) && decide (b.toNat < 0xC0)

/-- How many bytes follow a first byte. -/
def followBytes (b : UInt8) : Nat :=
  if b.toNat < 0xC0 then 0 else if b.toNat < 0xE0 then 1 else if b.toNat < 0xF0 then 2 else 3

/-- The bytes of a character. -/
def bytePhases : Phases U8Atom UInt8 where
  ok := fun i a j => (∃ b : UInt8, a.check b = true) ∧ ∀ b : UInt8, a.check b = true →
    if i = 0 then contByte b = false ∧ j = followBytes b else contByte b = true ∧ i = j + 1
  next := fun i b => if i = 0 then followBytes b else i - 1
  ok_next := by
    intro i a j c h hc
    have := h.2 c hc
    by_cases hi : i = 0
    · rw [if_pos hi] at this ⊢; exact this.2.symm
    · rw [if_neg hi] at this ⊢; omega
  ok_same := by
    intro i a b j h ⟨⟨c, hc⟩, h2⟩
    refine ⟨⟨c, ?_⟩, fun c hc => h2 c ?_⟩
    · exact (h c).symm.trans hc
    · exact (h c).trans hc
  ok_src := by
    intro i i' a j ⟨⟨b, hb⟩, h⟩ ⟨_, h'⟩
    have h1 := h b hb
    have h2 := h' b hb
    by_cases hi : i = 0 <;> by_cases hi' : i' = 0
    · omega
    · rw [if_pos hi] at h1; rw [if_neg hi'] at h2; rw [h1.1] at h2; simp at h2
    · rw [if_neg hi] at h1; rw [if_pos hi'] at h2; rw [h1.1] at h2; simp at h2
    · rw [if_neg hi] at h1; rw [if_neg hi'] at h2; omega

theorem enc_shape (c : Char) : ∃ b t, String.utf8EncodeChar c = b :: t ∧ contByte b = false ∧
    t.length = followBytes b ∧ ∀ x ∈ t, contByte x = true := by
  rw [enc_eq_encNat]
  have hc : c.toNat < 0x110000 := by
    have := c.valid
    rcases this with h | h <;> simp only [Char.toNat] <;> omega
  generalize c.toNat = v at hc
  have hb : ∀ n, n < 256 → (UInt8.ofNat n).toNat = n := by
    intro n hn; simp [UInt8.toNat_ofNat', Nat.mod_eq_of_lt hn]
  unfold encNat
  split
  · refine ⟨_, _, rfl, ?_, ?_, by simp⟩
    · simp only [contByte, hb v (by omega)]; simp; omega
    · simp only [followBytes, hb v (by omega)]; rw [if_pos (by omega)]; rfl
  · split
    · refine ⟨_, _, rfl, ?_, ?_, ?_⟩
      · simp only [contByte, hb (v / 64 % 0x20 + 0xc0) (by omega)]; simp
      · simp only [followBytes, hb (v / 64 % 0x20 + 0xc0) (by omega)]
        rw [if_neg (by omega), if_pos (by omega)]; rfl
      · simp only [List.map_cons, List.map_nil, List.mem_singleton]
        rintro x rfl
        simp only [contByte, hb (v % 0x40 + 0x80) (by omega)]; simp; omega
    · split
      · refine ⟨_, _, rfl, ?_, ?_, ?_⟩
        · simp only [contByte]; rw [hb _ (by omega)]; simp
        · simp only [followBytes]; rw [hb _ (by omega)]
          rw [if_neg (by omega), if_neg (by omega), if_pos (by omega)]; rfl
        · simp only [List.map_cons, List.map_nil, List.mem_cons, List.not_mem_nil, or_false]
          rintro x (rfl | rfl) <;> simp only [contByte] <;> rw [hb _ (by omega)] <;> simp <;> omega
      · refine ⟨_, _, rfl, ?_, ?_, ?_⟩
        · simp only [contByte]; rw [hb _ (by omega)]; simp
        · simp only [followBytes]; rw [hb _ (by omega)]
          rw [if_neg (by omega), if_neg (by omega), if_neg (by omega)]; rfl
        · simp only [List.map_cons, List.map_nil, List.mem_cons, List.not_mem_nil, or_false]
          rintro x (rfl | rfl | rfl) <;> simp only [contByte] <;> rw [hb _ (by omega)] <;> simp <;> omega

theorem seq_low (U : Utf8Seqs) {a : Atom} {u w : List U8Atom} {b : U8Atom} (h : u ++ b :: w ∈ atomSeqs U.seqs a)
    {x : UInt8} (hx : b.check x = true) :
    ∃ c, String.utf8EncodeChar c = u.map (·.lo) ++ x :: w.map (·.lo) := by
  have hn := atomSeqs_nonempty U a _ h
  have h1 : MatchesSeq u (u.map (·.lo)) := matchesSeq_low fun y hy => hn y (by simp [hy])
  have h2 : MatchesSeq w (w.map (·.lo)) := matchesSeq_low fun y hy => hn y (by simp [hy])
  obtain ⟨c, _, hc⟩ := (atomSeqs_exact U a (u.map (·.lo) ++ x :: w.map (·.lo))).mp
    ⟨_, h, matchesSeq_append.mpr ⟨_, _, rfl, h1, hx, h2⟩⟩
  exact ⟨c, hc.symm⟩

/-- How many bytes remain after `w` has been read. -/
def restBytes : List U8Atom → Nat
  | [] => 0
  | b :: w => followBytes b.lo - w.length

theorem seq_ok (U : Utf8Seqs) {a : Atom} {u w : List U8Atom} {b : U8Atom} (h : u ++ b :: w ∈ atomSeqs U.seqs a) :
    bytePhases.ok (restBytes u) b w.length ∧ restBytes (u ++ [b]) = w.length := by
  have hn := atomSeqs_nonempty U a _ h
  have hlo : b.check b.lo = true := by
    have := hn b (by simp)
    simp only [U8Atom.check, Bool.and_eq_true, decide_eq_true_eq]
    exact ⟨UInt8.le_refl _, this⟩
  cases u with
  | nil =>
    have key : ∀ x : UInt8, b.check x = true → contByte x = false ∧ w.length = followBytes x := by
      intro x hx
      obtain ⟨c, hc⟩ := seq_low U h hx
      obtain ⟨b', t, h1, h2, h3, h4⟩ := enc_shape c
      rw [h1] at hc
      simp only [List.map_nil, List.nil_append, List.cons.injEq] at hc
      obtain ⟨rfl, rfl⟩ := hc
      exact ⟨h2, by simpa using h3⟩
    refine ⟨⟨⟨_, hlo⟩, fun x hx => ?_⟩, ?_⟩
    · rw [restBytes, if_pos rfl]; exact key x hx
    · simp only [List.nil_append, restBytes, List.length_nil]
      have := (key _ hlo).2
      omega
  | cons b0 u =>
    have key : ∀ x : UInt8, b.check x = true → contByte x = true ∧ followBytes b0.lo = u.length + 1 + w.length := by
      intro x hx
      obtain ⟨c, hc⟩ := seq_low U h hx
      obtain ⟨b', t, h1, h2, h3, h4⟩ := enc_shape c
      rw [h1] at hc
      simp only [List.map_cons, List.cons_append, List.cons.injEq] at hc
      obtain ⟨rfl, rfl⟩ := hc
      refine ⟨h4 x (by simp), ?_⟩
      rw [← h3]; simp; omega
    have h2 := (key _ hlo).2
    refine ⟨⟨⟨_, hlo⟩, fun x hx => ?_⟩, ?_⟩
    · rw [restBytes, if_neg (by omega)]; exact ⟨(key x hx).1, by omega⟩
    · simp only [List.cons_append, restBytes, List.length_append, List.length_singleton]
      omega

/-! ### The automaton with its loops -/

omit [Sym σ α] in
/-- The automaton of a whole pattern: group 0 begins with the first step and nowhere else. -/
structure Gated (B : NFA σ) : Prop where
  good : Good B
  first : ∀ l q, B.HasEdge 0 l q → l = .eps (.startCapture 0)
  other : ∀ p l q, B.HasEdge p l q → (p ≠ 0 → l ≠ .eps (.startCapture 0)) ∧ q ≠ 0
  two : 2 ≤ B.length

omit [Sym σ α] in
theorem gated_capture {n : NFA σ} (hn : Good n) (hq : EpsQ (· ≠ .startCapture 0) n) (hg : Good (nfaCapture n 0)) :
    Gated (nfaCapture n 0) := by
  refine ⟨hg, fun l q h => ((capture_start n 0 l q).mp h).1, ?_, by rw [capture_length]; omega⟩
  intro p l q h
  have hN : nfaCapture n 0 = [⟨[], [⟨1, .startCapture 0⟩]⟩] ++ (block n 1 ⟨1 + n.length, .endCapture 0⟩ ++ [State.new]) := by
    have : 2 + n.length - 1 = 1 + n.length := by omega
    simp [nfaCapture, block, this]
  by_cases hp : p = 0
  · subst hp
    obtain ⟨rfl, rfl⟩ := (capture_start n 0 l q).mp h
    exact ⟨fun h => absurd rfl h, by simp⟩
  · rw [hN, hasEdge_append, hasEdge_single] at h
    rcases h with ⟨h, _⟩ | ⟨x, rfl, h⟩
    · exact absurd h hp
    · rcases hasEdge_append.mp h with h | ⟨y, _, h⟩
      · rcases (hasEdge_block hn.ne).mp h with ⟨x', rfl, h2⟩ | ⟨_, rfl, rfl⟩
        · refine ⟨fun _ hl => ?_, by omega⟩
          subst hl
          rcases hq.edge h2 with h3 | h3
          · simp at h3
          · exact h3 rfl
        · exact ⟨fun _ => by simp, by simp⟩
      · rw [hasEdge_single] at h; exact absurd h.2 has_new

omit [Sym σ α] in
theorem Gated.filter {B : NFA σ} (h : Gated B) (fe ft) (hg : Good (B.filterEdges fe ft)) : Gated (B.filterEdges fe ft) :=
  ⟨hg, fun l q he => h.first l q (hasEdge_filterEdges.mp he).1,
    fun p l q he => h.other p l q (hasEdge_filterEdges.mp he).1, by rw [filterEdges_length]; exact h.two⟩

/-- The colours of the automaton with its loops. -/
def loopCol (q : Nat) : Col := if q = 3 then .loop 0 else if q < 5 then .both else if q ≤ 6 then .gate else .out

theorem front_withLoops (Φ : Phases σ α) {B : NFA σ} (hB : Gated B) {a : σ} (ha : Φ.ok 0 a 0) :
    Front Φ (B.withLoops a true true) := by
  have h2 := hB.two
  have hLL : (B.withLoops a true true).length = 12 + B.length := by
    rw [withLoops_eq]; simp [block_length]; omega
  have hout : ∀ z, 7 ≤ z → loopCol z = .out := by
    intro z hz
    unfold loopCol
    rw [if_neg (by omega), if_neg (by omega), if_neg (by omega)]
  refine ⟨loopCol, 4, by simp [loopCol, Col.phase], by rw [hout _ (by omega)], ?_, ?_⟩
  · intro p l q h
    rw [mem_outs] at h
    rw [withLoops_eq, List.append_assoc, hasEdge_append] at h
    rcases h with h | ⟨x, rfl, h⟩
    · have hp := hasEdge_lt h
      simp only [hasEdge_cons] at h
      rcases h with ⟨rfl, h⟩ | ⟨x, rfl, ⟨rfl, h⟩ | ⟨x, rfl, ⟨rfl, h⟩ | ⟨x, rfl, ⟨rfl, h⟩ | ⟨x, rfl, ⟨rfl, h⟩ | ⟨x, rfl, ⟨rfl, h⟩ | ⟨x, rfl, h⟩⟩⟩⟩⟩⟩
      all_goals first
        | exact absurd h hasEdge_nil
        | skip
      · cases l <;> simp [State.Has, Eps.new] at h
        obtain ⟨rfl, rfl⟩ := h; simp [loopCol, EdgeCol, Col.phase]
      · cases l <;> simp [State.Has, Eps.new] at h
        obtain ⟨rfl, rfl⟩ := h; simp [loopCol, EdgeCol, Col.phase]
      · cases l <;> simp [State.Has, Eps.new] at h
        rcases h with ⟨rfl, rfl⟩ | ⟨rfl, rfl⟩ <;> simp [loopCol, EdgeCol, Col.phase]
      · cases l <;> simp [State.Has] at h
        obtain ⟨rfl, rfl⟩ := h; simp [loopCol, EdgeCol, Col.phase, ha]
      · cases l <;> simp [State.Has, Eps.new] at h
        obtain ⟨rfl, rfl⟩ := h; simp [loopCol, EdgeCol, Col.phase]
      · cases l <;> simp [State.Has, Eps.new] at h
        obtain ⟨rfl, rfl⟩ := h; simp [loopCol, EdgeCol, Col.phase]
    · rcases hasEdge_append.mp h with h | ⟨y, rfl, h7⟩
      · rcases (hasEdge_block hB.good.ne).mp h with ⟨x', rfl, h3⟩ | ⟨h3, rfl, rfl⟩
        · have h4 := hB.other _ _ _ h3
          rw [hout (x' + 6) (by omega)]
          by_cases hx : x = 0
          · subst hx
            rw [hB.first _ _ h3]
            simp [loopCol, EdgeCol]
          · rw [hout]
            · cases l with
              | sym b => rfl
              | eps e => exact ⟨fun he => h4.1 hx (by rw [he]), rfl⟩
            · simp only [List.length_cons, List.length_nil]; omega
        · rw [hout, hout]
          · exact ⟨by simp [Eps.new], rfl⟩
          · simp only [Eps.new]; omega
          · simp only [List.length_cons, List.length_nil]; omega
      · have hq : 6 + B.length ≤ q := by
          have h := h7
          simp only [hasEdge_cons] at h
          rcases h with ⟨_, h⟩ | ⟨x, _, ⟨_, h⟩ | ⟨x, _, ⟨_, h⟩ | ⟨x, _, ⟨_, h⟩ | ⟨x, _, ⟨_, h⟩ | ⟨x, _, ⟨_, h⟩ | ⟨x, _, h⟩⟩⟩⟩⟩⟩
          all_goals first
            | exact absurd h hasEdge_nil
            | exact absurd h has_new
            | (cases l <;> simp [State.Has, Eps.new] at h <;> omega)
        have hl : l ≠ .eps (.startCapture 0) := by
          rintro rfl
          have : EpsQ (fun _ => False) ([⟨[], [Eps.new (7 + B.length)]⟩, ⟨[], [Eps.new (10 + B.length), Eps.new (8 + B.length)]⟩,
              ⟨[⟨9 + B.length, a⟩], []⟩, ⟨[], [Eps.new (7 + B.length)]⟩, ⟨[], [Eps.new (11 + B.length)]⟩, State.new] : NFA σ) := by
            simp [EpsQ, Eps.new, State.new]
          simpa using this.edge h7
        rw [block_length, hout q (by omega), hout]
        · cases l with
          | sym b => rfl
          | eps e => exact ⟨fun he => hl (by rw [he]), rfl⟩
        · simp only [List.length_cons, List.length_nil]; omega
  · intro q hq
    have hq : q = 0 ∨ q = 1 ∨ q = 2 ∨ q = 4 := by
      unfold loopCol at hq
      split at hq
      · simp at hq
      split at hq
      · omega
      split at hq <;> simp at hq
    rw [withLoops_eq]
    rcases hq with rfl | rfl | rfl | rfl <;>
      simp [NFA.outs, State.outs, Eps.new, loopCol, Col.Late]

/-! ### The byte automaton -/

open Classical in
theorem front_u8Build (U : Utf8Seqs) {N : NFA Atom} {M ms ss : NFA U8Atom} {I} (hwf : N.WF) (hne : N ≠ [])
    (hM : u8Build U.seqs N = .ok M) (hB : BuildSpec U N M ms ss I) (hN : Front charPhases N) : Front bytePhases M := by
  obtain ⟨col, y, hc⟩ := hN
  have hpos : 0 < N.length := List.length_pos_iff.mpr hne
  have hsubs := hB.st.subs
  obtain ⟨cs, hcs⟩ : ∃ cs : Nat → Col, ∀ x d a w, I x d a w → cs x = if col d = .out then .out else .loop (restBytes w) := by
    have : ∀ x, ∃ c : Col, ∀ d a w, I x d a w → c = if col d = .out then .out else .loop (restBytes w) := by
      intro x
      by_cases hx : ∃ d a w, I x d a w
      · obtain ⟨d, a, w, h⟩ := hx
        refine ⟨if col d = .out then .out else .loop (restBytes w), fun d' a' w' h' => ?_⟩
        obtain ⟨rfl, _, rfl⟩ := hsubs.uniq _ _ _ _ _ _ _ h h'
        rfl
      · exact ⟨.out, fun d a w h => absurd ⟨d, a, w, h⟩ hx⟩
    exact ⟨fun x => (this x).choose, fun x => (this x).choose_spec⟩
  obtain ⟨col', hcol'⟩ : ∃ col' : Nat → Col, col' = fun q => if q < N.length then col q else
    if q < N.length + ss.length then cs q else .out := ⟨_, rfl⟩
  have hmain : ∀ q, q < N.length → col' q = col q := fun q hq => by rw [hcol']; exact if_pos hq
  have hlast : col' (N.length + ss.length) = .out := by
    rw [hcol']; show (if _ then _ else _) = _; rw [if_neg (by omega), if_neg (by omega)]
  have hsub : ∀ x d a w, I x d a w → col' x = if col d = .out then .out else .loop (restBytes w) := by
    intro x d a w h
    have := hsubs.range _ _ _ _ h
    rw [hcol']; show (if _ then _ else _) = _
    rw [if_neg (by omega), if_pos (by omega)]; exact hcs _ _ _ _ h
  -- an edge that continues a sequence
  have hstep : ∀ u b d a z, (∃ p, N.HasEdge p (.sym a) d) → (z = d ∧ u ++ [b] ∈ atomSeqs U.seqs a ∨ I z d a (u ++ [b])) →
      if col d = .out then col' z = .out else
        col' z ≠ .out ∧ bytePhases.ok (restBytes u) b (col' z).phase ∧ ((col' z).phase = 0 → z = y) := by
    rintro u b d a z ⟨p, hp⟩ hz
    have hed := hc.edge _ _ _ (mem_outs.mpr hp)
    split
    · rename_i hd
      rcases hz with ⟨rfl, _⟩ | hz
      · rw [hmain _ (hwf _ _ _ hp)]; exact hd
      · rw [hsub _ _ _ _ hz, if_pos hd]
    · rename_i hd
      have hy : (col d).phase = 0 ∧ d = y := by
        cases hcp : col p <;> rw [hcp] at hed <;> simp only [EdgeCol] at hed
        · exact absurd hed hd
        · have := hed.2.1.2
          exact ⟨this, hed.2.2 this⟩
      rcases hz with ⟨rfl, hz⟩ | hz
      · rw [hmain _ (hwf _ _ _ hp), hy.1]
        exact ⟨hd, (seq_ok U (w := []) hz).1, fun _ => hy.2⟩
      · rw [hsub _ _ _ _ hz, if_neg hd]
        obtain ⟨w', hw', hl⟩ := hsubs.live _ _ _ _ hz
        rw [List.append_assoc] at hl
        have hl : u ++ b :: w' ∈ atomSeqs U.seqs a := hl
        obtain ⟨h1, h2⟩ := seq_ok U hl
        rw [h2]
        refine ⟨by simp, h1, fun h => ?_⟩
        have : w'.length = 0 := h
        exact absurd (List.length_eq_zero_iff.mp this) hw'
  have hroot : ∀ q b z, ms.HasEdge q (.sym b) z → q < N.length ∧ EdgeCol bytePhases y (col q) (.sym b) z (col' z) := by
    intro q b z h
    obtain ⟨a, d, h1, h2⟩ := hB.st.root _ _ _ h
    have h3 := hstep [] b d a z ⟨q, h1⟩ (by simpa using h2)
    have hed := hc.edge _ _ _ (mem_outs.mpr h1)
    refine ⟨hasEdge_lt h1, ?_⟩
    cases hcq : col q with
    | out =>
      rw [hcq] at hed
      have hed : col d = .out := hed
      rw [if_pos hed] at h3; exact h3
    | gate => rw [hcq] at hed; exact hed.elim
    | both => rw [hcq] at hed; exact hed.elim
    | loop i =>
      rw [hcq] at hed
      have hed : col d ≠ .out ∧ (i = 0 ∧ (col d).phase = 0) ∧ _ := hed
      rw [if_neg hed.1] at h3
      rw [hed.2.1.1]
      exact h3
  refine ⟨col', y, ?_, ?_, ?_, ?_⟩
  · rw [hmain _ hpos]; exact hc.zero
  · rw [hB.len, Nat.add_sub_cancel]; exact hlast
  · intro q l z h
    rw [mem_outs, hB.edge] at h
    rcases h with h | ⟨h, rfl, rfl⟩ | h
    · cases l with
      | eps e =>
        have h' := (hB.st.eps _ _ _).mp h
        rw [hmain _ (hasEdge_lt h'), hmain _ (hwf _ _ _ h')]
        have := hc.edge _ _ _ (mem_outs.mpr h')
        cases hcq : col q <;> rw [hcq] at this <;> exact this
      | sym b =>
        obtain ⟨h1, h2⟩ := hroot _ _ _ h
        rw [hmain _ h1]; exact h2
    · rw [hlast, hmain _ (by omega), show q = N.length - 1 by omega, hc.last]
      exact ⟨by simp, rfl⟩
    · have hr := subE_lt h
      obtain ⟨d, a, w, hI⟩ := hsubs.cover q hr.1 hr.2
      cases l with
      | eps e =>
        obtain ⟨j, _, hj⟩ := h
        obtain ⟨s, hs, he⟩ := hasEdge_iff.mp hj
        have := hsubs.noeps s (List.mem_of_getElem? hs)
        simp only [State.Has, this] at he
        simp at he
      | sym b =>
        have h1 := hsubs.step _ _ _ _ _ _ hI h
        have h2 := hstep w b d a z (hsubs.range _ _ _ _ hI).2.2 h1
        rw [hsub _ _ _ _ hI]
        by_cases hd : col d = .out
        · rw [if_pos hd] at h2 ⊢; exact h2
        · rw [if_neg hd] at h2 ⊢; exact h2
  · intro q hq
    have hqN : q < N.length ∧ col q = .both := by
      by_cases hl : q < N.length
      · exact ⟨hl, by rw [← hmain _ hl]; exact hq⟩
      · exfalso
        rw [hcol'] at hq
        simp only [if_neg hl] at hq
        split at hq
        · rename_i hl2
          obtain ⟨d, a, w, hI⟩ := hsubs.cover q (by omega) hl2
          rw [hcs _ _ _ _ hI] at hq
          split at hq <;> simp at hq
        · simp at hq
    obtain ⟨hq1, hq2⟩ := hqN
    have hql : q + 1 < N.length := by
      rcases Nat.lt_or_ge (q + 1) N.length with h | h
      · exact h
      · rw [show q = N.length - 1 by omega, hc.last] at hq2; simp at hq2
    have heq : ∃ es : List Eps, M.outs q = es.map (fun e => (.eps e.special, e.dst)) ∧
        N.outs q = es.map (fun e => (.eps e.special, e.dst)) := by
      have hqM : q < M.length := by rw [hB.len]; omega
      have he := (u8Build_eps hM).1 q hql
      rw [List.getElem?_eq_getElem hqM, List.getElem?_eq_getElem hq1] at he
      simp only [Option.map_some, Option.some.injEq] at he
      have hMq : M[q]? = some (M[q]'hqM) := List.getElem?_eq_getElem hqM
      have hNq : N[q]? = some (N[q]'hq1) := List.getElem?_eq_getElem hq1
      have t1 : (M[q]'hqM).transitions = [] := by
        rw [List.eq_nil_iff_forall_not_mem]
        rintro ⟨z, b⟩ ht
        have hME : M.HasEdge q (.sym b) z := hasEdge_iff.mpr ⟨_, hMq, ht⟩
        rcases (hB.edge _ _ _).mp hME with h | ⟨_, h, _⟩ | h
        · have := (hroot _ _ _ h).2
          rw [hq2] at this; exact this
        · simp at h
        · have := (subE_lt h).1; omega
      have t2 : (N[q]'hq1).transitions = [] := by
        rw [List.eq_nil_iff_forall_not_mem]
        rintro ⟨z, b⟩ ht
        have hNE : N.HasEdge q (.sym b) z := hasEdge_iff.mpr ⟨_, hNq, ht⟩
        have := hc.edge _ _ _ (mem_outs.mpr hNE)
        rw [hq2] at this; exact this
      refine ⟨(N[q]'hq1).epsilons, ?_, ?_⟩
      · unfold NFA.outs
        rw [hMq]
        simp only [State.outs, t1, he, List.map_nil, List.nil_append]
      · unfold NFA.outs
        rw [hNq]
        simp only [State.outs, t2, List.map_nil, List.nil_append]
    obtain ⟨es, e1, e2⟩ := heq
    have hord := hc.order q hq2
    have g : ∀ e ∈ N.outs q, col' e.2 = col e.2 := fun e he => hmain _ (hwf _ _ _ (mem_outs.mp (show (e.1, e.2) ∈ _ from he)))
    rw [e2] at hord g
    rw [e1]
    rw [List.pairwise_map] at hord ⊢
    refine List.Pairwise.imp_of_mem ?_ hord
    intro e e' he he' h
    have g1 := g _ (List.mem_map.mpr ⟨e, he, rfl⟩)
    have g2 := g _ (List.mem_map.mpr ⟨e', he', rfl⟩)
    simp only at g1 g2 h ⊢
    rw [g1, g2]; exact h

/-! ### Every pattern -/

/-- The automaton of the character engine has the shape. -/
theorem front_char (e : ERE) {N : NFA Atom}
    (h1 : workingNew (Tree.fromERE e).1 = .ok N) (hN : N ≠ []) : Front charPhases N := by
  have ht := starOk_fromERE e
  have hb := build_shape _ ht
  have hc1 : Shape (build (Tree.fromERE e).1).cleanStartAnchors := filterEdges_shape hb
  have hc : Shape (build (Tree.fromERE e).1).cleanStartAnchors.cleanEndAnchors := filterEdges_shape hc1
  have hl := withLoops_shape hc anyAtom true true
  have hg : Gated (build (Tree.fromERE e).1) := by
    have hq : EpsQ (· ≠ .startCapture 0) (build (Tree.fromSubERE e 1).1) :=
      build_epsQ _ (markQ_fromSubERE e 1 (by simp) (by simp) fun k h _ => ⟨by simp; omega, by simp⟩)
    have hgood := hb.good
    rw [Tree.fromERE] at hgood ⊢
    rw [build] at hgood ⊢
    exact gated_capture (build_good _) hq hgood
  have hL := front_withLoops charPhases ((hg.filter _ _ hc1.good).filter _ _ hc.good) (a := anyAtom) ⟨rfl, rfl⟩
  rw [workingNew, newLoopOpt] at h1
  refine (front_stable charPhases).finish hl ?_ h1 hN
  obtain ⟨col, y, h⟩ := hL
  exact ⟨col, y, h.filter _ _⟩

/-- The automaton of the byte engines has the shape. -/
theorem front_byte (U : Utf8Seqs) (e : ERE) {N : NFA Atom} {M : NFA U8Atom}
    (h1 : workingNew (Tree.fromERE e).1 = .ok N) (hN : Ready N)
    (h2 : u8New U.seqs N = .ok M) (hM : M ≠ []) : Front bytePhases M := by
  have hNs := front_char e h1 hN.ne
  obtain ⟨B, ms, ss, I, h3, h4⟩ := u8Build_spec U hN.ne
  rw [u8New, u8NewLoopOpt, h3] at h2
  have h5 : B.finish = .ok M := h2
  refine (front_stable bytePhases).finish (u8Build_shape hN.wf hN.ne hN.rank hN.mix hN.sink h4) ?_ h5 hM
  obtain ⟨col, y, h⟩ := front_u8Build U hN.wf hN.ne h3 h4 hNs
  exact ⟨col, y, h.filter _ _⟩

end Ere
