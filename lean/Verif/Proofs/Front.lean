import Verif.Proofs.FirstOpt
import Verif.Proofs.Stable

/-! The part of an automaton in which a match has not begun: the front loop and the way to the mark of
group 0. Its states are coloured; the colours say in which order a search leaves the loop. -/

namespace Ere
variable {σ α : Type}

/-- `out`: a match has begun. The others: it has not. `gate`: plain epsilons lead only to the mark of group
0. `loop i`: they lead only to the symbol of the loop, of which `i` units remain to be read. `both`: first to
the mark, then to the symbol. -/
inductive Col
  | out
  | gate
  | both
  | loop (i : Nat)
deriving DecidableEq

/-- How many units of a character remain to be read. -/
def Col.phase : Col → Nat
  | .loop i => i
  | _ => 0

/-- From here the symbol of the loop can be reached. -/
def Col.Late : Col → Prop
  | .both => True
  | .loop _ => True
  | _ => False

/-- How symbols count the units of a character that remain. -/
structure Phases (σ α : Type) [Sym σ α] where
  ok : Nat → σ → Nat → Prop
  next : Nat → α → Nat
  ok_next : ∀ {i a j c}, ok i a j → Sym.check a c = true → next i c = j
  ok_same : ∀ {i a b j}, (∀ c : α, Sym.check a c = Sym.check b c) → ok i a j → ok i b j
  ok_src : ∀ {i i' a j}, ok i a j → ok i' a j → i = i'

variable [Sym σ α]

/-- What an edge from colour `c` to state `p` of colour `d` has to be. -/
def EdgeCol (Φ : Phases σ α) (y : Nat) : Col → Lab σ → Nat → Col → Prop
  | .out, .eps e, _, d => e ≠ .startCapture 0 ∧ d = .out
  | .out, .sym _, _, d => d = .out
  | .gate, .eps e, _, d => (e = .startCapture 0 ∧ d = .out) ∨ (e = .none ∧ d = .gate)
  | .gate, .sym _, _, _ => False
  | .both, .eps e, _, d => (e = .startCapture 0 ∧ d = .out) ∨ (e = .none ∧ d ≠ .out ∧ d.phase = 0)
  | .both, .sym _, _, _ => False
  | .loop i, .eps e, _, d => i = 0 ∧ e = .none ∧ d = .loop 0
  | .loop i, .sym a, p, d => d ≠ .out ∧ Φ.ok i a d.phase ∧ (d.phase = 0 → p = y)

/-- The colours of an automaton. -/
structure FrontC (Φ : Phases σ α) (N : NFA σ) (col : Nat → Col) (y : Nat) : Prop where
  zero : col 0 ≠ .out ∧ (col 0).phase = 0
  last : col (N.length - 1) = .out
  edge : ∀ q l p, (l, p) ∈ N.outs q → EdgeCol Φ y (col q) l p (col p)
  order : ∀ q, col q = .both → (N.outs q).Pairwise (fun e e' => (col e.2).Late → col e'.2 = .loop 0)

/-- The automaton can be coloured. -/
def Front (Φ : Phases σ α) (N : NFA σ) : Prop := ∃ col y, FrontC Φ N col y

/-! ### Fewer edges -/

theorem FrontC.sub {Φ : Phases σ α} {N N' : NFA σ} {col y} (h : FrontC Φ N col y) (hl : N'.length = N.length)
    (hs : ∀ q, (N'.outs q).Sublist (N.outs q)) : FrontC Φ N' col y :=
  ⟨h.zero, by rw [hl]; exact h.last, fun q l p he => h.edge q l p ((hs q).subset he),
    fun q hq => (h.order q hq).sublist (hs q)⟩

omit [Sym σ α] in
theorem outs_filterEdges_sub {N : NFA σ} {fe ft} (q : Nat) : ((N.filterEdges fe ft).outs q).Sublist (N.outs q) := by
  unfold NFA.outs NFA.filterEdges
  rw [List.getElem?_mapIdx]
  cases N[q]? with
  | none => exact List.Sublist.refl _
  | some s =>
    simp only [Option.map_some, State.outs]
    exact (List.filter_sublist.map _).append (List.filter_sublist.map _)

omit [Sym σ α] in
theorem Dup.sublist {S es es' : Edges σ} (h : Dup S es es') : es'.Sublist es := by
  induction h with
  | nil => exact List.Sublist.refl _
  | keep _ ih => exact ih.cons_cons _
  | drop _ _ ih => exact ih.cons _

theorem FrontC.filter {Φ : Phases σ α} {N : NFA σ} {col y} (h : FrontC Φ N col y) (fe ft) :
    FrontC Φ (N.filterEdges fe ft) col y := h.sub filterEdges_length outs_filterEdges_sub

/-! ### Renaming and recolouring -/

/-- Edges that go to `φ p`, of colour `d'`, instead of `p`, of colour `d`. -/
theorem EdgeCol.move {Φ : Phases σ α} {y : Nat} {c l p d} (h : EdgeCol Φ y c l p d) (φ : Nat → Nat) {d' : Col}
    (hd : d' = d ∨ (d = .both ∧ (d' = .gate ∨ d' = .loop 0))) : EdgeCol Φ (φ y) c l (φ p) d' := by
  rcases hd with rfl | ⟨rfl, hd⟩
  · cases c <;> cases l <;> simp only [EdgeCol] at h ⊢ <;> try exact h
    exact ⟨h.1, h.2.1, fun hp => by rw [h.2.2 hp]⟩
  · have hp : d'.phase = 0 ∧ d' ≠ .out := by rcases hd with rfl | rfl <;> simp [Col.phase]
    cases c <;> cases l <;> simp only [EdgeCol] at h ⊢
    all_goals first
      | (simp at h; done)
      | skip
    · rcases h with h | h
      · simp at h
      · exact .inr ⟨h.1, hp.2, hp.1⟩
    · refine ⟨hp.2, ?_, fun _ => by rw [h.2.2 rfl]⟩
      rw [hp.1]; exact h.2.1

theorem Col.Late.of {d d' : Col} (hd : d' = d ∨ (d = .both ∧ (d' = .gate ∨ d' = .loop 0))) (h : d'.Late) : d.Late := by
  rcases hd with rfl | ⟨rfl, _⟩
  · exact h
  · trivial

theorem Col.loop_of {d d' : Col} (hd : d' = d ∨ (d = .both ∧ (d' = .gate ∨ d' = .loop 0))) (h : d = .loop 0) :
    d' = .loop 0 := by
  rcases hd with rfl | ⟨rfl, _⟩
  · exact h
  · simp at h

/-! ### Merging -/

/-- Colours of states with the same edges. -/
theorem same_col {Φ : Phases σ α} {y : Nat} {c d : Col} {l l' p dp} (h : EdgeCol Φ y c l p dp)
    (h' : EdgeCol Φ y d l' p dp) (hl : LabSame (α := α) l l') :
    c = d ∨ (c = .both ∧ (d = .gate ∨ d = .loop 0)) ∨ (d = .both ∧ (c = .gate ∨ c = .loop 0)) := by
  cases l with
  | sym a =>
    cases l' with
    | eps e => simp [LabSame] at hl
    | sym b =>
      cases c <;> cases d <;> simp only [EdgeCol] at h h' <;> try trivial
      · exact absurd h h'.1
      · exact absurd h' h.1
      · rename_i i j
        left
        congr 1
        exact Φ.ok_src (Φ.ok_same hl h.2.1) h'.2.1
  | eps e =>
    cases l' with
    | sym b => simp [LabSame] at hl
    | eps f =>
      simp only [LabSame] at hl
      subst hl
      cases c <;> cases d <;> simp only [EdgeCol] at h h'
      · exact .inl rfl
      · rcases h' with h' | h'
        · exact absurd h'.1 h.1
        · rw [h.2] at h'; simp at h'
      · rcases h' with h' | h'
        · exact absurd h'.1 h.1
        · exact absurd h.2 h'.2.1
      · rw [h.2] at h'; simp at h'
      · rcases h with h | h
        · exact absurd h.1 h'.1
        · rw [h'.2] at h; simp at h
      · exact .inl rfl
      · exact .inr (.inr ⟨rfl, .inl rfl⟩)
      · rcases h with h | h
        · rw [h.2] at h'; simp at h'
        · rw [h.2] at h'; simp at h'
      · rcases h with h | h
        · exact absurd h.1 h'.1
        · exact absurd h'.2 h.2.1
      · exact .inr (.inl ⟨rfl, .inl rfl⟩)
      · exact .inl rfl
      · rw [h'.1]; exact .inr (.inl ⟨rfl, .inr rfl⟩)
      · rw [h'.2] at h; simp at h
      · rcases h' with h' | h'
        · rw [h'.2] at h; simp at h
        · rw [h'.2] at h; simp at h
      · rw [h.1]; exact .inr (.inr ⟨rfl, .inr rfl⟩)
      · rw [h.1, h'.1]; exact .inl rfl

theorem EdgeCol.same {Φ : Phases σ α} {y : Nat} {c l l' p d} (h : EdgeCol Φ y c l p d)
    (hl : LabSame (α := α) l l') : EdgeCol Φ y c l' p d := by
  cases l with
  | sym a =>
    cases l' with
    | eps e => simp [LabSame] at hl
    | sym b =>
      cases c <;> simp only [EdgeCol] at h ⊢
      · exact h
      · exact ⟨h.1, Φ.ok_same hl h.2.1, h.2.2⟩
  | eps e =>
    cases l' with
    | sym b => simp [LabSame] at hl
    | eps f => simp only [LabSame] at hl; subst hl; exact h

/-- The stricter of two colours. -/
def Col.meet (c d : Col) : Col := if d = .both then c else d

omit [Sym σ α] in
theorem sameOut_ne [Sym σ α] {a b : State σ} (h : sameOut a b = true) : a.outs ≠ [] := by
  simp only [sameOut, Bool.and_eq_true] at h
  intro hn
  simp only [State.outs, List.append_eq_nil_iff, List.map_eq_nil_iff] at hn
  rw [hn.1, hn.2] at h
  simp at h

theorem sameOut_mem {a b : State σ} (h : sameOut a b = true) {l p} (hm : (l, p) ∈ b.outs) :
    ∃ l', (l', p) ∈ a.outs ∧ LabSame (α := α) l' l := by
  have hs : List.Forall₂ (fun a b => LabSame (α := α) a.1 b.1 ∧ b.2 = a.2) a.outs b.outs := by
    have := sameOut_outs (α := α) h id
    rw [show b.outs.map (fun p => (p.1, id p.2)) = b.outs by simp] at this
    exact this
  generalize a.outs = A at hs
  generalize b.outs = B at hs hm
  induction hs with
  | nil => simp at hm
  | @cons e f es fs h4 _ ih =>
    rcases List.mem_cons.mp hm with h5 | h5
    · refine ⟨e.1, ?_, by rw [← h5] at h4; exact h4.1⟩
      have : (e.1, p) = e := by rw [← h5] at h4; exact Prod.ext rfl h4.2
      rw [this]; simp
    · obtain ⟨l2, h6, h7⟩ := ih h5
      exact ⟨l2, by simp [h6], h7⟩

theorem front_merge {Φ : Phases σ α} {N : NFA σ} {x o : Nat} {a b : State σ} (hx : 1 ≤ x) (hxl : x + 1 < N.length)
    (hol : o + 1 < N.length) (hxo : x ≠ o) (ha : N[x]? = some a) (hb : N[o]? = some b) (hab : sameOut a b = true)
    (h : Front Φ N) : Front Φ ((N.clear x).redirect x o) := by
  obtain ⟨col, y, h⟩ := h
  have hoa : N.outs x = a.outs := outs_get ha
  have hob : N.outs o = b.outs := outs_get hb
  -- the colours of `x` and `o`
  have hcol : col x = col o ∨ (col x = .both ∧ (col o = .gate ∨ col o = .loop 0)) ∨
      (col o = .both ∧ (col x = .gate ∨ col x = .loop 0)) := by
    have hne : b.outs ≠ [] := by
      intro hn
      apply sameOut_ne hab
      have h1 := (sameOut_outs (α := α) hab id).length_eq
      rw [hn] at h1
      exact List.length_eq_zero_iff.mp (by simpa using h1)
    obtain ⟨⟨l, p⟩, he⟩ := List.exists_mem_of_ne_nil _ hne
    obtain ⟨l', h1, h2⟩ := sameOut_mem (α := α) hab he
    exact same_col (h.edge x l' p (by rw [hoa]; exact h1)) (h.edge o l p (by rw [hob]; exact he)) h2
  obtain ⟨m, hm⟩ : ∃ m, m = (col x).meet (col o) := ⟨_, rfl⟩
  have hmx : m = col x ∨ (col x = .both ∧ (m = .gate ∨ m = .loop 0)) := by
    rw [hm]
    rcases hcol with h1 | ⟨h1, h2 | h2⟩ | ⟨h1, h2⟩
    · left; rw [h1]; simp [Col.meet]
    · right; rw [h1, h2]; simp [Col.meet]
    · right; rw [h1, h2]; simp [Col.meet]
    · left; rw [h1]; simp [Col.meet]
  have hmo : m = col o ∨ (col o = .both ∧ (m = .gate ∨ m = .loop 0)) := by
    rw [hm]
    rcases hcol with h1 | ⟨h1, h2 | h2⟩ | ⟨h1, h2 | h2⟩
    · left; rw [h1]; simp [Col.meet]
    · left; rw [h1, h2]; simp [Col.meet]
    · left; rw [h1, h2]; simp [Col.meet]
    · right; rw [h1, h2]; simp [Col.meet]
    · right; rw [h1, h2]; simp [Col.meet]
  have hmeq : m = col x ∨ m = col o := by
    rw [hm]
    unfold Col.meet
    split
    · exact .inl rfl
    · exact .inr rfl
  obtain ⟨φ, hφ⟩ : ∃ φ : Nat → Nat, φ = fun q => if q = x then o else q := ⟨_, rfl⟩
  obtain ⟨col', hc'⟩ : ∃ col' : Nat → Col, col' = fun q => if q = o then m else col q := ⟨_, rfl⟩
  have hmove : ∀ p, col' (φ p) = col p ∨ (col p = .both ∧ (col' (φ p) = .gate ∨ col' (φ p) = .loop 0)) := by
    intro p
    rw [hφ, hc']
    simp only
    by_cases hp : p = x
    · subst hp; rw [if_pos rfl, if_pos rfl]; exact hmx
    · rw [if_neg hp]
      by_cases hp' : p = o
      · subst hp'; rw [if_pos rfl]; exact hmo
      · rw [if_neg hp']; exact .inl rfl
  have houts : ∀ q, q ≠ x → ((N.clear x).redirect x o).outs q = (N.outs q).map (fun p => (p.1, φ p.2)) := by
    intro q hq
    rw [outs_redirect, outs_clear hq, hφ]
  have hcx : ((N.clear x).redirect x o).outs x = [] := by
    rw [outs_redirect]
    have : (N.clear x)[x]? = some ⟨[], []⟩ := by simp [NFA.clear, ha]
    rw [outs_get this]; rfl
  refine ⟨col', φ y, ?_, ?_, ?_, ?_⟩
  · have h0 := hmove 0
    have h1 : φ 0 = 0 := by rw [hφ]; simp only; rw [if_neg (by omega)]
    rw [h1] at h0
    rcases h0 with h0 | ⟨_, h0 | h0⟩
    · rw [h0]; exact h.zero
    · rw [h0]; simp [Col.phase]
    · rw [h0]; simp [Col.phase]
  · rw [redirect_length, clear_length, hc']
    simp only
    rw [if_neg (by omega)]
    exact h.last
  · intro q l p he
    by_cases hq : q = x
    · rw [hq, hcx] at he; simp at he
    · rw [houts q hq] at he
      obtain ⟨⟨l1, p1⟩, h1, h2⟩ := List.mem_map.mp he
      simp only [Prod.mk.injEq] at h2
      obtain ⟨rfl, rfl⟩ := h2
      by_cases hqo : q = o
      · subst hqo
        have hcq : col' q = m := by rw [hc']; simp
        rw [hcq]
        rcases hmeq with h3 | h3
        · -- the edges of `x`
          rw [hob] at h1
          obtain ⟨l2, h4, h5⟩ := sameOut_mem (α := α) hab h1
          rw [h3]
          exact ((h.edge x l2 p1 (by rw [hoa]; exact h4)).same h5).move φ (hmove p1)
        · rw [h3]
          exact (h.edge q l1 p1 h1).move φ (hmove p1)
      · have hcq : col' q = col q := by rw [hc']; simp [hqo]
        rw [hcq]
        exact (h.edge q l1 p1 h1).move φ (hmove p1)
  · intro q hq
    by_cases hqx : q = x
    · rw [hqx, hcx]; exact .nil
    · rw [houts q hqx, List.pairwise_map]
      have hb : col q = .both := by
        by_cases hqo : q = o
        · subst hqo
          have hcq : col' q = m := by rw [hc']; simp
          rw [hcq] at hq
          rcases hmo with h3 | ⟨h3, h4⟩
          · rw [← h3]; exact hq
          · exact h3
        · have hcq : col' q = col q := by rw [hc']; simp [hqo]
          rw [← hcq]; exact hq
      exact (h.order q hb).imp fun {e e'} h1 h2 => Col.loop_of (hmove e'.2) (h1 (h2.of (hmove e.2)))

/-! ### Skipping a state with one plain epsilon -/

/-- An edge to `x`, and a plain epsilon from there. -/
theorem EdgeCol.trans {Φ : Phases σ α} {y : Nat} {c l x cx p d} (h : EdgeCol Φ y c l x cx)
    (h' : EdgeCol Φ y cx (.eps .none) p d) (φ : Nat → Nat) (hφ : φ x = p) : EdgeCol Φ (φ y) c l p d := by
  have hd : cx.phase = 0 ∧ d.phase = 0 ∧ (cx = .out ↔ d = .out) ∧ (cx = .gate → d = .gate) ∧ (cx = .loop 0 → d = .loop 0) := by
    cases cx <;> simp only [EdgeCol] at h'
    · rw [h'.2]; simp [Col.phase]
    · rcases h' with h' | h'
      · simp at h'
      · rw [h'.2]; simp [Col.phase]
    · rcases h' with h' | h'
      · simp at h'
      · exact ⟨rfl, h'.2.2, by simp [h'.2.1], by simp, by simp⟩
    · rw [h'.2.2, h'.1]; simp [Col.phase]
  obtain ⟨h1, h2, h3, h4, h5⟩ := hd
  cases c <;> cases l <;> simp only [EdgeCol] at h ⊢
  · exact h3.mp h
  · exact ⟨h.1, h3.mp h.2⟩
  · rcases h with h | h
    · exact .inl ⟨h.1, h3.mp h.2⟩
    · exact .inr ⟨h.1, h4 h.2⟩
  · rcases h with h | h
    · exact .inl ⟨h.1, h3.mp h.2⟩
    · exact .inr ⟨h.1, fun hd => h.2.1 (h3.mpr hd), h2⟩
  · refine ⟨fun hd => h.1 (h3.mpr hd), ?_, fun _ => ?_⟩
    · rw [h2, ← h1]; exact h.2.1
    · rw [← h.2.2 h1, hφ]
  · exact ⟨h.1, h.2.1, h5 h.2.2⟩

theorem front_skip1 {Φ : Phases σ α} {N : NFA σ} {x c : Nat} (hx : 1 ≤ x) (hxl : x + 1 < N.length) (hxc : x ≠ c)
    (hs : N[x]? = some ⟨[], [⟨c, .none⟩]⟩) (h : Front Φ N) : Front Φ ((N.redirect x c).clear x) := by
  obtain ⟨col, y, h⟩ := h
  have hxe : EdgeCol Φ y (col x) (.eps .none) c (col c) := h.edge x _ c (by rw [outs_get hs]; simp [State.outs])
  obtain ⟨φ, hφ⟩ : ∃ φ : Nat → Nat, φ = fun q => if q = x then c else q := ⟨_, rfl⟩
  have hcx : ((N.redirect x c).clear x).outs x = [] := by
    have : ((N.redirect x c).clear x)[x]? = some ⟨[], []⟩ := by
      have hlt : x < (N.redirect x c).length := by rw [redirect_length]; omega
      simp [NFA.clear, List.getElem?_eq_getElem hlt]
    rw [outs_get this]; rfl
  have houts : ∀ q, q ≠ x → ((N.redirect x c).clear x).outs q = (N.outs q).map (fun p => (p.1, φ p.2)) := by
    intro q hq
    rw [outs_clear hq, outs_redirect, hφ]
  have hlate : (col c).Late → (col x).Late := by
    intro hl
    cases hcx : col x <;> rw [hcx] at hxe <;> simp only [EdgeCol] at hxe
    · rw [hxe.2] at hl; exact hl
    · rcases hxe with hxe | hxe
      · simp at hxe
      · rw [hxe.2] at hl; exact hl
    · trivial
    · trivial
  have hloop : col x = .loop 0 → col c = .loop 0 := by
    intro hl
    rw [hl] at hxe
    exact hxe.2.2
  refine ⟨col, φ y, h.zero, by rw [clear_length, redirect_length]; exact h.last, ?_, ?_⟩
  · intro q l p he
    by_cases hq : q = x
    · rw [hq, hcx] at he; simp at he
    · rw [houts q hq] at he
      obtain ⟨⟨l1, p1⟩, h1, h2⟩ := List.mem_map.mp he
      simp only [Prod.mk.injEq] at h2
      obtain ⟨rfl, rfl⟩ := h2
      by_cases hp : p1 = x
      · subst hp
        have hφx : φ p1 = c := by rw [hφ]; simp
        rw [hφx]
        exact (h.edge q l1 p1 h1).trans hxe φ hφx
      · have hφp : φ p1 = p1 := by rw [hφ]; simp [hp]
        have := (h.edge q l1 p1 h1).move φ (.inl rfl)
        rw [hφp] at this ⊢
        exact this
  · intro q hq
    by_cases hqx : q = x
    · rw [hqx, hcx]; exact .nil
    · rw [houts q hqx, List.pairwise_map]
      refine (h.order q hq).imp fun {e e'} h1 h2 => ?_
      have h3 : (col e.2).Late := by
        simp only [hφ] at h2
        split at h2
        · rename_i hex; rw [hex]; exact hlate h2
        · exact h2
      have h4 := h1 h3
      simp only [hφ]
      split
      · rename_i hex; rw [hex] at h4; exact hloop h4
      · exact h4

/-! ### Splicing -/

/-- A plain epsilon to `x`, and an epsilon from there. -/
theorem EdgeCol.comp {Φ : Phases σ α} {y : Nat} {c x cx e p d} (h : EdgeCol Φ y c (.eps .none) x cx)
    (h' : EdgeCol Φ y cx (.eps e) p d) : EdgeCol Φ y c (.eps e) p d := by
  cases c <;> simp only [EdgeCol] at h
  · rw [h.2] at h'; exact h'
  · rcases h with h | h
    · simp at h
    · rw [h.2] at h'; exact h'
  · rcases h with h | h
    · simp at h
    · obtain ⟨_, h1, h2⟩ := h
      cases cx <;> simp only [EdgeCol] at h'
      · simp at h1
      · rcases h' with h' | h'
        · exact .inl h'
        · refine .inr ⟨h'.1, ?_⟩
          rw [h'.2]; simp [Col.phase]
      · exact h'
      · refine .inr ⟨h'.2.1, ?_⟩
        rw [h'.2.2]; simp [Col.phase]
  · obtain ⟨h1, _, h2⟩ := h
    rw [h2] at h'
    rw [h1]
    exact h'

theorem front_splice {Φ : Phases σ α} {N : NFA σ} {x a k es} (hx : 1 ≤ x) (hxl : x + 1 < N.length)
    (h : SpliceHyp N x a k es) (hf : Front Φ N) : Front Φ (splice N x a k es) := by
  obtain ⟨col, y, hf⟩ := hf
  have hox : N.outs x = es.map (fun e => (.eps e.special, e.dst)) := by rw [outs_get h.hx]; rfl
  have hcx : (splice N x a k es).outs x = [] := by
    have h1 : (splice N x a k es)[x]? = (N.clear x)[x]? := by
      simp [splice, NFA.clear, h.hax]
    have h2 : (N.clear x)[x]? = some ⟨[], []⟩ := by simp [NFA.clear, h.hx]
    rw [outs_get (h1.trans h2)]; rfl
  have hxin : ∀ {q l}, (l, x) ∈ N.outs q → l = .eps .none := fun hm => (h.into (mem_outs.mp hm)).2
  refine ⟨col, y, hf.zero, by rw [splice_length]; exact hf.last, ?_, ?_⟩
  · intro q l p he
    by_cases hq : q = x
    · rw [hq, hcx] at he; simp at he
    · rw [outs_splice h hq] at he
      obtain ⟨⟨l1, p1⟩, h1, h2⟩ := List.mem_flatMap.mp he
      unfold spliceEdge at h2
      split at h2
      · rename_i hp
        simp only at hp
        subst hp
        obtain rfl := hxin h1
        have h2' := h2
        rw [hox] at h2'
        obtain ⟨e, _, h3⟩ := List.mem_map.mp h2'
        simp only [Prod.mk.injEq] at h3
        obtain ⟨rfl, rfl⟩ := h3
        exact (hf.edge q _ _ h1).comp (hf.edge _ _ _ h2)
      · rw [List.mem_singleton] at h2
        simp only [Prod.mk.injEq] at h2
        obtain ⟨rfl, rfl⟩ := h2
        exact hf.edge q l p h1
  · intro q hq
    by_cases hqx : q = x
    · rw [hqx, hcx]; exact .nil
    · rw [outs_splice h hqx, List.pairwise_flatMap]
      have hlate : ∀ e ∈ N.outs x, (col e.2).Late → (col x).Late := by
        rintro ⟨l, p⟩ he hl
        have h1 := hf.edge x l p he
        rw [hox] at he
        obtain ⟨e, _, h3⟩ := List.mem_map.mp he
        simp only [Prod.mk.injEq] at h3
        obtain ⟨rfl, rfl⟩ := h3
        simp only at hl
        cases hc : col x <;> rw [hc] at h1 <;> simp only [EdgeCol] at h1
        · rw [h1.2] at hl; exact hl
        · rcases h1 with h1 | h1 <;> (rw [h1.2] at hl; exact hl)
        · trivial
        · trivial
      have hloop : col x = .loop 0 → ∀ e ∈ N.outs x, col e.2 = .loop 0 := by
        rintro hl ⟨l, p⟩ he
        have h1 := hf.edge x l p he
        rw [hox] at he
        obtain ⟨e, _, h3⟩ := List.mem_map.mp he
        simp only [Prod.mk.injEq] at h3
        obtain ⟨rfl, rfl⟩ := h3
        rw [hl] at h1
        exact h1.2.2
      constructor
      · rintro ⟨l1, p1⟩ h1
        unfold spliceEdge
        split
        · rename_i hp
          simp only at hp
          subst hp
          obtain rfl := hxin h1
          have hcq := hf.edge q _ _ h1
          rw [hq] at hcq
          rcases hcq with hcq | ⟨_, h3, h4⟩
          · simp at hcq
          · cases hc : col p1 with
            | out => exact absurd hc h3
            | gate =>
              refine List.Pairwise.imp_of_mem (R := fun _ _ => True) ?_ (List.pairwise_of_forall fun _ _ => trivial)
              intro e e' he _ _ hl
              have := hlate e he hl
              rw [hc] at this
              exact this.elim
            | both => exact hf.order p1 hc
            | loop i =>
              rw [hc] at h4
              have h4 : i = 0 := h4
              subst h4
              refine List.Pairwise.imp_of_mem (R := fun _ _ => True) ?_ (List.pairwise_of_forall fun _ _ => trivial)
              intro e e' _ he' _ _
              exact hloop hc e' he'
        · exact List.pairwise_singleton _ _
      · refine (hf.order q hq).imp_of_mem fun {e e'} _ _ h1 => ?_
        intro f hfe f' hfe' hl
        have h2 : (col e.2).Late := by
          unfold spliceEdge at hfe
          split at hfe
          · rename_i hp; rw [hp]; exact hlate f hfe hl
          · rw [List.mem_singleton] at hfe; rw [← hfe]; exact hl
        have h3 := h1 h2
        unfold spliceEdge at hfe'
        split at hfe'
        · rename_i hp; rw [hp] at h3; exact hloop h3 f' hfe'
        · rw [List.mem_singleton] at hfe'; rw [hfe']; exact h3

/-! ### Removing dead states -/

theorem front_dead {Φ : Phases σ α} {N : NFA σ} {ds} (hl : Live N ds) (h0 : ds[0]? = some false)
    (hlast : ds[N.length - 1]? = some false) (hf : Front Φ N) : Front Φ (N.removeDead ds) := by
  obtain ⟨col, y, hf⟩ := hf
  obtain ⟨col', hc⟩ : ∃ col' : Nat → Col, ∀ i, ds[i]? = some false → col' (cnt ds i) = col i := by
    classical
    refine ⟨fun j => if h : ∃ i, ds[i]? = some false ∧ cnt ds i = j then col h.choose else .out, fun i hi => ?_⟩
    have hex : ∃ i', ds[i']? = some false ∧ cnt ds i' = cnt ds i := ⟨i, hi, rfl⟩
    simp only
    rw [dif_pos hex]
    rw [cnt_inj hex.choose_spec.1 hi hex.choose_spec.2]
  have hpos : 0 < N.length := by
    rw [← hl.len]; exact (List.getElem?_eq_some_iff.mp h0).1
  have houts : ∀ j e, e ∈ (N.removeDead ds).outs j → ∃ i, ds[i]? = some false ∧ cnt ds i = j := by
    rintro j ⟨l, p⟩ he
    obtain ⟨i, _, h1, h2, _⟩ := (hasEdge_removeDead hl).mp (mem_outs.mp he)
    exact ⟨i, h1, h2.symm⟩
  refine ⟨col', cnt ds y, ?_, ?_, ?_, ?_⟩
  · have := hc 0 h0
    rw [cnt_zero] at this
    rw [this]; exact hf.zero
  · have h1 : cnt ds (N.length - 1) = (N.removeDead ds).length - 1 := by
      rw [removeDead_length hl.len]; exact cnt_last (by rw [hl.len]; omega) hlast
    rw [← h1, hc _ hlast]; exact hf.last
  · intro q l p he
    obtain ⟨i, hi, rfl⟩ := houts q _ he
    rw [outs_removeDead hl hi] at he
    obtain ⟨⟨l1, p1⟩, h1, h2⟩ := List.mem_map.mp he
    simp only [Prod.mk.injEq] at h2
    obtain ⟨rfl, rfl⟩ := h2
    rw [hc i hi, hc p1 (hl.into _ _ _ (mem_outs.mp h1))]
    exact (hf.edge i l1 p1 h1).move (cnt ds) (.inl rfl)
  · intro q hq
    by_cases hn : (N.removeDead ds).outs q = []
    · rw [hn]; exact .nil
    · obtain ⟨e, he⟩ := List.exists_mem_of_ne_nil _ hn
      obtain ⟨i, hi, rfl⟩ := houts q _ he
      rw [outs_removeDead hl hi, List.pairwise_map]
      rw [hc i hi] at hq
      refine (hf.order i hq).imp_of_mem fun {e e'} h1 h2 h3 => ?_
      rw [hc _ (hl.into _ _ _ (mem_outs.mp h1)), hc _ (hl.into _ _ _ (mem_outs.mp h2))]
      exact h3

/-- The passes keep the colouring. -/
theorem front_stable (Φ : Phases σ α) : Stable α (Front Φ) where
  merge := fun _ _ h1 h2 h3 h4 h5 h6 h7 h => front_merge h1 h2 h3 h4 h5 h6 h7 h
  dedupe := fun _ ⟨col, y, h⟩ => ⟨col, y, h.sub dedupe_length fun q => (dup_outs _ q).sublist⟩
  skip1 := fun _ _ h1 h2 h3 h4 h => front_skip1 h1 h2 h3 h4 h
  splice := fun _ _ h1 h2 h3 h => front_splice h1 h2 h3 h
  dead := fun h1 h2 h3 h => front_dead h1 h2 h3 h
  trim := fun _ _ ⟨col, y, h⟩ => ⟨col, y, h.filter _ _⟩

end Ere
