import Verif.Spec.Captures
import Verif.Proofs.TreeSem

/-! Runs of trees and the captures of patterns. -/

namespace Ere

/-- Matches of a tree with the stretches matched by its groups. -/
inductive Tree.Sp : Tree → List Char → List Char → List Char → List Span → Prop
  | empty {pre post} : Sp .empty pre [] post []
  | symbol {a c pre post} : a.check c = true → Sp (.symbol a) pre [c] post []
  | union {ts t pre mid post S} : t ∈ ts → Sp t pre mid post S → Sp (.union ts) pre mid post S
  | capture {t g pre mid post S} : Sp t pre mid post S →
      Sp (.capture t g) pre mid post (S ++ [⟨g, byteLen pre, byteLen (pre ++ mid)⟩])
  | concatNil {pre post} : Sp (.concat []) pre [] post []
  | concatCons {t ts pre m1 m2 post S1 S2} : Sp t pre m1 (m2 ++ post) S1 →
      Sp (.concat ts) (pre ++ m1) m2 post S2 → Sp (.concat (t :: ts)) pre (m1 ++ m2) post (S1 ++ S2)
  | repOne {t pre mid post S} : Sp t pre mid post S → Sp (.rep t 0) pre mid post S
  | repSucc {t n pre m1 m2 post S1 S2} : Sp t pre m1 (m2 ++ post) S1 →
      Sp (.rep t n) (pre ++ m1) m2 post S2 → Sp (.rep t (n + 1)) pre (m1 ++ m2) post (S1 ++ S2)
  | upToNone {t n l pre post} : Sp (.upTo t n l) pre [] post []
  | upToLast {t l pre mid post S} : Sp t pre mid post S → Sp (.upTo t 0 l) pre mid post S
  | upToSucc {t n l pre m1 m2 post S1 S2} : Sp t pre m1 (m2 ++ post) S1 →
      Sp (.upTo t n l) (pre ++ m1) m2 post S2 → Sp (.upTo t (n + 1) l) pre (m1 ++ m2) post (S1 ++ S2)
  | starNil {t l pre post} : Sp (.star t l) pre [] post []
  | starCons {t l pre m1 m2 post S1 S2} : Sp t pre m1 (m2 ++ post) S1 →
      Sp (.star t l) (pre ++ m1) m2 post S2 → Sp (.star t l) pre (m1 ++ m2) post (S1 ++ S2)
  | start {post} : Sp .start [] [] post []
  | end_ {pre} : Sp .end_ pre [] [] []

/-! ### Event logs and stretches -/

/-- A balanced event log and the stretches it describes. -/
inductive Reads : Caps → List Span → Prop
  | nil : Reads [] []
  | append {L1 L2 S1 S2} : Reads L1 S1 → Reads L2 S2 → Reads (L1 ++ L2) (S1 ++ S2)
  | group {L S g i j} : Reads L S → (∀ s ∈ S, s.group ≠ g) →
      Reads (.opened g i :: (L ++ [.closed g j])) (S ++ [⟨g, i, j⟩])

namespace Tree

/-- No group contains a group with its own number. -/
inductive GOk : Tree → Prop
  | empty : GOk .empty
  | symbol {a} : GOk (.symbol a)
  | union {ts} : (∀ t ∈ ts, GOk t) → GOk (.union ts)
  | capture {t g} : GOk t → (∀ pre mid post S, t.Sp pre mid post S → ∀ s ∈ S, s.group ≠ g) →
      GOk (.capture t g)
  | concat {ts} : (∀ t ∈ ts, GOk t) → GOk (.concat ts)
  | rep {t n} : GOk t → GOk (.rep t n)
  | upTo {t n l} : GOk t → GOk (.upTo t n l)
  | star {t l} : GOk t → GOk (.star t l)
  | start : GOk .start
  | end_ : GOk .end_
  | never : GOk .never

theorem GOk.cons {t ts} (h : GOk (.concat (t :: ts))) : GOk t ∧ GOk (.concat ts) := by
  cases h with | concat h => exact ⟨h _ (by simp), .concat fun u hu => h u (by simp [hu])⟩

theorem run_sp {t : Tree} {d d' : Cfg Char} (h : t.Run d d') (hg : t.GOk) :
    ∀ pre, d.off = byteLen pre → ∃ mid S L, d.rest = mid ++ d'.rest ∧ d'.off = byteLen (pre ++ mid) ∧
      d'.caps = d.caps ++ L ∧ Reads L S ∧ t.Sp pre mid d'.rest S := by
  have seq : ∀ {t u w : Tree} {d d1 d' : Cfg Char},
      (∀ {pre m1 m2 post S1 S2}, t.Sp pre m1 (m2 ++ post) S1 → u.Sp (pre ++ m1) m2 post S2 →
        w.Sp pre (m1 ++ m2) post (S1 ++ S2)) →
      (∀ pre, d.off = byteLen pre → ∃ mid S L, d.rest = mid ++ d1.rest ∧ d1.off = byteLen (pre ++ mid) ∧
        d1.caps = d.caps ++ L ∧ Reads L S ∧ t.Sp pre mid d1.rest S) →
      (∀ pre, d1.off = byteLen pre → ∃ mid S L, d1.rest = mid ++ d'.rest ∧ d'.off = byteLen (pre ++ mid) ∧
        d'.caps = d1.caps ++ L ∧ Reads L S ∧ u.Sp pre mid d'.rest S) →
      ∀ pre, d.off = byteLen pre → ∃ mid S L, d.rest = mid ++ d'.rest ∧ d'.off = byteLen (pre ++ mid) ∧
        d'.caps = d.caps ++ L ∧ Reads L S ∧ w.Sp pre mid d'.rest S := by
    intro t u w d d1 d' hw h1 h2 pre hp
    obtain ⟨m1, S1, L1, a1, a2, a3, a4, a5⟩ := h1 pre hp
    obtain ⟨m2, S2, L2, b1, b2, b3, b4, b5⟩ := h2 (pre ++ m1) a2
    refine ⟨m1 ++ m2, S1 ++ S2, L1 ++ L2, by rw [a1, b1, List.append_assoc], by rw [b2, List.append_assoc],
      by rw [b3, a3, List.append_assoc], .append a4 b4, hw ?_ b5⟩
    rw [← b1]; exact a5
  have skip : ∀ {w : Tree} {d : Cfg Char}, (∀ pre, d.off = byteLen pre → w.Sp pre [] d.rest []) →
      ∀ pre, d.off = byteLen pre → ∃ mid S L, d.rest = mid ++ d.rest ∧ d.off = byteLen (pre ++ mid) ∧
        d.caps = d.caps ++ L ∧ Reads L S ∧ w.Sp pre mid d.rest S :=
    fun hw pre hp => ⟨[], [], [], rfl, by simpa using hp, by simp, .nil, hw pre hp⟩
  have one : ∀ {t w : Tree} {d d' : Cfg Char},
      (∀ {pre mid post S}, t.Sp pre mid post S → w.Sp pre mid post S) →
      (∀ pre, d.off = byteLen pre → ∃ mid S L, d.rest = mid ++ d'.rest ∧ d'.off = byteLen (pre ++ mid) ∧
        d'.caps = d.caps ++ L ∧ Reads L S ∧ t.Sp pre mid d'.rest S) →
      ∀ pre, d.off = byteLen pre → ∃ mid S L, d.rest = mid ++ d'.rest ∧ d'.off = byteLen (pre ++ mid) ∧
        d'.caps = d.caps ++ L ∧ Reads L S ∧ w.Sp pre mid d'.rest S := by
    intro t w d d' hw h pre hp
    obtain ⟨mid, S, L, h1, h2, h3, h4, h5⟩ := h pre hp
    exact ⟨mid, S, L, h1, h2, h3, h4, hw h5⟩
  induction h with
  | empty => exact skip fun _ _ => .empty
  | @symbol a c off rest caps hc =>
    intro pre hp
    refine ⟨[c], [], [], rfl, ?_, by simp, .nil, .symbol hc⟩
    simp only at hp ⊢
    rw [byteLen_append, ← hp]; simp [byteLen]
  | union ht _ ih => cases hg with | union hg => exact one (fun h => .union ht h) (ih (hg _ ht))
  | @capture t g d d' _ ih =>
    intro pre hp
    cases hg with
    | capture hg1 hg2 =>
    obtain ⟨mid, S, L, h1, h2, h3, h4, h5⟩ := ih hg1 pre hp
    refine ⟨mid, _, _, h1, h2, ?_, .group h4 (hg2 _ _ _ _ h5) (g := g) (i := d.off) (j := d'.off), ?_⟩
    · simp only at h3 ⊢
      rw [h3]; simp [Caps.setStart, Caps.setEnd]
    · rw [hp, h2]; exact .capture h5
  | concatNil => exact skip fun _ _ => .concatNil
  | concatCons _ _ ih1 ih2 => exact seq .concatCons (ih1 hg.cons.1) (ih2 hg.cons.2)
  | repOne _ ih => cases hg with | rep hg => exact one .repOne (ih hg)
  | repSucc _ _ ih1 ih2 => cases hg with | rep hg => exact seq .repSucc (ih1 hg) (ih2 (.rep hg))
  | upToNone => exact skip fun _ _ => .upToNone
  | upToLast _ ih => cases hg with | upTo hg => exact one .upToLast (ih hg)
  | upToSucc _ _ ih1 ih2 => cases hg with | upTo hg => exact seq .upToSucc (ih1 hg) (ih2 (.upTo hg))
  | starNil => exact skip fun _ _ => .starNil
  | starCons _ _ ih1 ih2 => cases hg with | star hg => exact seq .starCons (ih1 hg) (ih2 (.star hg))
  | start =>
    refine skip fun pre hp => ?_
    have : pre = [] := byteLen_eq_zero.mp hp.symm
    subst this; exact .start
  | end_ => exact skip fun _ _ => .end_

theorem sp_run {t : Tree} {pre mid post S} (h : t.Sp pre mid post S) (hg : t.GOk) :
    ∀ c : Caps, ∃ L, Reads L S ∧
      t.Run ⟨byteLen pre, mid ++ post, c⟩ ⟨byteLen (pre ++ mid), post, c ++ L⟩ := by
  have seq : ∀ {t u w : Tree} {pre m1 m2 post S1 S2},
      (∀ {d d1 d'}, t.Run d d1 → u.Run d1 d' → w.Run d d') →
      (∀ c : Caps, ∃ L, Reads L S1 ∧ t.Run ⟨byteLen pre, m1 ++ (m2 ++ post), c⟩
        ⟨byteLen (pre ++ m1), m2 ++ post, c ++ L⟩) →
      (∀ c : Caps, ∃ L, Reads L S2 ∧ u.Run ⟨byteLen (pre ++ m1), m2 ++ post, c⟩
        ⟨byteLen (pre ++ m1 ++ m2), post, c ++ L⟩) →
      ∀ c : Caps, ∃ L, Reads L (S1 ++ S2) ∧ w.Run ⟨byteLen pre, (m1 ++ m2) ++ post, c⟩
        ⟨byteLen (pre ++ (m1 ++ m2)), post, c ++ L⟩ := by
    intro t u w pre m1 m2 post S1 S2 hw h1 h2 c
    obtain ⟨L1, r1, a1⟩ := h1 c
    obtain ⟨L2, r2, a2⟩ := h2 (c ++ L1)
    refine ⟨L1 ++ L2, .append r1 r2, ?_⟩
    rw [← List.append_assoc c, ← List.append_assoc pre, List.append_assoc m1]
    exact hw a1 a2
  have skip : ∀ {w : Tree} {pre post}, (∀ c : Caps, w.Run ⟨byteLen pre, post, c⟩ ⟨byteLen pre, post, c⟩) →
      ∀ c : Caps, ∃ L, Reads L [] ∧ w.Run ⟨byteLen pre, [] ++ post, c⟩ ⟨byteLen (pre ++ []), post, c ++ L⟩ :=
    fun hw c => ⟨[], .nil, by simpa using hw c⟩
  induction h with
  | empty => exact skip fun _ => .empty
  | symbol hc =>
    intro c
    refine ⟨[], .nil, ?_⟩
    rw [byteLen_append]
    simpa [byteLen] using Run.symbol hc
  | union ht _ ih =>
    cases hg with | union hg =>
    intro c; obtain ⟨L, r, h⟩ := ih (hg _ ht) c; exact ⟨L, r, .union ht h⟩
  | @capture t g pre mid post S hs ih =>
    intro c
    cases hg with
    | capture hg1 hg2 =>
    obtain ⟨L, r, h⟩ := ih hg1 (Caps.setStart c g (byteLen pre))
    refine ⟨_, .group r (hg2 _ _ _ _ hs), ?_⟩
    have := Run.capture (g := g) (d := ⟨byteLen pre, mid ++ post, c⟩) h
    simpa [Caps.setStart, Caps.setEnd] using this
  | concatNil => exact skip fun _ => .concatNil
  | concatCons _ _ ih1 ih2 => exact seq .concatCons (ih1 hg.cons.1) (ih2 hg.cons.2)
  | repOne _ ih =>
    cases hg with | rep hg =>
    intro c; obtain ⟨L, r, h⟩ := ih hg c; exact ⟨L, r, .repOne h⟩
  | repSucc _ _ ih1 ih2 => cases hg with | rep hg => exact seq .repSucc (ih1 hg) (ih2 (.rep hg))
  | upToNone => exact skip fun _ => .upToNone
  | upToLast _ ih =>
    cases hg with | upTo hg =>
    intro c; obtain ⟨L, r, h⟩ := ih hg c; exact ⟨L, r, .upToLast h⟩
  | upToSucc _ _ ih1 ih2 => cases hg with | upTo hg => exact seq .upToSucc (ih1 hg) (ih2 (.upTo hg))
  | starNil => exact skip fun _ => .starNil
  | starCons _ _ ih1 ih2 => cases hg with | star hg => exact seq .starCons (ih1 hg) (ih2 (.star hg))
  | start => exact skip (pre := []) fun _ => .start
  | end_ => exact skip (post := []) fun _ => .end_

/-! ### Trees of patterns -/

/-- `n` consecutive matches. -/
inductive SpTimes (t : Tree) : Nat → List Char → List Char → List Char → List Span → Prop
  | zero {pre post} : SpTimes t 0 pre [] post []
  | succ {n pre m1 m2 post S1 S2} : t.Sp pre m1 (m2 ++ post) S1 →
      SpTimes t n (pre ++ m1) m2 post S2 → SpTimes t (n + 1) pre (m1 ++ m2) post (S1 ++ S2)

theorem spTimes_one {t : Tree} {pre mid post S} : t.SpTimes 1 pre mid post S ↔ t.Sp pre mid post S := by
  constructor
  · intro h
    cases h with | succ h1 h2 => cases h2; simpa using h1
  · intro h
    have := SpTimes.succ (t := t) (pre := pre) (m1 := mid) (m2 := []) (post := post) (by simpa using h) .zero
    simpa using this

theorem spTimes_add {t : Tree} {a b pre mid post S} : t.SpTimes (a + b) pre mid post S ↔
    ∃ m1 m2 S1 S2, mid = m1 ++ m2 ∧ S = S1 ++ S2 ∧ t.SpTimes a pre m1 (m2 ++ post) S1 ∧
      t.SpTimes b (pre ++ m1) m2 post S2 := by
  induction a generalizing pre mid S with
  | zero =>
    simp only [Nat.zero_add]
    constructor
    · intro h; exact ⟨[], mid, [], S, rfl, rfl, .zero, by simpa using h⟩
    · rintro ⟨m1, m2, S1, S2, rfl, rfl, h1, h2⟩; cases h1; simpa using h2
  | succ a ih =>
    rw [Nat.succ_add]
    constructor
    · intro h
      cases h with
      | succ h1 h2 =>
        obtain ⟨m2, m3, S2, S3, rfl, rfl, h3, h4⟩ := ih.mp h2
        exact ⟨_, m3, _, S3, (List.append_assoc ..).symm, (List.append_assoc ..).symm,
          .succ (by simpa using h1) h3, by simpa using h4⟩
    · rintro ⟨m1, m2, S1, S2, rfl, rfl, h1, h2⟩
      cases h1 with
      | succ h1 h3 =>
        rw [List.append_assoc, List.append_assoc]
        exact .succ (by simpa using h1) (ih.mpr ⟨_, _, _, _, rfl, rfl, h3, by simpa using h2⟩)

theorem sp_empty {pre mid post S} : Tree.empty.Sp pre mid post S ↔ mid = [] ∧ S = [] :=
  ⟨fun h => by cases h; exact ⟨rfl, rfl⟩, fun ⟨h1, h2⟩ => by subst h1 h2; exact .empty⟩

theorem sp_concat_nil {pre mid post S} : (Tree.concat []).Sp pre mid post S ↔ mid = [] ∧ S = [] :=
  ⟨fun h => by cases h; exact ⟨rfl, rfl⟩, fun ⟨h1, h2⟩ => by subst h1 h2; exact .concatNil⟩

theorem sp_concat_cons {t ts pre mid post S} : (Tree.concat (t :: ts)).Sp pre mid post S ↔
    ∃ m1 m2 S1 S2, mid = m1 ++ m2 ∧ S = S1 ++ S2 ∧ t.Sp pre m1 (m2 ++ post) S1 ∧
      (Tree.concat ts).Sp (pre ++ m1) m2 post S2 := by
  constructor
  · intro h; cases h with | concatCons h1 h2 => exact ⟨_, _, _, _, rfl, rfl, h1, h2⟩
  · rintro ⟨m1, m2, S1, S2, rfl, rfl, h1, h2⟩; exact .concatCons h1 h2

theorem sp_concat_append (ts us) {pre mid post S} :
    (Tree.concat (ts ++ us)).Sp pre mid post S ↔
      ∃ m1 m2 S1 S2, mid = m1 ++ m2 ∧ S = S1 ++ S2 ∧ (Tree.concat ts).Sp pre m1 (m2 ++ post) S1 ∧
        (Tree.concat us).Sp (pre ++ m1) m2 post S2 := by
  induction ts generalizing pre mid S with
  | nil =>
    simp only [List.nil_append, sp_concat_nil]
    constructor
    · intro h; exact ⟨[], mid, [], S, rfl, rfl, ⟨rfl, rfl⟩, by simpa using h⟩
    · rintro ⟨m1, m2, S1, S2, rfl, rfl, ⟨rfl, rfl⟩, h⟩; simpa using h
  | cons t ts ih =>
    simp only [List.cons_append, sp_concat_cons, ih]
    constructor
    · rintro ⟨m1, _, S1, _, rfl, rfl, h1, m2, m3, S2, S3, rfl, rfl, h2, h3⟩
      exact ⟨m1 ++ m2, m3, S1 ++ S2, S3, by simp, by simp,
        ⟨m1, m2, S1, S2, rfl, rfl, by simpa using h1, h2⟩, by simpa using h3⟩
    · rintro ⟨_, m3, _, S3, rfl, rfl, ⟨m1, m2, S1, S2, rfl, rfl, h1, h2⟩, h3⟩
      exact ⟨m1, m2 ++ m3, S1, S2 ++ S3, by simp, by simp, by simpa using h1,
        m2, m3, S2, S3, rfl, rfl, h2, by simpa using h3⟩

theorem sp_concat_one {t pre mid post S} :
    (Tree.concat [t]).Sp pre mid post S ↔ t.Sp pre mid post S := by
  rw [sp_concat_cons]
  simp only [sp_concat_nil]
  constructor
  · rintro ⟨m1, m2, S1, S2, rfl, rfl, h, rfl, rfl⟩; simpa using h
  · intro h; exact ⟨mid, [], S, [], by simp, by simp, by simpa using h, rfl, rfl⟩

theorem sp_concat' {t u : Tree} {pre mid post S} :
    (t.concat' u).Sp pre mid post S ↔
      ∃ m1 m2 S1 S2, mid = m1 ++ m2 ∧ S = S1 ++ S2 ∧ t.Sp pre m1 (m2 ++ post) S1 ∧
        u.Sp (pre ++ m1) m2 post S2 := by
  unfold concat'
  split
  · rw [sp_concat_append]; simp only [sp_concat_one]
  · rw [sp_concat_cons]; simp only [sp_concat_one]

theorem sp_repeat {t : Tree} {n pre mid post S} :
    (t.repeat' n).Sp pre mid post S ↔ t.SpTimes n pre mid post S := by
  cases n with
  | zero =>
    rw [repeat', sp_empty]
    constructor
    · rintro ⟨rfl, rfl⟩; exact .zero
    · intro h; cases h; exact ⟨rfl, rfl⟩
  | succ n =>
    rw [repeat']
    induction n generalizing pre mid S with
    | zero =>
      rw [spTimes_one]
      exact ⟨fun h => by cases h; assumption, fun h => .repOne h⟩
    | succ n ih =>
      constructor
      · intro h; cases h with | repSucc h1 h2 => exact .succ h1 (ih.mp h2)
      · intro h; cases h with | succ h1 h2 => exact .repSucc h1 (ih.mpr h2)

theorem sp_upto {t : Tree} {n l pre mid post S} :
    (t.upto' n l).Sp pre mid post S ↔ ∃ k, k ≤ n ∧ t.SpTimes k pre mid post S := by
  cases n with
  | zero =>
    rw [upto', sp_empty]
    constructor
    · rintro ⟨rfl, rfl⟩; exact ⟨0, by omega, .zero⟩
    · rintro ⟨k, hk, h⟩
      have : k = 0 := by omega
      subst this; cases h; exact ⟨rfl, rfl⟩
  | succ n =>
    rw [upto']
    induction n generalizing pre mid S with
    | zero =>
      constructor
      · intro h
        cases h with
        | upToNone => exact ⟨0, by omega, .zero⟩
        | upToLast h => exact ⟨1, by omega, spTimes_one.mpr h⟩
      · rintro ⟨k, hk, h⟩
        rcases (by omega : k = 0 ∨ k = 1) with rfl | rfl
        · cases h; exact .upToNone
        · exact .upToLast (spTimes_one.mp h)
    | succ n ih =>
      constructor
      · intro h
        cases h with
        | upToNone => exact ⟨0, by omega, .zero⟩
        | upToSucc h1 h2 => obtain ⟨k, hk, h⟩ := ih.mp h2; exact ⟨k + 1, by omega, .succ h1 h⟩
      · rintro ⟨k, hk, h⟩
        cases h with
        | zero => exact .upToNone
        | succ h1 h2 => exact .upToSucc h1 (ih.mpr ⟨_, by omega, h2⟩)

theorem sp_star {t l pre mid post S} :
    (Tree.star t l).Sp pre mid post S ↔ ∃ n, t.SpTimes n pre mid post S := by
  constructor
  · intro h
    generalize he : Tree.star t l = s at h
    induction h <;> simp only [reduceCtorEq, Tree.star.injEq] at he
    · exact ⟨0, .zero⟩
    · rename_i h1 h2 _ ih
      obtain ⟨n, hn⟩ := ih (by simp [he])
      obtain ⟨rfl, rfl⟩ := he
      exact ⟨n + 1, .succ h1 hn⟩
  · rintro ⟨n, h⟩
    induction h with
    | zero => exact .starNil
    | succ h1 _ ih => exact .starCons h1 ih

theorem sp_applyQuantifier {t : Tree} {q : Quantifier} {pre mid post S} :
    (t.applyQuantifier q).Sp pre mid post S ↔
      ∃ n, q.q.min ≤ n ∧ (∀ m, q.q.max = some m → n ≤ m) ∧ t.SpTimes n pre mid post S := by
  obtain ⟨q, alt⟩ := q
  unfold applyQuantifier
  cases q with
  | star => simp [sp_star, QType.min, QType.max]
  | plus =>
    simp only [sp_concat', sp_star, QType.min, QType.max]
    constructor
    · rintro ⟨m1, m2, S1, S2, rfl, rfl, h1, n, h2⟩; exact ⟨n + 1, by omega, by simp, .succ h1 h2⟩
    · rintro ⟨n, hn, -, h⟩
      cases h with
      | zero => omega
      | succ h1 h2 => exact ⟨_, _, _, _, rfl, rfl, h1, _, h2⟩
  | question =>
    simp only [optional', sp_upto, QType.min, QType.max]
    simp
  | multiple n =>
    simp only [sp_repeat, QType.min, QType.max]
    constructor
    · intro h; exact ⟨n, by omega, by simp, h⟩
    · rintro ⟨k, h1, h2, h⟩
      have := h2 n rfl
      have : k = n := by omega
      subst this; exact h
  | range n m =>
    cases m with
    | none =>
      simp only [sp_concat', sp_star, sp_repeat, QType.min, QType.max]
      constructor
      · rintro ⟨m1, m2, S1, S2, rfl, rfl, h1, k, h2⟩
        exact ⟨n + k, by omega, by simp, spTimes_add.mpr ⟨m1, m2, S1, S2, rfl, rfl, h1, h2⟩⟩
      · rintro ⟨k, hk, -, h⟩
        obtain ⟨j, rfl⟩ : ∃ j, k = n + j := ⟨k - n, by omega⟩
        obtain ⟨m1, m2, S1, S2, h0, h0', h1, h2⟩ := spTimes_add.mp h
        exact ⟨m1, m2, S1, S2, h0, h0', h1, j, h2⟩
    | some m =>
      simp only [QType.min, QType.max, Option.some.injEq, forall_eq']
      split
      · constructor
        · intro h; cases h
        · rintro ⟨k, h1, h2, _⟩; omega
      · split
        · rw [sp_repeat]
          constructor
          · intro h; exact ⟨n, by omega, by omega, h⟩
          · rintro ⟨k, h1, h2, h⟩
            have : k = n := by omega
            subst this; exact h
        · simp only [sp_concat', sp_repeat, sp_upto]
          constructor
          · rintro ⟨m1, m2, S1, S2, rfl, rfl, h1, k, hk, h2⟩
            exact ⟨n + k, by omega, by omega, spTimes_add.mpr ⟨m1, m2, S1, S2, rfl, rfl, h1, h2⟩⟩
          · rintro ⟨k, hk, hm, h⟩
            obtain ⟨j, rfl⟩ : ∃ j, k = n + j := ⟨k - n, by omega⟩
            obtain ⟨m1, m2, S1, S2, h0, h0', h1, h2⟩ := spTimes_add.mp h
            exact ⟨m1, m2, S1, S2, h0, h0', h1, j, by omega, h2⟩

theorem spTimes_expr {e : EREExpr} {g} {t : Tree}
    (h : ∀ pre mid post S, t.Sp pre mid post S ↔ CapExpr e g pre mid post S) {n pre mid post S} :
    t.SpTimes n pre mid post S ↔ CapTimes e n g pre mid post S := by
  constructor
  · intro hs
    induction hs with
    | zero => exact .zero
    | succ h1 _ ih => exact .succ ((h _ _ _ _).mp h1) ih
  · intro hs
    induction n generalizing pre mid S with
    | zero => cases hs; exact .zero
    | succ n ih => cases hs with | succ h1 h2 => exact .succ ((h _ _ _ _).mpr h1) (ih h2)

/-! The group counter moves by the number of parentheses. -/
mutual
theorem count_sub : (e : ERE) → ∀ g, (fromSubERE e g).2 = g + e.groups
  | .mk bs => by intro g; rw [fromSubERE, ERE.groups]; exact count_branches bs g
theorem count_branches : (bs : List EREBranch) → ∀ g, (fromBranches bs g).2 = g + groupsBranches bs
  | [] => by intro g; simp [fromBranches, groupsBranches]
  | b :: bs => by
    intro g
    rw [fromBranches, groupsBranches]
    simp only
    rw [count_branches bs, count_branch b]; omega
theorem count_branch : (b : EREBranch) → ∀ g, (fromBranch b g).2 = g + b.groups
  | .mk ps => by intro g; rw [fromBranch, EREBranch.groups]; exact count_parts ps g
theorem count_parts : (ps : List EREPart) → ∀ g, (fromParts ps g).2 = g + groupsParts ps
  | [] => by intro g; simp [fromParts, groupsParts]
  | p :: ps => by
    intro g
    rw [fromParts, groupsParts]
    simp only
    rw [count_parts ps, count_part p]; omega
theorem count_part : (p : EREPart) → ∀ g, (fromPart p g).2 = g + p.groups
  | .single e => by intro g; rw [fromPart, EREPart.groups]; exact count_expr e g
  | .quantified e _ => by intro g; rw [fromPart, EREPart.groups]; exact count_expr e g
  | .start => by intro g; simp [fromPart, EREPart.groups]
  | .end_ => by intro g; simp [fromPart, EREPart.groups]
theorem count_expr : (e : EREExpr) → ∀ g, (fromExpr e g).2 = g + e.groups
  | .atom _ => by intro g; simp [fromExpr, EREExpr.groups]
  | .sub e => by intro g; rw [fromExpr, EREExpr.groups]; simp only; rw [count_sub e]; omega
end

mutual
theorem sp_sub : (e : ERE) → ∀ g pre mid post S,
    (fromSubERE e g).1.Sp pre mid post S ↔ CapERE e g pre mid post S
  | .mk bs => by
    intro g pre mid post S
    rw [fromSubERE]
    have h := sp_branches bs g pre mid post S
    constructor
    · intro hh
      cases hh with
      | union ht hs =>
        obtain ⟨bs1, b, bs2, e, hb⟩ := h.mp ⟨_, ht, hs⟩
        exact .intro e hb
    · intro hh
      cases hh with
      | intro e hb =>
        obtain ⟨t, ht, hs⟩ := h.mpr ⟨_, _, _, e, hb⟩
        exact .union ht hs
theorem sp_branches : (bs : List EREBranch) → ∀ g pre mid post S,
    (∃ t ∈ (fromBranches bs g).1, t.Sp pre mid post S) ↔
      ∃ bs1 b bs2, bs = bs1 ++ b :: bs2 ∧ CapBranch b (g + groupsBranches bs1) pre mid post S
  | [] => by intro g pre mid post S; simp [fromBranches]
  | b :: bs => by
    intro g pre mid post S
    rw [fromBranches]
    simp only [List.mem_cons, exists_eq_or_imp]
    rw [sp_branch b, sp_branches bs, count_branch]
    constructor
    · rintro (h | ⟨bs1, b', bs2, rfl, h⟩)
      · exact ⟨[], b, bs, rfl, by simpa [groupsBranches] using h⟩
      · refine ⟨b :: bs1, b', bs2, rfl, ?_⟩
        rw [groupsBranches, ← Nat.add_assoc]; exact h
    · rintro ⟨bs1, b', bs2, he, h⟩
      cases bs1 with
      | nil =>
        simp only [List.nil_append, List.cons.injEq] at he
        obtain ⟨rfl, rfl⟩ := he
        exact Or.inl (by simpa [groupsBranches] using h)
      | cons x bs1 =>
        simp only [List.cons_append, List.cons.injEq] at he
        obtain ⟨rfl, rfl⟩ := he
        refine Or.inr ⟨bs1, b', bs2, rfl, ?_⟩
        rw [groupsBranches, ← Nat.add_assoc] at h; exact h
theorem sp_branch : (b : EREBranch) → ∀ g pre mid post S,
    (fromBranch b g).1.Sp pre mid post S ↔ CapBranch b g pre mid post S
  | .mk ps => by
    intro g pre mid post S
    rw [fromBranch]
    exact sp_parts ps g pre mid post S
theorem sp_parts : (ps : List EREPart) → ∀ g pre mid post S,
    (Tree.concat (fromParts ps g).1).Sp pre mid post S ↔ CapBranch (.mk ps) g pre mid post S
  | [] => by
    intro g pre mid post S
    rw [fromParts, sp_concat_nil]
    constructor
    · rintro ⟨rfl, rfl⟩; exact .nil
    · intro h; cases h; exact ⟨rfl, rfl⟩
  | p :: ps => by
    intro g pre mid post S
    rw [fromParts]
    simp only
    rw [sp_concat_cons]
    simp only [sp_part p, sp_parts ps, count_part]
    constructor
    · rintro ⟨m1, m2, S1, S2, rfl, rfl, h1, h2⟩; exact .cons h1 h2
    · intro h; cases h with | cons h1 h2 => exact ⟨_, _, _, _, rfl, rfl, h1, h2⟩
theorem sp_part : (p : EREPart) → ∀ g pre mid post S,
    (fromPart p g).1.Sp pre mid post S ↔ CapPart p g pre mid post S
  | .single e => by
    intro g pre mid post S
    rw [fromPart, sp_expr e]
    constructor
    · intro h; exact .single h
    · intro h; cases h; assumption
  | .quantified e q => by
    intro g pre mid post S
    rw [fromPart]
    simp only [sp_applyQuantifier, spTimes_expr (sp_expr e g)]
    constructor
    · rintro ⟨n, h1, h2, h3⟩; exact .quantified h1 h2 h3
    · intro h; cases h with | quantified h1 h2 h3 => exact ⟨_, h1, h2, h3⟩
  | .start => by
    intro g pre mid post S
    rw [fromPart]
    constructor
    · intro h; cases h; exact .start
    · intro h; cases h; exact .start
  | .end_ => by
    intro g pre mid post S
    rw [fromPart]
    constructor
    · intro h; cases h; exact .end_
    · intro h; cases h; exact .end_
theorem sp_expr : (e : EREExpr) → ∀ g pre mid post S,
    (fromExpr e g).1.Sp pre mid post S ↔ CapExpr e g pre mid post S
  | .atom a => by
    intro g pre mid post S
    rw [fromExpr]
    constructor
    · intro h; cases h with | symbol h => exact .atom h
    · intro h; cases h with | atom h => exact .symbol h
  | .sub e => by
    intro g pre mid post S
    rw [fromExpr]
    constructor
    · intro h; cases h with | capture h => exact .sub ((sp_sub e _ _ _ _ _).mp h)
    · intro h; cases h with | sub h => exact .capture ((sp_sub e _ _ _ _ _).mpr h)
end

/-! ### Group numbers -/

theorem gok_concat' {t u : Tree} (ht : t.GOk) (hu : u.GOk) : (t.concat' u).GOk := by
  unfold concat'
  split
  · cases ht with
    | concat ht =>
      refine .concat fun x hx => ?_
      rcases List.mem_append.mp hx with h | h
      · exact ht x h
      · simp at h; subst h; exact hu
  · refine .concat fun x hx => ?_
    simp only [List.mem_cons, List.not_mem_nil, or_false] at hx
    rcases hx with rfl | rfl
    · exact ht
    · exact hu

theorem gok_repeat {t : Tree} (ht : t.GOk) (n) : (t.repeat' n).GOk := by
  cases n with
  | zero => exact .empty
  | succ n => exact .rep ht

theorem gok_upto {t : Tree} (ht : t.GOk) (n l) : (t.upto' n l).GOk := by
  cases n with
  | zero => exact .empty
  | succ n => exact .upTo ht

theorem gok_applyQuantifier {t : Tree} (ht : t.GOk) (q : Quantifier) : (t.applyQuantifier q).GOk := by
  obtain ⟨q, alt⟩ := q
  unfold applyQuantifier
  cases q with
  | star => exact .star ht
  | plus => exact gok_concat' ht (.star ht)
  | question => exact gok_upto ht _ _
  | multiple n => exact gok_repeat ht _
  | range n m =>
    cases m with
    | none => exact gok_concat' (gok_repeat ht _) (.star ht)
    | some m =>
      simp only
      split
      · exact .never
      · split
        · exact gok_repeat ht _
        · exact gok_concat' (gok_repeat ht _) (gok_upto ht _ _)

/-- The stretches lie where they should, with group numbers in the right range. -/
def SpansIn (g n : Nat) (pre mid : List Char) (S : List Span) : Prop :=
  ∀ s ∈ S, g ≤ s.group ∧ s.group < g + n ∧ ∃ m1 m2 m3, mid = m1 ++ m2 ++ m3 ∧
    s.lo = byteLen (pre ++ m1) ∧ s.hi = byteLen (pre ++ m1 ++ m2)

theorem spansIn_nil {g n pre mid} : SpansIn g n pre mid [] := by simp [SpansIn]

theorem SpansIn.mono {g n g' n' pre mid S} (h : SpansIn g n pre mid S) (h1 : g' ≤ g)
    (h2 : g + n ≤ g' + n') : SpansIn g' n' pre mid S := by
  intro s hs
  obtain ⟨a, b, c⟩ := h s hs
  exact ⟨by omega, by omega, c⟩

theorem SpansIn.append {g n pre m1 m2 S1 S2} (h1 : SpansIn g n pre m1 S1)
    (h2 : SpansIn g n (pre ++ m1) m2 S2) : SpansIn g n pre (m1 ++ m2) (S1 ++ S2) := by
  intro s hs
  rcases List.mem_append.mp hs with h | h
  · obtain ⟨a, b, x, y, z, rfl, d, e⟩ := h1 s h
    exact ⟨a, b, x, y, z ++ m2, by simp, d, e⟩
  · obtain ⟨a, b, x, y, z, rfl, d, e⟩ := h2 s h
    exact ⟨a, b, m1 ++ x, y, z, by simp, by simpa using d, by simpa using e⟩

theorem groupsBranches_append (xs ys : List EREBranch) :
    groupsBranches (xs ++ ys) = groupsBranches xs + groupsBranches ys := by
  induction xs with
  | nil => simp [groupsBranches]
  | cons x xs ih => rw [List.cons_append, groupsBranches, groupsBranches, ih]; omega

theorem cap_times {e : EREExpr} (h : ∀ g pre mid post S, CapExpr e g pre mid post S →
    SpansIn g e.groups pre mid S) {n g pre mid post S} (hc : CapTimes e n g pre mid post S) :
    SpansIn g e.groups pre mid S := by
  induction n generalizing pre mid S with
  | zero => cases hc; exact spansIn_nil
  | succ n ih => cases hc with | succ h1 h2 => exact (h _ _ _ _ _ h1).append (ih h2)

mutual
theorem in_sub : (e : ERE) → ∀ g pre mid post S, CapERE e g pre mid post S → SpansIn g e.groups pre mid S
  | .mk bs => by
    intro g pre mid post S h
    cases h with
    | @intro _ bs1 b bs2 _ _ _ _ _ he hb =>
      subst he
      have := in_branches (bs1 ++ b :: bs2) b (by simp) _ _ _ _ _ hb
      rw [ERE.groups, groupsBranches_append, groupsBranches]
      exact this.mono (by omega) (by omega)
theorem in_branches : (bs : List EREBranch) → ∀ b ∈ bs, ∀ g pre mid post S,
    CapBranch b g pre mid post S → SpansIn g b.groups pre mid S
  | [] => by simp
  | b :: bs => by
    intro b' hb'
    rcases List.mem_cons.mp hb' with h | h
    · rw [h]; exact in_branch b
    · exact in_branches bs b' h
theorem in_branch : (b : EREBranch) → ∀ g pre mid post S,
    CapBranch b g pre mid post S → SpansIn g b.groups pre mid S
  | .mk ps => by
    intro g pre mid post S h
    exact in_parts ps g pre mid post S h
theorem in_parts : (ps : List EREPart) → ∀ g pre mid post S,
    CapBranch (.mk ps) g pre mid post S → SpansIn g (groupsParts ps) pre mid S
  | [] => by intro g pre mid post S h; cases h; exact spansIn_nil
  | p :: ps => by
    intro g pre mid post S h
    cases h with
    | cons h1 h2 =>
      rw [groupsParts]
      exact ((in_part p _ _ _ _ _ h1).mono (by omega) (by omega)).append
        ((in_parts ps _ _ _ _ _ h2).mono (by omega) (by omega))
theorem in_part : (p : EREPart) → ∀ g pre mid post S,
    CapPart p g pre mid post S → SpansIn g p.groups pre mid S
  | .single e => by
    intro g pre mid post S h
    cases h with | single h => exact in_expr e _ _ _ _ _ h
  | .quantified e q => by
    intro g pre mid post S h
    cases h with | quantified _ _ h => exact cap_times (in_expr e) h
  | .start => by intro g pre mid post S h; cases h; exact spansIn_nil
  | .end_ => by intro g pre mid post S h; cases h; exact spansIn_nil
theorem in_expr : (e : EREExpr) → ∀ g pre mid post S,
    CapExpr e g pre mid post S → SpansIn g e.groups pre mid S
  | .atom a => by intro g pre mid post S h; cases h; exact spansIn_nil
  | .sub e => by
    intro g pre mid post S h
    cases h with
    | sub h =>
      rw [EREExpr.groups]
      intro s hs
      rcases List.mem_append.mp hs with hs | hs
      · exact (in_sub e _ _ _ _ _ h).mono (by omega) (by omega) s hs
      · simp only [List.mem_cons, List.not_mem_nil, or_false] at hs
        subst hs
        exact ⟨Nat.le_refl g, show g < g + (1 + e.groups) by omega, [], mid, [], by simp, by simp, by simp⟩
end

mutual
theorem gok_sub : (e : ERE) → ∀ g, (fromSubERE e g).1.GOk
  | .mk bs => by intro g; rw [fromSubERE]; exact .union (gok_branches bs g)
theorem gok_branches : (bs : List EREBranch) → ∀ g, ∀ t ∈ (fromBranches bs g).1, GOk t
  | [] => by intro g; simp [fromBranches]
  | b :: bs => by
    intro g t ht
    rw [fromBranches] at ht
    rcases List.mem_cons.mp ht with rfl | h
    · exact gok_branch b g
    · exact gok_branches bs _ t h
theorem gok_branch : (b : EREBranch) → ∀ g, (fromBranch b g).1.GOk
  | .mk ps => by intro g; rw [fromBranch]; exact .concat (gok_parts ps g)
theorem gok_parts : (ps : List EREPart) → ∀ g, ∀ t ∈ (fromParts ps g).1, GOk t
  | [] => by intro g; simp [fromParts]
  | p :: ps => by
    intro g t ht
    rw [fromParts] at ht
    rcases List.mem_cons.mp ht with rfl | h
    · exact gok_part p g
    · exact gok_parts ps _ t h
theorem gok_part : (p : EREPart) → ∀ g, (fromPart p g).1.GOk
  | .single e => by intro g; rw [fromPart]; exact gok_expr e g
  | .quantified e q => by intro g; rw [fromPart]; exact gok_applyQuantifier (gok_expr e g) q
  | .start => by intro g; rw [fromPart]; exact .start
  | .end_ => by intro g; rw [fromPart]; exact .end_
theorem gok_expr : (e : EREExpr) → ∀ g, (fromExpr e g).1.GOk
  | .atom a => by intro g; rw [fromExpr]; exact .symbol
  | .sub e => by
    intro g
    rw [fromExpr]
    refine .capture (gok_sub e _) fun pre mid post S h s hs => ?_
    have := in_sub e _ _ _ _ _ ((sp_sub e _ _ _ _ _).mp h) s hs
    omega
end

theorem gok_fromERE (e : ERE) : (fromERE e).1.GOk := by
  rw [fromERE]
  refine .capture (gok_sub e 1) fun pre mid post S h s hs => ?_
  have := in_sub e _ _ _ _ _ ((sp_sub e _ _ _ _ _).mp h) s hs
  omega

end Tree

/-! ### Newest offsets -/

theorem foldl_or {β γ : Type} {f : Option β → γ → Option β} {k : γ → Option β}
    (h : ∀ r e, f r e = (k e).or r) (L : List γ) (r : Option β) :
    L.foldl f r = (L.foldl f none).or r := by
  induction L generalizing r with
  | nil => simp
  | cons e L ih =>
    simp only [List.foldl_cons]
    rw [ih, ih (f none e), h r e, h none e]
    cases L.foldl f none <;> cases k e <;> simp

theorem start?_append (L1 L2 : Caps) (g : Nat) :
    Caps.start? (L1 ++ L2) g = (Caps.start? L2 g).or (Caps.start? L1 g) := by
  unfold Caps.start?
  rw [List.foldl_append]
  refine foldl_or (k := fun e => match e with
      | .opened h i => if h = g then some i else none | .closed _ _ => none) ?_ _ _
  intro r e
  cases e with
  | opened h i => by_cases hh : h = g <;> simp [hh]
  | closed h i => simp

theorem end?_append (L1 L2 : Caps) (g : Nat) :
    Caps.end? (L1 ++ L2) g = (Caps.end? L2 g).or (Caps.end? L1 g) := by
  unfold Caps.end?
  rw [List.foldl_append]
  refine foldl_or (k := fun e => match e with
      | .closed h i => if h = g then some i else none | .opened _ _ => none) ?_ _ _
  intro r e
  cases e with
  | closed h i => by_cases hh : h = g <;> simp [hh]
  | opened h i => simp

theorem lastSpan_append (S1 S2 : List Span) (g : Nat) :
    lastSpan (S1 ++ S2) g = (lastSpan S2 g).or (lastSpan S1 g) := by
  unfold lastSpan
  rw [List.reverse_append, List.find?_append]
  cases S2.reverse.find? (fun s => s.group == g) <;> simp

theorem lastSpan_none {S : List Span} {g : Nat} (h : ∀ s ∈ S, s.group ≠ g) : lastSpan S g = none := by
  unfold lastSpan
  rw [List.find?_eq_none.mpr]
  · rfl
  · intro s hs; simpa using h s (by simpa using hs)

theorem lastSpan_mem {S : List Span} {g i j : Nat} (h : lastSpan S g = some (i, j)) :
    (⟨g, i, j⟩ : Span) ∈ S := by
  unfold lastSpan at h
  obtain ⟨s, h1, h2⟩ := Option.map_eq_some_iff.mp h
  have h3 := List.find?_some h1
  have h4 := List.mem_of_find?_eq_some h1
  simp only [beq_iff_eq] at h3
  simp only [Prod.mk.injEq] at h2
  obtain ⟨rfl, rfl⟩ := h2
  subst h3
  simpa using h4

/-- The newest offsets in a balanced log are those of the last stretch of the group. -/
theorem reads_last {L : Caps} {S : List Span} (h : Reads L S) (g : Nat) :
    L.start? g = (lastSpan S g).map (·.1) ∧ L.end? g = (lastSpan S g).map (·.2) := by
  induction h with
  | nil => simp [Caps.start?, Caps.end?, lastSpan]
  | append _ _ ih1 ih2 =>
    rw [start?_append, end?_append, lastSpan_append, ih1.1, ih1.2, ih2.1, ih2.2]
    rename_i S1 S2 _ _
    cases lastSpan S2 g <;> simp
  | @group L S h i j _ hd ih =>
    have e1 : (CapEvent.opened h i :: (L ++ [CapEvent.closed h j])) =
        [CapEvent.opened h i] ++ (L ++ [CapEvent.closed h j]) := rfl
    rw [e1, start?_append, end?_append, start?_append, end?_append, lastSpan_append, ih.1, ih.2]
    by_cases hh : h = g
    · subst hh
      rw [lastSpan_none hd]
      simp [Caps.start?, Caps.end?, lastSpan]
    · simp [Caps.start?, Caps.end?, lastSpan, hh]

end Ere
