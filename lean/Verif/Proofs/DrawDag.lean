import Mathlib.Logic.Relation
import Mathlib.Tactic.Common
import Verif.Model.Draw

/-!
# The search that decides whether a graph is drawn in layers
-/

namespace Ere

open Relation

/-- A transition from one state to another. -/
def Graph.Step (g : Graph) (a b : Nat) : Prop :=
  ∃ s, g[a]? = some s ∧ ∃ t ∈ s.transitions, t.dst = b ∧ b ≠ a

/-- All transitions lead to states of the graph. -/
def Graph.InRange (g : Graph) : Prop := ∀ s ∈ g, ∀ t ∈ s.transitions, t.dst < g.length

/-- Every state can be reached from the first one and, apart from loops at a state, there are no
cycles. -/
structure Graph.Layered (g : Graph) : Prop where
  ne : g ≠ []
  reach : ∀ i < g.length, ReflTransGen g.Step 0 i
  acyclic : ∀ i, ¬ TransGen g.Step i i

theorem Graph.Step.lt {g : Graph} {a b : Nat} (h : g.Step a b) (hg : g.InRange) :
    a < g.length ∧ b < g.length := by
  obtain ⟨s, hs, t, ht, rfl, _⟩ := h
  exact ⟨(List.getElem?_eq_some_iff.1 hs).1, hg s (List.mem_of_getElem? hs) t ht⟩

/-- The state of a stack item. -/
def Visit.node : Visit → Nat
  | .pre n _ => n
  | .post n => n

/-- The invariant of the search. -/
structure DagInv (g : Graph) (done active : List Bool) (st : List Visit) : Prop where
  ld : done.length = g.length
  la : active.length = g.length
  da : ∀ i : Nat, done[i]? = some true → active[i]? = some true
  range : ∀ v ∈ st, v.node < g.length
  post_iff : ∀ i : Nat, Visit.post i ∈ st ↔ (active[i]? = some true ∧ done[i]? = some false)
  once : ∀ l n r, st = l ++ .post n :: r → Visit.post n ∉ r
  succ : ∀ l n r, st = l ++ .post n :: r → ∀ m, g.Step n m →
    done[m]? = some true ∨ ∃ v ∈ l, v.node = m
  above : ∀ l n r, st = l ++ .post n :: r → ∀ v ∈ l, TransGen g.Step n v.node
  reachS : ∀ v ∈ st, ReflTransGen g.Step 0 v.node
  reachA : ∀ i : Nat, active[i]? = some true → ReflTransGen g.Step 0 i
  zero : active[0]? = some true ∨ ∃ v ∈ st, v.node = 0
  closed : ∀ n m : Nat, done[n]? = some true → g.Step n m → done[m]? = some true
  acyc : ∀ n : Nat, done[n]? = some true → ¬ TransGen g.Step n n

theorem bool_get {l : List Bool} {i : Nat} (h : i < l.length) : l[i]? = some true ∨ l[i]? = some false := by
  rw [List.getElem?_eq_getElem h]
  cases l[i] <;> simp

theorem set_true {l : List Bool} {n i : Nat} (hn : n < l.length) :
    (l.set n true)[i]? = some true ↔ i = n ∨ l[i]? = some true := by
  rw [List.getElem?_set]
  by_cases h : n = i
  · subst h; simp [hn]
  · have : i ≠ n := fun e => h e.symm
    simp [h, this]

theorem set_false {l : List Bool} {n i : Nat} :
    (l.set n true)[i]? = some false ↔ i ≠ n ∧ l[i]? = some false := by
  rw [List.getElem?_set]
  by_cases h : n = i
  · subst h; simp
  · have : i ≠ n := fun e => h e.symm
    simp [h, this]

theorem DagInv.closed_trans {g : Graph} {done active : List Bool} {st : List Visit}
    (h : DagInv g done active st) {n m : Nat} (hn : done[n]? = some true)
    (hr : ReflTransGen g.Step n m) : done[m]? = some true := by
  induction hr with
  | refl => exact hn
  | tail _ hs ih => exact h.closed _ _ ih hs

/-- Popping an item that is done. -/
theorem DagInv.skip {g : Graph} {done active : List Bool} {st : List Visit} {n d : Nat}
    (h : DagInv g done active (.pre n d :: st)) (hn : done[n]? = some true) : DagInv g done active st where
  ld := h.ld
  la := h.la
  da := h.da
  range := fun v hv => h.range v (by simp [hv])
  post_iff := fun i => by rw [← h.post_iff i]; simp
  once := fun l k r e => h.once (.pre n d :: l) k r (by rw [e]; rfl)
  succ := fun l k r e m hm => by
    rcases h.succ (.pre n d :: l) k r (by rw [e]; rfl) m hm with h1 | ⟨v, hv, hm⟩
    · exact .inl h1
    · rcases List.mem_cons.1 hv with rfl | hv
      · left
        have : n = m := hm
        rw [← this]; exact hn
      · exact .inr ⟨v, hv, hm⟩
  above := fun l k r e v hv => h.above (.pre n d :: l) k r (by rw [e]; rfl) v (by simp [hv])
  reachS := fun v hv => h.reachS v (by simp [hv])
  reachA := h.reachA
  zero := by
    rcases h.zero with h0 | ⟨v, hv, h0⟩
    · exact .inl h0
    · rcases List.mem_cons.1 hv with rfl | hv
      · left
        have : n = 0 := h0
        rw [← this]; exact h.da _ hn
      · exact .inr ⟨v, hv, h0⟩
  closed := h.closed
  acyc := h.acyc

/-- Popping the end of a state. -/
theorem DagInv.finish {g : Graph} {done active : List Bool} {st : List Visit} {n : Nat}
    (h : DagInv g done active (.post n :: st)) : DagInv g (done.set n true) active st := by
  have hn := (h.post_iff n).1 (by simp)
  have hlt : n < done.length := (List.getElem?_eq_some_iff.1 hn.2).1
  have hsucc : ∀ m, g.Step n m → done[m]? = some true := by
    intro m hm
    rcases h.succ [] n st rfl m hm with h1 | ⟨v, hv, _⟩
    · exact h1
    · cases hv
  have hacyc : ¬ TransGen g.Step n n := by
    intro hc
    obtain ⟨m, hm, hr⟩ := TransGen.head'_iff.1 hc
    have := h.closed_trans (hsucc m hm) hr
    rw [hn.2] at this
    cases this
  exact {
    ld := by rw [List.length_set, h.ld]
    la := h.la
    da := fun i hi => by
      rcases (set_true hlt).1 hi with rfl | hi
      · exact hn.1
      · exact h.da i hi
    range := fun v hv => h.range v (by simp [hv])
    post_iff := fun i => by
      rw [set_false]
      constructor
      · intro hi
        have h1 := (h.post_iff i).1 (by simp [hi])
        refine ⟨h1.1, ?_, h1.2⟩
        rintro rfl
        exact h.once [] i st rfl hi
      · rintro ⟨h1, h2, h3⟩
        have := (h.post_iff i).2 ⟨h1, h3⟩
        rcases List.mem_cons.1 this with e | e
        · injection e with e; exact absurd e h2
        · exact e
    once := fun l k r e => h.once (.post n :: l) k r (by rw [e]; rfl)
    succ := fun l k r e m hm => by
      rcases h.succ (.post n :: l) k r (by rw [e]; rfl) m hm with h1 | ⟨v, hv, hm⟩
      · exact .inl ((set_true hlt).2 (.inr h1))
      · rcases List.mem_cons.1 hv with rfl | hv
        · exact .inl ((set_true hlt).2 (.inl hm.symm))
        · exact .inr ⟨v, hv, hm⟩
    above := fun l k r e v hv => h.above (.post n :: l) k r (by rw [e]; rfl) v (by simp [hv])
    reachS := fun v hv => h.reachS v (by simp [hv])
    reachA := h.reachA
    zero := by
      rcases h.zero with h0 | ⟨v, hv, h0⟩
      · exact .inl h0
      · rcases List.mem_cons.1 hv with rfl | hv
        · left
          have : n = 0 := h0
          rw [← this]; exact hn.1
        · exact .inr ⟨v, hv, h0⟩
    closed := fun a b ha hs => by
      rcases (set_true hlt).1 ha with rfl | ha
      · exact (set_true hlt).2 (.inr (hsucc b hs))
      · exact (set_true hlt).2 (.inr (h.closed a b ha hs))
    acyc := fun a ha => by
      rcases (set_true hlt).1 ha with rfl | ha
      · exact hacyc
      · exact h.acyc a ha }

theorem mem_pushed {s : GState} {n d : Nat} {v : Visit} :
    v ∈ pushed s n d ↔ ∃ t ∈ s.transitions, t.dst ≠ n ∧ v = .pre t.dst (d + 1) := by
  simp only [pushed, List.mem_reverse, List.mem_map, List.mem_filter, bne_iff_ne, and_assoc]
  constructor
  · rintro ⟨t, h1, h2, rfl⟩; exact ⟨t, h1, h2, rfl⟩
  · rintro ⟨t, h1, h2, rfl⟩; exact ⟨t, h1, h2, rfl⟩

theorem split_pushed {P : List Visit} (hP : ∀ v ∈ P, ∃ m d, v = Visit.pre m d) {k n : Nat}
    {st l r : List Visit} (h : P ++ .post k :: st = l ++ .post n :: r) :
    (l = P ∧ n = k ∧ r = st) ∨ ∃ l', l = P ++ .post k :: l' ∧ st = l' ++ .post n :: r := by
  induction P generalizing l with
  | nil =>
    cases l with
    | nil =>
      simp only [List.nil_append, List.cons.injEq, Visit.post.injEq] at h
      exact .inl ⟨rfl, h.1.symm, h.2.symm⟩
    | cons v l =>
      simp only [List.nil_append, List.cons_append, List.cons.injEq] at h
      exact .inr ⟨l, by rw [← h.1]; rfl, h.2⟩
  | cons p P ih =>
    obtain ⟨m, d, rfl⟩ := hP p (by simp)
    cases l with
    | nil => simp at h
    | cons v l =>
      simp only [List.cons_append, List.cons.injEq] at h
      rcases ih (fun v hv => hP v (by simp [hv])) h.2 with ⟨rfl, h2, h3⟩ | ⟨l', rfl, h2⟩
      · exact .inl ⟨by rw [h.1], h2, h3⟩
      · exact .inr ⟨l', by rw [← h.1]; rfl, h2⟩

/-- Popping a new state. -/
theorem DagInv.enter {g : Graph} (hg : g.InRange) {done active : List Bool} {st : List Visit} {n d : Nat}
    {s : GState} (h : DagInv g done active (.pre n d :: st)) (hn : done[n]? = some false)
    (ha : active[n]? = some false) (hs : g[n]? = some s) :
    DagInv g done (active.set n true) (pushed s n d ++ .post n :: st) := by
  have hlt : n < active.length := (List.getElem?_eq_some_iff.1 ha).1
  have hP : ∀ v ∈ pushed s n d, ∃ m d, v = Visit.pre m d := by
    intro v hv
    obtain ⟨t, _, _, rfl⟩ := mem_pushed.1 hv
    exact ⟨_, _, rfl⟩
  have hstep : ∀ v ∈ pushed s n d, g.Step n v.node := by
    intro v hv
    obtain ⟨t, h1, h2, rfl⟩ := mem_pushed.1 hv
    exact ⟨s, hs, t, h1, rfl, h2⟩
  have h0n : ReflTransGen g.Step 0 n := h.reachS (.pre n d) (by simp)
  have hnp : Visit.post n ∉ st := by
    intro hc
    have := (h.post_iff n).1 (by simp [hc])
    rw [ha] at this
    cases this.1
  exact {
    ld := h.ld
    la := by rw [List.length_set, h.la]
    da := fun i hi => (set_true hlt).2 (.inr (h.da i hi))
    range := fun v hv => by
      rcases List.mem_append.1 hv with hv | hv
      · exact ((hstep v hv).lt hg).2
      · rcases List.mem_cons.1 hv with rfl | hv
        · rw [← h.la]; exact hlt
        · exact h.range v (by simp [hv])
    post_iff := fun i => by
      rw [set_true hlt]
      constructor
      · intro hi
        rcases List.mem_append.1 hi with hi | hi
        · obtain ⟨m, d', e⟩ := hP _ hi; cases e
        · rcases List.mem_cons.1 hi with e | hi
          · injection e with e; subst e; exact ⟨.inl rfl, hn⟩
          · have := (h.post_iff i).1 (by simp [hi])
            exact ⟨.inr this.1, this.2⟩
      · rintro ⟨rfl | h1, h2⟩
        · simp
        · have := (h.post_iff i).2 ⟨h1, h2⟩
          simp only [List.mem_cons, reduceCtorEq, false_or] at this
          simp [this]
    once := fun l k r e => by
      rcases split_pushed hP e with ⟨_, rfl, rfl⟩ | ⟨l', _, e'⟩
      · exact hnp
      · exact h.once (.pre n d :: l') k r (by rw [e']; rfl)
    succ := fun l k r e m hm => by
      rcases split_pushed hP e with ⟨rfl, rfl, rfl⟩ | ⟨l', rfl, e'⟩
      · obtain ⟨s', hs', t, ht, rfl, hne⟩ := hm
        rw [hs] at hs'
        cases hs'
        exact .inr ⟨_, mem_pushed.2 ⟨t, ht, hne, rfl⟩, rfl⟩
      · rcases h.succ (.pre n d :: l') k r (by rw [e']; rfl) m hm with h1 | ⟨v, hv, hm⟩
        · exact .inl h1
        · rcases List.mem_cons.1 hv with rfl | hv
          · exact .inr ⟨.post n, by simp, hm⟩
          · exact .inr ⟨v, by simp [hv], hm⟩
    above := fun l k r e v hv => by
      rcases split_pushed hP e with ⟨rfl, rfl, rfl⟩ | ⟨l', rfl, e'⟩
      · exact .single (hstep v hv)
      · have hk := fun v hv => h.above (.pre n d :: l') k r (by rw [e']; rfl) v hv
        have hkn : TransGen g.Step k n := hk (.pre n d) (by simp)
        rcases List.mem_append.1 hv with hv | hv
        · exact hkn.tail (hstep v hv)
        · rcases List.mem_cons.1 hv with rfl | hv
          · exact hkn
          · exact hk v (by simp [hv])
    reachS := fun v hv => by
      rcases List.mem_append.1 hv with hv | hv
      · exact h0n.tail (hstep v hv)
      · rcases List.mem_cons.1 hv with rfl | hv
        · exact h0n
        · exact h.reachS v (by simp [hv])
    reachA := fun i hi => by
      rcases (set_true hlt).1 hi with rfl | hi
      · exact h0n
      · exact h.reachA i hi
    zero := by
      rcases h.zero with h0 | ⟨v, hv, h0⟩
      · exact .inl ((set_true hlt).2 (.inr h0))
      · rcases List.mem_cons.1 hv with rfl | hv
        · have : n = 0 := h0
          exact .inl ((set_true hlt).2 (.inl this.symm))
        · exact .inr ⟨v, by simp [hv], h0⟩
    closed := h.closed
    acyc := h.acyc }

/-- Work that is left: for every state not yet entered, its end and its transitions. -/
def dagPot : List GState → List Bool → Nat
  | s :: ss, a :: as => (if a then 0 else 1 + s.transitions.length) + dagPot ss as
  | _, _ => 0

theorem dagPot_enter {g : List GState} : ∀ {active : List Bool} {n : Nat} {s : GState},
    active[n]? = some false → g[n]? = some s →
    dagPot g (active.set n true) + (1 + s.transitions.length) = dagPot g active := by
  induction g with
  | nil => intro active n s _ h; simp at h
  | cons x g ih =>
    intro active n s ha hs
    cases active with
    | nil => simp at ha
    | cons a as =>
      cases n with
      | zero =>
        simp only [List.getElem?_cons_zero, Option.some.injEq] at ha hs
        subst ha hs
        simp [dagPot]
        omega
      | succ n =>
        simp only [List.getElem?_cons_succ] at ha hs
        have := ih ha hs
        simp only [List.set_cons_succ, dagPot]
        omega

theorem dagPot_start (g : List GState) : dagPot g (List.replicate g.length false) = g.length + Graph.size g := by
  induction g with
  | nil => rfl
  | cons s g ih =>
    simp only [List.length_cons, List.replicate_succ, dagPot, ih, Graph.size, List.map_cons, List.sum_cons]
    simp
    omega

theorem pushed_length (s : GState) (n d : Nat) : (pushed s n d).length ≤ s.transitions.length := by
  simp only [pushed, List.length_reverse, List.length_map]
  exact List.length_filter_le _ _

theorem checkDagLoop_spec {g : Graph} (hg : g.InRange) (hne : g ≠ []) : ∀ (f : Nat) {done active : List Bool}
    {st : List Visit}, DagInv g done active st → dagPot g active + st.length ≤ f →
    ∃ b, checkDagLoop g f done active st = .ok b ∧ (b = true ↔ g.Layered) := by
  intro f
  induction f with
  | zero =>
    intro done active st h hf
    cases st with
    | cons v st => simp at hf
    | nil => exact last h
  | succ f ih =>
    intro done active st h hf
    cases st with
    | nil => exact last h
    | cons v st =>
      cases v with
      | post n =>
        have hn := (h.post_iff n).1 (by simp)
        have hlt : n < done.length := (List.getElem?_eq_some_iff.1 hn.2).1
        rw [checkDagLoop, if_pos hlt]
        exact ih h.finish (by simp only [List.length_cons] at hf; omega)
      | pre n d =>
        have hlt : n < g.length := h.range (.pre n d) (by simp)
        rw [checkDagLoop]
        rcases bool_get (l := done) (i := n) (by rw [h.ld]; exact hlt) with hd | hd
        · rw [hd]
          exact ih (h.skip hd) (by simp only [List.length_cons] at hf; omega)
        · rw [hd]
          rcases bool_get (l := active) (i := n) (by rw [h.la]; exact hlt) with ha | ha
          · rw [ha]
            refine ⟨false, rfl, ?_⟩
            constructor
            · intro e; cases e
            · intro hL
              exfalso
              have hp := (h.post_iff n).2 ⟨ha, hd⟩
              simp only [List.mem_cons, reduceCtorEq, false_or] at hp
              obtain ⟨l, r, e⟩ := List.append_of_mem hp
              exact hL.acyclic n (h.above (.pre n d :: l) n r (by rw [e]; rfl) (.pre n d) (by simp))
          · rw [ha, List.getElem?_eq_getElem hlt]
            have hs : g[n]? = some g[n] := List.getElem?_eq_getElem hlt
            refine ih (h.enter hg hd ha hs) ?_
            have h1 := dagPot_enter ha hs
            have h2 := pushed_length g[n] n d
            simp only [List.length_append, List.length_cons] at hf ⊢
            omega
where
  last {f : Nat} {done active : List Bool} (h : DagInv g done active []) :
      ∃ b, checkDagLoop g f done active [] = .ok b ∧ (b = true ↔ g.Layered) := by
    have hda : ∀ i : Nat, active[i]? = some true → done[i]? = some true := by
      intro i hi
      have hlt : i < done.length := by
        rw [h.ld, ← h.la]; exact (List.getElem?_eq_some_iff.1 hi).1
      rcases bool_get hlt with hd | hd
      · exact hd
      · have := (h.post_iff i).2 ⟨hi, hd⟩
        cases this
    have h0 : done[0]? = some true := by
      rcases h.zero with h0 | ⟨v, hv, _⟩
      · exact hda 0 h0
      · cases hv
    refine ⟨done.all id, by cases f <;> rfl, ?_⟩
    rw [List.all_eq_true]
    constructor
    · intro hall
      have hd : ∀ i < g.length, done[i]? = some true := by
        intro i hi
        rw [← h.ld] at hi
        rw [List.getElem?_eq_getElem hi]
        exact congrArg some (hall _ (List.getElem_mem hi))
      refine ⟨hne, fun i hi => h.reachA i (h.da i (hd i hi)), fun i hc => ?_⟩
      obtain ⟨m, hm, _⟩ := TransGen.head'_iff.1 hc
      exact h.acyc i (hd i (hm.lt hg).1) hc
    · intro hL b hb
      obtain ⟨i, hi, rfl⟩ := List.getElem_of_mem hb
      have := h.closed_trans h0 (hL.reach i (by rw [← h.ld]; exact hi))
      rw [List.getElem?_eq_getElem hi] at this
      exact Option.some.inj this

/-- The search decides whether the graph is drawn in layers; it ends and does not panic. -/
theorem checkDag_iff {g : Graph} (hg : g.InRange) : ∃ b, checkDag g = .ok b ∧ (b = true ↔ g.Layered) := by
  unfold checkDag
  split
  · rename_i h
    refine ⟨false, rfl, ?_⟩
    constructor
    · intro e; cases e
    · intro hL; exact absurd (List.length_eq_zero_iff.1 h) hL.ne
  · rename_i h
    have hne : g ≠ [] := by rintro rfl; exact h rfl
    have hpos : 0 < g.length := Nat.pos_of_ne_zero h
    have hrep : ∀ i : Nat, (List.replicate g.length false)[i]? ≠ some true := by
      intro i hi
      have := List.mem_of_getElem? hi
      rw [List.mem_replicate] at this
      cases this.2
    refine checkDagLoop_spec hg hne _ (done := List.replicate g.length false)
      (active := List.replicate g.length false) (st := [.pre 0 0]) ?_ ?_
    · exact {
        ld := by simp
        la := by simp
        da := fun i hi => absurd hi (hrep i)
        range := fun v hv => by
          rw [List.mem_singleton] at hv; subst hv; exact hpos
        post_iff := fun i => by
          constructor
          · intro hi; simp at hi
          · intro hi; exact absurd hi.1 (hrep i)
        once := fun l n r e => by
          have : Visit.post n ∈ [Visit.pre 0 0] := by rw [e]; simp
          simp at this
        succ := fun l n r e => by
          have : Visit.post n ∈ [Visit.pre 0 0] := by rw [e]; simp
          simp at this
        above := fun l n r e => by
          have : Visit.post n ∈ [Visit.pre 0 0] := by rw [e]; simp
          simp at this
        reachS := fun v hv => by
          rw [List.mem_singleton] at hv; subst hv; exact .refl
        reachA := fun i hi => absurd hi (hrep i)
        zero := .inr ⟨.pre 0 0, by simp, rfl⟩
        closed := fun n m hn => absurd hn (hrep n)
        acyc := fun n hn => absurd hn (hrep n) }
    · rw [dagPot_start]; simp

end Ere
