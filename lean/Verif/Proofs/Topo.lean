import Mathlib.Logic.Relation
import Mathlib.Data.List.Nodup
import Verif.Model.Meta
import Verif.Proofs.Dfs

/-!
# `topological_ordering` on an arbitrary graph
-/

namespace Ere

/-- The state of a stack item. -/
def TopoItem.node : TopoItem → Nat
  | .pre q => q
  | .post q => q

/-- The closest state below that is being visited. -/
def nearest : List TopoItem → Option Nat
  | [] => none
  | .post x :: _ => some x
  | .pre _ :: r => nearest r

/-- `y` was pushed by the closest state being visited, or is the root. -/
def Par (succ : Nat → List Nat) (below : List TopoItem) (y : Nat) : Prop :=
  match nearest below with
  | some x => y ∈ succ x
  | none => y = 0

def Chain (succ : Nat → List Nat) : List TopoItem → Prop
  | [] => True
  | it :: below => Par succ below it.node ∧ Chain succ below

theorem nearest_push (l : List Nat) (q : Nat) (st : List TopoItem) :
    nearest (l.map .pre ++ .post q :: st) = some q := by
  induction l with
  | nil => rfl
  | cons a l ih => simpa [nearest] using ih

theorem chain_push {succ : Nat → List Nat} {l : List Nat} {q : Nat} {st : List TopoItem}
    (hl : ∀ y ∈ l, y ∈ succ q) (h : Chain succ (.post q :: st)) :
    Chain succ (l.map .pre ++ .post q :: st) := by
  induction l with
  | nil => exact h
  | cons a l ih =>
    refine ⟨?_, ih (fun y hy => hl y (List.mem_cons_of_mem _ hy))⟩
    show Par succ (l.map .pre ++ .post q :: st) a
    rw [Par, nearest_push]
    exact hl a (List.mem_cons_self ..)

/-- A state being visited leads to everything above it on the stack. -/
theorem chain_cycle {succ : Nat → List Nat} {st : List TopoItem} (h : Chain succ st) {x y : Nat}
    (hx : .post x ∈ st) (hy : Par succ st y) :
    Relation.TransGen (fun a b => b ∈ succ a) x y := by
  induction st generalizing y with
  | nil => simp at hx
  | cons it st ih =>
    obtain ⟨h1, h2⟩ := h
    cases it with
    | pre z =>
      refine ih h2 ?_ hy
      rcases List.mem_cons.1 hx with h | h
      · cases h
      · exact h
    | post z =>
      have hy' : y ∈ succ z := hy
      rcases List.mem_cons.1 hx with h | h
      · cases h; exact .single hy'
      · exact (ih h2 h h1).tail hy'

theorem split_push {l : List Nat} {q : Nat} {st above below : List TopoItem} {x : Nat}
    (h : l.map .pre ++ .post q :: st = above ++ .post x :: below) :
    (above = l.map .pre ∧ x = q ∧ below = st) ∨
    ∃ a', above = l.map .pre ++ .post q :: a' ∧ st = a' ++ .post x :: below := by
  induction l generalizing above with
  | nil =>
    cases above with
    | nil => simp only [List.map_nil, List.nil_append, List.cons.injEq, TopoItem.post.injEq] at h
             exact .inl ⟨rfl, h.1.symm, h.2.symm⟩
    | cons a above =>
      simp only [List.map_nil, List.nil_append, List.cons_append, List.cons.injEq] at h
      exact .inr ⟨above, by simp [h.1], h.2⟩
  | cons b l ih =>
    cases above with
    | nil => simp at h
    | cons a above =>
      simp only [List.map_cons, List.cons_append, List.cons.injEq] at h
      rcases ih h.2 with ⟨h1, h2, h3⟩ | ⟨a', h1, h2⟩
      · exact .inl ⟨by simp [h1, h.1], h2, h3⟩
      · exact .inr ⟨a', by simp [h1, h.1], h2⟩

/-- Invariant of the loop. -/
structure TopoInv (n : Nat) (succ : Nat → List Nat) (s : TopoSt) : Prop where
  lend : s.done.length = n
  lena : s.active.length = n
  items : ∀ it ∈ s.stack, it.node < n
  ordlt : ∀ q ∈ s.order, q < n
  nodup : s.order.Nodup
  done_iff : ∀ q, flag s.done q = true ↔ q ∈ s.order
  act_iff : ∀ q, flag s.active q = true ↔ q ∈ s.order ∨ .post q ∈ s.stack
  closed : ∀ a x b, s.order = a ++ x :: b → ∀ y ∈ succ x, y ∈ a
  posts : ∀ above x below, s.stack = above ++ .post x :: below →
    x ∉ s.order ∧ .post x ∉ below ∧
      ∀ y ∈ succ x, y ∈ s.order ∨ .pre y ∈ above ∨ .post y ∈ above
  chain : Chain succ s.stack
  root : 0 ∈ s.order ∨ .pre 0 ∈ s.stack ∨ .post 0 ∈ s.stack
  reach : ∀ q, q ∈ s.order ∨ .pre q ∈ s.stack ∨ .post q ∈ s.stack →
    Relation.ReflTransGen (fun a b => b ∈ succ a) 0 q

/-- Work that is still to be done. -/
def topoMeasure (n : Nat) (succ : Nat → List Nat) (s : TopoSt) : Nat :=
  ((List.range n).map (fun q => if flag s.active q then 0 else 1 + (succ q).length)).sum + s.stack.length

theorem flag_set {l : List Bool} {q x : Nat} (hq : q < l.length) :
    flag (l.set q true) x = true ↔ x = q ∨ flag l x = true := by
  rw [flag, flag, List.getElem?_set]
  by_cases h : q = x
  · subst h; simp [hq]
  · simp [h, Ne.symm h]

theorem sum_set_active (l : List Nat) (hl : l.Nodup) (act : List Bool) (w : Nat → Nat) {q : Nat}
    (hq : q < act.length) (hql : q ∈ l) (hf : flag act q = false) :
    (l.map (fun x => if flag (act.set q true) x then 0 else w x)).sum + w q =
      (l.map (fun x => if flag act x then 0 else w x)).sum := by
  induction l with
  | nil => simp at hql
  | cons a l ih =>
    rw [List.nodup_cons] at hl
    simp only [List.map_cons, List.sum_cons]
    by_cases h : a = q
    · subst h
      have h1 : flag (act.set a true) a = true := (flag_set hq).2 (.inl rfl)
      have h2 : l.map (fun x => if flag (act.set a true) x then 0 else w x) =
          l.map (fun x => if flag act x then 0 else w x) := by
        apply List.map_congr_left
        intro x hx
        have : x ≠ a := fun e => hl.1 (e ▸ hx)
        have h3 : flag (act.set a true) x = flag act x := by
          rw [Bool.eq_iff_iff, flag_set hq]
          simp [this]
        rw [h3]
      rw [h1, h2, hf]; simp; omega
    · have h1 : flag (act.set q true) a = flag act a := by
        rw [Bool.eq_iff_iff, flag_set hq]; simp [h]
      have := ih hl.2 (by rcases List.mem_cons.1 hql with e | e; exact absurd e.symm h; exact e)
      rw [h1]; omega

section
variable {n : Nat} {succ : Nat → List Nat} {done active : List Bool} {order : List Nat}
  {q : Nat} {st : List TopoItem}

theorem TopoInv.pop (h : TopoInv n succ ⟨done, active, order, .pre q :: st⟩)
    (hd : flag done q = true) : TopoInv n succ ⟨done, active, order, st⟩ where
  lend := h.lend
  lena := h.lena
  items := fun it hi => h.items it (List.mem_cons_of_mem _ hi)
  ordlt := h.ordlt
  nodup := h.nodup
  done_iff := h.done_iff
  act_iff := fun x => by rw [h.act_iff x]; simp
  closed := h.closed
  posts := by
    intro above x below hs
    have hs' : st = above ++ .post x :: below := hs
    obtain ⟨h1, h2, h3⟩ := h.posts (.pre q :: above) x below (by simp [hs'])
    refine ⟨h1, h2, fun y hy => ?_⟩
    rcases h3 y hy with h4 | h4 | h4
    · exact .inl h4
    · rcases List.mem_cons.1 h4 with h5 | h5
      · cases h5; exact .inl ((h.done_iff _).1 hd)
      · exact .inr (.inl h5)
    · rcases List.mem_cons.1 h4 with h5 | h5
      · cases h5
      · exact .inr (.inr h5)
  chain := h.chain.2
  root := by
    rcases h.root with h1 | h1 | h1
    · exact .inl h1
    · rcases List.mem_cons.1 h1 with h5 | h5
      · cases h5; exact .inl ((h.done_iff _).1 hd)
      · exact .inr (.inl h5)
    · rcases List.mem_cons.1 h1 with h5 | h5
      · cases h5
      · exact .inr (.inr h5)
  reach := by
    intro x hx
    refine h.reach x ?_
    rcases hx with h1 | h1 | h1
    · exact .inl h1
    · exact .inr (.inl (List.mem_cons_of_mem _ h1))
    · exact .inr (.inr (List.mem_cons_of_mem _ h1))

theorem TopoInv.finish (h : TopoInv n succ ⟨done, active, order, .post q :: st⟩) :
    TopoInv n succ ⟨done.set q true, active, order ++ [q], st⟩ := by
  obtain ⟨hq1, hq2, hq3⟩ := h.posts [] q st rfl
  have hq1' : q ∉ order := hq1
  have hlt : q < n := h.items _ (List.mem_cons_self ..)
  have hld : done.length = n := h.lend
  refine ⟨by simpa using hld, h.lena, fun it hi => h.items it (List.mem_cons_of_mem _ hi), ?_, ?_, ?_,
    ?_, ?_, ?_, h.chain.2, ?_, ?_⟩
  · intro x hx
    rcases List.mem_append.1 hx with h1 | h1
    · exact h.ordlt x h1
    · rw [List.mem_singleton] at h1; omega
  · exact List.nodup_append.2 ⟨h.nodup, by simp, by
      intro a ha b hb e; rw [List.mem_singleton] at hb; subst hb; subst e; exact hq1 ha⟩
  · intro x
    show flag (done.set q true) x = true ↔ x ∈ order ++ [q]
    rw [flag_set (by omega)]
    have := h.done_iff x
    simp only [List.mem_append, List.mem_singleton]
    rw [this]; exact or_comm
  · intro x
    show flag active x = true ↔ x ∈ order ++ [q] ∨ .post x ∈ st
    have := h.act_iff x
    simp only [List.mem_cons, TopoItem.post.injEq] at this
    rw [this, List.mem_append, List.mem_singleton, or_assoc]
  · intro a x b hab
    have hab' : order ++ [q] = a ++ x :: b := hab
    rcases List.eq_nil_or_concat b with e | ⟨b', z, e⟩
    · subst e
      obtain ⟨e1, e2⟩ := List.append_inj' hab' rfl
      simp only [List.cons.injEq, and_true] at e2
      subst e1; subst e2
      intro y hy
      rcases hq3 y hy with h1 | h1 | h1
      · exact h1
      · simp at h1
      · simp at h1
    · subst e
      have e1 : order ++ [q] = (a ++ x :: b') ++ [z] := by rw [hab']; simp
      obtain ⟨e2, -⟩ := List.append_inj' e1 rfl
      exact h.closed a x b' e2
  · intro above x below hs
    have hs' : st = above ++ .post x :: below := hs
    obtain ⟨h1, h2, h3⟩ := h.posts (.post q :: above) x below (by simp [hs'])
    have h1' : x ∉ order := h1
    refine ⟨?_, h2, fun y hy => ?_⟩
    · show x ∉ order ++ [q]
      rw [List.mem_append, List.mem_singleton]
      rintro (h4 | h4)
      · exact h1' h4
      · subst h4; exact hq2 (by rw [hs']; simp)
    · show y ∈ order ++ [q] ∨ _
      rw [List.mem_append, List.mem_singleton]
      rcases h3 y hy with h4 | h4 | h4
      · exact .inl (.inl h4)
      · rcases List.mem_cons.1 h4 with h5 | h5
        · cases h5
        · exact .inr (.inl h5)
      · rcases List.mem_cons.1 h4 with h5 | h5
        · cases h5; exact .inl (.inr rfl)
        · exact .inr (.inr h5)
  · show 0 ∈ order ++ [q] ∨ _
    rw [List.mem_append, List.mem_singleton]
    rcases h.root with h4 | h4 | h4
    · exact .inl (.inl h4)
    · rcases List.mem_cons.1 h4 with h5 | h5
      · cases h5
      · exact .inr (.inl h5)
    · rcases List.mem_cons.1 h4 with h5 | h5
      · cases h5; exact .inl (.inr rfl)
      · exact .inr (.inr h5)
  · intro x hx
    refine h.reach x ?_
    rcases hx with h1 | h1 | h1
    · rcases List.mem_append.1 h1 with h2 | h2
      · exact .inl h2
      · rw [List.mem_singleton] at h2; subst h2; exact .inr (.inr (List.mem_cons_self ..))
    · exact .inr (.inl (List.mem_cons_of_mem _ h1))
    · exact .inr (.inr (List.mem_cons_of_mem _ h1))

theorem TopoInv.push (hsucc : ∀ x < n, ∀ y ∈ succ x, y < n)
    (h : TopoInv n succ ⟨done, active, order, .pre q :: st⟩)
    (ha : flag active q = false) :
    TopoInv n succ ⟨done, active.set q true, order, (succ q).reverse.map .pre ++ .post q :: st⟩ := by
  have hlt : q < n := h.items _ (List.mem_cons_self ..)
  have hla : active.length = n := h.lena
  have hact := h.act_iff q
  rw [ha] at hact
  simp only [Bool.false_eq_true, false_iff, not_or] at hact
  have hqo : q ∉ order := hact.1
  have hqs : .post q ∉ st := fun hh => hact.2 (List.mem_cons_of_mem _ hh)
  have hpre : ∀ y, TopoItem.pre y ∈ (succ q).reverse.map TopoItem.pre ↔ y ∈ succ q := by
    intro y; simp
  have hpost : ∀ y, ¬ TopoItem.post y ∈ (succ q).reverse.map TopoItem.pre := by
    intro y; simp
  refine ⟨h.lend, by simpa using hla, ?_, h.ordlt, h.nodup, h.done_iff, ?_, h.closed, ?_, ?_, ?_, ?_⟩
  · intro it hi
    rcases List.mem_append.1 hi with h1 | h1
    · obtain ⟨y, hy, rfl⟩ := List.mem_map.1 h1
      exact hsucc q hlt y (List.mem_reverse.1 hy)
    · rcases List.mem_cons.1 h1 with h2 | h2
      · subst h2; exact hlt
      · exact h.items it (List.mem_cons_of_mem _ h2)
  · intro x
    show flag (active.set q true) x = true ↔ x ∈ order ∨
      TopoItem.post x ∈ (succ q).reverse.map TopoItem.pre ++ .post q :: st
    rw [flag_set (by omega)]
    have := h.act_iff x
    simp only [List.mem_cons, reduceCtorEq, false_or] at this
    rw [this]
    simp only [List.mem_append, List.mem_cons, hpost, TopoItem.post.injEq, false_or]
    tauto
  · intro above x below hs
    rcases split_push hs with ⟨h1, h2, h3⟩ | ⟨a', h1, h2⟩
    · subst h1; subst h2; subst h3
      exact ⟨hqo, hqs, fun y hy => .inr (.inl ((hpre y).2 hy))⟩
    · obtain ⟨h3, h4, h5⟩ := h.posts (.pre q :: a') x below (by simp [h2])
      refine ⟨h3, h4, fun y hy => ?_⟩
      rw [h1]
      rcases h5 y hy with h6 | h6 | h6
      · exact .inl h6
      · rcases List.mem_cons.1 h6 with h7 | h7
        · cases h7; exact .inr (.inr (by simp))
        · exact .inr (.inl (by simp [h7]))
      · rcases List.mem_cons.1 h6 with h7 | h7
        · cases h7
        · exact .inr (.inr (by simp [h7]))
  · exact chain_push (fun y hy => List.mem_reverse.1 hy) h.chain
  · rcases h.root with h4 | h4 | h4
    · exact .inl h4
    · rcases List.mem_cons.1 h4 with h5 | h5
      · cases h5; exact .inr (.inr (by simp))
      · exact .inr (.inl (by simp [h5]))
    · rcases List.mem_cons.1 h4 with h5 | h5
      · cases h5
      · exact .inr (.inr (by simp [h5]))
  · have hq0 := h.reach q (.inr (.inl (List.mem_cons_self ..)))
    intro x hx
    rcases hx with h1 | h1 | h1
    · exact h.reach x (.inl h1)
    · rcases List.mem_append.1 h1 with h2 | h2
      · exact hq0.tail ((hpre x).1 h2)
      · rcases List.mem_cons.1 h2 with h3 | h3
        · cases h3
        · exact h.reach x (.inr (.inl (List.mem_cons_of_mem _ h3)))
    · rcases List.mem_append.1 h1 with h2 | h2
      · exact absurd h2 (hpost x)
      · rcases List.mem_cons.1 h2 with h3 | h3
        · cases h3; exact hq0
        · exact h.reach x (.inr (.inr (List.mem_cons_of_mem _ h3)))

end

/-- What the loop returns. -/
theorem topoLoop_spec {n : Nat} {succ : Nat → List Nat} (hsucc : ∀ x < n, ∀ y ∈ succ x, y < n) :
    ∀ (k : Nat) (s : TopoSt), TopoInv n succ s → topoMeasure n succ s < k →
    ∃ r, topoLoop succ k s = .ok r ∧
      (r = none → ∃ q, Relation.TransGen (fun a b => b ∈ succ a) q q) ∧
      ∀ o, r = some o → o.Nodup ∧ (∀ q ∈ o, q < n) ∧ 0 ∈ o ∧
        (∀ a x b, o = a ++ x :: b → ∀ y ∈ succ x, y ∈ a) ∧
        ∀ q ∈ o, Relation.ReflTransGen (fun a b => b ∈ succ a) 0 q
  | 0, s, _, hk => absurd hk (by omega)
  | k + 1, ⟨done, active, order, stack⟩, h, hk => by
    cases stack with
    | nil =>
      refine ⟨some order, rfl, by simp, ?_⟩
      rintro o ⟨⟩
      refine ⟨h.nodup, h.ordlt, ?_, h.closed, fun q hq => h.reach q (.inl hq)⟩
      rcases h.root with h1 | h1 | h1
      · exact h1
      · simp at h1
      · simp at h1
    | cons it st =>
      have hlt : it.node < n := h.items it (List.mem_cons_self ..)
      have hld : done.length = n := h.lend
      have hla : active.length = n := h.lena
      cases it with
      | post q =>
        refine topoLoop_spec hsucc k _ h.finish ?_
        simp only [topoMeasure, List.length_cons] at hk ⊢; omega
      | pre q =>
        have hlt' : q < n := hlt
        have e0 : topoLoop succ (k + 1) ⟨done, active, order, .pre q :: st⟩ =
          if done.length ≤ q then .error .panic
          else if flag done q then topoLoop succ k ⟨done, active, order, st⟩
          else if flag active q then .ok none
          else topoLoop succ k ⟨done, active.set q true, order,
            (succ q).reverse.map .pre ++ .post q :: st⟩ := rfl
        rw [e0, if_neg (by omega)]
        by_cases hd : flag done q = true
        · rw [if_pos hd]
          refine topoLoop_spec hsucc k _ (h.pop hd) ?_
          simp only [topoMeasure, List.length_cons] at hk ⊢; omega
        · rw [if_neg hd]
          by_cases ha : flag active q = true
          · rw [if_pos ha]
            refine ⟨none, rfl, fun _ => ⟨q, ?_⟩, by simp⟩
            have h1 := (h.act_iff q).1 ha
            rcases h1 with h1 | h1
            · exact absurd ((h.done_iff q).2 h1) hd
            · rcases List.mem_cons.1 h1 with h2 | h2
              · cases h2
              · exact chain_cycle h.chain.2 h2 h.chain.1
          · rw [if_neg ha]
            have ha' : flag active q = false := by simpa using ha
            refine topoLoop_spec hsucc k _ (h.push hsucc ha') ?_
            have := sum_set_active (List.range n) List.nodup_range active
              (fun q => 1 + (succ q).length) (q := q) (by omega) (by simpa using hlt') ha'
            simp only [topoMeasure, List.length_cons, List.length_append, List.length_map,
              List.length_reverse] at hk ⊢
            omega

section
variable {σ : Type}

theorem mem_topoSucc {N : NFA σ} {q y : Nat} :
    y ∈ N.topoSucc q ↔ ∃ s, N[q]? = some s ∧
      ((∃ t ∈ s.transitions, t.dst = y) ∨ ∃ e ∈ s.epsilons, e.dst = y) := by
  rw [NFA.topoSucc]
  cases h : N[q]? with
  | none => simp
  | some s => simp

/-- The graph of the automaton. -/
def NFA.Edge (N : NFA σ) (a b : Nat) : Prop :=
  ∃ s, N[a]? = some s ∧ ((∃ t ∈ s.transitions, t.dst = b) ∨ ∃ e ∈ s.epsilons, e.dst = b)

theorem topoSucc_eq_edge (N : NFA σ) : (fun a b => b ∈ N.topoSucc a) = N.Edge := by
  funext a b; exact propext mem_topoSucc

theorem topological_spec (N : NFA σ) (hne : N ≠ [])
    (hwf : ∀ a b, N.Edge a b → b < N.length) :
    ∃ r, N.topologicalOrdering = .ok r ∧
      (r = none → (∃ q, Relation.TransGen N.Edge q q) ∨
        ∃ q < N.length, ¬ Relation.ReflTransGen N.Edge 0 q) ∧
      ∀ o, r = some o → o.Perm (List.range N.length) ∧
        (∀ a x b, o = a ++ x :: b → ∀ y, N.Edge x y → y ∈ b) ∧
        ∀ q < N.length, Relation.ReflTransGen N.Edge 0 q := by
  have hpos : 0 < N.length := List.length_pos_of_ne_nil hne
  have hsucc : ∀ x < N.length, ∀ y ∈ N.topoSucc x, y < N.length :=
    fun x _ y hy => hwf x y (mem_topoSucc.1 hy)
  have hflag : ∀ q, flag (List.replicate N.length false) q = false := by
    intro q; rw [flag, List.getElem?_replicate]; split <;> rfl
  have hinv : TopoInv N.length N.topoSucc
      ⟨List.replicate N.length false, List.replicate N.length false, [], [.pre 0]⟩ := by
    refine ⟨by simp, by simp, ?_, by simp, by simp, ?_, ?_, by simp, ?_, ⟨rfl, trivial⟩,
      .inr (.inl (by simp)), ?_⟩
    · intro it hi; rw [List.mem_singleton] at hi; subst hi; exact hpos
    · intro q; rw [show flag _ q = false from hflag q]; simp
    · intro q; rw [show flag _ q = false from hflag q]; simp
    · intro above x below hs
      have hs' : [TopoItem.pre 0] = above ++ .post x :: below := hs
      cases above with
      | nil => simp at hs'
      | cons a above => simp at hs'
    · intro q hq
      simp only [List.not_mem_nil, List.mem_singleton, TopoItem.pre.injEq, reduceCtorEq, or_false,
        false_or] at hq
      subst hq; exact .refl
  obtain ⟨r, h1, h2, h3⟩ := topoLoop_spec hsucc
    (((List.range N.length).map (fun q => 1 + (N.topoSucc q).length)).sum + 2) _ hinv (by
      simp only [topoMeasure, hflag, Bool.false_eq_true, if_false, List.length_cons, List.length_nil]
      omega)
  rw [topoSucc_eq_edge] at h2 h3
  rw [NFA.topologicalOrdering]
  simp only [h1]
  cases r with
  | none => exact ⟨none, rfl, fun _ => .inl (h2 rfl), by simp⟩
  | some o =>
    obtain ⟨g1, g2, g3, g4, g5⟩ := h3 o rfl
    have hclosed : ∀ q, Relation.ReflTransGen N.Edge 0 q → q ∈ o := by
      intro q hq
      induction hq with
      | refl => exact g3
      | tail _ he ih =>
        obtain ⟨a, b, rfl⟩ := List.append_of_mem ih
        exact List.mem_append_left _ (g4 a _ b rfl _ (mem_topoSucc.2 he))
    have hsub : o.Subperm (List.range N.length) :=
      List.subperm_of_subset g1 (fun q hq => List.mem_range.2 (g2 q hq))
    have hle := hsub.length_le
    rw [List.length_range] at hle
    by_cases hlen : o.length = N.length
    · have hperm : o.Perm (List.range N.length) := hsub.perm_of_length_le (by simp [hlen])
      refine ⟨some o.reverse, by simp [hlen], by simp, ?_⟩
      rintro o' ⟨⟩
      refine ⟨(List.reverse_perm o).trans hperm, ?_, ?_⟩
      · intro a x b hab y hy
        have : o = b.reverse ++ x :: a.reverse := by
          have := congrArg List.reverse hab
          simpa using this
        exact List.mem_reverse.1 (g4 _ _ _ this y (mem_topoSucc.2 hy))
      · intro q hq
        exact g5 q (hperm.mem_iff.2 (List.mem_range.2 hq))
    · refine ⟨none, by simp [hlen], fun _ => .inr ?_, by simp⟩
      by_contra hcon
      push_neg at hcon
      apply hlen
      have : (List.range N.length).Subperm o :=
        List.subperm_of_subset List.nodup_range (fun q hq => hclosed q (hcon q (List.mem_range.1 hq)))
      have := this.length_le
      rw [List.length_range] at this
      omega

end
end Ere
