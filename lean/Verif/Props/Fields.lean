import Verif.Spec.Fields
import Verif.Props.Decided
import Verif.Props.Words
import Verif.Props.Documented

/-! C82: a pattern of classes one after the other, each with a quantifier and perhaps a group, reads a text field by field. -/

namespace Ere.Props
open Ere

/-- A class with a quantifier (or none), in parentheses if `group`. -/
structure FieldPat where
  atom : Atom
  quant : Option QType
  group : Bool

/-- What it is meant to read. -/
def FieldPat.field (x : FieldPat) : Field where
  ok := x.atom.check
  least := match x.quant with
    | none => 1
    | some q => q.min
  most := match x.quant with
    | none => some 1
    | some q => q.max
  group := x.group

/-- The part of the pattern without the parentheses. -/
def FieldPat.base (x : FieldPat) : EREPart :=
  match x.quant with
  | none => .single (.atom x.atom)
  | some q => .quantified (.atom x.atom) ⟨q, false⟩

/-- The part of the pattern. -/
def FieldPat.part (x : FieldPat) : EREPart :=
  if x.group then .single (.sub (.mk [.mk [x.base]])) else x.base

/-- The parts for several fields, with `$` behind them if `t`. -/
def fieldParts (t : Bool) (xs : List FieldPat) : List EREPart := xs.map FieldPat.part ++ (if t then [.end_] else [])

/-- The pattern, with `^` in front if `s` and `$` behind if `t`. -/
def fieldsERE (s t : Bool) (xs : List FieldPat) : ERE := .mk [.mk ((if s then [.start] else []) ++ fieldParts t xs)]

/-! ## The order of preference -/

/-- `n` characters further. -/
def _root_.Ere.Pos.adv (p : Pos) (n : Nat) : Pos := ⟨p.off + byteLen (p.rest.take n), p.rest.drop n, p.spans⟩

theorem adv_zero (p : Pos) : p.adv 0 = p := by cases p; simp [Pos.adv, byteLen]

theorem adv_succ {off : Nat} {c : Char} {r : List Char} {sp : List Span} (n : Nat) :
    Pos.adv ⟨off, c :: r, sp⟩ (n + 1) = Pos.adv ⟨off + charLen c, r, sp⟩ n := by
  simp [Pos.adv, byteLen_cons, Nat.add_assoc]

theorem adv_adv (p : Pos) (n m : Nat) : (p.adv n).adv m = p.adv (n + m) := by
  cases p with
  | mk off rest sp =>
    simp only [Pos.adv, List.drop_drop]
    rw [List.take_add, byteLen_append, Nat.add_assoc]

/-- The number of characters of `a` at the beginning, among the first `k`. -/
def runLen (a : Atom) (k : Nat) (rest : List Char) : Nat := ((rest.take k).takeWhile a.check).length

theorem runLen_zero (a : Atom) (rest : List Char) : runLen a 0 rest = 0 := by simp [runLen]

theorem runLen_nil (a : Atom) (k : Nat) : runLen a k [] = 0 := by simp [runLen]

theorem runLen_hit {a : Atom} {c : Char} (h : a.check c = true) (k : Nat) (r : List Char) :
    runLen a (k + 1) (c :: r) = runLen a k r + 1 := by simp [runLen, h]

theorem runLen_miss {a : Atom} {c : Char} (h : a.check c = false) (k : Nat) (r : List Char) : runLen a k (c :: r) = 0 := by
  cases k <;> simp [runLen, h]

theorem runLen_le (a : Atom) (k : Nat) (r : List Char) : runLen a k r ≤ k :=
  Nat.le_trans (List.takeWhile_sublist _).length_le (by simp)

theorem times_run (a : Atom) (g : Nat) : ∀ (k : Nat) (p : Pos),
    times (tryExpr (.atom a) g) k p = if runLen a k p.rest < k then [] else [p.adv k]
  | 0, p => by simp [times, adv_zero]
  | k + 1, ⟨off, [], sp⟩ => by simp [times, tryExpr, runLen_nil]
  | k + 1, ⟨off, c :: r, sp⟩ => by
    have ih := times_run a g k ⟨off + charLen c, r, sp⟩
    rw [times, tryExpr]
    by_cases hc : a.check c = true
    · simp only [hc, if_true, List.flatMap_cons, List.flatMap_nil, List.append_nil, ih, runLen_hit hc, adv_succ,
        Nat.add_lt_add_iff_right]
    · rw [Bool.not_eq_true] at hc
      simp [hc, runLen_miss hc]

theorem optTimes_run (a : Atom) (g : Nat) : ∀ (k : Nat) (p : Pos), ∃ tl,
    optTimes (tryExpr (.atom a) g) true k p = p.adv (runLen a k p.rest) :: tl ∧
      ∀ q ∈ tl, ∃ j, j < runLen a k p.rest ∧ q = p.adv j
  | 0, p => ⟨[], by simp [optTimes, runLen_zero, adv_zero], by simp⟩
  | k + 1, ⟨off, [], sp⟩ => ⟨[], by simp [optTimes, tryExpr, runLen_nil, adv_zero], by simp⟩
  | k + 1, ⟨off, c :: r, sp⟩ => by
    obtain ⟨tl, h1, h2⟩ := optTimes_run a g k ⟨off + charLen c, r, sp⟩
    by_cases hc : a.check c = true
    · refine ⟨tl ++ [⟨off, c :: r, sp⟩], ?_, ?_⟩
      · have h3 : tryExpr (.atom a) g ⟨off, c :: r, sp⟩ = [⟨off + charLen c, r, sp⟩] := by simp [tryExpr, hc]
        rw [optTimes, if_pos rfl, h3, List.flatMap_cons, List.flatMap_nil, List.append_nil, h1, runLen_hit hc, adv_succ]
        rfl
      · intro q hq
        rw [runLen_hit hc]
        rcases List.mem_append.mp hq with hq | hq
        · obtain ⟨j, h3, h4⟩ := h2 q hq
          exact ⟨j + 1, by simpa using h3, by rw [adv_succ]; exact h4⟩
        · rw [List.mem_singleton] at hq
          exact ⟨0, by omega, by rw [hq, adv_zero]⟩
    · rw [Bool.not_eq_true] at hc
      exact ⟨[], by simp [optTimes, tryExpr, hc, runLen_miss hc, adv_zero], by simp⟩

theorem runLen_split (a : Atom) : ∀ (k m : Nat) (r : List Char), ¬ runLen a k r < k →
    runLen a (k + m) r = k + runLen a m (r.drop k)
  | 0, m, r, _ => by simp
  | k + 1, m, [], h => by rw [runLen_nil] at h; omega
  | k + 1, m, c :: r, h => by
    by_cases hc : a.check c = true
    · rw [runLen_hit hc] at h
      have ih := runLen_split a k m r (by omega)
      rw [show k + 1 + m = (k + m) + 1 by omega, runLen_hit hc, ih, List.drop_succ_cons]
      omega
    · rw [Bool.not_eq_true] at hc
      rw [runLen_miss hc] at h
      omega

theorem runLen_all (a : Atom) (r : List Char) {k : Nat} (h : r.length ≤ k) : runLen a k r = (r.takeWhile a.check).length := by
  rw [runLen, List.take_of_length_le h]

theorem runLen_short (a : Atom) {k m : Nat} {r : List Char} (hkm : k ≤ m) (h : runLen a k r < k) : runLen a m r = runLen a k r := by
  induction k generalizing m r with
  | zero => omega
  | succ k ih =>
    obtain ⟨m, rfl⟩ : ∃ m', m = m' + 1 := ⟨m - 1, by omega⟩
    cases r with
    | nil => simp [runLen_nil]
    | cons c r =>
      by_cases hc : a.check c = true
      · rw [runLen_hit hc] at h ⊢
        rw [runLen_hit hc, ih (by omega) (by omega)]
      · rw [Bool.not_eq_true] at hc
        simp [runLen_miss hc]

theorem run_mem {a : Atom} : ∀ {k j : Nat} {r : List Char}, j < runLen a k r → ∃ c r', r.drop j = c :: r' ∧ a.check c = true
  | 0, j, r, h => by rw [runLen_zero] at h; omega
  | k + 1, j, [], h => by rw [runLen_nil] at h; omega
  | k + 1, j, c :: r, h => by
    by_cases hc : a.check c = true
    · rw [runLen_hit hc] at h
      cases j with
      | zero => exact ⟨c, r, rfl, hc⟩
      | succ j =>
        rw [List.drop_succ_cons]
        exact run_mem (k := k) (by omega)
    · rw [Bool.not_eq_true] at hc
      rw [runLen_miss hc] at h
      omega

/-- The number of characters that the field takes. -/
theorem FieldPat.run_length (x : FieldPat) (rest : List Char) : (x.field.run rest).length = match x.field.most with
    | none => runLen x.atom rest.length rest
    | some m => runLen x.atom m rest := by
  unfold Field.run
  cases x.field.most with
  | none => rw [runLen_all _ _ (Nat.le_refl _)]; rfl
  | some m => rfl

theorem FieldPat.run_take (x : FieldPat) (rest : List Char) : x.field.run rest = rest.take (x.field.run rest).length := by
  have h : x.field.run rest <+: rest := by
    unfold Field.run
    split
    · exact List.takeWhile_prefix _
    · exact (List.takeWhile_prefix _).trans (List.take_prefix _ _)
  exact List.prefix_iff_eq_take.mp h

/-- What a class with its quantifier tries: first the longest run, then shorter ones. -/
theorem try_base (x : FieldPat) (hx : x.field.possible) (g : Nat) (p : Pos) :
    if (x.field.run p.rest).length < x.field.least then tryPart x.base g p = []
    else ∃ tl, tryPart x.base g p = p.adv (x.field.run p.rest).length :: tl ∧
      ∀ q ∈ tl, ∃ j, x.field.least ≤ j ∧ j < (x.field.run p.rest).length ∧ q = p.adv j := by
  have hl := x.run_length p.rest
  obtain ⟨a, q, grp⟩ := x
  cases q with
  | none =>
    have hl : ((FieldPat.field ⟨a, none, grp⟩).run p.rest).length = runLen a 1 p.rest := hl
    have ht := times_run a g 1 p
    have ht : tryPart (.single (.atom a)) g p = if runLen a 1 p.rest < 1 then [] else [p.adv 1] := by
      rw [tryPart]
      have : times (tryExpr (.atom a) g) 1 p = tryExpr (.atom a) g p := by
        simp only [times]
        exact List.flatMap_singleton' _
      rw [← this]; exact ht
    have hle : (FieldPat.field ⟨a, none, grp⟩).least = 1 := rfl
    rw [hl, hle]
    by_cases h : runLen a 1 p.rest < 1
    · rw [if_pos h] at ht ⊢; exact ht
    · rw [if_neg h] at ht ⊢
      have := runLen_le a 1 p.rest
      exact ⟨[], by rw [show runLen a 1 p.rest = 1 by omega]; exact ht, by simp⟩
  | some q =>
    have hmin : (FieldPat.field ⟨a, some q, grp⟩).least = q.min := rfl
    have hmax : (FieldPat.field ⟨a, some q, grp⟩).most = q.max := rfl
    have hb : tryPart (FieldPat.base ⟨a, some q, grp⟩) g p = (times (tryExpr (.atom a) g) q.min p).flatMap fun p1 =>
      match q.max with
      | none => optTimes (tryExpr (.atom a) g) true p1.rest.length p1
      | some m => if m < q.min then [] else optTimes (tryExpr (.atom a) g) true (m - q.min) p1 := by
        show tryPart (.quantified _ _) g p = _
        rw [tryPart]; rfl
    obtain ⟨hx, _⟩ := hx
    rw [hmin, hmax] at hx
    rw [hmax] at hl
    rw [hmin, hb, times_run]
    have key : ∀ k, (∀ m, q.max = some m → k + q.min = m) → (q.max = none → k = p.rest.length - q.min) → ¬ runLen a q.min p.rest < q.min →
        ((FieldPat.field ⟨a, some q, grp⟩).run p.rest).length = q.min + runLen a k (p.rest.drop q.min) := by
      intro k h1 h2 h3
      rw [hl]
      cases hm : q.max with
      | some m => rw [← h1 m hm, Nat.add_comm k]; exact runLen_split a _ _ _ h3
      | none =>
        have h4 := Nat.le_trans (Nat.le_of_not_lt h3) (show runLen a q.min p.rest ≤ p.rest.length from
          Nat.le_trans (List.takeWhile_sublist _).length_le (by simp))
        show runLen a p.rest.length p.rest = _
        rw [h2 hm, ← runLen_split a _ _ _ h3, show q.min + (p.rest.length - q.min) = p.rest.length by omega]
    by_cases h : runLen a q.min p.rest < q.min
    · have : ((FieldPat.field ⟨a, some q, grp⟩).run p.rest).length < q.min := by
        rw [hl]
        cases hm : q.max with
        | some m => show runLen a m p.rest < _; rw [runLen_short a (hx m hm) h]; exact h
        | none =>
          show runLen a p.rest.length p.rest < _
          by_cases hq : q.min ≤ p.rest.length
          · rw [runLen_short a hq h]; exact h
          · have := runLen_le a p.rest.length p.rest; omega
      rw [if_pos this, if_pos h]; rfl
    · rw [if_neg h]
      simp only [List.flatMap_cons, List.flatMap_nil, List.append_nil]
      have fin : ∀ k, ((FieldPat.field ⟨a, some q, grp⟩).run p.rest).length = q.min + runLen a k (p.rest.drop q.min) →
          if ((FieldPat.field ⟨a, some q, grp⟩).run p.rest).length < q.min then optTimes (tryExpr (.atom a) g) true k (p.adv q.min) = []
          else ∃ tl, optTimes (tryExpr (.atom a) g) true k (p.adv q.min) = p.adv ((FieldPat.field ⟨a, some q, grp⟩).run p.rest).length :: tl ∧
            ∀ q' ∈ tl, ∃ j, q.min ≤ j ∧ j < ((FieldPat.field ⟨a, some q, grp⟩).run p.rest).length ∧ q' = p.adv j := by
        intro k hk
        rw [if_neg (by omega), hk]
        obtain ⟨tl, h1, h2⟩ := optTimes_run a g k (p.adv q.min)
        have hr : (p.adv q.min).rest = p.rest.drop q.min := rfl
        rw [hr, adv_adv] at h1
        refine ⟨tl, h1, fun q' hq' => ?_⟩
        obtain ⟨j, h3, h4⟩ := h2 q' hq'
        rw [hr] at h3
        exact ⟨q.min + j, by omega, by omega, by rw [h4, adv_adv]⟩
      cases hm : q.max with
      | none =>
        have := fin (p.adv q.min).rest.length (key _ (by simp [hm]) (fun _ => by simp [Pos.adv]) h)
        exact this
      | some m =>
        have hle := hx m hm
        simp only [if_neg (show ¬ m < q.min by omega)]
        exact fin (m - q.min) (key _ (by intro m' hm'; rw [hm] at hm'; cases hm'; omega) (by simp [hm]) h)

/-- … and with the parentheses. -/
def FieldPat.done (x : FieldPat) (g : Nat) (p q : Pos) : Pos :=
  if x.group then ⟨q.off, q.rest, q.spans ++ [⟨g, p.off, q.off⟩]⟩ else q

theorem try_field (x : FieldPat) (hx : x.field.possible) (g : Nat) (p : Pos) :
    if (x.field.run p.rest).length < x.field.least then tryPart x.part g p = []
    else ∃ tl, tryPart x.part g p = x.done g p (p.adv (x.field.run p.rest).length) :: tl ∧
      ∀ q ∈ tl, ∃ j, x.field.least ≤ j ∧ j < (x.field.run p.rest).length ∧ q = x.done g p (p.adv j) := by
  by_cases hg : x.group = true
  · have h0 : tryPart x.part g p = (tryPart x.base (g + 1) p).map (x.done g p) := by
      unfold FieldPat.part FieldPat.done
      simp only [hg, if_true, tryPart, tryExpr, tryERE, tryBranches, tryBranch, tryParts, List.append_nil]
      rw [List.flatMap_singleton']
    have := try_base x hx (g + 1) p
    split at this
    · rename_i h; rw [if_pos h, h0, this]; rfl
    · rename_i h
      rw [if_neg h]
      obtain ⟨tl, h1, h2⟩ := this
      refine ⟨tl.map (x.done g p), by rw [h0, h1]; rfl, fun q hq => ?_⟩
      obtain ⟨q', hq', rfl⟩ := List.mem_map.mp hq
      obtain ⟨j, h3, h4, rfl⟩ := h2 q' hq'
      exact ⟨j, h3, h4, rfl⟩
  · have h0 : x.part = x.base := by unfold FieldPat.part; rw [if_neg hg]
    have h1 : ∀ q, x.done g p q = q := fun q => by unfold FieldPat.done; rw [if_neg hg]
    have := try_base x hx g p
    simpa only [h0, h1] using this

theorem done_rest (x : FieldPat) (g : Nat) (p q : Pos) : (x.done g p q).rest = q.rest := by
  unfold FieldPat.done; split <;> rfl

theorem done_off (x : FieldPat) (g : Nat) (p q : Pos) : (x.done g p q).off = q.off := by
  unfold FieldPat.done; split <;> rfl

theorem part_groups (x : FieldPat) : x.part.groups = if x.group then 1 else 0 := by
  have : x.base.groups = 0 := by unfold FieldPat.base; split <;> rfl
  unfold FieldPat.part
  split
  · simp [EREPart.groups, EREExpr.groups, ERE.groups, groupsBranches, EREBranch.groups, groupsParts, this]
  · exact this

/-- Where the next character cannot begin the fields, and something must follow, there is no match. -/
theorem try_blocked {t : Bool} : ∀ {xs : List FieldPat}, (∀ x ∈ xs, x.field.possible) → ∀ {g : Nat} {p : Pos} {c : Char} {r : List Char},
    p.rest = c :: r → mayBegin (xs.map FieldPat.field) c = false → (t = true ∨ ∃ x ∈ xs, x.field.least ≠ 0) →
    tryParts (fieldParts t xs) g p = []
  | [], _, g, p, c, r, hr, _, h => by
    rcases h with rfl | ⟨x, hx, _⟩
    · simp [fieldParts, tryParts, tryPart, hr]
    · cases hx
  | x :: xs, hp, g, p, c, r, hr, hb, h => by
    have hx := try_field x (hp x (by simp)) g p
    rw [List.map_cons, mayBegin, Bool.or_eq_false_iff] at hb
    have hrun : (x.field.run p.rest).length = 0 := by
      rw [x.run_length, hr]
      have := fun k => runLen_miss (a := x.atom) hb.1 k r
      split <;> exact this _
    have hc : fieldParts t (x :: xs) = x.part :: fieldParts t xs := rfl
    rw [hc, tryParts]
    rw [hrun] at hx
    split at hx
    · rw [hx]; rfl
    · rename_i hl
      have hl : x.field.least = 0 := by omega
      obtain ⟨tl, h1, h2⟩ := hx
      have : tl = [] := by
        cases tl with
        | nil => rfl
        | cons q tl => obtain ⟨j, _, hj, _⟩ := h2 q (by simp); omega
      rw [h1, this]
      simp only [List.flatMap_cons, List.flatMap_nil, List.append_nil]
      refine try_blocked (fun y hy => hp y (by simp [hy])) (r := r) (c := c) (by rw [done_rest, adv_zero, hr]) ?_ ?_
      · simpa [hl] using hb.2
      · rcases h with h | ⟨y, hy, hy0⟩
        · exact .inl h
        · rcases List.mem_cons.mp hy with rfl | hy
          · exact absurd hl hy0
          · exact .inr ⟨y, hy, hy0⟩

/-- Reading fails only if something must follow. -/
theorem read_total {t : Bool} : ∀ {fs : List Field} {off : Nat} {rest : List Char}, readFields t fs off rest = none →
    t = true ∨ ∃ f ∈ fs, f.least ≠ 0
  | [], off, rest, h => by
    rw [readFields] at h
    cases t with
    | true => exact .inl rfl
    | false => simp at h
  | f :: fs, off, rest, h => by
    rw [readFields] at h
    split at h
    · exact .inr ⟨f, by simp, by omega⟩
    · rw [Option.map_eq_none_iff] at h
      rcases read_total h with h | ⟨f', h1, h2⟩
      · exact .inl h
      · exact .inr ⟨f', by simp [h1], h2⟩

/-- The places as stretches matched by the groups from `g` on. -/
def numbered : Nat → List (Nat × Nat) → List Span
  | _, [] => []
  | g, p :: l => ⟨g, p.1, p.2⟩ :: numbered (g + 1) l

theorem head_flatMap {α β : Type} {f : α → List β} {a : α} {l : List α} (h : f a = [] → ∀ b ∈ l, f b = []) :
    ((a :: l).flatMap f).head? = (f a).head? := by
  rw [List.flatMap_cons]
  cases hf : f a with
  | cons x xs => rfl
  | nil => rw [List.nil_append, List.flatMap_eq_nil_iff.mpr (h hf)]

/-- The preferred match at one place. -/
theorem try_fields {t : Bool} : ∀ {xs : List FieldPat}, (∀ x ∈ xs, x.field.possible) → separated (xs.map FieldPat.field) →
    ∀ (g : Nat) (p : Pos), ((tryParts (fieldParts t xs) g p).head?.map fun q => (q.off, q.spans)) =
      (readFields t (xs.map FieldPat.field) p.off p.rest).map fun r => (r.2, p.spans ++ numbered g r.1)
  | [], _, _, g, p => by
    cases t with
    | false => simp [fieldParts, tryParts, readFields, numbered]
    | true => by_cases h : p.rest.isEmpty = true <;> simp [fieldParts, tryParts, tryPart, readFields, numbered, h]
  | x :: xs, hp, hs, g, p => by
    have ih := fun g p => try_fields (t := t) (xs := xs) (fun y hy => hp y (by simp [hy])) hs.2 g p
    have hx := try_field x (hp x (by simp)) g p
    have hc : fieldParts t (x :: xs) = x.part :: fieldParts t xs := rfl
    rw [hc, tryParts, List.map_cons, readFields]
    split at hx
    · rename_i h; rw [if_pos h, hx]; rfl
    · rename_i h
      rw [if_neg h]
      obtain ⟨tl, h1, h2⟩ := hx
      rw [h1]
      have hz := ih (g + x.part.groups) (x.done g p (p.adv (x.field.run p.rest).length))
      have ho : (p.adv (x.field.run p.rest).length).off = p.off + byteLen (x.field.run p.rest) := by
        show p.off + byteLen _ = _
        rw [← x.run_take]
      rw [head_flatMap, hz, done_rest, done_off, ho, Option.map_map]
      · have hr : (p.adv (x.field.run p.rest).length).rest = p.rest.drop (x.field.run p.rest).length := rfl
        rw [hr]
        congr 1
        funext r
        have hg : x.field.group = x.group := rfl
        simp only [Function.comp, Prod.mk.injEq, true_and, hg, part_groups]
        unfold FieldPat.done
        by_cases hgr : x.group = true
        · simp only [hgr, if_true, numbered, ho, List.append_assoc]; rfl
        · simp only [hgr]; rfl
      · intro hn q hq
        obtain ⟨j, h3, h4, rfl⟩ := h2 q hq
        rw [hn] at hz
        have hnone := Option.map_eq_none_iff.mp hz.symm
        have hneed := read_total hnone
        have hvar : ∀ c, x.field.ok c = true → mayBegin (xs.map FieldPat.field) c = false := by
          rcases hs.1 with hs | hs
          · exfalso
            rw [x.run_length, hs] at h4
            have := runLen_le x.atom x.field.least p.rest
            simp only at h4
            omega
          · exact hs
        obtain ⟨c, r', e1, e2⟩ : ∃ c r', p.rest.drop j = c :: r' ∧ x.atom.check c = true := by
          rw [x.run_length] at h4
          split at h4 <;> exact run_mem h4
        refine try_blocked (fun y hy => hp y (by simp [hy])) (c := c) (r := r') (by rw [done_rest]; exact e1) (hvar c e2) ?_
        rcases hneed with h | ⟨f, h5, h6⟩
        · exact .inl h
        · obtain ⟨y, hy, rfl⟩ := List.mem_map.mp h5
          exact .inr ⟨y, hy, h6⟩

/-- The stretches that belong to an answer. -/
def spansHere (t : Bool) (fs : List Field) (off : Nat) (rest : List Char) : Option (List Span) :=
  (readFields t fs off rest).map fun r => numbered 1 r.1 ++ [⟨0, off, r.2⟩]

theorem try_pattern {s t : Bool} {xs : List FieldPat} (hp : ∀ x ∈ xs, x.field.possible) (hs : separated (xs.map FieldPat.field))
    (off : Nat) (rest : List Char) :
    ((tryERE (fieldsERE s t xs) 1 ⟨off, rest, []⟩).head?.map fun p => p.spans ++ [⟨0, off, p.off⟩]) =
      if s = true ∧ off ≠ 0 then none else spansHere t (xs.map FieldPat.field) off rest := by
  have h := try_fields (t := t) hp hs 1 ⟨off, rest, []⟩
  have h' : ((tryParts (fieldParts t xs) 1 ⟨off, rest, []⟩).head?.map fun p => p.spans ++ [⟨0, off, p.off⟩]) =
      spansHere t (xs.map FieldPat.field) off rest := by
    have := congrArg (Option.map fun z : Nat × List Span => z.2 ++ [(⟨0, off, z.1⟩ : Span)]) h
    simpa [Option.map_map, Function.comp_def, spansHere] using this
  rw [fieldsERE, tryERE, tryBranches, tryBranches, List.append_nil, tryBranch]
  cases s with
  | false => simpa using h'
  | true =>
    simp only [if_true, List.singleton_append, tryParts, tryPart, EREPart.groups, true_and]
    by_cases ho : off = 0
    · subst ho; simpa using h'
    · simp [ho]

/-- The first place where something is found. -/
def scanSpans (H : Nat → List Char → Option (List Span)) (off : Nat) : List Char → Option (List Span)
  | [] => H off []
  | c :: r =>
    match H off (c :: r) with
    | some a => some a
    | none => scanSpans H (off + charLen c) r

theorem firstFrom_scan {e : ERE} {H : Nat → List Char → Option (List Span)}
    (h : ∀ off rest, ((tryERE e 1 ⟨off, rest, []⟩).head?.map fun p => p.spans ++ [⟨0, off, p.off⟩]) = H off rest) :
    ∀ (rest : List Char) (off : Nat), e.firstFrom off rest = scanSpans H off rest
  | [], off => by rw [ERE.firstFrom, scanSpans, h]
  | c :: r, off => by
    have h1 := h off (c :: r)
    rw [ERE.firstFrom, scanSpans, ← h1, firstFrom_scan h r]
    cases (tryERE e 1 ⟨off, c :: r, []⟩).head? <;> rfl

theorem scan_start {H : Nat → List Char → Option (List Span)} : ∀ (rest : List Char) (off : Nat), off ≠ 0 →
    scanSpans (fun o r => if true = true ∧ o ≠ 0 then none else H o r) off rest = none
  | [], off, h => by simp [scanSpans, h]
  | c :: r, off, h => by
    rw [scanSpans, if_pos ⟨rfl, h⟩]
    exact scan_start r _ (by omega)

/-- What is found in a text. -/
def spansText (s t : Bool) (fs : List Field) (text : List Char) : Option (List Span) :=
  if s then spansHere t fs 0 text else scanSpans (spansHere t fs) 0 text

theorem first_fields {s t : Bool} {xs : List FieldPat} (hp : ∀ x ∈ xs, x.field.possible)
    (hs : separated (xs.map FieldPat.field)) (text : List Char) :
    (fieldsERE s t xs).first text = spansText s t (xs.map FieldPat.field) text := by
  rw [ERE.first, firstFrom_scan (try_pattern hp hs)]
  cases s with
  | false => simp [spansText]
  | true =>
    rw [spansText, if_pos rfl]
    cases text with
    | nil => simp [scanSpans]
    | cons c r =>
      rw [scanSpans, if_neg (by simp)]
      cases hh : spansHere t (xs.map FieldPat.field) 0 (c :: r) with
      | some a => rfl
      | none => exact scan_start r _ (by have := charLen_ne c; omega)

/-! ## Matches of such a pattern -/

theorem base_noStart (x : FieldPat) : x.base.hasStart = false ∧ x.base.hasEnd = false := by
  unfold FieldPat.base; split <;> exact ⟨rfl, rfl⟩

theorem part_noAnchor (x : FieldPat) : x.part.hasStart = false ∧ x.part.hasEnd = false := by
  obtain ⟨h1, h2⟩ := base_noStart x
  unfold FieldPat.part
  split
  · simp [EREPart.hasStart, EREPart.hasEnd, EREExpr.hasStart, EREExpr.hasEnd, ERE.hasStart, ERE.hasEnd, branchesHaveStart,
      branchesHaveEnd, EREBranch.hasStart, EREBranch.hasEnd, partsHaveStart, partsHaveEnd, h1, h2]
  · exact ⟨h1, h2⟩

theorem fields_noStart (xs : List FieldPat) : partsHaveStart (xs.map FieldPat.part) = false := by
  induction xs with
  | nil => rfl
  | cons x xs ih => rw [List.map_cons, partsHaveStart, ih, (part_noAnchor x).1]; rfl

theorem fields_noEnd (xs : List FieldPat) : partsHaveEnd (xs.map FieldPat.part) = false := by
  induction xs with
  | nil => rfl
  | cons x xs ih => rw [List.map_cons, partsHaveEnd, ih, (part_noAnchor x).2]; rfl

theorem framed_fields (s t : Bool) (xs : List FieldPat) : (fieldsERE s t xs).Framed s t := by
  refine ⟨_, rfl, fun b hb => ?_⟩
  rw [List.mem_singleton] at hb
  exact ⟨xs.map FieldPat.part, by rw [hb, fieldParts, List.append_assoc], fields_noStart xs, fields_noEnd xs⟩

theorem fieldsERE_noStart (t : Bool) (xs : List FieldPat) : (fieldsERE false t xs).hasStart = false := by
  have : partsHaveStart (fieldParts t xs) = false := by
    unfold fieldParts
    induction xs with
    | nil => cases t <;> rfl
    | cons x xs ih => rw [List.map_cons, List.cons_append, partsHaveStart, ih, (part_noAnchor x).1]; rfl
  simp [fieldsERE, ERE.hasStart, branchesHaveStart, EREBranch.hasStart, this]

theorem fields_progress (s t : Bool) (xs : List FieldPat) : (fieldsERE s t xs).progress = true := by
  have hb : ∀ x : FieldPat, x.base.progress = true := by
    intro x
    unfold FieldPat.base
    split
    · rfl
    · rename_i q _; cases q with
      | range n m => cases m <;> rfl
      | _ => rfl
  have hx : ∀ x : FieldPat, x.part.progress = true := by
    intro x
    unfold FieldPat.part
    split
    · simp [EREPart.progress, EREExpr.progress, ERE.progress, progressBranches, EREBranch.progress, progressParts, hb x]
    · exact hb x
  have h : progressParts (fieldParts t xs) = true := by
    unfold fieldParts
    induction xs with
    | nil => cases t <;> rfl
    | cons x xs ih => rw [List.map_cons, List.cons_append, progressParts, ih, hx x]; rfl
  cases s <;> simpa [fieldsERE, ERE.progress, progressBranches, EREBranch.progress, progressParts, EREPart.progress] using h

theorem fields_atoms {s t : Bool} {xs : List FieldPat} (h : ∀ x ∈ xs, plainAtom x.atom = true) :
    (fieldsERE s t xs).atomsAll plainAtom = true := by
  have hb : ∀ x ∈ xs, x.base.atomsAll plainAtom = true := by
    intro x hx
    unfold FieldPat.base
    split <;> exact h x hx
  have hx : ∀ x ∈ xs, x.part.atomsAll plainAtom = true := by
    intro x hx
    unfold FieldPat.part
    split
    · simp [EREPart.atomsAll, EREExpr.atomsAll, ERE.atomsAll, branchesAtoms, EREBranch.atomsAll, partsAtoms, hb x hx]
    · exact hb x hx
  have h : partsAtoms plainAtom (fieldParts t xs) = true := by
    unfold fieldParts
    clear h hb
    induction xs with
    | nil => cases t <;> rfl
    | cons x xs ih =>
      rw [List.map_cons, List.cons_append, partsAtoms, ih fun y hy => hx y (by simp [hy]), hx x (by simp)]; rfl
  cases s <;> simpa [fieldsERE, ERE.atomsAll, branchesAtoms, EREBranch.atomsAll, partsAtoms, EREPart.atomsAll] using h

theorem fields_groups (s t : Bool) (xs : List FieldPat) :
    (fieldsERE s t xs).groups = (xs.filter FieldPat.group).length := by
  have h : groupsParts (fieldParts t xs) = (xs.filter FieldPat.group).length := by
    unfold fieldParts
    induction xs with
    | nil => cases t <;> rfl
    | cons x xs ih =>
      rw [List.map_cons, List.cons_append, groupsParts, ih, part_groups]
      by_cases hg : x.group = true
      · simp [hg]; omega
      · simp [hg]
  cases s <;> simpa [fieldsERE, ERE.groups, groupsBranches, EREBranch.groups, groupsParts, EREPart.groups] using h

/-- Some text consists of the fields. -/
theorem fields_captures (s t : Bool) {xs : List FieldPat} (hp : ∀ x ∈ xs, x.field.possible) :
    ∃ text, (fieldsERE s t xs).MatchesIn text := by
  have hbase : ∀ x ∈ xs, ∃ mid, ∀ g pre post, CapPart x.base g pre mid post [] := by
    intro x hx
    obtain ⟨h1, h2⟩ := hp x hx
    obtain ⟨a, q, grp⟩ := x
    cases q with
    | none =>
      obtain ⟨c, hc⟩ := h2 (by simp [FieldPat.field])
      exact ⟨[c], fun g pre post => .single (.atom hc)⟩
    | some q =>
      have h1 : ∀ m, q.max = some m → q.min ≤ m := h1
      by_cases h0 : q.min = 0
      · exact ⟨[], fun g pre post => .quantified (n := 0) (by simp [h0]) (by simp) .zero⟩
      · obtain ⟨c, hc⟩ := h2 h0
        refine ⟨List.replicate q.min c, fun g pre post => .quantified (n := q.min) (Nat.le_refl _) h1
          (capTimes_atom.mpr ⟨by simp, fun d hd => ?_, rfl⟩)⟩
        rw [List.eq_of_mem_replicate hd]; exact hc
  have hpart : ∀ x ∈ xs, ∃ mid, ∀ g pre post, ∃ S, CapPart x.part g pre mid post S := by
    intro x hx
    obtain ⟨mid, h⟩ := hbase x hx
    refine ⟨mid, fun g pre post => ?_⟩
    unfold FieldPat.part
    split
    · refine ⟨_, .single (.sub (capERE_one.mpr (capBranch_cons.mpr ⟨mid, [], [], [], by simp, rfl, ?_, .nil⟩)))⟩
      exact h _ _ _
    · exact ⟨[], h g pre post⟩
  have hall : ∀ g pre, ∃ mid S, CapBranch (.mk (fieldParts t xs)) g pre mid [] S := by
    clear hp hbase
    unfold fieldParts
    induction xs with
    | nil =>
      intro g pre
      cases t with
      | false => exact ⟨[], [], .nil⟩
      | true => exact ⟨[], [], .cons (m1 := []) (m2 := []) (S1 := []) .end_ .nil⟩
    | cons x xs ih =>
      intro g pre
      obtain ⟨m1, h1⟩ := hpart x (by simp)
      obtain ⟨m2, S2, h2⟩ := ih (fun y hy => hpart y (by simp [hy])) (g + x.part.groups) (pre ++ m1)
      obtain ⟨S1, h1⟩ := h1 g pre (m2 ++ [])
      exact ⟨m1 ++ m2, S1 ++ S2, .cons h1 h2⟩
  obtain ⟨mid, S, h⟩ := hall 1 []
  refine ⟨mid, captures_matchesIn.mp ⟨_, [], mid, [], S, by simp, capERE_one.mpr ?_, rfl⟩⟩
  cases s with
  | false => exact h
  | true => exact .cons (m1 := []) (S1 := []) .start (by simpa [EREPart.groups] using h)

theorem readFields_nil {t : Bool} : ∀ {fs : List Field} {off : Nat}, (∃ f ∈ fs, f.least ≠ 0) → readFields t fs off [] = none
  | [], off, h => by obtain ⟨f, h, _⟩ := h; cases h
  | f :: fs, off, h => by
    have h0 : f.run [] = [] := by unfold Field.run; split <;> simp
    rw [readFields, h0]
    split
    · rfl
    · rename_i hl
      rw [Option.map_eq_none_iff]
      obtain ⟨f', h1, h2⟩ := h
      rcases List.mem_cons.mp h1 with rfl | h1
      · simp only [List.length_nil] at hl; omega
      · exact readFields_nil ⟨f', h1, h2⟩

theorem fields_notEmpty {s t : Bool} {xs : List FieldPat} (hp : ∀ x ∈ xs, x.field.possible)
    (hs : separated (xs.map FieldPat.field)) (hn : ∃ x ∈ xs, x.field.least ≠ 0) : ¬ (fieldsERE s t xs).MatchesIn [] := by
  rw [← first_isSome (fields_progress s t xs), first_fields hp hs]
  obtain ⟨x, h1, h2⟩ := hn
  have : readFields t (xs.map FieldPat.field) 0 [] = none := readFields_nil ⟨_, List.mem_map_of_mem h1, h2⟩
  cases s <;> simp [spansText, spansHere, scanSpans, this]

/-! ## With `$` the next character decides -/

theorem base_sees {x : FieldPat} {F : Sight → Prop} {l : Sight} (h : x.base.sees F l) :
    (∃ c, l = some c ∧ x.field.ok c = true) ∨ (x.field.least = 0 ∧ F l) := by
  obtain ⟨a, q, grp⟩ := x
  cases q with
  | none => exact .inl h
  | some q => rcases h with ⟨h1, h2⟩ | ⟨_, h⟩
              · exact .inr ⟨h1, h2⟩
              · exact .inl h

theorem part_sees {x : FieldPat} {F : Sight → Prop} {l : Sight} (h : x.part.sees F l) :
    (∃ c, l = some c ∧ x.field.ok c = true) ∨ (x.field.least = 0 ∧ F l) := by
  unfold FieldPat.part at h
  split at h
  · simp only [EREPart.sees, EREExpr.sees, ERE.sees, branchesSee, EREBranch.sees, partsSee, or_false] at h
    exact base_sees h
  · exact base_sees h

theorem fields_see {xs : List FieldPat} {l : Sight} (h : partsSee (fieldParts true xs) (fun _ => True) l) :
    l = none ∨ ∃ c, l = some c ∧ mayBegin (xs.map FieldPat.field) c = true := by
  induction xs with
  | nil => exact .inl h.1
  | cons x xs ih =>
    have h : x.part.sees (partsSee (fieldParts true xs) fun _ => True) l := h
    rcases part_sees h with ⟨c, h1, h2⟩ | ⟨h1, h2⟩
    · exact .inr ⟨c, h1, by simp [mayBegin, h2]⟩
    · rcases ih h2 with h | ⟨c, h3, h4⟩
      · exact .inl h
      · exact .inr ⟨c, h3, by simp [mayBegin, h1, h4]⟩

theorem fields_decided {s : Bool} {xs : List FieldPat} (hs : separated (xs.map FieldPat.field)) :
    (fieldsERE s true xs).Decided fun _ => True := by
  have hbase : ∀ {x : FieldPat} {F : Sight → Prop},
      (x.field.most = some x.field.least ∨ ∀ c, x.field.ok c = true → ¬ F (some c)) → x.base.Decided F := by
    intro x F h
    obtain ⟨a, q, grp⟩ := x
    cases q with
    | none => exact trivial
    | some q =>
      refine ⟨trivial, ?_⟩
      rcases h with h | h
      · exact .inl h
      · refine .inr ?_
        rintro l ⟨h1, c, rfl, h2⟩
        exact h c h2 h1
  have hpart : ∀ {x : FieldPat} {F : Sight → Prop},
      (x.field.most = some x.field.least ∨ ∀ c, x.field.ok c = true → ¬ F (some c)) → x.part.Decided F := by
    intro x F h
    unfold FieldPat.part
    split
    · refine ⟨by simp, ⟨?_, trivial⟩, trivial⟩
      exact hbase h
    · exact hbase h
  have h : partsDecided (fieldParts true xs) fun _ => True := by
    induction xs with
    | nil => exact ⟨trivial, trivial⟩
    | cons x xs ih =>
      refine ⟨hpart ?_, ih hs.2⟩
      rcases hs.1 with h | h
      · exact .inl h
      · refine .inr fun c hc hF => ?_
        rcases fields_see hF with h1 | ⟨c', h1, h2⟩
        · cases h1
        · cases h1; rw [h c hc] at h2; cases h2
  cases s with
  | false => exact ⟨by simp, h, trivial⟩
  | true => exact ⟨by simp, ⟨trivial, h⟩, trivial⟩

theorem fields_oneReading {xs : List FieldPat} (hs : separated (xs.map FieldPat.field)) : (fieldsERE true true xs).OneReading := by
  have h0 : ∀ {text S}, (fieldsERE true true xs).Captures text S → ∃ j, lastSpan S 0 = some (0, j) := by
    rintro text S ⟨pre, mid, post, S', _, h, rfl⟩
    have h := capERE_one.mp h
    obtain ⟨m1, m2, S1, S2, _, _, h1, _⟩ := capBranch_cons.mp h
    obtain ⟨rfl, _⟩ := capPart_start.mp h1
    exact ⟨_, by rw [lastSpan_whole]; rfl⟩
  intro text S S' h h' g
  obtain ⟨j, hj⟩ := h0 h
  obtain ⟨j', hj'⟩ := h0 h'
  rw [C73_one_way (fields_decided hs) h h' hj hj']

/-! ## The answers -/

theorem lastSpan_numbered : ∀ (gs : List (Nat × Nat)) (g i : Nat), lastSpan (numbered g gs) (g + i) = gs[i]?
  | [], g, i => rfl
  | p :: gs, g, i => by
    have h : numbered g (p :: gs) = [⟨g, p.1, p.2⟩] ++ numbered (g + 1) gs := rfl
    rw [h, lastSpan_append]
    cases i with
    | zero =>
      have : lastSpan (numbered (g + 1) gs) (g + 0) = none := by
        refine lastSpan_none ?_
        have : ∀ (gs : List (Nat × Nat)) (k : Nat), ∀ s ∈ numbered k gs, k ≤ s.group := by
          intro gs
          induction gs with
          | nil => intro k s hs; cases hs
          | cons q gs ih =>
            intro k s hs
            rcases List.mem_cons.mp hs with rfl | hs
            · exact Nat.le_refl _
            · exact Nat.le_of_succ_le (ih (k + 1) s hs)
        intro s hs
        have := this gs (g + 1) s hs
        omega
      rw [this]
      simp [lastSpan]
    | succ i =>
      rw [show g + (i + 1) = g + 1 + i by omega, lastSpan_numbered gs (g + 1) i]
      have : lastSpan [(⟨g, p.1, p.2⟩ : Span)] (g + 1 + i) = none := lastSpan_none (by simp; omega)
      rw [this, Option.or_none]
      rfl

/-- What the program returns for these places. -/
theorem answer_fields (gs : List (Nat × Nat)) (i j : Nat) :
    answerOf (gs.length + 1) (numbered 1 gs ++ [⟨0, i, j⟩]) = some (i, j) :: gs.map some := by
  unfold answerOf
  rw [List.range_succ_eq_map, List.map_cons, lastSpan_whole, List.map_map]
  congr 1
  apply List.ext_getElem?
  intro k
  by_cases hk : k < gs.length
  · rw [List.getElem?_map, List.getElem?_range hk, List.getElem?_map, List.getElem?_eq_getElem hk]
    have h1 : lastSpan [(⟨0, i, j⟩ : Span)] (k + 1) = none := lastSpan_none (by simp)
    have h2 := lastSpan_numbered gs 1 k
    rw [Nat.add_comm, List.getElem?_eq_getElem hk] at h2
    simp [Function.comp, lastSpan_append, h1, h2]
  · rw [List.getElem?_eq_none (by simpa using hk), List.getElem?_eq_none (by simpa using hk)]

theorem readFields_groups {t : Bool} : ∀ {fs : List Field} {off : Nat} {rest : List Char} {r}, readFields t fs off rest = some r →
    r.1.length = (fs.filter Field.group).length
  | [], off, rest, r, h => by
    rw [readFields] at h
    split at h
    · cases h
    · cases h; rfl
  | f :: fs, off, rest, r, h => by
    rw [readFields] at h
    split at h
    · cases h
    · obtain ⟨r', h1, rfl⟩ := Option.map_eq_some_iff.mp h
      have := readFields_groups h1
      by_cases hg : f.group = true <;> simp [hg, this]

theorem field_groups (xs : List FieldPat) :
    ((xs.map FieldPat.field).filter Field.group).length = (xs.filter FieldPat.group).length := by
  induction xs with
  | nil => rfl
  | cons x xs ih =>
    rw [List.map_cons, List.filter_cons, List.filter_cons]
    have : x.field.group = x.group := rfl
    rw [this]
    split
    · rw [List.length_cons, List.length_cons, ih]
    · exact ih

theorem spansHere_answer {t : Bool} {fs : List Field} {n : Nat} (hn : (fs.filter Field.group).length = n) (off : Nat)
    (rest : List Char) : (spansHere t fs off rest).map (answerOf (n + 1)) = readHere t fs off rest := by
  unfold spansHere readHere
  cases h : readFields t fs off rest with
  | none => rfl
  | some r =>
    have := readFields_groups h
    simp only [Option.map_some]
    rw [← hn, ← this, answer_fields]

theorem spansText_answer {s t : Bool} {fs : List Field} {n : Nat} (hn : (fs.filter Field.group).length = n) (text : List Char) :
    (spansText s t fs text).map (answerOf (n + 1)) = readText s t fs text := by
  have hscan : ∀ (rest : List Char) (off : Nat),
      (scanSpans (spansHere t fs) off rest).map (answerOf (n + 1)) = readIn t fs off rest := by
    intro rest
    induction rest with
    | nil => intro off; exact spansHere_answer hn off []
    | cons c r ih =>
      intro off
      have h := spansHere_answer (t := t) hn off (c :: r)
      rw [scanSpans, readIn, ← h]
      cases spansHere t fs off (c :: r) with
      | none => exact ih _
      | some S => rfl
  cases s with
  | false => exact hscan text 0
  | true => exact spansHere_answer hn 0 text

/-- The last group takes part. -/
theorem fields_lastUsed (s t : Bool) {xs : List FieldPat} (hp : ∀ x ∈ xs, x.field.possible)
    (hs : separated (xs.map FieldPat.field)) : LastUsed (fieldsERE s t xs) := by
  obtain ⟨text, hm⟩ := fields_captures s t hp
  have h := (first_isSome (fields_progress s t xs) text).mpr hm
  obtain ⟨S, hS⟩ := Option.isSome_iff_exists.mp h
  refine ⟨text, S, hS, ?_⟩
  have hform : ∃ gs i j, S = numbered 1 gs ++ [⟨0, i, j⟩] ∧ gs.length = (xs.filter FieldPat.group).length := by
    rw [first_fields hp hs] at hS
    have hhere : ∀ {off rest S}, spansHere t (xs.map FieldPat.field) off rest = some S →
        ∃ gs i j, S = numbered 1 gs ++ [⟨0, i, j⟩] ∧ gs.length = (xs.filter FieldPat.group).length := by
      intro off rest S h
      obtain ⟨r, h1, rfl⟩ := Option.map_eq_some_iff.mp h
      exact ⟨r.1, off, r.2, rfl, (readFields_groups h1).trans (field_groups xs)⟩
    have hscan : ∀ {rest off S}, scanSpans (spansHere t (xs.map FieldPat.field)) off rest = some S →
        ∃ gs i j, S = numbered 1 gs ++ [⟨0, i, j⟩] ∧ gs.length = (xs.filter FieldPat.group).length := by
      intro rest
      induction rest with
      | nil => intro off S h; exact hhere h
      | cons c r ih =>
        intro off S h
        rw [scanSpans] at h
        cases hh : spansHere t (xs.map FieldPat.field) off (c :: r) with
        | none => rw [hh] at h; exact ih h
        | some S' => rw [hh] at h; cases h; exact hhere hh
    cases s with
    | false => exact hscan hS
    | true => exact hhere hS
  obtain ⟨gs, i, j, rfl, hl⟩ := hform
  have ha := answer_fields gs i j
  rw [fields_groups, ← hl]
  have : (answerOf (gs.length + 1) (numbered 1 gs ++ [⟨0, i, j⟩]))[gs.length]? = some (lastSpan (numbered 1 gs ++ [⟨0, i, j⟩]) gs.length) := by
    unfold answerOf
    rw [List.getElem?_map, List.getElem?_range (by omega)]
    rfl
  rw [ha] at this
  cases hg : gs with
  | nil => simp [lastSpan, numbered]
  | cons q gs' =>
    rw [← hg]
    rw [show gs.length = gs'.length + 1 by rw [hg]; rfl, List.getElem?_cons_succ, List.getElem?_map,
      List.getElem?_eq_getElem (by rw [hg]; simp)] at this
    simp only [Option.map_some, Option.some.injEq] at this
    rw [show gs.length = gs'.length + 1 by rw [hg]; rfl, ← this]
    rfl

/-- If the last group is used and the program of `compile_regex!` compiles, the attribute macro gives the same program. -/
theorem attr_of_regex (U : Utf8Seqs) {s t : Bool} {p : List Char} {e : ERE} (hp : parseStr p = .ok e) (he : e.Framed s t)
    (hg : e.progress = true) (hl : LastUsed e) {E : Engine} (hE : compileRegex U.seqs p = .ok (some E)) {cr : List String}
    (hc : E.compiles cr = true) : ∃ A, compileAttr U.seqs p (e.groups + 1) = .ok (some A) ∧ A.compiles cr = true ∧
      ∀ text, A.test text = E.test text ∧ A.exec text = E.exec text := by
  have hE' := compileRegex_ok hp hE
  obtain ⟨N, M, k1, k2, k3, k4⟩ := C29_groups_exact_partial U _ (lastUsed_captures hl)
  have hne : N ≠ [] := by
    obtain ⟨M', hM', hn⟩ := (C17_pick_returns_iff U _).mp ⟨_, hE'⟩
    intro h0
    unfold byteNFA at hM'
    rw [k1, h0] at hM'
    simp only [u8New_nil] at hM'
    simp at hM'
  obtain ⟨opt, ho, hol⟩ := mapM_range_ok (fun i => ⟨_, (C28_mandatory_groups k1 hne i).1⟩) (List.range N.numCaptureGroups)
  rw [List.length_range, k3] at hol
  have hA : compileAttr U.seqs p (e.groups + 1) = .ok (some ⟨N.numCaptureGroups, opt, E⟩) := by
    unfold compileAttr
    simp only [hp, k1, ho, hol, hE', if_true]
  obtain ⟨e', he', hk⟩ := C44_attribute_compiles_partial U hA hc
  rw [hp] at he'
  cases he'
  have hc' := (hk hg hl fun _ _ => framed_startSimple he).1
  obtain ⟨E', j1, _, _, j4⟩ := C45_same_program U hA hc'
  rw [hE] at j1
  cases j1
  exact ⟨_, hA, hc', j4⟩

/-! ## C82 -/

section
variable (U : Utf8Seqs) {s t : Bool} {xs : List FieldPat} (hpo : ∀ x ∈ xs, x.field.possible)
  (hse : separated (xs.map FieldPat.field)) (hne : ∃ x ∈ xs, x.field.least ≠ 0) (hpl : ∀ x ∈ xs, plainAtom x.atom = true)
  {p : List Char} (hp : parseStr p = .ok (fieldsERE s t xs)) {cr : List String} (hcr : "ere" ∈ cr)
include hpo hse hne hpl hp hcr

/-- **C82.** Let the pattern be a sequence of classes (without `[:graph:]` and `[:xdigit:]`), each with a quantifier or none,
each in parentheses or not, with `^` in front if `s` and `$` behind if `t`. Let no class of variable length contain a character
with which what follows may begin, and let at least one character be demanded. Then `compile_regex!` gives a program, it
compiles, it has one group for every pair of parentheses besides group 0, and on every text `test` and `exec` do what reading the
text field by field does, each field as long as possible. -/
theorem C82_fields : ∃ E, compileRegex U.seqs p = .ok (some E) ∧ E.compiles cr = true ∧
    E.groups = (xs.filter FieldPat.group).length + 1 ∧
    ∀ text, E.test text = .ok (readText s t (xs.map FieldPat.field) text).isSome ∧
      E.exec text = .ok (readText s t (xs.map FieldPat.field) text) := by
  have hF := framed_fields s t xs
  have hg := fields_progress s t xs
  have hex := fields_captures s t hpo
  obtain ⟨E, h⟩ := C17_compile_returns_partial U hp hex
  have hE := compileRegex_ok hp h
  have hc : E.compiles cr = true := by
    cases hc : E.compiles cr with
    | true => rfl
    | false =>
      obtain ⟨_, hx⟩ := (C62_framed_compiles_iff U hp hF (fields_atoms hpl) h hcr).mp hc
      rcases hx with ⟨_, _, h3⟩ | ⟨h1, h2⟩
      · exact absurd h3 (fields_notEmpty hpo hse hne)
      · exfalso
        cases hs' : s with
        | false => subst hs'; exact h1 (unbounded_of_open (.inl (fieldsERE_noStart t xs)) hex)
        | true =>
          cases ht : t with
          | false => subst ht; exact h1 (unbounded_of_open (.inr (framed_noEnd hF)) hex)
          | true => subst hs' ht; exact h2 (fields_oneReading hse)
  have hG : E.groups = (xs.filter FieldPat.group).length + 1 := by
    rw [C29_compile_regex_partial U hg (fields_lastUsed s t hpo hse) hE hc fun _ _ => framed_startSimple hF, fields_groups]
  have hfirst : ∀ text, FirstOk (fieldsERE s t xs) text E.groups (E.exec text) := by
    intro text
    cases ht : t with
    | false => subst ht; exact C65_framed_preferred U hp hF hg h hc (fun k => by cases k) text
    | true =>
      subst ht
      exact C46_decided hg (C73_compile_regex_partial U hp (fields_decided hse) h hc (fun _ _ => framed_startSimple hF) text)
  refine ⟨E, h, hc, hG, fun text => ⟨?_, ?_⟩⟩
  · obtain ⟨b, h1, h2⟩ := (C65_framed U hp hF h hc).test text
    rw [h1, Bool.eq_iff_iff.mpr (h2.trans (first_isSome hg text).symm), first_fields hpo hse,
      ← spansText_answer (field_groups xs), Option.isSome_map]
  · rw [← spansText_answer (field_groups xs), ← first_fields hpo hse]
    rcases hfirst text with ⟨h1, h2⟩ | ⟨r, S, h1, h2, h3, h4⟩
    · rw [h1, h2]; rfl
    · rw [h1, h2, answerOf_eq (h3.trans hG) h4]; rfl

/-- **C82 (attribute macro).** The struct has as many fields; `test` and `exec` are the same. -/
theorem C82_attribute : ∃ A, compileAttr U.seqs p ((xs.filter FieldPat.group).length + 1) = .ok (some A) ∧ A.compiles cr = true ∧
    ∀ text, A.test text = .ok (readText s t (xs.map FieldPat.field) text).isSome ∧
      A.exec text = .ok (readText s t (xs.map FieldPat.field) text) := by
  obtain ⟨E, hE, hc, hG, hx⟩ := C82_fields U hpo hse hne hpl hp hcr
  obtain ⟨A, h1, h2, h3⟩ := attr_of_regex U hp (framed_fields s t xs) (fields_progress s t xs) (fields_lastUsed s t hpo hse) hE hc
  rw [fields_groups] at h1
  exact ⟨A, h1, h2, fun text => by rw [(h3 text).1, (h3 text).2]; exact hx text⟩
end

theorem consists_begin {fs : List Field} {rest : List Char} (h : Consists fs rest) :
    rest = [] ∨ ∃ c r, rest = c :: r ∧ mayBegin fs c = true := by
  induction h with
  | nil => exact .inl rfl
  | @cons f fs w rest h1 h2 ih =>
    cases w with
    | cons c w => exact .inr ⟨c, w ++ rest, rfl, by simp [mayBegin, h1.1 c (by simp)]⟩
    | nil =>
      have h0 : f.least = 0 := Nat.le_zero.mp h1.2.1
      rcases ih with h | ⟨c, r, h3, h4⟩
      · exact .inl (by simp [h])
      · exact .inr ⟨c, r, h3, by simp [mayBegin, h0, h4]⟩

theorem takeWhile_eq_of {p : Char → Bool} {w r : List Char} (h : ∀ c ∈ w, p c = true) (hr : ∀ c r', r = c :: r' → p c = false) :
    (w ++ r).takeWhile p = w := by
  rw [List.takeWhile_append_of_pos h]
  cases r with
  | nil => simp
  | cons c r => simp [hr c r rfl]

theorem run_consists {f : Field} {fs : List Field} {w rest : List Char} (hs : separated (f :: fs)) (hw : f.fits w)
    (h : Consists fs rest) : f.run (w ++ rest) = w := by
  unfold Field.run
  cases hm : f.most with
  | none =>
    refine takeWhile_eq_of hw.1 fun c r' hr => ?_
    rcases hs.1 with h1 | h1
    · rw [hm] at h1; cases h1
    · rcases consists_begin h with h2 | ⟨c', r'', h2, h3⟩
      · rw [h2] at hr; cases hr
      · rw [hr] at h2
        cases h2
        cases hc : f.ok c with
        | false => rfl
        | true => rw [h1 c hc] at h3; cases h3
  | some m =>
    have hle := hw.2.2 m hm
    show ((w ++ rest).take m).takeWhile f.ok = w
    rw [List.take_append, List.take_of_length_le hle]
    refine takeWhile_eq_of hw.1 fun c r' hr => ?_
    rcases hs.1 with h1 | h1
    · rw [hm] at h1
      cases h1
      have := hw.2.1
      rw [show f.least - w.length = 0 by omega] at hr
      cases hr
    · rcases consists_begin h with h2 | ⟨c', r'', h2, h3⟩
      · rw [h2] at hr; simp at hr
      · rw [h2] at hr
        cases hk : m - w.length with
        | zero => rw [hk] at hr; cases hr
        | succ k =>
          rw [hk, List.take_succ_cons] at hr
          cases hr
          cases hc : f.ok c with
          | false => rfl
          | true => rw [h1 c hc] at h3; cases h3

theorem read_consists : ∀ {fs : List Field}, separated fs → ∀ {off : Nat} {rest : List Char},
    (readFields true fs off rest).isSome = true ↔ Consists fs rest
  | [], _, off, rest => by
    rw [readFields]
    cases rest with
    | nil => simpa using Consists.nil
    | cons c r => simp only [List.isEmpty_cons, Bool.not_false, Bool.and_self, if_true]
                  exact ⟨fun h => (by cases h), fun h => (by cases h)⟩
  | f :: fs, hs, off, rest => by
    have ih := fun off rest => read_consists hs.2 (off := off) (rest := rest)
    constructor
    · intro h
      rw [readFields] at h
      split at h
      · cases h
      · rename_i hl
        rw [Option.isSome_map] at h
        have h1 := (ih _ _).mp h
        have hpre : f.run rest <+: rest := by
          unfold Field.run
          split
          · exact List.takeWhile_prefix _
          · exact (List.takeWhile_prefix _).trans (List.take_prefix _ _)
        have h2 : f.fits (f.run rest) := by
          refine ⟨fun c hc => ?_, by omega, fun m hm => ?_⟩
          · unfold Field.run at hc
            exact List.all_eq_true.mp List.all_takeWhile c hc
          · unfold Field.run
            rw [hm]
            exact Nat.le_trans (List.takeWhile_sublist _).length_le (by simp)
        have := Consists.cons h2 h1
        have h3 : f.run rest ++ rest.drop (f.run rest).length = rest := by
          conv => lhs; lhs; rw [List.prefix_iff_eq_take.mp hpre]
          exact List.take_append_drop _ _
        rwa [h3] at this
    · intro h
      cases h with
      | cons h1 h2 =>
        rename_i w rest
        have hr := run_consists hs h1 h2
        rw [readFields, hr, if_neg (Nat.not_lt.mpr h1.2.1), Option.isSome_map, List.drop_left]
        exact (ih _ _).mpr h2

/-- **C82 (what the reading means).** With `^` and `$` the text is accepted exactly if it consists of strings for the fields. -/
theorem C82_whole {fs : List Field} (hs : separated fs) (text : List Char) :
    (readText true true fs text).isSome = true ↔ Consists fs text := by
  rw [readText, if_pos rfl, readHere, Option.isSome_map]
  exact read_consists hs

/-- The texts of such patterns: the spellings of the parts one after the other. -/
theorem parse_fields (s t : Bool) (ws : List (FieldPat × List Char)) (h : ∀ w ∈ ws, SpellsPart w.1.part w.2) :
    parseStr ((if s then ['^'] else []) ++ (ws.map Prod.snd).flatten ++ (if t then ['$'] else [])) =
      .ok (fieldsERE s t (ws.map Prod.fst)) := by
  have hmid : SpellsBranch (.mk (fieldParts t (ws.map Prod.fst))) ((ws.map Prod.snd).flatten ++ (if t then ['$'] else [])) := by
    unfold fieldParts
    induction ws with
    | nil =>
      cases t with
      | false => exact .nil
      | true => exact .cons (w := ['$']) (v := []) .end_ .nil
    | cons w ws ih =>
      rw [List.map_cons, List.map_cons, List.map_cons, List.cons_append, List.flatten_cons, List.append_assoc]
      exact .cons (h w (by simp)) (ih fun v hv => h v (by simp [hv]))
  refine parseStr_iff.mpr (.one ?_)
  cases s with
  | false => simpa using hmid
  | true =>
    have := SpellsBranch.cons (w := ['^']) .start hmid
    simpa using this

/-! ## Non-vacuity: an assignment -/

/-- `([a-z]+)`, `=`, `([0-9]*)`. -/
def assignment : List (FieldPat × List Char) :=
  [(⟨.matching [.range 'a' 'z'], some .plus, true⟩, "([a-z]+)".toList), (⟨.normal '=', none, false⟩, ['=']),
    (⟨digitAtom, some .star, true⟩, "([0-9]*)".toList)]

theorem assignment_spelled : ∀ w ∈ assignment, SpellsPart w.1.part w.2 := by
  have h1 : SpellsPart (FieldPat.part ⟨.matching [.range 'a' 'z'], some .plus, true⟩) "([a-z]+)".toList :=
    .single (.sub (w := "[a-z]+".toList) (.one (.cons (w := "[a-z]+".toList) (v := []) (.quantified (w := "[a-z]".toList) (v := ['+'])
      (.atom (.matching (w := ['a', '-', 'z', ']']) (by decide) (.plain (by decide) (.range (by decide) (by decide) .close))))
      (.greedy .plus)) .nil)))
  have h2 : SpellsPart (FieldPat.part ⟨.normal '=', none, false⟩) ['='] := .single (.atom (.plain (by decide)))
  have h3 : SpellsPart (FieldPat.part ⟨digitAtom, some .star, true⟩) "([0-9]*)".toList :=
    .single (.sub (w := "[0-9]*".toList) (.one (.cons (w := "[0-9]*".toList) (v := []) (.quantified (w := "[0-9]".toList) (v := ['*'])
      (.atom (.matching (w := ['0', '-', '9', ']']) (by decide) (.plain (by decide) (.range (by decide) (by decide) .close))))
      (.greedy .star)) .nil)))
  intro w hw
  simp only [assignment, List.mem_cons, List.not_mem_nil, or_false] at hw
  rcases hw with rfl | rfl | rfl
  · exact h1
  · exact h2
  · exact h3

theorem lower_check {c : Char} : (Atom.matching [.range 'a' 'z']).check c = true ↔ 97 ≤ c.toNat ∧ c.toNat ≤ 122 := by
  simp only [Atom.check, Term.check, List.any_cons, List.any_nil, Bool.or_false, Bool.and_eq_true, decide_eq_true_eq, char_le]
  exact Iff.rfl

theorem assignment_possible : ∀ x ∈ assignment.map Prod.fst, x.field.possible := by
  intro x hx
  simp only [assignment, List.map_cons, List.map_nil, List.mem_cons, List.not_mem_nil, or_false] at hx
  rcases hx with rfl | rfl | rfl
  · exact ⟨by simp [FieldPat.field, QType.max], fun _ => ⟨'a', by decide⟩⟩
  · exact ⟨by simp [FieldPat.field], fun _ => ⟨'=', by decide⟩⟩
  · exact ⟨by simp [FieldPat.field, QType.max], fun h => absurd rfl h⟩

theorem assignment_separated : separated ((assignment.map Prod.fst).map FieldPat.field) := by
  refine ⟨.inr fun c hc => ?_, .inl rfl, .inr fun c _ => rfl, trivial⟩
  have hc := lower_check.mp hc
  have : c ≠ '=' := by rintro rfl; revert hc; decide
  simp [mayBegin, FieldPat.field, Atom.check, Ne.symm this]

/-- `^([a-z]+)=([0-9]*)$` and `([a-z]+)=([0-9]*)` on every text. -/
theorem C82_assignment (U : Utf8Seqs) (a : Bool) {cr : List String} (hcr : "ere" ∈ cr) :
    ∃ E, compileRegex U.seqs (if a then "^([a-z]+)=([0-9]*)$".toList else "([a-z]+)=([0-9]*)".toList) = .ok (some E) ∧
      E.compiles cr = true ∧ E.groups = 3 ∧ ∀ text,
        E.exec text = .ok (readText a a ((assignment.map Prod.fst).map FieldPat.field) text) := by
  have hp := parse_fields a a assignment assignment_spelled
  have ht : (if a then ['^'] else []) ++ (assignment.map Prod.snd).flatten ++ (if a then ['$'] else []) =
    (if a then "^([a-z]+)=([0-9]*)$".toList else "([a-z]+)=([0-9]*)".toList) := by cases a <;> decide
  rw [ht] at hp
  obtain ⟨E, h1, h2, h3, h4⟩ := C82_fields U assignment_possible assignment_separated
    ⟨_, by simp [assignment]; exact .inl rfl, by simp [FieldPat.field, QType.min]⟩
    (by intro x hx; simp [assignment] at hx; rcases hx with rfl | rfl | rfl <;> decide) hp hcr
  exact ⟨E, h1, h2, h3, fun text => (h4 text).2⟩

example : readText false false ((assignment.map Prod.fst).map FieldPat.field) "é x1 width=80px".toList =
    some [some (6, 14), some (6, 11), some (12, 14)] := by decide

example : readText true true ((assignment.map Prod.fst).map FieldPat.field) "width=80px".toList = none := by decide

/-- The separation is needed: for `[0-9]*5` reading field by field finds nothing in `5`, but the pattern matches. -/
example : readText false false [⟨digitAtom.check, 0, none, false⟩, ⟨fun c => c == '5', 1, some 1, false⟩] ['5'] = none ∧
    (fieldsERE false false [⟨digitAtom, some .star, false⟩, ⟨.normal '5', none, false⟩]).first ['5'] = some [⟨0, 0, 1⟩] := by decide

end Ere.Props
