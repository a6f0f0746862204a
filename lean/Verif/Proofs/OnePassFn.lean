import Verif.Proofs.OnePassRun
import Verif.Proofs.Fixed

/-! The one-pass engine: runs and the functional program. -/

namespace Ere

/-- A topological order numbers the states so that edges go up. -/
theorem topo_rank {N : NFA U8Atom} (hN : Ready N) {o} (h : N.topologicalOrdering = .ok (some o)) :
    ∃ f : Nat → Nat, (∀ x, x < N.length → f x < N.length) ∧ (∀ x y, N.Edge x y → f x < f y) ∧
      ∀ q < N.length, f 0 ≤ f q := by
  obtain ⟨r, h1, _, h2⟩ := topological_spec N hN.ne (by
    intro a b hab
    obtain ⟨l, hl⟩ := edge_iff.mp hab
    exact hN.wf _ _ _ hl)
  rw [h] at h1
  injection h1 with h1
  obtain ⟨p1, p2, p3⟩ := h2 o h1.symm
  have hnd : o.Nodup := p1.nodup_iff.mpr List.nodup_range
  have hmem : ∀ x, x ∈ o ↔ x < N.length := fun x => by rw [p1.mem_iff, List.mem_range]
  have hup : ∀ x y, N.Edge x y → o.idxOf x < o.idxOf y := by
    intro x y hxy
    have hx : x ∈ o := by
      rw [hmem]
      obtain ⟨l, hl⟩ := edge_iff.mp hxy
      exact hasEdge_lt hl
    obtain ⟨a, b, hab⟩ := List.append_of_mem hx
    have hy := p2 a x b hab y hxy
    rw [hab] at hnd ⊢
    rw [List.nodup_append] at hnd
    have hxa : x ∉ a := fun hm => hnd.2.2 x hm x (by simp) rfl
    have hya : y ∉ a := fun hm => hnd.2.2 y hm y (by simp [hy]) rfl
    have hxy' : x ≠ y := by
      rintro rfl
      exact (List.nodup_cons.mp hnd.2.1).1 hy
    rw [List.idxOf_append_of_notMem hxa, List.idxOf_append_of_notMem hya, List.idxOf_cons_self,
      List.idxOf_cons_ne _ hxy']
    omega
  refine ⟨fun x => o.idxOf x, ?_, hup, ?_⟩
  · intro x hx
    have := List.idxOf_lt_length_iff.mpr ((hmem x).mpr hx)
    rw [p1.length_eq, List.length_range] at this
    exact this
  · intro q hq
    have := p3 q hq
    induction this with
    | refl => exact Nat.le_refl _
    | tail h1 h2 ih =>
      exact Nat.le_trans (ih (by
        obtain ⟨l, hl⟩ := edge_iff.mp h2
        exact hasEdge_lt hl)) (Nat.le_of_lt (hup _ _ h2))

theorem walk_nil {σ : Type} {N : NFA σ} {q ls p} (hq : ∀ e r, ¬ N.HasEdge q (.eps e) r) (h : EWalk N q ls p) :
    ls = [] ∧ p = q := by
  induction h with
  | refl => exact ⟨rfl, rfl⟩
  | tail _ h2 ih =>
    rw [ih.2] at h2
    exact absurd h2 (hq _ _)

theorem two_le_count {β : Type} (P : β → Bool) (L : List (List β)) :
    ∀ (i j : Nat) r r' x x', L[i]? = some r → L[j]? = some r' → x ∈ r → x' ∈ r' → P x = true → P x' = true →
      i < j → 2 ≤ (L.flatten.filter P).length := by
  have one : ∀ (L : List (List β)) (i : Nat) r x, L[i]? = some r → x ∈ r → P x = true →
      1 ≤ (L.flatten.filter P).length := by
    intro L i r x h1 h2 h3
    exact List.length_pos_of_mem (List.mem_filter.mpr ⟨List.mem_flatten.mpr ⟨r, List.mem_of_getElem? h1, h2⟩, h3⟩)
  induction L with
  | nil => intro i j r r' x x' h; simp at h
  | cons l L ih =>
    intro i j r r' x x' h1 h2 h3 h4 h5 h6 hij
    rw [List.flatten_cons, List.filter_append, List.length_append]
    cases j with
    | zero => omega
    | succ j =>
      rw [List.getElem?_cons_succ] at h2
      cases i with
      | zero =>
        rw [List.getElem?_cons_zero] at h1
        injection h1 with h1
        subst h1
        have a1 := List.length_pos_of_mem (List.mem_filter.mpr ⟨h3, h5⟩)
        have a2 := one L j r' x' h2 h4 h6
        omega
      | succ i =>
        rw [List.getElem?_cons_succ] at h1
        have := ih i j r r' x x' h1 h2 h3 h4 h5 h6 (by omega)
        omega

theorem incoming_unique {rows : List OpRow} {p : Nat} (h : incomingCount rows p = 1) {i j : Nat} {r r' t t'}
    (hi : rows[i]? = some r) (hj : rows[j]? = some r') (ht : t ∈ r) (ht' : t' ∈ r') (h1 : t.2.state = p)
    (h2 : t'.2.state = p) : i = j := by
  unfold incomingCount at h
  rcases Nat.lt_trichotomy i j with hlt | heq | hgt
  · have := two_le_count (fun t : U8Atom × Upd => t.2.state == p) rows i j r r' t t' hi hj ht ht' (by simp [h1])
      (by simp [h2]) hlt
    omega
  · exact heq
  · have := two_le_count (fun t : U8Atom × Upd => t.2.state == p) rows j i r' r t' t hj hi ht' ht (by simp [h2])
      (by simp [h1]) hgt
    omega

theorem tagsOf_new (k p : Nat) : tagsOf (opSummary k p []).caps = [] := by
  apply List.eq_nil_iff_forall_not_mem.mpr
  intro t ht
  cases t with
  | startCapture g =>
    obtain ⟨x, h1, h2⟩ := mem_tagsOf_start.mp ht
    obtain ⟨h3, h4⟩ := List.getElem?_eq_some_iff.mp h1
    rw [← h4] at h2
    simp [opSummary] at h2
  | endCapture g =>
    obtain ⟨x, h1, h2⟩ := mem_tagsOf_end.mp ht
    obtain ⟨h3, h4⟩ := List.getElem?_eq_some_iff.mp h1
    rw [← h4] at h2
    simp [opSummary] at h2

/-- `run_next`. -/
def nextOf (rows : List (OpRow × List Upd)) : List (Option RunNext) :=
  (rows.map (·.1)).map (runNextOf (rows.map (·.1)))

/-- An entry of `run_next` is a plain symbol edge, the only edge leaving its state and the only way into
its target. -/
structure NextOk (N : NFA U8Atom) (rows : List (OpRow × List Upd)) (q : Nat) (n : RunNext) : Prop where
  row : rows[q]? = some ([(n.range, opSummary N.numCaptureGroups n.dst [])], [])
  edge : N.HasEdge q (.sym n.range) n.dst
  tags : n.tags = []
  uniq : ∀ (q' : Nat) r', rows[q']? = some r' → ∀ t ∈ r'.1, t.2.state = n.dst → q' = q

theorem next_spec {N : NFA U8Atom} (hN : Ready N) {rows : List (OpRow × List Upd)} (hT : OpTable N rows) {q : Nat}
    {n : RunNext} (h : (nextOf rows)[q]?.join = some n) : NextOk N rows q n := by
  rw [Option.join_eq_some_iff] at h
  unfold nextOf at h
  rw [List.getElem?_map, List.getElem?_map, Option.map_map, Option.map_eq_some_iff] at h
  obtain ⟨⟨row, acc⟩, hr, h⟩ := h
  simp only [Function.comp] at h
  unfold runNextOf at h
  split at h
  case h_2 => simp at h
  rename_i t
  split at h
  · simp at h
  rename_i hc
  simp only [Bool.or_eq_true, bne_iff_ne, ne_eq, not_or, Decidable.not_not, Bool.not_eq_true] at hc
  obtain ⟨⟨c1, c2⟩, c3⟩ := hc
  injection h with h
  subst h
  obtain ⟨a, u⟩ := t
  simp only at c1 c2 c3 ⊢
  have uniq : ∀ (q' : Nat) r', rows[q']? = some r' → ∀ t ∈ r'.1, t.2.state = u.state → q' = q := by
    intro q' r' hr' t ht hts
    exact incoming_unique (r := r'.1) (r' := [(a, u)]) (t' := (a, u)) c3 (by simp [hr']) (by simp [hr]) ht (by simp) hts
      rfl
  obtain ⟨s, ls, hw, he, hu⟩ := (hT.row q _ hr a u).mp (by simp)
  have hs : s < rows.length := by rw [hT.len]; exact hasEdge_lt he
  have hsq : s = q := by
    have hrs : rows[s]? = some rows[s] := List.getElem?_eq_getElem hs
    refine uniq s _ hrs (a, opSummary N.numCaptureGroups u.state []) ?_ rfl
    exact (hT.row s _ hrs _ _).mpr ⟨s, [], .refl, he, rfl⟩
  subst hsq
  have hno : ∀ e r, ¬ N.HasEdge s (.eps e) r := by
    rintro e r ⟨st, h1, h2⟩
    obtain ⟨st', h3, h4⟩ := he
    rw [h1] at h3
    injection h3 with h3
    subst h3
    rcases hN.mix st (List.mem_of_getElem? h1) with h5 | h5
    · rw [h5] at h4; simp at h4
    · rw [h5] at h2; simp at h2
  have hls := (walk_nil hno hw).1
  subst hls
  have hacc : acc = [] := by
    apply List.eq_nil_iff_forall_not_mem.mpr
    intro x hx
    obtain ⟨ls', hw', _⟩ := (hT.acc s _ hr x).mp hx
    have := (walk_nil hno hw').2
    exact hN.sink _ _ (this ▸ he)
  subst hacc
  refine ⟨?_, he, ?_, uniq⟩
  · rw [hr, ← hu]
  · rw [hu]; exact tagsOf_new _ _

/-- A sequence of entries of `run_next`. -/
inductive RunChain (next : List (Option RunNext)) : Nat → List U8Atom → List Nat → Nat → Prop
  | nil {q} : RunChain next q [] [] q
  | cons {q n as xs p} : next[q]?.join = some n → RunChain next n.dst as xs p →
      RunChain next q (n.range :: as) (n.dst :: xs) p

theorem RunChain.mem {next q as xs p} (h : RunChain next q as xs p) :
    (as.length = xs.length) ∧ (xs ≠ [] → p ∈ xs) ∧
    ∀ x ∈ xs, (∃ q' ∈ q :: xs, ∃ n, next[q']?.join = some n ∧ n.dst = x) ∧ (x = p ∨ (next[x]?.join).isSome) := by
  induction h with
  | nil => simp
  | @cons q n as xs p h1 h2 ih =>
    obtain ⟨e1, e2, e3⟩ := ih
    refine ⟨by simp [e1], fun _ => ?_, ?_⟩
    · cases h2 with
      | nil => simp
      | cons _ _ => exact List.mem_cons_of_mem _ (e2 (by simp))
    · intro x hx
      rcases List.mem_cons.mp hx with rfl | hx
      · refine ⟨⟨q, by simp, n, h1, rfl⟩, ?_⟩
        cases h2 with
        | nil => exact Or.inl rfl
        | cons h3 _ => right; rw [h3]; rfl
      · obtain ⟨⟨q', f1, f2⟩, f3⟩ := e3 x hx
        exact ⟨⟨q', List.mem_cons_of_mem _ f1, f2⟩, f3⟩

theorem runLoop_spec {N : NFA U8Atom} (hN : Ready N) {rows : List (OpRow × List Upd)} (hT : OpTable N rows)
    {f : Nat → Nat} (hf1 : ∀ x, x < N.length → f x < N.length) (hf2 : ∀ x y, N.Edge x y → f x < f y)
    (start : Nat) : ∀ (fuel state : Nat) (symbols : List U8Atom) (tags : List (Nat × Tag)) (internal : List Nat),
      state < N.length → f start ≤ f state → N.length < fuel + f state →
      ∃ as xs p, runLoop (nextOf rows) start fuel state symbols tags internal =
        .ok (symbols ++ as, tags, internal ++ xs, p) ∧ RunChain (nextOf rows) state as xs p ∧
        (nextOf rows)[p]?.join = none := by
  intro fuel
  induction fuel with
  | zero => intro state _ _ _ h1 _ h2; have := hf1 _ h1; omega
  | succ fuel ih =>
    intro state symbols tags internal h1 h2 h3
    unfold runLoop
    cases hn : (nextOf rows)[state]?.join with
    | none => exact ⟨[], [], state, by simp, .nil, hn⟩
    | some n =>
      simp only
      obtain ⟨_, he, ht, _⟩ := next_spec hN hT hn
      have hlt := hf2 _ _ (edge_iff.mpr ⟨_, he⟩)
      have hne : n.dst ≠ start := by rintro rfl; omega
      rw [if_neg hne, ht, List.map_nil, List.append_nil]
      obtain ⟨as, xs, p, g1, g2, g3⟩ := ih n.dst (symbols ++ [n.range]) tags (internal ++ [n.dst])
        (hN.wf _ _ _ he) (by omega) (by omega)
      exact ⟨n.range :: as, n.dst :: xs, p, by rw [g1]; simp, .cons hn g2, g3⟩

theorem foldl_set_get {β : Type} (v : β) (xs : List Nat) (out : List β) (i : Nat) :
    (xs.foldl (fun o x => o.set x v) out).length = out.length ∧
    (xs.foldl (fun o x => o.set x v) out)[i]? = if i ∈ xs ∧ i < out.length then some v else out[i]? := by
  induction xs generalizing out with
  | nil => simp
  | cons x xs ih =>
    rw [List.foldl_cons]
    obtain ⟨h1, h2⟩ := ih (out.set x v)
    refine ⟨by rw [h1, List.length_set], ?_⟩
    rw [h2, List.length_set, List.getElem?_set]
    by_cases hi : i ∈ xs
    · by_cases hl : i < out.length <;> by_cases hx : x = i <;> simp [hi, hl, hx]
    · by_cases hl : i < out.length <;> by_cases hx : x = i
      · subst hx; simp [hi, hl]
      · have : ¬ i = x := fun h => hx h.symm
        simp [hi, hx, this]
      · subst hx; simp [hi, hl]
      · have : ¬ i = x := fun h => hx h.symm
        simp [hi, hx, this]

/-- Invariant of `compute_runs`. -/
structure RunsOk (rows : List (OpRow × List Upd)) (out : List RunIncl) : Prop where
  len : out.length = rows.length
  start : ∀ (x : Nat) r, out[x]? = some (.start r) → ∃ xs, RunChain (nextOf rows) x r.symbols xs r.dst ∧
    r.symbols ≠ [] ∧ r.tags = [] ∧ (nextOf rows)[r.dst]?.join = none ∧ (nextOf rows)[x]?.join ≠ none
  internal : ∀ x : Nat, out[x]? = some .internal → (nextOf rows)[x]?.join ≠ none ∧
    ∃ (q' : Nat) (n : RunNext), (nextOf rows)[q']?.join = some n ∧ n.dst = x ∧ out[q']? ≠ some RunIncl.none
  stop : ∀ x : Nat, out[x]? = some .stop → (nextOf rows)[x]?.join = none

theorem runMark_spec {N : NFA U8Atom} (hN : Ready N) {rows : List (OpRow × List Upd)} (hT : OpTable N rows)
    {f : Nat → Nat} (hf1 : ∀ x, x < N.length → f x < N.length) (hf2 : ∀ x y, N.Edge x y → f x < f y)
    {out : List RunIncl} (h : RunsOk rows out) {q : Nat} (hq : q < rows.length) :
    ∃ out', runMark (nextOf rows) out q = .ok out' ∧ RunsOk rows out' := by
  unfold runMark
  split
  · exact ⟨out, rfl, h⟩
  rename_i hstart
  have hsome : ((nextOf rows)[q]?.join).isSome = true := by
    unfold isRunStart at hstart
    cases hh : ((nextOf rows)[q]?.join).isSome with
    | true => rfl
    | false => rw [hh] at hstart; simp at hstart
  have hlen : (nextOf rows).length = N.length := by simp [nextOf, hT.len]
  obtain ⟨as, xs, p, g1, g2, g3⟩ := runLoop_spec hN hT hf1 hf2 q ((nextOf rows).length + 1) q [] [] []
    (by rw [← hT.len]; exact hq) (Nat.le_refl _) (by rw [hlen]; omega)
  rw [g1]
  simp only [List.nil_append]
  split
  · exact ⟨out, rfl, h⟩
  rename_i hpq
  refine ⟨_, rfl, ?_⟩
  obtain ⟨m1, m2, m3⟩ := g2.mem
  have hxs : xs ≠ [] := by
    rintro rfl
    cases g2 with
    | nil => exact hpq rfl
  have hpx := m2 hxs
  have hplt : p < rows.length := by
    obtain ⟨⟨q', _, n, h1, h2⟩, _⟩ := m3 p hpx
    obtain ⟨_, he, _⟩ := next_spec hN hT h1
    rw [h2] at he
    rw [hT.len]; exact hN.wf _ _ _ he
  have hget : ∀ i : Nat, (List.set (xs.foldl (fun o x => o.set x RunIncl.internal)
        (out.set q (.start ⟨as, ([] : List (Nat × Tag)).insertionSort tagLe, p⟩))) p RunIncl.stop)[i]? =
      if i = p then some RunIncl.stop else if i ∈ xs ∧ i < rows.length then some .internal
      else if i = q then some (.start ⟨as, [], p⟩) else out[i]? := by
    intro i
    obtain ⟨f1, f2⟩ := foldl_set_get RunIncl.internal xs
      (out.set q (.start ⟨as, ([] : List (Nat × Tag)).insertionSort tagLe, p⟩)) i
    rw [List.getElem?_set, f1, f2, List.length_set, h.len, List.getElem?_set, h.len]
    by_cases hip : i = p
    · subst hip; simp [hplt]
    · rw [if_neg (fun hh => hip hh.symm), if_neg hip]
      by_cases hix : i ∈ xs ∧ i < rows.length
      · rw [if_pos hix, if_pos hix]
      · rw [if_neg hix, if_neg hix]
        by_cases hiq : i = q
        · subst hiq; simp [hq]
        · rw [if_neg (fun hh => hiq hh.symm), if_neg hiq]
  have hmark : ∀ i ∈ q :: xs, (List.set (xs.foldl (fun o x => o.set x RunIncl.internal)
        (out.set q (.start ⟨as, ([] : List (Nat × Tag)).insertionSort tagLe, p⟩))) p RunIncl.stop)[i]? ≠
      some .none := by
    intro i hi
    rw [hget]
    split
    · simp
    split
    · simp
    rename_i h1 h2
    rcases List.mem_cons.mp hi with rfl | hi
    · simp
    · have : ¬ i < rows.length := fun hh => h2 ⟨hi, hh⟩
      have hne : i ≠ q := by rintro rfl; exact this hq
      rw [if_neg hne, List.getElem?_eq_none (by rw [h.len]; omega)]
      simp
  refine ⟨?_, ?_, ?_, ?_⟩
  · rw [List.length_set, (foldl_set_get RunIncl.internal xs _ 0).1, List.length_set, h.len]
  · intro x r hx
    rw [hget] at hx
    split at hx
    · simp at hx
    split at hx
    · simp at hx
    split at hx
    · rename_i h3
      subst h3
      injection hx with hx
      injection hx with hx
      subst hx
      refine ⟨xs, g2, ?_, rfl, g3, ?_⟩
      · intro hh
        simp only at hh
        rw [hh] at m1
        exact hxs (List.length_eq_zero_iff.mp m1.symm)
      · intro hh; rw [hh] at hsome; simp at hsome
    · exact h.start x r hx
  · intro x hx
    rw [hget] at hx
    split at hx
    · simp at hx
    split at hx
    · rename_i h1 h2
      obtain ⟨⟨q', a1, n, a2, a3⟩, a4⟩ := m3 x h2.1
      refine ⟨?_, q', n, a2, a3, hmark q' a1⟩
      rcases a4 with a4 | a4
      · exact absurd a4 h1
      · intro hh; rw [hh] at a4; simp at a4
    split at hx
    · simp at hx
    · obtain ⟨b1, q', n, b2, b3, b4⟩ := h.internal x hx
      refine ⟨b1, q', n, b2, b3, ?_⟩
      rw [hget]
      split
      · simp
      split
      · simp
      split
      · simp
      · exact b4
  · intro x hx
    rw [hget] at hx
    split at hx
    · rename_i h1; rw [h1]; exact g3
    split at hx
    · simp at hx
    split at hx
    · simp at hx
    · exact h.stop x hx

theorem computeRuns_spec {N : NFA U8Atom} (hN : Ready N) {rows : List (OpRow × List Upd)} (hT : OpTable N rows)
    {f : Nat → Nat} (hf1 : ∀ x, x < N.length → f x < N.length) (hf2 : ∀ x y, N.Edge x y → f x < f y) :
    ∃ out, computeRuns (rows.map (·.1)) = .ok out ∧ RunsOk rows out := by
  unfold computeRuns
  change ∃ out, (List.range (rows.map (·.1)).length).foldlM (runMark (nextOf rows)) _ = _ ∧ _
  have key : ∀ (qs : List Nat) (out : List RunIncl), (∀ q ∈ qs, q < rows.length) → RunsOk rows out →
      ∃ out', qs.foldlM (runMark (nextOf rows)) out = .ok out' ∧ RunsOk rows out' := by
    intro qs
    induction qs with
    | nil => intro out _ h; exact ⟨out, rfl, h⟩
    | cons q qs ih =>
      intro out hq h
      obtain ⟨out1, h1, h2⟩ := runMark_spec hN hT hf1 hf2 h (hq q (by simp))
      rw [List.foldlM_cons, h1]
      exact ih out1 (fun q hh => hq q (by simp [hh])) h2
  refine key _ _ (by simp) ⟨by simp, ?_, ?_, ?_⟩
  all_goals
    intro x
    simp only [List.getElem?_replicate]
    intros
    split at * <;> simp_all

/-! ### The functions of the program -/

/-- What is known of the emitted functions. -/
structure FnOk (N : NFA U8Atom) (rows : List (OpRow × List Upd)) (out : List RunIncl) (P : FnProg) : Prop where
  groups : P.groups = N.numCaptureGroups
  get : ∀ q : Nat, P.fns[q]?.join =
    match out[q]?, rows[q]? with
    | some i, some r => fnOf (N.opExcluded q) i r
    | _, _ => none

theorem codegenFn_ok {N : NFA U8Atom} {rows : List (OpRow × List Upd)} {out : List RunIncl}
    (h : computeRuns (rows.map (·.1)) = .ok out) : ∃ P, codegenFn N rows = .ok P ∧ FnOk N rows out P := by
  unfold codegenFn
  rw [h]
  refine ⟨_, rfl, rfl, ?_⟩
  intro q
  simp only
  rw [List.getElem?_map, List.getElem?_zipIdx]
  rw [List.zip, List.getElem?_zipWith]
  cases out[q]? <;> cases rows[q]? <;> simp

theorem FnOk.run {N : NFA U8Atom} {rows out P} (h : FnOk N rows out P) {q : Nat} {r}
    (hq : P.fns[q]?.join = some (.run r)) : out[q]? = some (.start r) := by
  rw [h.get] at hq
  split at hq
  · rename_i i x h1 h2
    unfold fnOf at hq
    split at hq
    · simp at hq
    split at hq
    · simp at hq; rw [h1, hq]
    · simp at hq
    · simp at hq
  · simp at hq

theorem FnOk.normal {N : NFA U8Atom} {rows out P} (h : FnOk N rows out P) {q : Nat} {acc row}
    (hq : P.fns[q]?.join = some (.normal acc row)) : rows[q]? = some (row, acc) ∧ N.opExcluded q = false ∧
      (out[q]? = some .stop ∨ out[q]? = some RunIncl.none) := by
  rw [h.get] at hq
  split at hq
  · rename_i i x h1 h2
    unfold fnOf at hq
    split at hq
    · simp at hq
    rename_i hex
    split at hq
    · simp at hq
    · simp at hq
    · rename_i hn1 hn2
      injection hq with hq
      injection hq with hq1 hq2
      refine ⟨by rw [h2, ← hq1, ← hq2], by simpa using hex, ?_⟩
      rw [h1]
      cases i with
      | start r => exact absurd rfl (hn1 r)
      | internal => exact absurd rfl hn2
      | stop => exact Or.inl rfl
      | none => exact Or.inr rfl
  · simp at hq

theorem FnOk.defined {N : NFA U8Atom} {rows out P} (h : FnOk N rows out P) (hlen : out.length = rows.length) {q : Nat}
    (hq : q < rows.length) (hex : N.opExcluded q = false) (hi : out[q]? ≠ some .internal) :
    ∃ f, P.fns[q]?.join = some f := by
  rw [h.get]
  have h1 : out[q]? = some out[q] := List.getElem?_eq_getElem (by omega)
  have h2 : rows[q]? = some rows[q] := List.getElem?_eq_getElem hq
  rw [h1, h2]
  simp only
  unfold fnOf
  rw [hex]
  rw [h1] at hi
  cases ho : out[q] with
  | start r => exact ⟨_, rfl⟩
  | internal => rw [ho] at hi; exact absurd rfl hi
  | stop => exact ⟨_, rfl⟩
  | none => exact ⟨_, rfl⟩

/-- The target of a transition of a state that has a normal function is not inside a run. -/
theorem target_ok {N : NFA U8Atom} (hN : Ready N) {rows : List (OpRow × List Upd)} (hT : OpTable N rows) {out}
    (hR : RunsOk rows out) {q : Nat} {r t} (hr : rows[q]? = some r) (ht : t ∈ r.1)
    (ho : out[q]? = some .stop ∨ out[q]? = some RunIncl.none) : out[t.2.state]? ≠ some .internal := by
  intro hi
  obtain ⟨_, q', n, h1, h2, h3⟩ := hR.internal _ hi
  have := (next_spec hN hT h1).uniq q r hr t ht h2.symm
  subst this
  rcases ho with ho | ho
  · rw [hR.stop q ho] at h1; simp at h1
  · exact h3 ho

theorem zero_ok {N : NFA U8Atom} (hN : Ready N) {rows : List (OpRow × List Upd)} (hT : OpTable N rows) {out}
    (hR : RunsOk rows out) {f : Nat → Nat} (hf2 : ∀ x y, N.Edge x y → f x < f y)
    (hf3 : ∀ q < N.length, f 0 ≤ f q) : out[0]? ≠ some .internal := by
  intro hi
  obtain ⟨_, q', n, h1, h2, h3⟩ := hR.internal _ hi
  have he := (next_spec hN hT h1).edge
  rw [h2] at he
  have := hf2 _ _ (edge_iff.mpr ⟨_, he⟩)
  have := hf3 q' (hasEdge_lt he)
  omega

theorem fnGuard_eq {q off : Nat} {start : Bool} (hs : start = (off == 0)) (hq : off = 0 → q = 0) (u : Upd) :
    fnGuard q start u = opGuard off u := by
  unfold fnGuard opGuard
  subst hs
  cases u.endOnly <;> cases u.startOnly <;> simp
  by_cases h : off = 0
  · rw [hq h, h]; simp
  · by_cases hq0 : q = 0 <;> simp [h, hq0]

theorem fnEnd_eq {N : NFA U8Atom} {rows : List (OpRow × List Upd)} (hT : OpTable N rows)
    {text : List UInt8} {q caps row acc start} (h : OpAt N text (unitLen U8Atom text) [] q caps)
    (hr : rows[q]? = some (row, acc)) (hs : start = (text.length == 0)) (hq : text.length = 0 → q = 0)
    (hacc : acc.length ≤ 1) :
    OpResult N text (.ok (fnEndTest q start acc)) (fnEndExec q text.length caps start acc) := by
  obtain ⟨f1, f2⟩ := final_spec hT h hr
  simp only at f1 f2
  match acc, hacc with
  | [], _ =>
    refine Or.inl ⟨rfl, rfl, ?_⟩
    rw [f1]; simp
  | [u], _ =>
    obtain ⟨caps', g1, g2⟩ := f2 u (by simp)
    unfold fnEndTest fnEndExec
    simp only [g1]
    subst hs
    cases hu : u.startOnly with
    | false =>
      refine Or.inr ⟨caps', by simp [hu], by simp, g2 (by simp [hu])⟩
    | true =>
      by_cases ht : text.length = 0
      · refine Or.inr ⟨caps', ?_, ?_, g2 (fun _ => ht)⟩
        · rw [hq ht]; simp [hu, ht]
        · rw [hq ht]; simp [ht]
      · refine Or.inl ⟨?_, ?_, ?_⟩
        · by_cases hq0 : q = 0 <;> simp [hu, ht, hq0]
        · by_cases hq0 : q = 0 <;> simp [ht, hq0]
        · rw [f1]; simp [hu, ht]

theorem unitLen_snoc {pre : List UInt8} {c : UInt8} : unitLen U8Atom (pre ++ [c]) = unitLen U8Atom pre + 1 := by
  rw [unitLen_append]; simp [unitLen, Sym.len]

/-- A run does what the single steps of the states inside it do. -/
theorem chain_run {N : NFA U8Atom} (hN : Ready N) {rows : List (OpRow × List Upd)} (hT : OpTable N rows)
    {text : List UInt8} {q as xs p} (hc : RunChain (nextOf rows) q as xs p) : ∀ (rest pre : List UInt8) (off : Nat)
      (caps : Slots), text = pre ++ rest → off = unitLen U8Atom pre → OpAt N text off rest q caps →
      (runCheck as rest = true ∧ as.length ≤ rest.length ∧
        OpAt N text (off + as.length) (rest.drop as.length) p caps) ∨
      (runCheck as rest = false ∧ ¬ N.At text (N.length - 1) (unitLen U8Atom text) []) := by
  induction hc with
  | nil => intro rest pre off caps _ _ h; exact Or.inl ⟨by simp [runCheck], by simp, by simpa using h⟩
  | @cons q n as xs p h1 h2 ih =>
    intro rest pre off caps ht ho h
    obtain ⟨hr, he, _, _⟩ := next_spec hN hT h1
    cases rest with
    | nil =>
      right
      rw [List.append_nil] at ht
      subst ht
      rw [ho] at h
      refine ⟨rfl, ?_⟩
      rw [(final_spec hT h hr).1]
      simp
    | cons c cs =>
      rw [runCheck]
      have ht' : text = (pre ++ [c]) ++ cs := by rw [ht]; simp
      have ho' : off + 1 = unitLen U8Atom (pre ++ [c]) := by rw [unitLen_snoc, ho]
      cases hch : n.range.check c with
      | false =>
        right
        refine ⟨by simp, no_seed ht' ho' ?_ _⟩
        intro s hs
        obtain ⟨t, h3, h4, _, _⟩ := (seed_step hT ht ho h.uniq hr s).mp hs
        simp only [List.mem_singleton] at h3
        subst h3
        rw [hch] at h4; simp at h4
      | true =>
        obtain ⟨caps', h3, h4⟩ := h.step hT ht ho hr (t := (n.range, opSummary N.numCaptureGroups n.dst []))
          (by simp) hch (by simp [opGuard, opSummary])
        simp only at h3 h4
        rw [tagsOf_new] at h3
        injection h3 with h3
        subst h3
        rcases ih cs _ _ _ ht' ho' h4 with ⟨g1, g2, g3⟩ | ⟨g1, g2⟩
        · left
          refine ⟨by simp [g1], by simpa using g2, ?_⟩
          rw [show off + (n.range :: as).length = off + 1 + as.length by simp; omega]
          simpa using g3
        · right; exact ⟨by simp [g1], g2⟩

/-- `test` and `exec` of the functional program. -/
theorem fnLoop_spec {N : NFA U8Atom} (hN : Ready N) {rows : List (OpRow × List Upd)} (hT : OpTable N rows) {out P}
    (hR : RunsOk rows out) (hP : FnOk N rows out P)
    (hacc : ∀ (q : Nat) acc row, P.fns[q]?.join = some (Fn.normal acc row) → acc.length ≤ 1) (text : List UInt8) :
    ∀ (k : Nat) (rest pre : List UInt8) (off q : Nat) (caps : Slots) (start : Bool), rest.length < k →
      text = pre ++ rest → off = unitLen U8Atom pre → OpAt N text off rest q caps → start = (off == 0) →
      (off = 0 → q = 0) → out[q]? ≠ some .internal →
      OpResult N text (P.testLoop k q rest start) (P.execLoop k q rest off caps start) := by
  intro k
  induction k with
  | zero => intro rest _ _ _ _ _ h; omega
  | succ k ih =>
    intro rest pre off q caps start hk ht ho h hs h0 hi
    have hq : q < rows.length := by rw [hT.len]; exact h.lt hN
    have hex := seed_excluded ((h.uniq q).mpr rfl)
    obtain ⟨f, hf⟩ := hP.defined hR.len hq hex hi
    unfold FnProg.testLoop FnProg.execLoop
    rw [hf]
    cases f with
    | run r =>
      simp only
      obtain ⟨xs, c1, c2, c3, c4, _⟩ := hR.start q r (hP.run hf)
      have hpos : 0 < r.symbols.length := List.length_pos_iff.mpr c2
      rcases chain_run hN hT c1 rest pre off caps ht ho h with ⟨g1, g2, g3⟩ | ⟨g1, g2⟩
      · rw [g1, c3]
        simp only [if_true, List.foldlM_nil]
        refine ih (rest.drop r.symbols.length) (pre ++ rest.take r.symbols.length) _ _ _ _ ?_ ?_ ?_ g3 ?_ ?_ ?_
        · rw [List.length_drop]; omega
        · rw [List.append_assoc, List.take_append_drop]; exact ht
        · rw [unitLen_append, unitLen_u8 (rest.take _), List.length_take, ho, Nat.min_eq_left g2]
        · symm; rw [beq_eq_false_iff_ne]; omega
        · intro hh; omega
        · intro hh
          exact (hR.internal _ hh).1 c4
      · rw [g1]
        exact Or.inl ⟨by simp, by simp, g2⟩
    | normal acc row =>
      obtain ⟨hr, _, hst⟩ := hP.normal hf
      simp only
      cases rest with
      | nil =>
        simp only
        rw [List.append_nil] at ht
        subst ht
        have hl : off = text.length := by rw [ho, unitLen_u8]
        rw [hl] at hs h0 ⊢
        rw [ho] at h
        exact fnEnd_eq hT h hr hs h0 (hacc q acc row hf)
      | cons c cs =>
        simp only
        have ht' : text = (pre ++ [c]) ++ cs := by rw [ht]; simp
        have ho' : off + 1 = unitLen U8Atom (pre ++ [c]) := by rw [unitLen_snoc, ho]
        cases hfd : row.find? (fun t => t.1.check c && fnGuard q start t.2) with
        | none =>
          refine Or.inl ⟨rfl, rfl, no_seed ht' ho' ?_ _⟩
          intro s hs'
          obtain ⟨t, h3, h4, h5, _⟩ := (seed_step hT ht ho h.uniq hr s).mp hs'
          have := List.find?_eq_none.mp hfd t h3
          rw [fnGuard_eq hs h0, h4, h5] at this
          simp at this
        | some t =>
          have h1 := List.mem_of_find?_eq_some hfd
          have h2 := List.find?_some hfd
          rw [Bool.and_eq_true, fnGuard_eq hs h0] at h2
          obtain ⟨caps', h5, h6⟩ := h.step hT ht ho hr h1 h2.1 h2.2
          simp only
          rw [h5]
          refine ih cs _ _ _ _ _ ?_ ht' ho' h6 ?_ ?_ (target_ok hN hT hR hr h1 hst)
          · simp only [List.length_cons] at hk; omega
          · simp
          · omega

end Ere
