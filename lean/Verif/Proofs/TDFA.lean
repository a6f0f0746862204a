import Verif.Proofs.Split
import Verif.Proofs.FlatExec
import Mathlib.Data.List.Induction

/-! Construction of the tagged DFA: `new_start_state`, `expand`, `from_nfa`. -/

namespace Ere

/-! ### States and their transitions -/

/-- The threads a range leads to. -/
def rangeItems (r : U8Atom × List TItem) : List TItem := dedupByKey TItem.dst [] r.2

/-- A transition made from a range; `names` are the thread lists of the states. -/
structure TransOk (names : List (List Nat)) (t : TTrans) (r : U8Atom × List TItem) : Prop where
  symbol : t.symbol = r.1
  copy : t.copy = (rangeItems r).map (·.src)
  add : t.add = (rangeItems r).zipIdx.flatMap (fun p => p.1.prop.tags.map (fun g => (p.2, g)))
  dst : names[t.dst]? = some ((rangeItems r).map (·.dst))

theorem TransOk.mono {names more : List (List Nat)} {t r} (h : TransOk names t r) :
    TransOk (names ++ more) t r := by
  refine ⟨h.symbol, h.copy, h.add, ?_⟩
  rw [List.getElem?_append_left (List.getElem?_eq_some_iff.mp h.dst).1]
  exact h.dst

/-- The transitions of a state that has been expanded: `first` tells whether start anchors may be
crossed. -/
def ItemsOk (N : NFA U8Atom) (first : Bool) (L : List Nat) (items : List (U8Atom × TItem)) : Prop :=
  ∀ a it, (a, it) ∈ items ↔ ∃ q ls p, L[it.src]? = some q ∧ EWalk N q ls p ∧ it.prop = walkSummary p ls ∧
    EpsType.endAnchor ∉ ls ∧ (first = false → EpsType.startAnchor ∉ ls) ∧ N.HasEdge p (.sym a) it.dst

/-- The accept of a state. -/
structure AcceptOk (N : NFA U8Atom) (L : List Nat) (acc : TAccept) : Prop where
  some : ∀ a, acc.final = some a → ∃ q ls, L[a.state]? = some q ∧ EWalk N q ls (N.length - 1) ∧
    a.add = (walkSummary (N.length - 1) ls).tags
  none : acc.final = none → ∀ q ∈ L, ∀ ls, ¬ EWalk N q ls (N.length - 1)
  always : acc.untag = .always → ∃ q ∈ L, ∃ ls, EWalk N q ls (N.length - 1) ∧ EpsType.endAnchor ∉ ls

/-- The threads that may cross a symbol before the end of the text: `first` tells whether start anchors may
be crossed. -/
def keepProp (first : Bool) (p : EpsProp) : Bool := !p.endOnly && (first || !p.startOnly)

/-- The order of the transitions: thread by thread, propagation by propagation. -/
def ItemsOrd (N : NFA U8Atom) (first : Bool) (L : List Nat) (items : List (U8Atom × TItem)) : Prop :=
  ∃ P : Nat → List EpsProp, (∀ q ∈ L, N.epsProps q = .ok (P q)) ∧
    items = L.zipIdx.flatMap (fun x => propItems N x.2 ((P x.1).filter (keepProp first)))

/-- The order in which the accept was found. -/
def AcceptOrd (N : NFA U8Atom) (L : List Nat) (acc : TAccept) : Prop :=
  ∃ P : Nat → List EpsProp, (∀ q ∈ L, N.epsProps q = .ok (P q)) ∧
    acc = L.zipIdx.foldl (fun a x => a.update (.ofProps x.2 (P x.1) (N.length - 1))) .none

/-- A state after its expansion. -/
structure Expanded (N : NFA U8Atom) (first : Bool) (L : List Nat) (names : List (List Nat)) (s : TState) : Prop where
  nfa : s.nfa = L
  trans : ∃ items, ItemsOk N first L items ∧ List.Forall₂ (TransOk names) s.trans (splitRanges items) ∧
    ItemsOrd N first L items
  accept : AcceptOk N L s.accept
  order : AcceptOrd N L s.accept

theorem Expanded.mono {N first L names more s} (h : Expanded N first L names s) :
    Expanded N first L (names ++ more) s := by
  obtain ⟨items, h1, h2, h3⟩ := h.trans
  exact { h with trans := ⟨items, h1, h2.imp fun _ _ h => h.mono, h3⟩ }

theorem mem_propItems {N : NFA U8Atom} {i : Nat} {props : List EpsProp} {a it} :
    (a, it) ∈ propItems N i props ↔ it.src = i ∧ it.prop ∈ props ∧
      N.HasEdge it.prop.state (.sym a) it.dst := by
  unfold propItems
  rw [List.mem_flatMap]
  constructor
  · rintro ⟨p, hp, hm⟩
    split at hm
    · rename_i s hs
      obtain ⟨t, ht, he⟩ := List.mem_map.mp hm
      injection he with h1 h2
      subst h1 h2
      exact ⟨rfl, hp, s, hs, ht⟩
    · simp at hm
  · rintro ⟨rfl, hp, s, hs, ht⟩
    refine ⟨it.prop, hp, ?_⟩
    rw [hs]
    exact List.mem_map.mpr ⟨_, ht, rfl⟩

/-! ### Accepts -/

theorem ofProps_final {i : Nat} {props : List EpsProp} {acc : Nat} :
    (∀ a, (TAccept.ofProps i props acc).final = some a → a.state = i ∧ ∃ p ∈ props, p.state = acc ∧ a.add = p.tags) ∧
    ((TAccept.ofProps i props acc).final = none → ∀ p ∈ props, p.state ≠ acc) ∧
    ((TAccept.ofProps i props acc).untag = .always → ∃ p ∈ props, p.state = acc ∧ p.endOnly = false) := by
  unfold TAccept.ofProps
  simp only
  have hmem : ∀ (x : EpsProp) k, (x, k) ∈ (props.filter (fun p => p.state == acc)).zipIdx →
      x ∈ props ∧ x.state = acc := by
    intro x k h
    have := List.mem_of_getElem? (List.mem_zipIdx_iff_getElem?.mp h)
    simpa using List.mem_filter.mp this
  have hin : ∀ p ∈ props, p.state = acc → ∃ k, (p, k) ∈ (props.filter (fun p => p.state == acc)).zipIdx := by
    intro p hp hs
    have : p ∈ props.filter (fun p => p.state == acc) := List.mem_filter.mpr ⟨hp, by simpa using hs⟩
    obtain ⟨k, hk⟩ := List.mem_iff_getElem?.mp this
    exact ⟨k, List.mem_zipIdx_iff_getElem?.mpr hk⟩
  cases h1 : (props.filter (fun p => p.state == acc)).zipIdx.find? (fun p => p.1.endOnly) with
  | none =>
    cases h2 : (props.filter (fun p => p.state == acc)).zipIdx.find? (fun p => !p.1.endOnly) with
    | none =>
      refine ⟨by simp [TAccept.final], ?_, by simp [TAccept.untag]⟩
      intro _ p hp hs
      obtain ⟨k, hk⟩ := hin p hp hs
      have a1 := List.find?_eq_none.mp h1 _ hk
      have a2 := List.find?_eq_none.mp h2 _ hk
      simp at a1 a2
      rw [a1] at a2; simp at a2
    | some u =>
      obtain ⟨u, ku⟩ := u
      obtain ⟨m1, m2⟩ := hmem _ _ (List.mem_of_find?_eq_some h2)
      have m3 := List.find?_some h2
      simp only [Bool.not_eq_true'] at m3
      refine ⟨?_, by simp [TAccept.final], fun _ => ⟨u, m1, m2, m3⟩⟩
      intro a ha
      simp only [TAccept.final, Option.some.injEq] at ha
      subst ha
      exact ⟨rfl, u, m1, m2, rfl⟩
  | some a =>
    obtain ⟨a, ka⟩ := a
    obtain ⟨n1, n2⟩ := hmem _ _ (List.mem_of_find?_eq_some h1)
    cases h2 : (props.filter (fun p => p.state == acc)).zipIdx.find? (fun p => !p.1.endOnly) with
    | none =>
      refine ⟨?_, by simp [TAccept.final], by simp [TAccept.untag]⟩
      intro b hb
      simp only [TAccept.final, Option.some.injEq] at hb
      subst hb
      exact ⟨rfl, a, n1, n2, rfl⟩
    | some u =>
      obtain ⟨u, ku⟩ := u
      obtain ⟨m1, m2⟩ := hmem _ _ (List.mem_of_find?_eq_some h2)
      have m3 := List.find?_some h2
      simp only [Bool.not_eq_true'] at m3
      simp only
      split
      · refine ⟨?_, by simp [TAccept.final], fun _ => ⟨u, m1, m2, m3⟩⟩
        intro b hb
        simp only [TAccept.final, Option.some.injEq] at hb
        subst hb
        exact ⟨rfl, a, n1, n2, rfl⟩
      · refine ⟨?_, by simp [TAccept.final], fun _ => ⟨u, m1, m2, m3⟩⟩
        intro b hb
        simp only [TAccept.final, Option.some.injEq] at hb
        subst hb
        exact ⟨rfl, u, m1, m2, rfl⟩

theorem update_final (x y : TAccept) :
    (∀ a, (x.update y).final = some a → x.final = some a ∨ y.final = some a) ∧
    ((x.update y).final = none → x.final = none ∧ y.final = none) ∧
    ((x.update y).untag = .always → x.untag = .always ∨ y.untag = .always) := by
  cases x <;> cases y <;> simp [TAccept.update, TAccept.final, TAccept.untag]

theorem acceptOk_nil {N : NFA U8Atom} : AcceptOk N [] .none :=
  ⟨by simp [TAccept.final], by simp, by simp [TAccept.untag]⟩

theorem acceptOk_snoc {N : NFA U8Atom} {L : List Nat} {acc : TAccept} (h : AcceptOk N L acc) {q : Nat}
    {props : List EpsProp} (hp : ∀ t, t ∈ props ↔ ∃ p ls, EWalk N q ls p ∧ t = walkSummary p ls) :
    AcceptOk N (L ++ [q]) (acc.update (.ofProps L.length props (N.length - 1))) := by
  obtain ⟨u1, u2, u3⟩ := update_final acc (.ofProps L.length props (N.length - 1))
  obtain ⟨o1, o2, o3⟩ := ofProps_final (i := L.length) (props := props) (acc := N.length - 1)
  refine ⟨?_, ?_, ?_⟩
  · intro a ha
    rcases u1 a ha with h1 | h1
    · obtain ⟨q', ls, h2, h3, h4⟩ := h.some a h1
      refine ⟨q', ls, ?_, h3, h4⟩
      rw [List.getElem?_append_left (List.getElem?_eq_some_iff.mp h2).1]; exact h2
    · obtain ⟨h2, p, h3, h4, h5⟩ := o1 a h1
      obtain ⟨p', ls, h6, rfl⟩ := (hp p).mp h3
      have : p' = N.length - 1 := h4
      subst this
      exact ⟨q, ls, by rw [h2]; simp, h6, h5⟩
  · intro hn q' hq' ls hw
    obtain ⟨h1, h2⟩ := u2 hn
    rcases List.mem_append.mp hq' with h3 | h3
    · exact h.none h1 q' h3 ls hw
    · simp only [List.mem_singleton] at h3
      subst h3
      exact o2 h2 _ ((hp _).mpr ⟨_, ls, hw, rfl⟩) rfl
  · intro ha
    rcases u3 ha with h1 | h1
    · obtain ⟨q', h2, h3⟩ := h.always h1
      exact ⟨q', by simp [h2], h3⟩
    · obtain ⟨p, h2, h3, h4⟩ := o3 h1
      obtain ⟨p', ls, h6, rfl⟩ := (hp p).mp h2
      have : p' = N.length - 1 := h3
      subst this
      exact ⟨q, by simp, ls, h6, by simpa [walkSummary] using h4⟩

theorem acceptOk_single {N : NFA U8Atom} {q : Nat}
    {props : List EpsProp} (hp : ∀ t, t ∈ props ↔ ∃ p ls, EWalk N q ls p ∧ t = walkSummary p ls) :
    AcceptOk N [q] (.ofProps 0 props (N.length - 1)) := by
  have := acceptOk_snoc (acceptOk_nil (N := N)) hp
  simpa [TAccept.update] using this

/-! ### Ranges to transitions -/

theorem findIdx_spec {names : List (List Nat)} {n : List Nat} {i : Nat}
    (h : names.findIdx? (· == n) = some i) : names[i]? = some n := by
  obtain ⟨h1, h2, _⟩ := List.findIdx?_eq_some_iff_getElem.mp h
  rw [List.getElem?_eq_getElem h1]
  simpa using h2

theorem addRange_fold (curr : List (List Nat)) (rs : List (U8Atom × List TItem))
    (acc : List TTrans × List (List Nat)) (done : List (U8Atom × List TItem))
    (hnd : (curr ++ acc.2).Nodup) (h : List.Forall₂ (TransOk (curr ++ acc.2)) acc.1 done) :
    (curr ++ (rs.foldl (addRange curr) acc).2).Nodup ∧
    List.Forall₂ (TransOk (curr ++ (rs.foldl (addRange curr) acc).2)) (rs.foldl (addRange curr) acc).1 (done ++ rs) ∧
    ∀ n ∈ (rs.foldl (addRange curr) acc).2, n ∈ acc.2 ∨ ∃ r ∈ rs, n = (rangeItems r).map (·.dst) := by
  induction rs generalizing acc done with
  | nil => exact ⟨hnd, by simpa using h, fun n hn => Or.inl hn⟩
  | cons r rs ih =>
    rw [List.foldl_cons]
    have hstep : (curr ++ (addRange curr acc r).2).Nodup ∧
        List.Forall₂ (TransOk (curr ++ (addRange curr acc r).2)) (addRange curr acc r).1 (done ++ [r]) ∧
        ∀ n ∈ (addRange curr acc r).2, n ∈ acc.2 ∨ n = (rangeItems r).map (·.dst) := by
      unfold addRange
      simp only
      split
      · rename_i i hi
        refine ⟨hnd, List.rel_append h (.cons ⟨rfl, rfl, rfl, ?_⟩ .nil), fun n hn => Or.inl hn⟩
        exact findIdx_spec hi
      · rename_i hi
        have hnot : (rangeItems r).map (·.dst) ∉ curr ++ acc.2 := by
          intro hm
          have := List.findIdx?_eq_none_iff.mp hi _ hm
          simp [rangeItems] at this
        refine ⟨?_, List.rel_append ?_ (.cons ⟨rfl, rfl, rfl, ?_⟩ .nil), ?_⟩
        · rw [← List.append_assoc, List.nodup_append]
          refine ⟨hnd, by simp, ?_⟩
          intro a ha b hb
          simp only [List.mem_singleton] at hb
          subst hb
          rintro rfl
          exact hnot ha
        · rw [← List.append_assoc]
          exact h.imp fun _ _ h => h.mono
        · rw [← List.append_assoc, List.getElem?_append_right (by simp)]
          simp [rangeItems]
        · intro n hn
          rcases List.mem_append.mp hn with h1 | h1
          · exact Or.inl h1
          · simp only [List.mem_singleton] at h1; exact Or.inr h1
    obtain ⟨s1, s2, s3⟩ := hstep
    obtain ⟨g1, g2, g3⟩ := ih _ _ s1 s2
    refine ⟨g1, by simpa using g2, ?_⟩
    intro n hn
    rcases g3 n hn with h1 | ⟨r', h1, h2⟩
    · rcases s3 n h1 with h2 | h2
      · exact Or.inl h2
      · exact Or.inr ⟨r, by simp, h2⟩
    · exact Or.inr ⟨r', by simp [h1], h2⟩

/-- Thread lists only name states of the automaton, each once. -/
def NamesOk (N : NFA U8Atom) (names : List (List Nat)) : Prop :=
  ∀ n ∈ names, (∀ q ∈ n, q < N.length) ∧ n.Nodup

theorem ranges_names {N : NFA U8Atom} (hN : N.WF) {first L items} (h : ItemsOk N first L items)
    {r} (hr : r ∈ splitRanges items) : (∀ q ∈ (rangeItems r).map (·.dst), q < N.length) ∧
      ((rangeItems r).map (·.dst)).Nodup := by
  refine ⟨?_, dedupByKey_nodup _ _ _⟩
  intro q hq
  obtain ⟨it, hit, rfl⟩ := List.mem_map.mp hq
  have h1 := (dedupByKey_sub _ _ _ it hit).1
  obtain ⟨s1, s2, s3⟩ := splitRanges_spec items
  obtain ⟨rr, vs⟩ := r
  have hle := (s2 _ hr).1
  have hck : rr.check rr.lo = true := by
    simp only at hle
    unfold U8Atom.check; simp [hle]
  have := ((s3 rr.lo vs).mp ⟨rr, hr, hck⟩).1
  simp only at h1
  rw [this] at h1
  unfold itemsAt at h1
  obtain ⟨⟨a, it'⟩, h2, rfl⟩ := List.mem_map.mp h1
  obtain ⟨_, _, _, _, _, _, _, _, h3⟩ := (h a it').mp (List.mem_filter.mp h2).1
  exact hN _ _ _ h3

theorem newStartState_spec {N : NFA U8Atom} (hN : N.WF) (hne : N ≠ []) :
    ∃ s new, newStartState N = .ok (s, new) ∧ Expanded N true [0] new s ∧ new.Nodup ∧ NamesOk N new := by
  obtain ⟨R, h1, _, h2⟩ := epsProps_spec hN (q := 0) (List.length_pos_iff.mpr hne)
  have hitems : ItemsOk N true [0] (propItems N 0 (R.filter (fun p => !p.endOnly))) := by
    intro a it
    rw [mem_propItems, List.mem_filter, h2]
    constructor
    · rintro ⟨e1, ⟨⟨p, ls, h3, h4⟩, h5⟩, h6⟩
      refine ⟨0, ls, p, by rw [e1]; rfl, h3, h4, ?_, by simp, ?_⟩
      · rw [h4] at h5; simpa [walkSummary] using h5
      · rw [h4] at h6; exact h6
    · rintro ⟨q, ls, p, e1, h3, h4, h5, _, h6⟩
      have hs : it.src = 0 := by
        have := (List.getElem?_eq_some_iff.mp e1).1
        simpa using this
      rw [hs] at e1
      simp at e1
      subst e1
      refine ⟨hs, ⟨⟨p, ls, h3, h4⟩, ?_⟩, ?_⟩
      · rw [h4]; simpa [walkSummary] using h5
      · rw [h4]; exact h6
  obtain ⟨g1, g2, g3⟩ := addRange_fold [] (splitRanges (propItems N 0 (R.filter (fun p => !p.endOnly))))
    ([], []) [] (by simp) .nil
  rw [List.nil_append] at g2 g1
  have hord : ItemsOrd N true [0] (propItems N 0 (R.filter (fun p => !p.endOnly))) := by
    refine ⟨fun _ => R, by simpa using h1, ?_⟩
    have : (fun p : EpsProp => !p.endOnly) = keepProp true := by funext p; simp [keepProp]
    simp [this]
  have hacc : AcceptOrd N [0] (.ofProps 0 R (N.length - 1)) := ⟨fun _ => R, by simpa using h1, by simp [TAccept.update]⟩
  refine ⟨⟨[0], _, _⟩, _, ?_, ⟨rfl, ⟨_, hitems, g2, hord⟩, acceptOk_single h2, hacc⟩, g1, ?_⟩
  · unfold newStartState
    rw [if_neg (by simpa using hne), h1]
    rfl
  · intro n hn
    rcases g3 n hn with h | ⟨r, hr, rfl⟩
    · simp at h
    · exact ranges_names hN hitems hr

theorem expandThreads_spec {N : NFA U8Atom} (hN : N.WF) (L : List Nat) (hL : ∀ q ∈ L, q < N.length) :
    ∃ acc items, L.zipIdx.foldlM (expandThread N) (.none, []) = .ok (acc, items) ∧
      AcceptOk N L acc ∧ ItemsOk N false L items ∧ AcceptOrd N L acc ∧ ItemsOrd N false L items := by
  induction L using List.reverseRecOn with
  | nil =>
    refine ⟨.none, [], rfl, acceptOk_nil, ?_, ⟨fun _ => [], by simp, rfl⟩, ⟨fun _ => [], by simp, rfl⟩⟩
    intro a it; simp
  | append_singleton L q ih =>
    obtain ⟨acc, items, h1, h2, h3, ⟨P, o1, o2⟩, ⟨P', o3, o4⟩⟩ := ih (fun q' hq' => hL q' (by simp [hq']))
    obtain ⟨R, h4, _, h5⟩ := epsProps_spec hN (hL q (by simp))
    have hext : ∀ P : Nat → List EpsProp, (∀ q ∈ L, N.epsProps q = .ok (P q)) →
        ∃ P' : Nat → List EpsProp, (∀ q' ∈ L ++ [q], N.epsProps q' = .ok (P' q')) ∧ P' q = R ∧ ∀ q ∈ L, P' q = P q := by
      intro P hP
      refine ⟨fun x => if x = q then R else P x, ?_, by simp, ?_⟩
      · intro x hx
        simp only
        split
        · rename_i hxq; rw [hxq, h4]
        · rename_i hxq
          rcases List.mem_append.mp hx with hx | hx
          · exact hP x hx
          · exact absurd (List.mem_singleton.mp hx) hxq
      · intro x hx
        simp only
        split
        · rename_i hxq
          subst hxq
          have := hP _ hx
          rw [h4] at this
          exact Except.ok.inj this
        · rfl
    have hmem : ∀ x ∈ L.zipIdx, x.1 ∈ L := by
      rintro ⟨a, i⟩ hx
      exact List.mem_of_getElem? (List.mem_zipIdx_iff_getElem?.mp hx)
    refine ⟨_, items ++ propItems N L.length (R.filter (fun p => !(p.startOnly || p.endOnly))), ?_,
      acceptOk_snoc h2 h5, ?_, ?_, ?_⟩
    · rw [List.zipIdx_append, List.foldlM_append, h1]
      simp only [List.zipIdx_singleton, Nat.zero_add]
      show expandThread N (acc, items) (q, L.length) >>= _ = _
      unfold expandThread
      rw [h4]
      rfl
    · intro a it
      rw [List.mem_append, h3, mem_propItems, List.mem_filter, h5]
      constructor
      · rintro (⟨q', ls, p, e1, e2⟩ | ⟨e1, ⟨⟨p, ls, e2, e3⟩, e4⟩, e5⟩)
        · refine ⟨q', ls, p, ?_, e2⟩
          rw [List.getElem?_append_left (List.getElem?_eq_some_iff.mp e1).1]; exact e1
        · rw [e3] at e4 e5
          simp only [walkSummary, Bool.not_or, Bool.and_eq_true, Bool.not_eq_true', List.contains_eq_mem,
            decide_eq_false_iff_not] at e4
          exact ⟨q, ls, p, by rw [e1]; simp, e2, e3, e4.2, fun _ => e4.1, e5⟩
      · rintro ⟨q', ls, p, e1, e2, e3, e4, e5, e6⟩
        rcases Nat.lt_or_ge it.src L.length with hlt | hge
        · rw [List.getElem?_append_left hlt] at e1
          exact Or.inl ⟨q', ls, p, e1, e2, e3, e4, e5, e6⟩
        · rw [List.getElem?_append_right hge] at e1
          have hs : it.src = L.length := by
            have := (List.getElem?_eq_some_iff.mp e1).1
            simp at this; omega
          rw [hs] at e1
          simp at e1
          subst e1
          refine Or.inr ⟨hs, ⟨⟨p, ls, e2, e3⟩, ?_⟩, ?_⟩
          · rw [e3]
            simp only [walkSummary, Bool.not_or, Bool.and_eq_true, Bool.not_eq_true', List.contains_eq_mem,
              decide_eq_false_iff_not]
            exact ⟨e5 rfl, e4⟩
          · rw [e3]; exact e6
    · obtain ⟨P1, p1, p2, p3⟩ := hext P o1
      refine ⟨P1, p1, ?_⟩
      rw [List.zipIdx_append, List.foldl_append, o2]
      have : ∀ (l : List (Nat × Nat)) (a : TAccept), (∀ x ∈ l, x.1 ∈ L) →
          l.foldl (fun a x => a.update (.ofProps x.2 (P x.1) (N.length - 1))) a =
          l.foldl (fun a x => a.update (.ofProps x.2 (P1 x.1) (N.length - 1))) a := by
        intro l
        induction l with
        | nil => intro a _; rfl
        | cons x l ih =>
          intro a hl
          rw [List.foldl_cons, List.foldl_cons, p3 _ (hl x (by simp))]
          exact ih _ (fun y hy => hl y (by simp [hy]))
      rw [this _ _ hmem]
      simp [p2]
    · obtain ⟨P1, p1, p2, p3⟩ := hext P' o3
      refine ⟨P1, p1, ?_⟩
      rw [List.zipIdx_append, List.flatMap_append, o4]
      congr 1
      · exact List.flatMap_congr fun x hx => by rw [p3 _ (hmem x hx)]
      · have : (fun p : EpsProp => !(p.startOnly || p.endOnly)) = keepProp false := by
          funext p; simp [keepProp, Bool.and_comm]
        rw [this]; simp [p2]

theorem expandState_spec {N : NFA U8Atom} (hN : N.WF) {L : List Nat} (hL : ∀ q ∈ L, q < N.length)
    {curr : List (List Nat)} (hc : curr.Nodup) :
    ∃ s new, expandState N L curr = .ok (s, new) ∧ Expanded N false L (curr ++ new) s ∧
      (curr ++ new).Nodup ∧ NamesOk N new := by
  obtain ⟨acc, items, h1, h2, h3, h4, h5⟩ := expandThreads_spec hN L hL
  obtain ⟨g1, g2, g3⟩ := addRange_fold curr (splitRanges items) ([], []) [] (by simpa using hc) .nil
  rw [List.nil_append] at g2
  refine ⟨⟨L, _, _⟩, _, ?_, ⟨rfl, ⟨_, h3, g2, h5⟩, h2, h4⟩, g1, ?_⟩
  · unfold expandState; rw [h1]
  · intro n hn
    rcases g3 n hn with h | ⟨r, hr, rfl⟩
    · simp at h
    · exact ranges_names hN h3 hr

/-! ### The loop -/

/-- The names of a list of states. -/
abbrev namesOf (states : List TState) : List (List Nat) := states.map (·.nfa)

theorem addStates_spec (maxStates : Nat) (new : List (List Nat)) (states : List TState) (stack : List Nat)
    (hnd : (namesOf states ++ new).Nodup) :
    (addStates maxStates new states stack = none ∧ maxStates < states.length + new.length) ∨
    ∃ st, addStates maxStates new states stack = some (states ++ new.map .stub, st) ∧
      (states.length ≤ maxStates → states.length + new.length ≤ maxStates) ∧
      st = ((List.range new.length).map (· + states.length)).reverse ++ stack := by
  induction new generalizing states stack with
  | nil => exact Or.inr ⟨stack, by simp [addStates], by simp, by simp⟩
  | cons n ns ih =>
    unfold addStates
    have hn : states.any (fun s => s.nfa == n) = false := by
      rw [Bool.eq_false_iff]
      intro h
      obtain ⟨s, h1, h2⟩ := List.any_eq_true.mp h
      rw [List.nodup_append] at hnd
      exact hnd.2.2 s.nfa (List.mem_map.mpr ⟨s, h1, rfl⟩) n (by simp) (by simpa using h2)
    rw [if_neg (by simp [hn])]
    split
    · exact Or.inl ⟨rfl, by simp; omega⟩
    · rcases ih (states ++ [.stub n]) (states.length :: stack) (by
        simpa [namesOf, TState.stub] using hnd) with ⟨h1, h2⟩ | ⟨st, h1, h2, h3⟩
      · exact Or.inl ⟨h1, by simp at h2 ⊢; omega⟩
      · refine Or.inr ⟨st, by rw [h1]; simp, ?_, ?_⟩
        · intro _
          have := h2 (by simp; omega)
          simp at this ⊢; omega
        · rw [h3]
          simp only [List.length_append, List.length_cons, List.length_nil, List.range_succ_eq_map,
            List.map_cons, List.map_map, List.reverse_cons, List.append_assoc, List.singleton_append]
          congr 1
          · congr 1
            apply List.map_congr_left
            intro a _; simp only [Function.comp]; omega
          · simp

/-- What the loop keeps. -/
structure LoopInv (N : NFA U8Atom) (states : List TState) (stack : List Nat) : Prop where
  nodup : (namesOf states).Nodup
  names : NamesOk N (namesOf states)
  bound : ∀ x ∈ stack, x < states.length
  snd : stack.Nodup
  done : ∀ (x : Nat) s, states[x]? = some s → x ∉ stack → Expanded N false s.nfa (namesOf states) s

theorem namesOf_set {states : List TState} {x : Nat} {s s' : TState} (h : states[x]? = some s)
    (hn : s'.nfa = s.nfa) : namesOf (states.set x s') = namesOf states := by
  refine List.ext_getElem? fun i => ?_
  simp only [namesOf, List.getElem?_map, List.getElem?_set]
  split
  · rename_i hi
    subst hi
    split
    · simp [h, hn]
    · rename_i hl; rw [List.getElem?_eq_none (by omega)]
  · rfl

theorem tdfaLoop_spec {N : NFA U8Atom} (hN : N.WF) (maxStates : Nat) : ∀ (k : Nat) (states : List TState)
    (stack : List Nat), LoopInv N states stack → states.length ≤ maxStates →
    stack.length + (maxStates - states.length) ≤ k →
    (tdfaLoop N maxStates k states stack = .ok none ∧
      ∃ names, names.Nodup ∧ NamesOk N names ∧ maxStates < names.length) ∨
    ∃ states', tdfaLoop N maxStates k states stack = .ok (some states') ∧ states'.length ≤ maxStates ∧
      LoopInv N states' [] ∧ ∃ more, namesOf states' = namesOf states ++ more := by
  intro k
  induction k with
  | zero =>
    intro states stack hi hm hk
    have : stack = [] := List.length_eq_zero_iff.mp (by omega)
    subst this
    exact Or.inr ⟨states, by unfold tdfaLoop; rfl, hm, hi, [], by simp⟩
  | succ k ih =>
    intro states stack hi hm hk
    cases stack with
    | nil => exact Or.inr ⟨states, by unfold tdfaLoop; rfl, hm, hi, [], by simp⟩
    | cons x stack =>
      have hx := hi.bound x (by simp)
      have hs := List.getElem?_eq_getElem hx
      obtain ⟨s', new, h1, h2, h3, h4⟩ := expandState_spec hN (L := (states[x]).nfa)
        (hi.names _ (List.mem_map.mpr ⟨_, List.getElem_mem hx, rfl⟩)).1 (curr := namesOf states) hi.nodup
      have hset : namesOf (states.set x s') = namesOf states := namesOf_set hs h2.nfa
      unfold tdfaLoop
      rw [hs]
      simp only
      rw [h1]
      simp only
      rcases addStates_spec maxStates new (states.set x s') stack (by rw [hset]; exact h3) with
        ⟨g1, g2⟩ | ⟨st, g1, g2, g3⟩
      · rw [g1]
        refine Or.inl ⟨rfl, namesOf states ++ new, h3, ?_, by simpa [namesOf] using g2⟩
        intro n hn
        rcases List.mem_append.mp hn with h | h
        · exact hi.names n h
        · exact h4 n h
      · rw [g1]
        simp only
        have hlen : (states.set x s').length = states.length := by simp
        rw [hlen] at g2 g3
        have hnames : namesOf (states.set x s' ++ new.map .stub) = namesOf states ++ new := by
          rw [namesOf, List.map_append, ← namesOf, hset, List.map_map]
          congr 1
          exact List.map_id' new
        have hinv : LoopInv N (states.set x s' ++ new.map .stub) st := by
          have hsn := hi.snd
          rw [List.nodup_cons] at hsn
          refine ⟨by rw [hnames]; exact h3, ?_, ?_, ?_, ?_⟩
          · rw [hnames]
            intro n hn
            rcases List.mem_append.mp hn with h | h
            · exact hi.names n h
            · exact h4 n h
          · intro y hy
            rw [g3] at hy
            rcases List.mem_append.mp hy with h | h
            · rw [List.mem_reverse, List.mem_map] at h
              obtain ⟨z, hz, rfl⟩ := h
              have := List.mem_range.mp hz
              simp; omega
            · have := hi.bound y (by simp [h])
              simp; omega
          · rw [g3, List.nodup_append]
            refine ⟨?_, hsn.2, ?_⟩
            · rw [List.nodup_reverse]
              exact List.Nodup.map (fun a b h => by simpa using h) List.nodup_range
            · intro a ha b hb
              rw [List.mem_reverse, List.mem_map] at ha
              obtain ⟨z, _, rfl⟩ := ha
              have := hi.bound b (by simp [hb])
              omega
          · intro y sy hy hyn
            rw [hnames]
            rw [g3] at hyn
            simp only [List.mem_append, List.mem_reverse, List.mem_map, List.mem_range, not_or, not_exists,
              not_and] at hyn
            rcases Nat.lt_or_ge y states.length with hlt | hge
            · rw [List.getElem?_append_left (by simpa using hlt), List.getElem?_set] at hy
              split at hy
              · rename_i he
                subst he
                injection hy with hy
                subst hy
                rw [h2.nfa]; exact h2
              · rename_i hne
                exact (hi.done y sy hy (by
                  intro hm
                  rcases List.mem_cons.mp hm with h | h
                  · exact hne h.symm
                  · exact hyn.2 h)).mono
            · exfalso
              have hyl := (List.getElem?_eq_some_iff.mp hy).1
              simp at hyl
              exact hyn.1 (y - states.length) (by omega) (by omega)
        have := g2 hm
        rcases ih _ st hinv (by simp; omega) (by
            rw [g3]
            simp only [List.length_append, List.length_reverse, List.length_map, List.length_range,
              List.length_set, List.length_cons] at hk ⊢
            omega) with r1 | ⟨states', r1, r2, r3, more, r4⟩
        · exact Or.inl r1
        · exact Or.inr ⟨states', r1, r2, r3, new ++ more, by rw [r4, hnames, List.append_assoc]⟩

/-! ### The bound -/

theorem addStates_len {m new states stack S st} (h : addStates m new states stack = some (S, st)) :
    states.length ≤ S.length := by
  induction new generalizing states stack with
  | nil => simp [addStates] at h; rw [h.1]
  | cons n ns ih =>
    unfold addStates at h
    split at h
    · exact ih h
    · split at h
      · simp at h
      · have := ih h; simp at this; omega

theorem addStates_bound {m m' new states stack S st} (h : addStates m' new states stack = some (S, st))
    (hS : S.length ≤ m) : addStates m new states stack = some (S, st) := by
  induction new generalizing states stack with
  | nil => simpa [addStates] using h
  | cons n ns ih =>
    unfold addStates at h ⊢
    split at h
    · rename_i hc; rw [if_pos hc]; exact ih h
    · rename_i hc
      rw [if_neg hc]
      split at h
      · simp at h
      · have := addStates_len h
        simp at this
        rw [if_neg (by omega)]
        exact ih h

theorem tdfaLoop_len {N : NFA U8Atom} {m k states stack S} (h : tdfaLoop N m k states stack = .ok (some S)) :
    states.length ≤ S.length := by
  induction k generalizing states stack with
  | zero =>
    cases stack with
    | nil => simp [tdfaLoop] at h; rw [h]
    | cons _ _ => simp [tdfaLoop] at h
  | succ k ih =>
    cases stack with
    | nil => simp [tdfaLoop] at h; rw [h]
    | cons x stack =>
      unfold tdfaLoop at h
      split at h
      · simp at h
      · split at h
        · simp at h
        · split at h
          · simp at h
          · rename_i h1
            have := addStates_len h1
            have := ih h
            simp at *; omega

theorem tdfaLoop_bound {N : NFA U8Atom} {m m' k' states stack S} (h : tdfaLoop N m' k' states stack = .ok (some S))
    (hS : S.length ≤ m) {k R} (hk : tdfaLoop N m k states stack = .ok R) : R = some S := by
  induction k' generalizing states stack k with
  | zero =>
    cases stack with
    | nil => simp [tdfaLoop] at h hk; rw [← h, ← hk]
    | cons _ _ => simp [tdfaLoop] at h
  | succ k' ih =>
    cases stack with
    | nil => simp [tdfaLoop] at h hk; rw [← h, ← hk]
    | cons x stack =>
      cases k with
      | zero => simp [tdfaLoop] at hk
      | succ k =>
        unfold tdfaLoop at h hk
        split at h
        · simp at h
        · rename_i s hs
          rw [hs] at hk
          simp only at hk
          split at h
          · simp at h
          · rename_i s' new he
            rw [he] at hk
            simp only at hk
            split at h
            · simp at h
            · rename_i st' sk' ha
              have hl := tdfaLoop_len h
              rw [addStates_bound ha (by omega)] at hk
              exact ih h hk

/-- What the macro computed: the start state and all other states are expanded. -/
structure TDFAOk (N : NFA U8Atom) (D : TDFA) : Prop where
  start : Expanded N true [0] (namesOf D.states) D.start
  states : ∀ (x : Nat) s, D.states[x]? = some s → Expanded N false s.nfa (namesOf D.states) s
  nodup : (namesOf D.states).Nodup
  names : NamesOk N (namesOf D.states)

/-- Determinisation terminates without a panic; if it gives a result it is within the bound. -/
theorem fromNFA_spec {N : NFA U8Atom} (hN : N.WF) (hne : N ≠ []) (maxStates : Nat) :
    (TDFA.fromNFA N maxStates = .ok none ∧
      ∃ names, names.Nodup ∧ NamesOk N names ∧ maxStates < names.length) ∨
    ∃ D, TDFA.fromNFA N maxStates = .ok (some D) ∧ D.states.length ≤ maxStates ∧ TDFAOk N D := by
  obtain ⟨s, new, h1, h2, h3, h4⟩ := newStartState_spec hN hne
  unfold TDFA.fromNFA
  rw [h1]
  simp only
  split
  · rename_i hlt
    exact Or.inl ⟨rfl, new, h3, h4, hlt⟩
  · rename_i hlt
    have hnm : namesOf (new.map .stub) = new := by
      rw [namesOf, List.map_map]; exact List.map_id' new
    have hinv : LoopInv N (new.map .stub) (List.range new.length).reverse := by
      refine ⟨by rw [hnm]; exact h3, by rw [hnm]; exact h4, ?_, ?_, ?_⟩
      · intro x hx; simpa using hx
      · rw [List.nodup_reverse]; exact List.nodup_range
      · intro x s hs hx
        exfalso
        have := (List.getElem?_eq_some_iff.mp hs).1
        simp at this hx; omega
    rcases tdfaLoop_spec hN maxStates maxStates _ _ hinv (by simp; omega) (by simp; omega) with
      ⟨r1, rn⟩ | ⟨states, r1, r2, r3, more, r4⟩
    · rw [r1]; exact Or.inl ⟨rfl, rn⟩
    · rw [r1]
      refine Or.inr ⟨_, rfl, r2, ?_, fun x s hs => r3.done x s hs (by simp), r3.nodup, r3.names⟩
      simp only
      rw [r4, hnm]; exact h2.mono

/-- The result does not depend on the bound, as long as it is large enough. -/
theorem fromNFA_bound {N : NFA U8Atom} (hN : N.WF) (hne : N ≠ []) {m m' D}
    (h : TDFA.fromNFA N m' = .ok (some D)) (hD : D.states.length ≤ m) : TDFA.fromNFA N m = .ok (some D) := by
  have key : ∀ R, TDFA.fromNFA N m = .ok R → R = some D := by
    intro R hR
    unfold TDFA.fromNFA at h hR
    split at h
    · simp at h
    · rename_i start new hs
      rw [hs] at hR
      simp only at hR
      split at h
      · simp at h
      · split at h
        · simp at h
        · simp at h
        · rename_i states hl
          injection h with h; injection h with h; subst h
          have := tdfaLoop_len hl
          simp at this hD
          rw [if_neg (by omega)] at hR
          split at hR
          · simp at hR
          · rename_i hl2
            have := tdfaLoop_bound hl hD hl2
            simp at this
          · rename_i hl2
            have := tdfaLoop_bound hl hD hl2
            injection this with this
            subst this
            injection hR with hR
            exact hR.symm
  rcases fromNFA_spec hN hne m with ⟨h1, _⟩ | ⟨D', h1, _⟩
  · have := key _ h1; simp at this
  · rw [h1, key _ h1]

end Ere
