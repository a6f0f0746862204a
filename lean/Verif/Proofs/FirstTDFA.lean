import Verif.Proofs.FirstTop
import Verif.Proofs.DfaTop

/-! The tagged DFA keeps the order of the search: `exec` reports the preferred run. -/

namespace Ere

/-! ### First good element of a list -/

/-- The first element that is not bad is good. -/
def FirstIn {β : Type} (bad good : β → Prop) (l : List β) : Prop :=
  ∃ pre x post, l = pre ++ x :: post ∧ (∀ u ∈ pre, bad u) ∧ good x

theorem FirstIn.flatMap {β γ : Type} {bad good : γ → Prop} {f : β → List γ} {pre x post}
    (h : FirstIn bad good (f x)) (hb : ∀ u ∈ pre, ∀ v ∈ f u, bad v) :
    FirstIn bad good ((pre ++ x :: post).flatMap f) := by
  obtain ⟨p, y, q, h1, h2, h3⟩ := h
  refine ⟨pre.flatMap f ++ p, y, q ++ post.flatMap f, ?_, ?_, h3⟩
  · rw [List.flatMap_append, List.flatMap_cons, h1]; simp
  · intro u hu
    rcases List.mem_append.mp hu with hu | hu
    · obtain ⟨v, h4, h5⟩ := List.mem_flatMap.mp hu
      exact hb v h4 u h5
    · exact h2 u hu

theorem FirstIn.dedup {β κ : Type} [DecidableEq κ] {bad good : β → Prop} {key : β → κ} {l : List β}
    (hk : ∀ u v, bad u → good v → key u ≠ key v) (h : FirstIn bad good l) :
    FirstIn bad good (dedupByKey key [] l) := by
  obtain ⟨pre, x, post, rfl, hb, hg⟩ := h
  have : ∀ (pre : List β) (seen : List κ), (∀ u ∈ pre, bad u) → key x ∉ seen →
      FirstIn bad good (dedupByKey key seen (pre ++ x :: post)) := by
    intro pre
    induction pre with
    | nil =>
      intro seen _ hs
      rw [List.nil_append, dedupByKey, if_neg hs]
      exact ⟨[], x, _, rfl, by simp, hg⟩
    | cons u pre ih =>
      intro seen hb hs
      rw [List.cons_append, dedupByKey]
      split
      · exact ih seen (fun v hv => hb v (by simp [hv])) hs
      · obtain ⟨p, y, q, h1, h2, h3⟩ := ih (key u :: seen) (fun v hv => hb v (by simp [hv])) (by
          rw [List.mem_cons, not_or]
          exact ⟨fun h => hk u x (hb u (by simp)) hg h.symm, hs⟩)
        refine ⟨u :: p, y, q, by rw [h1]; rfl, ?_, h3⟩
        intro v hv
        rcases List.mem_cons.mp hv with rfl | hv
        · exact hb v (by simp)
        · exact h2 v hv
  exact this pre [] hb (by simp)

theorem itemsAt_flatMap {β γ : Type} (l : List γ) (f : γ → List (U8Atom × β)) (b : UInt8) :
    itemsAt (l.flatMap f) b = l.flatMap (fun x => itemsAt (f x) b) := by
  induction l with
  | nil => rfl
  | cons x l ih =>
    rw [List.flatMap_cons, List.flatMap_cons, ← ih]
    simp [itemsAt]

theorem itemsAt_map (ts : List (Trans U8Atom)) (g : Trans U8Atom → TItem) (b : UInt8) :
    itemsAt (ts.map (fun t => (t.symbol, g t))) b = (ts.filter (fun t => Sym.check t.symbol b)).map g := by
  induction ts with
  | nil => rfl
  | cons t ts ih =>
    rw [List.map_cons, List.filter_cons]
    unfold itemsAt at ih ⊢
    rw [List.filter_cons]
    simp only
    by_cases h : t.symbol.check b = true
    · rw [if_pos h, if_pos (show Sym.check t.symbol b = true from h), List.map_cons, List.map_cons, ih]
    · rw [if_neg h, if_neg (show ¬ Sym.check t.symbol b = true from h), ih]

/-! ### One state -/

/-- The first thread of a closure that leads on. -/
theorem props_first {σ α : Type} [DecidableEq σ] [Sym σ α] {N : NFA σ} (hN : Ready N) {k q off : Nat} {rest : List α}
    {caps y} (hot : Hot N k off rest q caps y) {R : List EpsProp} (hR : N.epsProps q = .ok R) :
    ∃ pre t post ls, R = pre ++ t :: post ∧ N.Rest t.state ∧ AnchorOk off rest t ∧
      EWalk N q ls t.state ∧ t = walkSummary t.state ls ∧
      Hot N k off rest t.state (caps ++ walkEvents off ls) y ∧
      ∀ u ∈ pre, AnchorOk off rest u → N.Rest u.state → Dead N off rest u.state := by
  unfold NFA.epsProps at hR
  obtain ⟨R', h1, _, h3⟩ := preorder_first (k := k) (q0 := q) (off := off) (rest := rest) (c := caps) hN.ne hN.mix hN.sink
    _ _ _ _ hR
  obtain ⟨n, hn⟩ := FstL.size hot
  have hL := h3 n (some y) ⟨by simp, by simp⟩ ⟨[], .refl, rfl, by simpa [walkEvents] using hn⟩ (by intro u hu; simp at hu)
  rw [List.nil_append] at h1
  rw [← h1] at hL
  obtain ⟨pre, t, post, hsplit, hk, ha, ⟨m, ls, g1, g2, g3⟩, hpre⟩ := hL
  refine ⟨pre, t, post, ls, hsplit, keeps_rest.mp hk, ha, g1, g2, g3.first, ?_⟩
  intro u hu hau hku
  obtain ⟨m, ls', _, _, h7⟩ := hpre u hu hau (keeps_rest.mpr hku)
  exact dead_of_none hN.sink h7

/-- The first live thread of a state leads to the preferred run; its row holds the captures so far. -/
def FirstD (N : NFA U8Atom) (k K off : Nat) (rest : List UInt8) (L : List Nat) (rows : List Slots) (y : Slots) : Prop :=
  ∃ A q B caps, L = A ++ q :: B ∧ rows[A.length]? = some (slotsOf k caps) ∧ Hot N K off rest q caps y ∧
    (∀ g, k ≤ g → caps.start? g = none) ∧ ∀ q' ∈ A, Dead N off rest q'

theorem keepProp_anchorOk {first : Bool} {off : Nat} {c : UInt8} {cs} (hf : first = true ↔ off = 0) {t : EpsProp} :
    keepProp first t = true ↔ AnchorOk off (c :: cs) t := by
  unfold keepProp AnchorOk
  cases h1 : t.endOnly <;> cases h2 : t.startOnly <;> simp [hf]

/-- The transition of a byte keeps the order. -/
theorem items_first {N : NFA U8Atom} (hN : Ready N) {first : Bool} {L : List Nat} {items} (hO : ItemsOrd N first L items)
    {text pre : List UInt8} {off c cs} (ht : text = pre ++ c :: cs) (ho : off = unitLen U8Atom pre)
    (hL : ∀ q ∈ L, q < N.length) (hf : first = true ↔ off = 0) {K : Nat} {A q B caps y} (hsplit : L = A ++ q :: B)
    (hhot : Hot N K off (c :: cs) q caps y) (hd : ∀ q' ∈ A, Dead N off (c :: cs) q') :
    FirstIn (fun it : TItem => Dead N (off + 1) cs it.dst)
      (fun it => it.src = A.length ∧ ∃ ls, it.prop = walkSummary it.prop.state ls ∧
        Hot N K (off + 1) cs it.dst (caps ++ walkEvents off ls) y)
      (dedupByKey TItem.dst [] (itemsAt items c)) := by
  obtain ⟨P, hP, rfl⟩ := hO
  have htot : off + unitLen U8Atom (c :: cs) = unitLen U8Atom text := by rw [ht, unitLen_append, ho]
  have hlt : off < unitLen U8Atom text := by
    rw [ht, unitLen_append, ho, unitLen_u8, unitLen_u8]; simp
  refine FirstIn.dedup ?_ ?_
  · rintro u v hu ⟨_, ls, _, hv⟩ hk
    rw [hk] at hu
    exact hv.not_dead hu
  rw [itemsAt_flatMap, hsplit, List.zipIdx_append, List.zipIdx_cons]
  -- transitions of a dead state
  have hsym : ∀ (p : Nat) (s : State U8Atom), N[p]? = some s → Dead N off (c :: cs) p →
      ∀ tr ∈ s.transitions.filter (fun t => Sym.check t.symbol c), Dead N (off + 1) cs tr.dst := by
    intro p s hs hp tr htr
    obtain ⟨h2, h3⟩ := List.mem_filter.mp htr
    exact hp.step (caps := []) (reachE_step (l := .sym tr.symbol) (hasEdge_iff.mpr ⟨s, hs, h2⟩)
      (show symStep tr.symbol ⟨off, c :: cs, []⟩ = _ from symStep_iff.mpr ⟨c, cs, rfl, h3, rfl⟩))
  have hitems : ∀ (i : Nat) (ps : List EpsProp), itemsAt (propItems N i ps) c = ps.flatMap (fun p => match N[p.state]? with
      | some s => (s.transitions.filter (fun t => Sym.check t.symbol c)).map (fun t => ⟨i, p, t.dst⟩)
      | none => []) := by
    intro i ps
    unfold propItems
    rw [itemsAt_flatMap]
    refine List.flatMap_congr fun p _ => ?_
    cases N[p.state]? with
    | none => rfl
    | some s => exact itemsAt_map _ (fun t => ⟨i, p, t.dst⟩) c
  refine FirstIn.flatMap ?_ ?_
  · -- the thread itself
    obtain ⟨pp, t, pq, ls, h1, h2, h3, h4, h5, h6, h7⟩ := props_first hN hhot (hP q (by rw [hsplit]; simp))
    obtain ⟨s, p, tr, r, hs, e1, e2, e3⟩ := hot_sym hN h6 h2
    simp only [hitems, Nat.zero_add]
    rw [h1, List.filter_append, List.filter_cons, if_pos ((keepProp_anchorOk hf).mpr h3)]
    refine FirstIn.flatMap ?_ ?_
    · rw [hs]
      simp only
      rw [e1, List.map_append, List.map_cons]
      refine ⟨_, _, _, rfl, ?_, rfl, ls, h5, e3⟩
      intro u hu
      obtain ⟨tr', h8, rfl⟩ := List.mem_map.mp hu
      exact e2 tr' h8
    · intro u hu v hv
      obtain ⟨hu1, hu2⟩ := List.mem_filter.mp hu
      split at hv
      · rename_i s' hs'
        obtain ⟨tr', h8, rfl⟩ := List.mem_map.mp hv
        refine hsym _ s' hs' (h7 u hu1 ((keepProp_anchorOk hf).mp hu2) (Or.inl ?_)) tr' h8
        exact ⟨tr'.symbol, tr'.dst, hasEdge_iff.mpr ⟨s', hs', (List.mem_filter.mp h8).1⟩⟩
      · simp at hv
  · -- the threads before
    rintro ⟨q', i⟩ hq' v hv
    have hA : q' ∈ A := List.mem_of_getElem? (List.mem_zipIdx_iff_getElem?.mp hq')
    have hm : q' ∈ L := by rw [hsplit]; exact List.mem_append_left _ hA
    simp only [hitems] at hv
    obtain ⟨u, hu, hv⟩ := List.mem_flatMap.mp hv
    obtain ⟨hu1, hu2⟩ := List.mem_filter.mp hu
    obtain ⟨R, hR, _, hmem⟩ := epsProps_spec hN.wf (hL q' hm)
    rw [hP q' hm] at hR
    have hRP := Except.ok.inj hR
    rw [hRP] at hu1
    obtain ⟨p, ls, hw, rfl⟩ := (hmem u).mp hu1
    have hau := (keepProp_anchorOk (cs := cs) (c := c) hf).mp hu2
    split at hv
    · rename_i s' hs'
      obtain ⟨tr', h8, rfl⟩ := List.mem_map.mp hv
      refine hsym _ s' hs' ((hd q' hA).step (walkRun hw (total := unitLen U8Atom text) ?_ htot [])) tr' h8
      refine (guard_walk (p := p)).mpr ⟨fun h => by simpa using hau.1 h, fun h => ?_⟩
      have := hau.2 h
      simp at this
    · simp at hv

/-! ### Accepts -/

theorem update_final_eq (x y : TAccept) : (x.update y).final = x.final.or y.final := by
  cases x <;> cases y <;> rfl

theorem ofProps_final_eq (i : Nat) (props : List EpsProp) (acc : Nat) :
    (TAccept.ofProps i props acc).final = (props.find? (fun p => p.state == acc)).map (AccTrans.ofProp i) := by
  rw [← List.head?_filter]
  unfold TAccept.ofProps
  simp only
  generalize props.filter (fun p => p.state == acc) = l
  cases l with
  | nil => rfl
  | cons p l =>
    rw [List.zipIdx_cons, List.head?_cons, Option.map_some]
    by_cases hp : p.endOnly = true
    · rw [List.find?_cons_of_pos (by simpa using hp), List.find?_cons_of_neg (by simp [hp])]
      cases hq : (l.zipIdx (0 + 1)).find? (fun p => !p.1.endOnly) with
      | none => rfl
      | some u =>
        obtain ⟨u, ku⟩ := u
        have hm := List.mem_of_find?_eq_some hq
        have hk : 0 < ku := by
          have := List.le_snd_of_mem_zipIdx hm
          omega
        simp only
        rw [if_pos hk]; rfl
    · rw [List.find?_cons_of_neg (by simpa using hp), List.find?_cons_of_pos (by simpa using hp)]
      cases hq : (l.zipIdx (0 + 1)).find? (fun p => p.1.endOnly) with
      | none => rfl
      | some u =>
        obtain ⟨u, ku⟩ := u
        simp only
        rw [if_neg (by omega)]; rfl

/-- The accept of a state is its first one in order. -/
theorem accept_first {N : NFA U8Atom} {L : List Nat} {acc : TAccept} (h : AcceptOrd N L acc) :
    ∃ P : Nat → List EpsProp, (∀ q ∈ L, N.epsProps q = .ok (P q)) ∧
      acc.final = L.zipIdx.findSome? (fun x => ((P x.1).find? (fun p => p.state == N.length - 1)).map (AccTrans.ofProp x.2)) := by
  obtain ⟨P, h1, rfl⟩ := h
  refine ⟨P, h1, ?_⟩
  have : ∀ (l : List (Nat × Nat)) (a : TAccept),
      (l.foldl (fun a x => a.update (.ofProps x.2 (P x.1) (N.length - 1))) a).final =
      a.final.or (l.findSome? (fun x => ((P x.1).find? (fun p => p.state == N.length - 1)).map (AccTrans.ofProp x.2))) := by
    intro l
    induction l with
    | nil => intro a; simp
    | cons x l ih =>
      intro a
      rw [List.foldl_cons, ih, update_final_eq, ofProps_final_eq, List.findSome?_cons, Option.or_assoc]
      congr 1
      cases (P x.1).find? (fun p => p.state == N.length - 1) <;> rfl
  rw [this]; rfl

/-- A hot resting thread at the end of the text stands at the accepting state. -/
theorem hot_end {N : NFA U8Atom} (hN : Ready N) {K off q caps y} (h : Hot N K off ([] : List UInt8) q caps y)
    (hr : N.Rest q) : q = N.length - 1 ∧ y = slotsOf K caps := by
  rcases fstQ_iff.mp (show FstQ N.outs (N.length - 1) (slotEnd _) q _ _ from h) with ⟨g1, g2⟩ | ⟨hne, g1⟩
  · refine ⟨g1, ?_⟩
    simpa [slotEnd] using g2
  · exfalso
    obtain ⟨l, q1, d1, d2, g3, g4, _⟩ := FstL.reach g1 rfl
    cases l with
    | sym a => simp [labStep, symStep] at g4
    | eps e =>
      have he := mem_outs.mp g3
      rcases hr with ⟨a, q', h8⟩ | h8
      · obtain ⟨s, k1, k2⟩ := hasEdge_iff.mp h8
        obtain ⟨s', k3, k4⟩ := hasEdge_iff.mp he
        rw [k1] at k3; injection k3 with k3; subst k3
        have k2 : (⟨q', a⟩ : Trans U8Atom) ∈ s.transitions := k2
        have k4 : (⟨q1, e⟩ : Eps) ∈ s.epsilons := k4
        rcases hN.mix s (List.mem_of_getElem? k1) with k5 | k5
        · rw [k5] at k2; simp at k2
        · rw [k5] at k4; simp at k4
      · omega

theorem accept_hot {N : NFA U8Atom} (hN : Ready N) (hsafe : StartSafe N) {text : List UInt8} {off : Nat} {L : List Nat}
    {acc : TAccept} (hO : AcceptOrd N L acc) (htot : off = unitLen U8Atom text)
    (hseed : ∀ q ∈ L, N.Seed text q off []) (hL : ∀ q ∈ L, q < N.length) {K : Nat} {A q B caps y} (hsplit : L = A ++ q :: B)
    (hhot : Hot N K off [] q caps y) (hd : ∀ q' ∈ A, Dead N off ([] : List UInt8) q') :
    ∃ ls, acc.final = some ⟨A.length, (walkSummary (N.length - 1) ls).tags⟩ ∧ y = slotsOf K (caps ++ walkEvents off ls) := by
  obtain ⟨P, hP, hfin⟩ := accept_first hO
  have hpos := List.length_pos_iff.mpr hN.ne
  -- walks to the end satisfy their anchors
  have hwalk : ∀ q' ∈ L, ∀ u ∈ P q', u.state = N.length - 1 → ∃ ls, EWalk N q' ls (N.length - 1) ∧
      (∀ e ∈ ls, epsGuard off (unitLen U8Atom text) e = true) ∧ u = walkSummary (N.length - 1) ls := by
    intro q' hq' u hu hus
    obtain ⟨R, hR, _, hmem⟩ := epsProps_spec hN.wf (hL q' hq')
    rw [hP q' hq'] at hR
    rw [Except.ok.inj hR] at hu
    obtain ⟨p, ls, hw, rfl⟩ := (hmem u).mp hu
    have : p = N.length - 1 := hus
    subst this
    exact ⟨ls, hw, seed_guard hsafe (hseed q' hq') hw _ (fun _ => htot), rfl⟩
  obtain ⟨pp, t, pq, ls, h1, h2, h3, h4, h5, h6, h7⟩ := props_first hN hhot (hP q (by rw [hsplit]; simp))
  obtain ⟨h8, h9⟩ := hot_end hN h6 h2
  refine ⟨ls, ?_, h9⟩
  rw [hfin, hsplit, List.zipIdx_append, List.zipIdx_cons, List.findSome?_append, List.findSome?_cons]
  have hnone : A.zipIdx.findSome? (fun x => ((P x.1).find? (fun p => p.state == N.length - 1)).map (AccTrans.ofProp x.2)) = none := by
    rw [List.findSome?_eq_none_iff]
    rintro ⟨q', i⟩ hx
    have hA : q' ∈ A := List.mem_of_getElem? (List.mem_zipIdx_iff_getElem?.mp hx)
    rw [Option.map_eq_none_iff, List.find?_eq_none]
    intro u hu hus
    obtain ⟨ls', k1, k2, _⟩ := hwalk q' (by rw [hsplit]; exact List.mem_append_left _ hA) u hu (by simpa using hus)
    exact hd q' hA [] _ (walkRun k1 k2 (rest := []) (by rw [htot]; simp [unitLen]) []) rfl
  have hfind : (P q).find? (fun p => p.state == N.length - 1) = some t := by
    rw [h1, List.find?_append, List.find?_eq_none.mpr, Option.none_or, List.find?_cons_of_pos (by simpa using h8)]
    intro u hu hus
    have hus : u.state = N.length - 1 := by simpa using hus
    obtain ⟨ls', k1, k2, k3⟩ := hwalk q (by rw [hsplit]; simp) u (by rw [h1]; simp [hu]) hus
    have hau : AnchorOk off ([] : List UInt8) u := by
      refine ⟨fun h => ?_, fun _ => rfl⟩
      have := ((guard_walk (p := N.length - 1)).mp k2).1 (by rw [← k3]; exact h)
      simpa using this
    have := h7 u hu hau (Or.inr (by omega))
    rw [hus] at this
    exact this [] ⟨off, [], []⟩ reachE_refl rfl
  rw [hnone, Option.none_or]
  simp only [hfind, Option.map_some, Nat.zero_add]
  rw [h8] at h5
  rw [h5]; rfl

/-! ### The loop -/

theorem tdfaExecLoop_first {N : NFA U8Atom} (hN : Ready N) (hsafe : StartSafe N) {D : TDFA} (hD : TDFAOk N D)
    (text : List UInt8) {K : Nat} {y : Slots} : ∀ (rest pre : List UInt8) (off : Nat) (v : VState) (s : TState) (L : List Nat)
      (rows : List Slots), text = pre ++ rest → off = unitLen U8Atom pre → D.get v = some s →
      DAt N D text off rest s L → RowsOk N D.numCaptureGroups text off rest L rows →
      FirstD N D.numCaptureGroups K off rest L rows y →
      ∃ caps, D.execLoop v rows off rest = .ok (some (slotsOf D.numCaptureGroups caps)) ∧ y = slotsOf K caps ∧
        ∀ g, D.numCaptureGroups ≤ g → caps.start? g = none := by
  have hmem : ∀ v s, D.get v = some s → s ∈ D.states ++ [D.start] := by
    intro v s h
    cases v with
    | start => simp only [TDFA.get, Option.some.injEq] at h; subst h; simp
    | normal i => exact List.mem_append_left _ (List.mem_of_getElem? h)
  have hlt : ∀ {off rest s L}, DAt N D text off rest s L → ∀ q ∈ L, q < N.length :=
    fun hA q hq => (seed_lt hN.wf hN.ne ((hA.seeds q).mp hq)).1
  intro rest
  induction rest with
  | nil =>
    intro pre off v s L rows h1 h2 hv hA hR hF
    have htot : off = unitLen U8Atom text := by rw [h1, List.append_nil, h2]
    obtain ⟨first, hE, hf⟩ := hA.exp
    obtain ⟨A, q, B, caps, hsplit, hrow, hhot, hnone, hd⟩ := hF
    obtain ⟨ls, g1, g2⟩ := accept_hot hN hsafe hE.order htot (fun q hq => (hA.seeds q).mp hq) (hlt hA) hsplit hhot hd
    have htags : ∀ t ∈ (walkSummary (N.length - 1) ls).tags, t.group < D.numCaptureGroups := by
      intro tg htg
      refine group_lt (hmem v s hv) ?_
      unfold TState.groups
      refine List.mem_append_right _ ?_
      have : tg.group ∈ (walkSummary (N.length - 1) ls).tags.map Tag.group := List.mem_map.mpr ⟨tg, htg, rfl⟩
      cases hacc : s.accept with
      | none => rw [hacc] at g1; simp [TAccept.final] at g1
      | anchored x => rw [hacc] at g1; simp [TAccept.final] at g1; subst g1; exact this
      | both x z =>
        rw [hacc] at g1; simp [TAccept.final] at g1; subst g1
        exact List.mem_append_left _ this
      | unanchored x => rw [hacc] at g1; simp [TAccept.final] at g1; subst g1; exact this
    refine ⟨caps ++ walkEvents off ls, ?_, g2, ?_⟩
    · unfold TDFA.execLoop
      rw [hv]
      simp only
      rw [g1]
      have hr : getRow rows A.length = .ok (slotsOf D.numCaptureGroups caps) := by unfold getRow; rw [hrow]
      simp only
      rw [hr]
      simp only
      rw [applyTags_walk (off := off) caps htags]
    · intro g hgk
      rw [start?_append, hnone g hgk, walkEvents_start_none htags hgk]; rfl
  | cons c cs ih =>
    intro pre off v s L rows h1 h2 hv hA hR hF
    have e1 : text = (pre ++ [c]) ++ cs := by simp [h1]
    have e2 : off + 1 = unitLen U8Atom (pre ++ [c]) := by
      rw [unitLen_append, h2]; rfl
    obtain ⟨A, q, B, caps, hsplit, hrow, hhot, hnone, hd⟩ := hF
    unfold TDFA.execLoop
    rw [hv]
    simp only
    rcases dat_step hD h1 h2 hA with ⟨g1, g2⟩ | ⟨t, s', its, first, items, g1, g2, g3, g4, g5, g6, g7, g8, g9, g10⟩
    · exfalso
      obtain ⟨caps0, d', h3, h4⟩ := dead_iff hhot.not_dead
      obtain ⟨p0, e0⟩ := (at_iff.mpr ⟨q, (hA.seeds q).mp (by rw [hsplit]; simp), .refl⟩ : N.At text q off (c :: cs))
      obtain ⟨c2, h5⟩ := reach_caps h3 p0
      have hat := reachE_trans e0 h5
      rw [h4] at hat
      obtain ⟨p1, e3, e4⟩ := at_pos (⟨c2, hat⟩ : N.At text (N.length - 1) d'.off [])
      rw [List.append_nil] at e3
      rw [e4, ← e3] at hat
      exact no_seed e1 e2 g2 (N.length - 1) ⟨c2, hat⟩
    · rw [g1]
      simp only
      obtain ⟨rows', k1, k2, k3⟩ := tagStep_rows (hmem v s hv) h1 h2 hR g3 g4 g5 g6 g7 g8
      rw [k1]
      simp only
      refine ih (pre ++ [c]) (off + 1) (.normal t.dst) s' _ rows' e1 e2 g2 g9 k2 ?_
      obtain ⟨ip, it, iq, i1, i2, i3, ls, i4, i5⟩ := items_first hN g10 h1 h2 (hlt hA) g6 hsplit hhot hd
      rw [← g4] at i1
      obtain ⟨j1, row, row', j2, j3, j4⟩ := k3 ip.length it (by rw [i1]; simp)
      rw [i3, hrow] at j2
      injection j2 with j2
      subst j2
      rw [i4] at j1 j3
      rw [applyTags_walk caps j1] at j3
      have j3 := Except.ok.inj j3
      subst j3
      refine ⟨ip.map (·.dst), it.dst, iq.map (·.dst), caps ++ walkEvents off ls, by rw [i1]; simp, by simpa using j4, i5, ?_, ?_⟩
      · intro g hgk
        rw [start?_append, hnone g hgk, walkEvents_start_none j1 hgk]; rfl
      · intro q' hq'
        obtain ⟨u, hu, rfl⟩ := List.mem_map.mp hq'
        exact i2 u hu

/-- `exec` of the tagged DFA works on the slots of the preferred run. -/
theorem tdfaExec_first {N : NFA U8Atom} (hN : Ready N) (hsafe : StartSafe N) {D : TDFA} (hD : TDFAOk N D)
    (text : List Char) (units : List UInt8) {caps} (h : N.Fst atEnd 0 (⟨0, units, []⟩ : Cfg UInt8) (some caps)) :
    (D.exec text units = match (slotsOf D.numCaptureGroups caps).mapM (finishSlot text) with
      | .error e => .error e
      | .ok r => .ok (some r)) ∧ ∀ g, D.numCaptureGroups ≤ g → caps.start? g = none := by
  have hs0 : (List.replicate D.numCaptureGroups (none, none) : Slots) = slotsOf D.numCaptureGroups [] := by
    refine List.ext_getElem? fun g => ?_
    by_cases hg : g < D.numCaptureGroups
    · rw [slotsOf_get hg]; simp [hg, Caps.start?, Caps.end?]
    · rw [List.getElem?_eq_none (by simp; omega), List.getElem?_eq_none (by simp [slotsOf]; omega)]
  have key : ∀ K, ∃ c, D.execLoop .start [List.replicate D.numCaptureGroups (none, none)] 0 units =
      .ok (some (slotsOf D.numCaptureGroups c)) ∧ slotsOf K caps = slotsOf K c ∧
        ∀ g, D.numCaptureGroups ≤ g → c.start? g = none := by
    intro K
    have h0 : Hot N K 0 units 0 [] (slotsOf K caps) := FstL.toSlots _ h
    exact tdfaExecLoop_first hN hsafe hD units units [] 0 .start D.start [0] _ rfl rfl rfl (dat_start hD units)
      (rows_start _ _) ⟨[], 0, [], [], rfl, by simp [hs0], h0, fun g _ => rfl, by simp⟩
  constructor
  · obtain ⟨c, h1, h2, _⟩ := key D.numCaptureGroups
    unfold TDFA.exec
    rw [h1]
    simp only
    rw [← h2]
    cases (slotsOf D.numCaptureGroups caps).mapM (finishSlot text) <;> rfl
  · intro g hg
    obtain ⟨c, _, h2, h3⟩ := key (g + 1)
    have := congrArg (fun l => l[g]?) h2
    simp only [slotsOf_get (Nat.lt_succ_self g), Option.some.injEq, Prod.mk.injEq] at this
    rw [this.1, h3 g hg]

/-- The macro. -/
theorem dfa_first (U : Utf8Seqs) {e : ERE} (hp : e.progress = true) (hs : e.StartSimple)
    {N : NFA Atom} {M : NFA U8Atom} (h1 : workingNew (Tree.fromERE e).1 = .ok N) (h2 : u8New U.seqs N = .ok M)
    (hne : M ≠ []) {bound T} (hT : TDFA.fromNFA M bound = .ok (some T)) (text : List Char) :
    FirstOk e text T.numCaptureGroups (T.exec text (encode text)) := by
  obtain ⟨hN, hM, hacc, henc⟩ := pipeline_ne U e h1 h2 hne
  have hsafe := startSafe_pipeline U e hs h1 hN h2 hM.ne
  have hOk : TDFAOk M T := by
    rcases fromNFA_spec hM.wf hM.ne bound with ⟨g1, _⟩ | ⟨T', g1, _, g2⟩
    · rw [g1] at hT; simp at hT
    · rw [g1] at hT
      have := Option.some.inj (Except.ok.inj hT)
      rw [← this]; exact g2
  obtain ⟨r, h4, h5⟩ := workingNew_first e hp h1 hN.ne text
  have h6 := u8New_first hN (workingNew_oneSym (starOk_fromERE e) h1 hN.ne) h2 hM.ne h4
  rcases h5 with ⟨rfl, h7⟩ | ⟨caps, S, rfl, h7, h8⟩
  · refine Or.inl ⟨?_, h7⟩
    rcases dfa_engine U e h1 h2 hne hs bound with g1 | ⟨T', D, g1, _, _, g2⟩
    · rw [g1] at hT; simp at hT
    · rw [g1] at hT
      have := Option.some.inj (Except.ok.inj hT)
      subst this
      rcases g2 text with ⟨g3, _⟩ | ⟨_, S, _, g3, _⟩
      · exact g3
      · exfalso
        obtain ⟨caps, hm⟩ := (exists_run_iff e text).mpr (captures_matchesIn.mp ⟨S, g3⟩)
        have := NFA.Fst.none_reach (K := atEnd) hM.sink h6 ((acc_enc henc text _ caps).mpr ((hacc text caps).mpr hm)).2
        simp [atEnd] at this
  · have hcap := first_captures h7
    obtain ⟨g1, g2⟩ := tdfaExec_first hM hsafe hOk text _ h6
    refine Or.inr ⟨(List.range T.numCaptureGroups).map (lastSpan S), S, by rw [g1, slots_first _ h8 hcap], h7, by simp, fun g => ?_⟩
    by_cases hg : g < T.numCaptureGroups
    · simp [hg]
    · rw [List.getElem?_eq_none (by simp; omega)]
      have h9 := g2 g (by omega)
      rw [(reads_last h8 g).1] at h9
      simp only [Option.map_eq_none_iff] at h9
      rw [h9]; rfl

end Ere
