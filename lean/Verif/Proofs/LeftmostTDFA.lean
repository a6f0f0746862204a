import Verif.Proofs.Leftmost
import Verif.Proofs.FirstTDFA

/-! Where the match reported by the tagged DFA begins. Nothing is assumed about `^`: even if the text does
not match at all (`C20_negation`) the claim holds, since it compares with matches only. -/

namespace Ere

/-- Where the match in a row of tags begins. -/
def keyAt (rows : List Slots) (j : Nat) : Option Nat := ((rows[j]?).bind (·[0]?)).bind (·.1)

theorem keyAt_slots {rows : List Slots} {j k : Nat} {caps : Caps} (h : rows[j]? = some (slotsOf k caps)) (hk : 0 < k) :
    keyAt rows j = caps.start? 0 := by
  unfold keyAt
  rw [h]
  simp only [Option.bind_some]
  rw [slotsOf_get hk]; rfl

theorem dedup_sublist {β κ : Type} [DecidableEq κ] (key : β → κ) : ∀ (l : List β) (seen : List κ),
    (dedupByKey key seen l).Sublist l := by
  intro l
  induction l with
  | nil => intro _; exact List.Sublist.refl _
  | cons x l ih =>
    intro seen
    rw [dedupByKey]
    split
    · exact (ih seen).cons _
    · exact (ih _).cons_cons _

theorem dedup_nodup {β κ : Type} [DecidableEq κ] (key : β → κ) : ∀ (l : List β) (seen : List κ),
    ((dedupByKey key seen l).map key).Nodup ∧ ∀ x ∈ dedupByKey key seen l, key x ∉ seen := by
  intro l
  induction l with
  | nil => intro _; simp [dedupByKey]
  | cons x l ih =>
    intro seen
    rw [dedupByKey]
    split
    · exact ih seen
    · rename_i hx
      obtain ⟨h1, h2⟩ := ih (key x :: seen)
      constructor
      · rw [List.map_cons, List.nodup_cons]
        refine ⟨fun hm => ?_, h1⟩
        obtain ⟨y, h3, h4⟩ := List.mem_map.mp hm
        exact h2 y h3 (by rw [h4]; simp)
      · intro z hz
        rcases List.mem_cons.mp hz with rfl | hz
        · exact hx
        · exact fun h => h2 z hz (List.mem_cons_of_mem _ h)

/-- The first element of a key is kept. -/
theorem dedup_first {β κ : Type} [DecidableEq κ] {key : β → κ} {R : β → β → Prop} (hR : ∀ x, R x x) :
    ∀ (l : List β) (seen : List κ), l.Pairwise R → ∀ x ∈ l, key x ∉ seen → ∃ y ∈ dedupByKey key seen l, key y = key x ∧ R y x := by
  intro l
  induction l with
  | nil => intro _ _ x hx; simp at hx
  | cons a l ih =>
    intro seen hp x hx hs
    rw [List.pairwise_cons] at hp
    rw [dedupByKey]
    split
    · rename_i ha
      rcases List.mem_cons.mp hx with rfl | hx
      · exact absurd ha hs
      · exact ih seen hp.2 x hx hs
    · rcases List.mem_cons.mp hx with rfl | hx
      · exact ⟨x, by simp, rfl, hR x⟩
      · by_cases hk : key a = key x
        · exact ⟨a, by simp, hk, hp.1 x hx⟩
        · obtain ⟨y, h1, h2⟩ := ih (key a :: seen) hp.2 x hx (by simp; exact ⟨fun h => hk h.symm, hs⟩)
          exact ⟨y, by simp [h1], h2⟩

/-- The rows of a state are in order and none starts too far right. -/
structure DMin (N : NFA U8Atom) (text : List UInt8) (off : Nat) (rest : List UInt8) (L : List Nat) (rows : List Slots) :
    Prop where
  nodup : L.Nodup
  sorted : ∀ j j', j < j' → j' < L.length → KLe (keyAt rows j) (keyAt rows j')
  min : ∀ q caps, SeedRun N text q off rest caps → ∃ j : Nat, L[j]? = some q ∧ KLe (keyAt rows j) (caps.start? 0)

section
variable {Φ : Phases U8Atom UInt8} {N : NFA U8Atom} {col : Nat → Col} {y : Nat}

/-- The start of a thread by its colour. -/
theorem row_key (h : FrontC Φ N col y) {k : Nat} (hk : 0 < k) {text : List UInt8} {off rest L rows}
    (hR : RowsOk N k text off rest L rows) {j q : Nat} (hj : L[j]? = some q) :
    (col q = .out → ∃ i, keyAt rows j = some i ∧ i ≤ off) ∧ (col q ≠ .out → keyAt rows j = none) := by
  obtain ⟨row, h1, caps, h2, h3, _⟩ := hR _ _ hj
  rw [keyAt_slots (by rw [h1, h3]) hk]
  exact ⟨(h.run h2).1, fun hc => ((h.run h2).2 hc).1⟩

theorem props_srt (h : FrontC Φ N col y) {q : Nat} {R} (hR : N.epsProps q = .ok R) : Srt col R := by
  unfold NFA.epsProps at hR
  obtain ⟨l, h1, h2⟩ := h.preorder _ _ _ _ hR
  rw [List.nil_append] at h1
  subst h1
  exact h2.srt

theorem dmin_step (h : FrontC Φ N col y) {k : Nat} (hk : 0 < k) {first : Bool} {L : List Nat} {items}
    (hI : ItemsOk N first L items) (hO : ItemsOrd N first L items)
    {text pre : List UInt8} {off c cs} (ht : text = pre ++ c :: cs) (ho : off = unitLen U8Atom pre)
    (hf : first = true ↔ off = 0) (hseeds : ∀ q ∈ L, N.Seed text q off (c :: cs)) {rows rows' : List Slots}
    (hR : RowsOk N k text off (c :: cs) L rows) (hm : DMin N text off (c :: cs) L rows)
    {its : List TItem} (hits : its = dedupByKey TItem.dst [] (itemsAt items c))
    (hrows : ∀ (j : Nat) it, its[j]? = some it → (∀ t ∈ it.prop.tags, t.group < k) ∧
        ∃ row row', rows[it.src]? = some row ∧ it.prop.tags.foldlM (applyTag off) row = .ok row' ∧
          rows'[j]? = some row') : DMin N text (off + 1) cs (its.map (·.dst)) rows' := by
  have hlt : off < unitLen U8Atom text := by
    rw [ht, unitLen_append, ho, unitLen_u8, unitLen_u8]; simp
  obtain ⟨P, hP, hitems⟩ := hO
  obtain ⟨kf, hkf⟩ : ∃ kf : TItem → Option Nat, kf = fun it =>
    match L[it.src]? with
    | some q => if col q = .out then keyAt rows it.src else if col it.dst = .out then some off else none
    | none => none := ⟨_, rfl⟩
  -- keys of the new rows
  have hnew : ∀ (j : Nat) it, its[j]? = some it → keyAt rows' j = kf it := by
    intro j it hj
    obtain ⟨g1, row, row', g2, g3, g4⟩ := hrows j it hj
    have hit := List.mem_of_getElem? hj
    rw [hits] at hit
    obtain ⟨a, h1, h2⟩ := mem_itemsAt.mp (dedupByKey_sub _ _ _ it hit).1
    obtain ⟨q, ls, p, e1, e2, e3, e4, e5, e6⟩ := (hI a it).mp h1
    obtain ⟨row0, r1, caps, r2, r3, _⟩ := hR _ _ e1
    rw [g2] at r1
    have r1 := Option.some.inj r1
    rw [e3] at g1 g3
    rw [r1, r3, applyTags_walk caps g1] at g3
    have g3 := Except.ok.inj g3
    rw [← g3] at g4
    rw [keyAt_slots g4 hk, hkf]
    simp only [e1]
    rw [start?_append, walkEvents_start]
    by_cases hq : col q = .out
    · rw [if_pos hq, if_neg (h.walk_out e2 hq).2, keyAt_slots (by rw [g2, r1, r3]) hk]; simp
    · rw [if_neg hq, ((h.run r2).2 hq).1]
      rcases h.walk_in e2 hq with ⟨k1, k2⟩ | ⟨k1, k2⟩
      · have : col it.dst = .out := by
          rcases h.sym e6 with ⟨_, h4⟩ | ⟨⟨i, h4⟩, _⟩
          · exact h4
          · rw [h4] at k1; simp at k1
        rw [if_pos this, if_pos k2]; simp
      · have : col it.dst ≠ .out := by
          rcases h.sym e6 with ⟨h4, _⟩ | ⟨_, h4, _⟩
          · exact absurd h4 k1
          · exact h4
        rw [if_neg this, if_neg (fun hh => by simpa using k2 _ hh)]; simp
  -- the items are in order
  have hord : (itemsAt items c).Pairwise (fun a b => KLe (kf a) (kf b)) := by
    rw [hitems, itemsAt_flatMap, List.pairwise_flatMap]
    have hget : ∀ x ∈ L.zipIdx, L[x.2]? = some x.1 := fun x hx => List.mem_zipIdx_iff_getElem?.mp hx
    have hsrc : ∀ (x : Nat × Nat) it, it ∈ itemsAt (propItems N x.2 ((P x.1).filter (keepProp first))) c →
        it.src = x.2 ∧ it.prop ∈ P x.1 ∧ ∃ a, N.HasEdge it.prop.state (.sym a) it.dst := by
      intro x it hit
      obtain ⟨a, h1, _⟩ := mem_itemsAt.mp hit
      obtain ⟨h2, h3, h4⟩ := mem_propItems.mp h1
      exact ⟨h2, (List.mem_filter.mp h3).1, a, h4⟩
    constructor
    · intro x hx
      have hxg := hget x hx
      have hxL : x.1 ∈ L := List.mem_of_getElem? hxg
      by_cases hq : col x.1 = .out
      · refine List.Pairwise.imp_of_mem (R := fun _ _ => True) (fun {a b} ha hb _ => ?_)
          (List.pairwise_of_forall fun _ _ => trivial)
        rw [hkf]
        simp only [(hsrc x a ha).1, (hsrc x b hb).1, hxg, if_pos hq]
        exact KLe.refl _
      · have hdst : (itemsAt (propItems N x.2 ((P x.1).filter (keepProp first))) c).Pairwise
            (fun a b => col b.dst = .out → col a.dst = .out) := by
          have hs := (props_srt h (hP _ hxL)).sublist (List.filter_sublist (p := keepProp first))
          unfold propItems
          rw [itemsAt_flatMap, List.pairwise_flatMap]
          have hst : ∀ (p : EpsProp) it, it ∈ itemsAt (match N[p.state]? with
              | some s => s.transitions.map (fun t => (t.symbol, (⟨x.2, p, t.dst⟩ : TItem)))
              | none => []) c → ∃ a, N.HasEdge p.state (.sym a) it.dst := by
            intro p it hit
            obtain ⟨a, h1, _⟩ := mem_itemsAt.mp hit
            split at h1
            · rename_i s hs
              obtain ⟨t, ht, he⟩ := List.mem_map.mp h1
              simp only [Prod.mk.injEq] at he
              obtain ⟨rfl, rfl⟩ := he
              exact ⟨t.symbol, hasEdge_iff.mpr ⟨s, hs, ht⟩⟩
            · simp at h1
          constructor
          · intro p hp
            refine List.Pairwise.imp_of_mem (R := fun _ _ => True) (fun {a b} ha hb _ hbo => ?_)
              (List.pairwise_of_forall fun _ _ => trivial)
            obtain ⟨_, ea⟩ := hst p a ha
            obtain ⟨_, eb⟩ := hst p b hb
            rcases h.sym eb with ⟨h1, _⟩ | ⟨_, h1, _⟩
            · rcases h.sym ea with ⟨_, h2⟩ | ⟨⟨i, h2⟩, _⟩
              · exact h2
              · rw [h2] at h1; simp at h1
            · exact absurd hbo h1
          · refine hs.imp ?_
            intro p p' hpp a ha b hb hbo
            obtain ⟨_, ea⟩ := hst p a ha
            obtain ⟨_, eb⟩ := hst p' b hb
            rcases h.sym eb with ⟨h1, _⟩ | ⟨_, h1, _⟩
            · rcases h.sym ea with ⟨_, h2⟩ | ⟨⟨i, h2⟩, _⟩
              · exact h2
              · exact absurd h1 (hpp (by rw [h2]; rfl))
            · exact absurd hbo h1
        refine List.Pairwise.imp_of_mem ?_ hdst
        intro a b ha hb hab
        rw [hkf]
        simp only [(hsrc x a ha).1, (hsrc x b hb).1, hxg, if_neg hq]
        by_cases hbo : col b.dst = .out
        · rw [if_pos hbo, if_pos (hab hbo)]; exact KLe.refl _
        · rw [if_neg hbo]; trivial
    · have hidx : L.zipIdx.Pairwise (fun x x' => x.2 < x'.2) := by
        rw [List.pairwise_iff_getElem]
        intro i j hi hj hij
        simpa using hij
      refine List.Pairwise.imp_of_mem ?_ hidx
      intro x x' hx hx' hlt' a ha b hb
      have hxg := hget x hx
      have hxg' := hget x' hx'
      have hle := hm.sorted _ _ hlt' (List.getElem?_eq_some_iff.mp hxg').1
      obtain ⟨k1, k2⟩ := row_key h hk hR hxg
      obtain ⟨k1', k2'⟩ := row_key h hk hR hxg'
      rw [hkf]
      simp only [(hsrc x a ha).1, (hsrc x' b hb).1, hxg, hxg']
      by_cases hq : col x.1 = .out
      · rw [if_pos hq]
        by_cases hq' : col x'.1 = .out
        · rw [if_pos hq']; exact hle
        · rw [if_neg hq']
          obtain ⟨i, hi, hio⟩ := k1 hq
          split
          · rw [hi]; exact hio
          · trivial
      · have hq' : col x'.1 ≠ .out := by
          intro hq'
          rw [k2 hq] at hle
          obtain ⟨i, hi, _⟩ := k1' hq'
          rw [hi] at hle; exact hle
        rw [if_neg hq']
        obtain ⟨u1, u2⟩ := h.uniq (hseeds x.1 (List.mem_of_getElem? hxg)) (hseeds x'.1 (List.mem_of_getElem? hxg')) hq hq'
        by_cases h0 : (col x.1).phase = 0
        · exfalso
          have := u2 h0
          obtain ⟨h5, h6⟩ := List.getElem?_eq_some_iff.mp hxg
          obtain ⟨h7, h8⟩ := List.getElem?_eq_some_iff.mp hxg'
          have := (List.Nodup.getElem_inj_iff hm.nodup (hi := h5) (hj := h7)).mp (by rw [h6, h8, this])
          omega
        · obtain ⟨_, _, a', e6⟩ := hsrc x' b hb
          obtain ⟨a2, h1, _⟩ := mem_itemsAt.mp hb
          obtain ⟨_, h3, _⟩ := mem_propItems.mp h1
          have hmem : (a2, b) ∈ items := by
            rw [hitems]; exact List.mem_flatMap.mpr ⟨x', hx', h1⟩
          obtain ⟨q, ls, p, e1, e2, e3, e4, e5, e6⟩ := (hI a2 b).mp hmem
          rw [(hsrc x' b hb).1, hxg'] at e1
          have e1 := Option.some.inj e1
          subst e1
          obtain ⟨rfl, _⟩ := h.walk_mid e2 hq' (by rw [← u1]; exact h0)
          have : col b.dst ≠ .out := by
            rcases h.sym e6 with ⟨h4, _⟩ | ⟨_, h4, _⟩
            · exact absurd h4 hq'
            · exact h4
          rw [if_neg this]; trivial
  refine ⟨?_, ?_, ?_⟩
  · rw [hits]; exact (dedup_nodup _ _ _).1
  · intro j j' hjj hj'
    rw [List.length_map] at hj'
    rw [hnew j _ (List.getElem?_eq_getElem (by omega)), hnew j' _ (List.getElem?_eq_getElem hj')]
    have : its.Pairwise (fun a b => KLe (kf a) (kf b)) := by
      rw [hits]; exact hord.sublist (dedup_sublist _ _ _)
    exact List.pairwise_iff_getElem.mp this _ _ _ _ hjj
  · rintro s caps (⟨_, h1, _⟩ | ⟨q0, off0, c0, a, h1, h2, h3, h4⟩)
    · omega
    · obtain ⟨rfl, rfl⟩ := at_unique ht ho ⟨caps, h1⟩
      obtain ⟨s0, caps0, ls, hs, hw, hg, rfl⟩ := run_split h1
      obtain ⟨j, hj, hle⟩ := hm.min s0 caps0 hs
      have hend : EpsType.endAnchor ∉ ls := by
        intro he
        have := hg _ he
        simp only [epsGuard, beq_iff_eq] at this
        omega
      have hst : first = false → EpsType.startAnchor ∉ ls := by
        intro hf0 he
        have := hg _ he
        simp only [epsGuard, beq_iff_eq] at this
        have := hf.mpr this
        rw [hf0] at this; simp at this
      have hmem : (⟨j, walkSummary q0 ls, s⟩ : TItem) ∈ itemsAt items c0 :=
        mem_itemsAt.mpr ⟨a, (hI _ _).mpr ⟨s0, ls, q0, hj, hw, rfl, hend, hst, h3⟩, h4⟩
      obtain ⟨it, k1, k2, k3⟩ := dedup_first (R := fun a b => KLe (kf a) (kf b)) (key := TItem.dst)
        (fun x => KLe.refl _) _ [] hord _ hmem (by simp)
      rw [← hits] at k1
      obtain ⟨j', hj'⟩ := List.mem_iff_getElem?.mp k1
      refine ⟨j', by simp [hj', k2], ?_⟩
      rw [hnew _ _ hj']
      refine KLe.trans k3 ?_
      rw [hkf]
      simp only [hj]
      rw [start?_append, walkEvents_start]
      by_cases hq : col s0 = .out
      · rw [if_pos hq, if_neg (h.walk_out hw hq).2]; simpa using hle
      · rw [if_neg hq, ((h.run hs.reach).2 hq).1]
        rcases h.walk_in hw hq with ⟨g1, g2⟩ | ⟨g1, g2⟩
        · rw [if_pos g2]
          split
          · exact KLe.refl _
          · rename_i hd
            exfalso
            rcases h.sym h3 with ⟨_, h5⟩ | ⟨⟨i, h5⟩, _⟩
            · exact hd h5
            · rw [h5] at g1; simp at g1
        · have hns : EpsType.startCapture 0 ∉ ls := fun hh => by simpa using g2 _ hh
          rw [if_neg hns]
          simp [KLe]

/-- The accept chosen at the end. -/
theorem accept_min (h : FrontC Φ N col y) (hN : Ready N) {k : Nat} (hk : 0 < k) {text : List UInt8} {off : Nat} {L : List Nat}
    {rows : List Slots} {acc : TAccept} (hO : AcceptOrd N L acc) (htot : off = unitLen U8Atom text)
    (hL : ∀ q ∈ L, q < N.length) (hR : RowsOk N k text off [] L rows) (hm : DMin N text off [] L rows) {a : AccTrans}
    (ha : acc.final = some a) (htags : ∀ t ∈ a.add, t.group < k) :
    ∃ caps q ls i, getRow rows a.state = .ok (slotsOf k caps) ∧
      a.add.foldlM (applyTag off) (slotsOf k caps) = .ok (slotsOf k (caps ++ walkEvents off ls)) ∧
      ReachE N.HasEdge (0, ⟨0, text, []⟩) (q, ⟨off, [], caps⟩) ∧ EWalk N q ls (N.length - 1) ∧
      Caps.start? (caps ++ walkEvents off ls) 0 = some i ∧
      ∀ caps', N.Acc ⟨0, text, []⟩ ⟨off, [], caps'⟩ → KLe (some i) (caps'.start? 0) := by
  obtain ⟨P, hP, hfin⟩ := accept_first hO
  rw [ha] at hfin
  obtain ⟨l1, x, l2, e1, e2, e3⟩ := List.findSome?_eq_some_iff.mp hfin.symm
  obtain ⟨p, e4, e5⟩ := Option.map_eq_some_iff.mp e2
  have hx : L[x.2]? = some x.1 := List.mem_zipIdx_iff_getElem?.mp (by rw [e1]; simp)
  have hxL := List.mem_of_getElem? hx
  obtain ⟨Rq, hRq, _, hmem⟩ := epsProps_spec hN.wf (hL x.1 hxL)
  rw [hP _ hxL] at hRq
  have hRq := Except.ok.inj hRq
  have hp := List.mem_of_find?_eq_some e4
  rw [hRq] at hp
  obtain ⟨p', ls, hw, hpe⟩ := (hmem p).mp hp
  have hps : p.state = N.length - 1 := by simpa using List.find?_some e4
  have : p' = N.length - 1 := by rw [hpe] at hps; exact hps
  rw [this] at hw hpe
  obtain ⟨row, r1, caps, r2, r3, _⟩ := hR _ _ hx
  have has : a.state = x.2 := by rw [← e5]; rfl
  have hadd : a.add = (walkSummary (N.length - 1) ls).tags := by rw [← e5, ← hpe]; rfl
  have hkey := keyAt_slots (rows := rows) (j := x.2) (by rw [r1, r3]) hk
  have hout := h.last
  -- the reported start
  obtain ⟨i, hi⟩ : ∃ i, Caps.start? (caps ++ walkEvents off ls) 0 = some i ∧
      ((col x.1 = .out ∧ caps.start? 0 = some i ∧ i ≤ off) ∨ (col x.1 ≠ .out ∧ caps.start? 0 = none ∧ i = off)) := by
    rw [start?_append, walkEvents_start]
    by_cases hq : col x.1 = .out
    · obtain ⟨i, hi, hle⟩ := (h.run r2).1 hq
      exact ⟨i, by rw [if_neg (h.walk_out hw hq).2, hi]; rfl, .inl ⟨hq, hi, hle⟩⟩
    · rcases h.walk_in hw hq with ⟨_, g2⟩ | ⟨g1, _⟩
      · exact ⟨off, by rw [if_pos g2]; rfl, .inr ⟨hq, ((h.run r2).2 hq).1, rfl⟩⟩
      · exact absurd hout g1
  refine ⟨caps, x.1, ls, i, ?_, ?_, r2, hw, hi.1, ?_⟩
  · unfold getRow; rw [has, r1, r3]
  · rw [hadd] at htags ⊢
    exact applyTags_walk caps htags
  · rintro caps' ⟨_, hacc⟩
    obtain ⟨s, caps0, ls', hs, hw', hg, rfl⟩ := run_split hacc
    obtain ⟨j, hj, hle⟩ := hm.min s caps0 hs
    -- the chosen thread is not later
    have hjle : x.2 ≤ j := by
      by_contra hlt
      have hmj : (s, j) ∈ L.zipIdx := List.mem_zipIdx_iff_getElem?.mpr hj
      have hsL := List.mem_of_getElem? hj
      have hl1 : (s, j) ∈ l1 := by
        have hidx : L.zipIdx.Pairwise (fun x x' => x.2 < x'.2) := by
          rw [List.pairwise_iff_getElem]
          intro i j hi hj hij
          simpa using hij
        rw [e1] at hidx hmj
        rcases List.mem_append.mp hmj with hmj | hmj
        · exact hmj
        · exfalso
          rcases List.mem_cons.mp hmj with rfl | hmj
          · exact hlt (Nat.le_refl _)
          · have := (List.pairwise_cons.mp (List.pairwise_append.mp hidx).2.1).1 _ hmj
            simp only at this
            omega
      have := e3 _ hl1
      rw [Option.map_eq_none_iff, List.find?_eq_none] at this
      obtain ⟨Rs, hRs, _, hmem'⟩ := epsProps_spec hN.wf (hL s hsL)
      rw [hP _ hsL] at hRs
      have hRs := Except.ok.inj hRs
      exact this (walkSummary (N.length - 1) ls') (by rw [hRs]; exact (hmem' _).mpr ⟨_, _, hw', rfl⟩) (by simp [walkSummary])
    have hsort : KLe (keyAt rows x.2) (caps0.start? 0) := by
      rcases Nat.lt_or_ge x.2 j with hlt | hge
      · exact (hm.sorted _ _ hlt (List.getElem?_eq_some_iff.mp hj).1).trans hle
      · rw [show x.2 = j by omega]; exact hle
    rw [hkey] at hsort
    rw [start?_append, walkEvents_start]
    by_cases hq : col s = .out
    · rw [if_neg (h.walk_out hw' hq).2]
      rcases hi.2 with ⟨_, hi, _⟩ | ⟨_, hi, _⟩
      · rw [hi] at hsort; simpa using hsort
      · rw [hi] at hsort
        obtain ⟨i', hi', _⟩ := (h.run hs.reach).1 hq
        rw [hi'] at hsort; exact hsort.elim
    · rcases h.walk_in hw' hq with ⟨_, g2⟩ | ⟨g1, _⟩
      · rw [if_pos g2]
        rcases hi.2 with ⟨_, _, hi⟩ | ⟨_, _, hi⟩ <;> simp only [Option.some_or, KLe] <;> omega
      · exact absurd hout g1

theorem tdfaExecLoop_min (h : FrontC Φ N col y) (hN : Ready N) {D : TDFA} (hD : TDFAOk N D)
    (text : List UInt8) : ∀ (rest pre : List UInt8) (off : Nat) (v : VState) (s : TState) (L : List Nat)
      (rows : List Slots), text = pre ++ rest → off = unitLen U8Atom pre → D.get v = some s →
      DAt N D text off rest s L → RowsOk N D.numCaptureGroups text off rest L rows → DMin N text off rest L rows →
      ∀ slots, D.execLoop v rows off rest = .ok (some slots) →
      ∃ caps q ls i, slots = slotsOf D.numCaptureGroups (caps ++ walkEvents (unitLen U8Atom text) ls) ∧
        ReachE N.HasEdge (0, ⟨0, text, []⟩) (q, ⟨unitLen U8Atom text, [], caps⟩) ∧ EWalk N q ls (N.length - 1) ∧
        Caps.start? (caps ++ walkEvents (unitLen U8Atom text) ls) 0 = some i ∧
        ∀ caps', N.Acc ⟨0, text, []⟩ ⟨unitLen U8Atom text, [], caps'⟩ → KLe (some i) (caps'.start? 0) := by
  have hk : 0 < D.numCaptureGroups := by unfold TDFA.numCaptureGroups; omega
  have hmem : ∀ v s, D.get v = some s → s ∈ D.states ++ [D.start] := by
    intro v s h
    cases v with
    | start => simp only [TDFA.get, Option.some.injEq] at h; subst h; simp
    | normal i => exact List.mem_append_left _ (List.mem_of_getElem? h)
  have hlt : ∀ {off rest s L}, DAt N D text off rest s L → ∀ q ∈ L, q < N.length :=
    fun hA q hq => (seed_lt hN.wf hN.ne ((hA.seeds q).mp hq)).1
  intro rest
  induction rest with
  | nil =>
    intro pre off v s L rows h1 h2 hv hA hR hm slots hr
    have htot : off = unitLen U8Atom text := by rw [h1, List.append_nil, h2]
    obtain ⟨first, hE, hf⟩ := hA.exp
    unfold TDFA.execLoop at hr
    rw [hv] at hr
    simp only at hr
    cases hfin : s.accept.final with
    | none => rw [hfin] at hr; simp at hr
    | some a =>
      have htags : ∀ t ∈ a.add, t.group < D.numCaptureGroups := by
        intro tg htg
        refine group_lt (hmem v s hv) ?_
        unfold TState.groups
        refine List.mem_append_right _ ?_
        have : tg.group ∈ a.add.map Tag.group := List.mem_map.mpr ⟨tg, htg, rfl⟩
        cases hacc : s.accept with
        | none => rw [hacc] at hfin; simp [TAccept.final] at hfin
        | anchored x => rw [hacc] at hfin; simp [TAccept.final] at hfin; subst hfin; exact this
        | both x y =>
          rw [hacc] at hfin; simp [TAccept.final] at hfin; subst hfin
          exact List.mem_append_left _ this
        | unanchored x => rw [hacc] at hfin; simp [TAccept.final] at hfin; subst hfin; exact this
      obtain ⟨caps, q, ls, i, g1, g2, g3, g4, g5, g6⟩ :=
        accept_min h hN hk hE.order htot (hlt hA) hR hm hfin htags
      rw [hfin] at hr
      simp only [g1, g2] at hr
      have hr := (Option.some.inj (Except.ok.inj hr)).symm
      rw [htot] at hr g3 g5 g6
      exact ⟨caps, q, ls, i, hr, g3, g4, g5, g6⟩
  | cons c cs ih =>
    intro pre off v s L rows h1 h2 hv hA hR hm slots hr
    have e1 : text = (pre ++ [c]) ++ cs := by simp [h1]
    have e2 : off + 1 = unitLen U8Atom (pre ++ [c]) := by
      rw [unitLen_append, h2]; rfl
    unfold TDFA.execLoop at hr
    rw [hv] at hr
    simp only at hr
    rcases dat_step hD h1 h2 hA with ⟨g1, g2⟩ | ⟨t, s', its, first, items, g1, g2, g3, g4, g5, g6, g7, g8, g9, g10⟩
    · rw [g1] at hr; simp at hr
    · obtain ⟨rows', k1, k2, k3⟩ := tagStep_rows (hmem v s hv) h1 h2 hR g3 g4 g5 g6 g7 g8
      rw [g1] at hr
      simp only [k1] at hr
      exact ih (pre ++ [c]) (off + 1) (.normal t.dst) s' _ rows' e1 e2 g2 g9 k2
        (dmin_step h hk g5 g10 h1 h2 g6 (fun q hq => (hA.seeds q).mp hq) hR hm g4 k3) slots hr

end

/-- Only the start of the reported stretch counts. -/
theorem leftOk_of_start {e : ERE} {text : List Char} {r : List (Option (Nat × Nat))} {Acc : Caps → Prop}
    (h : ∀ caps, Acc caps ↔ ∃ pre mid post, text = pre ++ mid ++ post ∧
        (Tree.fromERE e).1.Run ⟨byteLen pre, mid ++ post, []⟩ ⟨byteLen (pre ++ mid), post, caps⟩)
    {i : Nat} {en : Option Nat} (h2 : ∃ x, r[0]? = some x ∧ finishSlot text (some i, en) = .ok x)
    (h3 : ∀ caps', Acc caps' → KLe (some i) (caps'.start? 0)) : LeftOk e text r := by
  obtain ⟨x, h6, h7⟩ := h2
  have h8 : ∃ j, x = some (i, j) := by
    cases en with
    | none => simp [finishSlot] at h7
    | some j =>
      unfold finishSlot at h7
      simp only at h7
      cases hs : strGet text i j with
      | none => rw [hs] at h7; simp at h7
      | some p =>
        rw [hs] at h7
        have h7 := (Except.ok.inj h7).symm
        unfold strGet at hs
        split at hs
        · exact ⟨j, by rw [h7, ← Option.some.inj hs]⟩
        · simp at hs
  obtain ⟨j, rfl⟩ := h8
  refine ⟨i, j, by rw [h6]; rfl, ?_⟩
  intro S' i' j' hS' hl
  obtain ⟨caps', g1, g2⟩ := captures_run hS'
  have g3 := h3 caps' ((h caps').mpr g2)
  rw [(reads_last g1 0).1, hl] at g3
  exact g3

/-- The first entry of a list of finished slots. -/
theorem mapM_head {text : List Char} {k : Nat} (hk : 0 < k) {caps : Caps} {r}
    (h : (slotsOf k caps).mapM (finishSlot text) = .ok r) :
    ∃ x, r[0]? = some x ∧ finishSlot text (caps.start? 0, caps.end? 0) = .ok x := by
  have hget : (slotsOf k caps)[0]? = some (caps.start? 0, caps.end? 0) := slotsOf_get hk
  cases hcs : slotsOf k caps with
  | nil => rw [hcs] at hget; simp at hget
  | cons p ps =>
    rw [hcs] at hget h
    simp only [List.getElem?_cons_zero, Option.some.injEq] at hget
    subst hget
    rw [List.mapM_cons] at h
    cases hp : finishSlot text (caps.start? 0, caps.end? 0) with
    | error e => rw [hp] at h; cases h
    | ok x =>
      rw [hp] at h
      cases hps : ps.mapM (finishSlot text) with
      | error e => rw [hps] at h; cases h
      | ok xs =>
        rw [hps] at h
        have h := Except.ok.inj h
        subst h
        exact ⟨x, rfl, rfl⟩

theorem tdfa_left (U : Utf8Seqs) {e : ERE} {N : NFA Atom} {M : NFA U8Atom} (h1 : workingNew (Tree.fromERE e).1 = .ok N)
    (h2 : u8New U.seqs N = .ok M) (hne : M ≠ []) {bound T} (hT : TDFA.fromNFA M bound = .ok (some T)) {text : List Char} {r}
    (hr : T.exec text (encode text) = .ok (some r)) : LeftOk e text r := by
  obtain ⟨hN, hM, hacc, henc⟩ := pipeline_ne U e h1 h2 hne
  obtain ⟨col, y, hfr⟩ := front_byte U e h1 hN h2 hM.ne
  have hOk : TDFAOk M T := by
    rcases fromNFA_spec hM.wf hM.ne bound with ⟨g1, _⟩ | ⟨T', g1, _, g2⟩
    · rw [g1] at hT; simp at hT
    · rw [g1] at hT
      have := Option.some.inj (Except.ok.inj hT)
      rw [← this]; exact g2
  have hk : 0 < T.numCaptureGroups := by unfold TDFA.numCaptureGroups; omega
  unfold TDFA.exec at hr
  split at hr
  · simp at hr
  · simp at hr
  rename_i slots hs
  obtain ⟨caps, q, ls, i, rfl, g2, g3, g4, g5⟩ := tdfaExecLoop_min hfr hM hOk (encode text) (encode text) [] 0 .start T.start
    [0] _ rfl rfl rfl (dat_start hOk _) (rows_start _ _) (by
      refine ⟨by simp, ?_, ?_⟩
      · intro j j' h1 h2; simp at h2; omega
      · rintro s caps (⟨rfl, _, _, rfl⟩ | ⟨_, _, c, _, _, h, _⟩)
        · exact ⟨0, rfl, trivial⟩
        · have := Sym.len_pos (σ := U8Atom) c; omega) slots hs
  split at hr
  · simp at hr
  rename_i r' hr'
  have hrr := Option.some.inj (Except.ok.inj hr)
  rw [hrr] at hr'
  have hhead := mapM_head hk hr'
  rw [g4] at hhead
  refine leftOk_of_start (Acc := fun caps => M.Acc ⟨0, encode text, []⟩ ⟨unitLen U8Atom (encode text), [], caps⟩) ?_ hhead g5
  intro caps
  rw [unitLen_u8, encode_length, acc_enc henc, hacc]

end Ere
