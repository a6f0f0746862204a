import Verif.Model.CompileWork
import Verif.Proofs.FramedFixed
import Verif.Proofs.Blowup
import Verif.Proofs.FixedMake

/-!
# How long the search for fixed offsets takes

The main loop follows every walk of the automaton separately.
-/

namespace Ere
variable {σ : Type}

theorem fixLoopC_fst (N : NFA σ) : ∀ k st final, (fixLoopC N k st final).1 = fixLoop N k st final
  | 0, _, _ => rfl
  | _ + 1, [], _ => rfl
  | k + 1, x :: st, final => by
    rw [fixLoopC, fixLoop]
    cases N[x.state]? with
    | none => rfl
    | some s =>
      simp only
      cases fixSucc s x with
      | error err => rfl
      | ok new =>
        simp only
        split
        · cases final with
          | none => exact fixLoopC_fst N k _ _
          | some f =>
            simp only
            split
            · rfl
            · exact fixLoopC_fst N k _ _
        · exact fixLoopC_fst N k _ _

theorem fixLoopC_le (N : NFA σ) : ∀ k st final, (fixLoopC N k st final).2 ≤ k
  | 0, _, _ => Nat.le_refl _
  | _ + 1, [], _ => Nat.zero_le _
  | k + 1, x :: st, final => by
    rw [fixLoopC]
    cases N[x.state]? with
    | none => simp
    | some s =>
      simp only
      cases fixSucc s x with
      | error err => simp
      | ok new =>
        simp only
        split
        · cases final with
          | none => exact Nat.succ_le_succ (fixLoopC_le N k _ _)
          | some f =>
            simp only
            split
            · simp
            · exact Nat.succ_le_succ (fixLoopC_le N k _ _)
        · exact Nat.succ_le_succ (fixLoopC_le N k _ _)

/-- The symbols of the walks of fewer than `d` edges from a state to the accept state, one entry for each walk. -/
def symSeqs (N : NFA σ) : Nat → Nat → List (List σ)
  | 0, _ => []
  | d + 1, q =>
    (if q + 1 = N.length then [[]] else []) ++
      match N[q]? with
      | none => []
      | some s => s.transitions.flatMap (fun t => (symSeqs N d t.dst).map (t.symbol :: ·)) ++
          s.epsilons.flatMap (fun e => symSeqs N d e.dst)

theorem symSeqs_cons {N : NFA σ} {d q : Nat} {s : State σ} (h : N[q]? = some s) : symSeqs N (d + 1) q =
    (if q + 1 = N.length then [[]] else []) ++ (s.transitions.flatMap (fun t => (symSeqs N d t.dst).map (t.symbol :: ·)) ++
      s.epsilons.flatMap (fun e => symSeqs N d e.dst)) := by
  rw [symSeqs, h]

/-- The number of walks. -/
def walkCount (N : NFA σ) (d q : Nat) : Nat := (symSeqs N d q).length

theorem walkCount_cons {N : NFA σ} {d q : Nat} {s : State σ} (h : N[q]? = some s) : walkCount N (d + 1) q =
    (if q + 1 = N.length then 1 else 0) + ((s.transitions.map (fun t => walkCount N d t.dst)).sum +
      (s.epsilons.map (fun e => walkCount N d e.dst)).sum) := by
  rw [walkCount, symSeqs_cons h, List.length_append, List.length_append, List.length_flatMap, List.length_flatMap]
  congr 1
  · split <;> rfl
  · congr 2
    apply List.map_congr_left
    intro t _
    rw [List.length_map]
    rfl

theorem sum_le_sum {β : Type} (f g : β → Nat) (l : List β) (h : ∀ x ∈ l, f x ≤ g x) : (l.map f).sum ≤ (l.map g).sum := by
  induction l with
  | nil => simp
  | cons x l ih =>
    have h1 := h x (by simp)
    have h2 := ih (fun y hy => h y (by simp [hy]))
    simp only [List.map_cons, List.sum_cons]
    omega

theorem walkCount_mono (N : NFA σ) : ∀ d q, walkCount N d q ≤ walkCount N (d + 1) q
  | 0, q => by simp [walkCount, symSeqs]
  | d + 1, q => by
    cases h : N[q]? with
    | none => simp [walkCount, symSeqs, h]
    | some s =>
      rw [walkCount_cons h, walkCount_cons h]
      have h1 := sum_le_sum _ _ s.transitions (fun t _ => walkCount_mono N d t.dst)
      have h2 := sum_le_sum _ _ s.epsilons (fun t _ => walkCount_mono N d t.dst)
      omega

theorem fixEps_state {x y : FixItem} {e : Eps} (h : fixEps x e = .ok y) : y.state = e.dst := by
  unfold fixEps at h
  split at h
  · split at h
    · simp at h
    · injection h with h; rw [← h]
  · split at h
    · simp at h
    · injection h with h; rw [← h]
  · injection h with h; rw [← h]

theorem mapM_states {x : FixItem} : ∀ {es : List Eps} {ys : List FixItem}, es.mapM (fixEps x) = .ok ys →
    ys.map (·.state) = es.map (·.dst)
  | [], ys, h => by
    simp only [List.mapM_nil] at h
    injection h with h
    rw [← h]; rfl
  | e :: es, ys, h => by
    rw [List.mapM_cons] at h
    cases h1 : fixEps x e with
    | error err => rw [h1] at h; cases h
    | ok y =>
      cases h2 : es.mapM (fixEps x) with
      | error err => rw [h1, h2] at h; cases h
      | ok ys' =>
        rw [h1, h2] at h
        injection h with h
        rw [← h, List.map_cons, List.map_cons, fixEps_state h1, mapM_states h2]

theorem fixSucc_states {s : State σ} {x : FixItem} {new : List FixItem} (h : fixSucc s x = .ok new) :
    new.map (·.state) = s.transitions.map (·.dst) ++ s.epsilons.map (·.dst) := by
  unfold fixSucc at h
  split at h
  · simp at h
  · rename_i es hes
    injection h with h
    rw [← h, List.map_append, mapM_states hes, List.map_map]
    rfl

/-- A loop that runs to the end pops an entry for each walk. -/
theorem walks_le (N : NFA σ) (d : Nat) : ∀ k st final r, fixLoop N k st final = .ok (some r) →
    (st.map (fun x => walkCount N d x.state)).sum ≤ (fixLoopC N k st final).2
  | 0, _, _, _, h => by simp [fixLoop] at h
  | _ + 1, [], _, _, _ => by simp
  | k + 1, x :: st, final, r, h => by
    rw [fixLoop] at h
    rw [fixLoopC]
    cases hs : N[x.state]? with
    | none => rw [hs] at h; simp at h
    | some s =>
      rw [hs] at h
      simp only at h ⊢
      cases hn : fixSucc s x with
      | error err => rw [hn] at h; simp at h
      | ok new =>
        rw [hn] at h
        simp only at h ⊢
        have hw : ((x :: st).map (fun x => walkCount N d x.state)).sum ≤
            ((new.reverse ++ st).map (fun x => walkCount N d x.state)).sum + 1 := by
          have e1 : ((new.reverse ++ st).map (fun x => walkCount N d x.state)).sum =
              (new.map (fun x => walkCount N d x.state)).sum + (st.map (fun x => walkCount N d x.state)).sum := by
            rw [List.map_append, List.sum_append_nat, List.map_reverse, List.sum_reverse]
          have e2 : (new.map (fun x => walkCount N d x.state)).sum = (s.transitions.map (fun t => walkCount N d t.dst)).sum +
              (s.epsilons.map (fun e => walkCount N d e.dst)).sum := by
            have : new.map (fun x => walkCount N d x.state) = (new.map (·.state)).map (walkCount N d) := by
              rw [List.map_map]; rfl
            rw [this, fixSucc_states hn, List.map_append, List.sum_append_nat, List.map_map, List.map_map]
            rfl
          have e3 : walkCount N d x.state ≤ 1 + ((s.transitions.map (fun t => walkCount N d t.dst)).sum +
              (s.epsilons.map (fun e => walkCount N d e.dst)).sum) := by
            refine Nat.le_trans (walkCount_mono N d x.state) ?_
            rw [walkCount_cons hs]
            split <;> omega
          rw [List.map_cons, List.sum_cons]
          omega
        split at h
        · rename_i hacc
          rw [if_pos hacc]
          cases final with
          | none => exact Nat.le_trans hw (Nat.succ_le_succ (walks_le N d k _ _ _ h))
          | some f =>
            simp only at h ⊢
            split at h
            · simp at h
            · rename_i hf
              rw [if_neg hf]
              exact Nat.le_trans hw (Nat.succ_le_succ (walks_le N d k _ _ _ h))
        · rename_i hacc
          rw [if_neg hacc]
          exact Nat.le_trans hw (Nat.succ_le_succ (walks_le N d k _ _ _ h))

/-- If the search succeeds it has followed every walk. -/
theorem walks_le_work {N : NFA σ} {offs} (h : N.fixedOffsets = .ok (some offs)) (d : Nat) : walkCount N d 0 ≤ N.fixedWork := by
  unfold NFA.fixedOffsets at h
  unfold NFA.fixedWork
  cases ht : N.topologicalOrdering with
  | error e => rw [ht] at h; simp at h
  | ok o =>
    rw [ht] at h
    cases o with
    | none => simp at h
    | some o =>
      simp only at h ⊢
      split at h
      · simp at h
      · simp at h
      · rename_i r hr
        have := walks_le N d _ _ _ _ hr
        simpa using this

theorem no_cycle_of_order {N : NFA σ} {ord : List Nat} (h4 : ord.Perm (List.range N.length))
    (h5 : ∀ a x b, ord = a ++ x :: b → ∀ y, N.Edge x y → y ∈ b) : ¬ ∃ q, Relation.TransGen N.Edge q q := by
  have hnd : ord.Nodup := h4.nodup_iff.2 List.nodup_range
  have hmem : ∀ q, q ∈ ord ↔ q < N.length := fun q => by rw [h4.mem_iff, List.mem_range]
  have hpos : ∀ a b, N.Edge a b → ord.idxOf a < ord.idxOf b := by
    intro a b hab
    have ha : a ∈ ord := by
      obtain ⟨l, hl⟩ := edge_iff.1 hab
      exact (hmem a).2 (hasEdge_lt hl)
    obtain ⟨u, v, rfl⟩ := List.append_of_mem ha
    have hb := h5 u a v rfl b hab
    rw [List.nodup_append] at hnd
    obtain ⟨_, n2, n3⟩ := hnd
    rw [List.nodup_cons] at n2
    have hau : a ∉ u := fun h => n3 a h a (by simp) rfl
    have hbu : b ∉ u := fun h => n3 b h b (by simp [hb]) rfl
    have hba : a ≠ b := fun e => n2.1 (e ▸ hb)
    rw [List.idxOf_append_of_notMem hau, List.idxOf_append_of_notMem hbu]
    simp only [List.idxOf_cons_self]
    rw [List.idxOf_cons_ne _ hba]
    omega
  rintro ⟨q, hq⟩
  have : ∀ a b, Relation.TransGen N.Edge a b → ord.idxOf a < ord.idxOf b := by
    intro a b h
    induction h with
    | single h => exact hpos _ _ h
    | tail _ h ih => exact ih.trans (hpos _ _ h)
  exact absurd (this q q hq) (by omega)

/-! ### Walks and texts -/

theorem symSeqs_mono {N : NFA σ} : ∀ {d q s}, s ∈ symSeqs N d q → s ∈ symSeqs N (d + 1) q
  | 0, _, _, h => by simp [symSeqs] at h
  | d + 1, q, s, h => by
    cases hs : N[q]? with
    | none => simpa [symSeqs, hs] using h
    | some st =>
      rw [symSeqs_cons hs] at h ⊢
      rcases List.mem_append.mp h with h | h
      · exact List.mem_append.mpr (.inl h)
      · refine List.mem_append.mpr (.inr ?_)
        rcases List.mem_append.mp h with h | h
        · refine List.mem_append.mpr (.inl ?_)
          obtain ⟨t, ht, h⟩ := List.mem_flatMap.mp h
          obtain ⟨s', h1, rfl⟩ := List.mem_map.mp h
          exact List.mem_flatMap.mpr ⟨t, ht, List.mem_map.mpr ⟨s', symSeqs_mono h1, rfl⟩⟩
        · refine List.mem_append.mpr (.inr ?_)
          obtain ⟨e, he, h⟩ := List.mem_flatMap.mp h
          exact List.mem_flatMap.mpr ⟨e, he, symSeqs_mono h⟩

theorem symSeqs_le {N : NFA σ} {d d' q s} (hd : d ≤ d') (h : s ∈ symSeqs N d q) : s ∈ symSeqs N d' q := by
  induction hd with
  | refl => exact h
  | step _ ih => exact symSeqs_mono ih

theorem mem_symSeqs_sym {N : NFA σ} {d q a q' s} (he : N.HasEdge q (.sym a) q') (h : s ∈ symSeqs N d q') :
    (a :: s) ∈ symSeqs N (d + 1) q := by
  obtain ⟨st, h1, h2⟩ := he
  rw [symSeqs_cons h1]
  exact List.mem_append.mpr (.inr (List.mem_append.mpr (.inl (List.mem_flatMap.mpr ⟨_, h2, List.mem_map.mpr ⟨s, h, rfl⟩⟩))))

theorem mem_symSeqs_eps {N : NFA σ} {d q e q' s} (he : N.HasEdge q (.eps e) q') (h : s ∈ symSeqs N d q') :
    s ∈ symSeqs N (d + 1) q := by
  obtain ⟨st, h1, h2⟩ := he
  rw [symSeqs_cons h1]
  exact List.mem_append.mpr (.inr (List.mem_append.mpr (.inr (List.mem_flatMap.mpr ⟨_, h2, h⟩))))

/-- Every run follows a walk. -/
theorem run_symSeq {M : NFA U8Atom} (hne : M ≠ []) {x y : Nat × Cfg UInt8} (h : ReachE M.HasEdge x y)
    (h1 : y.1 = M.length - 1) (h2 : y.2.rest = []) :
    ∃ d, ∃ s ∈ symSeqs M d x.1, List.Forall₂ (fun (a : U8Atom) b => a.check b = true) s x.2.rest := by
  induction h using Relation.ReflTransGen.head_induction_on with
  | refl =>
    refine ⟨1, [], ?_, by rw [h2]; exact .nil⟩
    have := List.length_pos_of_ne_nil hne
    rw [symSeqs, if_pos (by omega)]
    simp
  | @head x z hxz _ ih =>
    obtain ⟨d, s, hs, hf⟩ := ih
    obtain ⟨l, he, hl⟩ := hxz
    cases l with
    | sym a =>
      obtain ⟨b, hb, hr, _⟩ := symStep_u8.mp (show symStep a x.2 = some z.2 from hl)
      exact ⟨d + 1, a :: s, mem_symSeqs_sym he hs, by rw [hr]; exact .cons hb hf⟩
    | eps e =>
      refine ⟨d + 1, s, mem_symSeqs_eps he hs, ?_⟩
      have : x.2.rest = z.2.rest := by
        have hl : epsStep e x.2 = some z.2 := hl
        obtain ⟨q, o, r, c⟩ := x
        obtain ⟨q', o', r', c'⟩ := z
        cases e <;> simp [epsStep, Caps.setStart, Caps.setEnd] at hl <;>
          first | exact hl.2.2.1 | exact hl.2.1
      rw [this]
      exact hf

theorem symSeq_after {M : NFA U8Atom} {A : Nat → Nat} (hA : GOkL frS A 0 M) : ∀ {d q s}, A q = 2 → s ∈ symSeqs M d q → s = []
  | 0, _, _, _, h => by simp [symSeqs] at h
  | d + 1, q, s, hq, h => by
    cases hs : M[q]? with
    | none =>
      rw [symSeqs, hs] at h
      simp only [List.append_nil] at h
      split at h <;> simp at h
      exact h
    | some st =>
      rw [symSeqs_cons hs] at h
      rcases List.mem_append.mp h with h | h
      · split at h <;> simp at h
        exact h
      · rcases List.mem_append.mp h with h | h
        · obtain ⟨t, ht, h⟩ := List.mem_flatMap.mp h
          have := hA q (.sym t.symbol) t.dst ⟨st, hs, ht⟩
          simp only [frS, Nat.zero_add] at this
          omega
        · obtain ⟨e, he, h⟩ := List.mem_flatMap.mp h
          have := hA q (.eps e.special) e.dst ⟨st, hs, he⟩
          simp only [frS, Nat.zero_add] at this
          refine symSeq_after hA ?_ h
          cases hsp : e.special <;> rw [hsp] at this <;> simp only [frE] at this <;> omega

/-- With anchors only around the branches every walk is a run over all bytes that its symbols allow. -/
theorem symSeq_run {M : NFA U8Atom} {A : Nat → Nat} (hA : GOkL frS A 0 M) : ∀ {d q s bs o c}, s ∈ symSeqs M d q →
    (A q = 0 → o = 0) → List.Forall₂ (fun (a : U8Atom) b => a.check b = true) s bs →
    ∃ c', ReachE M.HasEdge (q, (⟨o, bs, c⟩ : Cfg UInt8)) (M.length - 1, ⟨o + bs.length, [], c'⟩)
  | 0, _, _, _, _, _, h, _, _ => by simp [symSeqs] at h
  | d + 1, q, s, bs, o, c, h, hq, hf => by
    have stop : ∀ {l : List (List U8Atom)}, s ∈ (if q + 1 = M.length then [[]] else []) →
        ∃ c', ReachE M.HasEdge (q, (⟨o, bs, c⟩ : Cfg UInt8)) (M.length - 1, ⟨o + bs.length, [], c'⟩) := by
      intro _ h
      split at h
      · rename_i hl
        simp only [List.mem_singleton] at h
        subst h
        cases hf
        obtain rfl : q = M.length - 1 := by omega
        exact ⟨c, reachE_refl⟩
      · simp at h
    cases hs : M[q]? with
    | none =>
      rw [symSeqs, hs] at h
      simp only [List.append_nil] at h
      exact stop (l := []) h
    | some st =>
      rw [symSeqs_cons hs] at h
      rcases List.mem_append.mp h with h | h
      · exact stop (l := []) h
      · rcases List.mem_append.mp h with h | h
        · obtain ⟨t, ht, h⟩ := List.mem_flatMap.mp h
          obtain ⟨s', h1, rfl⟩ := List.mem_map.mp h
          cases hf with
          | @cons _ b _ bs hb hf =>
            have hph := hA q (.sym t.symbol) t.dst ⟨st, hs, ht⟩
            simp only [frS, Nat.zero_add] at hph
            obtain ⟨c', hr⟩ := symSeq_run hA (o := o + 1) (c := c) h1 (by omega) hf
            refine ⟨c', reachE_trans (reachE_step (l := .sym t.symbol) ⟨st, hs, ht⟩
              (show symStep t.symbol (⟨o, b :: bs, c⟩ : Cfg UInt8) = some ⟨o + 1, bs, c⟩ from
                symStep_u8.mpr ⟨b, hb, rfl, rfl, rfl⟩)) ?_⟩
            rw [List.length_cons, Nat.add_comm bs.length 1, ← Nat.add_assoc]
            exact hr
        · obtain ⟨⟨q', e⟩, he, h⟩ := List.mem_flatMap.mp h
          simp only at h
          have hph := hA q (.eps e) q' ⟨st, hs, he⟩
          simp only [frS, Nat.zero_add] at hph
          have h0 : A q' = 0 → o = 0 := by
            intro h
            apply hq
            cases e <;> simp only [frE] at hph <;> omega
          have hstep : epsStep e (⟨o, bs, c⟩ : Cfg UInt8) = some ⟨o, bs, c ++ walkEvents o [e]⟩ := by
            cases e with
            | none => simp [epsStep, walkEvents]
            | startAnchor => rw [hq hph.1]; simp [epsStep, walkEvents]
            | endAnchor =>
              have := symSeq_after hA hph.2 h
              subst this
              cases hf
              simp [epsStep, walkEvents]
            | startCapture g => simp [epsStep, walkEvents, Caps.setStart]
            | endCapture g => simp [epsStep, walkEvents, Caps.setEnd]
          obtain ⟨c', hr⟩ := symSeq_run hA (c := c ++ walkEvents o [e]) h h0 hf
          exact ⟨c', reachE_trans (reachE_step (l := .eps e) ⟨st, hs, he⟩ (show epsStep e _ = some _ from hstep)) hr⟩

/-! ### The patterns -/

/-- `[0-9a-f]` -/
def lowHex : Atom := .matching [.range '0' '9', .range 'a' 'f']
/-- `^`, then `[0-9a-f]` written `n` times, then `$`. -/
def manyHex (n : Nat) : ERE := .mk [.mk ([.start] ++ List.replicate n (.single (.atom lowHex)) ++ [.end_])]
/-- The text of `manyHex n`. -/
def manyHexText (n : Nat) : List Char := '^' :: ((List.replicate n "[0-9a-f]".toList).flatten ++ ['$'])

theorem manyHexText_length (n : Nat) : (manyHexText n).length = 8 * n + 2 := by
  unfold manyHexText
  simp
  omega

theorem spells_manyHex (n : Nat) : SpellsERE (manyHex n) (manyHexText n) := by
  have h1 : SpellsPart (.single (.atom lowHex)) "[0-9a-f]".toList :=
    .single (.atom (.matching (w := ['0', '-', '9', 'a', '-', 'f', ']']) (by decide) (.plain (by decide)
      (.range (by decide) (by decide) (.range (by decide) (by decide) .close)))))
  refine .one (.cons (w := ['^']) .start ?_)
  show SpellsBranch (.mk (List.replicate n (.single (.atom lowHex)) ++ [.end_])) _
  induction n with
  | zero => exact .cons (w := ['$']) (v := []) .end_ .nil
  | succ n ih =>
    rw [List.replicate_succ, List.replicate_succ, List.flatten_cons]
    show SpellsBranch _ (_ ++ _ ++ ['$'])
    rw [List.append_assoc]
    exact .cons h1 ih

theorem manyHex_framed (n : Nat) : (manyHex n).Framed true true := by
  refine ⟨_, rfl, fun b hb => ⟨List.replicate n (.single (.atom lowHex)), List.mem_singleton.mp hb, ?_, ?_⟩⟩ <;> clear hb
  · induction n with
    | zero => rfl
    | succ n ih => rw [List.replicate_succ]; simp [partsHaveStart, EREPart.hasStart, EREExpr.hasStart, ih]
  · induction n with
    | zero => rfl
    | succ n ih => rw [List.replicate_succ]; simp [partsHaveEnd, EREPart.hasEnd, EREExpr.hasEnd, ih]

theorem manyHex_matches {text : List Char} (h : ∀ c ∈ text, lowHex.check c = true) : (manyHex text.length).MatchesIn text := by
  have key : ∀ (t : List Char) (pre : List Char), (∀ c ∈ t, lowHex.check c = true) →
      MatchesBranch (.mk (List.replicate t.length (.single (.atom lowHex)) ++ [.end_])) pre t [] := by
    intro t
    induction t with
    | nil => intro pre _; exact .cons (m1 := []) (m2 := []) .end_ .nil
    | cons c t ih =>
      intro pre h
      rw [List.length_cons, List.replicate_succ]
      exact .cons (m1 := [c]) (m2 := t) (.single (.atom (h c (by simp)))) (ih _ (fun x hx => h x (by simp [hx])))
  exact ⟨[], text, [], by simp, .intro (List.mem_singleton.mpr rfl) (.cons (m1 := []) (m2 := text) .start (key text _ h))⟩

theorem endPart {pre mid post : List Char} (h : MatchesPart .end_ pre mid post) : mid = [] ∧ post = [] := by
  cases h; exact ⟨rfl, rfl⟩

theorem matches_manyHex {n : Nat} {text : List Char} (h : (manyHex n).MatchesIn text) : ∀ c ∈ text, lowHex.check c = true := by
  have key : ∀ (n : Nat) (pre mid post : List Char),
      MatchesBranch (.mk (List.replicate n (.single (.atom lowHex)) ++ [.end_])) pre mid post →
      post = [] ∧ ∀ c ∈ mid, lowHex.check c = true := by
    intro n
    induction n with
    | zero =>
      intro pre mid post h
      cases h with
      | cons h1 h2 =>
        obtain ⟨rfl, hp⟩ := endPart h1
        cases h2
        exact ⟨by simpa using hp, by simp⟩
    | succ n ih =>
      intro pre mid post h
      rw [List.replicate_succ, List.cons_append] at h
      cases h with
      | @cons _ _ _ m1 m2 _ h1 h2 =>
        obtain ⟨k1, k2⟩ := ih _ _ _ h2
        refine ⟨k1, ?_⟩
        cases h1 with
        | single h1 => cases h1 with
          | atom h1 =>
            intro c hc
            rcases List.mem_append.mp hc with hc | hc
            · rw [List.mem_singleton.mp hc]; exact h1
            · exact k2 c hc
  obtain ⟨pre, mid, post, rfl, h⟩ := h
  cases h with
  | intro hb h =>
    rw [List.mem_singleton.mp hb] at h
    cases h with
    | @cons _ _ _ m1 m2 _ h1 h2 =>
      obtain ⟨k1, k2⟩ := key n _ _ _ h2
      cases h1
      subst k1
      simpa using k2

/-- `0` or `a` for each choice. -/
def hexText (bs : List Bool) : List Char := bs.map (fun b => if b then 'a' else '0')

theorem hexText_ok (bs : List Bool) : ∀ c ∈ hexText bs, lowHex.check c = true := by
  intro c hc
  obtain ⟨b, _, rfl⟩ := List.mem_map.mp hc
  cases b <;> decide

theorem encode_hexText (bs : List Bool) : encode (hexText bs) = bs.map (fun b => if b then 0x61 else 0x30) := by
  induction bs with
  | nil => rfl
  | cons b bs ih =>
    show encode ((if b then 'a' else '0') :: hexText bs) = _
    rw [encode_cons, ih]
    cases b <;> rfl

/-- If the symbols of a walk allow two different texts, they also allow one with a `:` in it. -/
theorem between_texts : ∀ {s : List U8Atom} {bs bs' : List Bool},
    List.Forall₂ (fun (a : U8Atom) b => a.check b = true) s (encode (hexText bs)) →
    List.Forall₂ (fun (a : U8Atom) b => a.check b = true) s (encode (hexText bs')) → bs ≠ bs' →
    ∃ t : List Char, ':' ∈ t ∧ List.Forall₂ (fun (a : U8Atom) b => a.check b = true) s (encode t)
  | [], bs, bs', h1, h2, hne => by
    rw [encode_hexText] at h1 h2
    cases bs with
    | cons b bs => cases h1
    | nil => cases bs' with
      | cons b bs => cases h2
      | nil => exact absurd rfl hne
  | a :: s, bs, bs', h1, h2, hne => by
    cases bs with
    | nil => rw [encode_hexText] at h1; cases h1
    | cons b bs =>
      cases bs' with
      | nil => rw [encode_hexText] at h2; cases h2
      | cons b' bs' =>
        have e : ∀ (b : Bool) (bs : List Bool), encode (hexText (b :: bs)) = (if b then 0x61 else 0x30) :: encode (hexText bs) := by
          intro b bs
          rw [encode_hexText, encode_hexText, List.map_cons]
        rw [e] at h1 h2
        cases h1 with
        | cons c1 f1 =>
          cases h2 with
          | cons c2 f2 =>
            by_cases hb : b = b'
            · subst hb
              obtain ⟨t, ht, hf⟩ := between_texts f1 f2 (fun h => hne (by rw [h]))
              refine ⟨(if b then 'a' else '0') :: t, by simp [ht], ?_⟩
              rw [encode_cons]
              cases b
              · exact .cons c1 hf
              · exact .cons c1 hf
            · refine ⟨':' :: hexText bs, by simp, ?_⟩
              rw [encode_cons]
              refine .cons ?_ f1
              have hc : a.check 0x61 = true ∧ a.check 0x30 = true := by
                cases b <;> cases b' <;> simp at hb
                · exact ⟨c2, c1⟩
                · exact ⟨c1, c2⟩
              simp only [U8Atom.check, Bool.and_eq_true, decide_eq_true_eq] at hc ⊢
              obtain ⟨⟨_, k1⟩, k2, _⟩ := hc
              refine ⟨UInt8.le_trans k2 (by decide), UInt8.le_trans (by decide) k1⟩

/-- If a pattern matches all texts of `n` characters `0` or `a`, but only hexadecimal digits, its automaton has at least `2^n`
walks. -/
theorem hex_walks (U : Utf8Seqs) {e : ERE} {s t : Bool} (he : e.Framed s t) {n : Nat}
    (hall : ∀ bs : List Bool, bs.length = n → e.MatchesIn (hexText bs))
    (honly : ∀ text, e.MatchesIn text → ∀ c ∈ text, lowHex.check c = true) {N : NFA Atom} {M : NFA U8Atom}
    (h1 : workingNew (Tree.fromERE e).1 = .ok N) (h2 : u8New U.seqs N = .ok M) (hne : M ≠ []) :
    ∃ d, 2 ^ n ≤ walkCount M d 0 := by
  obtain ⟨hN, hM, _, _⟩ := pipeline_ne U _ h1 h2 hne
  obtain ⟨A, _, _, hA⟩ := frS_byte U he h1 hN h2 hne
  have hw : ∀ bs ∈ allBools n, ∃ d, ∃ s ∈ symSeqs M d 0,
      List.Forall₂ (fun (a : U8Atom) b => a.check b = true) s (encode (hexText bs)) := by
    intro bs hbs
    obtain ⟨S, hS⟩ := captures_matchesIn.mpr (hall bs (allBools_mem hbs))
    obtain ⟨caps, _, ha⟩ := captures_acc U h1 h2 hne hS
    exact run_symSeq hne ha.2 rfl rfl
  have hd : ∀ V : List (List Bool), (∀ bs ∈ V, ∃ d, ∃ s ∈ symSeqs M d 0,
      List.Forall₂ (fun (a : U8Atom) b => a.check b = true) s (encode (hexText bs))) →
      ∃ d, ∀ bs ∈ V, ∃ s ∈ symSeqs M d 0,
        List.Forall₂ (fun (a : U8Atom) b => a.check b = true) s (encode (hexText bs)) := by
    intro V
    induction V with
    | nil => intro _; exact ⟨0, by simp⟩
    | cons v V ih =>
      intro h
      obtain ⟨d, hd⟩ := ih (fun bs hbs => h bs (by simp [hbs]))
      obtain ⟨d', s, hs, hf⟩ := h v (by simp)
      refine ⟨max d d', fun bs hbs => ?_⟩
      rcases List.mem_cons.mp hbs with rfl | hbs
      · exact ⟨s, symSeqs_le (Nat.le_max_right _ _) hs, hf⟩
      · obtain ⟨s, hs, hf⟩ := hd bs hbs
        exact ⟨s, symSeqs_le (Nat.le_max_left _ _) hs, hf⟩
  obtain ⟨d, hd⟩ := hd _ hw
  refine ⟨d, ?_⟩
  rw [← allBools_length]
  refine length_le_of_choice (allBools n) (allBools_nodup n) (symSeqs M d 0)
    (fun bs s => s ∈ symSeqs M d 0 ∧ List.Forall₂ (fun (a : U8Atom) b => a.check b = true) s (encode (hexText bs))) ?_ ?_
  · intro bs hbs
    obtain ⟨s, h1, h2⟩ := hd bs hbs
    exact ⟨s, h1, h1, h2⟩
  · intro bs _ bs' _ s k1 k2
    apply Classical.byContradiction
    intro hx
    obtain ⟨t, ht, hf⟩ := between_texts k1.2 k2.2 hx
    obtain ⟨c', hr⟩ := symSeq_run hA (o := 0) (c := []) k1.1 (fun _ => rfl) hf
    rw [Nat.zero_add, encode_length] at hr
    obtain ⟨S, hS, _⟩ := acc_captures U h1 h2 hne ⟨hM.ne, hr⟩
    have := honly _ (captures_matchesIn.mp ⟨S, hS⟩) ':' ht
    exact absurd this (by decide)

theorem lowHex_width : lowHex.HasWidth 1 := by
  refine ⟨⟨'a', by decide⟩, fun c hc => ?_⟩
  have : c.toNat < 0x80 := by
    simp only [lowHex, Atom.check, Term.check, List.any_cons, List.any_nil, Bool.or_false, Bool.or_eq_true,
      Bool.and_eq_true, decide_eq_true_eq] at hc
    rcases hc with h | h
    · have := Char.le_def.mp h.2; exact Nat.lt_of_le_of_lt (UInt32.le_iff_toNat_le.mp this) (by decide)
    · have := Char.le_def.mp h.2; exact Nat.lt_of_le_of_lt (UInt32.le_iff_toNat_le.mp this) (by decide)
  rw [charLen, if_pos this]

theorem manyHex_anchored (n : Nat) : (manyHex n).Anchored n := by
  refine ⟨_, rfl, by simp, fun b hb => ⟨List.replicate n (.single (.atom lowHex)), by simpa using hb, ?_⟩, Or.inl rfl⟩
  clear hb
  induction n with
  | zero => exact .nil
  | succ n ih =>
    rw [List.replicate_succ, Nat.add_comm]
    exact .cons (.single (.atom lowHex_width)) ih

/-- The search for the fixed offsets of such a pattern takes at least `2^n` iterations. -/
theorem hex_work (U : Utf8Seqs) {e : ERE} {s t : Bool} (he : e.Framed s t) {w : Nat} (hw : e.Anchored w) {n : Nat}
    (hall : ∀ bs : List Bool, bs.length = n → e.MatchesIn (hexText bs))
    (honly : ∀ text, e.MatchesIn text → ∀ c ∈ text, lowHex.check c = true) {N : NFA Atom} {M : NFA U8Atom}
    (h1 : workingNew (Tree.fromERE e).1 = .ok N) (h2 : u8New U.seqs N = .ok M) (hne : M ≠ []) : 2 ^ n ≤ M.fixedWork := by
  obtain ⟨offs, ho⟩ := fixed_made U hw h1 h2 hne
  obtain ⟨d, hd⟩ := hex_walks U he hall honly h1 h2 hne
  exact Nat.le_trans hd (walks_le_work ho d)

theorem manyHex_all (n : Nat) (bs : List Bool) (h : bs.length = n) : (manyHex n).MatchesIn (hexText bs) := by
  have := manyHex_matches (hexText_ok bs)
  rwa [hexText, List.length_map, h] at this

/-! ### The same with a repetition -/

/-- `^[0-9a-f]{n}$` -/
def hexTimes (n : Nat) : ERE := .mk [.mk [.start, .quantified (.atom lowHex) ⟨.multiple n, false⟩, .end_]]

theorem hexTimes_framed (n : Nat) : (hexTimes n).Framed true true :=
  ⟨_, rfl, fun _ hb => ⟨[.quantified (.atom lowHex) ⟨.multiple n, false⟩], List.mem_singleton.mp hb, rfl, rfl⟩⟩

theorem hexTimes_anchored (n : Nat) : (hexTimes n).Anchored n := by
  refine ⟨_, rfl, by simp, fun b hb => ⟨[.quantified (.atom lowHex) ⟨.multiple n, false⟩], by simpa using hb, ?_⟩, Or.inl rfl⟩
  have := WidthBranch.cons (.times (q := ⟨.multiple n, false⟩) (n := n) rfl rfl (.atom lowHex_width)) .nil
  simpa using this

theorem hexTimes_all (n : Nat) (bs : List Bool) (h : bs.length = n) : (hexTimes n).MatchesIn (hexText bs) := by
  have key : ∀ (t : List Char) (pre post : List Char), (∀ c ∈ t, lowHex.check c = true) →
      MatchesTimes (.atom lowHex) t.length pre t post := by
    intro t
    induction t with
    | nil => intro pre post _; exact .zero
    | cons c t ih =>
      intro pre post h
      exact .succ (m1 := [c]) (m2 := t) (.atom (h c (by simp))) (ih _ _ (fun x hx => h x (by simp [hx])))
  have hl : (hexText bs).length = n := by rw [hexText, List.length_map, h]
  refine ⟨[], hexText bs, [], by simp, .intro (List.mem_singleton.mpr rfl) (.cons (m1 := []) (m2 := hexText bs) .start ?_)⟩
  have := MatchesBranch.cons (m1 := hexText bs) (m2 := []) (post := [])
    (MatchesPart.quantified (q := ⟨.multiple n, false⟩) (n := (hexText bs).length) (by rw [hl]; simp [QType.min])
      (by rw [hl]; simp [QType.max]) (key (hexText bs) [] [] (hexText_ok bs)))
    (.cons (m1 := []) (m2 := []) .end_ .nil)
  simpa using this

theorem hexTimes_only (n : Nat) (text : List Char) (h : (hexTimes n).MatchesIn text) : ∀ c ∈ text, lowHex.check c = true := by
  have key : ∀ (k : Nat) (pre mid post : List Char), MatchesTimes (.atom lowHex) k pre mid post →
      ∀ c ∈ mid, lowHex.check c = true := by
    intro k
    induction k with
    | zero => intro pre mid post h; cases h; simp
    | succ k ih =>
      intro pre mid post h
      cases h with
      | succ h1 h2 =>
        cases h1 with
        | atom h1 =>
          intro c hc
          rcases List.mem_append.mp hc with hc | hc
          · rw [List.mem_singleton.mp hc]; exact h1
          · exact ih _ _ _ h2 c hc
  obtain ⟨pre, mid, post, rfl, h⟩ := h
  cases h with
  | intro hb h =>
    rw [List.mem_singleton.mp hb] at h
    cases h with
    | cons h1 h2 =>
      cases h2 with
      | cons h2 h3 =>
        cases h3 with
        | cons h3 h4 =>
          obtain ⟨rfl, hp⟩ := endPart h3
          cases h4
          cases h1
          cases h2 with
          | quantified _ _ h2 =>
            rw [List.nil_append] at hp
            subst hp
            simpa using key _ _ _ _ h2

end Ere
