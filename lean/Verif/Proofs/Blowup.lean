import Verif.Proofs.SizeBytes
import Verif.Proofs.FlatTop
import Verif.Proofs.FirstFlat
import Verif.Proofs.Meta
import Verif.Spec.Grammar

/-!
# How large the program of a flat engine gets

The emitted program has one thread update for every pair of a state and a way, up to the tags it sets,
to get from it to another state without reading. There may be exponentially many of them.
-/

namespace Ere
variable {σ α : Type}

/-- Number of thread updates in the emitted program. -/
def Flat.updateCount (F : Flat σ) : Nat := (F.threads.map List.length).sum

/-! ## Many updates -/

theorem acc_empty_walk [Sym σ α] {N : NFA σ} {p : Nat} {d : Cfg α}
    (h : ReachE N.HasEdge (0, (⟨0, [], []⟩ : Cfg α)) (p, d)) :
    ∃ ls, EWalk N 0 ls p ∧ d = ⟨0, [], walkEvents 0 ls⟩ := by
  generalize hx : ((p, d) : Nat × Cfg α) = x at h
  induction h generalizing p d with
  | refl => cases hx; exact ⟨[], .refl, rfl⟩
  | @tail b c _ h2 ih =>
    obtain ⟨q, d1⟩ := b
    obtain ⟨ls, h3, rfl⟩ := ih rfl
    subst hx
    obtain ⟨l, h4, h5⟩ := h2
    cases l with
    | sym a => simp [labStep, symStep] at h5
    | eps e =>
      refine ⟨ls ++ [e], h3.tail h4, ?_⟩
      cases e <;> simp [labStep, epsStep, Caps.setStart, Caps.setEnd] at h5 <;> subst h5 <;> simp [walkEvents]

theorem reads_opened {L : Caps} {S : List Span} (h : Reads L S) (g : Nat) :
    (∃ i, CapEvent.opened g i ∈ L) ↔ ∃ s ∈ S, s.group = g := by
  induction h with
  | nil => simp
  | append _ _ h1 h2 =>
    simp only [List.mem_append, exists_or, or_and_right, h1, h2]
  | @group L S g' i j _ _ ih =>
    constructor
    · rintro ⟨k, hk⟩
      rcases List.mem_cons.1 hk with h | h
      · cases h; exact ⟨⟨g, i, j⟩, by simp, rfl⟩
      · rcases List.mem_append.1 h with h | h
        · obtain ⟨s, h1, h2⟩ := ih.1 ⟨k, h⟩
          exact ⟨s, by simp [h1], h2⟩
        · simp at h
    · rintro ⟨s, h1, rfl⟩
      rcases List.mem_append.1 h1 with h | h
      · obtain ⟨k, hk⟩ := ih.2 ⟨s, h, rfl⟩
        exact ⟨k, by simp [hk]⟩
      · simp only [List.mem_singleton] at h
        subst h
        exact ⟨i, by simp⟩

/-- Every way to match the empty text has its own update at the start state. -/
theorem flat_update_of_captures [Sym σ α] {N : NFA σ} {F : Flat σ} (hN : Ready N) (hF : FlatOk N F) {o : Nat} {caps : Caps}
    {S : List Span} (hr : Reads caps S) (h : N.Acc (⟨0, [], []⟩ : Cfg α) ⟨o, [], caps⟩) :
    ∃ t ∈ F.at 0, ∀ g, Tag.startCapture g ∈ t.tags ↔ ∃ s ∈ S, s.group = g := by
  obtain ⟨ls, h1, h2⟩ := acc_empty_walk h.2
  have hpos := List.length_pos_of_ne_nil hN.ne
  have hc : caps = walkEvents 0 ls := by injection h2
  refine ⟨walkSummary (N.length - 1) ls, ?_, fun g => ?_⟩
  · refine (hF.mem 0 hpos (by simp [NFA.excludedFlat]) _).2 ⟨?_, ls, h1, rfl⟩
    have : (walkSummary (N.length - 1) ls).state + 1 = N.length := by simp only [walkSummary]; omega
    simp [NFA.keepsThread, this]
  · rw [← reads_opened hr, hc]
    unfold walkSummary
    rw [mem_tags_start]
    constructor
    · intro h; exact ⟨0, List.mem_filterMap.2 ⟨_, h, rfl⟩⟩
    · rintro ⟨i, hi⟩
      obtain ⟨e, he, h3⟩ := List.mem_filterMap.1 hi
      cases e <;> simp at h3
      obtain ⟨rfl, _⟩ := h3
      exact he

theorem length_le_of_choice {β γ : Type} (V : List β) (hV : V.Nodup) (R : List γ) (P : β → γ → Prop)
    (h1 : ∀ v ∈ V, ∃ t ∈ R, P v t) (h2 : ∀ v ∈ V, ∀ v' ∈ V, ∀ t, P v t → P v' t → v = v') :
    V.length ≤ R.length := by
  classical
  cases V with
  | nil => simp
  | cons v0 V =>
    obtain ⟨t0, _⟩ := h1 v0 (by simp)
    let f : β → γ := fun v => if hv : v ∈ v0 :: V then (h1 v hv).choose else t0
    have hf : ∀ v ∈ v0 :: V, f v ∈ R ∧ P v (f v) := by
      intro v hv
      simp only [f, dif_pos hv]
      exact (h1 v hv).choose_spec
    have hn : ((v0 :: V).map f).Nodup := by
      refine List.Nodup.map_on ?_ hV
      intro v hv v' hv' he
      exact h2 v hv v' hv' (f v) (hf v hv).2 (by rw [he]; exact (hf v' hv').2)
    have hs : (v0 :: V).map f ⊆ R := by
      intro t ht
      obtain ⟨v, hv, rfl⟩ := List.mem_map.1 ht
      exact (hf v hv).1
    have := (List.subperm_of_subset hn hs).length_le
    simpa using this

/-! ### The patterns -/

/-- `()` -/
def emptyGroup : EREPart := .single (.sub (.mk [.mk []]))
/-- `(()|())` -/
def twoWays : EREPart := .single (.sub (.mk [.mk [emptyGroup], .mk [emptyGroup]]))
/-- `(()|())` written `n` times. -/
def manyWays (n : Nat) : ERE := .mk [.mk (List.replicate n twoWays)]
/-- The text of `manyWays n`. -/
def manyWaysText (n : Nat) : List Char := (List.replicate n "(()|())".toList).flatten

theorem spells_twoWays : SpellsPart twoWays "(()|())".toList := by
  have h0 : SpellsPart emptyGroup ['(', ')'] := .single (.sub (w := []) (.one .nil))
  have h1 : SpellsBranch (.mk [emptyGroup]) ['(', ')'] := .cons (w := ['(', ')']) (v := []) h0 .nil
  exact .single (.sub (w := ['(', ')', '|', '(', ')']) (.more (w := ['(', ')']) (v := ['(', ')']) h1 (.one h1)))

theorem spells_manyWays (n : Nat) : SpellsERE (manyWays n) (manyWaysText n) := by
  refine .one ?_
  unfold manyWaysText
  induction n with
  | zero => exact .nil
  | succ n ih =>
    rw [List.replicate_succ, List.replicate_succ, List.flatten_cons]
    exact .cons spells_twoWays ih

theorem manyWaysText_length (n : Nat) : (manyWaysText n).length = 7 * n := by
  unfold manyWaysText
  simp
  omega

/-- The stretches for a list of choices; `g` is the number of the first group. -/
def choiceSpans (g : Nat) : List Bool → List Span
  | [] => []
  | b :: bs => [⟨if b then g + 2 else g + 1, 0, 0⟩, ⟨g, 0, 0⟩] ++ choiceSpans (g + 3) bs

theorem cap_emptyGroup (g : Nat) : CapBranch (.mk [emptyGroup]) g [] [] [] [⟨g, 0, 0⟩] := by
  have h : CapPart emptyGroup g [] [] ([] ++ []) [⟨g, 0, 0⟩] :=
    .single (.sub (S := []) (mid := []) (.intro (bs1 := []) (bs2 := []) rfl .nil))
  exact .cons (m1 := []) (m2 := []) (S1 := [⟨g, 0, 0⟩]) (S2 := []) h .nil

theorem cap_twoWays (g : Nat) (b : Bool) :
    CapPart twoWays g [] [] ([] ++ []) [⟨if b then g + 2 else g + 1, 0, 0⟩, ⟨g, 0, 0⟩] := by
  refine .single (.sub (S := [⟨if b then g + 2 else g + 1, 0, 0⟩]) (mid := []) ?_)
  cases b with
  | false => exact .intro (bs1 := []) (bs2 := [.mk [emptyGroup]]) rfl (cap_emptyGroup (g + 1))
  | true => exact .intro (bs1 := [.mk [emptyGroup]]) (bs2 := []) rfl (cap_emptyGroup (g + 2))

theorem cap_manyWays : ∀ (bs : List Bool) (g : Nat),
    CapBranch (.mk (List.replicate bs.length twoWays)) g [] [] [] (choiceSpans g bs)
  | [], _ => .nil
  | b :: bs, g => .cons (m1 := []) (m2 := []) (cap_twoWays g b) (cap_manyWays bs (g + 3))

theorem captures_manyWays (bs : List Bool) :
    (manyWays bs.length).Captures [] (choiceSpans 1 bs ++ [⟨0, 0, 0⟩]) :=
  ⟨[], [], [], _, rfl, .intro (bs1 := []) (bs2 := []) rfl (cap_manyWays bs 1), rfl⟩

theorem choiceSpans_ge : ∀ (bs : List Bool) (g : Nat), ∀ s ∈ choiceSpans g bs, g ≤ s.group
  | [], _, _, h => by simp [choiceSpans] at h
  | b :: bs, g, s, h => by
    simp only [choiceSpans, List.cons_append, List.nil_append, List.mem_cons] at h
    rcases h with rfl | rfl | h
    · dsimp only; split <;> omega
    · exact Nat.le_refl _
    · have := choiceSpans_ge bs (g + 3) s h; omega

theorem choiceSpans_inj : ∀ (bs bs' : List Bool) (g : Nat), bs.length = bs'.length →
    (∀ i, g ≤ i → ((∃ s ∈ choiceSpans g bs, s.group = i) ↔ ∃ s ∈ choiceSpans g bs', s.group = i)) → bs = bs'
  | [], [], _, _, _ => rfl
  | [], _ :: _, _, h, _ => by simp at h
  | _ :: _, [], _, h, _ => by simp at h
  | b :: bs, b' :: bs', g, hl, h => by
    have hmem : ∀ (b : Bool) (bs : List Bool) (i : Nat), (∃ s ∈ choiceSpans g (b :: bs), s.group = i) ↔
        i = (if b then g + 2 else g + 1) ∨ i = g ∨ ∃ s ∈ choiceSpans (g + 3) bs, s.group = i := by
      intro b bs i
      simp only [choiceSpans, List.cons_append, List.nil_append, List.mem_cons]
      constructor
      · rintro ⟨s, rfl | rfl | h, h2⟩
        · exact Or.inl h2.symm
        · exact Or.inr (Or.inl h2.symm)
        · exact Or.inr (Or.inr ⟨s, h, h2⟩)
      · rintro (h | h | ⟨s, h, h2⟩)
        · exact ⟨_, Or.inl rfl, h.symm⟩
        · exact ⟨_, Or.inr (Or.inl rfl), h.symm⟩
        · exact ⟨s, Or.inr (Or.inr h), h2⟩
    have hno : ∀ (bs : List Bool) i, i < g + 3 → ¬ ∃ s ∈ choiceSpans (g + 3) bs, s.group = i := by
      rintro bs i hi ⟨s, h1, h2⟩
      have := choiceSpans_ge bs (g + 3) s h1
      omega
    have hb : b = b' := by
      have := h (g + 1) (by omega)
      rw [hmem, hmem] at this
      have n1 := hno bs (g + 1) (by omega)
      have n2 := hno bs' (g + 1) (by omega)
      cases b <;> cases b' <;> simp [n1, n2] at this ⊢
    refine List.cons_eq_cons.2 ⟨hb, choiceSpans_inj bs bs' (g + 3) (by simpa using hl) fun i hi => ?_⟩
    have := h i (by omega)
    rw [hmem, hmem] at this
    have e1 : ∀ b : Bool, ¬ i = (if b then g + 2 else g + 1) := by intro b; split <;> omega
    have e2 : ¬ i = g := by omega
    simpa [e1, e2] using this

/-- All lists of `n` booleans. -/
def allBools : Nat → List (List Bool)
  | 0 => [[]]
  | n + 1 => (allBools n).map (false :: ·) ++ (allBools n).map (true :: ·)

theorem allBools_length (n : Nat) : (allBools n).length = 2 ^ n := by
  induction n with
  | zero => rfl
  | succ n ih => simp only [allBools, List.length_append, List.length_map, ih, Nat.pow_succ]; omega

theorem allBools_mem {n : Nat} {bs : List Bool} (h : bs ∈ allBools n) : bs.length = n := by
  induction n generalizing bs with
  | zero => simp [allBools] at h; rw [h]; rfl
  | succ n ih =>
    simp only [allBools, List.mem_append, List.mem_map] at h
    rcases h with ⟨c, h, rfl⟩ | ⟨c, h, rfl⟩ <;> simp [ih h]

theorem allBools_nodup (n : Nat) : (allBools n).Nodup := by
  induction n with
  | zero => simp [allBools]
  | succ n ih =>
    rw [allBools, List.nodup_append]
    refine ⟨ih.map (by intro a b h; simpa using h), ih.map (by intro a b h; simpa using h), ?_⟩
    intro a ha b hb
    obtain ⟨x, _, rfl⟩ := List.mem_map.1 ha
    obtain ⟨y, _, rfl⟩ := List.mem_map.1 hb
    simp

theorem at_le_updateCount (F : Flat σ) (q : Nat) : (F.at q).length ≤ F.updateCount := by
  unfold Flat.at Flat.updateCount
  generalize F.threads = L
  induction L generalizing q with
  | nil => simp
  | cons r L ih =>
    cases q with
    | zero => simp
    | succ q => have := ih q; simp only [List.getElem?_cons_succ, List.map_cons, List.sum_cons]; omega

/-- One update for each choice. -/
theorem manyWays_updates [Sym σ α] {N : NFA σ} {F : Flat σ} (hN : Ready N) (hF : FlatOk N F) (n : Nat)
    (hacc : ∀ S, (manyWays n).Captures [] S → ∃ caps, Reads caps S ∧ N.Acc (⟨0, [], []⟩ : Cfg α) ⟨0, [], caps⟩) :
    2 ^ n ≤ F.updateCount := by
  refine Nat.le_trans ?_ (at_le_updateCount F 0)
  rw [← allBools_length]
  refine length_le_of_choice (allBools n) (allBools_nodup n) (F.at 0) (fun bs t => ∀ g, Tag.startCapture g ∈ t.tags ↔
    ∃ s ∈ choiceSpans 1 bs ++ [⟨0, 0, 0⟩], s.group = g) ?_ ?_
  · intro bs hb
    obtain rfl := allBools_mem hb
    obtain ⟨caps, h1, h2⟩ := hacc _ (captures_manyWays bs)
    exact flat_update_of_captures hN hF h1 h2
  · intro bs hb bs' hb' t h1 h2
    refine choiceSpans_inj bs bs' 1 (by rw [allBools_mem hb, allBools_mem hb']) fun i hi => ?_
    have h3 := (h1 i).symm.trans (h2 i)
    have h0 : ∀ (L : List Span), (∃ s ∈ L ++ [⟨0, 0, 0⟩], s.group = i) ↔ ∃ s ∈ L, s.group = i := by
      intro L
      constructor
      · rintro ⟨s, h, rfl⟩
        rcases List.mem_append.1 h with h | h
        · exact ⟨s, h, rfl⟩
        · simp only [List.mem_singleton] at h; subst h; simp at hi
      · rintro ⟨s, h, rfl⟩; exact ⟨s, by simp [h], rfl⟩
    rwa [h0, h0] at h3

theorem manyWays_matches (n : Nat) : (manyWays n).MatchesIn [] := by
  rw [← captures_matchesIn]
  have := captures_manyWays (List.replicate n false)
  rw [List.length_replicate] at this
  exact ⟨_, this⟩

theorem manyWays_acc (n : Nat) {N : NFA Atom}
    (h3 : ∀ text caps, N.Acc ⟨0, text, []⟩ ⟨byteLen text, [], caps⟩ ↔
        ∃ pre mid post, text = pre ++ mid ++ post ∧
          (Tree.fromERE (manyWays n)).1.Run ⟨byteLen pre, mid ++ post, []⟩ ⟨byteLen (pre ++ mid), post, caps⟩) :
    ∀ S, (manyWays n).Captures [] S → ∃ caps, Reads caps S ∧ N.Acc ⟨0, [], []⟩ ⟨0, [], caps⟩ := by
  intro S hS
  obtain ⟨caps, h4, h5⟩ := captures_run hS
  exact ⟨caps, h4, (h3 [] caps).2 h5⟩

/-- The program of `(()|())…(()|())` has at least `2^n` updates. -/
theorem manyWays_flat (U : Utf8Seqs) (n : Nat) :
    (∃ F, compileFlatChar (manyWays n) = .ok F ∧ 2 ^ n ≤ F.updateCount) ∧
      ∃ F, compileFlatU8 U.seqs (manyWays n) = .ok F ∧ 2 ^ n ≤ F.updateCount := by
  obtain ⟨N, M, h1, h2, hN, hM, h3, h4⟩ := pipeline_spec U (manyWays n) ⟨[], manyWays_matches n⟩
  obtain ⟨F, f1, f2⟩ := compileFlat_spec hN.wf hN.ne
  obtain ⟨G, g1, g2⟩ := compileFlat_spec hM.wf hM.ne
  refine ⟨⟨F, ?_, manyWays_updates hN f2 n (manyWays_acc n h3)⟩, G, ?_, manyWays_updates hM g2 n ?_⟩
  · unfold compileFlatChar charNFA; rw [h1]; exact f1
  · unfold compileFlatU8 byteNFA charNFA; rw [h1]; simp only; rw [h2]; exact g1
  · intro S hS
    obtain ⟨caps, h5, h6⟩ := manyWays_acc n h3 S hS
    exact ⟨caps, h5, (acc_enc h4 [] 0 caps).2 h6⟩

/-! ### Faster than every polynomial -/

theorem lt_two_pow (n : Nat) : n < 2 ^ n := Nat.lt_two_pow_self

theorem poly_lt_exp (c k : Nat) : ∃ n, c * (7 * n + 1) ^ k < 2 ^ n := by
  -- n = 2^(2t) with t = c + 2k + 2
  let t := c + 2 * k + 2
  have h1 : (t + 1) * (t + 1) ≤ 2 ^ (2 * t) := by
    have : t + 1 ≤ 2 ^ t := lt_two_pow t
    calc (t + 1) * (t + 1) ≤ 2 ^ t * 2 ^ t := Nat.mul_le_mul this this
      _ = 2 ^ (2 * t) := by rw [← Nat.pow_add]; congr 1; omega
  have h2 : c + (2 * t + 3) * k < (t + 1) * (t + 1) := by
    have e1 : (t + 1) * (t + 1) = t * t + t + t + 1 := by rw [Nat.add_mul, Nat.mul_add]; omega
    have e2 : (2 * t + 3) * k = 2 * (t * k) + 3 * k := by rw [Nat.add_mul, Nat.mul_assoc]
    have e3 : t * t = t * (c + 2 * k + 2) := rfl
    have e4 : t * (c + 2 * k + 2) = t * c + 2 * (t * k) + t * 2 := by
      rw [Nat.mul_add, Nat.mul_add, Nat.mul_left_comm]
    have e5 : t = c + 2 * k + 2 := rfl
    omega
  refine ⟨2 ^ (2 * t), ?_⟩
  have h3 : 7 * 2 ^ (2 * t) + 1 ≤ 2 ^ (2 * t + 3) := by
    have : 1 ≤ 2 ^ (2 * t) := Nat.one_le_two_pow
    rw [Nat.pow_add]; omega
  calc c * (7 * 2 ^ (2 * t) + 1) ^ k ≤ 2 ^ c * (2 ^ (2 * t + 3)) ^ k :=
        Nat.mul_le_mul (Nat.le_of_lt (lt_two_pow c)) (Nat.pow_le_pow_left h3 k)
    _ = 2 ^ (c + (2 * t + 3) * k) := by rw [← Nat.pow_mul, ← Nat.pow_add]
    _ < 2 ^ (2 ^ (2 * t)) := Nat.pow_lt_pow_right (by omega) (by omega)

/-! ## An upper bound -/

/-- The tags of groups below `k`. -/
def tagsBelow (k : Nat) : List Tag := (List.range k).flatMap (fun g => [.startCapture g, .endCapture g])

theorem tagsBelow_length (k : Nat) : (tagsBelow k).length = 2 * k := by
  simp [tagsBelow, List.length_flatMap]
  omega

theorem mem_tagsBelow {k : Nat} {t : Tag} (h : t.group < k) : t ∈ tagsBelow k := by
  refine List.mem_flatMap.2 ⟨t.group, List.mem_range.2 h, ?_⟩
  cases t <;> simp [Tag.group]

theorem cntLists_le (m : Nat) : ∀ k, cntLists m k ≤ (m + 1) ^ k
  | 0 => Nat.le_refl _
  | k + 1 => by
    have h1 := Nat.mul_le_mul_left m (cntLists_le m k)
    have h2 : 1 ≤ (m + 1) ^ k := Nat.one_le_pow _ _ (by omega)
    rw [cntLists, Nat.pow_succ, Nat.mul_add, Nat.mul_comm _ m]
    omega

theorem nodup_eraseDups' (l : List Tag) : l.eraseDups.Nodup := by
  induction l using List.reverseRecOn with
  | nil => simp
  | append_singleton l x ih => rw [eraseDups_concat]; exact addTag_nodup ih x

/-- Everything an update can be. -/
def updateUniverse (n k : Nat) : List EpsProp :=
  (List.range n).flatMap fun q => (listsUpTo (tagsBelow k) (2 * k)).flatMap fun ts =>
    [⟨q, ts, false, false⟩, ⟨q, ts, false, true⟩, ⟨q, ts, true, false⟩, ⟨q, ts, true, true⟩]

theorem updateUniverse_length (n k : Nat) : (updateUniverse n k).length = n * cntLists (2 * k) (2 * k) * 4 := by
  simp only [updateUniverse, List.length_flatMap, List.length_cons, List.length_nil, List.map_const',
    sum_replicate_nat, listsUpTo_length, List.length_range, Nat.mul_assoc, tagsBelow_length]

theorem ewalk_lt {N : NFA σ} (hN : N.WF) {q ls p} (h : EWalk N q ls p) (hq : q < N.length) : p < N.length := by
  cases h with
  | refl => exact hq
  | tail _ h => exact hN _ _ _ h

theorem flatRow_le {N : NFA σ} (hN : Ready N) {q : Nat} (hq : q < N.length) {k : Nat} (hk : N.numCaptureGroups ≤ k)
    {R} (h : N.flatRow q = .ok R) : R.length ≤ 4 * (2 * k + 1) ^ (2 * k) * N.length := by
  unfold NFA.flatRow at h
  split at h
  · cases h; simp
  · obtain ⟨R', h1, h2, h3⟩ := epsProps_spec hN.wf hq
    rw [h1] at h
    cases h
    have hsub : R' ⊆ updateUniverse N.length k := by
      intro t ht
      obtain ⟨p, ls, hw, rfl⟩ := (h3 t).1 ht
      have htag : ∀ t ∈ (walkSummary p ls).tags, t ∈ tagsBelow k := fun t ht =>
        mem_tagsBelow (Nat.lt_of_lt_of_le (walk_tag_lt hN hw t ht) hk)
      refine List.mem_flatMap.2 ⟨p, List.mem_range.2 (ewalk_lt hN.wf hw hq), List.mem_flatMap.2
        ⟨(walkSummary p ls).tags, mem_listsUpTo ?_ htag, ?_⟩⟩
      · rw [← tagsBelow_length]
        exact (List.subperm_of_subset (nodup_eraseDups' _) htag).length_le
      · unfold walkSummary
        cases ls.contains EpsType.startAnchor <;> cases ls.contains EpsType.endAnchor <;> simp
    have h4 := (List.subperm_of_subset h2 hsub).length_le
    rw [updateUniverse_length] at h4
    have h5 := cntLists_le (2 * k) (2 * k)
    calc (R'.filter N.keepsThread).length ≤ R'.length := List.length_filter_le _ _
      _ ≤ N.length * cntLists (2 * k) (2 * k) * 4 := h4
      _ ≤ N.length * (2 * k + 1) ^ (2 * k) * 4 := Nat.mul_le_mul_right _ (Nat.mul_le_mul_left _ h5)
      _ = 4 * (2 * k + 1) ^ (2 * k) * N.length := by
        rw [Nat.mul_comm _ 4, Nat.mul_assoc, Nat.mul_comm N.length]

theorem mapM_rows {N : NFA σ} {b : Nat} : ∀ {qs : List Nat} {ts},
    (∀ q ∈ qs, ∀ R, N.flatRow q = .ok R → R.length ≤ b) → qs.mapM N.flatRow = .ok ts →
    (ts.map List.length).sum ≤ b * qs.length
  | [], ts, _, h => by
    rw [List.mapM_nil] at h
    cases h; simp
  | q :: qs, ts, hb, h => by
    rw [List.mapM_cons] at h
    cases h1 : N.flatRow q with
    | error e => rw [h1] at h; cases h
    | ok R =>
      rw [h1] at h
      cases h2 : qs.mapM N.flatRow with
      | error e => rw [h2] at h; cases h
      | ok ts' =>
        rw [h2] at h
        cases h
        have a1 := hb q (by simp) R h1
        have a2 := mapM_rows (fun q hq => hb q (List.mem_cons_of_mem _ hq)) h2
        simp only [List.map_cons, List.sum_cons, List.length_cons]
        rw [Nat.mul_add]
        omega

theorem compileFlat_count {N : NFA σ} {F : Flat σ} (hN : Ready N) {k : Nat} (hk : N.numCaptureGroups ≤ k)
    (h : compileFlat N = .ok F) : F.updateCount ≤ 4 * (2 * k + 1) ^ (2 * k) * N.length ^ 2 := by
  unfold compileFlat at h
  split at h
  · cases h
  · split at h
    · cases h
    · rename_i ts hts
      cases h
      have := mapM_rows (fun q hq R hR => flatRow_le hN (List.mem_range.1 hq) hk hR) hts
      rw [List.length_range] at this
      unfold Flat.updateCount
      rw [Nat.pow_two, ← Nat.mul_assoc]
      exact this

/-- The character automaton has at most as many groups as the pattern. -/
theorem groups_le_char (e : ERE) {N : NFA Atom} (h1 : workingNew (Tree.fromERE e).1 = .ok N) (hN : Ready N) :
    N.numCaptureGroups ≤ e.groups + 1 := by
  have hQ : (Tree.fromERE e).1.MarkQ (fun s => ∀ g, s = .startCapture g → g ≤ e.groups) :=
    markQ_fromERE e (by simp) (by simp) (fun k _ hk => by
      rw [groups_eq_groupCount]
      constructor
      · rintro g ⟨⟩; omega
      · rintro g ⟨⟩)
  have hb := build_shape _ (starOk_fromERE e)
  have hc1 : Shape (build (Tree.fromERE e).1).cleanStartAnchors := filterEdges_shape hb
  have hc : Shape (build (Tree.fromERE e).1).cleanStartAnchors.cleanEndAnchors := filterEdges_shape hc1
  have hL : EpsQ _ ((build (Tree.fromERE e).1).cleanStartAnchors.cleanEndAnchors.withLoops anyAtom true true) :=
    epsQ_withLoops (epsQ_filter (epsQ_filter (build_epsQ _ hQ) _ _) _ _) _ _ _
  rw [workingNew, newLoopOpt] at h1
  have hNs := (epsQ_stable (α := Char)).finish (withLoops_shape hc anyAtom true true) (epsQ_filter hL _ _) h1 hN.ne
  refine numCaptureGroups_le fun p g q he => ?_
  rcases hNs.edge he with h | h
  · cases h
  · exact h g rfl

end Ere
