import Verif.Proofs.OnePassFn
import Verif.Proofs.Meta
import Verif.Model.Engines

/-! The one-pass engine for patterns. -/

namespace Ere

/-! ### Symbols of the byte automaton -/

/-- Every symbol satisfies `P`. -/
def SymP {σ : Type} (P : σ → Prop) (N : NFA σ) : Prop := ∀ p a q, N.HasEdge p (.sym a) q → P a

theorem SymP.filter {σ : Type} {P : σ → Prop} {N : NFA σ} (fe ft) (hp : SymP P N) : SymP P (N.filterEdges fe ft) :=
  fun _ _ _ he => hp _ _ _ (hasEdge_filterEdges.mp he).1

theorem symP_stable {σ α : Type} [Sym σ α] (P : σ → Prop) : Stable α (SymP P) := by
  refine { merge := ?_, dedupe := ?_, skip1 := ?_, splice := ?_, dead := ?_, trim := fun _ _ => SymP.filter _ _ }
  · intro N x o a b _ _ _ _ _ _ _ _ _ hp p s q he
    obtain ⟨q1, h1, _⟩ := hasEdge_redirect.mp he
    exact hp _ _ _ (hasEdge_clear.mp h1).2
  · intro N _ hp p s q he
    exact hp _ _ _ (hasEdge_dedupe.mp he)
  · intro N x c _ _ _ _ _ _ hp p s q he
    obtain ⟨q1, h1, _⟩ := hasEdge_redirect.mp (hasEdge_clear.mp he).2
    exact hp _ _ _ h1
  · intro N x a k es _ _ _ _ h hp p s q he
    obtain ⟨_, h1 | ⟨_, h1⟩⟩ := (hasEdge_splice h).mp he
    · exact hp _ _ _ h1.1
    · exact hp _ _ _ h1
  · intro N ds hl _ _ hp p s q he
    obtain ⟨i, i', _, _, h4, _⟩ := (hasEdge_removeDead hl).mp he
    exact hp _ _ _ h4

theorem trieInsert_symP {P : U8Atom → Prop} : ∀ (as : List U8Atom) (T : Trie) (q) {T' : Trie},
    (∀ ts ∈ T, ∀ x ∈ ts, P x.1) → (∀ a ∈ as, P a) → trieInsert T q as = .ok T' → ∀ ts ∈ T', ∀ x ∈ ts, P x.1 := by
  have hmod : ∀ (T : Trie) (q : Nat) (x : U8Atom × Option Nat), (∀ ts ∈ T, ∀ y ∈ ts, P y.1) → P x.1 →
      ∀ ts ∈ T.modify q (fun ts => ts ++ [x]), ∀ y ∈ ts, P y.1 := by
    intro T q x hT hx ts hts y hy
    obtain ⟨i, hi⟩ := List.mem_iff_getElem?.mp hts
    rw [List.getElem?_modify, Option.map_eq_map, Option.map_eq_some_iff] at hi
    obtain ⟨s, h1, h2⟩ := hi
    split at h2
    · subst h2
      rcases List.mem_append.mp hy with hy | hy
      · exact hT s (List.mem_of_getElem? h1) y hy
      · rw [List.mem_singleton.mp hy]; exact hx
    · subst h2; exact hT _ (List.mem_of_getElem? h1) y hy
  intro as
  induction as with
  | nil => intro T q T' hT _ h; rw [trieInsert] at h; injection h with h; subst h; exact hT
  | cons a as ih =>
    intro T q T' hT ha h
    cases q with
    | none => simp [trieInsert] at h
    | some q =>
      rw [trieInsert.eq_def] at h
      simp only at h
      split at h
      · simp at h
      split at h
      · exact ih T _ hT (fun a h => ha a (by simp [h])) h
      split at h
      · injection h with h
        subst h
        exact hmod _ _ _ hT (ha a (by simp))
      · refine ih _ _ (hmod _ _ _ ?_ (ha a (by simp))) (fun a h => ha a (by simp [h])) h
        intro ts hts x hx
        rcases List.mem_append.mp hts with hts | hts
        · exact hT ts hts x hx
        · rw [List.mem_singleton.mp hts] at hx; simp at hx

theorem trieAll_symP {P : U8Atom → Prop} : ∀ (ss : List (List U8Atom)) (T : Trie) {T' : Trie},
    (∀ ts ∈ T, ∀ x ∈ ts, P x.1) → (∀ s ∈ ss, ∀ a ∈ s, P a) → trieAll T ss = .ok T' → ∀ ts ∈ T', ∀ x ∈ ts, P x.1 := by
  intro ss
  induction ss with
  | nil => intro T T' hT _ h; rw [trieAll] at h; injection h with h; subst h; exact hT
  | cons s ss ih =>
    intro T T' hT hs h
    rw [trieAll] at h
    split at h
    · simp at h
    · rename_i T1 h1
      exact ih T1 (trieInsert_symP _ _ _ hT (hs s (by simp)) h1) (fun s h => hs s (by simp [h])) h

theorem u8Symbol_symP {P : U8Atom → Prop} {seqs a M} (hs : ∀ s ∈ atomSeqs seqs a, ∀ x ∈ s, P x)
    (h : u8Symbol seqs a = .ok M) : ∀ s ∈ M, ∀ t ∈ s.transitions, P t.symbol := by
  unfold u8Symbol at h
  split at h
  · simp at h
  · rename_i T hT
    have := trieAll_symP _ _ (by simp) hs hT
    injection h with h
    subst h
    intro s hs t ht
    rcases List.mem_append.mp hs with hs | hs
    · obtain ⟨ts, h1, rfl⟩ := List.mem_map.mp hs
      obtain ⟨x, h2, rfl⟩ := List.mem_map.mp ht
      exact this ts h1 x h2
    · rw [List.mem_singleton.mp hs] at ht; simp [State.new] at ht

theorem expandTrans_symP {P : U8Atom → Prop} {seqs} (hs : ∀ a, ∀ s ∈ atomSeqs seqs a, ∀ x ∈ s, P x) :
    ∀ (ts : List (Trans Atom)) (off : Nat) {rs ss}, expandTrans seqs off ts = .ok (rs, ss) →
      (∀ t ∈ rs, P t.symbol) ∧ ∀ s ∈ ss, ∀ t ∈ s.transitions, P t.symbol := by
  have hf : ∀ acc dst off (t : Trans U8Atom), (mapTransition acc dst off t).symbol = t.symbol := by
    intro acc dst off t
    unfold mapTransition
    split <;> rfl
  intro ts
  induction ts with
  | nil =>
    intro off rs ss h
    rw [expandTrans] at h
    injection h with h
    injection h with h1 h2
    subst h1 h2
    simp
  | cons t ts ih =>
    intro off rs ss h
    rw [expandTrans] at h
    split at h
    · simp at h
    rename_i M hM
    have hP := u8Symbol_symP (hs _) hM
    simp only at h
    split at h
    · simp at h
    rename_i rs' ss' h'
    injection h with h
    injection h with h1 h2
    subst h1 h2
    obtain ⟨i1, i2⟩ := ih _ h'
    constructor
    · intro t' ht'
      rcases List.mem_append.mp ht' with ht' | ht'
      · obtain ⟨x, h2, rfl⟩ := List.mem_map.mp ht'
        rw [hf]
        cases hd : M.head? with
        | none => rw [hd] at h2; simp at h2
        | some s =>
          rw [hd] at h2
          exact hP s (List.mem_of_mem_head? (by rw [hd]; rfl)) x h2
      · exact i1 t' ht'
    · intro s hs' t' ht'
      rcases List.mem_append.mp hs' with hs' | hs'
      · obtain ⟨s0, h2, rfl⟩ := List.mem_map.mp hs'
        obtain ⟨x, h3, rfl⟩ := List.mem_map.mp ht'
        rw [hf]
        exact hP s0 (List.mem_of_mem_drop (List.mem_of_mem_take h2)) x h3
      · exact i2 s hs' t' ht'

theorem expandStates_symP {P : U8Atom → Prop} {seqs} (hs : ∀ a, ∀ s ∈ atomSeqs seqs a, ∀ x ∈ s, P x) :
    ∀ (N : NFA Atom) (off : Nat) {ms ss}, expandStates seqs off N = .ok (ms, ss) →
      (∀ s ∈ ms, ∀ t ∈ s.transitions, P t.symbol) ∧ ∀ s ∈ ss, ∀ t ∈ s.transitions, P t.symbol := by
  intro N
  induction N with
  | nil =>
    intro off ms ss h
    rw [expandStates] at h
    injection h with h
    injection h with h1 h2
    subst h1 h2
    simp
  | cons s N ih =>
    intro off ms ss h
    rw [expandStates] at h
    split at h
    · simp at h
    rename_i ts subs h1
    split at h
    · simp at h
    rename_i ms' ss' h2
    injection h with h
    injection h with h3 h4
    subst h3 h4
    obtain ⟨e1, e2⟩ := expandTrans_symP hs _ _ h1
    obtain ⟨i1, i2⟩ := ih _ h2
    constructor
    · intro x hx t ht
      rcases List.mem_cons.mp hx with rfl | hx
      · exact e1 t ht
      · exact i1 x hx t ht
    · intro x hx t ht
      rcases List.mem_append.mp hx with hx | hx
      · exact e2 x hx t ht
      · exact i2 x hx t ht

/-- No byte range of the byte automaton is empty. -/
theorem u8New_symP (U : Utf8Seqs) {N : NFA Atom} {M : NFA U8Atom} (hN : Ready N) (h : u8New U.seqs N = .ok M)
    (hM : M ≠ []) : SymP (fun a : U8Atom => a.lo ≤ a.hi) M := by
  obtain ⟨B, ms, ss, I, h3, h4⟩ := u8Build_spec U hN.ne
  rw [u8New, u8NewLoopOpt, h3] at h
  have h5 : B.finish = .ok M := h
  have hst := symP_stable (α := UInt8) (fun a : U8Atom => a.lo ≤ a.hi)
  refine hst.finish (u8Build_shape hN.wf hN.ne hN.rank hN.mix hN.sink h4) (SymP.filter _ _ ?_) h5 hM
  rw [u8Build] at h3
  split at h3
  · simp at h3
  rename_i ms' ss' h6
  split at h3
  · simp at h3
  rename_i hne
  injection h3 with h3
  subst h3
  obtain ⟨i1, i2⟩ := expandStates_symP (atomSeqs_nonempty U) _ _ h6
  have hms : ms' ≠ [] := by
    rintro rfl
    cases N with
    | nil => simp at hne
    | cons s N =>
      rw [expandStates] at h6
      split at h6
      · simp at h6
      split at h6
      · simp at h6
      simp at h6
  intro p a q he
  rw [hasEdge_append, hasEdge_append, hasEdge_pushLast hms] at he
  rcases he with ((⟨s, h1, h2⟩ | ⟨_, h', _⟩) | ⟨x, _, s, h1, h2⟩) | ⟨x, _, h'⟩
  · exact i1 s (List.mem_of_getElem? h1) _ h2
  · simp at h'
  · exact i2 s (List.mem_of_getElem? h1) _ h2
  · exact absurd (hasEdge_single.mp h').2 has_new

/-! ### The programs -/

/-- A state in which the engine can be between two bytes. -/
def NFA.Entry (N : NFA U8Atom) (q : Nat) : Prop := q = 0 ∨ ∃ p a, N.HasEdge p (.sym a) q

/-- Two ways to the accept state from the same place with different marks. -/
def NFA.TwoEnds (N : NFA U8Atom) : Prop :=
  ∃ q ls ls' m, N.Entry q ∧ EWalk N q ls (N.length - 1) ∧ EWalk N q ls' (N.length - 1) ∧
    m ≠ EpsType.none ∧ m ∈ ls ∧ m ∉ ls'

/-- A way to the accept state over a start anchor. -/
def NFA.AnchoredEnd (N : NFA U8Atom) : Prop :=
  ∃ q ls, N.Entry q ∧ EWalk N q ls (N.length - 1) ∧ EpsType.startAnchor ∈ ls

/-- The graph of the automaton has a cycle. -/
def NFA.Cyclic (N : NFA U8Atom) : Prop := ∃ q, Relation.TransGen N.Edge q q

theorem ewalk_label {σ : Type} {N : NFA σ} {q ls p} (h : EWalk N q ls p) : ∀ m ∈ ls, ∃ a b, N.HasEdge a (.eps m) b := by
  induction h with
  | refl => simp
  | tail _ h2 ih =>
    intro m hm
    rcases List.mem_append.mp hm with hm | hm
    · exact ih m hm
    · rw [List.mem_singleton.mp hm]; exact ⟨_, _, h2⟩

theorem opSummary_eq_iff {N : NFA U8Atom} (hN : Ready N) {q p ls ls'} (h1 : EWalk N q ls p) (h2 : EWalk N q ls' p) :
    opSummary N.numCaptureGroups p ls = opSummary N.numCaptureGroups p ls' ↔
      ∀ m, m ≠ EpsType.none → (m ∈ ls ↔ m ∈ ls') := by
  constructor
  · intro h m hm
    unfold opSummary at h
    injection h with _ hc hs he
    have hcap : ∀ g, g < N.numCaptureGroups → (ls.contains (.startCapture g), ls.contains (.endCapture g)) =
        (ls'.contains (EpsType.startCapture g), ls'.contains (EpsType.endCapture g)) := by
      intro g hg
      have := congrArg (fun l => l[g]?) hc
      simpa [hg] using this
    have tag : ∀ t, m.tag? = some t → (m ∈ ls ∨ m ∈ ls') → t.group < N.numCaptureGroups := by
      rintro t ht (h | h)
      · obtain ⟨a, b, hab⟩ := ewalk_label h1 m h; exact hN.tag_lt hab ht
      · obtain ⟨a, b, hab⟩ := ewalk_label h2 m h; exact hN.tag_lt hab ht
    cases m with
    | none => exact absurd rfl hm
    | startAnchor => simpa using hs
    | endAnchor => simpa using he
    | startCapture g =>
      by_cases hg : g < N.numCaptureGroups
      · have := congrArg Prod.fst (hcap g hg)
        simpa using this
      · constructor <;> intro hh
        · exact absurd (tag (.startCapture g) rfl (.inl hh)) hg
        · exact absurd (tag (.startCapture g) rfl (.inr hh)) hg
    | endCapture g =>
      by_cases hg : g < N.numCaptureGroups
      · have := congrArg Prod.snd (hcap g hg)
        simpa using this
      · constructor <;> intro hh
        · exact absurd (tag (.endCapture g) rfl (.inl hh)) hg
        · exact absurd (tag (.endCapture g) rfl (.inr hh)) hg
  · intro h
    unfold opSummary
    simp [h]

theorem vm_compiles_iff {N : NFA U8Atom} (hN : Ready N) (hs : SymP (fun a : U8Atom => a.lo ≤ a.hi) N)
    {rows : List (OpRow × List Upd)} (hT : OpTable N rows) :
    (codegenVm N rows).compiles = true ↔ ¬ N.AnchoredEnd := by
  have hst : ∀ q : Nat, q < N.length → N.opExcluded q = false → (codegenVm N rows).states.contains q = true := by
    intro q h1 h2
    unfold codegenVm
    simp only
    rw [List.contains_iff_mem, List.mem_filter, List.mem_range, hT.len]
    exact ⟨h1, by simp [h2]⟩
  unfold VmProg.compiles
  rw [Bool.and_eq_true, Bool.and_eq_true, List.all_eq_true, List.all_eq_true]
  constructor
  · rintro ⟨_, h⟩ ⟨q, ls, h1, h2, h3⟩
    have hq : q < rows.length := by
      rw [hT.len]
      rcases h1 with rfl | ⟨p, a, h⟩
      · exact List.length_pos_of_ne_nil hN.ne
      · exact hN.wf _ _ _ h
    have hr : rows[q]? = some rows[q] := List.getElem?_eq_getElem hq
    have := h _ (mem_ends.mpr ⟨q, _, hr, opExcluded_iff.mpr h1, _, (hT.acc q _ hr _).mpr ⟨ls, h2, rfl⟩, rfl⟩)
    simp [opSummary, h3] at this
  · intro h
    refine ⟨⟨hst 0 (List.length_pos_of_ne_nil hN.ne) (opExcluded_iff.mpr (.inl rfl)), ?_⟩, ?_⟩
    · intro a ha
      obtain ⟨q, r, hr, h1, t, h2, h3, h4, rfl⟩ := mem_arms.mp ha
      obtain ⟨p, ls, hw, he, hu⟩ := (hT.row q r hr t.1 t.2).mp h2
      have hq : q < N.length := by rw [← hT.len]; exact (List.getElem?_eq_some_iff.mp hr).1
      simp only [Bool.and_eq_true, decide_eq_true_eq]
      exact ⟨⟨hst q hq h1, hst _ (hN.wf _ _ _ he) h3⟩, hs _ _ _ he⟩
    · intro x hx
      obtain ⟨q, r, hr, h1, u, h2, rfl⟩ := mem_ends.mp hx
      have hq : q < N.length := by rw [← hT.len]; exact (List.getElem?_eq_some_iff.mp hr).1
      obtain ⟨ls, hw, hu⟩ := (hT.acc q r hr u).mp h2
      simp only [Bool.and_eq_true, Bool.not_eq_true']
      refine ⟨hst q hq h1, ?_⟩
      by_contra hc
      rw [Bool.not_eq_false, hu] at hc
      exact h ⟨q, ls, opExcluded_iff.mp h1, hw, by simpa [opSummary] using hc⟩

theorem fn_compiles_iff {N : NFA U8Atom} (hN : Ready N) (hs : SymP (fun a : U8Atom => a.lo ≤ a.hi) N)
    {rows : List (OpRow × List Upd)} (hT : OpTable N rows) {out P} (hR : RunsOk rows out) (hP : FnOk N rows out P)
    (h0 : out[0]? ≠ some .internal) :
    (P.compiles = true ↔ ¬ N.TwoEnds) ∧
    (P.compiles = true → ∀ (q : Nat) acc row, P.fns[q]?.join = some (Fn.normal acc row) → acc.length ≤ 1) := by
  have hdef : ∀ q : Nat, q < N.length → N.opExcluded q = false → out[q]? ≠ some .internal → P.defined q = true := by
    intro q h1 h2 h3
    obtain ⟨f, hf⟩ := hP.defined hR.len (by rw [hT.len]; exact h1) h2 h3
    unfold FnProg.defined
    rw [hf]; rfl
  have hcomp : P.compiles = true ↔ ∀ (q : Nat) acc row, P.fns[q]?.join = some (Fn.normal acc row) → acc.length ≤ 1 := by
    unfold FnProg.compiles
    rw [Bool.and_eq_true, List.all_eq_true]
    constructor
    · rintro ⟨_, h⟩ q acc row hq
      have := h _ (List.mem_of_getElem? (Option.join_eq_some_iff.mp hq))
      simp only [Option.all_some, FnProg.fnCompiles, Bool.and_eq_true, decide_eq_true_eq] at this
      exact this.1
    · intro h
      refine ⟨hdef 0 (List.length_pos_of_ne_nil hN.ne) (opExcluded_iff.mpr (.inl rfl)) h0, ?_⟩
      intro f hf
      obtain ⟨q, hq⟩ := List.mem_iff_getElem?.mp hf
      cases f with
      | none => rfl
      | some f =>
        have hj : P.fns[q]?.join = some f := by rw [hq]; rfl
        simp only [Option.all_some]
        cases f with
        | run r =>
          obtain ⟨xs, c1, c2, c3, c4, c5⟩ := hR.start q r (hP.run hj)
          obtain ⟨m1, m2, m3⟩ := c1.mem
          have hxs : xs ≠ [] := by
            rintro rfl
            exact c2 (List.length_eq_zero_iff.mp m1)
          obtain ⟨⟨q', _, n, g1, g2⟩, _⟩ := m3 _ (m2 hxs)
          have he := (next_spec hN hT g1).edge
          rw [g2] at he
          unfold FnProg.fnCompiles
          rw [Bool.and_eq_true]
          refine ⟨hdef _ (hN.wf _ _ _ he) (opExcluded_iff.mpr (.inr ⟨_, _, he⟩)) ?_, by simpa using c2⟩
          intro hh
          exact (hR.internal _ hh).1 c4
        | normal acc row =>
          obtain ⟨hr, hex, hst⟩ := hP.normal hj
          unfold FnProg.fnCompiles
          rw [Bool.and_eq_true, decide_eq_true_eq, List.all_eq_true]
          refine ⟨h q acc row hj, ?_⟩
          intro t ht
          obtain ⟨p, ls, hw, he, hu⟩ := (hT.row q _ hr t.1 t.2).mp ht
          rw [Bool.and_eq_true, decide_eq_true_eq]
          exact ⟨hdef _ (hN.wf _ _ _ he) (opExcluded_iff.mpr (.inr ⟨_, _, he⟩)) (target_ok hN hT hR hr ht hst),
            hs _ _ _ he⟩
  refine ⟨?_, hcomp.mp⟩
  rw [hcomp]
  constructor
  · rintro h ⟨q, ls, ls', m, h1, h2, h3, h4, h5, h6⟩
    have hq : q < rows.length := by
      rw [hT.len]
      rcases h1 with rfl | ⟨p, a, h⟩
      · exact List.length_pos_of_ne_nil hN.ne
      · exact hN.wf _ _ _ h
    have hr : rows[q]? = some rows[q] := List.getElem?_eq_getElem hq
    have a1 := (hT.acc q _ hr _).mpr ⟨ls, h2, rfl⟩
    have a2 := (hT.acc q _ hr _).mpr ⟨ls', h3, rfl⟩
    have hne : opSummary N.numCaptureGroups (N.length - 1) ls ≠ opSummary N.numCaptureGroups (N.length - 1) ls' := by
      intro hh
      exact h6 (((opSummary_eq_iff hN h2 h3).mp hh m h4).mp h5)
    have hnext : (nextOf rows)[q]?.join = none := by
      cases hn : (nextOf rows)[q]?.join with
      | none => rfl
      | some n =>
        have := (next_spec hN hT hn).row
        rw [hr] at this
        injection this with this
        rw [this] at a1
        simp at a1
    have hfn : P.fns[q]?.join = some (Fn.normal rows[q].2 rows[q].1) := by
      have hqo : q < out.length := by rw [hR.len]; exact hq
      have h1' : out[q]? = some out[q] := List.getElem?_eq_getElem hqo
      rw [hP.get, hr, h1']
      simp only
      unfold fnOf
      rw [opExcluded_iff.mpr h1]
      cases ho : out[q] with
      | start r =>
        rw [ho] at h1'
        obtain ⟨_, _, _, _, _, h7⟩ := hR.start q r h1'
        exact absurd hnext h7
      | internal =>
        rw [ho] at h1'
        exact absurd hnext (hR.internal q h1').1
      | stop => rfl
      | none => rfl
    have hle := h q _ _ hfn
    match hacc : rows[q].2, hle with
    | [], _ => rw [hacc] at a1; simp at a1
    | [u], _ =>
      rw [hacc] at a1 a2
      simp only [List.mem_singleton] at a1 a2
      exact hne (a1.trans a2.symm)
  · intro h q acc row hq
    obtain ⟨hr, hex, hst⟩ := hP.normal hq
    by_contra hc
    match acc, hc with
    | u :: v :: l, _ =>
      have hnd := hT.accNodup q _ hr
      have huv : u ≠ v := by
        rintro rfl
        simp at hnd
      obtain ⟨ls, w1, e1⟩ := (hT.acc q _ hr u).mp (by simp)
      obtain ⟨ls', w2, e2⟩ := (hT.acc q _ hr v).mp (by simp)
      have hx : ¬ ∀ m, m ≠ EpsType.none → (m ∈ ls ↔ m ∈ ls') := by
        intro hh
        apply huv
        rw [e1, e2]
        exact (opSummary_eq_iff hN w1 w2).mpr hh
      simp only [not_forall] at hx
      obtain ⟨m, hm, hx⟩ := hx
      have hent := opExcluded_iff.mp hex
      by_cases hmem : m ∈ ls
      · exact h ⟨q, ls, ls', m, hent, w1, w2, hm, hmem, fun h2 => hx ⟨fun _ => h2, fun _ => hmem⟩⟩
      · have h2 : m ∈ ls' := by
          by_contra h2
          exact hx ⟨fun h => absurd h hmem, fun h => absurd h h2⟩
        exact h ⟨q, ls', ls, m, hent, w2, w1, hm, h2, hmem⟩
    | [], hc => simp at hc
    | [u], hc => simp at hc

/-- The tags of all assignments written in a program. -/
def OnePass.tags : OnePass → List Tag
  | .vm P => P.arms.flatMap (·.tags) ++ P.ends.flatMap (·.tags)
  | .fn P => P.fns.flatMap (fun f => match f with
    | none => []
    | some (.run r) => r.tags.map (·.2)
    | some (.normal acc row) => acc.flatMap (fun u => tagsOf u.caps) ++ row.flatMap (fun t => tagsOf t.2.caps))

theorem op_tags {N : NFA U8Atom} {rows : List (OpRow × List Upd)} (hT : OpTable N rows) {q : Nat} {r}
    (hr : rows[q]? = some r) :
    (∀ x ∈ r.1, ∀ t ∈ tagsOf x.2.caps, t.group < N.numCaptureGroups) ∧
    ∀ u ∈ r.2, ∀ t ∈ tagsOf u.caps, t.group < N.numCaptureGroups := by
  constructor
  · intro x hx t ht
    obtain ⟨p, ls, _, _, hu⟩ := (hT.row q r hr x.1 x.2).mp hx
    have := mem_tagsOf_lt ht
    rw [hu] at this
    simpa [opSummary] using this
  · intro u hu t ht
    obtain ⟨ls, _, hu⟩ := (hT.acc q r hr u).mp hu
    have := mem_tagsOf_lt ht
    rw [hu] at this
    simpa [opSummary] using this

theorem vm_tags {N : NFA U8Atom} {rows : List (OpRow × List Upd)} (hT : OpTable N rows) :
    ∀ t ∈ (OnePass.vm (codegenVm N rows)).tags, t.group < N.numCaptureGroups := by
  intro t ht
  rcases List.mem_append.mp ht with ht | ht
  · obtain ⟨a, ha, ht⟩ := List.mem_flatMap.mp ht
    obtain ⟨q, r, hr, _, x, hx, _, _, rfl⟩ := mem_arms.mp ha
    exact (op_tags hT hr).1 x hx t ht
  · obtain ⟨a, ha, ht⟩ := List.mem_flatMap.mp ht
    obtain ⟨q, r, hr, _, u, hu, rfl⟩ := mem_ends.mp ha
    exact (op_tags hT hr).2 u hu t ht

theorem fn_tags {N : NFA U8Atom} {rows : List (OpRow × List Upd)} (hT : OpTable N rows) {out P} (hR : RunsOk rows out)
    (hP : FnOk N rows out P) : ∀ t ∈ (OnePass.fn P).tags, t.group < N.numCaptureGroups := by
  intro t ht
  obtain ⟨f, hf, ht⟩ := List.mem_flatMap.mp ht
  obtain ⟨q, hq⟩ := List.mem_iff_getElem?.mp hf
  match f with
  | none => simp at ht
  | some (.run r) =>
    obtain ⟨_, _, _, h, _⟩ := hR.start q r (hP.run (by rw [hq]; rfl))
    simp [h] at ht
  | some (.normal acc row) =>
    obtain ⟨hr, _⟩ := hP.normal (q := q) (acc := acc) (row := row) (by rw [hq]; rfl)
    rcases List.mem_append.mp ht with ht | ht
    · obtain ⟨u, hu, ht⟩ := List.mem_flatMap.mp ht
      exact (op_tags hT hr).2 u hu t ht
    · obtain ⟨x, hx, ht⟩ := List.mem_flatMap.mp ht
      exact (op_tags hT hr).1 x hx t ht

/-- What the one-pass engine of an automaton does. -/
structure OnePassOk (N : NFA U8Atom) (P : OnePass) : Prop where
  groups : P.groups = N.numCaptureGroups
  cyclic : N.Cyclic → (P.compiles = true ↔ ¬ N.AnchoredEnd)
  acyclic : ¬ N.Cyclic → (P.compiles = true ↔ ¬ N.TwoEnds)
  tags : ∀ t ∈ P.tags, t.group < N.numCaptureGroups
  table : ∃ rows, OpTable N rows ∧ (P = .vm (codegenVm N rows) ∨ ¬ N.Cyclic)
  result : P.compiles = true → ∀ text, OpResult N text (P.test text) (P.slots text)

/-- `serialize_one_pass_token_stream` never panics. -/
theorem compileOnePass_spec {N : NFA U8Atom} (hN : Ready N) (hs : SymP (fun a : U8Atom => a.lo ≤ a.hi) N) :
    ∃ o, compileOnePass N = .ok o ∧ ∀ P, o = some P → OnePassOk N P := by
  obtain ⟨rows0, rows, h1, h2, h3⟩ := opRows_spec hN
  unfold compileOnePass
  rw [h1]
  simp only
  rw [← h2]
  split
  · exact ⟨none, rfl, by simp⟩
  rename_i hd
  have hT : OpTable N rows := h3.resolve_left hd
  obtain ⟨t, ht, hnone, hsome⟩ := topological_spec N hN.ne (by
    intro a b hab
    obtain ⟨l, hl⟩ := edge_iff.mp hab
    exact hN.wf _ _ _ hl)
  rw [ht]
  cases t with
  | none =>
    simp only
    rw [if_neg (by simpa using hN.ne)]
    refine ⟨_, rfl, ?_⟩
    rintro P ⟨⟩
    have hcyc : N.Cyclic := by
      refine (hnone rfl).resolve_right ?_
      rintro ⟨q, hq, h⟩
      exact h (path_edge.mp (hN.trim q hq).1)
    refine ⟨rfl, fun _ => vm_compiles_iff hN hs hT, fun h => absurd hcyc h, vm_tags hT, ⟨rows, hT, .inl rfl⟩, ?_⟩
    intro _ text
    exact vmLoop_spec hN hT text text [] 0 0 _ rfl rfl (OpAt.init text)
  | some o =>
    simp only
    obtain ⟨f, hf1, hf2, hf3⟩ := topo_rank hN ht
    obtain ⟨out, hc, hR⟩ := computeRuns_spec hN hT hf1 hf2
    obtain ⟨P, hP1, hP⟩ := codegenFn_ok (N := N) hc
    rw [hP1]
    refine ⟨_, rfl, ?_⟩
    rintro P ⟨⟩
    have h0 := zero_ok hN hT hR hf2 hf3
    obtain ⟨c1, c2⟩ := fn_compiles_iff hN hs hT hR hP h0
    have hac : ¬ N.Cyclic := by
      rintro ⟨q, hq⟩
      have : ∀ a b, Relation.TransGen N.Edge a b → f a < f b := by
        intro a b h
        induction h with
        | single h => exact hf2 _ _ h
        | tail _ h2 ih => exact Nat.lt_trans ih (hf2 _ _ h2)
      exact absurd (this q q hq) (Nat.lt_irrefl _)
    refine ⟨hP.groups, fun h => absurd h hac, fun _ => c1, fn_tags hT hR hP, ⟨rows, hT, .inr hac⟩, ?_⟩
    intro hcomp text
    refine fnLoop_spec hN hT hR hP (c2 hcomp) text (text.length + 1) text [] 0 0 _ true (by omega) rfl rfl ?_ rfl
      (fun _ => rfl) h0
    have := OpAt.init (N := N) text
    rw [← hP.groups] at this
    exact this

/-- The one-pass engine of a pattern: `test` decides matching, `exec` reports a real match. -/
structure OnePassCorrect (P : OnePass) (e : ERE) : Prop where
  test : ∀ text, (P.test (encode text) = .ok true ∧ e.MatchesIn text) ∨
    (P.test (encode text) = .ok false ∧ ¬ e.MatchesIn text)
  exec : ∀ text, (P.exec text (encode text) = .ok none ∧ ¬ e.MatchesIn text) ∨
    ∃ r S, P.exec text (encode text) = .ok (some r) ∧ e.Captures text S ∧ r.length = P.groups ∧
      ∀ g, (r[g]?).join = lastSpan S g

theorem onePassCorrect {N : NFA U8Atom} (hN : Ready N) {P : OnePass} (hP : OnePassOk N P) (hc : P.compiles = true)
    {e : ERE}
    (h : ∀ text caps, N.Acc ⟨0, encode text, []⟩ ⟨unitLen U8Atom (encode text), [], caps⟩ ↔
      ∃ pre mid post, text = pre ++ mid ++ post ∧
        (Tree.fromERE e).1.Run ⟨byteLen pre, mid ++ post, []⟩ ⟨byteLen (pre ++ mid), post, caps⟩) :
    OnePassCorrect P e := by
  have hm : ∀ text, N.At (encode text) (N.length - 1) (unitLen U8Atom (encode text)) [] ↔ e.MatchesIn text := by
    intro text
    rw [← exists_run_iff]
    simp only [← h]
    constructor
    · rintro ⟨caps, hr⟩; exact ⟨caps, hN.ne, hr⟩
    · rintro ⟨caps, _, hr⟩; exact ⟨caps, hr⟩
  constructor
  · intro text
    rcases hP.result hc (encode text) with ⟨h1, h2, h3⟩ | ⟨caps, h1, h2, h3⟩
    · exact Or.inr ⟨h1, fun hh => h3 ((hm text).mpr hh)⟩
    · obtain ⟨c, hr, _⟩ := h3
      exact Or.inl ⟨h1, (hm text).mp ⟨c, hr⟩⟩
  · intro text
    unfold OnePass.exec
    rcases hP.result hc (encode text) with ⟨h1, h2, h3⟩ | ⟨caps, h1, h2, h3⟩
    · rw [h2]
      exact Or.inl ⟨rfl, fun hh => h3 ((hm text).mpr hh)⟩
    · rw [h2]
      obtain ⟨c, hr, hcaps⟩ := h3
      simp only at hcaps
      have hacc : N.Acc ⟨0, encode text, []⟩ ⟨unitLen U8Atom (encode text), [], c⟩ := ⟨hN.ne, hr⟩
      obtain ⟨S, h5, h6⟩ := run_captures ((h text c).mp hacc)
      have hk : ∀ g, N.numCaptureGroups ≤ g → c.start? g = none := fun g hg => reach_start_none hr hg
      obtain ⟨r, g1, g2, g3⟩ := slots_captures h5 h6 hk
      rw [hcaps]
      simp only [g1]
      exact Or.inr ⟨r, S, rfl, h5, by rw [g2, hP.groups], g3⟩

end Ere
