import Verif.Proofs.FirstOpt
import Verif.Proofs.Pipeline

/-! The byte automaton tries its runs in the order of the character automaton. -/

namespace Ere
variable {σ : Type}

/-! ### At most one symbol per state -/

/-- No state has two symbol transitions. -/
def OneSym (N : NFA σ) : Prop := ∀ s ∈ N, s.transitions.length ≤ 1

theorem oneSym_nil : OneSym ([] : NFA σ) := by intro s hs; simp at hs

theorem oneSym_append {A B : NFA σ} : OneSym (A ++ B) ↔ OneSym A ∧ OneSym B := by
  constructor
  · intro h; exact ⟨fun s hs => h s (by simp [hs]), fun s hs => h s (by simp [hs])⟩
  · rintro ⟨h1, h2⟩ s hs
    rcases List.mem_append.mp hs with h | h
    · exact h1 s h
    · exact h2 s h

theorem oneSym_cons {s : State σ} {B : NFA σ} : OneSym (s :: B) ↔ s.transitions.length ≤ 1 ∧ OneSym B := by
  unfold OneSym; simp

theorem oneSym_new : OneSym ([State.new] : NFA σ) := by simp [OneSym, State.new]

theorem oneSym_map {A B : NFA σ} (hA : OneSym A)
    (h : ∀ s ∈ B, ∃ s' ∈ A, s.transitions.length ≤ s'.transitions.length) : OneSym B := by
  intro s hs
  obtain ⟨s', h1, h2⟩ := h s hs
  have := hA s' h1
  omega

theorem oneSym_shift {A : NFA σ} (h : OneSym A) (k) : OneSym (A.shift k) := by
  refine oneSym_map h fun s hs => ?_
  obtain ⟨s', h1, rfl⟩ := List.mem_map.mp hs
  exact ⟨s', h1, by simp [State.addOffset]⟩

theorem oneSym_pushLast {A : NFA σ} (h : OneSym A) {x : Eps} : OneSym (A.pushLast x) := by
  induction A with
  | nil => exact oneSym_nil
  | cons s A ih =>
    cases A with
    | nil =>
      intro s' hs
      simp only [NFA.pushLast, List.mem_singleton] at hs
      subst hs
      exact h s (by simp)
    | cons t A =>
      rw [NFA.pushLast, oneSym_cons]
      rw [oneSym_cons] at h
      exact ⟨h.1, ih h.2⟩

theorem oneSym_block {A : NFA σ} (h : OneSym A) {k} {x : Eps} : OneSym ((A.shift k).pushLast x) :=
  oneSym_pushLast (oneSym_shift h k)

theorem oneSym_concatBody : ∀ (ns : List (NFA σ)) (off), (∀ n ∈ ns, OneSym n) → OneSym (concatBody off ns)
  | [], _, _ => oneSym_nil
  | n :: ns, off, h => by
    rw [concatBody]
    exact oneSym_append.mpr ⟨oneSym_block (h n (by simp)), oneSym_concatBody ns _ fun m hm => h m (by simp [hm])⟩

theorem oneSym_concat {ns : List (NFA σ)} (h : ∀ n ∈ ns, OneSym n) : OneSym (nfaConcat ns) := by
  rw [nfaConcat, List.cons_append, oneSym_cons, oneSym_append]
  exact ⟨by simp, oneSym_concatBody ns _ h, oneSym_new⟩

theorem oneSym_unionBody : ∀ (ns : List (NFA σ)) (off fin), (∀ n ∈ ns, OneSym n) → OneSym (unionBody off fin ns)
  | [], _, _, _ => oneSym_nil
  | n :: ns, off, fin, h => by
    rw [unionBody]
    exact oneSym_append.mpr ⟨oneSym_block (h n (by simp)), oneSym_unionBody ns _ _ fun m hm => h m (by simp [hm])⟩

theorem oneSym_union {ns : List (NFA σ)} (h : ∀ n ∈ ns, OneSym n) : OneSym (nfaUnion ns) := by
  rw [nfaUnion, List.cons_append, oneSym_cons, oneSym_append]
  exact ⟨by simp, oneSym_unionBody ns _ _ h, oneSym_new⟩

theorem oneSym_capture {n : NFA σ} (h : OneSym n) {g} : OneSym (nfaCapture n g) := by
  rw [nfaCapture, List.cons_append, oneSym_cons, oneSym_append]
  exact ⟨by simp, oneSym_block h, oneSym_new⟩

theorem oneSym_uptoBody {n : NFA σ} (h : OneSym n) (fin lg) : ∀ k off, OneSym (uptoBody n fin lg off k)
  | 0, off => by
    rw [uptoBody]
    exact oneSym_append.mpr ⟨oneSym_block h, oneSym_new⟩
  | k + 1, off => by
    rw [uptoBody, oneSym_append, oneSym_cons]
    exact ⟨oneSym_block h, by simp, oneSym_uptoBody h fin lg k _⟩

theorem oneSym_upto {n : NFA σ} (h : OneSym n) (k lg) : OneSym (nfaUpto n k lg) := by
  rw [nfaUpto, oneSym_cons]
  exact ⟨by cases lg <;> simp, oneSym_uptoBody h _ _ _ _⟩

theorem oneSym_star {n : NFA σ} (h : OneSym n) (lg) : OneSym (nfaStar n lg) := by
  rw [nfaStar, List.cons_append, oneSym_cons, oneSym_append]
  exact ⟨by simp, oneSym_block h, oneSym_new⟩

theorem oneSym_symbol (a : σ) : OneSym (nfaSymbol a) := by simp [OneSym, nfaSymbol, State.new]

theorem oneSym_withLoops {N : NFA σ} (h : OneSym N) (a : σ) (sl el) : OneSym (N.withLoops a sl el) := by
  have ha : OneSym (anyLoop a) := oneSym_star (oneSym_symbol a) _
  unfold NFA.withLoops
  have h1 : OneSym (if sl then nfaConcat [anyLoop a, N] else N) := by
    split
    · exact oneSym_concat (by simp [ha, h])
    · exact h
  dsimp only
  split
  · exact oneSym_concat (by simp [ha, h1])
  · exact h1

mutual
theorem build_oneSym : (t : Tree) → OneSym (build t)
  | .empty => by rw [build]; exact oneSym_new
  | .symbol a => by rw [build]; exact oneSym_symbol a
  | .union ts => by rw [build]; exact oneSym_union (buildList_oneSym ts)
  | .capture t g => by rw [build]; exact oneSym_capture (build_oneSym t)
  | .concat ts => by rw [build]; exact oneSym_concat (buildList_oneSym ts)
  | .rep t n => by
    rw [build]
    refine oneSym_concat fun m hm => ?_
    rw [List.eq_of_mem_replicate hm]; exact build_oneSym t
  | .upTo t n l => by rw [build]; exact oneSym_upto (build_oneSym t) n l
  | .star t l => by rw [build]; exact oneSym_star (build_oneSym t) l
  | .start => by rw [build]; simp [OneSym, nfaStart, State.new]
  | .end_ => by rw [build]; simp [OneSym, nfaEnd, State.new]
  | .never => by rw [build]; simp [OneSym, nfaNever, State.new]
theorem buildList_oneSym : (ts : List Tree) → ∀ n ∈ buildList ts, OneSym n
  | [] => by simp [buildList]
  | t :: ts => by
    intro n hn
    rw [buildList, List.mem_cons] at hn
    rcases hn with rfl | hn
    · exact build_oneSym t
    · exact buildList_oneSym ts n hn
end

theorem oneSym_filter {N : NFA σ} (h : OneSym N) (fe ft) : OneSym (N.filterEdges fe ft) := by
  refine oneSym_map h fun s hs => ?_
  unfold NFA.filterEdges at hs
  obtain ⟨i, h1, rfl⟩ := List.mem_mapIdx.mp hs
  exact ⟨_, List.getElem_mem h1, List.length_filter_le _ _⟩

theorem oneSym_redirect {N : NFA σ} (h : OneSym N) (x y) : OneSym (N.redirect x y) := by
  refine oneSym_map h fun s hs => ?_
  obtain ⟨s', h1, rfl⟩ := List.mem_map.mp hs
  exact ⟨s', h1, by simp⟩

theorem oneSym_modify {N : NFA σ} (h : OneSym N) (x : Nat) {f : State σ → State σ}
    (hf : ∀ s, (f s).transitions.length ≤ s.transitions.length) : OneSym (N.modify x f) := by
  refine oneSym_map h fun s hs => ?_
  obtain ⟨i, hi⟩ := List.mem_iff_getElem?.mp hs
  rw [List.getElem?_modify, Option.map_eq_map, Option.map_eq_some_iff] at hi
  obtain ⟨s', h1, h2⟩ := hi
  refine ⟨s', List.mem_of_getElem? h1, ?_⟩
  split at h2
  · subst h2; exact hf s'
  · subst h2; exact Nat.le_refl _

theorem oneSym_clear {N : NFA σ} (h : OneSym N) (x) : OneSym (N.clear x) :=
  oneSym_modify h x (by simp)

theorem oneSym_stable {α : Type} [Sym σ α] : Stable α (OneSym (σ := σ)) where
  merge := fun _ _ _ _ _ _ _ _ _ h => oneSym_redirect (oneSym_clear h _) _ _
  dedupe := fun _ h => by
    refine oneSym_map h fun s hs => ?_
    obtain ⟨s', h1, rfl⟩ := List.mem_map.mp hs
    refine ⟨s', h1, ?_⟩
    simp only [dedupeTrans, List.length_map]
    exact Nat.le_trans (List.length_filter_le _ _) (by simp)
  skip1 := fun _ _ _ _ _ _ h => oneSym_clear (oneSym_redirect h _ _) _
  splice := fun _ _ _ _ _ h => oneSym_modify (oneSym_clear h _) _ (by simp)
  dead := fun _ _ _ h => by
    refine oneSym_map h fun s hs => ?_
    unfold NFA.removeDead at hs
    obtain ⟨s', h1, rfl⟩ := List.mem_map.mp hs
    obtain ⟨p, h2, rfl⟩ := List.mem_map.mp h1
    exact ⟨p.1, (List.of_mem_zip (List.mem_filter.mp h2).1).1, by simp⟩
  trim := fun _ _ h => oneSym_filter h _ _

theorem workingNew_oneSym {t : Tree} (ht : t.StarOk) {N : NFA Atom} (h : workingNew t = .ok N) (hN : N ≠ []) :
    OneSym N := by
  have hb := build_shape t ht
  have hc1 : Shape (build t).cleanStartAnchors := filterEdges_shape hb
  have hc : Shape (build t).cleanStartAnchors.cleanEndAnchors := filterEdges_shape hc1
  have h1 : OneSym ((build t).cleanStartAnchors.cleanEndAnchors.withLoops anyAtom true true) :=
    oneSym_withLoops (oneSym_filter (oneSym_filter (build_oneSym t) _ _) _ _) _ _ _
  rw [workingNew, newLoopOpt] at h
  exact (oneSym_stable (α := Char)).finish (withLoops_shape hc anyAtom true true) (oneSym_filter h1 _ _) h hN

/-! ### Epsilons are copied in order -/

theorem expandStates_eps {U} : ∀ (N : NFA Atom) (off : Nat) {ms ss}, expandStates U off N = .ok (ms, ss) →
    ms.map (·.epsilons) = N.map (·.epsilons) := by
  intro N
  induction N with
  | nil => intro off ms ss h; rw [expandStates] at h; injection h with h; injection h with h _; subst h; rfl
  | cons s N ih =>
    intro off ms ss h
    rw [expandStates] at h
    split at h
    · simp at h
    split at h
    · simp at h
    rename_i h2
    injection h with h; injection h with h _; subst h
    rw [List.map_cons, List.map_cons, ih _ h2]

theorem pushLast_get_ne {N : NFA σ} {x : Eps} {q} (h : q + 1 ≠ N.length) : (N.pushLast x)[q]? = N[q]? := by
  induction N generalizing q with
  | nil => rfl
  | cons s N ih =>
    cases N with
    | nil =>
      rw [NFA.pushLast]
      cases q with
      | zero => simp at h
      | succ q => rfl
    | cons t N =>
      rw [NFA.pushLast]
      cases q with
      | zero => rfl
      | succ q =>
        rw [List.getElem?_cons_succ, List.getElem?_cons_succ]
        exact ih (by simpa using h)

theorem pushLast_get_last {N : NFA σ} {x : Eps} {q} (h : q + 1 = N.length) :
    (N.pushLast x)[q]? = N[q]?.map (fun s => ⟨s.transitions, s.epsilons ++ [x]⟩) := by
  induction N generalizing q with
  | nil => simp at h
  | cons s N ih =>
    cases N with
    | nil =>
      rw [NFA.pushLast]
      simp at h; subst h; rfl
    | cons t N =>
      rw [NFA.pushLast]
      cases q with
      | zero => simp at h
      | succ q =>
        rw [List.getElem?_cons_succ, List.getElem?_cons_succ]
        exact ih (by simpa using h)

theorem u8Build_eps {U} {N : NFA Atom} {M : NFA U8Atom} (h : u8Build U N = .ok M) :
    (∀ q, q + 1 < N.length → M[q]?.map (·.epsilons) = N[q]?.map (·.epsilons)) ∧
    ∀ q, q + 1 = N.length → M[q]?.map (·.epsilons) = N[q]?.map (fun s => s.epsilons ++ [Eps.new (M.length - 1)]) := by
  rw [u8Build] at h
  split at h
  · simp at h
  rename_i ms ss h1
  split at h
  · simp at h
  injection h with h
  have h2 := expandStates_eps _ _ h1
  have hlen : ms.length = N.length := by simpa using congrArg List.length h2
  have hM : M.length = N.length + ss.length + 1 := by
    rw [← h]; simp [pushLast_length, hlen]; omega
  have hget : ∀ q, q < N.length → M[q]? = (NFA.pushLast ms (Eps.new (ms.length + ss.length)))[q]? := by
    intro q hq
    rw [← h, List.append_assoc, List.getElem?_append_left (by rw [pushLast_length, hlen]; exact hq)]
  have hq2 : ∀ q : Nat, ms[q]?.map (·.epsilons) = N[q]?.map (·.epsilons) := by
    intro q
    rw [← List.getElem?_map, ← List.getElem?_map, h2]
  constructor
  · intro q hq
    rw [hget q (by omega), pushLast_get_ne (by omega)]
    exact hq2 q
  · intro q hq
    have h4 : q < ms.length := by omega
    have h5 : q < N.length := by omega
    have h3 := hq2 q
    rw [hget q (by omega), pushLast_get_last (by omega), List.getElem?_eq_getElem h4, List.getElem?_eq_getElem h5]
    rw [List.getElem?_eq_getElem h4, List.getElem?_eq_getElem h5] at h3
    simp only [Option.map_some, Option.some.injEq] at h3 ⊢
    rw [h3, hM]
    have : ms.length + ss.length = N.length + ss.length + 1 - 1 := by omega
    rw [this]

/-! ### The search -/

variable {β : Type}

/-- What is known of the byte edges for a symbol edge. -/
theorem fst_trie {U : Utf8Seqs} {N : NFA Atom} {M ms ss I} (hB : BuildSpec U N M ms ss I) {q dst : Nat} {a : Atom}
    (he : N.HasEdge q (.sym a) dst) {K' : Cfg UInt8 → Option β} {c : Cfg Char} {r : Option β}
    (hr : ∀ c1, symStep a c = some c1 → FstQ M.outs (M.length - 1) K' dst (encCfg c1) r) :
    ∀ (n : Nat) (es : Edges U8Atom) (w : List U8Atom) (bs : List UInt8) (d : Cfg UInt8), d.rest.length ≤ n →
      (∀ p ∈ es, ∃ b, p.1 = .sym b ∧ ((p.2 = dst ∧ w ++ [b] ∈ atomSeqs U.seqs a) ∨ I p.2 dst a (w ++ [b]))) →
      MatchesSeq w bs → encode c.rest = bs ++ d.rest → d.off = c.off + bs.length → d.caps = c.caps →
      ∃ r', FstL M.outs (M.length - 1) K' es d r' ∧ (r' = none ∨ r' = r) := by
  intro n
  induction n with
  | zero =>
    intro es w bs d hd hes _ _ _ _
    have hd : d.rest = [] := List.length_eq_zero_iff.mp (by omega)
    refine ⟨none, ?_, Or.inl rfl⟩
    induction es with
    | nil => exact .nil
    | cons p es ih =>
      obtain ⟨l, y⟩ := p
      obtain ⟨b, h1, _⟩ := hes _ List.mem_cons_self
      simp only at h1; subst h1
      refine .skip ?_ (ih fun p hp => hes p (List.mem_cons_of_mem _ hp))
      simp [labStep, symStep, hd]
  | succ n ih =>
    intro es w bs d hd hes hm h1 h2 h3
    induction es with
    | nil => exact ⟨none, .nil, Or.inl rfl⟩
    | cons p es ihe =>
      obtain ⟨r1, i1, i2⟩ := ihe fun p hp => hes p (List.mem_cons_of_mem _ hp)
      obtain ⟨l, y⟩ := p
      obtain ⟨b, g1, g2⟩ := hes _ List.mem_cons_self
      simp only at g1 g2; subst g1
      cases hs : symStep b d with
      | none => exact ⟨r1, .skip hs i1, i2⟩
      | some d1 =>
        obtain ⟨x, j1, j2, j3, j4⟩ := symStep_u8.mp hs
        have hm' : MatchesSeq (w ++ [b]) (bs ++ [x]) := matchesSeq_append.mpr ⟨bs, [x], rfl, hm, j1, trivial⟩
        have e1 : encode c.rest = bs ++ [x] ++ d1.rest := by rw [h1, j2]; simp
        have e2 : d1.off = c.off + (bs ++ [x]).length := by rw [j3, h2]; simp; omega
        have e3 : d1.caps = c.caps := by rw [j4, h3]
        have key : ∃ r', FstQ M.outs (M.length - 1) K' y d1 r' ∧ (r' = none ∨ r' = r) := by
          rcases g2 with ⟨rfl, g2⟩ | g2
          · obtain ⟨c1, rfl, ⟨l', hl1, hl2⟩⟩ := complete_char he g2 hm' e1 e2 e3
            obtain ⟨z, z1, z2⟩ := (atomSeqs_exact U a _).mp ⟨_, g2, hm'⟩
            refine ⟨r, hr c1 ?_, Or.inr rfl⟩
            have hc : c.rest = z :: c1.rest := by
              rw [z2] at e1
              exact encode_inj (by rw [encode_cons]; exact e1)
            refine symStep_char.mpr ⟨z, z1, hc, ?_, e3⟩
            rw [← enc_length, ← z2]; exact e2
          · have hrg := hB.st.subs.range _ _ _ _ g2
            have hlen := hB.len
            obtain ⟨r', k1, k2⟩ := ih (M.outs y) (w ++ [b]) (bs ++ [x]) d1 (by
                rw [j2] at hd; simpa using hd) (by
              rintro ⟨l', y'⟩ hp
              have hE := mem_outs.mp hp
              rcases (hB.edge _ _ _).mp hE with h4 | ⟨h4, _, _⟩ | h4
              · have := hasEdge_lt h4; rw [hB.st.len] at this; omega
              · omega
              · cases l' with
                | eps e =>
                  exfalso
                  obtain ⟨j, _, s, hs, h5⟩ := h4
                  have := hB.st.subs.noeps s (List.mem_of_getElem? hs)
                  rw [this] at h5
                  simp at h5
                | sym b' => exact ⟨b', rfl, hB.st.subs.step _ _ _ _ _ _ g2 h4⟩) hm' e1 e2 e3
            exact ⟨r', fstQ_iff.mpr (Or.inr ⟨by omega, k1⟩), k2⟩
        obtain ⟨r', k1, k2⟩ := key
        cases r' with
        | none => exact ⟨r1, .consNone hs k1 i1, i2⟩
        | some z => exact ⟨some z, .consSome hs k1, k2⟩

/-- The search in the byte automaton. -/
theorem fst_u8Build {U : Utf8Seqs} {N : NFA Atom} {M ms ss I} (hwf : N.WF) (hmix : N.NoMix) (hsink : N.Sink)
    (hone : OneSym N) (hB : BuildSpec U N M ms ss I) (hM : u8Build U.seqs N = .ok M) (hsM : M.Sink)
    {K : Cfg Char → Option β} {K' : Cfg UInt8 → Option β} (hK : ∀ c, K' (encCfg c) = K c) {c : Cfg Char} {r} (hne : N ≠ [])
    (h : N.Fst K 0 c r) : M.Fst K' 0 (encCfg c) r := by
  have hpos : 0 < N.length := List.length_pos_iff.mpr hne
  have hlen := hB.len
  obtain ⟨hE1, hE2⟩ := u8Build_eps hM
  -- edges of the byte automaton by kind of state
  have houts : ∀ q, q + 1 < N.length →
      (∃ es : List Eps, N.outs q = es.map (fun e => (.eps e.special, e.dst)) ∧
        M.outs q = es.map (fun e => (.eps e.special, e.dst)) ∧ ∀ e ∈ es, e.dst < N.length) ∨
      (∃ a dst, N.outs q = [(.sym a, dst)] ∧ N.HasEdge q (.sym a) dst ∧ ∀ l y, (l, y) ∈ M.outs q → ∃ b, l = .sym b ∧
        ((y = dst ∧ [b] ∈ atomSeqs U.seqs a) ∨ I y dst a [b])) := by
    intro q hq
    have hqN : q < N.length := by omega
    have hqM : q < M.length := by omega
    have h1 := hE1 q hq
    rw [List.getElem?_eq_getElem hqN, List.getElem?_eq_getElem hqM] at h1
    simp only [Option.map_some, Option.some.injEq] at h1
    have hms : ∀ b y, M.HasEdge q (.sym b) y → ∃ a d, N.HasEdge q (.sym a) d ∧
        ((y = d ∧ [b] ∈ atomSeqs U.seqs a) ∨ I y d a [b]) := by
      intro b y he
      rcases (hB.edge _ _ _).mp he with h4 | ⟨h4, _, _⟩ | h4
      · exact hB.st.root _ _ _ h4
      · omega
      · have := subE_lt h4; omega
    have hO := hone _ (List.getElem_mem hqN)
    cases htr : N[q].transitions with
    | nil =>
      left
      refine ⟨N[q].epsilons, ?_, ?_, ?_⟩
      · unfold NFA.outs; rw [List.getElem?_eq_getElem hqN]; simp [State.outs, htr]
      · unfold NFA.outs; rw [List.getElem?_eq_getElem hqM]
        have : M[q].transitions = [] := by
          apply List.eq_nil_iff_forall_not_mem.mpr
          intro t ht
          obtain ⟨a, d, h2, _⟩ := hms t.symbol t.dst (hasEdge_iff.mpr ⟨_, List.getElem?_eq_getElem hqM, ht⟩)
          obtain ⟨s, h3, h4⟩ := hasEdge_iff.mp h2
          rw [List.getElem?_eq_getElem hqN] at h3
          injection h3 with h3; subst h3
          have : (⟨d, a⟩ : Trans Atom) ∈ N[q].transitions := h4
          rw [htr] at this; simp at this
        simp [State.outs, this, h1]
      · intro e he
        exact hwf q (.eps e.special) e.dst (hasEdge_iff.mpr ⟨_, List.getElem?_eq_getElem hqN, he⟩)
    | cons t ts =>
      rw [htr] at hO
      have : ts = [] := List.length_eq_zero_iff.mp (by simpa using hO)
      subst this
      have heps : N[q].epsilons = [] := by
        rcases hmix _ (List.getElem_mem hqN) with h2 | h2
        · rw [htr] at h2; simp at h2
        · exact h2
      have hedge : N.HasEdge q (.sym t.symbol) t.dst :=
        hasEdge_iff.mpr ⟨_, List.getElem?_eq_getElem hqN, by show (⟨t.dst, t.symbol⟩ : Trans Atom) ∈ _; rw [htr]; simp⟩
      right
      refine ⟨t.symbol, t.dst, ?_, hedge, ?_⟩
      · unfold NFA.outs; rw [List.getElem?_eq_getElem hqN]; simp [State.outs, htr, heps]
      · intro l y hp
        have he := mem_outs.mp hp
        cases l with
        | eps e =>
          exfalso
          obtain ⟨s, h3, h4⟩ := hasEdge_iff.mp he
          rw [List.getElem?_eq_getElem hqM] at h3
          injection h3 with h3; subst h3
          have : (⟨y, e⟩ : Eps) ∈ M[q].epsilons := h4
          rw [h1, heps] at this; simp at this
        | sym b =>
          obtain ⟨a, d, h2, h5⟩ := hms _ _ he
          obtain ⟨s, h3, h4⟩ := hasEdge_iff.mp h2
          rw [List.getElem?_eq_getElem hqN] at h3
          injection h3 with h3; subst h3
          have h6 : (⟨d, a⟩ : Trans Atom) ∈ N[q].transitions := h4
          rw [htr, List.mem_singleton] at h6
          subst h6
          exact ⟨b, rfl, h5⟩
  -- the accept state
  have hlast : M.outs (N.length - 1) = [(.eps .none, M.length - 1)] := by
    have hqN : N.length - 1 < N.length := by omega
    have hqM : N.length - 1 < M.length := by omega
    have h1 := hE2 (N.length - 1) (by omega)
    rw [List.getElem?_eq_getElem hqN, List.getElem?_eq_getElem hqM] at h1
    simp only [Option.map_some, Option.some.injEq] at h1
    have h2 : N[N.length - 1].epsilons = [] := by
      apply List.eq_nil_iff_forall_not_mem.mpr
      intro e he
      exact hsink (.eps e.special) e.dst (hasEdge_iff.mpr ⟨_, List.getElem?_eq_getElem hqN, he⟩)
    have h3 : M[N.length - 1].transitions = [] := by
      apply List.eq_nil_iff_forall_not_mem.mpr
      intro t ht
      rcases (hB.edge _ _ _).mp (hasEdge_iff.mpr ⟨_, List.getElem?_eq_getElem hqM,
        (show State.Has M[N.length - 1] (.sym t.symbol) t.dst from ht)⟩) with h4 | ⟨_, h4, _⟩ | h4
      · obtain ⟨a, d, h5, _⟩ := hB.st.root _ _ _ h4
        exact hsink _ _ h5
      · simp at h4
      · have := subE_lt h4; omega
    unfold NFA.outs; rw [List.getElem?_eq_getElem hqM]
    rw [h2] at h1
    simp [State.outs, h3, h1, Eps.new]
  have hfin : ∀ c1, FstQ M.outs (M.length - 1) K' (N.length - 1) (encCfg c1) (K c1) := by
    intro c1
    refine fstQ_iff.mpr (Or.inr ⟨by omega, ?_⟩)
    rw [hlast]
    exact fstQ_iff.mpr (Or.inl ⟨rfl, (hK c1).symm⟩)
  have hsymEdge : ∀ {q a dst}, q + 1 < N.length → N.HasEdge q (.sym a) dst →
      (∀ l y, (l, y) ∈ M.outs q → ∃ b, l = .sym b ∧ ((y = dst ∧ [b] ∈ atomSeqs U.seqs a) ∨ I y dst a [b])) →
      ∀ {c r}, (∀ c1, symStep a c = some c1 → FstQ M.outs (M.length - 1) K' dst (encCfg c1) r) →
      (symStep a c = none → r = none) → FstL M.outs (M.length - 1) K' (M.outs q) (encCfg c) r := by
    intro q a dst hq he hes c r hr hn
    obtain ⟨r', h1, h2⟩ := fst_trie hB he hr (encCfg c).rest.length (M.outs q) [] [] (encCfg c) (Nat.le_refl _)
      (fun p hp => by obtain ⟨b, h1, h2⟩ := hes p.1 p.2 hp; exact ⟨b, h1, h2⟩) trivial rfl rfl rfl
    rcases h2 with rfl | rfl
    · cases r with
      | none => exact h1
      | some y =>
        exfalso
        cases hs : symStep a c with
        | none => have := hn hs; simp at this
        | some c1 =>
          obtain ⟨d', h3, h4⟩ := NFA.Fst.reach (hr c1 hs)
          obtain ⟨x, g1, g2, g3, g4⟩ := symStep_char.mp hs
          obtain ⟨s, hs, hm⟩ := (atomSeqs_exact U a _).mpr ⟨x, g1, rfl⟩
          obtain ⟨b, w, z, rfl, h5, h6⟩ := hB.st.complete _ _ _ he s hs
          have hp : SPath M.HasEdge q (b :: w) dst :=
            .cons ((hB.edge _ _ _).mpr (Or.inl h5))
              (spath_mono (fun q a r h => (hB.edge _ _ _).mpr (Or.inr (Or.inr h))) h6)
          have := spath_reach hp _ (encode c1.rest) c.off c.caps hm
          rw [enc_length, ← encode_cons, ← g2, ← g3] at this
          have h7 : ReachE M.HasEdge (q, encCfg c) (M.length - 1, d') := by
            refine reachE_trans this ?_
            unfold encCfg at h3
            rw [g4] at h3
            exact h3
          have h8 : M.Fst K' q (encCfg c) none := fstQ_iff.mpr (Or.inr ⟨by omega, h1⟩)
          have := h8.none_reach hsM h7
          rw [h4] at this; simp at this
    · exact h1
  -- the induction
  have key : ∀ es c r, FstL N.outs (N.length - 1) K es c r →
      (∀ es' : List Eps, es = es'.map (fun e => (.eps e.special, e.dst)) → (∀ e ∈ es', e.dst < N.length) →
        FstL M.outs (M.length - 1) K' (es'.map (fun e => (.eps e.special, e.dst))) (encCfg c) r) ∧
      (∀ a dst, es = [(.sym a, dst)] → dst < N.length →
        (∀ c1, symStep a c = some c1 → FstQ M.outs (M.length - 1) K' dst (encCfg c1) r) ∧
        (symStep a c = none → r = none)) := by
    have hnext : ∀ {q d r}, q ≠ N.length - 1 → q < N.length →
        ((∀ es' : List Eps, N.outs q = es'.map (fun e => (.eps e.special, e.dst)) → (∀ e ∈ es', e.dst < N.length) →
          FstL M.outs (M.length - 1) K' (es'.map (fun e => (.eps e.special, e.dst))) (encCfg d) r) ∧
        (∀ a dst, N.outs q = [(.sym a, dst)] → dst < N.length →
          (∀ c1, symStep a d = some c1 → FstQ M.outs (M.length - 1) K' dst (encCfg c1) r) ∧
          (symStep a d = none → r = none))) → FstQ M.outs (M.length - 1) K' q (encCfg d) r := by
      intro q d r hq hqN ⟨i1, i2⟩
      refine fstQ_iff.mpr (Or.inr ⟨by omega, ?_⟩)
      rcases houts q (by omega) with ⟨es', o1, o2, o3⟩ | ⟨a, dst, o1, o2, o3⟩
      · rw [o2]; exact i1 es' o1 o3
      · obtain ⟨i3, i4⟩ := i2 a dst o1 (hwf _ _ _ o2)
        exact hsymEdge (by omega) o2 o3 i3 i4
    intro es c r hh
    induction hh with
    | nil =>
      refine ⟨fun es' h _ => ?_, fun a dst h => by simp at h⟩
      cases es' with
      | nil => exact .nil
      | cons e es' => simp at h
    | skip h1 _ ih =>
      refine ⟨fun es' h hb => ?_, fun a dst h hd => ?_⟩
      · cases es' with
        | nil => simp at h
        | cons e es' =>
          simp only [List.map_cons, List.cons.injEq, Prod.mk.injEq] at h
          obtain ⟨⟨rfl, rfl⟩, rfl⟩ := h
          refine .skip ?_ (ih.1 es' rfl fun e he => hb e (List.mem_cons_of_mem _ he))
          show epsStep _ _ = _
          rw [epsStep_enc, show epsStep e.special _ = none from h1]; rfl
      · simp only [List.cons.injEq, Prod.mk.injEq] at h
        obtain ⟨⟨rfl, rfl⟩, rfl⟩ := h
        rename_i hnil
        refine ⟨fun c1 hc => ?_, fun _ => fstL_nil.mp hnil⟩
        rw [show symStep a _ = none from h1] at hc; simp at hc
    | @acc l es c c1 y h1 h2 =>
      refine ⟨fun es' h hb => ?_, fun a dst h hd => ?_⟩
      · cases es' with
        | nil => simp at h
        | cons e es' =>
          simp only [List.map_cons, List.cons.injEq, Prod.mk.injEq] at h
          obtain ⟨⟨rfl, h3⟩, rfl⟩ := h
          refine .consSome (d1 := encCfg c1) ?_ ?_
          · show epsStep _ _ = _
            rw [epsStep_enc, show epsStep e.special _ = some c1 from h1]; rfl
          · rw [← h3, ← h2]; exact hfin c1
      · simp only [List.cons.injEq, Prod.mk.injEq] at h
        obtain ⟨⟨rfl, rfl⟩, rfl⟩ := h
        rw [show symStep a _ = some c1 from h1]
        refine ⟨fun c2 hc => ?_, by simp⟩
        injection hc with hc; subst hc; rw [← h2]; exact hfin c1
    | @rej l es c c1 r h1 h2 hnil ih =>
      refine ⟨fun es' h hb => ?_, fun a dst h hd => ?_⟩
      · cases es' with
        | nil => simp at h
        | cons e es' =>
          simp only [List.map_cons, List.cons.injEq, Prod.mk.injEq] at h
          obtain ⟨⟨rfl, h3⟩, rfl⟩ := h
          refine .consNone (d1 := encCfg c1) ?_ ?_ (ih.1 es' rfl fun e he => hb e (List.mem_cons_of_mem _ he))
          · show epsStep _ _ = _
            rw [epsStep_enc, show epsStep e.special _ = some c1 from h1]; rfl
          · rw [← h3, ← h2]; exact hfin c1
      · simp only [List.cons.injEq, Prod.mk.injEq] at h
        obtain ⟨⟨rfl, rfl⟩, rfl⟩ := h
        rw [show symStep a _ = some c1 from h1]
        refine ⟨fun c2 hc => ?_, by simp⟩
        injection hc with hc; subst hc; rw [fstL_nil.mp hnil, ← h2]; exact hfin c1
    | @fail l q es c c1 r h1 h2 _ hnil ih1 ih2 =>
      refine ⟨fun es' h hb => ?_, fun a dst h hd => ?_⟩
      · cases es' with
        | nil => simp at h
        | cons e es' =>
          simp only [List.map_cons, List.cons.injEq, Prod.mk.injEq] at h
          obtain ⟨⟨rfl, rfl⟩, rfl⟩ := h
          refine .consNone (d1 := encCfg c1) ?_ (hnext h2 (hb e (by simp)) ih1) (ih2.1 es' rfl fun e he => hb e (List.mem_cons_of_mem _ he))
          show epsStep _ _ = _
          rw [epsStep_enc, show epsStep e.special _ = some c1 from h1]; rfl
      · simp only [List.cons.injEq, Prod.mk.injEq] at h
        obtain ⟨⟨rfl, rfl⟩, rfl⟩ := h
        rw [show symStep a _ = some c1 from h1]
        refine ⟨fun c2 hc => ?_, by simp⟩
        injection hc with hc; subst hc; rw [fstL_nil.mp hnil]; exact hnext h2 hd ih1
    | @hit l q es c c1 y h1 h2 _ ih1 =>
      refine ⟨fun es' h hb => ?_, fun a dst h hd => ?_⟩
      · cases es' with
        | nil => simp at h
        | cons e es' =>
          simp only [List.map_cons, List.cons.injEq, Prod.mk.injEq] at h
          obtain ⟨⟨rfl, rfl⟩, rfl⟩ := h
          refine .consSome (d1 := encCfg c1) ?_ (hnext h2 (hb e (by simp)) ih1)
          show epsStep _ _ = _
          rw [epsStep_enc, show epsStep e.special _ = some c1 from h1]; rfl
      · simp only [List.cons.injEq, Prod.mk.injEq] at h
        obtain ⟨⟨rfl, rfl⟩, rfl⟩ := h
        rw [show symStep a _ = some c1 from h1]
        refine ⟨fun c2 hc => ?_, by simp⟩
        injection hc with hc; subst hc; exact hnext h2 hd ih1
  have := (key _ _ _ h).1 [Eps.new 0] rfl (by simp [Eps.new]; exact hpos)
  exact this

/-- The first run of the byte automaton is the first run of the character automaton. -/
theorem u8New_first {U : Utf8Seqs} {N : NFA Atom} (hN : Ready N) (hone : OneSym N) {M : NFA U8Atom}
    (h : u8New U.seqs N = .ok M) (hM : M ≠ []) {text : List Char} {r} (hf : N.Fst atEnd 0 ⟨0, text, []⟩ r) :
    M.Fst atEnd 0 ⟨0, encode text, []⟩ r := by
  obtain ⟨B, ms, ss, I, h1, h2⟩ := u8Build_spec U hN.ne
  have hsh := u8Build_shape hN.wf hN.ne hN.rank hN.mix hN.sink h2
  rw [u8New, u8NewLoopOpt, h1] at h
  have h5 : B.finish = .ok M := h
  have h6 := fst_u8Build hN.wf hN.mix hN.sink hone h2 h1 hsh.sink (K := atEnd) (K' := atEnd) (by
    rintro ⟨o, r, k⟩
    cases r with
    | nil => rfl
    | cons x r =>
      have : encode (x :: r) ≠ [] := by rw [Ne, encode_eq_nil]; simp
      simp [atEnd, encCfg, this]) hN.ne hf
  exact (fst_stable atEnd _ _).finish hsh (fst_filterEdges (fun d' => clearZeroSymbol_keeps hsh.good.wf _ d') h6) h5 hM

end Ere
