import Verif.Proofs.FixedMake
import Verif.Proofs.FirstOnePass
import Verif.Proofs.Laws
import Verif.Proofs.Lead
import Verif.Spec.Framed

/-! Automata of patterns with anchors only around the branches: every path through the graph is a run over some text. The states are labelled by the
phase in which they are reached: 0 before the `^`, 1 between the anchors, 2 after the `$`. -/

namespace Ere

/-! ### Accepted bytes are texts -/

/-- What has been read on reaching a state of the byte automaton. -/
def PrefInv (N : NFA Atom) (I : Nat → Nat → Atom → List U8Atom → Prop) (fin : Nat) (bs : List UInt8) (x : Nat)
    (d : Cfg UInt8) : Prop :=
  ((x < N.length ∨ x = fin) ∧ ∃ text, bs = encode text ++ d.rest) ∨
  ∃ dst a w text b, I x dst a w ∧ MatchesSeq w b ∧ bs = encode text ++ b ++ d.rest ∧ dst < N.length

theorem epsStep_rest {α : Type} {e : EpsType} {d d' : Cfg α} (h : epsStep e d = some d') : d'.rest = d.rest := by
  cases e <;> simp only [epsStep] at h
  · rw [Option.some.inj h]
  · split at h
    · rw [Option.some.inj h]
    · simp at h
  · split at h
    · rw [Option.some.inj h]
    · simp at h
  · rw [← Option.some.inj h]
  · rw [← Option.some.inj h]

theorem build_pref {U : Utf8Seqs} {N : NFA Atom} (hN : N.WF) (hne : N ≠ []) {M ms ss I}
    (hB : BuildSpec U N M ms ss I) {x : Nat} {bs : List UInt8} {o c} {d : Cfg UInt8}
    (h : ReachE M.HasEdge (0, ⟨o, bs, c⟩) (x, d)) : PrefInv N I (N.length + ss.length) bs x d := by
  have hpos : 0 < N.length := List.length_pos_iff.mpr hne
  have key : ∀ (text : List Char) (a : Atom) (w : List U8Atom) (b : List UInt8), w ∈ atomSeqs U.seqs a → MatchesSeq w b →
      ∃ text', encode text' = encode text ++ b := by
    intro text a w b hw hm
    obtain ⟨y, _, rfl⟩ := (atomSeqs_exact U a b).mp ⟨w, hw, hm⟩
    refine ⟨text ++ [y], ?_⟩
    rw [encode_append, encode_cons]
    simp [encode]
  refine reachE_tail_induction (P := fun x d => PrefInv N I (N.length + ss.length) bs x d) h
    (Or.inl ⟨.inl hpos, [], rfl⟩) ?_
  intro q d l q1 d1 _ ih he hl
  rcases ih with ⟨hq, text, ht⟩ | ⟨dst, a, w, text, b, hI, hm, ht, hd⟩
  · rcases (hB.edge _ _ _).mp he with h4 | ⟨h4, rfl, rfl⟩ | h4
    · cases l with
      | eps e =>
        have h5 := (hB.st.eps _ _ _).mp h4
        exact .inl ⟨.inl (hN _ _ _ h5), text, by rw [epsStep_rest (show epsStep e d = some d1 from hl)]; exact ht⟩
      | sym b =>
        obtain ⟨a, dd, h5, h6⟩ := hB.st.root _ _ _ h4
        obtain ⟨x, g1, g2, _, _⟩ := symStep_u8.mp (show symStep b d = some d1 from hl)
        rcases h6 with ⟨rfl, h6⟩ | h6
        · obtain ⟨text', hx⟩ := key text a [b] [x] h6 ⟨g1, trivial⟩
          exact .inl ⟨.inl (hN _ _ _ h5), text', by rw [hx, ht, g2]; simp⟩
        · exact .inr ⟨dd, a, [b], text, [x], h6, ⟨g1, trivial⟩, by rw [ht, g2]; simp, hN _ _ _ h5⟩
    · exact .inl ⟨.inr rfl, text, by rw [epsStep_rest (show epsStep .none d = some d1 from hl)]; exact ht⟩
    · have := subE_lt h4
      omega
  · have hrange := hB.st.subs.range _ _ _ _ hI
    rcases (hB.edge _ _ _).mp he with h4 | ⟨h4, rfl, rfl⟩ | h4
    · have := hasEdge_lt h4; rw [hB.st.len] at this; omega
    · omega
    · cases l with
      | eps e =>
        exfalso
        obtain ⟨j, _, s, hs, h5⟩ := h4
        have := hB.st.subs.noeps s (List.mem_of_getElem? hs)
        rw [this] at h5
        simp at h5
      | sym v =>
        obtain ⟨x, g1, g2, _, _⟩ := symStep_u8.mp (show symStep v d = some d1 from hl)
        have hm' : MatchesSeq (w ++ [v]) (b ++ [x]) := matchesSeq_append.mpr ⟨b, [x], rfl, hm, g1, trivial⟩
        rcases hB.st.subs.step _ _ _ _ _ _ hI h4 with ⟨rfl, h5⟩ | h5
        · obtain ⟨text', hx⟩ := key text a _ _ h5 hm'
          exact .inl ⟨.inl hd, text', by rw [hx, ht, g2]; simp⟩
        · exact .inr ⟨dst, a, w ++ [v], text, b ++ [x], h5, hm', by rw [ht, g2]; simp, hd⟩

/-- The bytes that the automaton accepts are the bytes of a text. -/
theorem accepted_text (U : Utf8Seqs) {N : NFA Atom} {M : NFA U8Atom} (hN : Ready N) (h : u8New U.seqs N = .ok M)
    {bs : List UInt8} {o caps} (ha : M.Acc ⟨0, bs, []⟩ ⟨o, [], caps⟩) : ∃ text, bs = encode text := by
  obtain ⟨B, ms, ss, I, h3, h4⟩ := u8Build_spec U hN.ne
  rw [u8New, u8NewLoopOpt, h3] at h
  have h5 : B.finish = .ok M := h
  obtain ⟨M', h6, h7⟩ := finish_spec (α := UInt8) (u8Build_shape hN.wf hN.ne hN.rank hN.mix hN.sink h4)
  obtain rfl : M' = M := by rw [h5] at h6; injection h6 with h6; exact h6.symm
  obtain ⟨_, hr⟩ := (h7.acc _ _).mp ha
  have hlast : B.length - 1 = N.length + ss.length := by rw [h4.len]; omega
  rw [hlast] at hr
  rcases build_pref hN.wf hN.ne h4 hr with ⟨_, text, ht⟩ | ⟨dst, a, w, text, b, hI, _⟩
  · exact ⟨text, by simpa using ht⟩
  · have := h4.st.subs.range _ _ _ _ hI
    omega

/-! ### Phases -/

/-- Epsilons. -/
def frE (e : EpsType) (x y : Nat) : Prop :=
  match e with
  | .startAnchor => x = 0 ∧ y = 1
  | .endAnchor => x = 1 ∧ y = 2
  | _ => x = y

/-- While the automaton is built. -/
def frC : Lab Atom → Nat → Nat → Prop
  | .eps e, x, y => frE e x y
  | .sym _, x, y => x = y

/-- Symbols are only read between the anchors. -/
def frS {σ : Type} : Lab σ → Nat → Nat → Prop
  | .eps e, x, y => frE e x y
  | .sym _, x, y => x = 1 ∧ y = 1

theorem frE_inj {e : EpsType} {x x' y : Nat} (h : frE e x y) (h' : frE e x' y) : x = x' := by
  cases e <;> simp only [frE] at h h' <;> omega

theorem frS_rule {σ α : Type} [Sym σ α] : LabRule α (frS (σ := σ)) where
  none := fun h => h
  inj := by
    intro l l' x x' y hs h h'
    cases l with
    | sym a =>
      cases l' with
      | sym b => exact h.1.trans h'.1.symm
      | eps e => simp [LabSame] at hs
    | eps e =>
      cases l' with
      | sym b => simp [LabSame] at hs
      | eps e' =>
        simp only [LabSame] at hs
        subst hs
        exact frE_inj h h'

/-- Not an anchor. -/
def NoAnchor (e : EpsType) : Prop := e ≠ .startAnchor ∧ e ≠ .endAnchor

theorem frE_noAnchor {e : EpsType} (h : NoAnchor e) (x : Nat) : frE e x x := by
  cases e <;> simp [frE] <;> simp [NoAnchor] at h

theorem ph_parts {ps : List EREPart} (h1 : partsHaveStart ps = false) (h2 : partsHaveEnd ps = false) (g : Nat) :
    GChain frC (buildList (Tree.fromParts ps g).1) 1 1 := by
  have hq := buildList_epsQ (Q := NoAnchor) (Tree.fromParts ps g).1 (markQ_fromParts ps g (by simp [h1]) (by simp [h2])
    (fun k _ _ => by simp [NoAnchor]))
  have hgood : ∀ ts : List Tree, ∀ n ∈ buildList ts, Good n := by
    intro ts
    induction ts with
    | nil => simp [buildList]
    | cons t ts ih =>
      intro n hn
      rw [buildList, List.mem_cons] at hn
      rcases hn with rfl | hn
      · exact build_good t
      · exact ih n hn
  have hgood := hgood (Tree.fromParts ps g).1
  generalize buildList (Tree.fromParts ps g).1 = ns at hq hgood
  induction ns with
  | nil => exact .nil
  | cons n ns ih =>
    refine .cons (hgood n (by simp)) (labG_const ?_) (ih (fun m hm => hq m (by simp [hm])) (fun m hm => hgood m (by simp [hm])))
    intro p l q he
    cases l with
    | sym a => rfl
    | eps e =>
      rcases (hq n (by simp)).edge he with rfl | h
      · rfl
      · exact frE_noAnchor h 1

/-- The phase in front of the pattern. -/
def phaseIn (s : Bool) : Nat := if s then 0 else 1
/-- The phase behind the pattern. -/
def phaseOut (t : Bool) : Nat := if t then 2 else 1

theorem EREBranch.Framed.lab {s t : Bool} {b : EREBranch} (h : b.Framed s t) (g : Nat) :
    LabG frC (build (Tree.fromBranch b g).1) (phaseIn s) (phaseOut t) := by
  obtain ⟨ps, rfl, h1, h2⟩ := h
  rw [Tree.fromBranch, build]
  refine labG_concat (fun _ => rfl) ?_
  rw [List.append_assoc, fromParts_append, buildList_append, fromParts_append, buildList_append]
  refine gchain_append (b := 1) ?_ (gchain_append (ph_parts h1 h2 _) ?_)
  · cases s with
    | false => exact .nil
    | true =>
      simp only [if_true, Tree.fromParts, Tree.fromPart, buildList, build, phaseIn]
      refine .cons (build_good .start) (labG_two fun l q hs => ?_) .nil
      cases l with
      | sym b => simp [State.Has] at hs
      | eps e =>
        simp only [State.Has, List.mem_singleton, Eps.mk.injEq] at hs
        obtain ⟨rfl, rfl⟩ := hs
        exact ⟨rfl, rfl, rfl⟩
  · cases t with
    | false => exact .nil
    | true =>
      simp only [if_true, Tree.fromParts, Tree.fromPart, buildList, build, phaseOut]
      refine .cons (build_good .end_) (labG_two fun l q hs => ?_) .nil
      cases l with
      | sym b => simp [State.Has] at hs
      | eps e =>
        simp only [State.Has, List.mem_singleton, Eps.mk.injEq] at hs
        obtain ⟨rfl, rfl⟩ := hs
        exact ⟨rfl, rfl, rfl⟩

theorem ERE.Framed.lab {s t : Bool} {e : ERE} (h : e.Framed s t) :
    LabG frC (build (Tree.fromERE e).1) (phaseIn s) (phaseOut t) := by
  obtain ⟨bs, rfl, hall⟩ := h
  rw [Tree.fromERE, build]
  refine labG_capture (c := phaseIn s) (d := phaseOut t) (build_good _) ?_ _ rfl rfl
  rw [Tree.fromSubERE, build]
  refine labG_union (fun _ => rfl) ?_
  have : ∀ (bs : List EREBranch) (g : Nat), (∀ b ∈ bs, b.Framed s t) →
      ∀ n ∈ buildList (Tree.fromBranches bs g).1, Good n ∧ LabG frC n (phaseIn s) (phaseOut t) := by
    intro bs
    induction bs with
    | nil => intro g _ n hn; simp [Tree.fromBranches, buildList] at hn
    | cons b bs ih =>
      intro g hall n hn
      simp only [Tree.fromBranches, buildList, List.mem_cons] at hn
      rcases hn with rfl | hn
      · exact ⟨build_good _, (hall b (by simp)).lab g⟩
      · exact ih _ (fun b hb => hall b (by simp [hb])) n hn
  exact this bs 1 hall

/-- After `clearZeroSymbol` characters are only read between the anchors. -/
theorem frS_clear {L : NFA Atom} (hwf : L.WF) (hne : L ≠ []) {a b : Nat} (ha : a ≤ 1) (hb : 1 ≤ b) (h : LabG frC L a b) :
    LabG frS L.clearZeroSymbol a b := by
  have hpos : 0 < L.length := List.length_pos_iff.mpr hne
  obtain ⟨A, h0, hl, hA⟩ := h
  have hE : ∀ p l q, L.HasEdge p l q → frC l (A p) (A q) := by
    intro p l q he; have := hA p l q he; rwa [Nat.zero_add] at this
  refine ⟨A, h0, by rw [NFA.clearZeroSymbol, filterEdges_length]; exact hl, ?_⟩
  intro p l q he
  rw [Nat.zero_add]
  obtain ⟨h1, h2⟩ := hasEdge_filterEdges.mp he
  have hc := hE _ _ _ h1
  cases l with
  | eps e => exact hc
  | sym a =>
    have hp := hasEdge_lt h1
    have hlen : (L.nodesAfterEnd).length = L.length ∧ (L.nodesBeforeStart).length = L.length := by
      unfold NFA.nodesAfterEnd NFA.nodesBeforeStart
      rw [List.length_map, List.length_map]
      exact ⟨(reachFrom_spec hwf hpos).1, (reachTo_spec (by omega)).1⟩
    simp only [keeps] at h2
    rw [flag_zipWith_or (by omega) (by omega)] at h2
    simp only [Bool.not_eq_true', Bool.or_eq_false_iff] at h2
    have hph : A p = 1 := by
      rcases Nat.lt_trichotomy (A p) 1 with h | h | h
      · exfalso
        have h3 : A p = 0 := by omega
        have h4 := reachTo_spec (N := L) (ke := (· != .startAnchor)) (kt := true) (s := L.length - 1) (by omega)
        have h5 := h2.2
        unfold NFA.nodesBeforeStart at h5
        rw [flag_map_not (by simpa [h4.1] using hp)] at h5
        simp only [Bool.not_eq_false'] at h5
        rw [h4.2] at h5
        have : ∀ r, L.Path (· != .startAnchor) true p r → A r = 0 := by
          intro r hr
          induction hr with
          | refl => exact h3
          | tail _ he ih =>
            obtain ⟨l, h5, h6⟩ := he
            have h7 := hE _ _ _ h6
            cases l with
            | sym b => exact h7.symm.trans ih
            | eps e => cases e <;> simp only [Sel, frC, frE] at h5 h7 <;> first | omega | simp at h5
        have := this _ h5
        omega
      · exact h
      · exfalso
        have h4 := reachFrom_spec (N := L) hwf (ke := (· != .endAnchor)) (kt := true) (s := 0) hpos
        have h5 := h2.1
        unfold NFA.nodesAfterEnd at h5
        rw [flag_map_not (by simpa [h4.1] using hp)] at h5
        simp only [Bool.not_eq_false'] at h5
        rw [h4.2] at h5
        have : ∀ r, L.Path (· != .endAnchor) true 0 r → A r ≤ 1 := by
          intro r hr
          induction hr with
          | refl => omega
          | tail _ he ih =>
            obtain ⟨l, h5, h6⟩ := he
            have h7 := hE _ _ _ h6
            cases l with
            | sym b => exact (show _ = _ from h7) ▸ ih
            | eps e => cases e <;> simp only [Sel, frC, frE] at h5 h7 <;> first | omega | simp at h5
        have := this _ h5
        omega
    exact ⟨hph, by rw [← show A p = A q from hc]; exact hph⟩

/-- The phases of the byte automaton. -/
theorem frS_byte (U : Utf8Seqs) {s t : Bool} {e : ERE} (he : e.Framed s t) {N : NFA Atom} {M : NFA U8Atom}
    (h1 : workingNew (Tree.fromERE e).1 = .ok N) (hN : Ready N) (h2 : u8New U.seqs N = .ok M) (hM : M ≠ []) :
    LabG frS M (phaseIn s) (phaseOut t) := by
  have hb := build_shape _ (starOk_fromERE e)
  have hc1 : Shape (build (Tree.fromERE e).1).cleanStartAnchors := filterEdges_shape hb
  have hc : Shape (build (Tree.fromERE e).1).cleanStartAnchors.cleanEndAnchors := filterEdges_shape hc1
  have hl := withLoops_shape hc anyAtom true true
  have h0 : LabG frC (build (Tree.fromERE e).1).cleanStartAnchors.cleanEndAnchors (phaseIn s) (phaseOut t) :=
    labG_filter (labG_filter he.lab _ _) _ _
  have hL := labG_withLoops (C := frC) (fun _ => rfl) hc.good h0 anyAtom rfl rfl
  have hS := frS_clear hl.good.wf hl.good.ne (by cases s <;> decide) (by cases t <;> decide) hL
  rw [workingNew, newLoopOpt] at h1
  have hNs : LabG frS N _ _ := (labG_stable (α := Char) frS_rule _ _).finish hl hS h1 hN.ne
  obtain ⟨B, ms, ss, I, h3, h4⟩ := u8Build_spec U hN.ne
  rw [u8New, u8NewLoopOpt, h3] at h2
  have h5 : B.finish = .ok M := h2
  refine (labG_stable (α := UInt8) frS_rule _ _).finish
    (u8Build_shape hN.wf hN.ne hN.rank hN.mix hN.sink h4) (labG_filter ?_ _ _) h5 hM
  exact labG_u8Build U (fun y _ => y) hN.wf hN.ne h4 hNs (fun _ _ _ h => h) rfl
    (fun _ _ _ _ h _ => h) (fun _ _ _ _ _ h _ _ => h) (fun _ _ _ _ _ _ h _ _ => ⟨h.2, h.2⟩) (fun _ _ _ _ _ h _ => ⟨h.2, h.2⟩)

/-! ### Paths are runs -/

/-- The recorded positions are at most `n`. -/
def Caps.Upto (c : Caps) (n : Nat) : Prop := ∀ g i, (c.start? g = some i → i ≤ n) ∧ (c.end? g = some i → i ≤ n)

theorem Caps.Upto.mono {c : Caps} {n m : Nat} (h : c.Upto n) (hn : n ≤ m) : c.Upto m :=
  fun g i => ⟨fun h' => Nat.le_trans ((h g i).1 h') hn, fun h' => Nat.le_trans ((h g i).2 h') hn⟩

theorem Caps.Upto.walk {c : Caps} {n : Nat} (h : c.Upto n) (ls : List EpsType) : Caps.Upto (c ++ walkEvents n ls) n := by
  intro g i
  rw [start?_append, end?_append, walkEvents_start, walkEvents_end]
  constructor
  · intro h'
    split at h'
    · simp at h'; omega
    · exact (h g i).1 (by simpa using h')
  · intro h'
    split at h'
    · simp at h'; omega
    · exact (h g i).2 (by simpa using h')

/-- A state of an automaton with phases is reached with at least `n` bytes and marks. -/
def Reached (M : NFA U8Atom) (A : Nat → Nat) (n q : Nat) : Prop :=
  ∃ bs caps, (A q = 0 → bs = []) ∧ Caps.Upto caps bs.length ∧ n ≤ bs.length + caps.length ∧
    ∀ rest, (A q = 2 → rest = []) → ReachE M.HasEdge (0, (⟨0, bs ++ rest, []⟩ : Cfg UInt8)) (q, ⟨bs.length, rest, caps⟩)

/-- Labels that leave a trace. -/
def Lab.Marks : Lab U8Atom → Prop
  | .sym _ => True
  | .eps (.startCapture _) => True
  | .eps (.endCapture _) => True
  | _ => False

theorem lo_step {a : U8Atom} (h : a.lo ≤ a.hi) {o o' : Nat} (rest : List UInt8) (c : Caps) (ho : o' = o + 1) :
    labStep (Lab.sym a) (⟨o, a.lo :: rest, c⟩ : Cfg UInt8) = some ⟨o', rest, c⟩ := by
  show symStep a (⟨o, a.lo :: rest, c⟩ : Cfg UInt8) = some ⟨o', rest, c⟩
  exact symStep_u8.mpr ⟨a.lo, by simp [U8Atom.check, h], rfl, ho, rfl⟩

theorem reached_step {M : NFA U8Atom} {A : Nat → Nat} (hA : GOkL frS A 0 M) (hs : SymP (fun a : U8Atom => a.lo ≤ a.hi) M)
    {p l q n} (he : M.HasEdge p l q) (h : Reached M A n p) : Reached M A n q ∧ (l.Marks → Reached M A (n + 1) q) := by
  have hph := hA _ _ _ he
  rw [Nat.zero_add] at hph
  obtain ⟨bs, caps, h0, hu, hn, hr⟩ := h
  have key : ∀ bs' caps', (A q = 0 → bs' = []) → Caps.Upto caps' bs'.length →
      (bs.length + caps.length ≤ bs'.length + caps'.length) →
      (l.Marks → bs.length + caps.length < bs'.length + caps'.length) →
      (∀ rest, (A q = 2 → rest = []) → ReachE M.HasEdge (0, (⟨0, bs' ++ rest, []⟩ : Cfg UInt8)) (q, ⟨bs'.length, rest, caps'⟩)) →
      Reached M A n q ∧ (l.Marks → Reached M A (n + 1) q) := by
    intro bs' caps' k1 k2 k3 k4 k5
    exact ⟨⟨bs', caps', k1, k2, by omega, k5⟩, fun hm => ⟨bs', caps', k1, k2, by have := k4 hm; omega, k5⟩⟩
  cases l with
  | sym a =>
    obtain ⟨hp, hq⟩ := hph
    refine key (bs ++ [a.lo]) caps (by omega) (hu.mono (by simp)) (by simp) (by simp) ?_
    intro rest _
    have hrun := hr (a.lo :: rest) (by omega)
    rw [List.append_assoc, List.singleton_append]
    refine reachE_trans hrun (reachE_step he (lo_step (hs _ _ _ he) _ _ ?_))
    simp
  | eps e =>
    have hrest : ∀ rest : List UInt8, (A q = 2 → rest = []) → (A p = 2 → rest = []) := by
      intro rest h h2
      apply h
      cases e <;> simp only [frS, frE] at hph <;> omega
    have hstep : ∀ rest : List UInt8, (A q = 2 → rest = []) → epsStep e (⟨bs.length, rest, caps⟩ : Cfg UInt8) =
        some ⟨bs.length, rest, caps ++ walkEvents bs.length [e]⟩ := by
      intro rest h
      cases e with
      | none => simp [epsStep, walkEvents]
      | startAnchor => rw [h0 hph.1]; simp [epsStep, walkEvents]
      | endAnchor => rw [h hph.2]; simp [epsStep, walkEvents]
      | startCapture g => simp [epsStep, walkEvents, Caps.setStart]
      | endCapture g => simp [epsStep, walkEvents, Caps.setEnd]
    refine key bs (caps ++ walkEvents bs.length [e]) ?_ (hu.walk [e]) (by simp) ?_ ?_
    · intro hq
      apply h0
      cases e <;> simp only [frS, frE] at hph <;> omega
    · intro hm
      cases e <;> simp [Lab.Marks] at hm <;> simp [walkEvents]
    · intro rest h
      exact reachE_trans (hr rest (hrest rest h)) (reachE_step he (show epsStep e _ = some _ from hstep rest h))

theorem reached_start {M : NFA U8Atom} {A : Nat → Nat} : Reached M A 0 0 :=
  ⟨[], [], fun _ => rfl, fun g i => by simp [Caps.start?, Caps.end?], by simp, fun _ _ => reachE_refl⟩

theorem reached_path {M : NFA U8Atom} {A : Nat → Nat} (hA : GOkL frS A 0 M) (hs : SymP (fun a : U8Atom => a.lo ≤ a.hi) M)
    {p q n} (hp : M.Path (fun _ => true) true p q) (h : Reached M A n p) : Reached M A n q := by
  induction hp with
  | refl => exact h
  | tail _ he ih =>
    obtain ⟨l, _, he⟩ := he
    exact (reached_step hA hs he ih).1

/-- A cycle can be gone around any number of times. -/
theorem reached_cycle {M : NFA U8Atom} (hM : Ready M) {A : Nat → Nat} (hA : GOkL frS A 0 M)
    (hs : SymP (fun a : U8Atom => a.lo ≤ a.hi) M) {q : Nat} (hq : Relation.TransGen M.Edge q q) (n : Nat)
    (h : Reached M A n q) : Reached M A (n + 1) q := by
  obtain ⟨r, hr⟩ := hM.rank
  have mono : ∀ a l b, M.HasEdge a l b → A a ≤ A b := by
    intro a l b he
    have := hA _ _ _ he
    rw [Nat.zero_add] at this
    cases l with
    | sym s => simp only [frS] at this; omega
    | eps e => cases e <;> simp only [frS, frE] at this <;> omega
  have key : ∀ a b, Relation.TransGen M.Edge a b → A a ≤ A b ∧ (∀ n, Reached M A n a → Reached M A n b) ∧
      (A a < A b ∨ (A a = A b ∧ r a < r b) ∨ ∀ n, Reached M A n a → Reached M A (n + 1) b) := by
    have one : ∀ a b, M.Edge a b → A a ≤ A b ∧ (∀ n, Reached M A n a → Reached M A n b) ∧
        (A a < A b ∨ (A a = A b ∧ r a < r b) ∨ ∀ n, Reached M A n a → Reached M A (n + 1) b) := by
      intro a b h
      obtain ⟨l, hl⟩ := edge_iff.1 h
      refine ⟨mono _ _ _ hl, fun n h => (reached_step hA hs hl h).1, ?_⟩
      have hph := hA _ _ _ hl
      rw [Nat.zero_add] at hph
      by_cases hm : l.Marks
      · exact .inr (.inr fun n h => (reached_step hA hs hl h).2 hm)
      · cases l with
        | sym s => exact absurd trivial hm
        | eps e =>
          cases e with
          | none => exact .inr (.inl ⟨hph, hr _ _ hl⟩)
          | startAnchor => simp only [frS, frE] at hph; left; omega
          | endAnchor => simp only [frS, frE] at hph; left; omega
          | startCapture g => exact absurd trivial hm
          | endCapture g => exact absurd trivial hm
    intro a b h
    induction h with
    | single h => exact one _ _ h
    | tail _ h ih =>
      obtain ⟨i1, i2, i3⟩ := ih
      obtain ⟨o1, o2, o3⟩ := one _ _ h
      refine ⟨by omega, fun n h => o2 n (i2 n h), ?_⟩
      rcases i3 with i3 | i3 | i3
      · left; omega
      · rcases o3 with o3 | o3 | o3
        · left; omega
        · right; left; omega
        · exact .inr (.inr fun n h => o3 n (i2 n h))
      · exact .inr (.inr fun n h => o2 _ (i3 n h))
  obtain ⟨_, _, h1 | h1 | h1⟩ := key _ _ hq
  · omega
  · omega
  · exact h1 n h

/-- Accepting runs of any size. -/
theorem cyclic_runs {M : NFA U8Atom} (hM : Ready M) {a b : Nat} (hl : LabG frS M a b) (hs : SymP (fun a : U8Atom => a.lo ≤ a.hi) M)
    (hc : M.Cyclic) (n : Nat) : ∃ bs caps, n ≤ bs.length + caps.length ∧ M.Acc ⟨0, bs, []⟩ ⟨bs.length, [], caps⟩ := by
  obtain ⟨A, _, _, hA⟩ := hl
  obtain ⟨q, hq⟩ := hc
  have hlt : q < M.length := by
    obtain ⟨b, h, _⟩ := Relation.TransGen.head'_iff.mp hq
    obtain ⟨l, hl⟩ := edge_iff.1 h
    exact hasEdge_lt hl
  obtain ⟨t1, t2⟩ := hM.trim q hlt
  have : Reached M A n q := by
    induction n with
    | zero => exact reached_path hA hs t1 reached_start
    | succ n ih => exact reached_cycle hM hA hs hq n ih
  obtain ⟨bs, caps, _, _, hn, hr⟩ := reached_path hA hs t2 this
  refine ⟨bs, caps, hn, hM.ne, ?_⟩
  have := hr [] (fun _ => rfl)
  rwa [List.append_nil] at this

/-- Without cycles the size of runs is bounded. -/
theorem acyclic_bound {M : NFA U8Atom} (hM : Ready M) (hc : ¬ M.Cyclic) {bs : List UInt8} {caps : Caps} {o : Nat}
    (h : M.Acc ⟨0, bs, []⟩ ⟨o, [], caps⟩) : o + caps.length < M.length := by
  obtain ⟨pos, h1, h2⟩ := acyclic_pos hM hc
  have key : o + caps.length ≤ pos (M.length - 1) := by
    refine reachE_tail_induction (P := fun q d => d.off + d.caps.length ≤ pos q) h.2 (by simp) ?_
    intro q d l q' d' _ ih he hl
    have hp := h1 _ _ (edge_iff.2 ⟨l, he⟩)
    cases l with
    | sym a =>
      obtain ⟨x, _, _, k1, k2⟩ := symStep_u8.mp (show symStep a d = some d' from hl)
      rw [k1, k2]; omega
    | eps e =>
      have hl : epsStep e d = some d' := hl
      cases e <;> simp only [epsStep] at hl
      · rw [← Option.some.inj hl]; omega
      · split at hl
        · rw [← Option.some.inj hl]; omega
        · simp at hl
      · split at hl
        · rw [← Option.some.inj hl]; omega
        · simp at hl
      · rw [← Option.some.inj hl]; simp only [Caps.setStart, List.length_append, List.length_singleton]; omega
      · rw [← Option.some.inj hl]; simp only [Caps.setEnd, List.length_append, List.length_singleton]; omega
  have := h2 (M.length - 1) (by have := List.length_pos_iff.mpr hM.ne; omega)
  omega

/-! ### Walks to the end -/

theorem ph_walk {M : NFA U8Atom} {A : Nat → Nat} (hA : GOkL frS A 0 M) {q ls p} (h : EWalk M q ls p) :
    A q ≤ A p ∧ (EpsType.startAnchor ∈ ls → A q = 0) ∧ (A q = 0 → A p ≠ 0 → EpsType.startAnchor ∈ ls) := by
  induction h with
  | refl => simp
  | tail _ he ih =>
    have hph := hA _ _ _ he
    rw [Nat.zero_add] at hph
    rename_i ls p e r _
    obtain ⟨i1, i2, i3⟩ := ih
    simp only [List.mem_append, List.mem_singleton]
    cases e <;> simp only [frS, frE] at hph <;> refine ⟨by omega, ?_, ?_⟩
    · rintro (h | h)
      · exact i2 h
      · simp at h
    · exact fun h h' => .inl (i3 h (by omega))
    · rintro (h | h)
      · exact i2 h
      · omega
    · exact fun _ _ => .inr rfl
    · rintro (h | h)
      · exact i2 h
      · simp at h
    · exact fun h h' => .inl (i3 h (by omega))
    · rintro (h | h)
      · exact i2 h
      · simp at h
    · exact fun h h' => .inl (i3 h (by omega))
    · rintro (h | h)
      · exact i2 h
      · simp at h
    · exact fun h h' => .inl (i3 h (by omega))

/-- The accept state is reached over a start anchor exactly if the empty text is accepted. -/
theorem anchoredEnd_iff {M : NFA U8Atom} (hM : Ready M) {a b : Nat} (hb : 1 ≤ b) (hl : LabG frS M a b) :
    M.AnchoredEnd ↔ a = 0 ∧ ∃ caps, M.Acc (α := UInt8) ⟨0, [], []⟩ ⟨0, [], caps⟩ := by
  obtain ⟨A, h0, h2, hA⟩ := hl
  constructor
  · rintro ⟨q, ls, hq, hw, hm⟩
    have h3 := (ph_walk hA hw).2.1 hm
    rcases hq with rfl | ⟨p, a, he⟩
    · have hg : ∀ l ∈ ls, epsGuard 0 0 l = true := by intro l _; cases l <;> simp [epsGuard]
      exact ⟨h0.symm.trans h3, _, hM.ne, walkRun (α := UInt8) (rest := []) hw hg (by simp [unitLen]) []⟩
    · have := hA _ _ _ he
      simp only [frS] at this
      omega
  · rintro ⟨ha, caps, _, hr⟩
    obtain ⟨q, evs, ls, g1, g2, _⟩ := reach_split hr
    rcases g1 with ⟨rfl, _⟩ | ⟨_, _, _, _, _, h, _⟩
    · exact ⟨0, ls, .inl rfl, g2, (ph_walk hA g2).2.2 (h0.trans ha) (by omega)⟩
    · simp only at h
      omega

/-- The empty text is accepted along a way without symbols. -/
theorem acc_nil_walk {M : NFA U8Atom} {caps} (h : M.Acc (α := UInt8) ⟨0, [], []⟩ ⟨0, [], caps⟩) :
    ∃ ls, EWalk M 0 ls (M.length - 1) := by
  obtain ⟨_, hr⟩ := h
  obtain ⟨q, evs, ls, g1, g2, _⟩ := reach_split hr
  rcases g1 with ⟨rfl, _⟩ | ⟨_, _, _, _, _, h, _⟩
  · exact ⟨ls, g2⟩
  · simp only at h
    omega

/-- Two different ends give two runs over the same bytes. -/
theorem twoEnds_runs {M : NFA U8Atom} (hM : Ready M) {a b : Nat} (hb : 1 ≤ b) (hl : LabG frS M a b) (hs : SymP (fun a : U8Atom => a.lo ≤ a.hi) M)
    (h : M.TwoEnds) : ∃ bs caps caps' g, M.Acc ⟨0, bs, []⟩ ⟨bs.length, [], caps⟩ ∧ M.Acc ⟨0, bs, []⟩ ⟨bs.length, [], caps'⟩ ∧
      (caps.start? g ≠ caps'.start? g ∨ caps.end? g ≠ caps'.end? g) := by
  obtain ⟨A, h0, h2, hA⟩ := hl
  obtain ⟨q, ls, ls', m, hq, hw, hw', hm, hm1, hm2⟩ := h
  -- a run to the entry whose marks are older
  have hpre : ∃ bs caps, ReachE M.HasEdge (0, (⟨0, bs, []⟩ : Cfg UInt8)) (q, ⟨bs.length, [], caps⟩) ∧
      (∀ g, caps.start? g ≠ some bs.length ∧ caps.end? g ≠ some bs.length) ∧ (A q = 0 → bs.length = 0) := by
    rcases hq with rfl | ⟨p, a, he⟩
    · exact ⟨[], [], reachE_refl, fun g => by simp [Caps.start?, Caps.end?], fun _ => rfl⟩
    · have hph := hA _ _ _ he
      simp only [Nat.zero_add, frS] at hph
      obtain ⟨bs, caps, _, hu, _, hr⟩ := reached_path hA hs (hM.trim p (hasEdge_lt he)).1 reached_start
      refine ⟨bs ++ [a.lo], caps, ?_, ?_, by omega⟩
      · exact reachE_trans (hr [a.lo] (by omega)) (reachE_step he (lo_step (hs _ _ _ he) _ _ (by simp)))
      · intro g
        simp only [List.length_append, List.length_singleton]
        constructor <;> intro h
        · have := (hu g _).1 h; omega
        · have := (hu g _).2 h; omega
  obtain ⟨bs, caps, hr, hold, hz⟩ := hpre
  have ends : ∀ ls, EWalk M q ls (M.length - 1) → M.Acc ⟨0, bs, []⟩ ⟨bs.length, [], caps ++ walkEvents bs.length ls⟩ := by
    intro ls hw
    refine ⟨hM.ne, reachE_trans hr (walkRun (α := UInt8) (total := bs.length) (rest := []) hw ?_ (by simp [unitLen]) caps)⟩
    intro l hl
    cases l <;> simp only [epsGuard, beq_iff_eq]
    have := hz ((ph_walk hA hw).2.1 hl)
    exact this
  refine ⟨bs, caps ++ walkEvents bs.length ls, caps ++ walkEvents bs.length ls', ?_⟩
  cases m with
  | none => exact absurd rfl hm
  | startAnchor =>
    exfalso
    have := (ph_walk hA hw).2.1 hm1
    exact hm2 ((ph_walk hA hw').2.2 this (by omega))
  | endAnchor =>
    exfalso
    -- both walks end after the `$`
    have key : ∀ {ls p}, EWalk M q ls p → (EpsType.endAnchor ∈ ls → A q ≤ 1 ∧ 2 ≤ A p) ∧ (A q ≤ 1 → 2 ≤ A p → EpsType.endAnchor ∈ ls) := by
      intro ls p h
      induction h with
      | refl => constructor
                · simp
                · intro h1 h2; omega
      | tail hw he ih =>
        have hmono := (ph_walk hA hw).1
        have hph := hA _ _ _ he
        rw [Nat.zero_add] at hph
        rename_i ls p e r
        simp only [List.mem_append, List.mem_singleton]
        cases e <;> simp only [frS, frE] at hph <;> refine ⟨?_, ?_⟩
        · rintro (h | h)
          · have := ih.1 h; omega
          · simp at h
        · exact fun h h' => .inl (ih.2 h (by omega))
        · rintro (h | h)
          · have := ih.1 h; omega
          · simp at h
        · exact fun h h' => .inl (ih.2 h (by omega))
        · intro _; omega
        · exact fun _ _ => .inr rfl
        · rintro (h | h)
          · have := ih.1 h; omega
          · simp at h
        · exact fun h h' => .inl (ih.2 h (by omega))
        · rintro (h | h)
          · have := ih.1 h; omega
          · simp at h
        · exact fun h h' => .inl (ih.2 h (by omega))
    exact hm2 ((key hw').2 ((key hw).1 hm1).1 ((key hw).1 hm1).2)
  | startCapture g =>
    refine ⟨g, ends ls hw, ends ls' hw', .inl ?_⟩
    rw [start?_append, start?_append, walkEvents_start, walkEvents_start, if_pos hm1, if_neg hm2]
    simpa using (hold g).1.symm
  | endCapture g =>
    refine ⟨g, ends ls hw, ends ls' hw', .inr ?_⟩
    rw [end?_append, end?_append, walkEvents_end, walkEvents_end, if_pos hm1, if_neg hm2]
    simpa using (hold g).2.symm

/-! ### Patterns -/

theorem reads_length {L : Caps} {S : List Span} (h : Reads L S) : L.length = 2 * S.length := by
  induction h with
  | nil => rfl
  | append _ _ h1 h2 => simp only [List.length_append, h1, h2]; omega
  | group _ _ ih => simp only [List.length_cons, List.length_append, List.length_nil, ih]; omega

theorem byteLen_four (text : List Char) : text.length ≤ byteLen text ∧ byteLen text ≤ 4 * text.length := by
  induction text with
  | nil => simp [byteLen]
  | cons c text ih =>
    have h1 : 1 ≤ charLen c ∧ charLen c ≤ 4 := by
      unfold charLen
      split
      · omega
      · split
        · omega
        · split <;> omega
    have : byteLen (c :: text) = charLen c + byteLen text := rfl
    rw [List.length_cons, this]
    omega

theorem lastSpan_of {caps caps' : Caps} {S S' : List Span} (hr : Reads caps S) (hr' : Reads caps' S') (g : Nat) :
    lastSpan S g = lastSpan S' g ↔ caps.start? g = caps'.start? g ∧ caps.end? g = caps'.end? g := by
  rw [(reads_last hr g).1, (reads_last hr g).2, (reads_last hr' g).1, (reads_last hr' g).2]
  constructor
  · intro h; rw [h]; exact ⟨rfl, rfl⟩
  · rintro ⟨k1, k2⟩
    cases h : lastSpan S g <;> cases h' : lastSpan S' g <;> rw [h, h'] at k1 k2 <;> simp at k1 k2
    · exact congrArg some (Prod.ext k1 k2)

section
variable (U : Utf8Seqs) {e : ERE} {N : NFA Atom} {M : NFA U8Atom}
  (h1 : workingNew (Tree.fromERE e).1 = .ok N) (h2 : u8New U.seqs N = .ok M) (hne : M ≠ [])
include h1 h2 hne

/-- Accepting runs and ways to match. -/
theorem acc_captures {text : List Char} {caps : Caps} :
    M.Acc ⟨0, encode text, []⟩ ⟨byteLen text, [], caps⟩ → ∃ S, e.Captures text S ∧ Reads caps S := by
  obtain ⟨hN, hM, h3, h4⟩ := pipeline_ne U e h1 h2 hne
  exact fun h => run_captures ((h3 _ _).mp ((acc_enc h4 _ _ _).mp h))

theorem captures_acc {text : List Char} {S : List Span} (h : e.Captures text S) :
    ∃ caps, Reads caps S ∧ M.Acc ⟨0, encode text, []⟩ ⟨byteLen text, [], caps⟩ := by
  obtain ⟨hN, hM, h3, h4⟩ := pipeline_ne U e h1 h2 hne
  obtain ⟨caps, hr, h⟩ := captures_run h
  exact ⟨caps, hr, (acc_enc h4 _ _ _).mpr ((h3 _ _).mpr h)⟩

theorem cyclic_iff {s t : Bool} (he : e.Framed s t) : M.Cyclic ↔ e.Unbounded := by
  obtain ⟨hN, hM, h3, h4⟩ := pipeline_ne U e h1 h2 hne
  have hl := frS_byte U he h1 hN h2 hne
  have hs := u8New_symP U hN h2 hne
  constructor
  · intro hc n
    obtain ⟨bs, caps, hn, ha⟩ := cyclic_runs hM hl hs hc (4 * n)
    obtain ⟨text, rfl⟩ := accepted_text U hN h2 ha
    rw [encode_length] at ha hn
    obtain ⟨S, k1, k2⟩ := acc_captures U h1 h2 hne ha
    refine ⟨text, S, k1, ?_⟩
    have := reads_length k2
    have := (byteLen_four text).2
    omega
  · intro hu
    apply Classical.byContradiction
    intro hc
    obtain ⟨text, S, k1, k2⟩ := hu M.length
    obtain ⟨caps, k3, k4⟩ := captures_acc U h1 h2 hne k1
    have := acyclic_bound hM hc k4
    have := reads_length k3
    have := (byteLen_four text).1
    omega

/-- If the automaton has not lost its states, the pattern matches some text. -/
theorem framed_matches {s t : Bool} (he : e.Framed s t) : ∃ text, e.MatchesIn text := by
  obtain ⟨hN, hM, h3, h4⟩ := pipeline_ne U e h1 h2 hne
  obtain ⟨A, _, _, hA⟩ := frS_byte U he h1 hN h2 hne
  have hpos := List.length_pos_iff.mpr hne
  obtain ⟨bs, caps, _, _, _, hr⟩ := reached_path hA (u8New_symP U hN h2 hne) (hM.trim (M.length - 1) (by omega)).1 reached_start
  have ha : M.Acc ⟨0, bs, []⟩ ⟨bs.length, [], caps⟩ := ⟨hne, by simpa using hr [] (fun _ => rfl)⟩
  obtain ⟨text, rfl⟩ := accepted_text U hN h2 ha
  rw [encode_length] at ha
  obtain ⟨S, k, _⟩ := acc_captures U h1 h2 hne ha
  exact ⟨text, captures_matchesIn.mp ⟨S, k⟩⟩

theorem anchoredEnd_matches {s t : Bool} (he : e.Framed s t) : M.AnchoredEnd ↔ s = true ∧ e.MatchesIn [] := by
  obtain ⟨hN, hM, h3, h4⟩ := pipeline_ne U e h1 h2 hne
  rw [anchoredEnd_iff hM (by cases t <;> decide) (frS_byte U he h1 hN h2 hne), ← captures_matchesIn,
    show phaseIn s = 0 ↔ s = true by cases s <;> simp [phaseIn]]
  refine and_congr_right fun _ => ⟨?_, ?_⟩
  · rintro ⟨caps, h⟩
    obtain ⟨S, k, _⟩ := acc_captures U h1 h2 hne (text := []) h
    exact ⟨S, k⟩
  · rintro ⟨S, h⟩
    obtain ⟨caps, _, k⟩ := captures_acc U h1 h2 hne h
    exact ⟨caps, k⟩

theorem twoEnds_iff {s t : Bool} (he : e.Framed s t) {rows : List (OpRow × List Upd)} (hT : OpTable M rows) :
    ¬ M.TwoEnds ↔ e.OneReading := by
  obtain ⟨hN, hM, h3, h4⟩ := pipeline_ne U e h1 h2 hne
  constructor
  · intro ht text S S' hS hS' g
    obtain ⟨caps, r1, a1⟩ := captures_acc U h1 h2 hne hS
    obtain ⟨caps', r2, a2⟩ := captures_acc U h1 h2 hne hS'
    have hu := run_unique hM hT ht a1.2 a2.2
    by_cases hg : g < M.numCaptureGroups
    · rw [lastSpan_of r1 r2]
      have := congrArg (fun l => l[g]?) hu
      simp only [slotsOf_get hg, Option.some.injEq, Prod.mk.injEq] at this
      exact this
    · have n1 := reach_start_none a1.2 (g := g) (by omega)
      have n2 := reach_start_none a2.2 (g := g) (by omega)
      rw [(reads_last r1 g).1, Option.map_eq_none_iff] at n1
      rw [(reads_last r2 g).1, Option.map_eq_none_iff] at n2
      rw [n1, n2]
  · intro ho ht
    obtain ⟨bs, caps, caps', g, a1, a2, hd⟩ := twoEnds_runs hM (by cases t <;> decide) (frS_byte U he h1 hN h2 hne) (u8New_symP U hN h2 hne) ht
    obtain ⟨text, rfl⟩ := accepted_text U hN h2 a1
    rw [encode_length] at a1 a2
    obtain ⟨S, c1, r1⟩ := acc_captures U h1 h2 hne a1
    obtain ⟨S', c2, r2⟩ := acc_captures U h1 h2 hne a2
    have := (lastSpan_of r1 r2 g).mp (ho text S S' c1 c2 g)
    rcases hd with hd | hd
    · exact hd this.1
    · exact hd this.2
end

/-! ### Other patterns -/

/-- Labels that symbols keep and other edges change according to `C`. -/
def keepC {σ Λ : Type} (C : EpsType → Λ → Λ → Prop) : Lab σ → Λ → Λ → Prop
  | .eps e, x, y => C e x y
  | .sym _, x, y => x = y

theorem lab_byte (U : Utf8Seqs) {Λ : Type} {C : EpsType → Λ → Λ → Prop} (hnone : ∀ x y, C .none x y ↔ x = y)
    (hinj : ∀ e x x' y, C e x y → C e x' y → x = x') {e : ERE} {a b : Λ}
    (h : LabG (keepC C) (build (Tree.fromERE e).1) a b)
    {N : NFA Atom} {M : NFA U8Atom} (h1 : workingNew (Tree.fromERE e).1 = .ok N) (hN : Ready N)
    (h2 : u8New U.seqs N = .ok M) (hM : M ≠ []) :
    LabG (keepC C) M a b := by
  have rule : ∀ {σ α : Type} [Sym σ α], LabRule α (keepC (σ := σ) C) := by
    intro σ α _
    refine ⟨fun h => (hnone _ _).mp h, ?_⟩
    intro l l' x x' y hs h h'
    cases l with
    | sym a =>
      cases l' with
      | sym b => exact h.trans h'.symm
      | eps e => simp [LabSame] at hs
    | eps e =>
      cases l' with
      | sym b => simp [LabSame] at hs
      | eps e' =>
        simp only [LabSame] at hs
        subst hs
        exact hinj _ _ _ _ h h'
  have hb := build_shape _ (starOk_fromERE e)
  have hc1 : Shape (build (Tree.fromERE e).1).cleanStartAnchors := filterEdges_shape hb
  have hc : Shape (build (Tree.fromERE e).1).cleanStartAnchors.cleanEndAnchors := filterEdges_shape hc1
  have hl := withLoops_shape hc anyAtom true true
  have h0 : LabG (keepC C) (build (Tree.fromERE e).1).cleanStartAnchors.cleanEndAnchors a b :=
    labG_filter (labG_filter h _ _) _ _
  have hL := labG_withLoops (C := keepC C) (fun x => (hnone x x).mpr rfl) hc.good h0 anyAtom rfl rfl
  have hS : LabG (keepC C) ((build (Tree.fromERE e).1).cleanStartAnchors.cleanEndAnchors.withLoops anyAtom true true).clearZeroSymbol a b :=
    labG_filter hL _ _
  rw [workingNew, newLoopOpt] at h1
  have hNs : LabG (keepC C) N a b := (labG_stable (α := Char) rule _ _).finish hl hS h1 hN.ne
  obtain ⟨B, ms, ss, I, h3, h4⟩ := u8Build_spec U hN.ne
  rw [u8New, u8NewLoopOpt, h3] at h2
  have h5 : B.finish = .ok M := h2
  refine (labG_stable (α := UInt8) rule _ _).finish
    (u8Build_shape hN.wf hN.ne hN.rank hN.mix hN.sink h4) (labG_filter ?_ _ _) h5 hM
  exact labG_u8Build U (fun y _ => y) hN.wf hN.ne h4 hNs (fun _ _ _ h => h) ((hnone _ _).mpr rfl)
    (fun _ _ _ _ h _ => h) (fun _ _ _ _ _ h _ _ => h) (fun _ _ _ _ _ _ _ _ _ => rfl) (fun _ _ _ _ _ _ _ => rfl)

section
variable (U : Utf8Seqs) {e : ERE} {N : NFA Atom} {M : NFA U8Atom}
  (h1 : workingNew (Tree.fromERE e).1 = .ok N) (h2 : u8New U.seqs N = .ok M) (hne : M ≠ [])
include h1 h2 hne

/-- The automaton of a pattern without `^` has no start anchor. -/
theorem noStart_byte (hs : e.hasStart = false) {p q : Nat} : ¬ M.HasEdge p (.eps .startAnchor) q := by
  obtain ⟨hN, hM, _, _⟩ := pipeline_ne U e h1 h2 hne
  have hq : EpsQ (· ≠ .startAnchor) (build (Tree.fromERE e).1) :=
    build_epsQ _ (markQ_fromERE e (by simp [hs]) (by simp) (fun k _ _ => by simp))
  obtain ⟨A, _, _, hA⟩ := lab_byte U (Λ := Unit) (C := fun e _ _ => e ≠ .startAnchor) (a := ()) (b := ()) (by simp) (by simp)
    (labG_const fun p l q he => by
      cases l with
      | sym _ => rfl
      | eps e =>
        rcases hq.edge he with rfl | h
        · simp [keepC]
        · exact h) h1 hN h2 hne
  intro he
  exact hA _ _ _ he rfl

/-- In the automaton of a pattern that begins with `^` every way to the end crosses it. -/
theorem lead_byte (hs : e.leads = true) {ls} (hw : EWalk M 0 ls (M.length - 1)) : EpsType.startAnchor ∈ ls := by
  obtain ⟨hN, hM, _, _⟩ := pipeline_ne U e h1 h2 hne
  obtain ⟨S, hS⟩ := build_lead _ (lead_fromERE e hs)
  obtain ⟨A, h0, hl, hA⟩ := lab_byte U (Λ := Prop) (C := fun e x y => if e = .startAnchor then x = True else x = y)
    (a := True) (b := False) (by simp) (by
      intro e x x' y h h'
      by_cases he : e = .startAnchor
      · rw [if_pos he] at h h'; rw [h, h']
      · rw [if_neg he] at h h'; rw [h, h'])
    ⟨S, eq_true hS.zero, eq_false (fun h => by have := hS.lt _ h; omega), fun p l q he => by
      rw [Nat.zero_add]
      obtain ⟨k1, k2⟩ := hS.edge _ _ _ he
      cases l with
      | sym _ =>
        refine propext ⟨fun h => (k1 h).resolve_right (by simp), fun h => Classical.byContradiction fun h' => (k2 h').1 h⟩
      | eps e =>
        by_cases hes : e = .startAnchor
        · simp only [keepC, if_pos hes]
          exact eq_true (Classical.byContradiction fun h' => (k2 h').2 (by rw [hes]))
        · simp only [keepC, if_neg hes]
          exact propext ⟨fun h => (k1 h).resolve_right (by simpa using hes), fun h => Classical.byContradiction fun h' => (k2 h').1 h⟩⟩
    h1 hN h2 hne
  have key : ∀ {ls p}, EWalk M 0 ls p → EpsType.startAnchor ∉ ls → A p := by
    intro ls p h
    induction h with
    | refl => intro _; rw [h0]; trivial
    | tail _ he ih =>
      intro hm
      simp only [List.mem_append, List.mem_singleton, not_or] at hm
      have := hA _ _ _ he
      rw [Nat.zero_add] at this
      simp only [keepC, if_neg (Ne.symm hm.2)] at this
      rw [← this]; exact ih hm.1
  refine Classical.byContradiction fun hm => ?_
  have := key hw hm
  rw [hl] at this
  exact this

theorem unbounded_cyclic (hu : e.Unbounded) : M.Cyclic := by
  obtain ⟨hN, hM, _, _⟩ := pipeline_ne U e h1 h2 hne
  apply Classical.byContradiction
  intro hc
  obtain ⟨text, S, k1, k2⟩ := hu M.length
  obtain ⟨caps, k3, k4⟩ := captures_acc U h1 h2 hne k1
  have := acyclic_bound hM hc k4
  have := reads_length k3
  have := (byteLen_four text).1
  omega
end

/-- A pattern without `^` or without `$` that matches at all matches texts of any length. -/
theorem unbounded_of_open {e : ERE} (h : e.hasStart = false ∨ e.hasEnd = false) (hm : ∃ text, e.MatchesIn text) : e.Unbounded := by
  obtain ⟨text, hm⟩ := hm
  intro n
  rcases h with h | h
  · obtain ⟨S, hS⟩ := captures_matchesIn.mpr (matchesIn_before h hm (List.replicate n 'x'))
    exact ⟨_, S, hS, by simp; omega⟩
  · obtain ⟨S, hS⟩ := captures_matchesIn.mpr (matchesIn_after h hm (List.replicate n 'x'))
    exact ⟨_, S, hS, by simp; omega⟩

end Ere
