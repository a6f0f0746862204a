import Verif.Proofs.DfaSafe

/-! The DFA engine may cross a start anchor late. What it then finds is a match of the pattern without its start
anchors: all walks of the automaton that ignore `^` are runs of the automaton in which every `^` is an empty step,
and that automaton belongs to the pattern without `^`. -/

namespace Ere
variable {σ α : Type}

/-! ### Erasing start anchors -/

/-- A start anchor becomes an empty step. -/
def EpsType.ers : EpsType → EpsType
  | .startAnchor => .none
  | e => e

/-- … on edges. -/
def Lab.ers : Lab σ → Lab σ
  | .sym a => .sym a
  | .eps e => .eps e.ers

/-- … on one epsilon. -/
def Eps.ers (e : Eps) : Eps := ⟨e.dst, e.special.ers⟩

/-- … on a state. -/
def State.ers (s : State σ) : State σ := ⟨s.transitions, s.epsilons.map Eps.ers⟩

/-- … on an automaton. -/
def NFA.ers (N : NFA σ) : NFA σ := N.map State.ers

theorem ers_length (N : NFA σ) : N.ers.length = N.length := by simp [NFA.ers]

theorem hasEdge_ers {N : NFA σ} {p l q} : N.ers.HasEdge p l q ↔ ∃ l0, N.HasEdge p l0 q ∧ l = l0.ers := by
  simp only [hasEdge_iff, NFA.ers, List.getElem?_map, Option.map_eq_some_iff]
  constructor
  · rintro ⟨st, ⟨s, h1, rfl⟩, h2⟩
    cases l with
    | sym a => exact ⟨.sym a, ⟨s, h1, h2⟩, rfl⟩
    | eps e =>
      obtain ⟨x, h3, h4⟩ := List.mem_map.mp (show (⟨q, e⟩ : Eps) ∈ s.epsilons.map Eps.ers from h2)
      obtain ⟨xd, xs⟩ := x
      simp only [Eps.ers, Eps.mk.injEq] at h4
      obtain ⟨rfl, rfl⟩ := h4
      exact ⟨.eps xs, ⟨s, h1, h3⟩, rfl⟩
  · rintro ⟨l0, ⟨s, h1, h2⟩, rfl⟩
    refine ⟨_, ⟨s, h1, rfl⟩, ?_⟩
    cases l0 with
    | sym a => exact h2
    | eps e => exact List.mem_map.mpr ⟨⟨q, e⟩, h2, rfl⟩

theorem ers_good {N : NFA σ} (h : Good N) : Good N.ers := by
  refine ⟨by simpa [NFA.ers] using h.ne, fun p l q he => ?_⟩
  obtain ⟨l0, h1, _⟩ := hasEdge_ers.mp he
  rw [ers_length]
  exact h.wf _ _ _ h1

theorem noneStar_ers {N : NFA σ} {p q} (h : NoneStar N p q) : NoneStar N.ers p q := by
  induction h with
  | refl => exact .refl
  | tail _ he ih => exact ih.tail (hasEdge_ers.mpr ⟨_, he, rfl⟩)

section
variable [Sym σ α]

theorem noneStar_run {N : NFA σ} {p q} (h : NoneStar N p q) (d : Cfg α) : ReachE N.HasEdge (p, d) (q, d) := by
  induction h with
  | refl => exact reachE_refl
  | tail _ he ih => exact reachE_trans ih (reachE_eps he)

theorem labSame_ers {l l' : Lab σ} (h : LabSame (α := α) l l') (d : Cfg α) : labStep l.ers d = labStep l'.ers d := by
  refine labStep_same (α := α) ?_ d
  cases l <;> cases l' <;> simp_all [LabSame, Lab.ers]

/-- All runs that ignore start anchors are among the given ones. -/
def ErsIn (X : Cfg α → Cfg α → Prop) (N : NFA σ) : Prop :=
  ∀ d d', ReachE N.ers.HasEdge (0, d) (N.length - 1, d') → X d d'

theorem ersIn_sim {X : Cfg α → Cfg α → Prop} {N' N : NFA σ} {R} (h : IsSimL α N' N R) (hN : ErsIn X N) : ErsIn X N' := by
  intro d d' hr
  have : ∃ p, R (N'.length - 1) p ∧ ReachE N.ers.HasEdge (0, d) (p, d') := by
    refine reachE_tail_induction (P := fun q d' => ∃ p, R q p ∧ ReachE N.ers.HasEdge (0, d) (p, d')) hr
      ⟨0, h.zero, reachE_refl⟩ ?_
    rintro q1 d1 l q2 d2 _ ⟨p, h1, h2⟩ he hl
    obtain ⟨l0, h3, rfl⟩ := hasEdge_ers.mp he
    obtain ⟨p1, l', q, h4, h5, h6, h7⟩ := h.step _ _ _ _ h1 h3
    refine ⟨q, h7, reachE_trans (reachE_trans h2 (noneStar_run (noneStar_ers h4) _)) (reachE_step (l := l'.ers) ?_ ?_)⟩
    · exact hasEdge_ers.mpr ⟨l', h6, rfl⟩
    · rw [← labSame_ers h5]; exact hl
  obtain ⟨p, h1, h2⟩ := this
  exact hN _ _ (reachE_trans h2 (noneStar_run (noneStar_ers (h.last _ h1)) _))

theorem ersIn_filter {X : Cfg α → Cfg α → Prop} {N : NFA σ} (fe ft) (h : ErsIn X N) : ErsIn X (N.filterEdges fe ft) :=
  ersIn_sim (isSimL_sub (α := α) filterEdges_length fun _ _ _ he => (hasEdge_filterEdges.mp he).1) h

theorem ersIn_stable (X : Cfg α → Cfg α → Prop) : Stable α (ErsIn (σ := σ) X) :=
  stable_of_simL (fun _ h hN => ersIn_sim h hN) fun fe ft h => ersIn_filter fe ft h

/-- Walks that ignore start anchors. -/
theorem walk_ers {N : NFA σ} {q ls p off} {rest : List α} (h : EWalk N q ls p)
    (hg : EpsType.endAnchor ∈ ls → rest = []) (caps : Caps) :
    ReachE N.ers.HasEdge (q, (⟨off, rest, caps⟩ : Cfg α)) (p, ⟨off, rest, caps ++ walkEvents off ls⟩) := by
  induction h with
  | refl => simpa [walkEvents] using reachE_refl
  | @tail ls p1 e p2 h1 h2 ih =>
    have := ih (fun he => hg (by simp [he]))
    refine reachE_trans this (reachE_step (l := .eps e.ers) (hasEdge_ers.mpr ⟨_, h2, rfl⟩) (show epsStep e.ers _ = some _ from ?_))
    cases e with
    | none => simp [EpsType.ers, epsStep, walkEvents]
    | startAnchor => simp [EpsType.ers, epsStep, walkEvents]
    | endAnchor => simp [EpsType.ers, epsStep, walkEvents, hg]
    | startCapture g => simp [EpsType.ers, epsStep, walkEvents, Caps.setStart]
    | endCapture g => simp [EpsType.ers, epsStep, walkEvents, Caps.setEnd]

/-- Ordinary runs are among them. -/
theorem reach_ers {N : NFA σ} {p q} {d d' : Cfg α} (h : ReachE N.HasEdge (p, d) (q, d')) :
    ReachE N.ers.HasEdge (p, d) (q, d') := by
  refine reachE_tail_induction (P := fun q d' => ReachE N.ers.HasEdge (p, d) (q, d')) h reachE_refl ?_
  intro q1 d1 l q2 d2 _ ih he hl
  refine reachE_trans ih (reachE_step (l := l.ers) (hasEdge_ers.mpr ⟨l, he, rfl⟩) ?_)
  cases l with
  | sym a => exact hl
  | eps e =>
    cases e with
    | startAnchor =>
      have : (if d1.off = 0 then some d1 else none) = some d2 := hl
      split at this
      · exact this
      · simp at this
    | _ => exact hl
end

/-! ### The automaton of a tree -/

mutual
/-- A start anchor becomes an empty sequence. -/
def Tree.dropStart : Tree → Tree
  | .empty => .empty
  | .symbol a => .symbol a
  | .union ts => .union (dropStarts ts)
  | .capture t g => .capture t.dropStart g
  | .concat ts => .concat (dropStarts ts)
  | .rep t n => .rep t.dropStart n
  | .upTo t n l => .upTo t.dropStart n l
  | .star t l => .star t.dropStart l
  | .start => .concat []
  | .end_ => .end_
  | .never => .never
/-- … in a list. -/
def dropStarts : List Tree → List Tree
  | [] => []
  | t :: ts => t.dropStart :: dropStarts ts
end

theorem ers_append (A B : NFA σ) : NFA.ers (A ++ B) = A.ers ++ B.ers := by simp [NFA.ers]

theorem ers_cons (s : State σ) (B : NFA σ) : NFA.ers (s :: B) = s.ers :: B.ers := rfl

theorem ers_new : NFA.ers ([State.new] : NFA σ) = [State.new] := rfl

theorem ers_shift (A : NFA σ) (k : Nat) : NFA.ers (A.shift k) = A.ers.shift k := by
  simp only [NFA.ers, NFA.shift, List.map_map]
  congr 1
  funext s
  simp [State.ers, State.addOffset, Eps.ers, Eps.addOffset, Function.comp_def]

theorem ers_pushLast (e : Eps) (he : e.ers = e) : ∀ A : NFA σ, NFA.ers (A.pushLast e) = A.ers.pushLast e
  | [] => rfl
  | [s] => by simp [NFA.pushLast, NFA.ers, State.ers, he]
  | s :: t :: ss => by
    have := ers_pushLast e he (t :: ss)
    simp only [NFA.pushLast, ers_cons] at this ⊢
    rw [this]

theorem ers_unionBody (fin : Nat) : ∀ (ns : List (NFA σ)) (off : Nat),
    NFA.ers (unionBody off fin ns) = unionBody off fin (ns.map NFA.ers)
  | [], _ => rfl
  | n :: ns, off => by
    simp only [unionBody, List.map_cons, ers_append, ers_length, ers_unionBody fin ns]
    rw [ers_pushLast _ rfl, ers_shift]

theorem ers_unionStarts : ∀ (ns : List (NFA σ)) (off : Nat),
    (unionStarts off ns).map Eps.ers = unionStarts off (ns.map NFA.ers)
  | [], _ => rfl
  | n :: ns, off => by
    simp only [unionStarts, List.map_cons, ers_length, ers_unionStarts ns]
    rfl

theorem ers_lengths (ns : List (NFA σ)) : (ns.map NFA.ers).map List.length = ns.map List.length := by
  rw [List.map_map]
  exact List.map_congr_left fun n _ => ers_length n

theorem ers_union (ns : List (NFA σ)) : NFA.ers (nfaUnion ns) = nfaUnion (ns.map NFA.ers) := by
  simp only [nfaUnion, ers_append, ers_cons, List.cons_append, ers_unionBody, ers_lengths, ers_new]
  have : State.ers (⟨[], unionStarts 1 ns⟩ : State σ) = ⟨[], unionStarts 1 (ns.map NFA.ers)⟩ := by
    simp only [State.ers, ers_unionStarts]
  rw [this]
  rfl

theorem ers_concatBody : ∀ (ns : List (NFA σ)) (off : Nat),
    NFA.ers (concatBody off ns) = concatBody off (ns.map NFA.ers)
  | [], _ => rfl
  | n :: ns, off => by
    simp only [concatBody, List.map_cons, ers_append, ers_length, ers_concatBody ns]
    rw [ers_pushLast _ rfl, ers_shift]

theorem ers_concat (ns : List (NFA σ)) : NFA.ers (nfaConcat ns) = nfaConcat (ns.map NFA.ers) := by
  simp only [nfaConcat, ers_append, ers_cons, List.cons_append, ers_concatBody, ers_new]
  rfl

theorem ers_capture (n : NFA σ) (g : Nat) : NFA.ers (nfaCapture n g) = nfaCapture n.ers g := by
  simp only [nfaCapture, ers_append, ers_cons, List.cons_append, ers_new, ers_length]
  rw [ers_pushLast _ rfl, ers_shift]
  rfl

theorem ers_uptoBody (n : NFA σ) (fin : Nat) (l : Bool) : ∀ (k off : Nat),
    NFA.ers (uptoBody n fin l off k) = uptoBody n.ers fin l off k
  | 0, off => by
    simp only [uptoBody, ers_append, ers_new, ers_length]
    rw [ers_pushLast _ rfl, ers_shift]
  | k + 1, off => by
    simp only [uptoBody, ers_append, ers_cons, ers_length, ers_uptoBody n fin l k]
    rw [ers_pushLast _ rfl, ers_shift]
    cases l <;> rfl

theorem ers_upto (n : NFA σ) (k : Nat) (l : Bool) : NFA.ers (nfaUpto n k l) = nfaUpto n.ers k l := by
  simp only [nfaUpto, ers_cons, ers_length, ers_uptoBody]
  cases l <;> rfl

theorem ers_star (n : NFA σ) (l : Bool) : NFA.ers (nfaStar n l) = nfaStar n.ers l := by
  simp only [nfaStar, ers_append, ers_cons, List.cons_append, ers_new, ers_length]
  rw [ers_pushLast _ rfl, ers_shift]
  cases l <;> rfl

mutual
theorem build_ers : (t : Tree) → NFA.ers (build t) = build t.dropStart
  | .empty => rfl
  | .symbol a => rfl
  | .union ts => by rw [build, ers_union, buildList_ers ts, Tree.dropStart, build]
  | .capture t g => by rw [build, ers_capture, build_ers t, Tree.dropStart, build]
  | .concat ts => by rw [build, ers_concat, buildList_ers ts, Tree.dropStart, build]
  | .rep t n => by
    rw [build, nfaRepeat, ers_concat, List.map_replicate, build_ers t, Tree.dropStart, build, nfaRepeat]
  | .upTo t n l => by rw [build, ers_upto, build_ers t, Tree.dropStart, build]
  | .star t l => by rw [build, ers_star, build_ers t, Tree.dropStart, build]
  | .start => by rw [Tree.dropStart, build, build]; rfl
  | .end_ => rfl
  | .never => rfl
theorem buildList_ers : (ts : List Tree) → (buildList ts).map NFA.ers = buildList (dropStarts ts)
  | [] => rfl
  | t :: ts => by rw [buildList, List.map_cons, build_ers t, buildList_ers ts, dropStarts, buildList]
end

theorem ers_anyLoop (a : σ) : NFA.ers (anyLoop a) = anyLoop a := by
  unfold anyLoop
  rw [ers_star]
  rfl

theorem ers_withLoops (N : NFA σ) (a : σ) : NFA.ers (N.withLoops a true true) = N.ers.withLoops a true true := by
  simp only [NFA.withLoops, if_true, ers_concat, List.map_cons, List.map_nil, ers_anyLoop]

/-- The character automaton, if start anchors are ignored, has runs of the tree without them only. -/
theorem ers_char {t : Tree} (ht : t.StarOk) {N : NFA Atom} (h1 : workingNew t = .ok N) (hN : N ≠ []) :
    ErsIn (fun d d' => ∃ d1 d2, Skip Atom d d1 ∧ t.dropStart.Run d1 d2 ∧ Skip Atom d2 d') N := by
  have hb := build_shape _ ht
  have hc1 : Shape (build t).cleanStartAnchors := filterEdges_shape hb
  have hc : Shape (build t).cleanStartAnchors.cleanEndAnchors := filterEdges_shape hc1
  have hl := withLoops_shape hc anyAtom true true
  rw [workingNew, newLoopOpt] at h1
  refine (ersIn_stable _).finish hl (ersIn_filter _ _ ?_) h1 hN
  intro d d' hr
  have ha : (NFA.ers ((build t).cleanStartAnchors.cleanEndAnchors.withLoops anyAtom true true)).Acc d d' := by
    refine ⟨(ers_good hl.good).ne, ?_⟩
    rw [ers_length]; exact hr
  rw [ers_withLoops, withLoops_acc_good (ers_good hc.good) anyAtom_check] at ha
  obtain ⟨d1, d2, h3, h4, h5⟩ := ha
  refine ⟨d1, d2, h3, ?_, h5⟩
  have := h4.2
  rw [ers_length] at this
  have h6 : ErsIn (fun d d' => t.dropStart.Run d d') (build t) := by
    intro d d' hr
    rw [← build_acc, ← build_ers]
    exact ⟨(ers_good hb.good).ne, by rw [ers_length]; exact hr⟩
  exact ersIn_filter _ _ (ersIn_filter _ _ h6) _ _ this

/-! ### The byte automaton -/

theorem ers_buildSpec {U : Utf8Seqs} {N : NFA Atom} {M ms ss : NFA U8Atom} {I} (h : BuildSpec U N M ms ss I) :
    BuildSpec U N.ers M.ers ms.ers ss I := by
  have hsym : ∀ {τ : Type} {A : NFA τ} {q a y}, A.ers.HasEdge q (.sym a) y ↔ A.HasEdge q (.sym a) y := by
    intro τ A q a y
    rw [hasEdge_ers]
    constructor
    · rintro ⟨l0, h1, h2⟩
      cases l0 with
      | sym b => simp only [Lab.ers, Lab.sym.injEq] at h2; subst h2; exact h1
      | eps e => simp [Lab.ers] at h2
    · exact fun h => ⟨_, h, rfl⟩
  have heps : ∀ {τ : Type} {A : NFA τ} {q e y}, A.ers.HasEdge q (.eps e) y ↔ ∃ f, A.HasEdge q (.eps f) y ∧ e = f.ers := by
    intro τ A q e y
    rw [hasEdge_ers]
    constructor
    · rintro ⟨l0, h1, h2⟩
      cases l0 with
      | sym b => simp [Lab.ers] at h2
      | eps f => simp only [Lab.ers, Lab.eps.injEq] at h2; exact ⟨f, h1, h2⟩
    · rintro ⟨f, h1, rfl⟩; exact ⟨_, h1, rfl⟩
  have hsub : ∀ q l y, SubE N.length ss q l y → ∃ a, l = .sym a := by
    rintro q l y ⟨j, _, h1⟩
    cases l with
    | sym a => exact ⟨a, rfl⟩
    | eps e =>
      obtain ⟨st, h2, h3⟩ := hasEdge_iff.mp h1
      have := h.st.subs.noeps st (List.mem_of_getElem? h2)
      simp [State.Has, this] at h3
  refine ⟨⟨?_, ?_, ?_, ?_, ?_⟩, ?_, ?_⟩
  · rw [ers_length, ers_length]; exact h.st.len
  · intro q e q'
    rw [heps, heps]
    simp only [h.st.eps]
  · rw [ers_length]
    simp only [hsym]
    exact h.st.subs
  · intro q b y
    simp only [hsym]
    exact h.st.root q b y
  · intro q a d
    rw [ers_length]
    simp only [hsym]
    exact h.st.complete q a d
  · rw [ers_length, ers_length]; exact h.len
  · intro q l y
    rw [ers_length]
    constructor
    · intro he
      obtain ⟨l0, h1, rfl⟩ := hasEdge_ers.mp he
      rcases (h.edge _ _ _).mp h1 with h2 | ⟨h2, rfl, h3⟩ | h2
      · exact Or.inl (hasEdge_ers.mpr ⟨_, h2, rfl⟩)
      · exact Or.inr (Or.inl ⟨h2, rfl, h3⟩)
      · obtain ⟨a, rfl⟩ := hsub _ _ _ h2
        exact Or.inr (Or.inr h2)
    · rintro (h1 | ⟨h1, rfl, h2⟩ | h1)
      · obtain ⟨l0, h2, rfl⟩ := hasEdge_ers.mp h1
        exact hasEdge_ers.mpr ⟨l0, (h.edge _ _ _).mpr (Or.inl h2), rfl⟩
      · exact hasEdge_ers.mpr ⟨.eps .none, (h.edge _ _ _).mpr (Or.inr (Or.inl ⟨h1, rfl, h2⟩)), rfl⟩
      · obtain ⟨a, rfl⟩ := hsub _ _ _ h1
        exact hasEdge_ers.mpr ⟨.sym a, (h.edge _ _ _).mpr (Or.inr (Or.inr h1)), rfl⟩

theorem ers_byte (U : Utf8Seqs) {N : NFA Atom} {M : NFA U8Atom} {X : Cfg Char → Cfg Char → Prop} (hX : ErsIn X N)
    (hN : Ready N) (h2 : u8New U.seqs N = .ok M) (hM : M ≠ []) :
    ErsIn (fun d d' => ∀ c, d = encCfg c → ∃ c', d' = encCfg c' ∧ X c c') M := by
  obtain ⟨B, ms, ss, I, h3, h4⟩ := u8Build_spec U hN.ne
  rw [u8New, u8NewLoopOpt, h3] at h2
  have h5 : B.finish = .ok M := h2
  have hs := u8Build_shape hN.wf hN.ne hN.rank hN.mix hN.sink h4
  refine (ersIn_stable _).finish hs (ersIn_filter _ _ ?_) h5 hM
  rintro d d' hr c rfl
  have hg : Good N.ers := ers_good ⟨hN.ne, hN.wf⟩
  obtain ⟨c', h6, h7⟩ := (u8Build_acc hg.wf hg.ne (ers_buildSpec h4) c d').mp
    ⟨(ers_good hs.good).ne, by rw [ers_length]; exact hr⟩
  refine ⟨c', h6, hX _ _ ?_⟩
  have := h7.2
  rwa [ers_length] at this

/-! ### Patterns -/

namespace Tree

/-- Fewer runs. -/
def RLe (t u : Tree) : Prop := ∀ d d', t.Run d d' → u.Run d d'

/-- Runs of a sequence. -/
inductive RLes : List Tree → List Tree → Prop
  | nil : RLes [] []
  | cons {t u ts us} : RLe t u → RLes ts us → RLes (t :: ts) (u :: us)

theorem rle_rep {t u : Tree} (h : RLe t u) : ∀ n, RLe (.rep t n) (.rep u n)
  | 0 => by
    intro d d' hr
    cases hr with
    | repOne h1 => exact .repOne (h _ _ h1)
  | n + 1 => by
    intro d d' hr
    cases hr with
    | repSucc h1 h2 => exact .repSucc (h _ _ h1) (rle_rep h n _ _ h2)

theorem rle_upTo {t u : Tree} (h : RLe t u) (l : Bool) : ∀ n, RLe (.upTo t n l) (.upTo u n l)
  | 0 => by
    intro d d' hr
    cases hr with
    | upToNone => exact .upToNone
    | upToLast h1 => exact .upToLast (h _ _ h1)
  | n + 1 => by
    intro d d' hr
    cases hr with
    | upToNone => exact .upToNone
    | upToSucc h1 h2 => exact .upToSucc (h _ _ h1) (rle_upTo h l n _ _ h2)

theorem rle_star {t u : Tree} (h : RLe t u) (l : Bool) : RLe (.star t l) (.star u l) := by
  intro d d' hr
  generalize hs : Tree.star t l = s at hr
  induction hr with
  | starNil => cases hs; exact .starNil
  | starCons h1 h2 _ ih2 => cases hs; exact .starCons (h _ _ h1) (ih2 rfl)
  | _ => cases hs

theorem rle_concat {ts us : List Tree} (h : RLes ts us) : RLe (.concat ts) (.concat us) := by
  induction h with
  | nil => exact fun _ _ h => h
  | cons h1 _ ih =>
    intro d d' hr
    cases hr with
    | concatCons h3 h4 => exact .concatCons (h1 _ _ h3) (ih _ _ h4)

theorem rle_capture {t u : Tree} (h : RLe t u) (g : Nat) : RLe (.capture t g) (.capture u g) := by
  intro d d' hr
  cases hr with
  | capture h1 => exact .capture (h _ _ h1)

theorem rle_union {ts us : List Tree} (h : RLes ts us) : RLe (.union ts) (.union us) := by
  intro d d' hr
  cases hr with
  | @union _ t _ _ hm h1 =>
    suffices ∃ u ∈ us, u.Run d d' by
      obtain ⟨u, h2, h3⟩ := this
      exact .union h2 h3
    induction h with
    | nil => simp at hm
    | cons h2 _ ih =>
      rcases List.mem_cons.mp hm with rfl | hm
      · exact ⟨_, by simp, h2 _ _ h1⟩
      · obtain ⟨u, h3, h4⟩ := ih hm
        exact ⟨u, by simp [h3], h4⟩

/-- Not a sequence. -/
def NotSeq (t : Tree) : Prop := ∀ ts, t ≠ .concat ts

theorem concat'_of {t u : Tree} (h : t.NotSeq) : t.concat' u = .concat [t, u] := by
  unfold concat'
  split
  · rename_i c; exact absurd rfl (h c)
  · rfl

theorem notSeq_repeat (t : Tree) (n : Nat) : (t.repeat' n).NotSeq := by
  cases n <;> intro ts h <;> simp [repeat'] at h

theorem rle_repeat {t u : Tree} (h : RLe t u) (n : Nat) : RLe (t.repeat' n) (u.repeat' n) := by
  cases n with
  | zero => exact fun _ _ h => h
  | succ n => exact rle_rep h n

theorem rle_upto {t u : Tree} (h : RLe t u) (n : Nat) (l : Bool) : RLe (t.upto' n l) (u.upto' n l) := by
  cases n with
  | zero => exact fun _ _ h => h
  | succ n => exact rle_upTo h l n

theorem rle_concat' {t u t' u' : Tree} (h : RLe t u) (h' : RLe t' u') (ht : t.NotSeq) (hu : u.NotSeq) :
    RLe (t.concat' t') (u.concat' u') := by
  rw [concat'_of ht, concat'_of hu]
  exact rle_concat (.cons h (.cons h' .nil))

theorem rle_applyQuantifier {t u : Tree} (h : RLe t u) (ht : t.NotSeq) (hu : u.NotSeq) (q : Quantifier) :
    RLe (t.applyQuantifier q) (u.applyQuantifier q) := by
  obtain ⟨q, alt⟩ := q
  unfold applyQuantifier
  cases q with
  | star => exact rle_star h _
  | plus => exact rle_concat' h (rle_star h _) ht hu
  | question => exact rle_upto h _ _
  | multiple n => exact rle_repeat h _
  | range n m =>
    cases m with
    | none => exact rle_concat' (rle_repeat h _) (rle_star h _) (notSeq_repeat _ _) (notSeq_repeat _ _)
    | some m =>
      simp only
      split
      · exact fun _ _ h => h
      · split
        · exact rle_repeat h _
        · exact rle_concat' (rle_repeat h _) (rle_upto h _ _) (notSeq_repeat _ _) (notSeq_repeat _ _)

theorem drop_repeat (t : Tree) (n : Nat) : (t.repeat' n).dropStart = t.dropStart.repeat' n := by
  cases n <;> simp [repeat', Tree.dropStart]

theorem drop_upto (t : Tree) (n : Nat) (l : Bool) : (t.upto' n l).dropStart = t.dropStart.upto' n l := by
  cases n <;> simp [upto', Tree.dropStart]

theorem drop_concat' {t u : Tree} (ht : t.NotSeq) (hd : t.dropStart.NotSeq) :
    (t.concat' u).dropStart = t.dropStart.concat' u.dropStart := by
  rw [concat'_of ht, concat'_of hd]
  simp [Tree.dropStart, dropStarts]

theorem drop_applyQuantifier {t : Tree} (ht : t.NotSeq) (hd : t.dropStart.NotSeq) (q : Quantifier) :
    (t.applyQuantifier q).dropStart = t.dropStart.applyQuantifier q := by
  obtain ⟨q, alt⟩ := q
  unfold applyQuantifier
  cases q with
  | star => simp [Tree.dropStart]
  | plus => simp only; rw [drop_concat' ht hd]; simp [Tree.dropStart]
  | question => exact drop_upto _ _ _
  | multiple n => exact drop_repeat _ _
  | range n m =>
    cases m with
    | none =>
      simp only
      rw [drop_concat' (notSeq_repeat _ _) (by rw [drop_repeat]; exact notSeq_repeat _ _), drop_repeat]
      simp [Tree.dropStart]
    | some m =>
      simp only
      split
      · rfl
      · split
        · exact drop_repeat _ _
        · rw [drop_concat' (notSeq_repeat _ _) (by rw [drop_repeat]; exact notSeq_repeat _ _), drop_repeat, drop_upto]

theorem notSeq_expr (e : EREExpr) (k : Nat) : (fromExpr e k).1.NotSeq ∧ (fromExpr e k).1.dropStart.NotSeq := by
  cases e with
  | atom a => constructor <;> intro ts h <;> simp [fromExpr, Tree.dropStart] at h
  | sub e => constructor <;> intro ts h <;> simp [fromExpr, Tree.dropStart] at h

mutual
theorem drop_sub : (e : ERE) → ∀ k, RLe (fromSubERE e k).1.dropStart (fromSubERE e.dropStart k).1 ∧
    (fromSubERE e.dropStart k).2 = (fromSubERE e k).2
  | .mk bs => by
    intro k
    rw [ERE.dropStart, fromSubERE, fromSubERE]
    simp only [Tree.dropStart]
    exact ⟨rle_union (drop_branches bs k).1, (drop_branches bs k).2⟩
theorem drop_branches : (bs : List EREBranch) → ∀ k, RLes (dropStarts (fromBranches bs k).1)
    (fromBranches (branchesDropStart bs) k).1 ∧ (fromBranches (branchesDropStart bs) k).2 = (fromBranches bs k).2
  | [] => by intro k; simp only [branchesDropStart, fromBranches, dropStarts]; exact ⟨.nil, trivial⟩
  | b :: bs => by
    intro k
    obtain ⟨h1, h2⟩ := drop_branch b k
    obtain ⟨h3, h4⟩ := drop_branches bs (fromBranch b k).2
    simp only [branchesDropStart, fromBranches, dropStarts, h2]
    exact ⟨.cons h1 h3, h4⟩
theorem drop_branch : (b : EREBranch) → ∀ k, RLe (fromBranch b k).1.dropStart (fromBranch b.dropStart k).1 ∧
    (fromBranch b.dropStart k).2 = (fromBranch b k).2
  | .mk ps => by
    intro k
    rw [EREBranch.dropStart, fromBranch, fromBranch]
    simp only [Tree.dropStart]
    exact drop_parts ps k
theorem drop_parts : (ps : List EREPart) → ∀ k, RLe (.concat (dropStarts (fromParts ps k).1))
    (.concat (fromParts (partsDropStart ps) k).1) ∧ (fromParts (partsDropStart ps) k).2 = (fromParts ps k).2
  | [] => by intro k; simp only [partsDropStart, fromParts, dropStarts]; exact ⟨fun _ _ h => h, trivial⟩
  | p :: ps => by
    intro k
    have hcons : ∀ p', p.dropStart = [p'] → RLe (fromPart p k).1.dropStart (fromPart p' k).1 →
        (fromPart p' k).2 = (fromPart p k).2 →
        RLe (.concat (dropStarts (fromParts (p :: ps) k).1)) (.concat (fromParts (partsDropStart (p :: ps)) k).1) ∧
          (fromParts (partsDropStart (p :: ps)) k).2 = (fromParts (p :: ps) k).2 := by
      intro p' hp h1 h2
      obtain ⟨h3, h4⟩ := drop_parts ps (fromPart p k).2
      simp only [partsDropStart, fromParts, dropStarts, hp, List.singleton_append, h2]
      refine ⟨fun d d' hr => ?_, h4⟩
      cases hr with
      | concatCons h5 h6 => exact .concatCons (h1 _ _ h5) (h3 _ _ h6)
    cases p with
    | single e =>
      obtain ⟨h1, h2⟩ := drop_expr e k
      exact hcons _ (by rw [EREPart.dropStart]) (by rw [fromPart, fromPart]; exact h1) (by rw [fromPart, fromPart]; exact h2)
    | quantified e q =>
      obtain ⟨h1, h2⟩ := drop_expr e k
      refine hcons _ (by rw [EREPart.dropStart]) ?_ ?_
      · rw [fromPart, fromPart]
        simp only
        rw [drop_applyQuantifier (notSeq_expr e k).1 (notSeq_expr e k).2]
        exact rle_applyQuantifier h1 (notSeq_expr e k).2 (notSeq_expr _ k).1 q
      · rw [fromPart, fromPart]; exact h2
    | end_ => exact hcons _ (by rw [EREPart.dropStart]) (by rw [fromPart, Tree.dropStart]; exact fun _ _ h => h) rfl
    | start =>
      obtain ⟨h3, h4⟩ := drop_parts ps k
      simp only [partsDropStart, EREPart.dropStart, List.nil_append, fromParts, fromPart, dropStarts, Tree.dropStart]
      refine ⟨fun d d' hr => ?_, h4⟩
      cases hr with
      | concatCons h5 h6 => cases h5; exact h3 _ _ h6
theorem drop_expr : (e : EREExpr) → ∀ k, RLe (fromExpr e k).1.dropStart (fromExpr e.dropStart k).1 ∧
    (fromExpr e.dropStart k).2 = (fromExpr e k).2
  | .atom a => by
    intro k
    simp only [EREExpr.dropStart, fromExpr, Tree.dropStart]
    exact ⟨fun _ _ h => h, trivial⟩
  | .sub e => by
    intro k
    obtain ⟨h1, h2⟩ := drop_sub e (k + 1)
    simp only [EREExpr.dropStart, fromExpr, Tree.dropStart]
    exact ⟨rle_capture h1 _, h2⟩
end

theorem drop_fromERE (e : ERE) : RLe (fromERE e).1.dropStart (fromERE e.dropStart).1 := by
  simp only [fromERE, Tree.dropStart]
  exact rle_capture (drop_sub e 1).1 0

end Tree

/-! ### The DFA engine -/

/-- Skips around a run of the whole pattern. -/
theorem skip_run {t : Tree} {text : List Char} {c' : Cfg Char}
    (h : ∃ d1 d2, Skip Atom ⟨0, text, []⟩ d1 ∧ t.Run d1 d2 ∧ Skip Atom d2 c') :
    ∃ pre mid post, text = pre ++ mid ++ post ∧ t.Run ⟨byteLen pre, mid ++ post, []⟩ ⟨byteLen (pre ++ mid), post, c'.caps⟩ := by
  obtain ⟨⟨o1, r1, c1⟩, ⟨o2, r2, c2⟩, ⟨pre, e1, e2, e3⟩, h2, ⟨post, e4, e5, e6⟩⟩ := h
  simp only at e1 e2 e3 e4 e5 e6
  subst e3
  have hb := build_acc t ⟨o1, r1, []⟩ ⟨o2, r2, c2⟩
  obtain ⟨mid, e7, e8⟩ := reach_pos (hb.mpr h2).2
  simp only at e7 e8
  refine ⟨pre, mid, r2, by rw [e1, e7, List.append_assoc], ?_⟩
  rw [← e7, e6]
  rw [show byteLen pre = o1 by rw [e2, Nat.zero_add]; rfl,
    show byteLen (pre ++ mid) = o2 by rw [e8, e2, Nat.zero_add]; simp [byteLen, unitLen]; rfl]
  exact h2

/-- Groups 0 as in `grpC`; start anchors are inside of it. -/
def ancC (l : Lab σ) (x y : Bool) : Prop := grpC 0 l x y ∧ (l = .eps .startAnchor → x = true)

theorem ancC_rule [Sym σ α] : LabRule α (ancC (σ := σ)) where
  none := fun h => (grpC_rule (α := α) 0).none h.1
  inj := fun hs h h' => (grpC_rule (α := α) 0).inj hs h.1 h'.1

theorem ancC_none (x : Bool) : ancC (σ := σ) (.eps .none) x x := ⟨rfl, by simp⟩

theorem build_anc (e : ERE) : LabG ancC (build (Tree.fromERE e).1) false false := by
  rw [Tree.fromERE, build]
  refine labG_capture (c := true) (d := true) (build_good _) (labG_const fun p l q he => ?_) _ ?_ ?_
  · cases l with
    | sym a => exact ⟨rfl, by simp⟩
    | eps f =>
      have hm : (Tree.fromSubERE e 1).1.MarkQ (NotGroup 0) :=
        markQ_fromSubERE e 1 (by simp [NotGroup]) (by simp [NotGroup])
          fun j hj _ => ⟨by simp [NotGroup]; omega, by simp [NotGroup]; omega⟩
      refine ⟨?_, fun _ => rfl⟩
      rcases (build_epsQ _ hm).edge he with rfl | ⟨h1, h2⟩
      · rfl
      · exact (grpC_other h1 h2).mpr rfl
  · simp [ancC, grpC]
  · simp [ancC, grpC]

theorem anc_byte (U : Utf8Seqs) (e : ERE) {N : NFA Atom} {M : NFA U8Atom}
    (h1 : workingNew (Tree.fromERE e).1 = .ok N) (hN : Ready N)
    (h2 : u8New U.seqs N = .ok M) (hM : M ≠ []) : LabG ancC M false false := by
  have hNs : LabG ancC N false false := by
    have hb := build_shape _ (starOk_fromERE e)
    have hc1 : Shape (build (Tree.fromERE e).1).cleanStartAnchors := filterEdges_shape hb
    have hc : Shape (build (Tree.fromERE e).1).cleanStartAnchors.cleanEndAnchors := filterEdges_shape hc1
    have hl := withLoops_shape hc anyAtom true true
    have h0 : LabG ancC (build (Tree.fromERE e).1).cleanStartAnchors.cleanEndAnchors false false :=
      labG_filter (labG_filter (build_anc e) _ _) _ _
    have hL := labG_withLoops ancC_none hc.good h0 anyAtom ⟨rfl, by simp⟩ ⟨rfl, by simp⟩
    rw [workingNew, newLoopOpt] at h1
    exact (labG_stable (α := Char) ancC_rule false false).finish hl (labG_filter hL _ _) h1 hN.ne
  obtain ⟨B, ms, ss, I, h3, h4⟩ := u8Build_spec U hN.ne
  rw [u8New, u8NewLoopOpt, h3] at h2
  have h5 : B.finish = .ok M := h2
  refine (labG_stable (α := UInt8) ancC_rule false false).finish
    (u8Build_shape hN.wf hN.ne hN.rank hN.mix hN.sink h4) (labG_filter ?_ _ _) h5 hM
  refine labG_u8Build U (fun y _ => y) hN.wf hN.ne h4 hNs ?_ (ancC_none _) (fun _ _ _ _ h _ => ⟨h.1, by simp⟩)
    (fun _ _ _ _ _ h _ _ => ⟨h.1, by simp⟩) (fun _ _ _ _ _ _ _ _ _ => ⟨rfl, by simp⟩)
    (fun _ _ _ _ _ _ _ => ⟨rfl, by simp⟩)
  intro f x y h
  refine ⟨?_, fun hf => h.2 (by simpa using hf)⟩
  have := h.1
  cases f <;> exact this

/-- After a start anchor the end of group 0 is still to come. -/
theorem walk_anc {M : NFA U8Atom} {A : Nat → Bool} (hA : GOkL ancC A 0 M) {q ls p} (h : EWalk M q ls p)
    (hs : EpsType.startAnchor ∈ ls) : A p = true ∨ EpsType.endCapture 0 ∈ ls := by
  induction h with
  | refl => simp at hs
  | @tail ls p e r _ he ih =>
    have ha := hA _ _ _ he
    rw [Nat.zero_add] at ha
    by_cases h1 : e = .startAnchor
    · subst h1
      have h2 : A p = A r := ha.1
      exact Or.inl (h2.symm.trans (ha.2 rfl))
    · have h2 : EpsType.startAnchor ∈ ls := by
        rcases List.mem_append.mp hs with h | h
        · exact h
        · simp at h; exact absurd h.symm h1
      rcases ih h2 with h3 | h3
      · by_cases h4 : e = .endCapture 0
        · exact Or.inr (by simp [h4])
        · by_cases h5 : e = .startCapture 0
          · subst h5
            have : A p = false ∧ A r = true := by simpa [ancC, grpC] using ha
            rw [this.1] at h3; simp at h3
          · have := (grpC_other h5 h4).mp ha.1
            exact Or.inl (this ▸ h3)
      · exact Or.inr (by simp [h3])

/-- Every pattern: the DFA engine finds every match; what it finds is a match, or a match of the pattern without `^`
that ends at the end of the text. -/
theorem dfa_engine_bounds (U : Utf8Seqs) (e : ERE) {N : NFA Atom} {M : NFA U8Atom}
    (h1 : workingNew (Tree.fromERE e).1 = .ok N) (h2 : u8New U.seqs N = .ok M) (hne : M ≠ []) :
      ∀ bound, TDFA.fromNFA M bound = .ok none ∨
        ∃ T D, TDFA.fromNFA M bound = .ok (some T) ∧ DFA.fromTagged T = .ok (some D) ∧
          ∀ text, (e.MatchesIn text → D.test (encode text) = true) ∧
            ((T.exec text (encode text) = .ok none ∧ ¬ e.MatchesIn text) ∨
              ∃ r S, T.exec text (encode text) = .ok (some r) ∧
                (e.Captures text S ∨ e.dropStart.Captures text S ∧ ∃ i, lastSpan S 0 = some (i, byteLen text)) ∧
                r.length = T.numCaptureGroups ∧ ∀ g, (r[g]?).join = lastSpan S g) := by
  obtain ⟨hN, hM, h3, h4⟩ := pipeline_ne U e h1 h2 hne
  intro bound
  rcases fromNFA_spec hM.wf hM.ne bound with ⟨g1, _⟩ | ⟨T, g1, _, g2⟩
  · exact Or.inl g1
  obtain ⟨D, g3, g4, _⟩ := fromTagged_spec g2
  have hers := ers_byte U (ers_char (starOk_fromERE e) h1 hN.ne) hN h2 hne
  have hrun : ∀ text off rest caps, ReachE M.ers.HasEdge (0, ⟨0, encode text, []⟩) (M.length - 1, ⟨off, rest, caps⟩) →
      ∃ pre mid post, text = pre ++ mid ++ post ∧
        (Tree.fromERE e.dropStart).1.Run ⟨byteLen pre, mid ++ post, []⟩ ⟨byteLen (pre ++ mid), post, caps⟩ := by
    intro text off rest caps hr
    obtain ⟨c', h5, h6⟩ := hers _ _ hr ⟨0, text, []⟩ rfl
    obtain ⟨pre, mid, post, h7, h8⟩ := skip_run h6
    refine ⟨pre, mid, post, h7, ?_⟩
    have : caps = c'.caps := congrArg Cfg.caps h5
    rw [this]
    exact Tree.drop_fromERE e _ _ h8
  have hlow : ∀ text, e.MatchesIn text → LaxAcc M (encode text) := by
    intro text hm
    obtain ⟨caps, hc⟩ := (exists_run_iff e text).mpr hm
    have := (acc_enc h4 text _ caps).mpr ((h3 text caps).mpr hc)
    refine laxAcc_of_at ⟨caps, ?_⟩
    rw [unitLen_encode]
    exact this.2
  refine Or.inr ⟨T, D, g1, g3, fun text => ⟨fun hm => ?_, ?_⟩⟩
  · rw [g4.test]
    exact (plainTest_lax g2 _).2 (hlow text hm)
  · have hA := dat_start g2 (encode text)
    unfold TDFA.exec
    rcases tdfaExecLoop g2 (encode text) (encode text) [] 0 .start T.start [0] _ rfl rfl rfl hA
      (rows_start _ _) with ⟨k1, k2⟩ | ⟨slots, k1, k2, _, q, caps, ls, k4, k5, rfl, k6⟩
    · rw [k1]
      exact Or.inl ⟨rfl, fun h => k2 (hlow text h)⟩
    · rw [k1]
      by_cases hs : EpsType.startAnchor ∈ ls
      · obtain ⟨S, h5, h6⟩ := run_captures (hrun text _ _ _ (reachE_trans (reach_ers k4) (walk_ers k5 (fun _ => rfl) caps)))
        obtain ⟨r, m1, m2, m3⟩ := slots_captures h5 h6 k6
        simp only
        rw [m1]
        refine Or.inr ⟨r, S, rfl, Or.inr ⟨h5, ?_⟩, m2, m3⟩
        obtain ⟨A, _, a2, a3⟩ := anc_byte U e h1 hN h2 hne
        have hend : EpsType.endCapture 0 ∈ ls := by
          rcases walk_anc a3 k5 hs with h | h
          · rw [a2] at h; simp at h
          · exact h
        have he := (reads_last h6 0).2
        rw [end?_append, walkEvents_end, if_pos hend, unitLen_encode] at he
        cases hl : lastSpan S 0 with
        | none => rw [hl] at he; simp at he
        | some x =>
          rw [hl] at he
          simp only [Option.map_some, Option.some_or, Option.some.injEq] at he
          exact ⟨x.1, by rw [he]⟩
      · have hg : ∀ f ∈ ls, epsGuard (unitLen U8Atom (encode text)) (unitLen U8Atom (encode text)) f = true := by
          intro f hf
          cases f with
          | startAnchor => exact absurd hf hs
          | _ => simp [epsGuard]
        have hr := reachE_trans k4 (walkRun k5 hg (by simp [unitLen]) caps)
        rw [unitLen_encode] at hr
        obtain ⟨S, h5, h6⟩ := run_captures ((h3 _ _).mp ((acc_enc h4 text _ _).mp ⟨hM.ne, hr⟩))
        rw [unitLen_encode] at k6 ⊢
        obtain ⟨r, m1, m2, m3⟩ := slots_captures h5 h6 k6
        simp only
        rw [m1]
        exact Or.inr ⟨r, S, rfl, Or.inl h5, m2, m3⟩

end Ere
