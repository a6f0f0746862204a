import Verif.Proofs.Labels
import Verif.Proofs.FrontBuild
import Verif.Proofs.DfaTop
import Verif.Proofs.FirstEps

/-! The slots of the DFA engine can be turned into slices, for every pattern: the states of the automaton tell
whether a group is open and how many bytes of a character are missing, on walks through anchors too. -/

namespace Ere
variable {σ α : Type}

/-! ### Whether a group is open -/

/-- Opening group `g` goes from outside to inside, closing it back; nothing else changes sides. -/
def grpC (g : Nat) : Lab σ → Bool → Bool → Prop
  | .eps (.startCapture h), x, y => if h = g then x = false ∧ y = true else x = y
  | .eps (.endCapture h), x, y => if h = g then x = true ∧ y = false else x = y
  | _, x, y => x = y

theorem grpC_none (g : Nat) (x : Bool) : grpC (σ := σ) g (.eps .none) x x := rfl

theorem grpC_sym {g : Nat} {a : σ} {x y : Bool} : grpC g (.sym a) x y ↔ x = y := Iff.rfl

theorem grpC_other {g : Nat} {e : EpsType} (h1 : e ≠ .startCapture g) (h2 : e ≠ .endCapture g) {x y : Bool} :
    grpC (σ := σ) g (.eps e) x y ↔ x = y := by
  cases e with
  | startCapture h => simp only [grpC]; rw [if_neg (fun hh => h1 (by rw [hh]))]
  | endCapture h => simp only [grpC]; rw [if_neg (fun hh => h2 (by rw [hh]))]
  | _ => exact Iff.rfl

theorem grpC_rule [Sym σ α] (g : Nat) : LabRule α (grpC (σ := σ) g) where
  none := fun h => h
  inj := by
    intro l l' x x' y hs h h'
    cases l with
    | sym a =>
      cases l' with
      | sym b => exact (grpC_sym.mp h).trans (grpC_sym.mp h').symm
      | eps e => simp [LabSame] at hs
    | eps e =>
      cases l' with
      | sym b => simp [LabSame] at hs
      | eps e' =>
        have : e = e' := by simpa [LabSame] using hs
        subst this
        cases e with
        | startCapture k =>
          simp only [grpC] at h h'
          split at h
          · rw [if_pos (by assumption)] at h'; rw [h.1, h'.1]
          · rw [if_neg (by assumption)] at h'; rw [h, h']
        | endCapture k =>
          simp only [grpC] at h h'
          split at h
          · rw [if_pos (by assumption)] at h'; rw [h.1, h'.1]
          · rw [if_neg (by assumption)] at h'; rw [h, h']
        | none => exact (show x = y from h).trans (show x' = y from h').symm
        | startAnchor => exact (show x = y from h).trans (show x' = y from h').symm
        | endAnchor => exact (show x = y from h).trans (show x' = y from h').symm

/-- Not a mark of group `g`. -/
def NotGroup (g : Nat) (e : EpsType) : Prop := e ≠ .startCapture g ∧ e ≠ .endCapture g

/-- Group `g` is not inside itself. -/
inductive Tree.NoNest (g : Nat) : Tree → Prop
  | empty : NoNest g .empty
  | symbol {a} : NoNest g (.symbol a)
  | union {ts} : (∀ t ∈ ts, NoNest g t) → NoNest g (.union ts)
  | other {t h} : h ≠ g → NoNest g t → NoNest g (.capture t h)
  | same {t} : t.MarkQ (NotGroup g) → NoNest g (.capture t g)
  | concat {ts} : (∀ t ∈ ts, NoNest g t) → NoNest g (.concat ts)
  | rep {t n} : NoNest g t → NoNest g (.rep t n)
  | upTo {t n l} : NoNest g t → NoNest g (.upTo t n l)
  | star {t l} : NoNest g t → NoNest g (.star t l)
  | start : NoNest g .start
  | end_ : NoNest g .end_
  | never : NoNest g .never

namespace Tree
variable {g : Nat}

theorem nn_concat' {t u : Tree} (ht : t.NoNest g) (hu : u.NoNest g) : (t.concat' u).NoNest g := by
  unfold concat'
  split
  · cases ht with
    | concat ht =>
      refine .concat fun x hx => ?_
      rcases List.mem_append.mp hx with h | h
      · exact ht x h
      · simp at h; subst h; exact hu
  · refine .concat fun x hx => ?_
    simp only [List.mem_cons, List.not_mem_nil, or_false] at hx
    rcases hx with rfl | rfl
    · exact ht
    · exact hu

theorem nn_repeat {t : Tree} (ht : t.NoNest g) (n) : (t.repeat' n).NoNest g := by
  cases n with
  | zero => exact .empty
  | succ n => exact .rep ht

theorem nn_upto {t : Tree} (ht : t.NoNest g) (n l) : (t.upto' n l).NoNest g := by
  cases n with
  | zero => exact .empty
  | succ n => exact .upTo ht

theorem nn_applyQuantifier {t : Tree} (ht : t.NoNest g) (q : Quantifier) : (t.applyQuantifier q).NoNest g := by
  obtain ⟨q, alt⟩ := q
  unfold applyQuantifier
  cases q with
  | star => exact .star ht
  | plus => exact nn_concat' ht (.star ht)
  | question => exact nn_upto ht _ _
  | multiple n => exact nn_repeat ht _
  | range n m =>
    cases m with
    | none => exact nn_concat' (nn_repeat ht _) (.star ht)
    | some m =>
      simp only
      split
      · exact .never
      · split
        · exact nn_repeat ht _
        · exact nn_concat' (nn_repeat ht _) (nn_upto ht _ _)

theorem nn_capture {e : ERE} {k h : Nat} (hk : h < k) (ih : (fromSubERE e k).1.NoNest g) :
    (Tree.capture (fromSubERE e k).1 h).NoNest g := by
  by_cases hg : h = g
  · subst hg
    exact .same (markQ_fromSubERE e k (by simp [NotGroup]) (by simp [NotGroup])
      fun j hj _ => ⟨by simp [NotGroup]; omega, by simp [NotGroup]; omega⟩)
  · exact .other hg ih

mutual
theorem nn_sub : (e : ERE) → ∀ k, (fromSubERE e k).1.NoNest g
  | .mk bs => by intro k; rw [fromSubERE]; exact .union (nn_branches bs k)
theorem nn_branches : (bs : List EREBranch) → ∀ k, ∀ t ∈ (fromBranches bs k).1, NoNest g t
  | [] => by intro k; simp [fromBranches]
  | b :: bs => by
    intro k t ht
    rw [fromBranches] at ht
    rcases List.mem_cons.mp ht with rfl | h
    · exact nn_branch b k
    · exact nn_branches bs _ t h
theorem nn_branch : (b : EREBranch) → ∀ k, (fromBranch b k).1.NoNest g
  | .mk ps => by intro k; rw [fromBranch]; exact .concat (nn_parts ps k)
theorem nn_parts : (ps : List EREPart) → ∀ k, ∀ t ∈ (fromParts ps k).1, NoNest g t
  | [] => by intro k; simp [fromParts]
  | p :: ps => by
    intro k t ht
    rw [fromParts] at ht
    rcases List.mem_cons.mp ht with rfl | h
    · exact nn_part p k
    · exact nn_parts ps _ t h
theorem nn_part : (p : EREPart) → ∀ k, (fromPart p k).1.NoNest g
  | .single e => by intro k; rw [fromPart]; exact nn_expr e k
  | .quantified e q => by intro k; rw [fromPart]; exact nn_applyQuantifier (nn_expr e k) q
  | .start => by intro k; rw [fromPart]; exact .start
  | .end_ => by intro k; rw [fromPart]; exact .end_
theorem nn_expr : (e : EREExpr) → ∀ k, (fromExpr e k).1.NoNest g
  | .atom a => by intro k; rw [fromExpr]; exact .symbol
  | .sub e => by intro k; rw [fromExpr]; exact nn_capture (Nat.lt_succ_self k) (nn_sub e _)
end

theorem nn_fromERE (e : ERE) : (fromERE e).1.NoNest g := by
  rw [fromERE]; exact nn_capture (Nat.lt_succ_self 0) (nn_sub e 1)

end Tree

theorem gchain_of_all {C : Lab σ → Bool → Bool → Prop} {a : Bool} {ns : List (NFA σ)}
    (h : ∀ n ∈ ns, Good n ∧ LabG C n a a) : GChain C ns a a := by
  induction ns with
  | nil => exact .nil
  | cons n ns ih => exact .cons (h n (by simp)).1 (h n (by simp)).2 (ih fun m hm => h m (by simp [hm]))

theorem build_grp {g : Nat} {t : Tree} (h : t.NoNest g) : LabG (grpC g) (build t) false false := by
  have hq : ∀ {N : NFA Atom} (x : Bool), EpsQ (NotGroup g) N → LabG (grpC g) N x x := by
    intro N x hN
    refine labG_const fun p l q he => ?_
    cases l with
    | sym a => rfl
    | eps e =>
      rcases hN.edge he with rfl | ⟨h1, h2⟩
      · rfl
      · exact (grpC_other h1 h2).mpr rfl
  induction h with
  | empty => exact hq _ (build_epsQ _ (by simp [Tree.MarkQ]))
  | symbol => exact hq _ (build_epsQ _ (by simp [Tree.MarkQ]))
  | union _ ih =>
    rw [build]
    refine labG_union (grpC_none g) fun n hn => ?_
    obtain ⟨t, ht, rfl⟩ := mem_buildList.mp hn
    exact ⟨build_good t, ih t ht⟩
  | other hne _ ih =>
    rw [build]
    refine labG_capture (build_good _) ih _ ?_ ?_ <;> simp [grpC, hne]
  | same hm =>
    rw [build]
    refine labG_capture (build_good _) (hq true (build_epsQ _ hm)) _ ?_ ?_ <;> simp [grpC]
  | concat _ ih =>
    rw [build]
    refine labG_concat (grpC_none g) (gchain_of_all fun n hn => ?_)
    obtain ⟨t, ht, rfl⟩ := mem_buildList.mp hn
    exact ⟨build_good t, ih t ht⟩
  | rep _ ih =>
    rw [build]
    refine labG_concat (grpC_none g) (gchain_of_all fun n hn => ?_)
    rw [List.eq_of_mem_replicate hn]
    exact ⟨build_good _, ih⟩
  | upTo _ ih => rw [build]; exact labG_upto (grpC_none g) (build_good _) ih _ _
  | star _ ih => rw [build]; exact labG_star (grpC_none g) (build_good _) ih _
  | start => exact hq _ (build_epsQ _ (by simp [Tree.MarkQ, NotGroup]))
  | end_ => exact hq _ (build_epsQ _ (by simp [Tree.MarkQ, NotGroup]))
  | never => exact hq _ (build_epsQ _ (by simp [Tree.MarkQ]))

/-- Groups in the automaton of the character engines. -/
theorem grp_char (e : ERE) (g : Nat) {N : NFA Atom} (h1 : workingNew (Tree.fromERE e).1 = .ok N) (hN : N ≠ []) :
    LabG (grpC g) N false false := by
  have hb := build_shape _ (starOk_fromERE e)
  have hc1 : Shape (build (Tree.fromERE e).1).cleanStartAnchors := filterEdges_shape hb
  have hc : Shape (build (Tree.fromERE e).1).cleanStartAnchors.cleanEndAnchors := filterEdges_shape hc1
  have hl := withLoops_shape hc anyAtom true true
  have h0 : LabG (grpC g) (build (Tree.fromERE e).1).cleanStartAnchors.cleanEndAnchors false false :=
    labG_filter (labG_filter (build_grp (Tree.nn_fromERE (g := g) e)) _ _) _ _
  have hL := labG_withLoops (grpC_none g) hc.good h0 anyAtom (grpC_sym.mpr rfl) (grpC_sym.mpr rfl)
  rw [workingNew, newLoopOpt] at h1
  exact (labG_stable (α := Char) (grpC_rule g) false false).finish hl (labG_filter hL _ _) h1 hN

open Classical in
/-- Labels of the byte automaton: those inside a character are labelled by `f`, which may depend on the atom. -/
theorem labG_u8Build' {Λ : Type} (U : Utf8Seqs) {C : Lab Atom → Λ → Λ → Prop} {C' : Lab U8Atom → Λ → Λ → Prop}
    (f : Λ → Atom → List U8Atom → Λ)
    {N : NFA Atom} {M ms ss : NFA U8Atom} {I} (hwf : N.WF) (hne : N ≠ []) (hB : BuildSpec U N M ms ss I) {a b : Λ}
    (hN : LabG C N a b) (heps : ∀ e x y, C (.eps e) x y → C' (.eps e) x y) (hnone : C' (.eps .none) b b)
    (hone : ∀ s x y u, C (.sym s) x y → [u] ∈ atomSeqs U.seqs s → C' (.sym u) x y)
    (hfst : ∀ s x y u w, C (.sym s) x y → u :: w ∈ atomSeqs U.seqs s → w ≠ [] → C' (.sym u) x (f y s [u]))
    (hmid : ∀ s x y u v w, C (.sym s) x y → u ++ v :: w ∈ atomSeqs U.seqs s → w ≠ [] →
      C' (.sym v) (f y s u) (f y s (u ++ [v])))
    (hlst : ∀ s x y u v, C (.sym s) x y → u ++ [v] ∈ atomSeqs U.seqs s → C' (.sym v) (f y s u) y) :
    LabG C' M a b := by
  obtain ⟨A, e0, el, hA⟩ := hN
  have hpos : 0 < N.length := List.length_pos_iff.mpr hne
  have hsubs := hB.st.subs
  obtain ⟨cs, hcs⟩ : ∃ cs : Nat → Λ, ∀ x d s w, I x d s w → cs x = f (A d) s w := by
    have : ∀ x, ∃ c : Λ, ∀ d s w, I x d s w → c = f (A d) s w := by
      intro x
      by_cases hx : ∃ d s w, I x d s w
      · obtain ⟨d, s, w, h⟩ := hx
        refine ⟨f (A d) s w, fun d' s' w' h' => ?_⟩
        obtain ⟨rfl, rfl, rfl⟩ := hsubs.uniq _ _ _ _ _ _ _ h h'
        rfl
      · exact ⟨a, fun d s w h => absurd ⟨d, s, w, h⟩ hx⟩
    exact ⟨fun x => (this x).choose, fun x => (this x).choose_spec⟩
  obtain ⟨B, hBd⟩ : ∃ B : Nat → Λ, ∀ q, B q = if q < N.length then A q else if q < N.length + ss.length then cs q else b :=
    ⟨_, fun _ => rfl⟩
  have hmain : ∀ q, q < N.length → B q = A q := fun q hq => by rw [hBd, if_pos hq]
  have hsub : ∀ x d s w, I x d s w → B x = f (A d) s w := by
    intro x d s w h
    have := hsubs.range _ _ _ _ h
    rw [hBd, if_neg (by omega), if_pos (by omega)]; exact hcs _ _ _ _ h
  have hE : ∀ p l q, N.HasEdge p l q → C l (A p) (A q) := by
    intro p l q h; have := hA p l q h; rwa [Nat.zero_add] at this
  refine ⟨B, by rw [hmain _ hpos, e0], ?_, ?_⟩
  · rw [hB.len, hBd, if_neg (by omega), if_neg (by omega)]
  · intro q l z h
    rw [Nat.zero_add]
    rw [hB.edge] at h
    rcases h with h | ⟨h, rfl, rfl⟩ | h
    · cases l with
      | eps e =>
        have h' := (hB.st.eps _ _ _).mp h
        rw [hmain _ (hasEdge_lt h'), hmain _ (hwf _ _ _ h')]
        exact heps _ _ _ (hE _ _ _ h')
      | sym u =>
        obtain ⟨s, d, h1, h2⟩ := hB.st.root _ _ _ h
        rw [hmain _ (hasEdge_lt h1)]
        rcases h2 with ⟨rfl, h2⟩ | h2
        · rw [hmain _ (hwf _ _ _ h1)]; exact hone _ _ _ _ (hE _ _ _ h1) h2
        · obtain ⟨w', hw', hl⟩ := hsubs.live _ _ _ _ h2
          rw [hsub _ _ _ _ h2]
          exact hfst _ _ _ _ w' (hE _ _ _ h1) hl hw'
    · rw [hmain _ (by omega), show q = N.length - 1 by omega, el, hBd, if_neg (by omega), if_neg (by omega)]
      exact hnone
    · have hr := subE_lt h
      obtain ⟨d, s, w, hI⟩ := hsubs.cover q hr.1 hr.2
      cases l with
      | eps e =>
        obtain ⟨j, _, hj⟩ := h
        obtain ⟨s, hs, he⟩ := hasEdge_iff.mp hj
        have := hsubs.noeps s (List.mem_of_getElem? hs)
        simp only [State.Has, this] at he
        simp at he
      | sym v =>
        have h1 := hsubs.step _ _ _ _ _ _ hI h
        obtain ⟨p, hp⟩ := (hsubs.range _ _ _ _ hI).2.2
        rw [hsub _ _ _ _ hI]
        rcases h1 with ⟨rfl, h1⟩ | h1
        · rw [hmain _ (hwf _ _ _ hp)]
          exact hlst _ _ _ _ _ (hE _ _ _ hp) h1
        · obtain ⟨w', hw', hl⟩ := hsubs.live _ _ _ _ h1
          rw [hsub _ _ _ _ h1]
          rw [List.append_assoc] at hl
          exact hmid _ _ _ _ _ w' (hE _ _ _ hp) hl hw'

/-- Labels of the byte automaton: those inside a character are labelled by `f`. -/
theorem labG_u8Build {Λ : Type} (U : Utf8Seqs) {C : Lab Atom → Λ → Λ → Prop} {C' : Lab U8Atom → Λ → Λ → Prop}
    (f : Λ → List U8Atom → Λ)
    {N : NFA Atom} {M ms ss : NFA U8Atom} {I} (hwf : N.WF) (hne : N ≠ []) (hB : BuildSpec U N M ms ss I) {a b : Λ}
    (hN : LabG C N a b) (heps : ∀ e x y, C (.eps e) x y → C' (.eps e) x y) (hnone : C' (.eps .none) b b)
    (hone : ∀ s x y u, C (.sym s) x y → [u] ∈ atomSeqs U.seqs s → C' (.sym u) x y)
    (hfst : ∀ s x y u w, C (.sym s) x y → u :: w ∈ atomSeqs U.seqs s → w ≠ [] → C' (.sym u) x (f y [u]))
    (hmid : ∀ s x y u v w, C (.sym s) x y → u ++ v :: w ∈ atomSeqs U.seqs s → w ≠ [] →
      C' (.sym v) (f y u) (f y (u ++ [v])))
    (hlst : ∀ s x y u v, C (.sym s) x y → u ++ [v] ∈ atomSeqs U.seqs s → C' (.sym v) (f y u) y) :
    LabG C' M a b :=
  labG_u8Build' U (fun y _ u => f y u) hwf hne hB hN heps hnone hone hfst hmid hlst

/-- Groups in the automaton of the byte engines. -/
theorem grp_byte (U : Utf8Seqs) (e : ERE) (g : Nat) {N : NFA Atom} {M : NFA U8Atom}
    (h1 : workingNew (Tree.fromERE e).1 = .ok N) (hN : Ready N)
    (h2 : u8New U.seqs N = .ok M) (hM : M ≠ []) : LabG (grpC g) M false false := by
  have hNs := grp_char e g h1 hN.ne
  obtain ⟨B, ms, ss, I, h3, h4⟩ := u8Build_spec U hN.ne
  rw [u8New, u8NewLoopOpt, h3] at h2
  have h5 : B.finish = .ok M := h2
  refine (labG_stable (α := UInt8) (grpC_rule g) false false).finish
    (u8Build_shape hN.wf hN.ne hN.rank hN.mix hN.sink h4) (labG_filter ?_ _ _) h5 hM
  refine labG_u8Build U (fun y _ => y) hN.wf hN.ne h4 hNs ?_ rfl (fun _ _ _ _ h _ => h) (fun _ _ _ _ _ h _ _ => h)
    (fun _ _ _ _ _ _ _ _ _ => rfl) (fun _ _ _ _ _ _ _ => rfl)
  intro e x y h
  cases e <;> exact h

/-! ### How many bytes of a character are missing -/

/-- Epsilons are crossed between characters. -/
def phC : Lab U8Atom → Nat → Nat → Prop
  | .sym a, i, j => bytePhases.ok i a j
  | .eps _, i, j => i = 0 ∧ j = 0

theorem phC_rule : LabRule UInt8 phC where
  none := fun h => h.1.trans h.2.symm
  inj := by
    intro l l' x x' y hs h h'
    cases l with
    | sym a =>
      cases l' with
      | sym b => exact bytePhases.ok_src h (bytePhases.ok_same (fun c => by simp only [LabSame] at hs; exact (hs c).symm) h')
      | eps e => simp [LabSame] at hs
    | eps e =>
      cases l' with
      | sym b => simp [LabSame] at hs
      | eps e' => exact h.1.trans h'.1.symm

theorem ph_byte (U : Utf8Seqs) {N : NFA Atom} {M : NFA U8Atom} (hN : Ready N)
    (h2 : u8New U.seqs N = .ok M) (hM : M ≠ []) : LabG phC M 0 0 := by
  obtain ⟨B, ms, ss, I, h3, h4⟩ := u8Build_spec U hN.ne
  rw [u8New, u8NewLoopOpt, h3] at h2
  have h5 : B.finish = .ok M := h2
  refine (labG_stable (α := UInt8) phC_rule 0 0).finish
    (u8Build_shape hN.wf hN.ne hN.rank hN.mix hN.sink h4) (labG_filter ?_ _ _) h5 hM
  refine labG_u8Build U (C := fun _ i j => i = 0 ∧ j = 0) (fun _ w => restBytes w) hN.wf hN.ne h4
    (labG_const fun _ _ _ _ => ⟨rfl, rfl⟩) (fun _ _ _ h => h) ⟨rfl, rfl⟩ ?_ ?_ ?_ ?_
  · rintro s x y u ⟨rfl, rfl⟩ h
    exact (seq_ok U (u := []) h).1
  · rintro s x y u w ⟨rfl, rfl⟩ h _
    have := seq_ok U (u := []) h
    rw [List.nil_append] at this
    rw [this.2]; exact this.1
  · rintro s x y u v w _ h _
    have := seq_ok U h
    rw [this.2]; exact this.1
  · rintro s x y u v ⟨rfl, rfl⟩ h
    exact (seq_ok U h).1

/-- No bytes are missing at the end of a character only. -/
theorem phase_boundary : ∀ (text : List Char) (pre rest : List UInt8), encode text = pre ++ rest →
    pre.foldl bytePhases.next 0 = 0 → ∃ a b, text = a ++ b ∧ pre = encode a := by
  have hrun : ∀ (t : List UInt8) (n : Nat), t.length ≤ n → t.foldl bytePhases.next n = n - t.length := by
    intro t
    induction t with
    | nil => intro n _; rfl
    | cons x t ih =>
      intro n hn
      rw [List.length_cons] at hn
      rw [List.foldl_cons]
      have : bytePhases.next n x = n - 1 := by show (if n = 0 then _ else _) = _; rw [if_neg (by omega)]
      rw [this, ih _ (by omega), List.length_cons]; omega
  intro text
  induction text with
  | nil =>
    intro pre rest h _
    simp only [encode, List.flatMap_nil, List.nil_eq, List.append_eq_nil_iff] at h
    exact ⟨[], [], rfl, h.1⟩
  | cons c cs ih =>
    intro pre rest h h0
    obtain ⟨b, t, h1, h2, h3, h4⟩ := enc_shape c
    have hcs : encode (c :: cs) = b :: t ++ encode cs := by simp [encode, h1]
    have hb : bytePhases.next 0 b = followBytes b := rfl
    cases pre with
    | nil => exact ⟨[], c :: cs, rfl, rfl⟩
    | cons x pre =>
      rw [hcs, List.cons_append, List.cons_append] at h
      injection h with hx h
      subst hx
      rw [List.foldl_cons, hb] at h0
      rcases List.append_eq_append_iff.mp h with ⟨u, k1, k2⟩ | ⟨u, k1, k2⟩
      · -- the whole character has been read
        rw [k1, List.foldl_append, hrun t _ (by omega), h3, Nat.sub_self] at h0
        obtain ⟨a', b', e1, e2⟩ := ih u rest k2 h0
        refine ⟨c :: a', b', by rw [e1]; rfl, ?_⟩
        rw [k1, e2]; simp [encode, h1]
      · rw [hrun pre _ (by rw [← h3, k1, List.length_append]; omega)] at h0
        have hu : u = [] := by
          rw [← h3, k1, List.length_append] at h0
          exact List.length_eq_zero_iff.mp (by omega)
        subst hu
        refine ⟨[c], cs, rfl, ?_⟩
        rw [List.append_nil] at k1
        rw [← k1]; simp [encode, h1]

/-! ### Runs -/

/-- What the slots of a group hold at offset `off`, outside and inside of the group. -/
def SlotInv (text : List Char) (off : Nat) (inside : Bool) (s e : Option Nat) : Prop :=
  if inside then ∃ i, s = some i ∧ i ≤ off ∧ isBoundary text i = true
  else (s = none ∧ e = none) ∨ ∃ i j, s = some i ∧ e = some j ∧ i ≤ j ∧ j ≤ off ∧
    isBoundary text i = true ∧ isBoundary text j = true

theorem SlotInv.mono {text off off' inside s e} (h : SlotInv text off inside s e) (ho : off ≤ off') :
    SlotInv text off' inside s e := by
  cases inside with
  | true => obtain ⟨i, h1, h2, h3⟩ := h; exact ⟨i, h1, by omega, h3⟩
  | false =>
    rcases h with h | ⟨i, j, h1, h2, h3, h4, h5⟩
    · exact Or.inl h
    · exact Or.inr ⟨i, j, h1, h2, h3, by omega, h5⟩

theorem SlotInv.eps {text off g x y} {e : EpsType} {caps : Caps} (hb : isBoundary text off = true)
    (h : SlotInv text off x (caps.start? g) (caps.end? g)) (hC : grpC (σ := U8Atom) g (.eps e) x y) :
    SlotInv text off y ((caps ++ walkEvents off [e]).start? g) ((caps ++ walkEvents off [e]).end? g) := by
  rw [start?_append, end?_append, walkEvents_start, walkEvents_end]
  by_cases h1 : e = .startCapture g
  · subst h1
    simp only [grpC, if_true] at hC
    obtain ⟨rfl, rfl⟩ := hC
    simp only [SlotInv, if_true]
    exact ⟨off, by simp, Nat.le_refl _, hb⟩
  · by_cases h2 : e = .endCapture g
    · subst h2
      simp only [grpC, if_true] at hC
      obtain ⟨rfl, rfl⟩ := hC
      simp only [SlotInv, if_true] at h
      obtain ⟨i, k1, k2, k3⟩ := h
      refine Or.inr ⟨i, off, by simp [k1], by simp, k2, Nat.le_refl _, k3, hb⟩
    · have := (grpC_other h1 h2).mp hC
      subst this
      rw [if_neg (by simp; exact fun hh => h1 hh.symm), if_neg (by simp; exact fun hh => h2 hh.symm)]
      exact h

theorem boundary_of_phase {text : List Char} {pre rest : List UInt8} {off : Nat} (h1 : encode text = pre ++ rest)
    (h2 : off = unitLen U8Atom pre) (h3 : pre.foldl bytePhases.next 0 = 0) : isBoundary text off = true := by
  obtain ⟨a, b, e1, e2⟩ := phase_boundary text pre rest h1 h3
  rw [isBoundary_iff]
  exact ⟨a, b, e1, by rw [h2, e2, unitLen_encode]⟩

/-- What holds along the runs. -/
theorem run_slots {M : NFA U8Atom} {A : Nat → Bool} {B : Nat → Nat} {g : Nat} (hA0 : A 0 = false) (hB0 : B 0 = 0)
    (hA : GOkL (grpC g) A 0 M) (hB : GOkL phC B 0 M) (text : List Char) {q : Nat} {d : Cfg UInt8}
    (h : ReachE M.HasEdge (0, ⟨0, encode text, []⟩) (q, d)) :
    ∃ pre, encode text = pre ++ d.rest ∧ d.off = unitLen U8Atom pre ∧ B q = pre.foldl bytePhases.next 0 ∧
      SlotInv text d.off (A q) (d.caps.start? g) (d.caps.end? g) := by
  refine reachE_tail_induction (P := fun q d => ∃ pre, encode text = pre ++ d.rest ∧ d.off = unitLen U8Atom pre ∧
      B q = pre.foldl bytePhases.next 0 ∧ SlotInv text d.off (A q) (d.caps.start? g) (d.caps.end? g)) h ?_ ?_
  · exact ⟨[], rfl, rfl, hB0, by rw [hA0]; exact Or.inl ⟨rfl, rfl⟩⟩
  · rintro p ⟨off, rest, caps⟩ l q ⟨off', rest', caps'⟩ _ ⟨pre, k1, k2, k3, k4⟩ he hs
    have ha := hA _ _ _ he
    have hb := hB _ _ _ he
    rw [Nat.zero_add] at ha hb
    cases l with
    | sym a =>
      obtain ⟨c, cs, e1, e2, e3⟩ := symStep_iff.mp (show symStep a _ = some _ from hs)
      simp only at e1 e3 k1 k2 k4
      subst e1
      injection e3 with f1 f2 f3
      subst f1 f2 f3
      refine ⟨pre ++ [c], by simp [k1], ?_, ?_, ?_⟩
      · rw [unitLen_append, ← k2]; rfl
      · rw [List.foldl_append, ← k3]
        exact (bytePhases.ok_next hb e2).symm
      · rw [← grpC_sym.mp ha]
        exact k4.mono (Nat.le_add_right _ _)
    | eps e =>
      have hp : pre.foldl bytePhases.next 0 = 0 := k3.symm.trans hb.1
      have hbd := boundary_of_phase k1 k2 hp
      have key := k4.eps hbd ha
      have : off' = off ∧ rest' = rest ∧ caps' = caps ++ walkEvents off [e] := by
        have hs : epsStep e _ = some _ := hs
        cases e with
        | none => simp only [epsStep, Option.some.injEq, Cfg.mk.injEq] at hs; simp [walkEvents, hs]
        | startAnchor =>
          simp only [epsStep] at hs
          split at hs <;> simp only [Option.some.injEq, Cfg.mk.injEq, reduceCtorEq] at hs
          simp [walkEvents, hs]
        | endAnchor =>
          simp only [epsStep] at hs
          split at hs <;> simp only [Option.some.injEq, Cfg.mk.injEq, reduceCtorEq] at hs
          simp [walkEvents, hs]
        | startCapture h =>
          simp only [epsStep, Option.some.injEq, Cfg.mk.injEq, Caps.setStart] at hs
          obtain ⟨rfl, rfl, rfl⟩ := hs
          simp [walkEvents]
        | endCapture h =>
          simp only [epsStep, Option.some.injEq, Cfg.mk.injEq, Caps.setEnd] at hs
          obtain ⟨rfl, rfl, rfl⟩ := hs
          simp [walkEvents]
      obtain ⟨rfl, rfl, rfl⟩ := this
      exact ⟨pre, k1, k2, by rw [hb.2, hp], key⟩

theorem walk_slots {M : NFA U8Atom} {A : Nat → Bool} {B : Nat → Nat} {g : Nat}
    (hA : GOkL (grpC g) A 0 M) (hB : GOkL phC B 0 M) {text : List Char} {pre rest : List UInt8} {off : Nat}
    (k1 : encode text = pre ++ rest) (k2 : off = unitLen U8Atom pre) {q ls p} (h : EWalk M q ls p) {caps : Caps}
    (k3 : B q = pre.foldl bytePhases.next 0) (k4 : SlotInv text off (A q) (caps.start? g) (caps.end? g)) :
    B p = pre.foldl bytePhases.next 0 ∧
      SlotInv text off (A p) ((caps ++ walkEvents off ls).start? g) ((caps ++ walkEvents off ls).end? g) := by
  induction h with
  | refl => exact ⟨k3, by simpa [walkEvents] using k4⟩
  | @tail ls p e r _ he ih =>
    obtain ⟨j1, j2⟩ := ih
    have ha := hA _ _ _ he
    have hb := hB _ _ _ he
    rw [Nat.zero_add] at ha hb
    have hp : pre.foldl bytePhases.next 0 = 0 := j1.symm.trans hb.1
    refine ⟨by rw [hb.2, hp], ?_⟩
    rw [walkEvents_append, ← List.append_assoc]
    exact j2.eps (boundary_of_phase k1 k2 hp) ha

/-- The slots of a group outside of it make a slice. -/
theorem SlotInv.finish {text off s e} (h : SlotInv text off false s e) :
    ∃ o, finishSlot text (s, e) = .ok o ∧ ∀ i j, o = some (i, j) →
      ∃ a b c, text = a ++ b ++ c ∧ i = byteLen a ∧ j = byteLen (a ++ b) := by
  rcases h with ⟨rfl, rfl⟩ | ⟨i, j, rfl, rfl, h1, _, h2, h3⟩
  · exact ⟨_, rfl, by simp⟩
  · refine ⟨some (i, j), by simp [finishSlot, strGet, h1, h2, h3], ?_⟩
    intro i' j' h
    simp only [Option.some.injEq, Prod.mk.injEq] at h
    obtain ⟨rfl, rfl⟩ := h
    obtain ⟨a, c, e1, e2⟩ := isBoundary_iff.mp h2
    obtain ⟨a', c', e3, e4⟩ := isBoundary_iff.mp h3
    rcases List.append_eq_append_iff.mp (e1.symm.trans e3) with ⟨u, f1, f2⟩ | ⟨u, f1, f2⟩
    · exact ⟨a, u, c', by rw [e3, f1], e2, by rw [e4, f1]⟩
    · have : u = [] := by
        rcases u with _ | ⟨x, u⟩
        · rfl
        · exfalso
          have := byteLen_append a' (x :: u)
          have h7 : 0 < byteLen (x :: u) := by
            rw [← encode_length]; simp [encode, String.length_utf8EncodeChar]; have := x.utf8Size_pos; omega
          rw [← f1] at this; omega
      subst this
      rw [List.append_nil] at f1
      subst f1
      exact ⟨a, [], c, by simpa using e1, e2, by simpa using e4⟩

/-- `exec` of the DFA engine never panics; what it reports are stretches of the text. -/
theorem tdfa_exec_safe (U : Utf8Seqs) (e : ERE) {N : NFA Atom} {M : NFA U8Atom}
    (h1 : workingNew (Tree.fromERE e).1 = .ok N) (h2 : u8New U.seqs N = .ok M) (hne : M ≠ []) {T : TDFA}
    (hT : TDFAOk M T) (text : List Char) :
    ∃ o, T.exec text (encode text) = .ok o ∧ ∀ r, o = some r → r.length = T.numCaptureGroups ∧
      ∀ i j, some (i, j) ∈ r → ∃ a b c, text = a ++ b ++ c ∧ i = byteLen a ∧ j = byteLen (a ++ b) := by
  obtain ⟨hN, hM, _, _⟩ := pipeline_ne U e h1 h2 hne
  unfold TDFA.exec
  rcases tdfaExecLoop hT (encode text) (encode text) [] 0 .start T.start [0] _ rfl rfl rfl (dat_start hT (encode text))
      (rows_start _ _) with ⟨k1, _⟩ | ⟨slots, k1, _, _, q, caps, ls, k2, k3, rfl, _⟩
  · rw [k1]
    exact ⟨_, rfl, by simp⟩
  · rw [k1]
    have hfin : ∀ g, ∃ o, finishSlot text ((caps ++ walkEvents (unitLen U8Atom (encode text)) ls).start? g,
        (caps ++ walkEvents (unitLen U8Atom (encode text)) ls).end? g) = .ok o ∧ ∀ i j, o = some (i, j) →
        ∃ a b c, text = a ++ b ++ c ∧ i = byteLen a ∧ j = byteLen (a ++ b) := by
      intro g
      obtain ⟨A, a0, al, hA⟩ := grp_byte U e g h1 hN h2 hne
      obtain ⟨B, b0, _, hB⟩ := ph_byte U hN h2 hne
      obtain ⟨pre, j1, j2, j3, j4⟩ := run_slots a0 b0 hA hB text k2
      have := (walk_slots hA hB j1 j2 k3 j3 j4).2
      rw [al] at this
      exact this.finish
    obtain ⟨r, m1, m2, m3⟩ := mapM_ok (f := finishSlot text)
      (l := slotsOf T.numCaptureGroups (caps ++ walkEvents (unitLen U8Atom (encode text)) ls)) (by
      intro x hx
      unfold slotsOf at hx
      obtain ⟨g, _, rfl⟩ := List.mem_map.mp hx
      obtain ⟨o, ho, _⟩ := hfin g
      exact ⟨o, ho⟩)
    simp only
    rw [m1]
    refine ⟨_, rfl, fun r' hr => ?_⟩
    injection hr with hr
    subst hr
    have hl : r.length = T.numCaptureGroups := by rw [m2]; simp [slotsOf]
    refine ⟨hl, fun i j hij => ?_⟩
    obtain ⟨g, hg⟩ := List.mem_iff_getElem?.mp hij
    have hgl := (List.getElem?_eq_some_iff.mp hg).1
    obtain ⟨y, n1, n2⟩ := m3 g _ (slotsOf_get (by omega))
    obtain ⟨o, ho1, ho2⟩ := hfin g
    rw [ho1] at n2
    injection n2 with n2
    rw [hg] at n1
    injection n1 with n1
    exact ho2 i j (by rw [n2, n1])

end Ere
