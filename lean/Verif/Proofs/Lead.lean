import Verif.Proofs.StartSafe

/-! Patterns in which a `^` has to be crossed and lies in front of everything that is read: the loop in
front of them reads nothing, so that no `^` is crossed late. -/

namespace Ere
variable {σ α : Type}

/-- `S` is left over start anchors only, is never entered, and outside it there are no start anchors. -/
def EdgeLead (S : Nat → Prop) (p : Nat) (l : Lab σ) (q : Nat) : Prop :=
  (S p → S q ∨ l = .eps .startAnchor) ∧ (¬ S p → ¬ S q ∧ l ≠ .eps .startAnchor)

theorem EdgeLead.congr {S S' : Nat → Prop} {p q : Nat} {l : Lab σ} (h : EdgeLead S p l q) (h1 : S' p ↔ S p)
    (h2 : S' q ↔ S q) : EdgeLead S' p l q := by
  unfold EdgeLead at h ⊢; rwa [h1, h2]

/-- The states in front of the start anchors. -/
structure LeadSet (N : NFA σ) (S : Nat → Prop) : Prop where
  zero : S 0
  lt : ∀ x, S x → x + 1 < N.length
  edge : ∀ p l q, N.HasEdge p l q → EdgeLead S p l q

theorem leadSet_start : LeadSet (nfaStart : NFA σ) (· = 0) := by
  refine ⟨rfl, fun x h => by subst h; simp [nfaStart], ?_⟩
  intro p l q h
  simp only [nfaStart] at h
  rw [hasEdge_cons] at h
  rcases h with ⟨rfl, h⟩ | ⟨x, rfl, h⟩
  · cases l with
    | sym a => simp [State.Has] at h
    | eps e =>
      simp only [State.Has, List.mem_singleton, Eps.mk.injEq] at h
      refine ⟨fun _ => Or.inr (by rw [h.2]), fun h => absurd rfl h⟩
  · rw [hasEdge_single] at h
    exact absurd h.2 has_new

/-- `S` moved to a block at `off`. -/
def blockSet (n : NFA σ) (off : Nat) (S : Nat → Prop) (x : Nat) : Prop := off ≤ x ∧ x < off + n.length ∧ S (x - off)

theorem block_lead {n : NFA σ} (hn : Good n) {S} (hS : LeadSet n S) {off : Nat} {e : Eps} (he : e.special ≠ .startAnchor)
    {S' : Nat → Prop} (hin : ∀ y, off ≤ y → y < off + n.length → (S' y ↔ blockSet n off S y)) (hd : ¬ S' e.dst)
    {x l q} (h : (block n off e).HasEdge x l q) : EdgeLead S' (off + x) l q := by
  have hx : x < n.length := by have := hasEdge_lt h; rwa [block_length] at this
  have h1 : S' (off + x) ↔ S x := by
    rw [hin _ (by omega) (by omega), blockSet, show off + x - off = x by omega]
    exact ⟨fun h => h.2.2, fun h => ⟨by omega, by omega, h⟩⟩
  unfold EdgeLead
  rw [h1]
  rcases (hasEdge_block hn.ne).mp h with ⟨x', rfl, h2⟩ | ⟨h2, rfl, rfl⟩
  · have hx' := hn.wf _ _ _ h2
    have h3 : S' (x' + off) ↔ S x' := by
      rw [hin _ (by omega) (by omega), blockSet, show x' + off - off = x' by omega]
      exact ⟨fun h => h.2.2, fun h => ⟨by omega, by omega, h⟩⟩
    rw [h3]
    exact hS.edge _ _ _ h2
  · refine ⟨fun h => ?_, fun _ => ⟨hd, by simpa using he⟩⟩
    have := hS.lt _ h; omega

theorem leadSet_capture {n : NFA σ} (hn : Good n) {S} (hS : LeadSet n S) (g : Nat) :
    ∃ S', LeadSet (nfaCapture n g) S' := by
  have hpos : 0 < n.length := List.length_pos_iff.mpr hn.ne
  refine ⟨fun x => x = 0 ∨ blockSet n 1 S x, Or.inl rfl, ?_, ?_⟩
  · rintro x (rfl | ⟨h1, h2, h3⟩)
    · rw [capture_length]; omega
    · have := hS.lt _ h3; rw [capture_length]; omega
  · intro p l q h
    have hN : nfaCapture n g = [⟨[], [⟨1, .startCapture g⟩]⟩] ++ (block n 1 ⟨1 + n.length, .endCapture g⟩ ++ [State.new]) := by
      have : 2 + n.length - 1 = 1 + n.length := by omega
      simp [nfaCapture, block, this]
    by_cases hp : p = 0
    · subst hp
      obtain ⟨rfl, rfl⟩ := (capture_start n g l q).mp h
      exact ⟨fun _ => Or.inl (Or.inr ⟨by omega, by omega, hS.zero⟩), fun h => absurd (Or.inl rfl) h⟩
    · rw [hN, hasEdge_append, hasEdge_single] at h
      rcases h with ⟨h, _⟩ | ⟨x, rfl, h⟩
      · exact absurd h hp
      · rcases hasEdge_append.mp h with h | ⟨y, _, h⟩
        · refine block_lead hn hS (e := ⟨1 + n.length, .endCapture g⟩) (by simp) ?_ ?_ h
          · intro y h1 h2; exact ⟨fun h => h.resolve_left (Nat.pos_iff_ne_zero.mp h1), Or.inr⟩
          · rintro (h | ⟨_, h, _⟩)
            · simp at h
            · simp at h
        · rw [hasEdge_single] at h; exact absurd h.2 has_new

/-! ### Alternatives -/

theorem union_lead : ∀ (ns : List (NFA σ)), (∀ n ∈ ns, Good n ∧ ∃ S, LeadSet n S) → ∀ off : Nat, ∃ S : Nat → Prop,
    (∀ x, S x → off ≤ x ∧ x < off + (ns.map List.length).sum) ∧
    (∀ e ∈ unionStarts off ns, S e.dst) ∧
    ∀ fin, off + (ns.map List.length).sum ≤ fin → ∀ x l q, (unionBody off fin ns).HasEdge x l q →
      off ≤ q ∧ EdgeLead S (off + x) l q
  | [], _, off => ⟨fun _ => False, fun _ h => h.elim, by simp [unionStarts], fun fin _ x l q h => absurd h hasEdge_nil⟩
  | n :: ns, hns, off => by
    obtain ⟨hn, S1, h1⟩ := hns n (by simp)
    obtain ⟨S2, h2, h3, h4⟩ := union_lead ns (fun m hm => hns m (by simp [hm])) (off + n.length)
    have hpos : 0 < n.length := List.length_pos_iff.mpr hn.ne
    simp only [List.map_cons, List.sum_cons]
    refine ⟨fun x => blockSet n off S1 x ∨ S2 x, ?_, ?_, ?_⟩
    · rintro x (h | h)
      · exact ⟨h.1, by have := h.2.1; omega⟩
      · have := h2 x h; omega
    · intro e he
      simp only [unionStarts, List.mem_cons] at he
      rcases he with rfl | he
      · exact Or.inl ⟨Nat.le_refl _, by simp [Eps.new]; omega, by simpa [Eps.new] using h1.zero⟩
      · exact Or.inr (h3 e he)
    · intro fin hfin x l q h
      rw [unionBody, hasEdge_append] at h
      rcases h with h | ⟨y, rfl, h⟩
      · have h' : (block n off (Eps.new fin)).HasEdge x l q := h
        refine ⟨?_, block_lead hn h1 (e := Eps.new fin) (by simp [Eps.new]) ?_ ?_ h'⟩
        · rcases (hasEdge_block hn.ne).mp h' with ⟨x', rfl, _⟩ | ⟨_, _, h5⟩
          · omega
          · rw [h5]; show off ≤ fin
            omega
        · intro y hy1 hy2
          exact ⟨fun h => h.resolve_right (fun h => by have := h2 _ h; omega), Or.inl⟩
        · rintro (h | h)
          · have h5 : fin < off + n.length := h.2.1
            omega
          · have h5 : off + n.length ≤ fin ∧ fin < _ := h2 _ h
            omega
      · rw [show (NFA.pushLast (NFA.shift n off) (Eps.new fin)).length = n.length from block_length n off _]
        obtain ⟨h5, h6⟩ := h4 fin (by omega) y l q h
        refine ⟨by omega, ?_⟩
        rw [show off + (n.length + y) = off + n.length + y by omega]
        have e1 : (blockSet n off S1 (off + n.length + y) ∨ S2 (off + n.length + y)) ↔ S2 (off + n.length + y) :=
          ⟨fun h => h.resolve_left (fun h => by have := h.2.1; omega), Or.inr⟩
        have e2 : (blockSet n off S1 q ∨ S2 q) ↔ S2 q :=
          ⟨fun h => h.resolve_left (fun h => by have := h.2.1; omega), Or.inr⟩
        exact h6.congr e1 e2

theorem leadSet_union {ns : List (NFA σ)} (hns : ∀ n ∈ ns, Good n ∧ ∃ S, LeadSet n S) :
    ∃ S, LeadSet (nfaUnion ns) S := by
  obtain ⟨S, h1, h2, h3⟩ := union_lead ns hns 1
  have hlen : (nfaUnion ns).length = 2 + (ns.map List.length).sum := by
    rw [nfaUnion_eq]; simp [unionBody_length]; omega
  refine ⟨fun x => x = 0 ∨ S x, Or.inl rfl, ?_, ?_⟩
  · rintro x (rfl | h)
    · omega
    · have := h1 x h; omega
  · intro p l q h
    by_cases hp : p = 0
    · subst hp
      obtain ⟨rfl, e, he, rfl⟩ := (union_start ns l q).mp h
      exact ⟨fun _ => Or.inl (Or.inr (h2 e he)), fun h => absurd (Or.inl rfl) h⟩
    · rw [nfaUnion_eq, List.append_assoc, hasEdge_append, hasEdge_single] at h
      rcases h with ⟨h, _⟩ | ⟨x, rfl, h⟩
      · exact absurd h hp
      · rcases hasEdge_append.mp h with h | ⟨y, _, h⟩
        · obtain ⟨h4, h5⟩ := h3 _ (Nat.le_refl _) x l q h
          have e1 : ∀ y, 1 ≤ y → ((y = 0 ∨ S y) ↔ S y) := fun y hy =>
            ⟨fun h => h.resolve_left (by omega), Or.inr⟩
          exact h5.congr (e1 (1 + x) (by omega)) (e1 q h4)
        · rw [hasEdge_single] at h; exact absurd h.2 has_new

/-! ### Sequences -/

/-- Some member must cross a start anchor and the members after it have none. -/
def LeadSeq : List (NFA σ) → Prop
  | [] => False
  | n :: ns => ((∃ S, LeadSet n S) ∧ ∀ m ∈ ns, EpsQ (· ≠ .startAnchor) m) ∨ LeadSeq ns

theorem concatBody_ge : ∀ (ns : List (NFA σ)) (off : Nat) {x l q}, (∀ n ∈ ns, Good n) →
    (concatBody off ns).HasEdge x l q → off ≤ q
  | [], _, _, _, _, _, h => absurd h hasEdge_nil
  | n :: ns, off, x, l, q, hns, h => by
    rw [concatBody, hasEdge_append] at h
    rcases h with h | ⟨y, rfl, h⟩
    · rcases (hasEdge_block (hns n (by simp)).ne).mp (show (block n off _).HasEdge x l q from h) with ⟨x', rfl, _⟩ | ⟨_, _, rfl⟩
      · omega
      · simp [Eps.new]
    · have := concatBody_ge ns _ (fun m hm => hns m (by simp [hm])) h
      omega

theorem concatBody_length : ∀ (ns : List (NFA σ)) (off : Nat), (concatBody off ns).length = (ns.map List.length).sum
  | [], _ => rfl
  | n :: ns, off => by
    rw [concatBody, List.length_append, concatBody_length ns]
    simp [pushLast_length, shift_length]

theorem concat_lead : ∀ (ns : List (NFA σ)), (∀ n ∈ ns, Good n) → LeadSeq ns → ∀ off : Nat, ∃ S : Nat → Prop,
    S off ∧ (∀ x, S x → off ≤ x ∧ x < off + (ns.map List.length).sum) ∧
    ∀ x l q, (concatBody off ns).HasEdge x l q → EdgeLead S (off + x) l q
  | [], _, h, _ => h.elim
  | n :: ns, hns, h, off => by
    have hn := hns n (by simp)
    have hns' : ∀ m ∈ ns, Good m := fun m hm => hns m (by simp [hm])
    have hpos : 0 < n.length := List.length_pos_iff.mpr hn.ne
    rcases h with ⟨⟨S, hS⟩, hq⟩ | h
    · refine ⟨blockSet n off S, ⟨Nat.le_refl _, by omega, by simpa using hS.zero⟩, ?_, ?_⟩
      · rintro x ⟨h1, h2, _⟩
        simp only [List.map_cons, List.sum_cons]
        omega
      · intro x l q h
        rw [concatBody, hasEdge_append] at h
        rcases h with h | ⟨y, rfl, h⟩
        · exact block_lead hn hS (e := Eps.new (off + n.length)) (by simp [Eps.new]) (fun _ _ _ => Iff.rfl)
            (fun h => by have := h.2.1; simp [Eps.new] at this) h
        · rw [show (NFA.pushLast (NFA.shift n off) (Eps.new (off + n.length))).length = n.length from block_length n off _]
          have hge := concatBody_ge ns _ hns' h
          refine ⟨fun h => by have := h.2.1; omega, fun _ => ⟨fun h => by have := h.2.1; omega, ?_⟩⟩
          rintro rfl
          rcases (epsQ_concatBody ns _ hq).edge h with h | h
          · simp at h
          · exact h rfl
    · obtain ⟨S, h1, h2, h3⟩ := concat_lead ns hns' h (off + n.length)
      refine ⟨fun x => (off ≤ x ∧ x < off + n.length) ∨ S x, Or.inl ⟨Nat.le_refl _, by omega⟩, ?_, ?_⟩
      · rintro x (h | h)
        · simp only [List.map_cons, List.sum_cons]; omega
        · have := h2 x h
          simp only [List.map_cons, List.sum_cons]; omega
      · intro x l q h
        rw [concatBody, hasEdge_append] at h
        rcases h with h | ⟨y, rfl, h⟩
        · have hx : x < n.length := by
            have := hasEdge_lt (show (block n off (Eps.new (off + n.length))).HasEdge x l q from h)
            rwa [block_length] at this
          refine ⟨fun _ => Or.inl ?_, fun h => absurd (Or.inl ⟨by omega, by omega⟩) h⟩
          rcases (hasEdge_block hn.ne).mp (show (block n off _).HasEdge x l q from h) with ⟨x', rfl, h4⟩ | ⟨_, _, rfl⟩
          · have := hn.wf _ _ _ h4; exact Or.inl ⟨by omega, by omega⟩
          · exact Or.inr h1
        · rw [show (NFA.pushLast (NFA.shift n off) (Eps.new (off + n.length))).length = n.length from block_length n off _]
          have hge := concatBody_ge ns _ hns' h
          have h5 := h3 _ _ _ h
          have e1 : ∀ z, off + n.length ≤ z → (((off ≤ z ∧ z < off + n.length) ∨ S z) ↔ S z) := fun z hz =>
            ⟨fun h => h.resolve_left (by omega), Or.inr⟩
          rw [show off + (n.length + y) = off + n.length + y by omega]
          exact h5.congr (e1 _ (by omega)) (e1 q hge)

theorem leadSet_concat {ns : List (NFA σ)} (hns : ∀ n ∈ ns, Good n) (h : LeadSeq ns) :
    ∃ S, LeadSet (nfaConcat ns) S := by
  obtain ⟨S, h1, h2, h3⟩ := concat_lead ns hns h 1
  have hlen : (nfaConcat ns).length = 2 + (ns.map List.length).sum := by
    rw [nfaConcat]; simp [concatBody_length]; omega
  refine ⟨fun x => x = 0 ∨ S x, Or.inl rfl, ?_, ?_⟩
  · rintro x (rfl | h)
    · omega
    · have := h2 x h; omega
  · intro p l q h
    rw [nfaConcat, List.cons_append, hasEdge_cons] at h
    rcases h with ⟨rfl, h⟩ | ⟨x, rfl, h⟩
    · cases l with
      | sym a => simp [State.Has] at h
      | eps e =>
        simp only [State.Has, Eps.new, List.mem_singleton, Eps.mk.injEq] at h
        obtain ⟨rfl, rfl⟩ := h
        exact ⟨fun _ => Or.inl (Or.inr h1), fun h => absurd (Or.inl rfl) h⟩
    · rcases hasEdge_append.mp h with h | ⟨y, _, h⟩
      · have hge := concatBody_ge ns _ hns h
        have h5 := h3 _ _ _ h
        have e1 : ∀ z, 1 ≤ z → ((z = 0 ∨ S z) ↔ S z) := fun z hz => ⟨fun h => h.resolve_left (by omega), Or.inr⟩
        rw [Nat.add_comm x 1]
        exact h5.congr (e1 _ (by omega)) (e1 q hge)
      · rw [hasEdge_single] at h; exact absurd h.2 has_new

/-! ### Trees and patterns -/

mutual
/-- Every way through the tree crosses a `^` after which there is none. -/
def Tree.Lead : Tree → Prop
  | .start => True
  | .capture t _ => t.Lead
  | .union ts => Tree.LeadAll ts
  | .concat ts => Tree.LeadCat ts
  | .rep t _ => t.Lead
  | _ => False
/-- … each tree of a list. -/
def Tree.LeadAll : List Tree → Prop
  | [] => True
  | t :: ts => t.Lead ∧ Tree.LeadAll ts
/-- … the trees of a list in sequence. -/
def Tree.LeadCat : List Tree → Prop
  | [] => False
  | t :: ts => (t.Lead ∧ Tree.MarkQList (· ≠ .startAnchor) ts) ∨ Tree.LeadCat ts
end

theorem leadSeq_replicate {n : NFA σ} (h : ∃ S, LeadSet n S) : ∀ k, LeadSeq (List.replicate (k + 1) n)
  | 0 => Or.inl ⟨h, by simp⟩
  | k + 1 => Or.inr (leadSeq_replicate h k)

mutual
theorem build_lead : (t : Tree) → t.Lead → ∃ S, LeadSet (build t) S
  | .start, _ => by rw [build]; exact ⟨_, leadSet_start⟩
  | .capture t g, h => by
    rw [Tree.Lead] at h; rw [build]
    obtain ⟨S, h1⟩ := build_lead t h
    exact leadSet_capture (build_good t) h1 g
  | .union ts, h => by rw [Tree.Lead] at h; rw [build]; exact leadSet_union (buildList_lead ts h)
  | .concat ts, h => by
    rw [Tree.Lead] at h; rw [build]; exact leadSet_concat (buildList_good ts) (buildList_leadSeq ts h)
  | .rep t n, h => by
    rw [Tree.Lead] at h; rw [build, nfaRepeat]
    refine leadSet_concat (fun m hm => ?_) (leadSeq_replicate (build_lead t h) n)
    rw [List.eq_of_mem_replicate hm]; exact build_good t
  | .empty, h | .symbol _, h | .upTo _ _ _, h | .star _ _, h | .end_, h | .never, h => by
    rw [Tree.Lead] at h
    · exact h.elim
    all_goals intros; simp_all
theorem buildList_lead : (ts : List Tree) → Tree.LeadAll ts → ∀ n ∈ buildList ts, Good n ∧ ∃ S, LeadSet n S
  | [], _ => by simp [buildList]
  | t :: ts, h => by
    intro n hn
    rw [Tree.LeadAll] at h
    rw [buildList, List.mem_cons] at hn
    rcases hn with rfl | hn
    · exact ⟨build_good t, build_lead t h.1⟩
    · exact buildList_lead ts h.2 n hn
theorem buildList_leadSeq : (ts : List Tree) → Tree.LeadCat ts → LeadSeq (buildList ts)
  | [], h => by rw [Tree.LeadCat] at h; exact h.elim
  | t :: ts, h => by
    rw [Tree.LeadCat] at h
    rw [buildList, LeadSeq]
    rcases h with h | h
    · exact Or.inl ⟨build_lead t h.1, buildList_epsQ ts h.2⟩
    · exact Or.inr (buildList_leadSeq ts h)
end

theorem markQ_noStart_parts (ps : List EREPart) (g : Nat) (h : partsHaveStart ps = false) :
    Tree.MarkQList (· ≠ .startAnchor) (Tree.fromParts ps g).1 :=
  markQ_fromParts ps g (by simp [h]) (by simp) (fun k _ _ => by simp)

mutual
theorem lead_fromSubERE : (e : ERE) → ∀ g, e.leads = true → (Tree.fromSubERE e g).1.Lead
  | .mk bs, g, h => by
    rw [ERE.leads] at h; rw [Tree.fromSubERE, Tree.Lead]; exact lead_fromBranches bs g h
theorem lead_fromBranches : (bs : List EREBranch) → ∀ g, branchesLead bs = true → Tree.LeadAll (Tree.fromBranches bs g).1
  | [], g, _ => by rw [Tree.fromBranches, Tree.LeadAll]; trivial
  | b :: bs, g, h => by
    rw [branchesLead, Bool.and_eq_true] at h
    rw [Tree.fromBranches, Tree.LeadAll]
    exact ⟨lead_fromBranch b g h.1, lead_fromBranches bs _ h.2⟩
theorem lead_fromBranch : (b : EREBranch) → ∀ g, b.leads = true → (Tree.fromBranch b g).1.Lead
  | .mk ps, g, h => by
    rw [EREBranch.leads] at h; rw [Tree.fromBranch, Tree.Lead]; exact lead_fromParts ps g h
theorem lead_fromParts : (ps : List EREPart) → ∀ g, partsLead ps = true → Tree.LeadCat (Tree.fromParts ps g).1
  | [], g, h => by simp [partsLead] at h
  | p :: ps, g, h => by
    rw [partsLead, Bool.or_eq_true, Bool.and_eq_true, Bool.not_eq_true'] at h
    rw [Tree.fromParts, Tree.LeadCat]
    rcases h with ⟨h1, h2⟩ | h
    · exact Or.inl ⟨lead_fromPart p g h1, markQ_noStart_parts ps _ h2⟩
    · exact Or.inr (lead_fromParts ps _ h)
theorem lead_fromPart : (p : EREPart) → ∀ g, p.leads = true → (Tree.fromPart p g).1.Lead
  | .single e, g, h => by rw [EREPart.leads] at h; rw [Tree.fromPart]; exact lead_fromExpr e g h
  | .quantified e q, g, h => by simp [EREPart.leads] at h
  | .start, g, _ => by rw [Tree.fromPart, Tree.Lead]; trivial
  | .end_, g, h => by simp [EREPart.leads] at h
theorem lead_fromExpr : (e : EREExpr) → ∀ g, e.leads = true → (Tree.fromExpr e g).1.Lead
  | .atom a, g, h => by simp [EREExpr.leads] at h
  | .sub e, g, h => by
    rw [EREExpr.leads] at h; rw [Tree.fromExpr, Tree.Lead]; exact lead_fromSubERE e _ h
end

theorem lead_fromERE (e : ERE) (h : e.leads = true) : (Tree.fromERE e).1.Lead := by
  rw [Tree.fromERE, Tree.Lead]; exact lead_fromSubERE e 1 h

/-! ### The loop in front -/

/-- As `LeadSet`, without the start. -/
theorem startSafe_of_lead {L : NFA σ} {S : Nat → Prop} (hne : L ≠ []) (hwf : L.WF) (hlast : ¬ S (L.length - 1))
    (hedge : ∀ p l q, L.HasEdge p l q → EdgeLead S p l q) : StartSafe L.clearZeroSymbol := by
  have hpos : 0 < L.length := List.length_pos_iff.mpr hne
  have hout : ∀ q ls r, EWalk L.clearZeroSymbol q ls r → ¬ S q → ¬ S r ∧ EpsType.startAnchor ∉ ls := by
    intro q ls r hw hq
    induction hw with
    | refl => exact ⟨hq, by simp⟩
    | @tail ls p e r _ he ih =>
      obtain ⟨h1, h2⟩ := ih
      obtain ⟨h3, h4⟩ := (hedge _ _ _ (hasEdge_filterEdges.mp he).1).2 h1
      refine ⟨h3, fun hm => ?_⟩
      rcases List.mem_append.mp hm with hm | hm
      · exact h2 hm
      · simp only [List.mem_singleton] at hm; subst hm; exact h4 rfl
  intro p a q ls he hw
  refine (hout q ls _ hw ?_).2
  obtain ⟨h1, h2⟩ := hasEdge_filterEdges.mp he
  have hp := hasEdge_lt h1
  have hs : ¬ S p := by
    intro hs
    simp only [keeps] at h2
    have h3 : flag L.nodesBeforeStart p = true := by
      have h4 := reachTo_spec (N := L) (ke := (· != .startAnchor)) (kt := true) (s := L.length - 1) (by omega)
      unfold NFA.nodesBeforeStart
      rw [flag_map_not (by simpa [h4.1] using hp)]
      simp only [Bool.not_eq_true', Bool.eq_false_iff, ne_eq]
      rw [h4.2]
      intro hpath
      have : ∀ r, L.Path (· != .startAnchor) true p r → S r := by
        intro r hr
        induction hr with
        | refl => exact hs
        | tail _ he ih =>
          obtain ⟨l, h5, h6⟩ := he
          rcases (hedge _ _ _ h6).1 ih with h7 | h7
          · exact h7
          · subst h7; simp [Sel] at h5
      exact hlast (this _ hpath)
    have h5 : (L.nodesAfterEnd).length = L.length ∧ (L.nodesBeforeStart).length = L.length := by
      unfold NFA.nodesAfterEnd NFA.nodesBeforeStart
      rw [List.length_map, List.length_map]
      exact ⟨(reachFrom_spec hwf hpos).1, (reachTo_spec (by omega)).1⟩
    rw [flag_zipWith_or (by omega) (by omega), h3] at h2
    simp at h2
  exact ((hedge _ _ _ h1).2 hs).1

theorem startSafe_lead {B : NFA σ} (hB : Good B) {S} (hS : LeadSet B S) (a : σ)
    (hw : (B.withLoops a true true).WF) : StartSafe (B.withLoops a true true).clearZeroSymbol := by
  have hLL : (B.withLoops a true true).length = 12 + B.length := by
    rw [withLoops_eq]; simp [block_length]; omega
  refine startSafe_of_lead (S := fun x => x < 6 ∨ blockSet B 6 S x) (by rw [← List.length_pos_iff]; omega) hw ?_ ?_
  · rw [hLL]
    rintro (h | h)
    · omega
    · have := h.2.1; omega
  · intro p l q h
    have hpos : 0 < B.length := List.length_pos_iff.mpr hB.ne
    rw [withLoops_eq, List.append_assoc, hasEdge_append] at h
    rcases h with h | ⟨x, rfl, h⟩
    · have hp := hasEdge_lt h
      refine ⟨fun _ => Or.inl ?_, fun h => absurd (Or.inl hp) h⟩
      have : q ≤ 6 := by
        simp only [hasEdge_cons] at h
        rcases h with ⟨_, h⟩ | ⟨x, _, ⟨_, h⟩ | ⟨x, _, ⟨_, h⟩ | ⟨x, _, ⟨_, h⟩ | ⟨x, _, ⟨_, h⟩ | ⟨x, _, ⟨_, h⟩ | ⟨x, _, h⟩⟩⟩⟩⟩⟩
        all_goals first
          | exact absurd h hasEdge_nil
          | (cases l <;> simp [State.Has, Eps.new] at h <;> omega)
      rcases Nat.lt_or_ge q 6 with h1 | h1
      · exact Or.inl h1
      · have : q = 6 := by omega
        subst this
        exact Or.inr ⟨Nat.le_refl _, by omega, by simpa using hS.zero⟩
    · rcases hasEdge_append.mp h with h | ⟨y, rfl, h7⟩
      · refine block_lead hB hS (e := Eps.new (6 + B.length)) (by simp [Eps.new]) ?_ ?_ h
        · intro y h1 h2; exact ⟨fun h => h.resolve_left (Nat.not_lt.mpr h1), Or.inr⟩
        · rintro (h | h)
          · have h5 : 6 + B.length < 6 := h
            omega
          · have h5 : 6 + B.length < 6 + B.length := h.2.1
            omega
      · rw [block_length]
        have hq : 6 + B.length ≤ q ∧ l ≠ .eps .startAnchor := by
          refine ⟨?_, ?_⟩
          · clear h
            have h := h7
            simp only [hasEdge_cons] at h
            rcases h with ⟨_, h⟩ | ⟨x, _, ⟨_, h⟩ | ⟨x, _, ⟨_, h⟩ | ⟨x, _, ⟨_, h⟩ | ⟨x, _, ⟨_, h⟩ | ⟨x, _, ⟨_, h⟩ | ⟨x, _, h⟩⟩⟩⟩⟩⟩
            all_goals first
              | exact absurd h hasEdge_nil
              | exact absurd h has_new
              | (cases l <;> simp [State.Has, Eps.new] at h <;> omega)
          · rintro rfl
            have : EpsQ (fun _ => False) ([⟨[], [Eps.new (7 + B.length)]⟩, ⟨[], [Eps.new (10 + B.length), Eps.new (8 + B.length)]⟩,
                ⟨[⟨9 + B.length, a⟩], []⟩, ⟨[], [Eps.new (7 + B.length)]⟩, ⟨[], [Eps.new (11 + B.length)]⟩, State.new] : NFA σ) := by
              simp [EpsQ, Eps.new, State.new]
            simpa using this.edge h7
        have e1 : ∀ z, 6 + B.length ≤ z → ¬ (z < 6 ∨ blockSet B 6 S z) := by
          rintro z hz (h | h)
          · omega
          · have := h.2.1; omega
        refine ⟨fun h => absurd h (e1 _ ?_), fun _ => ⟨e1 _ hq.1, hq.2⟩⟩
        show 6 + B.length ≤ 6 + (B.length + y)
        omega

theorem LeadSet.filter {B : NFA σ} {S} (h : LeadSet B S) (fe ft) : LeadSet (B.filterEdges fe ft) S :=
  ⟨h.zero, fun x hx => by rw [filterEdges_length]; exact h.lt x hx,
    fun p l q he => h.edge _ _ _ (hasEdge_filterEdges.mp he).1⟩

/-- Both automata of a pattern that has no `^`, does not match the empty text or has to begin with `^`. -/
theorem startSafe_pipeline (U : Utf8Seqs) (e : ERE) (h : e.StartSimple)
    {N : NFA Atom} {M : NFA U8Atom} (h1 : workingNew (Tree.fromERE e).1 = .ok N) (hN : Ready N)
    (h2 : u8New U.seqs N = .ok M) (hM : M ≠ []) : StartSafe M := by
  have ht := starOk_fromERE e
  have hb := build_shape _ ht
  have hc1 : Shape (build (Tree.fromERE e).1).cleanStartAnchors := filterEdges_shape hb
  have hc : Shape (build (Tree.fromERE e).1).cleanStartAnchors.cleanEndAnchors := filterEdges_shape hc1
  have hl := withLoops_shape hc anyAtom true true
  have hL : StartSafe ((build (Tree.fromERE e).1).cleanStartAnchors.cleanEndAnchors.withLoops anyAtom true true).clearZeroSymbol := by
    rcases h with h | h | h
    · refine startSafe_filter (startSafe_of_epsQ (epsQ_withLoops (epsQ_filter (epsQ_filter (build_epsQ _ ?_) _ _) _ _) _ _ _)) _ _
      exact markQ_fromERE e (by simp [h]) (by simp) (fun k _ _ => by simp)
    · obtain ⟨S, hS⟩ := build_lead _ (lead_fromERE e h)
      exact startSafe_lead hc.good ((hS.filter _ _).filter _ _) anyAtom hl.good.wf
    · refine startSafe_filter (startSafe_withLoops (α := Char) hb.good.wf hb.good.ne _ fun caps hacc => h ?_) _ _
      rw [build_acc] at hacc
      exact (exists_run_iff e []).mp ⟨caps, [], [], [], rfl, hacc⟩
  rw [workingNew, newLoopOpt] at h1
  have hNs : StartSafe N := (startSafe_stable (α := Char)).finish hl hL h1 hN.ne
  obtain ⟨B, ms, ss, I, h3, h4⟩ := u8Build_spec U hN.ne
  rw [u8New, u8NewLoopOpt, h3] at h2
  have h5 : B.finish = .ok M := h2
  exact (startSafe_stable (α := UInt8)).finish (u8Build_shape hN.wf hN.ne hN.rank hN.mix hN.sink h4)
    (startSafe_filter (startSafe_u8Build hN.wf hN.ne h4 hNs) _ _) h5 hM

end Ere
