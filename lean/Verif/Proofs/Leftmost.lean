import Verif.Proofs.FrontBuild
import Verif.Proofs.FirstFlat

/-! Where the reported match begins: the colours of `Front` along runs and epsilon walks, and the flat engines. -/

namespace Ere
variable {σ α : Type}

/-! ### Starts -/

/-- Order of the starts of group 0; a match that has not begun comes last. -/
def KLe : Option Nat → Option Nat → Prop
  | _, none => True
  | none, some _ => False
  | some a, some b => a ≤ b

theorem KLe.refl (a : Option Nat) : KLe a a := by cases a <;> simp [KLe]

theorem KLe.trans {a b c : Option Nat} (h : KLe a b) (h' : KLe b c) : KLe a c := by
  cases a <;> cases b <;> cases c <;> simp only [KLe] at * <;> omega

section
variable [Sym σ α] {Φ : Phases σ α} {N : NFA σ} {col : Nat → Col} {y : Nat}

theorem FrontC.edge' (h : FrontC Φ N col y) {q l p} (he : N.HasEdge q l p) : EdgeCol Φ y (col q) l p (col p) :=
  h.edge _ _ _ (mem_outs.mpr he)

/-- Epsilon edges. -/
theorem FrontC.eps (h : FrontC Φ N col y) {q e p} (he : N.HasEdge q (.eps e) p) :
    (col q = .out → col p = .out ∧ e ≠ .startCapture 0) ∧
    (col q ≠ .out → (e = .startCapture 0 ∧ col p = .out) ∨ (e = .none ∧ col p ≠ .out ∧ (col p).phase = 0 ∧ (col q).phase = 0)) := by
  have := h.edge' he
  cases hq : col q <;> rw [hq] at this <;> simp only [EdgeCol] at this
  · exact ⟨fun _ => ⟨this.2, this.1⟩, fun h => absurd rfl h⟩
  · refine ⟨by simp, fun _ => ?_⟩
    rcases this with h | ⟨h, h'⟩
    · exact .inl h
    · exact .inr ⟨h, by simp [h'], by simp [h', Col.phase], rfl⟩
  · refine ⟨by simp, fun _ => ?_⟩
    rcases this with h | ⟨h, h', h''⟩
    · exact .inl h
    · exact .inr ⟨h, h', h'', rfl⟩
  · refine ⟨by simp, fun _ => .inr ⟨this.2.1, by simp [this.2.2], by simp [this.2.2, Col.phase], by simp [Col.phase, this.1]⟩⟩

/-- Symbol edges. -/
theorem FrontC.sym (h : FrontC Φ N col y) {q a p} (he : N.HasEdge q (.sym a) p) :
    (col q = .out ∧ col p = .out) ∨
    (∃ i, col q = .loop i) ∧ col p ≠ .out ∧ Φ.ok (col q).phase a (col p).phase ∧ ((col p).phase = 0 → p = y) := by
  have := h.edge' he
  cases hq : col q <;> rw [hq] at this <;> simp only [EdgeCol] at this
  · exact .inl ⟨rfl, this⟩
  · exact .inr ⟨⟨_, rfl⟩, this⟩

/-- A run has begun a match exactly if it is at an `out` state. -/
theorem FrontC.run (h : FrontC Φ N col y) {text : List α} {x off rest caps}
    (hr : ReachE N.HasEdge (0, ⟨0, text, []⟩) (x, ⟨off, rest, caps⟩)) :
    (col x = .out → ∃ i, caps.start? 0 = some i ∧ i ≤ off) ∧ (col x ≠ .out → caps.start? 0 = none ∧
      ∃ pre, text = pre ++ rest ∧ (col x).phase = pre.foldl Φ.next 0) := by
  refine reachE_tail_induction (P := fun x d => (col x = .out → ∃ i, d.caps.start? 0 = some i ∧ i ≤ d.off) ∧
    (col x ≠ .out → d.caps.start? 0 = none ∧
      ∃ pre, text = pre ++ d.rest ∧ (col x).phase = pre.foldl Φ.next 0)) hr ?_ ?_
  · exact ⟨fun h0 => absurd h0 h.zero.1, fun _ => ⟨rfl, [], rfl, h.zero.2⟩⟩
  · intro q1 d1 l q2 d2 _ ih he hl
    cases l with
    | sym a =>
      obtain ⟨c, r, h1, h2, rfl⟩ := symStep_iff.mp (show symStep a d1 = some d2 from hl)
      rcases h.sym he with ⟨g1, g2⟩ | ⟨⟨i, g1⟩, g2, g3, g4⟩
      · obtain ⟨i, h3, h4⟩ := ih.1 g1
        exact ⟨fun _ => ⟨i, h3, by simp only; omega⟩, fun h => absurd g2 h⟩
      · obtain ⟨h3, pre, h4, h5⟩ := ih.2 (by simp [g1])
        refine ⟨fun h => absurd h g2, fun _ => ⟨h3, pre ++ [c], by rw [h4, h1]; simp, ?_⟩⟩
        rw [List.foldl_append, ← h5]
        exact (Φ.ok_next g3 h2).symm
    | eps e =>
      have hst : epsStep e d1 = some d2 := hl
      have hsh := epsStep_shape hst
      obtain ⟨k1, k2⟩ := h.eps he
      by_cases hq : col q1 = .out
      · obtain ⟨g1, g2⟩ := k1 hq
        refine ⟨fun _ => ?_, fun h => absurd g1 h⟩
        obtain ⟨i, h3, h4⟩ := ih.1 hq
        refine ⟨i, ?_, by rw [hsh.1]; exact h4⟩
        cases e with
        | none => simp [epsStep] at hst; subst hst; exact h3
        | startAnchor => simp [epsStep] at hst; obtain ⟨_, rfl⟩ := hst; exact h3
        | endAnchor => simp [epsStep] at hst; obtain ⟨_, rfl⟩ := hst; exact h3
        | startCapture k =>
          simp [epsStep] at hst; subst hst
          simp only [Caps.setStart]
          have : ¬ k = 0 := fun hk => g2 (by rw [hk])
          rw [start?_append, h3]
          simp [Caps.start?, this]
        | endCapture k =>
          simp [epsStep] at hst; subst hst
          simp only [Caps.setEnd]
          rw [start?_append, h3]
          simp [Caps.start?]
      · obtain ⟨h3, pre, h4, h5⟩ := ih.2 hq
        rcases k2 hq with ⟨rfl, g1⟩ | ⟨rfl, g1, g2, g3⟩
        · refine ⟨fun _ => ⟨d1.off, ?_, by rw [hsh.1]⟩, fun h => absurd g1 h⟩
          simp [epsStep] at hst; subst hst
          simp only [Caps.setStart]
          rw [start?_append, h3]
          simp [Caps.start?]
        · simp [epsStep] at hst; subst hst
          exact ⟨fun h => absurd h g1, fun _ => ⟨h3, pre, h4, by rw [g2, ← h5, g3]⟩⟩

/-- Walks that start in a match. -/
theorem FrontC.walk_out (h : FrontC Φ N col y) {q ls p} (hw : EWalk N q ls p) (hq : col q = .out) :
    col p = .out ∧ EpsType.startCapture 0 ∉ ls := by
  induction hw with
  | refl => exact ⟨hq, by simp⟩
  | tail _ he ih =>
    obtain ⟨h1, h2⟩ := ih
    obtain ⟨h3, h4⟩ := (h.eps he).1 h1
    refine ⟨h3, ?_⟩
    simp only [List.mem_append, List.mem_singleton, not_or]
    exact ⟨h2, fun h => h4 h.symm⟩

/-- Walks that start before a match. -/
theorem FrontC.walk_in (h : FrontC Φ N col y) {q ls p} (hw : EWalk N q ls p) (hq : col q ≠ .out) :
    (col p = .out ∧ EpsType.startCapture 0 ∈ ls) ∨ (col p ≠ .out ∧ ∀ e ∈ ls, e = .none) := by
  induction hw with
  | refl => exact .inr ⟨hq, by simp⟩
  | tail _ he ih =>
    rcases ih with ⟨h1, h2⟩ | ⟨h1, h2⟩
    · exact .inl ⟨((h.eps he).1 h1).1, by simp [h2]⟩
    · rcases (h.eps he).2 h1 with ⟨rfl, h3⟩ | ⟨rfl, h3, _⟩
      · exact .inl ⟨h3, by simp⟩
      · refine .inr ⟨h3, fun e he => ?_⟩
        simp only [List.mem_append, List.mem_singleton] at he
        rcases he with he | he
        · exact h2 e he
        · exact he

/-- No walks from the middle of a character. -/
theorem FrontC.walk_mid (h : FrontC Φ N col y) {q ls p} (hw : EWalk N q ls p) (hq : col q ≠ .out) (hp : (col q).phase ≠ 0) :
    p = q ∧ ls = [] := by
  induction hw with
  | refl => exact ⟨rfl, rfl⟩
  | tail _ he ih =>
    obtain ⟨rfl, _⟩ := ih
    have hed := h.edge' he
    cases hc : col _ <;> rw [hc] at hed hp hq <;> simp only [EdgeCol, Col.phase] at hed hp <;> first | exact absurd rfl hp | exact absurd rfl hq | skip
    exact absurd hed.1 hp

/-! ### The order of epsilon propagations -/

/-- Is the symbol of the front loop read here? -/
def Col.isLoop : Col → Bool
  | .loop _ => true
  | _ => false

/-- Nothing of the loop comes before something in a match. -/
def Srt (col : Nat → Col) (l : List EpsProp) : Prop :=
  l.Pairwise (fun a b => (col a.state).isLoop = true → col b.state ≠ .out)

/-- What a search from a state of a colour adds. -/
structure AddOk (col : Nat → Col) (c : Col) (l : List EpsProp) : Prop where
  srt : Srt col l
  out : c = .out → ∀ t ∈ l, col t.state = .out
  early : ¬ c.Late → ∀ t ∈ l, (col t.state).isLoop = false
  loop : c.isLoop = true → ∀ t ∈ l, col t.state ≠ .out

theorem fold_addOk {col : Nat → Col} {f : List EpsProp → EpsProp → Except Err (List EpsProp)} : ∀ (L out out' : List EpsProp),
    (∀ z ∈ L, ∀ o o', f o z = .ok o' → ∃ l, o' = o ++ l ∧ AddOk col (col z.state) l) →
    L.Pairwise (fun a b => (col a.state).Late → col b.state = .loop 0) →
    L.foldlM f out = .ok out' →
    ∃ l, out' = out ++ l ∧ Srt col l ∧ ((∀ z ∈ L, col z.state = .out) → ∀ t ∈ l, col t.state = .out) ∧
      ((∀ z ∈ L, ¬ (col z.state).Late) → ∀ t ∈ l, (col t.state).isLoop = false) ∧
      ((∀ z ∈ L, (col z.state).isLoop = true) → ∀ t ∈ l, col t.state ≠ .out) := by
  intro L
  induction L with
  | nil =>
    intro out out' _ _ h
    refine ⟨[], ?_, List.Pairwise.nil, by simp, by simp, by simp⟩
    rw [List.append_nil]
    exact (Except.ok.inj h).symm
  | cons z L ih =>
    intro out out' hz hp h
    rw [List.foldlM_cons] at h
    cases hf : f out z with
    | error e => rw [hf] at h; cases h
    | ok o1 =>
      rw [hf] at h
      obtain ⟨l1, rfl, h1⟩ := hz z (by simp) _ _ hf
      rw [List.pairwise_cons] at hp
      obtain ⟨l2, rfl, h2, h3, h4, h5⟩ := ih _ _ (fun z hz' => hz z (by simp [hz'])) hp.2 h
      refine ⟨l1 ++ l2, by simp, ?_, ?_, ?_, ?_⟩
      · refine List.pairwise_append.mpr ⟨h1.srt, h2, fun a ha b hb hl => ?_⟩
        by_cases hlate : (col z.state).Late
        · exact h5 (fun w hw => by rw [hp.1 w hw hlate]; rfl) b hb
        · rw [h1.early hlate a ha] at hl; simp at hl
      · intro hall t ht
        rcases List.mem_append.mp ht with ht | ht
        · exact h1.out (hall z (by simp)) t ht
        · exact h3 (fun w hw => hall w (by simp [hw])) t ht
      · intro hall t ht
        rcases List.mem_append.mp ht with ht | ht
        · exact h1.early (hall z (by simp)) t ht
        · exact h4 (fun w hw => hall w (by simp [hw])) t ht
      · intro hall t ht
        rcases List.mem_append.mp ht with ht | ht
        · exact h1.loop (hall z (by simp)) t ht
        · exact h5 (fun w hw => hall w (by simp [hw])) t ht

theorem FrontC.preorder (h : FrontC Φ N col y) : ∀ (k : Nat) (x : EpsProp) (out out' : List EpsProp),
    Ere.preorder N.propSucc k x out = .ok out' → ∃ l, out' = out ++ l ∧ AddOk col (col x.state) l := by
  intro k
  induction k with
  | zero => intro x out out' h; simp [Ere.preorder] at h
  | succ k ih =>
    intro x out out' hx
    rw [Ere.preorder] at hx
    have hmem : ∀ z ∈ N.propSucc x, ∃ e, N.HasEdge x.state (.eps e) z.state := by
      intro z hz
      unfold NFA.propSucc at hz
      split at hz
      · rename_i s hs
        obtain ⟨e, he, rfl⟩ := List.mem_map.mp hz
        exact ⟨e.special, by rw [extend_state]; exact hasEdge_iff.mpr ⟨s, hs, he⟩⟩
      · simp at hz
    have hcol : (col x.state = .out → ∀ z ∈ N.propSucc x, col z.state = .out) ∧
        (col x.state = .gate → ∀ z ∈ N.propSucc x, ¬ (col z.state).Late) ∧
        ((col x.state).isLoop = true → ∀ z ∈ N.propSucc x, col z.state = .loop 0) := by
      refine ⟨fun hc z hz => ?_, fun hc z hz => ?_, fun hc z hz => ?_⟩
      · obtain ⟨e, he⟩ := hmem z hz
        exact ((h.eps he).1 hc).1
      · obtain ⟨e, he⟩ := hmem z hz
        have := h.edge' he
        rw [hc] at this
        rcases this with ⟨_, g⟩ | ⟨_, g⟩ <;> rw [g] <;> exact id
      · obtain ⟨e, he⟩ := hmem z hz
        have := h.edge' he
        cases hcx : col x.state <;> rw [hcx] at hc this <;> simp [Col.isLoop] at hc
        exact this.2.2
    have hpw : (N.propSucc x).Pairwise (fun a b => (col a.state).Late → col b.state = .loop 0) := by
      cases hc : col x.state with
      | out =>
        refine List.Pairwise.imp_of_mem (R := fun _ _ => True) (fun {a b} ha _ _ hl => ?_) (List.pairwise_of_forall fun _ _ => trivial)
        rw [hcol.1 hc a ha] at hl; exact hl.elim
      | gate =>
        refine List.Pairwise.imp_of_mem (R := fun _ _ => True) (fun {a b} ha _ _ hl => ?_) (List.pairwise_of_forall fun _ _ => trivial)
        exact absurd hl (hcol.2.1 hc a ha)
      | loop i =>
        refine List.Pairwise.imp_of_mem (R := fun _ _ => True) (fun {a b} _ hb _ _ => ?_) (List.pairwise_of_forall fun _ _ => trivial)
        exact hcol.2.2 (by rw [hc]; rfl) b hb
      | both =>
        have ho := h.order _ hc
        unfold NFA.propSucc
        unfold NFA.outs at ho
        split
        · rename_i s hs
          rw [hs] at ho
          simp only [State.outs] at ho
          have ho := (List.pairwise_append.mp ho).2.1
          rw [List.pairwise_map] at ho ⊢
          refine ho.imp ?_
          intro a b hab
          rw [extend_state, extend_state]
          exact hab
        · exact List.Pairwise.nil
    obtain ⟨l, h1, h2, h3, h4, h5⟩ := fold_addOk (col := col) _ _ _ (by
      intro z _ o o' ho
      split at ho
      · refine ⟨[], by rw [List.append_nil]; exact (Except.ok.inj ho).symm, List.Pairwise.nil, by simp, by simp, by simp⟩
      · exact ih _ _ _ ho) hpw hx
    refine ⟨x :: l, by rw [h1]; simp, ?_, ?_, ?_, ?_⟩
    · refine List.pairwise_cons.mpr ⟨fun b hb hl => ?_, h2⟩
      exact h5 (fun z hz => by rw [hcol.2.2 hl z hz]; rfl) b hb
    · intro hc t ht
      rcases List.mem_cons.mp ht with rfl | ht
      · exact hc
      · exact h3 (hcol.1 hc) t ht
    · intro hc t ht
      have hc' : col x.state = .out ∨ col x.state = .gate := by
        cases hcx : col x.state <;> rw [hcx] at hc <;> simp [Col.Late] at hc ⊢
      rcases List.mem_cons.mp ht with rfl | ht
      · rcases hc' with hc | hc <;> rw [hc] <;> rfl
      · refine h4 (fun z hz => ?_) t ht
        rcases hc' with hc | hc
        · rw [hcol.1 hc z hz]; exact id
        · exact hcol.2.1 hc z hz
    · intro hc t ht
      rcases List.mem_cons.mp ht with rfl | ht
      · intro ho; rw [ho] at hc; simp [Col.isLoop] at hc
      · exact h5 (fun z hz => by rw [hcol.2.2 hc z hz]; rfl) t ht

/-- States at which threads rest are in a match or at the symbol of the loop. -/
theorem FrontC.rest (h : FrontC Φ N col y) {x} (hr : N.Rest x) : col x = .out ∨ (col x).isLoop = true := by
  rcases hr with ⟨a, q, he⟩ | hl
  · rcases h.sym he with ⟨h1, _⟩ | ⟨⟨i, h1⟩, _⟩
    · exact .inl h1
    · exact .inr (by rw [h1]; rfl)
  · exact .inl (by rw [show x = N.length - 1 by omega]; exact h.last)

/-- The updates executed for a state outside a match: those that begin one come first. -/
theorem FrontC.updates (h : FrontC Φ N col y) {F : Flat σ} (hc : compileFlat N = .ok F) (hF : FlatOk N F) {q : Nat}
    (hq : q < N.length) (hex : N.excludedFlat q = false) (hcol : col q ≠ .out) (s e : Bool) :
    (F.updates s e q).Pairwise (fun a b => col b.state = .out → col a.state = .out) := by
  obtain ⟨R, h1, h2⟩ := compileFlat_at hc hq hex
  obtain ⟨l, h3, h4⟩ := h.preorder _ _ _ _ h1
  rw [List.nil_append] at h3
  subst h3
  have hat : (F.at q).Pairwise (fun a b => col b.state = .out → col a.state = .out) := by
    rw [h2]
    refine List.Pairwise.imp_of_mem ?_ (h4.srt.sublist List.filter_sublist)
    intro a b ha hb hab hbo
    rcases h.rest (keeps_rest.mp (List.mem_filter.mp ha).2) with h5 | h5
    · exact h5
    · exact absurd hbo (hab h5)
  have hanch : ∀ t ∈ F.at q, (t.startOnly = true ∨ t.endOnly = true) → col t.state = .out := by
    intro t ht ha
    obtain ⟨_, ls, h5, h6⟩ := (hF.mem q hq hex t).mp ht
    rcases h.walk_in h5 hcol with ⟨h7, _⟩ | ⟨_, h7⟩
    · exact h7
    · exfalso
      rw [h6] at ha
      simp only [walkSummary, List.contains_iff_mem] at ha
      rcases ha with ha | ha <;> simpa using h7 _ ha
  unfold Flat.updates
  have hin : ∀ b : Bool, ∀ f : EpsProp → Bool, (∀ t, f t = true → t.startOnly = true ∨ t.endOnly = true) →
      ∀ t ∈ (if b = true then (F.at q).filter f else []), col t.state = .out := by
    intro b f hf t ht
    split at ht
    · obtain ⟨g1, g2⟩ := List.mem_filter.mp ht
      exact hanch t g1 (hf t g2)
    · simp at ht
  refine List.pairwise_append.mpr ⟨?_, hat.sublist List.filter_sublist, ?_⟩
  · refine List.Pairwise.imp_of_mem (R := fun _ _ => True) (fun {a b} ha _ _ _ => ?_) (List.pairwise_of_forall fun _ _ => trivial)
    rcases List.mem_append.mp ha with ha | ha
    · rcases List.mem_append.mp ha with ha | ha
      · exact hin _ _ (by intro t ht; simp at ht; exact .inl ht.1) a ha
      · exact hin _ _ (by intro t ht; simp at ht; exact .inl ht.1) a ha
    · exact hin _ _ (by intro t ht; simp at ht; exact .inr ht.2) a ha
  · intro a ha b _ _
    rcases List.mem_append.mp ha with ha | ha
    · rcases List.mem_append.mp ha with ha | ha
      · exact hin _ _ (by intro t ht; simp at ht; exact .inl ht.1) a ha
      · exact hin _ _ (by intro t ht; simp at ht; exact .inl ht.1) a ha
    · exact hin _ _ (by intro t ht; simp at ht; exact .inr ht.2) a ha

/-! ### Runs up to the last symbol -/

/-- A run that ends with a symbol or has not moved. -/
def SeedRun (N : NFA σ) (text : List α) (s off : Nat) (rest : List α) (caps : Caps) : Prop :=
  (s = 0 ∧ off = 0 ∧ rest = text ∧ caps = []) ∨
  ∃ q0 off0 c a, ReachE N.HasEdge (0, ⟨0, text, []⟩) (q0, ⟨off0, c :: rest, caps⟩) ∧ off = off0 + Sym.len (σ := σ) c ∧
    N.HasEdge q0 (.sym a) s ∧ Sym.check a c = true

theorem SeedRun.seed {text : List α} {s off rest caps} (h : SeedRun N text s off rest caps) : N.Seed text s off rest := by
  rcases h with ⟨h1, h2, h3, _⟩ | ⟨q0, off0, c, a, h1, h2, h3, h4⟩
  · exact .inl ⟨h1, h2, h3⟩
  · exact .inr ⟨q0, off0, c, a, ⟨caps, h1⟩, h2, h3, h4⟩

theorem SeedRun.reach {text : List α} {s off rest caps} (h : SeedRun N text s off rest caps) :
    ReachE N.HasEdge (0, ⟨0, text, []⟩) (s, ⟨off, rest, caps⟩) := by
  rcases h with ⟨rfl, rfl, rfl, rfl⟩ | ⟨q0, off0, c, a, h1, rfl, h3, h4⟩
  · exact reachE_refl
  · exact reachE_trans h1 (reachE_step h3 (show symStep a ⟨off0, c :: rest, caps⟩ = _ from
      symStep_iff.mpr ⟨c, rest, rfl, h4, rfl⟩))

theorem seed_run {text : List α} {s off rest} (h : N.Seed text s off rest) : ∃ caps, SeedRun N text s off rest caps := by
  rcases h with ⟨h1, h2, h3⟩ | ⟨q0, off0, c, a, ⟨caps, h1⟩, h2, h3, h4⟩
  · exact ⟨[], .inl ⟨h1, h2, h3, rfl⟩⟩
  · exact ⟨caps, .inr ⟨q0, off0, c, a, h1, h2, h3, h4⟩⟩

theorem run_split {text : List α} {x off rest caps} (h : ReachE N.HasEdge (0, ⟨0, text, []⟩) (x, ⟨off, rest, caps⟩)) :
    ∃ s caps0 ls, SeedRun N text s off rest caps0 ∧ EWalk N s ls x ∧
      (∀ e ∈ ls, epsGuard off (unitLen σ text) e = true) ∧ caps = caps0 ++ walkEvents off ls := by
  refine reachE_tail_induction (P := fun x d => ∃ s caps0 ls, SeedRun N text s d.off d.rest caps0 ∧ EWalk N s ls x ∧
      (∀ e ∈ ls, epsGuard d.off (unitLen σ text) e = true) ∧ d.caps = caps0 ++ walkEvents d.off ls) h ?_ ?_
  · exact ⟨0, [], [], .inl ⟨rfl, rfl, rfl, rfl⟩, .refl, by simp, rfl⟩
  · rintro q1 d1 l q2 d2 hr ⟨s, caps0, ls, hs, hw, hg, hc⟩ he hl
    cases l with
    | sym a =>
      obtain ⟨c, r, h1, h2, rfl⟩ := symStep_iff.mp (show symStep a d1 = some d2 from hl)
      refine ⟨q2, d1.caps, [], .inr ⟨q1, d1.off, c, a, ?_, rfl, he, h2⟩, .refl, by simp, by simp [walkEvents]⟩
      rw [← h1]; exact hr
    | eps e =>
      have hst : epsStep e d1 = some d2 := hl
      have hsh := epsStep_shape hst
      obtain ⟨s', e1, e2⟩ := reach_pos hr
      simp only at e1 e2
      have hge := epsStep_guard (σ := σ) (total := unitLen σ text) (by
        rw [e1, unitLen_append]; omega) hst
      rw [hsh.1, hsh.2]
      refine ⟨s, caps0, ls ++ [e], hs, .tail hw he, ?_, ?_⟩
      · intro e' he'
        simp only [List.mem_append, List.mem_singleton] at he'
        rcases he' with he' | rfl
        · exact hg e' he'
        · exact hge
      · have : walkEvents d1.off (ls ++ [e]) = walkEvents d1.off ls ++ walkEvents d1.off [e] := by
          simp [walkEvents]
        rw [this, ← List.append_assoc, ← hc]
        cases e with
        | none => simp [epsStep] at hst; subst hst; simp [walkEvents]
        | startAnchor => simp [epsStep] at hst; obtain ⟨_, rfl⟩ := hst; simp [walkEvents]
        | endAnchor => simp [epsStep] at hst; obtain ⟨_, rfl⟩ := hst; simp [walkEvents]
        | startCapture k => simp [epsStep] at hst; subst hst; simp [walkEvents, Caps.setStart]
        | endCapture k => simp [epsStep] at hst; subst hst; simp [walkEvents, Caps.setEnd]

/-- At any position at most one state outside a match is entered, unless it is in the middle of a character. -/
theorem FrontC.uniq (h : FrontC Φ N col y) {text : List α} {s s' off rest} (hs : N.Seed text s off rest)
    (hs' : N.Seed text s' off rest) (hc : col s ≠ .out) (hc' : col s' ≠ .out) :
    (col s).phase = (col s').phase ∧ ((col s).phase = 0 → s = s') := by
  have hphase : (col s).phase = (col s').phase := by
    obtain ⟨caps, h1⟩ := at_of_seed hs
    obtain ⟨caps', h1'⟩ := at_of_seed hs'
    obtain ⟨_, pre, e1, e2⟩ := (h.run h1).2 hc
    obtain ⟨_, pre', e1', e2'⟩ := (h.run h1').2 hc'
    rw [e1] at e1'
    rw [e2, e2', List.append_cancel_right e1']
  refine ⟨hphase, fun h0 => ?_⟩
  have key : ∀ s, N.Seed text s off rest → col s ≠ .out → (col s).phase = 0 → (s = 0 ∧ off = 0) ∨ (s = y ∧ off ≠ 0) := by
    rintro s (⟨h1, h2, _⟩ | ⟨q0, off0, c, a, _, h2, h3, _⟩) hc h0
    · exact .inl ⟨h1, h2⟩
    · have := Sym.len_pos (σ := σ) c
      rcases h.sym h3 with ⟨_, h4⟩ | ⟨_, _, _, h4⟩
      · exact absurd h4 hc
      · exact .inr ⟨h4 h0, by omega⟩
  rcases key s hs hc h0 with ⟨h1, h2⟩ | ⟨h1, h2⟩ <;> rcases key s' hs' hc' (hphase ▸ h0) with ⟨h1', h2'⟩ | ⟨h1', h2'⟩
  · rw [h1, h1']
  · exact absurd h2 h2'
  · exact absurd h2' h2
  · rw [h1, h1']

/-! ### Threads in order -/

/-- Where the match of a thread begins. -/
def Thread.key (t : Thread) : Option Nat := t.caps[0]?.bind (·.1)

omit [Sym σ α] in
theorem groups_pos (N : NFA σ) : 0 < N.numCaptureGroups := by unfold NFA.numCaptureGroups; omega

omit [Sym σ α] in
theorem key_slots {s : Nat} {caps : Caps} : (Thread.mk s (slotsOf N.numCaptureGroups caps)).key = caps.start? 0 := by
  unfold Thread.key
  rw [slotsOf_get (groups_pos N)]
  rfl

/-- Threads before the epsilon phase are in order and none starts too far right. -/
structure SeedMin (N : NFA σ) (text : List α) (off : Nat) (rest : List α) (T : List Thread) : Prop where
  sorted : T.Pairwise (fun a b => KLe a.key b.key)
  min : ∀ s caps, SeedRun N text s off rest caps → ∃ th ∈ T, th.state = s ∧ KLe th.key (caps.start? 0)

/-- The same after the epsilon phase. -/
structure RestMin (N : NFA σ) (text : List α) (off : Nat) (rest : List α) (T : List Thread) : Prop where
  sorted : T.Pairwise (fun a b => KLe a.key b.key)
  min : ∀ x caps, N.Rest x → ReachE N.HasEdge (0, ⟨0, text, []⟩) (x, ⟨off, rest, caps⟩) →
    ∃ th ∈ T, th.state = x ∧ KLe th.key (caps.start? 0)

omit [Sym σ α] in
theorem push_key {off : Nat} {kf : Thread × EpsProp → Option Nat} : ∀ (ps : List (Thread × EpsProp)) (acc T : List Thread),
    (∀ p ∈ ps, ∃ c, p.2.tags.foldlM (applyTag off) p.1.caps = .ok c ∧ (Thread.mk p.2.state c).key = kf p) →
    (acc.map Thread.key ++ ps.map kf).Pairwise KLe → ps.foldlM (pushThread off) acc = .ok T →
    T.Pairwise (fun a b => KLe a.key b.key) ∧ (∀ th ∈ acc, th ∈ T) ∧
      ∀ p ∈ ps, ∃ th ∈ T, th.state = p.2.state ∧ KLe th.key (kf p) := by
  intro ps
  induction ps with
  | nil =>
    intro acc T _ h2 h3
    have h3 := Except.ok.inj h3
    subst h3
    simp only [List.map_nil, List.append_nil, List.pairwise_map] at h2
    exact ⟨h2, fun _ h => h, by simp⟩
  | cons p ps ih =>
    intro acc T h1 h2 h3
    rw [List.foldlM_cons] at h3
    have key : ∃ acc1, pushThread off acc p = .ok acc1 ∧ (acc1.map Thread.key ++ ps.map kf).Pairwise KLe ∧
        (∀ th ∈ acc, th ∈ acc1) ∧ ∃ th ∈ acc1, th.state = p.2.state ∧ KLe th.key (kf p) := by
      unfold pushThread
      split
      · rename_i hany
        obtain ⟨th, g1, g2⟩ := List.any_eq_true.mp hany
        refine ⟨acc, rfl, ?_, fun _ h => h, th, g1, by simpa using g2, ?_⟩
        · refine h2.sublist ?_
          rw [List.map_cons]
          exact List.Sublist.append (List.Sublist.refl _) (List.sublist_cons_self _ _)
        · exact (List.pairwise_append.mp h2).2.2 _ (List.mem_map.mpr ⟨th, g1, rfl⟩) _ (by simp)
      · obtain ⟨c, g1, g2⟩ := h1 p (by simp)
        rw [g1]
        refine ⟨_, rfl, ?_, fun th h => by simp [h], ⟨p.2.state, c⟩, by simp, rfl, by rw [g2]; exact KLe.refl _⟩
        rw [List.map_append, List.append_assoc]
        simpa [g2] using h2
    obtain ⟨acc1, k1, k2, k3, k4⟩ := key
    rw [k1] at h3
    obtain ⟨r1, r2, r3⟩ := ih acc1 T (fun p hp => h1 p (by simp [hp])) k2 h3
    refine ⟨r1, fun th h => r2 th (k3 th h), ?_⟩
    intro p' hp'
    rcases List.mem_cons.mp hp' with rfl | hp'
    · obtain ⟨th, a, b⟩ := k4; exact ⟨th, r2 th a, b⟩
    · exact r3 p' hp'

omit [Sym σ α] in
theorem push_dup {off : Nat} {acc : List Thread} : ∀ (ps : List (Thread × EpsProp)),
    (∀ p ∈ ps, ∃ th ∈ acc, th.state = p.2.state) → ps.foldlM (pushThread off) acc = .ok acc := by
  intro ps
  induction ps with
  | nil => intro _; rfl
  | cons p ps ih =>
    intro h
    rw [List.foldlM_cons]
    have : pushThread off acc p = .ok acc := by
      unfold pushThread
      obtain ⟨th, h1, h2⟩ := h p (by simp)
      rw [if_pos (List.any_eq_true.mpr ⟨th, h1, by simp [h2]⟩)]
    rw [this]
    exact ih fun p hp => h p (by simp [hp])

theorem split_late {β : Type} {P : β → Prop} : ∀ (T : List β), T.Pairwise (fun a b => ¬ P a → ¬ P b) →
    (∀ a ∈ T, P a) ∨ ∃ S t U, T = S ++ t :: U ∧ (∀ a ∈ S, P a) ∧ ¬ P t ∧ ∀ a ∈ U, ¬ P a := by
  intro T
  induction T with
  | nil => intro _; exact .inl (by simp)
  | cons a T ih =>
    intro h
    rw [List.pairwise_cons] at h
    by_cases ha : P a
    · rcases ih h.2 with h1 | ⟨S, t, U, rfl, h2, h3, h4⟩
      · exact .inl (by simpa [ha] using h1)
      · exact .inr ⟨a :: S, t, U, rfl, by simpa [ha] using h2, h3, h4⟩
    · exact .inr ⟨[], a, T, rfl, by simp, ha, fun b hb => h.1 b hb ha⟩

theorem epsExec_min (hN : Ready N) (h : FrontC Φ N col y) {F : Flat σ} (hc : compileFlat N = .ok F) (hF : FlatOk N F)
    {text pre : List α} {off rest} {T T' : List Thread} (htx : text = pre ++ rest) (hoff : off = unitLen σ pre)
    (hT : SeedThreads N text off rest T) (hm : SeedMin N text off rest T)
    (hr : F.epsExec off (unitLen σ text) T = .ok T') : RestMin N text off rest T' := by
  have htot : off + unitLen σ rest = unitLen σ text := by rw [htx, unitLen_append, hoff]
  obtain ⟨ups, hups⟩ : ∃ ups, ups = F.updates (off == 0) (off == unitLen σ text) := ⟨_, rfl⟩
  obtain ⟨cand, hcand⟩ : ∃ cand : List Thread → List (Thread × EpsProp),
    cand = fun T => T.flatMap (fun th => (ups th.state).map (fun u => (th, u))) := ⟨_, rfl⟩
  have hmem : ∀ T p, p ∈ cand T ↔ p.1 ∈ T ∧ p.2 ∈ ups p.1.state := by
    intro T p
    rw [hcand]
    simp only [List.mem_flatMap, List.mem_map]
    constructor
    · rintro ⟨th, h1, u, h2, rfl⟩; exact ⟨h1, h2⟩
    · rintro ⟨h1, h2⟩; exact ⟨_, h1, _, h2, rfl⟩
  have hr' : (cand T).foldlM (pushThread off) [] = .ok T' := by rw [hcand, hups]; exact hr
  -- walks behind updates
  have hwalk : ∀ q u, u ∈ ups q → q < N.length ∧ N.excludedFlat q = false ∧ ∃ ls, EWalk N q ls u.state ∧
      u = walkSummary u.state ls := by
    intro q u hu
    rw [hups] at hu
    obtain ⟨hlt, hex⟩ := updates_sound hF hu
    obtain ⟨_, ls, h6, h7⟩ := (hF.mem _ hlt hex u).mp (mem_updates.mp hu).1
    exact ⟨hlt, hex, ls, h6, h7⟩
  have hkey : ∀ th ∈ T, (col th.state = .out → ∃ i, th.key = some i ∧ i ≤ off) ∧ (col th.state ≠ .out → th.key = none) := by
    intro th hth
    obtain ⟨caps, h1, h2⟩ := (hT.sound th hth).1
    have h3 : th.key = caps.start? 0 := by
      obtain ⟨s, cc⟩ := th
      simp only at h2
      rw [h2]; exact key_slots
    rw [h3]
    exact ⟨(h.run h1).1, fun hc => ((h.run h1).2 hc).1⟩
  obtain ⟨kf, hkf⟩ : ∃ kf : Thread × EpsProp → Option Nat, kf = fun p =>
    if col p.1.state = .out then p.1.key else if col p.2.state = .out then some off else none := ⟨_, rfl⟩
  have hres : ∀ p ∈ cand T, ∃ c, p.2.tags.foldlM (applyTag off) p.1.caps = .ok c ∧ (Thread.mk p.2.state c).key = kf p := by
    rintro ⟨th, u⟩ hp
    obtain ⟨h1, h2⟩ := (hmem _ _).mp hp
    simp only at h1 h2
    obtain ⟨_, _, ls, h3, h4⟩ := hwalk _ _ h2
    obtain ⟨caps, h5, h6⟩ := (hT.sound th h1).1
    refine ⟨slotsOf N.numCaptureGroups (caps ++ walkEvents off ls), ?_, ?_⟩
    · simp only
      rw [h6, h4]
      exact applyTags_walk caps (walk_tag_lt hN h3)
    · rw [key_slots, start?_append, walkEvents_start, hkf]
      simp only
      have hk : th.key = caps.start? 0 := by
        obtain ⟨s, cc⟩ := th
        simp only at h6
        rw [h6]; exact key_slots
      by_cases hq : col th.state = .out
      · rw [if_pos hq, if_neg (h.walk_out h3 hq).2, hk]; simp
      · rw [if_neg hq]
        have h7 := ((h.run h5).2 hq).1
        rcases h.walk_in h3 hq with ⟨g1, g2⟩ | ⟨g1, g2⟩
        · rw [if_pos g1, if_pos g2]; simp
        · rw [if_neg g1, if_neg (fun hh => by simpa using g2 _ hh), h7]; simp
  -- the threads that matter
  obtain ⟨T0, k1, k2, k3, k4⟩ : ∃ T0, (∀ th ∈ T0, th ∈ T) ∧ (∀ th ∈ T, ∃ th0 ∈ T0, th0.state = th.state ∧ KLe th0.key th.key) ∧
      ((cand T0).map kf).Pairwise KLe ∧ (cand T0).foldlM (pushThread off) [] = .ok T' := by
    have hsort : ∀ T0 : List Thread, (∀ th ∈ T0, th ∈ T) → T0.Pairwise (fun a b => KLe a.key b.key) →
        T0.Pairwise (fun a b => col a.state ≠ .out → (col b.state).phase ≠ 0) → ((cand T0).map kf).Pairwise KLe := by
      intro T0 hsub hs1 hs2
      rw [List.pairwise_map, hcand, List.pairwise_flatMap]
      constructor
      · intro th hth
        rw [List.pairwise_map]
        by_cases hq : col th.state = .out
        · refine List.pairwise_of_forall fun a b => ?_
          rw [hkf]; simp only [if_pos hq]; exact KLe.refl _
        · cases hu : ups th.state with
          | nil => exact List.Pairwise.nil
          | cons u us =>
            obtain ⟨hlt, hex, _⟩ := hwalk th.state u (by rw [hu]; simp)
            rw [← hu, hups]
            refine (h.updates hc hF hlt hex hq _ _).imp ?_
            intro a b hab
            rw [hkf]; simp only [if_neg hq]
            by_cases hb : col b.state = .out
            · rw [if_pos hb, if_pos (hab hb)]; exact KLe.refl _
            · rw [if_neg hb]; trivial
      · refine List.Pairwise.imp_of_mem ?_ (hs1.and hs2)
        rintro a b ha hb ⟨hab1, hab2⟩ x hx z hz
        obtain ⟨u, hu, rfl⟩ := List.mem_map.mp hx
        obtain ⟨v, hv, rfl⟩ := List.mem_map.mp hz
        rw [hkf]; simp only
        by_cases hqa : col a.state = .out
        · rw [if_pos hqa]
          by_cases hqb : col b.state = .out
          · rw [if_pos hqb]; exact hab1
          · rw [if_neg hqb]
            obtain ⟨i, hi, hle⟩ := (hkey a (hsub a ha)).1 hqa
            split
            · rw [hi]; exact hle
            · trivial
        · have hqb : col b.state ≠ .out := by
            intro hqb
            rw [(hkey a (hsub a ha)).2 hqa] at hab1
            obtain ⟨i, hi, _⟩ := (hkey b (hsub b hb)).1 hqb
            rw [hi] at hab1; exact hab1
          rw [if_neg hqb]
          obtain ⟨_, _, ls, h3, _⟩ := hwalk _ _ hv
          obtain ⟨h4, _⟩ := h.walk_mid h3 hqb (hab2 hqa)
          rw [h4, if_neg hqb]; trivial
    have hlate : T.Pairwise (fun a b => ¬ col a.state = .out → ¬ col b.state = .out) := by
      refine List.Pairwise.imp_of_mem ?_ hm.sorted
      intro a b ha hb hab hqa hqb
      rw [(hkey a ha).2 hqa] at hab
      obtain ⟨i, hi, _⟩ := (hkey b hb).1 hqb
      rw [hi] at hab; exact hab
    rcases split_late (P := fun th => col th.state = .out) T hlate with hall | ⟨S, t, U, rfl, h1, h2, h3⟩
    · refine ⟨T, fun _ h => h, fun th hth => ⟨th, hth, rfl, KLe.refl _⟩, hsort T (fun _ h => h) hm.sorted ?_, hr'⟩
      refine List.Pairwise.imp_of_mem (R := fun _ _ => True) (fun {a b} ha _ _ hq => absurd (hall a ha) hq)
        (List.pairwise_of_forall fun _ _ => trivial)
    · have hseed : ∀ th ∈ S ++ t :: U, N.Seed text th.state off rest := fun th hth => (hT.sound th hth).2
      by_cases hph : (col t.state).phase = 0
      · have hst : ∀ u ∈ U, u.state = t.state := fun u hu =>
          ((h.uniq (hseed t (by simp)) (hseed u (by simp [hu])) h2 (h3 u hu)).2 hph).symm
        have hsub : ∀ th ∈ S ++ [t], th ∈ S ++ t :: U := by intro th hth; simp at hth ⊢; tauto
        have hsl : (S ++ [t]).Sublist (S ++ t :: U) := List.Sublist.append (List.Sublist.refl _) (by simp)
        have hsrt := hsort (S ++ [t]) hsub (hm.sorted.sublist hsl) (by
          refine List.pairwise_append.mpr ⟨?_, by simp, ?_⟩
          · exact List.Pairwise.imp_of_mem (R := fun _ _ => True) (fun {a b} ha _ _ hq => absurd (h1 a ha) hq)
              (List.pairwise_of_forall fun _ _ => trivial)
          · intro a ha b _ hq; exact absurd (h1 a ha) hq)
        refine ⟨S ++ [t], hsub, ?_, hsrt, ?_⟩
        · intro th hth
          rcases List.mem_append.mp hth with g | g
          · exact ⟨th, by simp [g], rfl, KLe.refl _⟩
          · rcases List.mem_cons.mp g with rfl | g
            · exact ⟨th, by simp, rfl, KLe.refl _⟩
            · exact ⟨t, by simp, (hst th g).symm, by rw [(hkey th hth).2 (h3 th g)]; trivial⟩
        · have happ : cand (S ++ t :: U) = cand (S ++ [t]) ++ cand U := by
            rw [hcand]; simp
          rw [happ, List.foldlM_append] at hr'
          cases h4 : (cand (S ++ [t])).foldlM (pushThread off) [] with
          | error e => rw [h4] at hr'; cases hr'
          | ok T1 =>
            rw [h4] at hr'
            have hr2 : (cand U).foldlM (pushThread off) T1 = .ok T' := hr'
            have h5 := (push_key (kf := kf) _ _ _ (by
              intro p hp
              obtain ⟨g1, g2⟩ := (hmem _ _).mp hp
              exact hres p ((hmem _ _).mpr ⟨hsub _ g1, g2⟩)) (by simpa using hsrt) h4).2.2
            rw [push_dup (acc := T1) (cand U) (by
              intro p hp
              obtain ⟨g1, g2⟩ := (hmem _ _).mp hp
              obtain ⟨th, g3, g4, _⟩ := h5 (t, p.2) ((hmem _ _).mpr ⟨by simp, by rw [hst _ g1] at g2; exact g2⟩)
              exact ⟨th, g3, g4⟩)] at hr2
            rw [Except.ok.inj hr2]
      · refine ⟨_, fun _ h => h, fun th hth => ⟨th, hth, rfl, KLe.refl _⟩, hsort _ (fun _ h => h) hm.sorted ?_, hr'⟩
        refine List.pairwise_append.mpr ⟨?_, ?_, ?_⟩
        · exact List.Pairwise.imp_of_mem (R := fun _ _ => True) (fun {a b} ha _ _ hq => absurd (h1 a ha) hq)
            (List.pairwise_of_forall fun _ _ => trivial)
        · refine List.Pairwise.imp_of_mem (R := fun _ _ => True) (fun {a b} ha hb _ hq => ?_)
            (List.pairwise_of_forall fun _ _ => trivial)
          rcases List.mem_cons.mp hb with rfl | hb
          · exact hph
          · rw [← (h.uniq (hseed t (by simp)) (hseed b (by simp [hb])) h2 (h3 b hb)).1]; exact hph
        · intro a ha b _ hq; exact absurd (h1 a ha) hq
  obtain ⟨r1, _, r3⟩ := push_key (kf := kf) _ _ _ (by
    intro p hp
    obtain ⟨g1, g2⟩ := (hmem _ _).mp hp
    exact hres p ((hmem _ _).mpr ⟨k1 _ g1, g2⟩)) (by simpa using k3) k4
  refine ⟨r1, ?_⟩
  intro x caps hx hrun
  obtain ⟨s, caps0, ls, hs, hw, hg, rfl⟩ := run_split hrun
  obtain ⟨th, hth, hst, hle⟩ := hm.min s caps0 hs
  obtain ⟨th0, hth0, hst0, hle0⟩ := k2 th hth
  obtain ⟨hlt, hex⟩ := seed_lt hN.wf hN.ne hs.seed
  obtain ⟨u, hu, hux⟩ := (updates_path hF hlt hex).mpr ⟨hx, epsPath_walk.mpr ⟨ls, hw, hg⟩⟩
  have hst0' : th0.state = s := hst0.trans hst
  obtain ⟨th', g1, g2, g3⟩ := r3 (th0, u) ((hmem _ _).mpr ⟨hth0, by rw [hups, hst0']; exact hu⟩)
  refine ⟨th', g1, g2.trans hux, g3.trans ?_⟩
  rw [hkf]
  simp only
  rw [hst0', hux, start?_append, walkEvents_start]
  by_cases hq : col s = .out
  · rw [if_pos hq, if_neg (h.walk_out hw hq).2]
    simpa using hle0.trans hle
  · rw [if_neg hq]
    rcases h.walk_in hw hq with ⟨g1, g2⟩ | ⟨g1, g2⟩
    · rw [if_pos g1, if_pos g2]; simp [KLe]
    · rw [if_neg g1, if_neg (fun hh => by simpa using g2 _ hh), ((h.run hs.reach).2 hq).1]; simp [KLe]

theorem symExec_min {F : Flat σ} (hF : FlatOk N F) {text pre : List α} {off c cs}
    {T : List Thread} (ht : text = pre ++ c :: cs) (ho : off = unitLen σ pre) (hm : RestMin N text off (c :: cs) T) :
    SeedMin N text (off + Sym.len (σ := σ) c) cs (F.symExec c T) := by
  unfold Flat.symExec
  rw [hF.nfa]
  constructor
  · rw [List.pairwise_flatMap]
    have hk : ∀ th th' : Thread, th' ∈ (match N[th.state]? with
        | some s => (s.transitions.filter (fun t : Trans σ => Sym.check t.symbol c)).map
            (fun t : Trans σ => (⟨t.dst, th.caps⟩ : Thread))
        | none => []) → th'.key = th.key := by
      intro th th' hth
      split at hth
      · obtain ⟨t, _, rfl⟩ := List.mem_map.mp hth; rfl
      · simp at hth
    constructor
    · intro th _
      refine List.Pairwise.imp_of_mem (R := fun _ _ => True) (fun {a b} ha hb _ => ?_)
        (List.pairwise_of_forall fun _ _ => trivial)
      rw [hk th a ha, hk th b hb]; exact KLe.refl _
    · refine hm.sorted.imp ?_
      intro a b hab x hx z hz
      rw [hk a x hx, hk b z hz]; exact hab
  · rintro s caps (⟨_, h1, _⟩ | ⟨q, off0, c0, a, h1, h2, h3, h4⟩)
    · have := Sym.len_pos (σ := σ) c; omega
    · obtain ⟨rfl, rfl⟩ := at_unique ht ho ⟨caps, h1⟩
      obtain ⟨th, hth, rfl, hle⟩ := hm.min q caps (Or.inl ⟨a, s, h3⟩) h1
      refine ⟨⟨s, th.caps⟩, List.mem_flatMap.mpr ⟨th, hth, ?_⟩, rfl, hle⟩
      obtain ⟨st, hs, hmm⟩ := h3
      rw [hs]
      exact List.mem_map.mpr ⟨⟨s, a⟩, List.mem_filter.mpr ⟨hmm, h4⟩, rfl⟩

theorem execLoop_min (hN : Ready N) (h : FrontC Φ N col y) {F : Flat σ} (hc : compileFlat N = .ok F) (hF : FlatOk N F)
    (text : List α) : ∀ (rest pre : List α) (off : Nat) (T T' : List Thread), text = pre ++ rest →
      off = unitLen σ pre → RestThreads N text off rest T → RestMin N text off rest T →
      F.execLoop (unitLen σ text) off rest T = .ok (some T') →
      RestThreads N text (unitLen σ text) [] T' ∧ RestMin N text (unitLen σ text) [] T' := by
  intro rest
  induction rest with
  | nil =>
    intro pre off T T' h1 h2 h3 h4 h5
    have : off = unitLen σ text := by rw [h1, List.append_nil, h2]
    subst this
    have h5 := Option.some.inj (Except.ok.inj h5)
    subst h5
    exact ⟨h3, h4⟩
  | cons c cs ih =>
    intro pre off T T' h1 h2 h3 h4 h5
    have e1 : text = (pre ++ [c]) ++ cs := by simp [h1]
    have e2 : off + Sym.len (σ := σ) c = unitLen σ (pre ++ [c]) := by
      rw [unitLen_append, h2]; simp [unitLen]
    have hseed := symExec_spec hF h1 h2 h3
    obtain ⟨T1, g1, g2⟩ := epsExec_spec hN hF e1 e2 hseed
    have g3 := epsExec_min hN h hc hF e1 e2 hseed (symExec_min hF h1 h2 h4) g1
    rw [Flat.execLoop, g1] at h5
    simp only at h5
    split at h5
    · simp at h5
    · exact ih _ _ _ _ e1 e2 g2 g3 h5

/-- The reported match of the flat engines begins as far left as that of any run. -/
theorem flatExec_min (hN : Ready N) (h : FrontC Φ N col y) {F : Flat σ} (hc : compileFlat N = .ok F) (hF : FlatOk N F)
    {text : List Char} {units : List α} {r} (hr : F.exec text units = .ok (some r)) :
    ∃ caps, N.Acc ⟨0, units, []⟩ ⟨unitLen σ units, [], caps⟩ ∧
      (∃ x, r[0]? = some x ∧ finishSlot text (caps.start? 0, caps.end? 0) = .ok x) ∧
      ∀ caps', N.Acc ⟨0, units, []⟩ ⟨unitLen σ units, [], caps'⟩ → KLe (caps.start? 0) (caps'.start? 0) := by
  have hpos := List.length_pos_iff.mpr hN.ne
  have hlast : N.Rest (N.length - 1) := Or.inr (by omega)
  have hs0 := seedThreads_start (N := N) units
  obtain ⟨T, h1, h2⟩ := epsExec_spec hN hF (text := units) (pre := []) (off := 0) (rest := units) rfl rfl hs0
  have hm : RestMin N units 0 units T := by
    refine epsExec_min hN h hc hF (pre := []) rfl rfl hs0 ⟨by simp, ?_⟩ h1
    rintro s caps (⟨rfl, _, _, rfl⟩ | ⟨_, _, c, _, _, h, _⟩)
    · exact ⟨_, List.mem_singleton.mpr rfl, rfl, trivial⟩
    · have := Sym.len_pos (σ := σ) c; omega
  have e1 : (units.map (Sym.len (σ := σ))).sum = unitLen σ units := rfl
  unfold Flat.exec at hr
  simp only [e1] at hr
  rw [hF.groups, h1] at hr
  simp only at hr
  split at hr
  · simp at hr
  · simp at hr
  rename_i T' h3
  obtain ⟨h4, h5⟩ := execLoop_min hN h hc hF units units [] 0 T T' rfl rfl h2 hm h3
  rw [hF.nfa] at hr
  split at hr
  · simp at hr
  rename_i th hf
  split at hr
  · simp at hr
  rename_i r' h6
  have hr' : r' = r := Option.some.inj (Except.ok.inj hr)
  subst hr'
  have hst : th.state = N.length - 1 := by
    have := List.find?_some hf
    simp only [beq_iff_eq] at this
    omega
  obtain ⟨caps, g1, g2⟩ := h4.sound th (List.mem_of_find?_eq_some hf)
  rw [hst] at g1
  refine ⟨caps, ⟨hN.ne, g1⟩, ?_, ?_⟩
  · have hget : th.caps[0]? = some (caps.start? 0, caps.end? 0) := by rw [g2]; exact slotsOf_get (groups_pos N)
    cases hcs : th.caps with
    | nil => rw [hcs] at hget; simp at hget
    | cons p ps =>
      rw [hcs] at hget h6
      simp only [List.getElem?_cons_zero, Option.some.injEq] at hget
      subst hget
      rw [List.mapM_cons] at h6
      cases hp : finishSlot text (caps.start? 0, caps.end? 0) with
      | error e => rw [hp] at h6; cases h6
      | ok x =>
        rw [hp] at h6
        cases hps : ps.mapM (finishSlot text) with
        | error e => rw [hps] at h6; cases h6
        | ok xs =>
          rw [hps] at h6
          have h6 := Except.ok.inj h6
          subst h6
          exact ⟨x, rfl, rfl⟩
  · rintro caps' ⟨_, hacc⟩
    obtain ⟨th', k1, k2, k3⟩ := h5.min _ _ hlast hacc
    have hk : th.key = caps.start? 0 := by
      obtain ⟨s, cc⟩ := th
      simp only at g2
      rw [g2]; exact key_slots
    rw [← hk]
    refine KLe.trans ?_ k3
    obtain ⟨_, as, bs, rfl, has⟩ := List.find?_eq_some_iff_append.mp hf
    rcases List.mem_append.mp k1 with k1 | k1
    · have := has th' k1
      simp only [Bool.not_eq_true', beq_eq_false_iff_ne, ne_eq] at this
      omega
    · rcases List.mem_cons.mp k1 with rfl | k1
      · exact KLe.refl _
      · exact (List.pairwise_cons.mp (List.pairwise_append.mp h5.sorted).2.1).1 _ k1

end

/-! ### Patterns -/

/-- The first entry of a result is a stretch that begins as far left as that of any match. -/
def LeftOk (e : ERE) (text : List Char) (r : List (Option (Nat × Nat))) : Prop :=
  ∃ i j, (r[0]?).join = some (i, j) ∧ ∀ S' i' j', e.Captures text S' → lastSpan S' 0 = some (i', j') → i ≤ i'

theorem leftOk_of_run {e : ERE} {text : List Char} {r : List (Option (Nat × Nat))} {Acc : Caps → Prop}
    (h : ∀ caps, Acc caps ↔ ∃ pre mid post, text = pre ++ mid ++ post ∧
        (Tree.fromERE e).1.Run ⟨byteLen pre, mid ++ post, []⟩ ⟨byteLen (pre ++ mid), post, caps⟩)
    {caps : Caps} (h1 : Acc caps) (h2 : ∃ x, r[0]? = some x ∧ finishSlot text (caps.start? 0, caps.end? 0) = .ok x)
    (h3 : ∀ caps', Acc caps' → KLe (caps.start? 0) (caps'.start? 0)) : LeftOk e text r := by
  obtain ⟨S, h4, h5⟩ := run_captures ((h caps).mp h1)
  obtain ⟨x, h6, h7⟩ := h2
  rw [finishSlot_ok h4 h5 0] at h7
  have h7 := Except.ok.inj h7
  have h8 : ∃ p, lastSpan S 0 = some p := by
    obtain ⟨pre, mid, post, S', _, _, rfl⟩ := h4
    exact ⟨(byteLen pre, byteLen (pre ++ mid)), by simp [lastSpan]⟩
  obtain ⟨⟨i, j⟩, h8⟩ := h8
  refine ⟨i, j, by rw [h6, ← h7, h8]; rfl, ?_⟩
  intro S' i' j' hS' hl
  obtain ⟨caps', g1, g2⟩ := captures_run hS'
  have g3 := h3 caps' ((h caps').mpr g2)
  rw [(reads_last h5 0).1, (reads_last g1 0).1, h8, hl] at g3
  exact g3

theorem flat_char_left {e : ERE} {F : Flat Atom} (h : compileFlatChar e = .ok F) {text : List Char} {r}
    (hr : F.exec text text = .ok (some r)) : LeftOk e text r := by
  unfold compileFlatChar charNFA at h
  split at h
  · simp at h
  · rename_i N h1
    obtain ⟨hN, h3⟩ := workingNew_ne e h1 (compileFlat_ne h)
    obtain ⟨F', f1, f2⟩ := compileFlat_spec hN.wf hN.ne
    obtain rfl : F' = F := by rw [f1] at h; injection h
    obtain ⟨col, y, hfr⟩ := front_char e h1 hN.ne
    obtain ⟨caps, g1, g2, g3⟩ := flatExec_min hN hfr h f2 hr
    exact leftOk_of_run (h3 text) g1 g2 g3

theorem flat_u8_left (U : Utf8Seqs) {e : ERE} {F : Flat U8Atom} (h : compileFlatU8 U.seqs e = .ok F) {text : List Char} {r}
    (hr : F.exec text (encode text) = .ok (some r)) : LeftOk e text r := by
  unfold compileFlatU8 at h
  split at h
  · simp at h
  · rename_i M hb
    obtain ⟨N, h1, h2⟩ := byteNFA_ok hb
    obtain ⟨hN, hM, h3, h4⟩ := pipeline_ne U e h1 h2 (compileFlat_ne h)
    obtain ⟨F', f1, f2⟩ := compileFlat_spec hM.wf hM.ne
    obtain rfl : F' = F := by rw [f1] at h; injection h
    obtain ⟨col, y, hfr⟩ := front_byte U e h1 hN h2 hM.ne
    obtain ⟨caps, g1, g2, g3⟩ := flatExec_min hM hfr h f2 hr
    refine leftOk_of_run (Acc := fun caps => M.Acc ⟨0, encode text, []⟩ ⟨unitLen U8Atom (encode text), [], caps⟩) ?_ g1 g2 g3
    intro caps
    rw [unitLen_u8, encode_length, acc_enc h4, h3]

end Ere
