import Verif.Proofs.Cut
import Verif.Spec.OrderLaws

/-!
# Laws that do not change which match is preferred: soundness
-/

namespace Ere

/-- What is regarded of a position: the place and, if `keep` is set, the stretches matched by groups. -/
def Pos.view (keep : Bool) (p : Pos) : Nat × List Char × List Span := (p.off, p.rest, if keep then p.spans else [])

/-- The same ways through the text, in the same order. -/
def Alike (keep : Bool) (L L' : Pos → List Pos) : Prop :=
  ∀ p p' : Pos, p.view keep = p'.view keep → (L p).map (Pos.view keep) = (L' p').map (Pos.view keep)

variable {keep : Bool}

theorem Alike.over {L L' : Pos → List Pos} (h : Alike keep L L') : ∀ {l l' : List Pos},
    l.map (Pos.view keep) = l'.map (Pos.view keep) →
    (l.flatMap L).map (Pos.view keep) = (l'.flatMap L').map (Pos.view keep)
  | [], [], _ => rfl
  | [], _ :: _, e => by simp at e
  | _ :: _, [], e => by simp at e
  | p :: l, p' :: l', e => by
    simp only [List.map_cons, List.cons.injEq] at e
    simp only [List.flatMap_cons, List.map_append]
    rw [h p p' e.1, h.over e.2]

theorem Alike.flatMap {L1 L1' L2 L2' : Pos → List Pos} (h1 : Alike keep L1 L1') (h2 : Alike keep L2 L2') :
    Alike keep (fun p => (L1 p).flatMap L2) (fun p => (L1' p).flatMap L2') :=
  fun p p' e => h2.over (h1 p p' e)

theorem Alike.times {L L' : Pos → List Pos} (h : Alike keep L L') : ∀ n, Alike keep (times L n) (times L' n)
  | 0 => by
    intro p p' e
    simp [Ere.times, e]
  | n + 1 => h.flatMap (h.times n)

theorem Alike.optTimes {L L' : Pos → List Pos} (h : Alike keep L L') (gr : Bool) : ∀ n,
    Alike keep (optTimes L gr n) (optTimes L' gr n)
  | 0 => by
    intro p p' e
    simp [Ere.optTimes, e]
  | n + 1 => by
    intro p p' e
    have := h.flatMap (h.optTimes gr n) p p' e
    cases gr
    · simp only [Ere.optTimes, Bool.false_eq_true, if_false, List.map_cons, this, e]
    · simp only [Ere.optTimes, if_true, List.map_append, List.map_cons, List.map_nil, this, e]

theorem Alike.symm {L L' : Pos → List Pos} (h : Alike keep L L') : Alike keep L' L := fun p p' e => (h p' p e.symm).symm

theorem Alike.trans {L L' L'' : Pos → List Pos} (h : Alike keep L L') (h' : Alike keep L' L'') : Alike keep L L'' :=
  fun p p' e => (h p p' e).trans (h' p' p' rfl)

theorem view_off {p p' : Pos} (h : p.view keep = p'.view keep) : p.off = p'.off := congrArg Prod.fst h
theorem view_rest {p p' : Pos} (h : p.view keep = p'.view keep) : p.rest = p'.rest := congrArg (fun x => x.2.1) h
theorem view_spans {p p' : Pos} (h : p.view keep = p'.view keep) (hk : keep = true) : p.spans = p'.spans := by
  subst hk
  exact congrArg (fun x => x.2.2) h

/-! ### The same pattern with other group numbers -/

/-- The numbers of groups matter if groups are to be kept and there are any. -/
def NumOk (keep : Bool) (n g g' : Nat) : Prop := keep = true → n ≠ 0 → g = g'

theorem alike_quant {q : Quantifier} {L L' : Pos → List Pos} (h : Alike keep L L') :
    Alike keep
      (fun p => (times L q.q.min p).flatMap fun p1 =>
        match q.q.max with
        | none => optTimes L (!q.alt) p1.rest.length p1
        | some m => if m < q.q.min then [] else optTimes L (!q.alt) (m - q.q.min) p1)
      (fun p => (times L' q.q.min p).flatMap fun p1 =>
        match q.q.max with
        | none => optTimes L' (!q.alt) p1.rest.length p1
        | some m => if m < q.q.min then [] else optTimes L' (!q.alt) (m - q.q.min) p1) := by
  refine (h.times q.q.min).flatMap ?_
  intro r r' hr
  cases q.q.max with
  | none =>
    simp only [view_rest hr]
    exact h.optTimes _ _ r r' hr
  | some m =>
    simp only
    split
    · rfl
    · exact h.optTimes _ _ r r' hr

mutual
theorem alike_ERE : ∀ (e : ERE) (g g' : Nat), NumOk keep e.groups g g' → Alike keep (tryERE e g) (tryERE e g')
  | .mk bs, g, g', hg => by
    intro p p' h
    rw [tryERE, tryERE]
    exact alike_branches bs g g' hg p p' h
theorem alike_branches : ∀ (bs : List EREBranch) (g g' : Nat), NumOk keep (groupsBranches bs) g g' →
    Alike keep (tryBranches bs g) (tryBranches bs g')
  | [], g, g', hg => by
    intro p p' h
    simp [tryBranches]
  | b :: bs, g, g', hg => by
    intro p p' h
    rw [tryBranches, tryBranches, List.map_append, List.map_append,
      alike_branch b g g' (fun hk hn => hg hk (by rw [groupsBranches]; omega)) p p' h,
      alike_branches bs _ _ (fun hk hn => by rw [hg hk (by rw [groupsBranches]; omega)]) p p' h]
theorem alike_branch : ∀ (b : EREBranch) (g g' : Nat), NumOk keep b.groups g g' → Alike keep (tryBranch b g) (tryBranch b g')
  | .mk ps, g, g', hg => by
    intro p p' h
    rw [tryBranch, tryBranch]
    exact alike_parts ps g g' hg p p' h
theorem alike_parts : ∀ (ps : List EREPart) (g g' : Nat), NumOk keep (groupsParts ps) g g' →
    Alike keep (tryParts ps g) (tryParts ps g')
  | [], g, g', hg => by
    intro p p' h
    simp [tryParts, h]
  | x :: ps, g, g', hg => by
    intro p p' h
    rw [tryParts, tryParts]
    exact (alike_parts ps _ _ (fun hk hn => by rw [hg hk (by rw [groupsParts]; omega)])).over
      (alike_part x g g' (fun hk hn => hg hk (by rw [groupsParts]; omega)) p p' h)
theorem alike_part : ∀ (x : EREPart) (g g' : Nat), NumOk keep x.groups g g' → Alike keep (tryPart x g) (tryPart x g')
  | .single e, g, g', hg => by
    intro p p' h
    rw [tryPart, tryPart]
    exact alike_expr e g g' hg p p' h
  | .quantified e q, g, g', hg => by
    intro p p' h
    rw [tryPart, tryPart]
    exact alike_quant (alike_expr e g g' hg) p p' h
  | .start, g, g', hg => by
    intro p p' h
    simp only [tryPart, view_off h]
    split <;> simp [h]
  | .end_, g, g', hg => by
    intro p p' h
    simp only [tryPart, view_rest h]
    split <;> simp [h]
theorem alike_expr : ∀ (e : EREExpr) (g g' : Nat), NumOk keep e.groups g g' → Alike keep (tryExpr e g) (tryExpr e g')
  | .atom a, g, g', hg => by
    intro p p' h
    simp only [tryExpr, view_off h, view_rest h]
    cases p'.rest with
    | nil => rfl
    | cons c r =>
      simp only
      split
      · simp only [List.map_cons, List.map_nil, Pos.view]
        cases keep with
        | false => rfl
        | true => simp [view_spans h rfl]
      · rfl
  | .sub e, g, g', hg => by
    intro p p' h
    rw [tryExpr, tryExpr]
    refine alike_close (fun hk => hg hk (by rw [EREExpr.groups]; omega)) (view_off h)
      (alike_ERE e (g + 1) (g' + 1) (fun hk hn => by rw [hg hk (by rw [EREExpr.groups]; omega)]) p p' h)
/-- Closing a parenthesis. -/
theorem alike_close {g g' o o' : Nat} (hg : keep = true → g = g') (ho : o = o') : ∀ {l l' : List Pos},
    l.map (Pos.view keep) = l'.map (Pos.view keep) →
    (l.map fun p1 => (⟨p1.off, p1.rest, p1.spans ++ [⟨g, o, p1.off⟩]⟩ : Pos)).map (Pos.view keep) =
      (l'.map fun p1 => (⟨p1.off, p1.rest, p1.spans ++ [⟨g', o', p1.off⟩]⟩ : Pos)).map (Pos.view keep)
  | [], [], _ => rfl
  | [], _ :: _, e => by simp at e
  | _ :: _, [], e => by simp at e
  | p :: l, p' :: l', e => by
    simp only [List.map_cons, List.cons.injEq] at e ⊢
    refine ⟨?_, alike_close hg ho e.2⟩
    simp only [Pos.view, view_off e.1, view_rest e.1]
    cases hk : keep with
    | false => rfl
    | true => simp [view_spans e.1 hk, hg hk, ho]
end

/-! ### Lists of branches and parts -/

theorem groupsBranches_app : ∀ bs bs', groupsBranches (bs ++ bs') = groupsBranches bs + groupsBranches bs'
  | [], bs' => by simp [groupsBranches]
  | b :: bs, bs' => by
    rw [List.cons_append, groupsBranches, groupsBranches, groupsBranches_app bs bs']; omega

theorem groupsParts_app : ∀ ps ps', groupsParts (ps ++ ps') = groupsParts ps + groupsParts ps'
  | [], ps' => by simp [groupsParts]
  | b :: ps, ps' => by
    rw [List.cons_append, groupsParts, groupsParts, groupsParts_app ps ps']; omega

theorem tryBranches_app : ∀ bs bs' g p,
    tryBranches (bs ++ bs') g p = tryBranches bs g p ++ tryBranches bs' (g + groupsBranches bs) p
  | [], bs', g, p => by simp [tryBranches, groupsBranches]
  | b :: bs, bs', g, p => by
    rw [List.cons_append, tryBranches, tryBranches, tryBranches_app bs bs', groupsBranches, List.append_assoc,
      Nat.add_assoc]

theorem tryParts_app : ∀ ps ps' g p,
    tryParts (ps ++ ps') g p = (tryParts ps g p).flatMap (tryParts ps' (g + groupsParts ps))
  | [], ps', g, p => by simp [tryParts, groupsParts]
  | b :: ps, ps', g, p => by
    rw [List.cons_append, tryParts, tryParts, List.flatMap_assoc]
    refine List.flatMap_congr fun q _ => ?_
    rw [tryParts_app ps ps', groupsParts, Nat.add_assoc]

theorem tryParts_one (x : EREPart) (g : Nat) (p : Pos) : tryParts [x] g p = tryPart x g p := by
  rw [tryParts]
  show (tryPart x g p).flatMap (fun q => tryParts [] (g + x.groups) q) = _
  simp only [tryParts]
  exact List.flatMap_singleton' _

/-! ### Rounds -/

theorem times_append {γ : Type} (L : γ → List γ) : ∀ m n p, times L (m + n) p = (times L m p).flatMap (times L n)
  | 0, n, p => by simp [times]
  | m + 1, n, p => by
    rw [Nat.add_right_comm, times, times, List.flatMap_assoc]
    exact List.flatMap_congr fun q _ => times_append L m n q

theorem times_single {γ : Type} (L : γ → List γ) (p : γ) : times L 1 p = L p := by
  rw [times]
  show (L p).flatMap (fun q => times L 0 q) = _
  simp only [times]
  exact List.flatMap_singleton' _

theorem tryPart_exact (e : EREExpr) (n : Nat) (z : Bool) (g : Nat) (p : Pos) :
    tryPart (.quantified e ((QType.multiple n).at z)) g p = times (tryExpr e g) n p := by
  rw [tryPart]
  simp only [QType.at, QType.min, QType.max, Nat.lt_irrefl, if_false, Nat.sub_self, optTimes]
  exact List.flatMap_singleton' _

theorem tryPart_star (e : EREExpr) (z : Bool) (g : Nat) (p : Pos) :
    tryPart (.quantified e (QType.star.at z)) g p = optTimes (tryExpr e g) (!z) p.rest.length p := by
  rw [tryPart]
  simp only [QType.at, QType.min, QType.max, times, List.flatMap_cons, List.flatMap_nil, List.append_nil]

theorem tryPart_upto (e : EREExpr) (n : Nat) (z : Bool) (g : Nat) (p : Pos) :
    tryPart (.quantified e ((QType.range 0 (some n)).at z)) g p = optTimes (tryExpr e g) (!z) n p := by
  rw [tryPart]
  simp only [QType.at, QType.min, QType.max, times, List.flatMap_cons, List.flatMap_nil, List.append_nil, Nat.not_lt_zero,
    if_false, Nat.sub_zero]

/-- `(x|)` and `(|x)`. -/
theorem tryExpr_orNothing (z : Bool) (ps : List EREPart) (g : Nat) (p : Pos) :
    (tryExpr (orNothing z ps) g p).map (Pos.view false) =
      (if !z then tryParts ps (g + 1) p ++ [p] else p :: tryParts ps (g + 1) p).map (Pos.view false) := by
  cases z <;> simp [orNothing, tryExpr, tryERE, tryBranches, tryBranch, tryParts, Pos.view, Function.comp_def,
    EREBranch.groups, groupsParts]

/-! ### The laws -/

theorem alike_of_eq {L L' : Pos → List Pos} (hL : Alike keep L L) (h : ∀ p, L p = L' p) : Alike keep L L' := by
  intro p p' e
  rw [← h p']
  exact hL p p' e

theorem NumOk.same {n g : Nat} : NumOk keep n g g := fun _ _ => rfl

theorem NumOk.none {n g g' : Nat} (h : keep = true → n = 0) : NumOk keep n g g' := fun hk hn => absurd (h hk) hn

theorem alike_wrap (e : EREExpr) (g g' : Nat) : Alike false (tryExpr (.sub (.mk [.mk [.single e]])) g) (tryExpr e g') := by
  intro p p' h
  rw [tryExpr, tryERE, tryBranches, tryBranches, List.append_nil, tryBranch, tryParts_one, tryPart, List.map_map]
  exact alike_expr e _ _ (.none (by simp)) p p' h

/-- Closing a parenthesis makes no difference to the place. -/
theorem map_close (g o : Nat) (l : List Pos) :
    (l.map fun p1 => (⟨p1.off, p1.rest, p1.spans ++ [⟨g, o, p1.off⟩]⟩ : Pos)).map (Pos.view false) = l.map (Pos.view false) := by
  rw [List.map_map]
  rfl

theorem alike_distribute : ∀ (bs : List EREBranch) (ps2 : List EREPart) (g1 g2 g' : Nat) (p p' : Pos),
    p.view false = p'.view false →
    ((tryBranches bs g1 p).flatMap (tryParts ps2 g2)).map (Pos.view false) =
    (tryBranches (bs.map fun b => .mk (b.parts ++ ps2)) g' p').map (Pos.view false)
  | [], _, _, _, _, _, _, _ => by simp [tryBranches]
  | .mk ps :: bs, ps2, g1, g2, g', p, p', h => by
    rw [tryBranches, List.flatMap_append, List.map_append, List.map_cons, tryBranches, List.map_append,
      alike_distribute bs ps2 _ g2 _ p p' h, tryBranch, tryBranch]
    refine congrArg (· ++ _) ?_
    show _ = (tryParts (ps ++ ps2) g' p').map (Pos.view false)
    rw [tryParts_app]
    exact (alike_parts ps2 _ _ (.none (by simp))).over (alike_parts ps _ _ (.none (by simp)) p p' h)

mutual
theorem OrdERE.sound : {keep : Bool} → {e e' : ERE} → OrdERE keep e e' →
    (keep = true → e.groups = e'.groups) ∧ ∀ g g', (keep = true → g = g') → Alike keep (tryERE e g) (tryERE e' g')
  | keep, _, _, .refl => ⟨fun _ => rfl, fun g g' hg => alike_ERE _ g g' fun hk _ => hg hk⟩
  | keep, _, _, .symm h => by
    obtain ⟨h1, h2⟩ := h.sound
    exact ⟨fun hk => (h1 hk).symm, fun g g' hg => (h2 g' g fun hk => (hg hk).symm).symm⟩
  | keep, _, _, .trans h h' => by
    obtain ⟨h1, h2⟩ := h.sound
    obtain ⟨k1, k2⟩ := h'.sound
    exact ⟨fun hk => (h1 hk).trans (k1 hk), fun g g' hg => (h2 g g' hg).trans (k2 g' g' fun _ => rfl)⟩
  | keep, _, _, .branch (bs1 := bs1) (b := b) (b' := b') (bs2 := bs2) h => by
    obtain ⟨h1, h2⟩ := h.sound
    constructor
    · intro hk
      simp only [ERE.groups, groupsBranches_app, groupsBranches, h1 hk]
    · intro g g' hg p p' e
      rw [tryERE, tryERE, tryBranches_app, tryBranches_app, tryBranches, tryBranches]
      simp only [List.map_append]
      rw [alike_branches bs1 g g' (fun hk _ => hg hk) p p' e, h2 _ _ (fun hk => by rw [hg hk]) p p' e,
        alike_branches bs2 _ _ (fun hk _ => by rw [hg hk, h1 hk]) p p' e]
  | _, _, _, .distribute (bs1 := bs1) (bs := bs) (ps2 := ps2) (bs2 := bs2) => by
    refine ⟨nofun, fun g g' _ p p' e => ?_⟩
    rw [tryERE, tryERE, tryBranches_app, tryBranches_app, tryBranches_app, tryBranches]
    simp only [List.map_append]
    rw [alike_branches bs1 g g' (fun hk _ => by cases hk) p p' e, alike_branches bs2 _ _ (fun hk _ => by cases hk) p p' e]
    refine congrArg (_ ++ ·) (congrArg (· ++ _) ?_)
    rw [tryBranch, tryParts, tryPart, tryExpr, tryERE, ← alike_distribute bs ps2 _ _ _ p p' e]
    exact (alike_parts ps2 _ _ .same).over (map_close _ _ _)
theorem OrdBranch.sound : {keep : Bool} → {b b' : EREBranch} → OrdBranch keep b b' →
    (keep = true → b.groups = b'.groups) ∧ ∀ g g', (keep = true → g = g') → Alike keep (tryBranch b g) (tryBranch b' g')
  | keep, _, _, .parts (ps1 := ps1) (ps := ps) (ps' := ps') (ps2 := ps2) h => by
    obtain ⟨h1, h2⟩ := h.sound
    constructor
    · intro hk
      simp only [EREBranch.groups, groupsParts_app, h1 hk]
    · intro g g' hg p p' e
      rw [tryBranch, tryBranch, tryParts_app, tryParts_app]
      refine Alike.over ?_ (alike_parts ps1 g g' (fun hk _ => hg hk) p p' e)
      intro q q' e
      rw [tryParts_app, tryParts_app]
      refine Alike.over ?_ (h2 _ _ (fun hk => by rw [hg hk]) q q' e)
      exact alike_parts ps2 _ _ (fun hk _ => by rw [hg hk, h1 hk])
theorem OrdParts.sound : {keep : Bool} → {ps ps' : List EREPart} → OrdParts keep ps ps' →
    (keep = true → groupsParts ps = groupsParts ps') ∧
      ∀ g g', (keep = true → g = g') → Alike keep (tryParts ps g) (tryParts ps' g')
  | keep, _, _, .question (e := e) (z := z) => ⟨fun _ => rfl, fun g g' hg => (alike_parts _ g g' fun hk _ => hg hk).trans
      (alike_of_eq (alike_parts _ _ _ .same) fun p => by simp only [tryParts_one]; rfl)⟩
  | keep, _, _, .star (e := e) (z := z) => ⟨fun _ => rfl, fun g g' hg => (alike_parts _ g g' fun hk _ => hg hk).trans
      (alike_of_eq (alike_parts _ _ _ .same) fun p => by simp only [tryParts_one]; rfl)⟩
  | keep, _, _, .plus (e := e) (z := z) => ⟨fun _ => rfl, fun g g' hg => (alike_parts _ g g' fun hk _ => hg hk).trans
      (alike_of_eq (alike_parts _ _ _ .same) fun p => by simp only [tryParts_one]; rfl)⟩
  | keep, _, _, .exact (e := e) (n := n) (z := z) => ⟨fun _ => rfl, fun g g' hg => (alike_parts _ g g' fun hk _ => hg hk).trans
      (alike_of_eq (alike_parts _ _ _ .same) fun p => by simp only [tryParts_one]; rfl)⟩
  | keep, _, _, .exactLazy (e := e) (n := n) => ⟨fun _ => rfl, fun g g' hg => (alike_parts _ g g' fun hk _ => hg hk).trans
      (alike_of_eq (alike_parts _ _ _ .same) fun p => by simp only [tryParts_one, tryPart_exact])⟩
  | keep, _, _, .one (e := e) (z := z) => ⟨fun _ => rfl, fun g g' hg => (alike_parts _ g g' fun hk _ => hg hk).trans
      (alike_of_eq (alike_parts _ _ _ .same) fun p => by
        rw [tryParts_one, tryPart_exact, times_single, tryParts_one, tryPart])⟩
  | keep, _, _, .none (e := e) (z := z) he => ⟨fun hk => he hk, fun g g' hg => (alike_parts _ g g' fun hk _ => hg hk).trans
      (alike_of_eq (alike_parts _ _ _ .same) fun p => by rw [tryParts_one, tryPart_exact, times, tryParts])⟩
  | keep, _, _, .split (e := e) (m := m) (n := n) (z := z) he => by
    refine ⟨fun hk => by simp [groupsParts, EREPart.groups, he hk], fun g g' hg p p' h => ?_⟩
    rw [tryParts_one, tryPart_exact, tryParts, tryPart_exact, times_append]
    refine Alike.over ?_ ((alike_expr e g g' fun hk _ => hg hk).times m p p' h)
    intro q q' h
    rw [tryParts_one, tryPart_exact]
    exact (alike_expr e _ _ (.none he)).times n q q' h
  | keep, _, _, .atLeast (e := e) (n := n) (z := z) he => by
    refine ⟨fun hk => by simp [groupsParts, EREPart.groups, he hk], fun g g' hg p p' h => ?_⟩
    rw [tryParts_one, tryPart, tryParts, tryPart_exact]
    refine Alike.over ?_ ((alike_expr e g g' fun hk _ => hg hk).times n p p' h)
    intro q q' h
    rw [tryParts_one, tryPart_star, ← view_rest h]
    exact (alike_expr e _ _ (.none he)).optTimes _ _ q q' h
  | keep, _, _, .range (e := e) (m := m) (n := n) (z := z) he => by
    refine ⟨fun hk => by simp [groupsParts, EREPart.groups, he hk], fun g g' hg p p' h => ?_⟩
    rw [tryParts_one, tryPart, tryParts, tryPart_exact]
    refine Alike.over ?_ ((alike_expr e g g' fun hk _ => hg hk).times m p p' h)
    intro q q' h
    rw [tryParts_one, tryPart_upto]
    show (if m + n < m then [] else optTimes (tryExpr e g) (!z) (m + n - m) q).map (Pos.view keep) = _
    rw [if_neg (by omega), Nat.add_sub_cancel_left]
    exact (alike_expr e _ _ (.none he)).optTimes _ _ q q' h
  | _, _, _, .upto (e := e) (n := n) (z := z) => by
    refine ⟨nofun, fun g g' hg p p' h => ?_⟩
    rw [tryParts_one, tryPart_upto, tryParts_one, tryPart, tryExpr_orNothing]
    have : ((tryExpr e g p).flatMap (optTimes (tryExpr e g) (!z) n)).map (Pos.view false) =
        (tryParts [.single e, .quantified e ((QType.range 0 (some n)).at z)] (g' + 1) p').map (Pos.view false) := by
      rw [tryParts, tryPart]
      refine Alike.over ?_ (alike_expr e _ _ (.none (by simp)) p p' h)
      intro q q' h
      rw [tryParts_one, tryPart_upto]
      exact (alike_expr e _ _ (.none (by simp))).optTimes _ _ q q' h
    cases z
    · simp only [optTimes, Bool.not_false, if_true, List.map_append, List.map_cons, List.map_nil, h]
      exact congrArg (· ++ _) this
    · simp only [optTimes, Bool.not_true, Bool.false_eq_true, if_false, List.map_cons, h]
      exact congrArg (_ :: ·) this
  | _, _, _, .unroll (e := e) (z := z) hn => by
    refine ⟨nofun, fun g g' hg p p' h => ?_⟩
    rw [tryParts_one, tryPart_star, tryParts_one, tryPart, tryExpr_orNothing]
    rw [optTimes_fuel (fun _ _ => tryExpr_consumes hn) (!z) p.rest.length (p.rest.length + 1) p (by omega) (by omega)]
    have : ((tryExpr e g p).flatMap (optTimes (tryExpr e g) (!z) p.rest.length)).map (Pos.view false) =
        (tryParts [.single e, .quantified e (QType.star.at z)] (g' + 1) p').map (Pos.view false) := by
      rw [tryParts, tryPart]
      have h0 : (tryExpr e g p).flatMap (optTimes (tryExpr e g) (!z) p.rest.length) =
          (tryExpr e g p).flatMap fun q => optTimes (tryExpr e g) (!z) q.rest.length q := by
        refine List.flatMap_congr fun q hq => ?_
        have := tryExpr_consumes hn hq
        exact optTimes_fuel (fun _ _ => tryExpr_consumes hn) (!z) _ _ q (by omega) (by omega)
      rw [h0]
      refine Alike.over ?_ (alike_expr e _ _ (.none (by simp)) p p' h)
      intro q q' h
      rw [tryParts_one, tryPart_star, ← view_rest h]
      exact (alike_expr e _ _ (.none (by simp))).optTimes _ _ q q' h
    cases z
    · simp only [optTimes, Bool.not_false, if_true, List.map_append, List.map_cons, List.map_nil, h]
      exact congrArg (· ++ _) this
    · simp only [optTimes, Bool.not_true, Bool.false_eq_true, if_false, List.map_cons, h]
      exact congrArg (_ :: ·) this
  | _, _, _, .parens (ps := ps) => by
    refine ⟨nofun, fun g g' hg p p' h => ?_⟩
    rw [tryParts_one, tryPart, tryExpr, tryERE, tryBranches, tryBranches, List.append_nil, tryBranch, List.map_map]
    exact alike_parts ps _ _ (.none (by simp)) p p' h
  | keep, _, _, .start => ⟨fun _ => rfl, fun g g' hg => (alike_parts _ g g' fun hk _ => hg hk).trans
      (alike_of_eq (alike_parts _ _ _ .same) fun p => by
        simp only [tryParts, tryPart]
        split <;> simp [*])⟩
  | keep, _, _, .end_ => ⟨fun _ => rfl, fun g g' hg => (alike_parts _ g g' fun hk _ => hg hk).trans
      (alike_of_eq (alike_parts _ _ _ .same) fun p => by
        simp only [tryParts, tryPart]
        by_cases hr : p.rest = [] <;> simp [hr])⟩
  | keep, _, _, .single h => by
    obtain ⟨h1, h2⟩ := h.sound
    refine ⟨fun hk => by simp only [groupsParts, EREPart.groups, h1 hk], fun g g' hg p p' e => ?_⟩
    rw [tryParts_one, tryParts_one, tryPart, tryPart]
    exact h2 g g' hg p p' e
  | keep, _, _, .quantified h => by
    obtain ⟨h1, h2⟩ := h.sound
    refine ⟨fun hk => by simp only [groupsParts, EREPart.groups, h1 hk], fun g g' hg p p' e => ?_⟩
    rw [tryParts_one, tryParts_one, tryPart, tryPart]
    exact alike_quant (h2 g g' hg) p p' e
theorem OrdExpr.sound : {keep : Bool} → {e e' : EREExpr} → OrdExpr keep e e' →
    (keep = true → e.groups = e'.groups) ∧ ∀ g g', (keep = true → g = g') → Alike keep (tryExpr e g) (tryExpr e' g')
  | keep, _, _, .atom (a := a) (b := b) h => by
    refine ⟨fun _ => rfl, fun g g' hg => (alike_expr (.atom a) g g' fun hk _ => hg hk).trans
      (alike_of_eq (alike_expr _ _ _ .same) fun p => ?_)⟩
    simp only [tryExpr, h]
  | keep, _, _, .sub h => by
    obtain ⟨h1, h2⟩ := h.sound
    refine ⟨fun hk => by simp only [EREExpr.groups, h1 hk], fun g g' hg p p' e => ?_⟩
    rw [tryExpr, tryExpr]
    exact alike_close hg (view_off e) (h2 _ _ (fun hk => by rw [hg hk]) p p' e)
  | _, _, _, .wrap (e := e) => ⟨nofun, fun g g' _ => (alike_wrap e g' g).symm⟩
  | _, _, _, .unwrap (e := e) => ⟨nofun, fun g g' _ => alike_wrap e g g'⟩
end

/-- The preferred match is the same: as a whole, and if groups are kept also in its groups. -/
def SameFirst (keep : Bool) : Option (List Span) → Option (List Span) → Prop
  | none, none => True
  | some S, some S' => lastSpan S 0 = lastSpan S' 0 ∧ (keep = true → S = S')
  | _, _ => False

theorem lastSpan_snoc (S : List Span) (i j : Nat) : lastSpan (S ++ [⟨0, i, j⟩]) 0 = some (i, j) := by
  simp [lastSpan]

theorem sameFirst_of_heads {l l' : List Pos} (off : Nat) (h : l.map (Pos.view keep) = l'.map (Pos.view keep)) :
    SameFirst keep (l.head?.map fun p => p.spans ++ [⟨0, off, p.off⟩]) (l'.head?.map fun p => p.spans ++ [⟨0, off, p.off⟩]) := by
  cases l with
  | nil =>
    cases l' with
    | nil => trivial
    | cons p' l' => simp at h
  | cons p l =>
    cases l' with
    | nil => simp at h
    | cons p' l' =>
      simp only [List.map_cons, List.cons.injEq] at h
      refine ⟨?_, fun hk => ?_⟩
      · rw [lastSpan_snoc, lastSpan_snoc, view_off h.1]
      · simp only [view_off h.1, view_spans h.1 hk]

/-- The laws do not change which match is preferred. -/
theorem OrdERE.first {e e' : ERE} (h : OrdERE keep e e') (text : List Char) : SameFirst keep (e.first text) (e'.first text) := by
  have hs : ∀ p, (tryERE e 1 p).map (Pos.view keep) = (tryERE e' 1 p).map (Pos.view keep) :=
    fun p => h.sound.2 1 1 (fun _ => rfl) p p rfl
  have : ∀ (text : List Char) off, SameFirst keep (e.firstFrom off text) (e'.firstFrom off text) := by
    intro text
    induction text with
    | nil =>
      intro off
      rw [ERE.firstFrom, ERE.firstFrom]
      exact sameFirst_of_heads off (hs _)
    | cons c r ih =>
      intro off
      rw [ERE.firstFrom, ERE.firstFrom]
      have h1 := sameFirst_of_heads off (hs ⟨off, c :: r, []⟩)
      cases h2 : (tryERE e 1 ⟨off, c :: r, []⟩).head? with
      | none =>
        cases h3 : (tryERE e' 1 ⟨off, c :: r, []⟩).head? with
        | none => exact ih _
        | some p' => rw [h2, h3] at h1; exact h1.elim
      | some p =>
        cases h3 : (tryERE e' 1 ⟨off, c :: r, []⟩).head? with
        | none => rw [h2, h3] at h1; exact h1.elim
        | some p' => rw [h2, h3] at h1; exact h1
  exact this text 0

end Ere
