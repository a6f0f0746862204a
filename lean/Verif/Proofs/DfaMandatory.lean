import Verif.Proofs.DfaSafe
import Verif.Proofs.Meta

/-! Groups that `capture_group_is_optional` finds mandatory are set in everything the DFA engine reports, also where it
reports something that is no match: no walk through the byte automaton goes round the mark that opens the group. -/

namespace Ere
variable {σ α : Type}

/-- Reachable without opening group `g`. -/
def optC (g : Nat) : Lab σ → Bool → Bool → Prop := fun l x y => l ≠ .eps (.startCapture g) → x = true → y = true

open Classical in
theorem opt_stable [Sym σ α] (g : Nat) (b : Bool) : Stable α (fun N : NFA σ => LabG (optC g) N true b) := by
  refine { merge := ?_, dedupe := ?_, skip1 := ?_, splice := ?_, dead := ?_, trim := fun _ _ h => labG_filter h _ _ }
  · rintro N x o sa sb hw _ hx1 hx2 ho hxo ha hb hab ⟨A, h0, hl, hA⟩
    have hlen : ((N.clear x).redirect x o).length = N.length := by simp [NFA.redirect, clear_length]
    obtain ⟨B, hB⟩ : ∃ B : Nat → Bool, ∀ i, B i = (A i || (decide (i = o) && A x)) := ⟨_, fun _ => rfl⟩
    have hup : ∀ i, A i = true → B i = true := fun i h => by rw [hB, h]; rfl
    refine ⟨B, ?_, ?_, ?_⟩
    · rw [hB, h0]
      rfl
    · rw [hB, hlen, hl]
      have : N.length - 1 ≠ o := by omega
      simp [this]
    · intro p l q he hnl hp
      obtain ⟨q1, h1, h2⟩ := hasEdge_redirect.mp he
      obtain ⟨h3, h4⟩ := hasEdge_clear.mp h1
      rw [Nat.zero_add] at hp
      have hq1 : A q1 = true := by
        rw [hB] at hp
        rcases Bool.or_eq_true _ _ ▸ hp with hp' | hp'
        · have := hA _ _ _ h4 hnl
          rw [Nat.zero_add] at this
          exact this hp'
        · simp only [Bool.and_eq_true, decide_eq_true_eq] at hp'
          obtain ⟨rfl, hpx⟩ := hp'
          obtain ⟨s, hs, hh⟩ := hasEdge_iff.mp h4
          rw [hb] at hs
          rw [← Option.some.inj hs] at hh
          obtain ⟨l', k1, k2⟩ := sameOut_has' (α := α) hab hh
          have := hA _ _ _ (hasEdge_iff.mpr ⟨_, ha, k2⟩)
          rw [Nat.zero_add] at this
          refine this (fun hl' => hnl ?_) hpx
          subst hl'
          cases l with
          | sym s => simp [LabSame] at k1
          | eps e => simp only [LabSame] at k1; rw [k1]
      split at h2
      · rename_i hq
        rw [h2, hB, ← hq, hq1]
        simp
      · rw [h2]; exact hup _ hq1
  · rintro N hw ⟨A, h0, hl, hA⟩
    exact ⟨A, h0, by rw [dedupe_length]; exact hl, fun p l q he => hA p l q (hasEdge_dedupe.mp he)⟩
  · rintro N x c hw _ hx1 hx2 hxc hx ⟨A, h0, hl, hA⟩
    have hxe : N.HasEdge x (.eps .none) c := hasEdge_iff.mpr ⟨_, hx, List.mem_singleton.mpr rfl⟩
    have hlen : ((N.redirect x c).clear x).length = N.length := by simp [NFA.redirect, clear_length]
    have hxc' : A x = true → A c = true := by have := hA _ _ _ hxe; rw [Nat.zero_add] at this; exact this (by simp)
    refine ⟨A, h0, by rw [hlen]; exact hl, ?_⟩
    intro p l q he hnl hp
    obtain ⟨_, h2⟩ := hasEdge_clear.mp he
    obtain ⟨q1, h3, h4⟩ := hasEdge_redirect.mp h2
    have := hA _ _ _ h3 hnl hp
    split at h4
    · rename_i hq; rw [h4]; exact hxc' (by rw [← hq]; exact this)
    · rw [h4]; exact this
  · rintro N x y k es hw _ hx1 hx2 h ⟨A, h0, hl, hA⟩
    have hax : N.HasEdge y (.eps .none) x := by
      obtain ⟨sa, h1, h2⟩ := h.hk
      exact hasEdge_iff.mpr ⟨sa, h1, List.mem_iff_getElem?.mpr ⟨k, h2⟩⟩
    have hxy : A y = true → A x = true := by have := hA _ _ _ hax; rw [Nat.zero_add] at this; exact this (by simp)
    refine ⟨A, h0, by rw [splice_length]; exact hl, ?_⟩
    intro p l q he
    obtain ⟨_, h1 | ⟨rfl, h1⟩⟩ := (hasEdge_splice h).mp he
    · exact hA _ _ _ h1.1
    · intro hnl hp
      have := hA _ _ _ h1 hnl
      rw [Nat.zero_add] at this hp
      exact this (hxy hp)
  · rintro N ds hL h0 hlast ⟨A, e0, hl, hA⟩
    have hlen := removeDead_length (N := N) hL.len
    have hpos : 0 < N.length := by
      rw [← hL.len]; exact (List.getElem?_eq_some_iff.mp h0).1
    obtain ⟨A', hc⟩ : ∃ A' : Nat → Bool, ∀ i, ds[i]? = some false → A' (cnt ds i) = A i := by
      refine ⟨fun j => if h : ∃ i, ds[i]? = some false ∧ cnt ds i = j then A h.choose else true, fun i hi => ?_⟩
      have hex : ∃ i', ds[i']? = some false ∧ cnt ds i' = cnt ds i := ⟨i, hi, rfl⟩
      simp only
      rw [dif_pos hex]
      rw [cnt_inj hex.choose_spec.1 hi hex.choose_spec.2]
    refine ⟨A', ?_, ?_, ?_⟩
    · have := hc 0 h0
      rw [← e0, ← this]; rfl
    · have h3 : cnt ds (N.length - 1) = (N.removeDead ds).length - 1 := by
        rw [hlen]; exact cnt_last (by rw [hL.len]; omega) hlast
      rw [← h3, hc _ hlast, hl]
    · intro p l q he
      obtain ⟨i, i', h1, rfl, h3, rfl⟩ := (hasEdge_removeDead hL).mp he
      have := hA _ _ _ h3
      rw [Nat.zero_add] at this ⊢
      rw [hc _ h1, hc _ (hL.into _ _ _ h3)]
      exact this

/-- A mandatory group cannot be gone round in the automaton of the character engines. -/
theorem opt_char {N : NFA Atom} (hN : Ready N) {g : Nat} (hg : N.groupIsOptional g = false) :
    LabG (optC g) N true false := by
  have hs := (reachFrom_spec (ke := (· != .startCapture g)) (kt := true) hN.wf (List.length_pos_of_ne_nil hN.ne)).2
  refine ⟨flag (N.reachFrom (· != .startCapture g) true 0), (hs 0).mpr .refl, hg, ?_⟩
  intro p l q he hnl hp
  rw [Nat.zero_add, hs] at hp
  refine (hs q).mpr (hp.tail ⟨l, ?_, he⟩)
  cases l with
  | sym a => rfl
  | eps e => simpa [Sel] using hnl

/-- Nor in the automaton of the byte engines. -/
theorem opt_byte (U : Utf8Seqs) {N : NFA Atom} {M : NFA U8Atom} (hN : Ready N) {g : Nat}
    (hg : N.groupIsOptional g = false) (h2 : u8New U.seqs N = .ok M) (hM : M ≠ []) : LabG (optC g) M true false := by
  obtain ⟨B, ms, ss, I, h3, h4⟩ := u8Build_spec U hN.ne
  rw [u8New, u8NewLoopOpt, h3] at h2
  have h5 : B.finish = .ok M := h2
  refine (opt_stable (α := UInt8) g false).finish
    (u8Build_shape hN.wf hN.ne hN.rank hN.mix hN.sink h4) (labG_filter ?_ _ _) h5 hM
  refine labG_u8Build U (fun y _ => y) hN.wf hN.ne h4 (opt_char hN hg) ?_ (fun _ h => h) ?_ ?_
    (fun _ _ _ _ _ _ _ _ _ _ h => h) (fun _ _ _ _ _ _ _ _ h => h)
  · intro e x y h hnl
    exact h (by simpa using hnl)
  · intro s x y u h _ _
    exact h (by simp)
  · intro s x y u w h _ _ _
    exact h (by simp)

/-- A group that has not been opened has been gone round. -/
theorem opt_run {M : NFA U8Atom} {A : Nat → Bool} {g : Nat} (hA0 : A 0 = true) (hA : GOkL (optC g) A 0 M)
    {text : List UInt8} {q : Nat} {d : Cfg UInt8} (h : ReachE M.HasEdge (0, ⟨0, text, []⟩) (q, d))
    (hc : d.caps.start? g = none) : A q = true := by
  have hp := run_unset_path (off := d.off) (rest := d.rest) (caps := d.caps) h hc
  clear h
  induction hp with
  | refl => exact hA0
  | tail _ h2 ih =>
    obtain ⟨l, hs, he⟩ := h2
    have := hA _ _ _ he
    rw [Nat.zero_add] at this
    refine this ?_ ih
    rintro rfl
    simp [Sel] at hs

theorem opt_walk {M : NFA U8Atom} {A : Nat → Bool} {g : Nat} (hA : GOkL (optC g) A 0 M) {q ls p} (h : EWalk M q ls p)
    {caps : Caps} {off : Nat} (hq : caps.start? g = none → A q = true)
    (hc : (caps ++ walkEvents off ls).start? g = none) : A p = true := by
  rw [start?_append] at hc
  obtain ⟨hc1, hc2⟩ := Option.or_eq_none_iff.mp hc
  rw [walkEvents_start] at hc1
  replace hq := hq hc2
  clear hc hc2
  induction h with
  | refl => exact hq
  | @tail ls p e r _ he ih =>
    have hm : EpsType.startCapture g ∉ ls ++ [e] := by
      intro hm; rw [if_pos (by simpa using hm)] at hc1; simp at hc1
    have := hA _ _ _ he
    rw [Nat.zero_add] at this
    refine this ?_ (ih ?_)
    · intro hh
      injection hh with hh
      exact hm (by simp [hh])
    · rw [if_neg]
      intro hh
      exact hm (by simp [hh])

theorem mapM_ok_get {β γ ε : Type} {f : β → Except ε γ} : ∀ {l : List β} {ys : List γ}, l.mapM f = .ok ys →
    ∀ (i : Nat) x, l[i]? = some x → ∃ y, ys[i]? = some y ∧ f x = .ok y
  | [], _, _ => by simp
  | a :: l, ys, h => by
    intro i x hx
    rw [List.mapM_cons] at h
    cases ha : f a with
    | error _ => rw [ha] at h; cases h
    | ok b =>
      rw [ha] at h
      cases hl : l.mapM f with
      | error _ => rw [hl] at h; cases h
      | ok bs =>
        rw [hl] at h
        have : b :: bs = ys := Except.ok.inj h
        subst this
        cases i with
        | zero => simp only [List.getElem?_cons_zero, Option.some.injEq] at hx; subst hx; exact ⟨b, rfl, ha⟩
        | succ i => exact mapM_ok_get hl i x (by simpa using hx)

theorem finishSlot_start {text : List Char} {i e o} (h : finishSlot text (some i, e) = .ok o) : ∃ x, o = some x := by
  unfold finishSlot at h
  cases e with
  | none => simp at h
  | some j =>
    simp only at h
    split at h
    · rename_i r _
      exact ⟨r, (Except.ok.inj h).symm⟩
    · simp at h

/-- Whatever `exec` of the DFA engine reports, mandatory groups are set. -/
theorem tdfa_exec_mandatory (U : Utf8Seqs) (e : ERE) {N : NFA Atom} {M : NFA U8Atom}
    (h1 : workingNew (Tree.fromERE e).1 = .ok N) (h2 : u8New U.seqs N = .ok M) (hne : M ≠ []) {T : TDFA}
    (hT : TDFAOk M T) {text : List Char} {r} (hr : T.exec text (encode text) = .ok (some r)) {g : Nat}
    (hg : g < T.numCaptureGroups) (hopt : N.groupIsOptional g = false) : ∃ x, r[g]? = some (some x) := by
  obtain ⟨hN, hM, _, _⟩ := pipeline_ne U e h1 h2 hne
  unfold TDFA.exec at hr
  rcases tdfaExecLoop hT (encode text) (encode text) [] 0 .start T.start [0] _ rfl rfl rfl (dat_start hT (encode text))
      (rows_start _ _) with ⟨k1, _⟩ | ⟨slots, k1, _, _, q, caps, ls, k2, k3, rfl, _⟩
  · rw [k1] at hr
    simp at hr
  · rw [k1] at hr
    simp only at hr
    obtain ⟨A, a0, al, hA⟩ := opt_byte U hN hopt h2 hne
    have hs : (caps ++ walkEvents (unitLen U8Atom (encode text)) ls).start? g ≠ none := by
      intro hc
      have := opt_walk hA k3 (opt_run a0 hA k2) hc
      rw [al] at this
      simp at this
    obtain ⟨i, hi⟩ := Option.ne_none_iff_exists'.mp hs
    split at hr
    · simp at hr
    · rename_i r' hm
      have := Option.some.inj (Except.ok.inj hr)
      subst this
      obtain ⟨y, n1, n2⟩ := mapM_ok_get hm g _ (slotsOf_get hg)
      rw [hi] at n2
      obtain ⟨x, rfl⟩ := finishSlot_start n2
      exact ⟨x, n1⟩

end Ere
