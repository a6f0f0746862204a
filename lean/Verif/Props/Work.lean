import Verif.Proofs.Work
import Verif.Props.Pick

/-!
# Property theorems about the work of the generated programs: C51
-/

namespace Ere.Props
open Ere

variable {σ α : Type}

/-! ## Base engines -/

theorem length_le_byteLen (text : List Char) : text.length ≤ byteLen text := by
  induction text with
  | nil => simp
  | cons c cs ih =>
    rw [byteLen_cons, List.length_cons]
    have : 0 < charLen c := Sym.len_pos (σ := Atom) c
    omega

/-- The flat engines inside are those of `compileFlat`. -/
def BaseEngine.FlatClosed : BaseEngine → Prop
  | .flatU8 F => F.Closed
  | .flatChar F => F.Closed
  | _ => True

theorem compileFlat_closed {N : NFA σ} {F : Flat σ} (hN : N.WF) (h : compileFlat N = .ok F) : F.Closed := by
  obtain ⟨F', f1, f2⟩ := compileFlat_spec hN (compileFlat_ne h)
  have : F' = F := by rw [f1] at h; exact Except.ok.inj h
  rw [← this]
  exact flat_closed hN f2

theorem pickBase_closed (U : Utf8Seqs) {e : ERE} {b : BasePick} (h : pickBase U.seqs e = .ok b) :
    BaseEngine.FlatClosed b.engine := by
  obtain ⟨h1, h2, h3⟩ := pickBase_ok h
  have hb : byteNFA U.seqs e = .ok b.u8nfa := by unfold byteNFA charNFA; rw [h1]; exact h2
  unfold pickInner at h3
  split at h3
  · simp at h3
  · rw [← Except.ok.inj h3]; trivial
  · split at h3
    · simp at h3
    · split at h3
      · simp at h3
      · rw [← Except.ok.inj h3]; trivial
    · split at h3
      · split at h3
        · simp at h3
        · rename_i F hF
          rw [← Except.ok.inj h3]
          exact compileFlat_closed (pipeline_ne U e h1 h2 (compileFlat_ne hF)).2.1.wf hF
      · split at h3
        · simp at h3
        · rename_i F hF
          rw [← Except.ok.inj h3]
          exact compileFlat_closed (workingNew_ne e h1 (compileFlat_ne hF)).1.wf hF

/-- Bound for a program of size `s` on a text of `n` bytes. -/
def linear (s n : Nat) : Nat := 2 * ((1 + s) * (1 + s)) * (n + 1)

theorem linear_mono {s s' n n' : Nat} (h : s ≤ s') (hn : n ≤ n') : linear s n ≤ linear s' n' :=
  Nat.mul_le_mul (Nat.mul_le_mul_left _ (Nat.mul_le_mul (by omega) (by omega))) (by omega)

theorem le_linear {w s n : Nat} (h : w ≤ s * (n + 1)) : w ≤ linear s n := by
  refine Nat.le_trans h (Nat.mul_le_mul_right _ ?_)
  have : 1 + s ≤ (1 + s) * (1 + s) := Nat.le_mul_of_pos_left _ (by omega)
  omega

theorem le_linear2 {w s n : Nat} (h : w ≤ (1 + 2 * s) * (n + 1)) : w ≤ linear s n := by
  refine Nat.le_trans h (Nat.mul_le_mul_right _ ?_)
  have : 1 + s ≤ (1 + s) * (1 + s) := Nat.le_mul_of_pos_left _ (by omega)
  omega

theorem le_linear_sq {w s n : Nat} (h : w ≤ (1 + s) * (1 + s) * (n + 2)) : w ≤ linear s n := by
  have e : linear s n = (1 + s) * (1 + s) * (2 * (n + 1)) := by
    unfold linear
    rw [Nat.mul_comm 2, Nat.mul_assoc]
  rw [e]
  exact Nat.le_trans h (Nat.mul_le_mul_left _ (by omega))

theorem linear_add {s b k n : Nat} (he : s = b + k) : linear b n + k ≤ linear s n := by
  have h4 : (1 + b) * (1 + b) + k ≤ (1 + s) * (1 + s) := by
    have e1 : (1 + s) * (1 + s) = (1 + b) * (1 + s) + k * (1 + s) := by
      rw [← Nat.add_mul, he]; congr 1
      omega
    have e2 : (1 + b) * (1 + b) ≤ (1 + b) * (1 + s) := Nat.mul_le_mul_left _ (by omega)
    have e3 : k ≤ k * (1 + s) := Nat.le_mul_of_pos_right _ (by omega)
    omega
  have h5 := Nat.mul_le_mul_right (n + 1) (Nat.mul_le_mul_left 2 h4)
  refine Nat.le_trans ?_ h5
  have e4 : 2 * ((1 + b) * (1 + b) + k) * (n + 1) = linear b n + 2 * k * (n + 1) := by
    rw [Nat.mul_add 2]
    exact Nat.add_mul _ _ _
  rw [e4]
  have : k ≤ 2 * k * (n + 1) := Nat.le_trans (by omega) (Nat.le_mul_of_pos_right (2 * k) (by omega))
  omega

theorem base_test_work (b : BaseEngine) (text : List Char) : (b.testC text).2 ≤ linear b.size (byteLen text) := by
  have hl := length_le_byteLen text
  cases b with
  | onePass P =>
    have := P.test_work (encode text)
    rw [encode_length] at this
    exact le_linear this
  | dfa G =>
    cases G with
    | none => exact Nat.zero_le _
    | some G =>
      have := G.dfa.test_work (encode text)
      rw [encode_length] at this
      exact Nat.le_trans (le_linear this) (linear_mono (Nat.le_add_right _ _) (Nat.le_refl _))
  | flatU8 F =>
    have := F.test_work (encode text)
    rw [encode_length] at this
    exact le_linear2 this
  | flatChar F => exact Nat.le_trans (le_linear2 (F.test_work text)) (linear_mono (Nat.le_refl _) hl)

theorem base_exec_work {b : BaseEngine} (hb : BaseEngine.FlatClosed b) (text : List Char) :
    (b.execC text).2 ≤ linear b.size (byteLen text) := by
  have hl := length_le_byteLen text
  cases b with
  | onePass P =>
    have := P.exec_work text (encode text)
    rw [encode_length] at this
    exact le_linear this
  | dfa G =>
    cases G with
    | none => exact Nat.zero_le _
    | some G =>
      have := G.tdfa.exec_work text (encode text)
      rw [encode_length] at this
      exact Nat.le_trans (le_linear this) (linear_mono (Nat.le_add_left _ _) (Nat.le_refl _))
  | flatU8 F =>
    have := Flat.exec_work (F := F) hb text (encode text)
    rw [encode_length] at this
    exact le_linear_sq this
  | flatChar F =>
    exact Nat.le_trans (le_linear_sq (Flat.exec_work (F := F) hb text text)) (linear_mono (Nat.le_refl _) hl)

/-! ## C51 -/

/-- **C51 (the chosen engine).** For every pattern and every text the number of steps of `test` and of `exec` is at most
`2 (1 + s)² (n + 1)`, where `s` is the size of the emitted program and `n` the number of bytes of the text. (The counted
functions return what `test` and `exec` return.) -/
theorem C51_linear (U : Utf8Seqs) {e : ERE} {E : Engine} (h : pickEngine U.seqs e = .ok E) (text : List Char) :
    (∃ w, E.testC text = (E.test text, w) ∧ w ≤ 2 * ((1 + E.size) * (1 + E.size)) * (byteLen text + 1)) ∧
      (∃ w, E.execC text = (E.exec text, w) ∧ w ≤ 2 * ((1 + E.size) * (1 + E.size)) * (byteLen text + 1)) := by
  obtain ⟨b, hb, hbe⟩ := pickEngine_base h
  have hc := pickBase_closed U hb
  rw [← hbe] at hc
  have h1 := base_test_work E.base text
  have h2 := base_exec_work hc text
  have hs : E.base.size ≤ E.size := Nat.le_add_right _ _
  refine ⟨⟨(E.testC text).2, Prod.ext (E.testC_fst text) rfl, ?_⟩, ⟨(E.execC text).2, Prod.ext (E.execC_fst text) rfl, ?_⟩⟩
  · exact Nat.le_trans h1 (linear_mono hs (Nat.le_refl _))
  · unfold Engine.execC
    cases hf : E.fixed with
    | none => exact Nat.le_trans h2 (linear_mono hs (Nat.le_refl _))
    | some p =>
      obtain ⟨offs, k⟩ := p
      have he : E.size = E.base.size + offs.length := by unfold Engine.size; rw [hf]
      have h3 := linear_add (n := byteLen text) he
      dsimp only
      cases (E.base.testC text).1 with
      | error x => exact Nat.le_trans (Nat.le_trans h1 (Nat.le_add_right _ _)) h3
      | ok x => exact Nat.le_trans (Nat.add_le_add_right h1 _) h3

/-- C51 for the flat engines used directly. -/
theorem C51_flat_char {e : ERE} {F : Flat Atom} (h : compileFlatChar e = .ok F) (text : List Char) :
    (∃ w, F.testC text = (F.test text, w) ∧ w ≤ (1 + 2 * F.size) * (text.length + 1)) ∧
      (∃ w, F.execC text text = (F.exec text text, w) ∧ w ≤ (1 + F.size) * (1 + F.size) * (text.length + 2)) := by
  obtain ⟨N, _, h2, hN, _⟩ := flat_char h
  exact ⟨⟨_, Prod.ext (F.testC_fst text) rfl, F.test_work text⟩,
    ⟨_, Prod.ext (F.execC_fst text text) rfl, Flat.exec_work (flat_closed hN.wf h2) text text⟩⟩

/-- C51 for the flat engine over bytes. -/
theorem C51_flat_u8 (U : Utf8Seqs) {e : ERE} {F : Flat U8Atom} (h : compileFlatU8 U.seqs e = .ok F) (text : List Char) :
    (∃ w, F.testC (encode text) = (F.test (encode text), w) ∧ w ≤ (1 + 2 * F.size) * (byteLen text + 1)) ∧
      (∃ w, F.execC text (encode text) = (F.exec text (encode text), w) ∧
        w ≤ (1 + F.size) * (1 + F.size) * (byteLen text + 2)) := by
  obtain ⟨N, M, _, _, h2, hM, _⟩ := flat_u8 U h
  rw [← encode_length]
  exact ⟨⟨_, Prod.ext (F.testC_fst _) rfl, F.test_work _⟩,
    ⟨_, Prod.ext (F.execC_fst text _) rfl, Flat.exec_work (flat_closed hM.wf h2) text _⟩⟩

/-- C51 for the DFA engine: the factor is the size of the program itself. -/
theorem C51_dfa (G : DfaEngine) (text : List Char) :
    (∃ w, G.dfa.testC (encode text) = (G.dfa.test (encode text), w) ∧ w ≤ G.dfa.size * (byteLen text + 1)) ∧
      (∃ w, G.tdfa.execC text (encode text) = (G.tdfa.exec text (encode text), w) ∧
        w ≤ G.tdfa.size * (byteLen text + 1)) := by
  rw [← encode_length]
  exact ⟨⟨_, Prod.ext (G.dfa.testC_fst _) rfl, G.dfa.test_work _⟩,
    ⟨_, Prod.ext (G.tdfa.execC_fst text _) rfl, G.tdfa.exec_work text _⟩⟩

/-- C51 for the one-pass engine: the factor is the size of the program itself. -/
theorem C51_one_pass (P : OnePass) (text : List Char) :
    (∃ w, P.testC (encode text) = (P.test (encode text), w) ∧ w ≤ P.size * (byteLen text + 1)) ∧
      (∃ w, P.execC text (encode text) = (P.exec text (encode text), w) ∧ w ≤ P.size * (byteLen text + 1)) := by
  rw [← encode_length]
  exact ⟨⟨_, Prod.ext (P.testC_fst _) rfl, P.test_work _⟩, ⟨_, Prod.ext (P.execC_fst text _) rfl, P.exec_work text _⟩⟩

/-- C51: at every position of the text `exec` of a flat engine keeps at most one thread for each state of the automaton. -/
theorem C51_threads [Sym σ α] {N : NFA σ} {F : Flat σ} (hN : N.WF) (h : compileFlat N = .ok F) (total : Nat)
    (seen : List α) {T T' : List Thread} (h1 : F.epsExec 0 total [⟨0, List.replicate F.groups (none, none)⟩] = .ok T)
    (h2 : F.execLoop total 0 seen T = .ok (some T')) : (T'.map (·.state)).Nodup ∧ T'.length ≤ N.length := by
  have hF := compileFlat_closed hN h
  have hn : F.nfa = N := by
    obtain ⟨F', f1, f2⟩ := compileFlat_spec hN (compileFlat_ne h)
    have : F' = F := by rw [f1] at h; exact Except.ok.inj h
    rw [← this]; exact f2.nfa
  have := (Flat.execLoop_work hF total seen 0 (F.epsExec_ok hF (by simp) h1)).2 T' h2
  exact ⟨this.nodup, hn ▸ this.length⟩

/-! ## Something is counted -/

theorem flat_execLoop_ge [Sym σ α] (F : Flat σ) (total : Nat) (cs : List α) (off : Nat) (T : List Thread) {T'}
    (h : F.execLoop total off cs T = .ok (some T')) : cs.length ≤ (F.execLoopC total off cs T).2 := by
  induction cs generalizing off T with
  | nil => simp
  | cons c cs ih =>
    simp only [Flat.execLoop] at h
    simp only [Flat.execLoopC, List.length_cons]
    cases h1 : F.epsExec (off + Sym.len (σ := σ) c) total (F.symExec c T) with
    | error e => rw [h1] at h; simp at h
    | ok new =>
      rw [h1] at h
      dsimp only at h ⊢
      split at h
      · simp at h
      · rename_i hn
        rw [if_neg hn]
        have := ih _ _ h
        dsimp only; omega

theorem flat_exec_ge [Sym σ α] (F : Flat σ) (text : List Char) (units : List α) {r}
    (h : F.exec text units = .ok (some r)) : units.length ≤ (F.execC text units).2 := by
  simp only [Flat.exec] at h
  simp only [Flat.execC]
  cases h1 : F.epsExec 0 (units.map (Sym.len (σ := σ))).sum [⟨0, List.replicate F.groups (none, none)⟩] with
  | error e => rw [h1] at h; simp at h
  | ok T =>
    rw [h1] at h
    dsimp only at h ⊢
    have h3 := F.execLoopC_fst (units.map (Sym.len (σ := σ))).sum units 0 T
    cases h2 : F.execLoop (units.map (Sym.len (σ := σ))).sum 0 units T with
    | error e => rw [h2] at h; simp at h
    | ok r =>
      cases r with
      | none => rw [h2] at h; simp at h
      | some T' =>
        have := flat_execLoop_ge F _ units 0 T h2
        rw [h3, h2]
        dsimp only
        cases T'.find? (fun t => t.state + 1 == F.nfa.length) <;> dsimp only <;> omega

theorem tdfa_execLoop_ge (D : TDFA) (cs : List UInt8) (v : VState) (rows : List Slots) (idx : Nat) {r}
    (h : D.execLoop v rows idx cs = .ok (some r)) : cs.length ≤ (D.execLoopC v rows idx cs).2 := by
  induction cs generalizing v rows idx with
  | nil => simp
  | cons c cs ih =>
    simp only [TDFA.execLoop] at h
    simp only [TDFA.execLoopC, List.length_cons]
    cases h1 : D.get v with
    | none => rw [h1] at h; simp at h
    | some s =>
      rw [h1] at h
      dsimp only at h ⊢
      cases h2 : s.trans.find? (fun t => t.symbol.check c) with
      | none => rw [h2] at h; simp at h
      | some t =>
        rw [h2] at h
        dsimp only at h ⊢
        cases h3 : tagStep idx rows t with
        | error e => rw [h3] at h; simp at h
        | ok rows' =>
          rw [h3] at h
          have := ih _ _ _ h
          dsimp only; omega

theorem vm_execLoop_ge (P : VmProg) (cs : List UInt8) (i q : Nat) (caps : Slots) {r}
    (h : P.execLoop i q caps cs = .ok (some r)) : cs.length ≤ (P.execLoopC i q caps cs).2 := by
  induction cs generalizing i q caps with
  | nil => simp
  | cons c cs ih =>
    simp only [VmProg.execLoop] at h
    simp only [VmProg.execLoopC, List.length_cons]
    cases h1 : P.step q i c with
    | none => rw [h1] at h; simp at h
    | some a =>
      rw [h1] at h
      dsimp only at h ⊢
      cases h2 : a.tags.foldlM (applyTag i) caps with
      | error e => rw [h2] at h; simp at h
      | ok caps' =>
        rw [h2] at h
        have := ih _ _ _ h
        dsimp only; omega

theorem fn_execLoop_ge (P : FnProg) (k q : Nat) (cs : List UInt8) (idx : Nat) (caps : Slots) (start : Bool) {r}
    (h : P.execLoop k q cs idx caps start = .ok (some r)) : cs.length ≤ (P.execLoopC k q cs idx caps start).2 := by
  induction k generalizing q cs idx caps start with
  | zero => simp [FnProg.execLoop] at h
  | succ k ih =>
    simp only [FnProg.execLoop] at h
    simp only [FnProg.execLoopC]
    cases h1 : P.fns[q]?.join with
    | none => rw [h1] at h; simp at h
    | some f =>
      rw [h1] at h
      cases f with
      | run x =>
        dsimp only at h ⊢
        split at h
        · rename_i hr
          rw [if_pos hr]
          cases h2 : x.tags.foldlM (fun c t => applyTag (t.1 + idx) c t.2) caps with
          | error e => rw [h2] at h; simp at h
          | ok caps' =>
            rw [h2] at h
            have := ih _ _ _ _ _ h
            rw [List.length_drop] at this
            dsimp only; omega
        · simp at h
      | normal acc row =>
        cases cs with
        | nil => simp
        | cons c cs =>
          dsimp only at h ⊢
          rw [List.length_cons]
          cases h2 : row.find? (fun t => t.1.check c && fnGuard q start t.2) with
          | none => rw [h2] at h; simp at h
          | some t =>
            rw [h2] at h
            dsimp only at h ⊢
            cases h3 : (tagsOf t.2.caps).foldlM (applyTag idx) caps with
            | error e => rw [h3] at h; simp at h
            | ok caps' =>
              rw [h3] at h
              have := ih _ _ _ _ _ h
              dsimp only; omega

/-- C51, the other way round: the steps counted for an `exec` that finds a match are at least as many as the characters
of the text. (So the bound of `C51_linear` is met up to the factor.) -/
theorem C51_reads_all (b : BaseEngine) (text : List Char) {r} (h : b.exec text = .ok (some r)) :
    text.length ≤ (b.execC text).2 := by
  have hl := length_le_byteLen text
  rw [← encode_length] at hl
  cases b with
  | onePass P =>
    simp only [BaseEngine.exec, OnePass.exec] at h
    simp only [BaseEngine.execC, OnePass.execC, OnePass.slotsC_fst]
    cases h1 : P.slots (encode text) with
    | error e => rw [h1] at h; simp at h
    | ok s =>
      cases s with
      | none => rw [h1] at h; simp at h
      | some s =>
        have : (encode text).length ≤ (P.slotsC (encode text)).2 := by
          cases P with
          | vm P => exact vm_execLoop_ge P _ _ _ _ h1
          | fn P => exact fn_execLoop_ge P _ _ _ _ _ _ h1
        dsimp only; omega
  | dfa G =>
    cases G with
    | none => simp [BaseEngine.exec] at h
    | some G =>
      simp only [BaseEngine.exec, TDFA.exec] at h
      simp only [BaseEngine.execC, TDFA.execC, TDFA.execLoopC_fst]
      cases h1 : G.tdfa.execLoop .start [List.replicate G.tdfa.numCaptureGroups (none, none)] 0 (encode text) with
      | error e => rw [h1] at h; simp at h
      | ok s =>
        cases s with
        | none => rw [h1] at h; simp at h
        | some s =>
          have := tdfa_execLoop_ge _ _ _ _ _ h1
          dsimp only; omega
  | flatU8 F => exact Nat.le_trans hl (flat_exec_ge F text _ h)
  | flatChar F => exact flat_exec_ge F text _ h

/-! ## Examples -/

/-- non-vacuity: `(a|a)*b` on `n` times `a` in the flat engine over characters; the number of ways to go through
the alternatives doubles with every `a`, the steps grow by a constant. -/
example : ((parseStr "(a|a)*b".toList).toOption.bind (fun e => (compileFlatChar e).toOption)).map (fun F =>
    (F.size, [0, 1, 2, 3].map (fun n => ((F.testC (List.replicate n 'a')).2,
      (F.execC (List.replicate n 'a') (List.replicate n 'a')).2)))) =
    some (45, [(18, 11), (51, 31), (84, 51), (117, 71)]) := by decide +kernel

/-- non-vacuity: `compile_regex!` on `(a|ab)c*`. -/
example : (((compileRegex utf8Sequences "(a|ab)c*".toList).toOption.bind id).map (fun E =>
    (BaseEngine.kind E.base, decide (E.exec "xabcc".toList = .ok (some [some (1, 2), some (1, 2)])),
      decide ((E.execC "xabcc".toList).2 ≤ 2 * ((1 + E.size) * (1 + E.size)) * 6)))) =
    some (1, true, true) := by decide +kernel

/-- non-vacuity of `C51_threads`: `(a|ab)c*` after `ab`: six threads, fourteen states. -/
example : ((parseStr "(a|ab)c*".toList).toOption.bind (fun e => (compileFlatChar e).toOption)).bind (fun F =>
    ((F.epsExec 0 2 [⟨0, List.replicate F.groups (none, none)⟩]).toOption.bind (fun T =>
      (F.execLoop 2 0 ['a', 'b'] T).toOption.bind id)).map (fun T => (F.nfa.length, T.length, T.map (·.state)))) =
    some (14, 6, [13, 11, 9, 5, 6, 1]) := by decide +kernel

end Ere.Props
