import Verif.Proofs.Minimise
import Verif.Proofs.Lead
import Verif.Model.Engines

/-! The DFA engine of a pattern. -/

namespace Ere

/-- A run may go on to the end of the text. -/
theorem workingNew_ext (e : ERE) {N : NFA Atom} (h : workingNew (Tree.fromERE e).1 = .ok N) {d : Cfg Char}
    {o r caps} (ha : N.Acc d ⟨o, r, caps⟩) : N.Acc d ⟨o + unitLen Atom r, [], caps⟩ := by
  obtain ⟨M, h1, _, _, _, _, _, h7⟩ := newLoopOpt_spec _ (starOk_fromERE e) true true
  have : M = N := by
    rw [workingNew, h1] at h; injection h
  subst this
  obtain ⟨d1, d2, h8, h9, s, h10, h11, h12⟩ := (h7 _ _).mp ha
  refine (h7 _ _).mpr ⟨d1, d2, h8, h9, s ++ r, by simpa using h10, ?_, h12⟩
  simp only at h11
  simp only [unitLen_append, h11, Nat.add_assoc]

theorem unitLen_encode (text : List Char) : unitLen U8Atom (encode text) = byteLen text := by
  rw [unitLen_u8, encode_length]

/-- An accepting state that needs no end anchor stays accepting to the end of the text. -/
theorem laxExt_pipeline (e : ERE) {N : NFA Atom} {M : NFA U8Atom} (h1 : workingNew (Tree.fromERE e).1 = .ok N)
    (hM : M ≠ []) (h4 : ∀ c d, M.Acc (encCfg c) d ↔ ∃ c', d = encCfg c' ∧ N.Acc c c') (hs : StartSafe M)
    (text : List Char) : LaxExt M (encode text) := by
  intro off rest q ls hq hw he
  have hg := seed_guard hs hq hw (off + unitLen U8Atom rest) (fun h => absurd h he)
  have hat : M.At (encode text) (M.length - 1) off rest := by
    obtain ⟨caps, hr⟩ := (at_iff.mpr ⟨q, hq, .refl⟩ : M.At (encode text) q off rest)
    exact ⟨_, reachE_trans hr (walkRun hw hg rfl caps)⟩
  obtain ⟨caps, hr⟩ := hat
  obtain ⟨c', h5, h6⟩ := (h4 ⟨0, text, []⟩ ⟨off, rest, caps⟩).mp ⟨hM, hr⟩
  obtain ⟨o, r, cs⟩ := c'
  have h7 := workingNew_ext e h1 h6
  have h8 := (h4 ⟨0, text, []⟩ _).mpr ⟨_, rfl, h7⟩
  have hend : o + unitLen Atom r = unitLen U8Atom (encode text) := by
    obtain ⟨p, e1, e2⟩ := at_pos (⟨cs, h8.2⟩ : M.At (encode text) (M.length - 1) _ [])
    rw [List.append_nil] at e1
    rw [e1]; exact e2
  rw [laxAcc_iff hs]
  refine ⟨cs, ?_⟩
  rw [← hend]
  exact h8.2

/-- The result made from the slots of a run. -/
theorem slots_captures {e : ERE} {text : List Char} {S : List Span} {caps : Caps} (h : e.Captures text S)
    (hr : Reads caps S) {k : Nat} (hk : ∀ g, k ≤ g → caps.start? g = none) :
    ∃ r, (slotsOf k caps).mapM (finishSlot text) = .ok r ∧ r.length = k ∧ ∀ g, (r[g]?).join = lastSpan S g := by
  obtain ⟨r, m1, m2, m3⟩ := mapM_ok (f := finishSlot text) (l := slotsOf k caps) (by
    intro x hx
    unfold slotsOf at hx
    obtain ⟨g, hg, rfl⟩ := List.mem_map.mp hx
    exact ⟨_, finishSlot_ok h hr g⟩)
  have hl : r.length = k := by rw [m2]; simp [slotsOf]
  refine ⟨r, m1, hl, fun g => ?_⟩
  by_cases hg : g < k
  · have hs : (slotsOf k caps)[g]? = some (caps.start? g, caps.end? g) := slotsOf_get hg
    obtain ⟨x, h7, h8⟩ := m3 g _ hs
    rw [finishSlot_ok h hr g] at h8
    injection h8 with h8
    rw [h7, ← h8]; rfl
  · rw [List.getElem?_eq_none (by omega)]
    have h9 := hk g (by omega)
    rw [(reads_last hr g).1] at h9
    simp only [Option.map_eq_none_iff] at h9
    rw [h9]; rfl

/-- The DFA engine is right if no start anchor is crossed late. -/
theorem dfa_engine_safe (U : Utf8Seqs) (e : ERE) {N : NFA Atom} {M : NFA U8Atom}
    (h1 : workingNew (Tree.fromERE e).1 = .ok N) (h2 : u8New U.seqs N = .ok M) (hne : M ≠ [])
    (hsafe : StartSafe M) :
      ∀ bound, TDFA.fromNFA M bound = .ok none ∨
        ∃ T D, TDFA.fromNFA M bound = .ok (some T) ∧ DFA.fromTagged T = .ok (some D) ∧
          (∀ text, D.test (encode text) = true ↔ e.MatchesIn text) ∧
          ∀ text, (T.exec text (encode text) = .ok none ∧ ¬ e.MatchesIn text) ∨
            ∃ r S, T.exec text (encode text) = .ok (some r) ∧ e.Captures text S ∧
              r.length = T.numCaptureGroups ∧ ∀ g, (r[g]?).join = lastSpan S g := by
  obtain ⟨hN, hM, h3, h4⟩ := pipeline_ne U e h1 h2 hne
  intro bound
  rcases fromNFA_spec hM.wf hM.ne bound with ⟨g1, _⟩ | ⟨T, g1, _, g2⟩
  · exact Or.inl g1
  obtain ⟨D, g3, g4, _⟩ := fromTagged_spec g2
  have hat : ∀ text caps, ReachE M.HasEdge (0, ⟨0, encode text, []⟩)
      (M.length - 1, ⟨unitLen U8Atom (encode text), [], caps⟩) ↔
      ∃ pre mid post, text = pre ++ mid ++ post ∧
        (Tree.fromERE e).1.Run ⟨byteLen pre, mid ++ post, []⟩ ⟨byteLen (pre ++ mid), post, caps⟩ := by
    intro text caps
    rw [← h3, ← acc_enc h4, unitLen_encode]
    exact ⟨fun h => ⟨hM.ne, h⟩, fun h => h.2⟩
  have hacc : ∀ text, LaxAcc M (encode text) ↔ e.MatchesIn text := by
    intro text
    rw [laxAcc_iff hsafe, ← exists_run_iff]
    exact exists_congr fun caps => hat text caps
  refine Or.inr ⟨T, D, g1, g3, fun text => ?_, fun text => ?_⟩
  · rw [g4.test, plainTest g2 _ (laxExt_pipeline e h1 hM.ne h4 hsafe text), hacc]
  · have hA := dat_start g2 (encode text)
    unfold TDFA.exec
    rcases tdfaExecLoop g2 (encode text) (encode text) [] 0 .start T.start [0] _ rfl rfl rfl hA
      (rows_start _ _) with ⟨k1, k2⟩ | ⟨slots, k1, k2, k3, _⟩
    · rw [k1]
      exact Or.inl ⟨rfl, fun h => k2 ((hacc text).mpr h)⟩
    · rw [k1]
      obtain ⟨caps, k4, rfl, k6⟩ := k3 hsafe
      obtain ⟨S, h5, h6⟩ := run_captures ((hat text caps).mp k4)
      obtain ⟨r, m1, m2, m3⟩ := slots_captures h5 h6 k6
      simp only
      rw [m1]
      exact Or.inr ⟨r, S, rfl, h5, m2, m3⟩

theorem dfa_engine (U : Utf8Seqs) (e : ERE) {N : NFA Atom} {M : NFA U8Atom}
    (h1 : workingNew (Tree.fromERE e).1 = .ok N) (h2 : u8New U.seqs N = .ok M) (hne : M ≠ [])
    (hs : e.StartSimple) :
      ∀ bound, TDFA.fromNFA M bound = .ok none ∨
        ∃ T D, TDFA.fromNFA M bound = .ok (some T) ∧ DFA.fromTagged T = .ok (some D) ∧
          (∀ text, D.test (encode text) = true ↔ e.MatchesIn text) ∧
          ∀ text, (T.exec text (encode text) = .ok none ∧ ¬ e.MatchesIn text) ∨
            ∃ r S, T.exec text (encode text) = .ok (some r) ∧ e.Captures text S ∧
              r.length = T.numCaptureGroups ∧ ∀ g, (r[g]?).join = lastSpan S g :=
  dfa_engine_safe U e h1 h2 hne (startSafe_pipeline U e hs h1 (pipeline_ne U e h1 h2 hne).1 h2 hne)

end Ere
