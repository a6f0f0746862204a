import Verif.Proofs.U8Build
import Verif.Proofs.Close

/-! From a pattern to both automata, with everything the engines rely on. -/

namespace Ere

/-- Structural facts about the automata handed to the engines. -/
structure Ready {σ : Type} (N : NFA σ) : Prop where
  ne : N ≠ []
  wf : N.WF
  mix : N.NoMix
  sink : N.Sink
  trim : N.Trim
  rank : N.Ranked
  close : ∀ g, ¬ CanClose N g 0

theorem encode_length (cs : List Char) : (encode cs).length = byteLen cs := by
  induction cs with
  | nil => rfl
  | cons c cs ih => rw [encode_cons, List.length_append, enc_length, ih]; rfl

theorem unitLen_u8 (bs : List UInt8) : unitLen U8Atom bs = bs.length := by
  unfold unitLen
  induction bs with
  | nil => rfl
  | cons b bs ih => simp only [List.map_cons, List.sum_cons, ih, List.length_cons]; simp only [Sym.len]; omega

/-- A character automaton that has not lost all its states. -/
theorem workingNew_ne (e : ERE) {N : NFA Atom} (h : workingNew (Tree.fromERE e).1 = .ok N) (hne : N ≠ []) :
    Ready N ∧
      ∀ text caps, N.Acc ⟨0, text, []⟩ ⟨byteLen text, [], caps⟩ ↔
        ∃ pre mid post, text = pre ++ mid ++ post ∧
          (Tree.fromERE e).1.Run ⟨byteLen pre, mid ++ post, []⟩ ⟨byteLen (pre ++ mid), post, caps⟩ := by
  obtain ⟨N', h1, h2, h3, h4, h5, h6, h7⟩ := workingNew_spec _ (starOk_fromERE e)
  obtain rfl : N' = N := by rw [h1] at h; injection h
  exact ⟨⟨hne, h2, h3, h4, h5, h6, newLoopOpt_close (starOk_fromERE e) h1⟩, h7⟩

theorem workingNew_ready (e : ERE) (hm : ∃ text, e.MatchesIn text) :
    ∃ N, workingNew (Tree.fromERE e).1 = .ok N ∧ Ready N ∧
      ∀ text caps, N.Acc ⟨0, text, []⟩ ⟨byteLen text, [], caps⟩ ↔
        ∃ pre mid post, text = pre ++ mid ++ post ∧
          (Tree.fromERE e).1.Run ⟨byteLen pre, mid ++ post, []⟩ ⟨byteLen (pre ++ mid), post, caps⟩ := by
  obtain ⟨N, h1, h2, h3, h4, h5, h6, h7⟩ := workingNew_spec _ (starOk_fromERE e)
  refine ⟨N, h1, ⟨?_, h2, h3, h4, h5, h6, newLoopOpt_close (starOk_fromERE e) h1⟩, h7⟩
  obtain ⟨text, h⟩ := hm
  obtain ⟨caps, hh⟩ := (exists_run_iff e text).mpr h
  exact ((h7 text caps).mpr hh).1

theorem u8New_nil (U : Char → Char → List (List U8Atom)) : u8New U [] = .error .panic := by
  rw [u8New, u8NewLoopOpt, u8Build]; rfl

/-- Automata that have not lost all their states. -/
theorem pipeline_ne (U : Utf8Seqs) (e : ERE) {N : NFA Atom} {M : NFA U8Atom}
    (h1 : workingNew (Tree.fromERE e).1 = .ok N) (h2 : u8New U.seqs N = .ok M) (hne : M ≠ []) :
    Ready N ∧ Ready M ∧
      (∀ text caps, N.Acc ⟨0, text, []⟩ ⟨byteLen text, [], caps⟩ ↔
        ∃ pre mid post, text = pre ++ mid ++ post ∧
          (Tree.fromERE e).1.Run ⟨byteLen pre, mid ++ post, []⟩ ⟨byteLen (pre ++ mid), post, caps⟩) ∧
      ∀ c d, M.Acc (encCfg c) d ↔ ∃ c', d = encCfg c' ∧ N.Acc c c' := by
  have hN : N ≠ [] := by rintro rfl; rw [u8New_nil] at h2; simp at h2
  obtain ⟨hR, h3⟩ := workingNew_ne e h1 hN
  obtain ⟨M', h4, h5, h6, h7, h8, h9, h10⟩ := u8New_spec U hR.wf hR.ne hR.rank hR.mix hR.sink
  obtain rfl : M' = M := by rw [h4] at h2; injection h2
  exact ⟨hR, ⟨hne, h5, h6, h7, h8, h9, fun g hc => hR.close g
    ((u8New_sims hR.wf hR.ne hR.rank hR.mix hR.sink h4).canClose hc)⟩, h3, h10⟩

/-- An accepting run gives an accepting run of the byte automaton, so it is not empty. -/
theorem pipeline_spec (U : Utf8Seqs) (e : ERE) (hm : ∃ text, e.MatchesIn text) :
    ∃ N M, workingNew (Tree.fromERE e).1 = .ok N ∧ u8New U.seqs N = .ok M ∧ Ready N ∧ Ready M ∧
      (∀ text caps, N.Acc ⟨0, text, []⟩ ⟨byteLen text, [], caps⟩ ↔
        ∃ pre mid post, text = pre ++ mid ++ post ∧
          (Tree.fromERE e).1.Run ⟨byteLen pre, mid ++ post, []⟩ ⟨byteLen (pre ++ mid), post, caps⟩) ∧
      ∀ c d, M.Acc (encCfg c) d ↔ ∃ c', d = encCfg c' ∧ N.Acc c c' := by
  obtain ⟨N, h1, h2, h3⟩ := workingNew_ready e hm
  obtain ⟨M, h4, h5, h6, h7, h8, h9, h10⟩ := u8New_spec U h2.wf h2.ne h2.rank h2.mix h2.sink
  refine ⟨N, M, h1, h4, h2, ⟨?_, h5, h6, h7, h8, h9, fun g hc => h2.close g
    ((u8New_sims h2.wf h2.ne h2.rank h2.mix h2.sink h4).canClose hc)⟩, h3, h10⟩
  obtain ⟨text, h⟩ := hm
  obtain ⟨caps, hh⟩ := (exists_run_iff e text).mpr h
  exact ((h10 ⟨0, text, []⟩ _).mpr ⟨_, rfl, (h3 text caps).mpr hh⟩).1

/-- Over whole texts the byte automaton accepts with the same captures. -/
theorem acc_enc {N : NFA Atom} {M : NFA U8Atom}
    (h : ∀ c d, M.Acc (encCfg c) d ↔ ∃ c', d = encCfg c' ∧ N.Acc c c') (text : List Char) (o : Nat) (caps : Caps) :
    M.Acc ⟨0, encode text, []⟩ ⟨o, [], caps⟩ ↔ N.Acc ⟨0, text, []⟩ ⟨o, [], caps⟩ := by
  have := h ⟨0, text, []⟩ ⟨o, [], caps⟩
  rw [show (⟨0, encode text, []⟩ : Cfg UInt8) = encCfg ⟨0, text, []⟩ from rfl, this]
  constructor
  · rintro ⟨c', h1, h2⟩
    have : c' = ⟨o, [], caps⟩ := encCfg_inj (show encCfg c' = encCfg ⟨o, [], caps⟩ from h1.symm)
    subst this; exact h2
  · intro h2; exact ⟨⟨o, [], caps⟩, rfl, h2⟩

end Ere
