import Verif.Proofs.Pipeline
import Verif.Props.Opt

/-!
# Property theorems about the byte automaton: C16

`U : Utf8Seqs` is the contract of the external crate `utf8_ranges`; `utf8Crate` is our own
implementation of it, proved to satisfy the contract, so the hypothesis is satisfiable.
-/

namespace Ere.Props
open Ere

/-- **C16, one automaton.** For any character automaton of the shape the compiler produces, building
the byte automaton and optimising it succeeds, and its runs on encoded texts are exactly the runs of
the character automaton: same offsets, same remaining text, same capture events. In particular no
run ends inside a character. -/
theorem C16_byte_runs (U : Utf8Seqs) (N : NFA Atom) (hN : Ready N) :
    ∃ M, u8New U.seqs N = .ok M ∧ ∀ (text : List Char) (o o' : Nat) (caps caps' : Caps) (r : List UInt8),
      M.Acc ⟨o, encode text, caps⟩ ⟨o', r, caps'⟩ ↔
        ∃ text', r = encode text' ∧ N.Acc ⟨o, text, caps⟩ ⟨o', text', caps'⟩ := by
  obtain ⟨M, h1, _, _, _, _, _, h2⟩ := u8New_spec U hN.wf hN.ne hN.rank hN.mix hN.sink
  refine ⟨M, h1, fun text o o' caps caps' r => ?_⟩
  rw [show (⟨o, encode text, caps⟩ : Cfg UInt8) = encCfg ⟨o, text, caps⟩ from rfl, h2]
  constructor
  · rintro ⟨⟨o2, t2, k2⟩, h3, h4⟩
    simp only [encCfg, Cfg.mk.injEq] at h3
    obtain ⟨rfl, rfl, rfl⟩ := h3
    exact ⟨t2, rfl, h4⟩
  · rintro ⟨t2, rfl, h4⟩
    exact ⟨⟨o', t2, caps'⟩, rfl, h4⟩

/-- **C16.** For every pattern the byte automaton, if there is one, accepts the encoding of a text with a
list of capture events exactly when the character automaton accepts the text with those events. -/
theorem C16_byte_eq_char (U : Utf8Seqs) {e : ERE} {N : NFA Atom} {M : NFA U8Atom}
    (hN : workingNew (Tree.fromERE e).1 = .ok N) (hM : u8New U.seqs N = .ok M) (text : List Char) (caps : Caps) :
    M.Acc ⟨0, encode text, []⟩ ⟨(encode text).length, [], caps⟩ ↔
      N.Acc ⟨0, text, []⟩ ⟨byteLen text, [], caps⟩ := by
  have hne : N ≠ [] := by rintro rfl; rw [u8New_nil] at hM; simp at hM
  obtain ⟨hR, _⟩ := workingNew_ne e hN hne
  obtain ⟨M', h1, _, _, _, _, _, h2⟩ := u8New_spec U hR.wf hR.ne hR.rank hR.mix hR.sink
  obtain rfl : M' = M := by rw [h1] at hM; injection hM
  rw [encode_length]; exact acc_enc h2 text _ caps

/-- C16: both automata exist and have states if the pattern can match at all. -/
theorem C16_exists (U : Utf8Seqs) (e : ERE) (hm : ∃ text, e.MatchesIn text) :
    ∃ N M, workingNew (Tree.fromERE e).1 = .ok N ∧ u8New U.seqs N = .ok M ∧ M ≠ [] := by
  obtain ⟨N, M, h1, h2, _, h3, _⟩ := pipeline_spec U e hm
  exact ⟨N, M, h1, h2, h3.ne⟩

/-- C16 for `test`: the direct simulation of the byte automaton, unless it has lost all its states, on the
bytes of a text answers true exactly when the pattern matches somewhere in the text. -/
theorem C16_byte_test (U : Utf8Seqs) {e : ERE} {N : NFA Atom} {M : NFA U8Atom}
    (hN : workingNew (Tree.fromERE e).1 = .ok N) (hM : u8New U.seqs N = .ok M) (hne : M ≠ []) (text : List Char) :
    ∃ b, M.test (encode text) = .ok b ∧ (b = true ↔ e.MatchesIn text) := by
  obtain ⟨_, hM, h3, h4⟩ := pipeline_ne U e hN hM hne
  obtain ⟨b, h5, h6⟩ := test_spec hM.wf hM.ne (encode text)
  refine ⟨b, h5, ?_⟩
  rw [h6, ← exists_run_iff, unitLen_u8, encode_length]
  simp only [acc_enc h4, h3]

/-- C16: the contract can be met. Our implementation of the range splitting produces sequences of
byte ranges that match exactly the encodings of the characters of the range. -/
theorem C16_crate_contract (lo hi : Char) (bs : List UInt8) :
    (∃ s ∈ utf8Sequences lo hi, MatchesSeq s bs) ↔
      ∃ c : Char, lo ≤ c ∧ c ≤ hi ∧ bs = String.utf8EncodeChar c := utf8Crate.exact_ lo hi bs

/-- non-vacuity: `[¡-€]` needs sequences of two and three bytes; the byte automaton accepts `é` (two
bytes) and `€` (three bytes) but not `£` cut in half. -/
example : (do
    let N ← workingNew (Tree.fromERE (.mk [.mk [.single (.atom (.matching [.range '¡' '€']))]])).1
    let M ← u8New utf8Sequences N
    return (← M.test (encode ['é']), ← M.test (encode ['a', '€']), ← M.test [0xC2],
      ← M.test (encode ['a', '₭']))) = (.ok (true, true, false, false) : Except Err _) := by
  decide +kernel

end Ere.Props
