import Verif.Proofs.LeftmostTDFA
import Verif.Proofs.FirstOnePass

/-! Where the match reported by the one-pass engine begins: all runs over a text begin their match at the same place. -/

namespace Ere

theorem onePass_start {Φ : Phases U8Atom UInt8} {N : NFA U8Atom} {col : Nat → Col} {y : Nat} (h : FrontC Φ N col y)
    (hN : Ready N) {rows : List (OpRow × List Upd)} (hT : OpTable N rows) {text : List UInt8} {off : Nat} {evs evs' : Caps}
    (h1 : ReachE N.HasEdge (0, ⟨0, text, []⟩) (N.length - 1, ⟨off, [], evs⟩))
    (h1' : ReachE N.HasEdge (0, ⟨0, text, []⟩) (N.length - 1, ⟨off, [], evs'⟩)) :
    ∃ i, evs.start? 0 = some i ∧ evs'.start? 0 = some i := by
  obtain ⟨i, hi, _⟩ := (h.run h1).1 h.last
  refine ⟨i, hi, ?_⟩
  rw [← hi]
  obtain ⟨q, ev, ls, g1, g2, g3⟩ := reach_split h1
  obtain ⟨q', ev', ls', g1', g2', g3'⟩ := reach_split h1'
  simp only at g1 g3 g1' g3'
  obtain ⟨rfl, hev⟩ := seedRun_unique hN hT _ _ _ _ _ _ g1 g1'
  have hev0 : ev.start? 0 = ev'.start? 0 := by
    have := congrArg (fun l => l[0]?) hev
    simp only [slotsOf_get (groups_pos N), Option.some.injEq, Prod.mk.injEq] at this
    exact this.1
  rw [g3, g3', start?_append, start?_append, walkEvents_start, walkEvents_start, hev0]
  congr 1
  by_cases hq : col q = .out
  · rw [if_neg (h.walk_out g2 hq).2, if_neg (h.walk_out g2' hq).2]
  · rcases h.walk_in g2 hq with ⟨_, k⟩ | ⟨k, _⟩
    · rcases h.walk_in g2' hq with ⟨_, k'⟩ | ⟨k', _⟩
      · rw [if_pos k, if_pos k']
      · exact absurd h.last k'
    · exact absurd h.last k

theorem onePass_left (U : Utf8Seqs) {e : ERE} {N : NFA Atom} {M : NFA U8Atom} (h1 : workingNew (Tree.fromERE e).1 = .ok N)
    (h2 : u8New U.seqs N = .ok M) (hne : M ≠ []) {P : OnePass} (hP : OnePassOk M P) (hc : P.compiles = true)
    {text : List Char} {r} (hr : P.exec text (encode text) = .ok (some r)) : LeftOk e text r := by
  obtain ⟨hN, hM, hacc, henc⟩ := pipeline_ne U e h1 h2 hne
  obtain ⟨col, y, hfr⟩ := front_byte U e h1 hN h2 hM.ne
  obtain ⟨rows, hT, _⟩ := hP.table
  unfold OnePass.exec at hr
  rcases hP.result hc (encode text) with ⟨_, k2, _⟩ | ⟨sl, _, k5, c, hrun, hsl⟩
  · rw [k2] at hr; simp at hr
  · simp only at hsl
    rw [k5] at hr
    simp only at hr
    split at hr
    · simp at hr
    rename_i r' hr'
    have hrr := Option.some.inj (Except.ok.inj hr)
    rw [hrr, hsl] at hr'
    obtain ⟨i, hi, _⟩ := onePass_start hfr hM hT hrun hrun
    have hhead := mapM_head (groups_pos M) hr'
    rw [hi] at hhead
    refine leftOk_of_start (Acc := fun caps => M.Acc ⟨0, encode text, []⟩ ⟨unitLen U8Atom (encode text), [], caps⟩) ?_ hhead ?_
    · intro caps
      rw [unitLen_u8, encode_length, acc_enc henc, hacc]
    · rintro caps' ⟨_, hacc'⟩
      obtain ⟨i', k1, k2⟩ := onePass_start hfr hM hT hrun hacc'
      rw [k2, ← k1, hi]; exact Nat.le_refl _

end Ere
