import Verif.Proofs.FixedMake
import Verif.Proofs.FramedFixed
import Verif.Props.Pick

/-!
# Property theorems about which patterns have fixed offsets: C60, C61, C63
-/

namespace Ere.Props
open Ere

/-! ## C60 -/

/-- The pattern only matches whole texts, and they are all `n` bytes long. -/
def WholeTexts (e : ERE) (n : Nat) : Prop :=
  ∀ pre mid post, MatchesERE e pre mid post → pre = [] ∧ post = [] ∧ byteLen mid = n

/-- **C60.** If the fixed-offset macro accepts a pattern, then the pattern only matches whole texts, and all of them
have the same length in bytes. -/
theorem C60_fixed_offset (U : Utf8Seqs) {e : ERE} {E : Engine} (h : compileFixed U.seqs e = .ok (some E)) :
    ∃ n, WholeTexts e n := by
  unfold compileFixed at h
  split at h
  · simp at h
  · rename_i b hb
    obtain ⟨h1, h2, _⟩ := pickBase_ok hb
    split at h
    · simp at h
    · rename_i offs ho
      exact fixed_length U e h1 h2 (fixedOffsets_ne ho) ho
    · simp at h

/-- C60 for `compile_regex!`: the same, whenever it wraps its engine into the one with fixed offsets. -/
theorem C60_compile_regex (U : Utf8Seqs) {e : ERE} {E : Engine} (h : pickEngine U.seqs e = .ok E)
    (hf : E.fixed.isSome = true) : ∃ n, WholeTexts e n := by
  unfold pickEngine at h
  split at h
  · simp at h
  · rename_i b hb
    obtain ⟨h1, h2, _⟩ := pickBase_ok hb
    split at h
    · simp at h
    · rename_i offs ho
      exact fixed_length U e h1 h2 (fixedOffsets_ne ho) ho
    · injection h with h
      subst h
      simp at hf

/-- non-vacuity: the fixed-offset macro accepts `^(é|ab)c$`, which matches `éc`. -/
example : (compileFixed utf8Sequences patFixed).map (·.isSome) = .ok true := by decide +kernel
example : MatchesERE patFixed [] ['é', 'c'] [] :=
  .intro (List.mem_singleton.mpr rfl) (.cons (m1 := []) (m2 := ['é', 'c']) .start
    (.cons (m1 := ['é']) (m2 := ['c']) (.single (.sub (.intro (b := .mk [.single (.atom (.normal 'é'))]) (by simp)
      (.cons (m1 := ['é']) (m2 := []) (.single (.atom (by decide))) .nil))))
      (.cons (m1 := ['c']) (m2 := []) (.single (.atom (by decide))) (.cons (m1 := []) (m2 := []) .end_ .nil))))

/-! ## C61 -/

/-- **C61.** The fixed-offset macro accepts every pattern of the documented kind (`ERE.Anchored`), and so
`compile_regex!` uses fixed offsets for it. All texts it matches have the length that was computed from the pattern. -/
theorem C61_documented (U : Utf8Seqs) {e : ERE} {w : Nat} (h : e.Anchored w) :
    (∃ E, compileFixed U.seqs e = .ok (some E)) ∧ (∃ E, pickEngine U.seqs e = .ok E ∧ E.fixed.isSome = true) ∧
      WholeTexts e w := by
  obtain ⟨text, hl, hm⟩ := h.found
  obtain ⟨N, M, h1, h2, h3⟩ := C16_exists U e ⟨text, [], text, [], by simp, hm⟩
  obtain ⟨offs, ho⟩ := fixed_made U h h1 h2 h3
  obtain ⟨E, hE⟩ := (C17_pick_returns_iff U e).mpr ⟨M, by unfold byteNFA charNFA; rw [h1]; exact h2, h3⟩
  have hE' := hE
  unfold pickEngine at hE
  split at hE
  · simp at hE
  · rename_i b hb
    obtain ⟨k1, k2, _⟩ := pickBase_ok hb
    obtain rfl : N = b.nfa := by rw [h1] at k1; injection k1
    obtain rfl : M = b.u8nfa := by rw [h2] at k2; injection k2
    rw [ho] at hE
    simp only [Except.ok.injEq] at hE
    refine ⟨⟨_, by unfold compileFixed; rw [hb]; simp only; rw [ho]⟩, ⟨E, hE', by rw [← hE]; rfl⟩, ?_⟩
    obtain ⟨n, hn⟩ := fixed_length U e h1 h2 h3 ho
    have := (hn _ _ _ hm).2.2
    rw [hl] at this
    subst this
    exact hn

/-- The hexadecimal digits `[0-9a-fA-F]`. -/
def hexAtom : Atom := .matching [.range '0' '9', .range 'a' 'f', .range 'A' 'F']
/-- `([0-9a-fA-F]{2})`. -/
def hexPair : EREPart := .single (.sub (.mk [.mk [.quantified (.atom hexAtom) ⟨.multiple 2, false⟩]]))
/-- The example of the documentation, `^#([0-9a-fA-F]{2})([0-9a-fA-F]{2})([0-9a-fA-F]{2})$`. -/
def patColor : ERE := .mk [.mk [.start, .single (.atom (.normal '#')), hexPair, hexPair, hexPair, .end_]]

theorem hexAtom_width : hexAtom.HasWidth 1 := by
  refine ⟨⟨'a', by decide⟩, fun c hc => ?_⟩
  have : c.toNat < 0x80 := by
    simp only [hexAtom, Atom.check, Term.check, List.any_cons, List.any_nil, Bool.or_false, Bool.or_eq_true,
      Bool.and_eq_true, decide_eq_true_eq] at hc
    rcases hc with h | h | h
    · have := Char.le_def.mp h.2; exact Nat.lt_of_le_of_lt (UInt32.le_iff_toNat_le.mp this) (by decide)
    · have := Char.le_def.mp h.2; exact Nat.lt_of_le_of_lt (UInt32.le_iff_toNat_le.mp this) (by decide)
    · have := Char.le_def.mp h.2; exact Nat.lt_of_le_of_lt (UInt32.le_iff_toNat_le.mp this) (by decide)
  rw [charLen, if_pos this]

theorem normal_width (a : Char) (w : Nat) (h : charLen a = w) : (Atom.normal a).HasWidth w := by
  refine ⟨⟨a, by simp [Atom.check]⟩, fun c hc => ?_⟩
  simp only [Atom.check, beq_iff_eq] at hc
  rw [← hc, h]

theorem hexPair_width : WidthPart hexPair 2 :=
  .single (.sub (.one (.cons (w := 2) (.times (n := 2) (w := 1) rfl rfl (.atom hexAtom_width)) .nil)))

/-- non-vacuity: the pattern of the documentation is of the documented kind, and matches 7 bytes. -/
theorem patColor_anchored : patColor.Anchored 7 :=
  ⟨_, rfl, by simp, fun b hb => ⟨[.single (.atom (.normal '#')), hexPair, hexPair, hexPair], by simpa using hb,
    .cons (w := 1) (v := 6) (.single (.atom (normal_width _ _ (by decide))))
      (.cons (w := 2) (v := 4) hexPair_width (.cons (w := 2) (v := 2) hexPair_width (.cons (w := 2) hexPair_width .nil)))⟩,
    Or.inl rfl⟩
example : ∃ E, compileFixed utf8Sequences patColor = .ok (some E) := (C61_documented utf8Crate patColor_anchored).1
example : patColor.display = "^#([0-9a-fA-F]{2})([0-9a-fA-F]{2})([0-9a-fA-F]{2})$".toList := by decide +kernel

/-- non-vacuity: alternatives of equal length in bytes, `^(é|ab)c$`. -/
example : patFixed.Anchored 3 :=
  ⟨_, rfl, by simp, fun b hb => ⟨[.single (.sub (.mk [.mk [.single (.atom (.normal 'é'))],
    .mk [.single (.atom (.normal 'a')), .single (.atom (.normal 'b'))]])), .single (.atom (.normal 'c'))],
    by simpa using hb, .cons (w := 2) (v := 1) (.single (.sub (.alt (by decide)
      (.cons (.cons (w := 2) (.single (.atom (normal_width _ _ (by decide)))) .nil)
        (.cons (.cons (w := 1) (v := 1) (.single (.atom (normal_width _ _ (by decide))))
          (.cons (w := 1) (.single (.atom (normal_width _ _ (by decide)))) .nil)) .nil)))))
      (.cons (w := 1) (.single (.atom (normal_width _ _ (by decide)))) .nil)⟩, Or.inl rfl⟩

/-- The conditions matter: the macro refuses alternatives of different length, groups in alternatives and patterns that
do not cover the text. -/
example : ["^(a|bb)$", "^((a)|b)$", "^a", "a$", "^a?$"].map (fun s => (parseStr s.toList).toOption.map (fun e =>
    (compileFixed utf8Sequences e).toOption.map (·.isSome))) = List.replicate 5 (some (some false)) := by decide +kernel

/-! ## C63 -/

/-- All matches of all texts capture the same stretches. -/
def FixedSpans (e : ERE) : Prop :=
  ∀ text S text' S', e.Captures text S → e.Captures text' S' → ∀ g, lastSpan S g = lastSpan S' g

/-- The fixed-offset macro and `compile_regex!` look at the same automaton. -/
theorem compileFixed_iff (U : Utf8Seqs) {e : ERE} {N : NFA Atom} {M : NFA U8Atom}
    (h1 : workingNew (Tree.fromERE e).1 = .ok N) (h2 : u8New U.seqs N = .ok M) (hne : M ≠ []) :
    ((∃ E, compileFixed U.seqs e = .ok (some E)) ↔ ¬ M.Cyclic ∧ ¬ M.Conflict) ∧
    ((∃ E, pickEngine U.seqs e = .ok E ∧ E.fixed.isSome = true) ↔ ¬ M.Cyclic ∧ ¬ M.Conflict) := by
  obtain ⟨_, hM, _, _⟩ := pipeline_ne U e h1 h2 hne
  obtain ⟨r, hr, hn, _⟩ := fixedOffsets_spec hM
  have hc : (r ≠ none) ↔ ¬ M.Cyclic ∧ ¬ M.Conflict := by
    rw [← not_or]
    exact not_congr hn
  obtain ⟨E, hE⟩ := (C17_pick_returns_iff U e).mpr ⟨M, by unfold byteNFA charNFA; rw [h1]; exact h2, hne⟩
  rw [← hc]
  have hb : ∃ b, pickBase U.seqs e = .ok b ∧ b.u8nfa = M := by
    unfold pickEngine at hE
    split at hE
    · simp at hE
    · rename_i b hb
      obtain ⟨k1, k2, _⟩ := pickBase_ok hb
      obtain rfl : N = b.nfa := by rw [h1] at k1; injection k1
      obtain rfl : M = b.u8nfa := by rw [h2] at k2; injection k2
      exact ⟨b, hb, rfl⟩
  obtain ⟨b, hb, rfl⟩ := hb
  unfold compileFixed pickEngine
  rw [hb]
  simp only [hr]
  cases r <;> simp

/-- **C63**, for every pattern: if the fixed-offset macro accepts it, or `compile_regex!` chooses fixed offsets for it, then
all matches of all texts capture the same stretches, and there are only finitely many ways of matching. -/
theorem C63_accepted (U : Utf8Seqs) {e : ERE} (h : (∃ E, compileFixed U.seqs e = .ok (some E)) ∨
    ∃ E, pickEngine U.seqs e = .ok E ∧ E.fixed.isSome = true) : ¬ e.Unbounded ∧ FixedSpans e := by
  have hx : ∃ N M, workingNew (Tree.fromERE e).1 = .ok N ∧ u8New U.seqs N = .ok M ∧ M ≠ [] := by
    rcases h with ⟨E, h⟩ | ⟨E, h, _⟩
    · unfold compileFixed at h
      split at h
      · simp at h
      · rename_i b hb
        obtain ⟨h1, h2, _⟩ := pickBase_ok hb
        split at h
        · simp at h
        · rename_i offs ho
          exact ⟨_, _, h1, h2, fixedOffsets_ne ho⟩
        · simp at h
    · obtain ⟨M, h2, hne⟩ := (C17_pick_returns_iff U e).mp ⟨E, h⟩
      unfold byteNFA charNFA at h2
      split at h2
      · simp at h2
      · rename_i N h1
        exact ⟨N, M, h1, h2, hne⟩
  obtain ⟨N, M, h1, h2, hne⟩ := hx
  obtain ⟨k1, k2⟩ := compileFixed_iff U h1 h2 hne
  have hc : ¬ M.Cyclic ∧ ¬ M.Conflict := h.elim k1.mp k2.mp
  exact ⟨fun hu => hc.1 (unbounded_cyclic U h1 h2 hne hu), no_conflict U h1 h2 hne hc.2⟩

/-- **C63**, for patterns whose branches all begin with `^` (if `s`), end with `$` (if `t`) and contain no other anchors,
and that match some text: the fixed-offset macro accepts the pattern, and `compile_regex!` chooses fixed offsets for it,
exactly if all matches of all texts capture the same stretches and there are only finitely many ways of matching. -/
theorem C63_framed_iff (U : Utf8Seqs) {s t : Bool} {e : ERE} (he : e.Framed s t) (hm : ∃ text, e.MatchesIn text) :
    ((∃ E, compileFixed U.seqs e = .ok (some E)) ↔ ¬ e.Unbounded ∧ FixedSpans e) ∧
    ((∃ E, pickEngine U.seqs e = .ok E ∧ E.fixed.isSome = true) ↔ ¬ e.Unbounded ∧ FixedSpans e) := by
  obtain ⟨N, M, h1, h2, h3⟩ := C16_exists U e hm
  have := compileFixed_iff U h1 h2 h3
  rw [cyclic_iff U h1 h2 h3 he, conflict_iff U h1 h2 h3 he] at this
  exact this

/-- non-vacuity: `^(é|ab)c$` has this form and is accepted; so what its group captures is the same for all texts. -/
example : patFixed.Framed true true := ⟨_, rfl, fun _ hb => ⟨[.single (.sub (.mk [.mk [.single (.atom (.normal 'é'))],
    .mk [.single (.atom (.normal 'a')), .single (.atom (.normal 'b'))]])), .single (.atom (.normal 'c'))],
    List.mem_singleton.mp hb, rfl, rfl⟩⟩

/-- The pattern `^a(b?)$`. -/
def patMaybe : ERE := .mk [.mk [.start, .single (.atom (.normal 'a')),
  .single (.sub (.mk [.mk [.quantified (.atom (.normal 'b')) ⟨.question, false⟩]])), .end_]]

/-- non-vacuity: `^a(b?)$` has this form and is refused, although it can only match in two ways. -/
example : patMaybe.Framed true true ∧ ¬ ∃ E, compileFixed utf8Sequences patMaybe = .ok (some E) := by
  refine ⟨⟨_, rfl, fun b hb => ⟨[.single (.atom (.normal 'a')),
    .single (.sub (.mk [.mk [.quantified (.atom (.normal 'b')) ⟨.question, false⟩]]))],
    List.mem_singleton.mp hb, rfl, rfl⟩⟩, ?_⟩
  rintro ⟨E, h⟩
  have : (compileFixed utf8Sequences patMaybe).map (·.isSome) = .ok false := by decide +kernel
  rw [h] at this
  simp [Except.map] at this

/-- The pattern `^($|b)(^cc|d)$`. -/
def patDead : ERE := .mk [.mk [.start, .single (.sub (.mk [.mk [.end_], .mk [.single (.atom (.normal 'b'))]])),
  .single (.sub (.mk [.mk [.start, .single (.atom (.normal 'c')), .single (.atom (.normal 'c'))],
    .mk [.single (.atom (.normal 'd'))]])), .end_]]

theorem capStart {g pre mid post S} (h : CapPart .start g pre mid post S) : pre = [] ∧ mid = [] ∧ S = [] := by
  cases h; exact ⟨rfl, rfl, rfl⟩
theorem capEnd {g pre mid post S} (h : CapPart .end_ g pre mid post S) : mid = [] ∧ post = [] ∧ S = [] := by
  cases h; exact ⟨rfl, rfl, rfl⟩
theorem capNormal {a g pre mid post S} (h : CapPart (.single (.atom (.normal a))) g pre mid post S) : mid = [a] ∧ S = [] := by
  cases h with
  | single h => cases h with
    | atom h => simp only [Atom.check, beq_iff_eq] at h; exact ⟨by rw [h], rfl⟩
theorem capSub {e g pre mid post S} (h : CapPart (.single (.sub e)) g pre mid post S) :
    ∃ S', CapERE e (g + 1) pre mid post S' ∧ S = S' ++ [⟨g, byteLen pre, byteLen (pre ++ mid)⟩] := by
  cases h with
  | single h => cases h with
    | sub h => exact ⟨_, h, rfl⟩
theorem capNil {g pre mid post S} (h : CapBranch (.mk []) g pre mid post S) : mid = [] ∧ S = [] := by
  cases h; exact ⟨rfl, rfl⟩
theorem capCons {p ps g pre mid post S} (h : CapBranch (.mk (p :: ps)) g pre mid post S) :
    ∃ m1 m2 S1 S2, mid = m1 ++ m2 ∧ S = S1 ++ S2 ∧ CapPart p g pre m1 (m2 ++ post) S1 ∧
      CapBranch (.mk ps) (g + p.groups) (pre ++ m1) m2 post S2 := by
  cases h with
  | cons h1 h2 => exact ⟨_, _, _, _, rfl, rfl, h1, h2⟩
theorem capTwo {b b' g pre mid post S} (h : CapERE (.mk [b, b']) g pre mid post S) :
    CapBranch b g pre mid post S ∨ ∃ g', CapBranch b' g' pre mid post S := by
  cases h with
  | @intro _ bs1 c bs2 _ _ _ _ _ he h =>
    rcases bs1 with _ | ⟨x, bs1⟩
    · simp only [List.nil_append, List.cons.injEq] at he
      rw [← he.1] at h
      exact .inl (by simpa [groupsBranches] using h)
    · rcases bs1 with _ | ⟨y, bs1⟩
      · simp only [List.cons_append, List.nil_append, List.cons.injEq] at he
        rw [← he.2.1] at h
        exact .inr ⟨_, h⟩
      · simp at he

theorem patDead_captures {text S} (h : patDead.Captures text S) :
    text = ['b', 'd'] ∧ S = [⟨1, 0, 1⟩, ⟨2, 1, 2⟩, ⟨0, 0, 2⟩] := by
  obtain ⟨pre, mid, post, S', rfl, h, rfl⟩ := h
  cases h with
  | @intro _ bs1 c bs2 _ _ _ _ _ he h =>
    rcases bs1 with _ | ⟨x, bs1⟩
    swap
    · simp at he
    simp only [List.nil_append, List.cons.injEq] at he
    rw [← he.1] at h
    obtain ⟨m1, r1, S1, T1, rfl, rfl, a1, h⟩ := capCons h
    obtain ⟨m2, r2, S2, T2, rfl, rfl, a2, h⟩ := capCons h
    obtain ⟨m3, r3, S3, T3, rfl, rfl, a3, h⟩ := capCons h
    obtain ⟨m4, r4, S4, T4, rfl, rfl, a4, h⟩ := capCons h
    obtain ⟨rfl, rfl⟩ := capNil h
    obtain ⟨rfl, rfl, rfl⟩ := capStart a1
    obtain ⟨rfl, hp, rfl⟩ := capEnd a4
    obtain ⟨U2, c2, rfl⟩ := capSub a2
    obtain ⟨U3, c3, rfl⟩ := capSub a3
    rcases capTwo c2 with d2 | ⟨_, d2⟩
    · obtain ⟨n1, n2, _, _, rfl, _, e2, b2⟩ := capCons d2
      obtain ⟨rfl, _⟩ := capNil b2
      obtain ⟨_, hq, _⟩ := capEnd e2
      rcases capTwo c3 with d3 | ⟨_, d3⟩
      · obtain ⟨k1, k2, _, _, rfl, _, _, b3⟩ := capCons d3
        obtain ⟨k3, k4, _, _, rfl, _, e3, _⟩ := capCons b3
        obtain ⟨rfl, _⟩ := capNormal e3
        simp at hq
      · obtain ⟨k1, k2, _, _, rfl, _, e3, _⟩ := capCons d3
        obtain ⟨rfl, _⟩ := capNormal e3
        simp at hq
    · obtain ⟨n1, n2, V1, V2, rfl, rfl, e2, b2⟩ := capCons d2
      obtain ⟨rfl, rfl⟩ := capNil b2
      obtain ⟨rfl, rfl⟩ := capNormal e2
      rcases capTwo c3 with d3 | ⟨_, d3⟩
      · obtain ⟨k1, k2, _, _, rfl, _, e3, _⟩ := capCons d3
        obtain ⟨hq, _⟩ := capStart e3
        simp at hq
      · obtain ⟨k1, k2, V3, V4, rfl, rfl, e3, b3⟩ := capCons d3
        obtain ⟨rfl, rfl⟩ := capNil b3
        obtain ⟨rfl, rfl⟩ := capNormal e3
        simp only [List.nil_append] at hp
        subst hp
        exact ⟨rfl, by decide⟩

/-- Other anchors can prevent this: `^($|b)(^cc|d)$` only matches `bd`, and only in one way, but the fixed-offset macro
refuses it (the anchor of `^cc` is kept because it can be reached without reading a character, through a `$` that is removed
later). -/
theorem C63_other_anchors : ¬ patDead.Unbounded ∧ FixedSpans patDead ∧ (∃ text, patDead.MatchesIn text) ∧
    compileFixed utf8Sequences patDead = .ok none := by
  refine ⟨fun h => ?_, fun text S text' S' h h' g => ?_, ?_, ?_⟩
  · obtain ⟨text, S, h, hn⟩ := h 6
    obtain ⟨rfl, rfl⟩ := patDead_captures h
    simp at hn
  · rw [(patDead_captures h).2, (patDead_captures h').2]
  · exact ⟨['b', 'd'], [], ['b', 'd'], [], rfl, .intro (List.mem_singleton.mpr rfl)
      (.cons (m1 := []) (m2 := ['b', 'd']) .start (.cons (m1 := ['b']) (m2 := ['d'])
        (.single (.sub (.intro (b := .mk [.single (.atom (.normal 'b'))]) (by simp)
          (.cons (m1 := ['b']) (m2 := []) (.single (.atom (by decide))) .nil))))
        (.cons (m1 := ['d']) (m2 := []) (.single (.sub (.intro (b := .mk [.single (.atom (.normal 'd'))]) (by simp)
          (.cons (m1 := ['d']) (m2 := []) (.single (.atom (by decide))) .nil))))
          (.cons (m1 := []) (m2 := []) .end_ .nil))))⟩
  · have : (compileFixed utf8Sequences patDead).map (·.isSome) = .ok false := by decide +kernel
    cases h : compileFixed utf8Sequences patDead with
    | error x => rw [h] at this; simp [Except.map] at this
    | ok o =>
      cases o with
      | none => rfl
      | some E => rw [h] at this; simp [Except.map] at this
example : patDead.display = "^($|b)(^cc|d)$".toList := by decide +kernel

end Ere.Props
