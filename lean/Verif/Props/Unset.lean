import Verif.Props.Total
import Verif.Proofs.Unset

/-!
# Property theorems about the fields of the attribute macro: C67
-/

namespace Ere.Props
open Ere

open Classical in
/-- Every atom of the pattern can be read: it stands for at least one character. -/
def LiveAtoms (e : ERE) : Prop := e.atomsAll (fun a => decide (∃ c, a.check c = true)) = true

theorem live_symP {e : ERE} (hl : LiveAtoms e) {N : NFA Atom} (h1 : workingNew (Tree.fromERE e).1 = .ok N)
    (hN : N ≠ []) : SymP (fun a : Atom => ∃ c, Sym.check a c = true) N := by
  classical
  intro p a q he
  have := (symQ_pipeline e hl (by simp only [decide_eq_true_eq]; exact ⟨'a', by decide⟩) h1 hN).symP p a q he
  exact of_decide_eq_true this

section
variable {e : ERE} {N : NFA Atom} (h1 : charNFA e = .ok N) (hne : N ≠ []) {s t : Bool} (he : e.Framed s t)
include h1 hne he

/-- **C67 (optional fields).** In a pattern whose anchors are only around its branches and whose atoms can all be read, a
group is declared optional exactly if some match of some text leaves it unset. -/
theorem C67_optional_exact (hl : LiveAtoms e) (g : Nat) :
    N.groupIsOptional g = true ↔ ∃ text S, e.Captures text S ∧ lastSpan S g = none := by
  obtain ⟨hN, h3⟩ := workingNew_ne e h1 hne
  constructor
  · intro ho
    rw [NFA.groupIsOptional, (reachFrom_spec hN.wf (List.length_pos_of_ne_nil hN.ne)).2] at ho
    obtain ⟨A, _, _, hA⟩ := frS_char he h1 hne
    obtain ⟨xs, caps, hu, hacc⟩ := (comes_unset hA (live_symP hl h1 hne) ho).acc hne
    obtain ⟨S, k1, k2⟩ := run_captures ((h3 _ _).1 hacc)
    refine ⟨xs, S, k1, ?_⟩
    rw [(reads_last k2 g).1, Option.map_eq_none_iff] at hu
    exact hu
  · rintro ⟨text, S, k1, k2⟩
    cases hc : N.groupIsOptional g with
    | true => rfl
    | false =>
      obtain ⟨i, j, hij⟩ := (C28_mandatory_groups h1 hne g).2 hc text S k1
      rw [k2] at hij
      cases hij

/-- **C67 (number of fields).** The struct must have one field for the whole match and one for each group up to the last
one that takes part in some match. -/
theorem C67_fields_exact (hl : LiveAtoms e) (g : Nat) :
    g < N.numCaptureGroups ↔ ∃ g' text S i j, g ≤ g' ∧ e.Captures text S ∧ lastSpan S g' = some (i, j) := by
  obtain ⟨hN, h3⟩ := workingNew_ne e h1 hne
  obtain ⟨A, _, _, hA⟩ := frS_char he h1 hne
  constructor
  · intro hg
    by_cases h0 : g = 0
    · obtain ⟨xs, caps, _, hacc⟩ := (comes_any hA (live_symP hl h1 hne)
        (hN.trim (N.length - 1) (by have := List.length_pos_iff.mpr hne; omega)).1).acc hne
      obtain ⟨S, k1, _⟩ := run_captures ((h3 _ _).1 hacc)
      obtain ⟨i, j, hij⟩ := lastSpan_zero k1
      exact ⟨0, xs, S, i, j, by omega, k1, hij⟩
    · obtain ⟨g', p, q, h5, h6⟩ := numCaptureGroups_edge hg h0
      obtain ⟨xs, caps, hu, hacc⟩ := (comes_set hN hA (live_symP hl h1 hne) h6).acc hne
      obtain ⟨S, k1, k2⟩ := run_captures ((h3 _ _).1 hacc)
      rw [(reads_last k2 g').1] at hu
      cases hS : lastSpan S g' with
      | none => rw [hS] at hu; simp at hu
      | some p => exact ⟨g', xs, S, p.1, p.2, h5, k1, hS⟩
  · rintro ⟨g', text, S, i, j, hg, hS, hij⟩
    obtain ⟨caps, hR, hrun⟩ := captures_run hS
    have hacc := (h3 text caps).2 hrun
    have := run_set_edge (g := g') hacc.2 (by rw [(reads_last hR _).1, hij]; simp)
    omega
end

/-- **C67 (array length).** The array length of the byte engines other than the DFA is one plus the number of the last group
that takes part in some match; here atoms that stand for no character do no harm. -/
theorem C67_array_exact (U : Utf8Seqs) {e : ERE} {M : NFA U8Atom} (h : byteNFA U.seqs e = .ok M) (hne : M ≠ [])
    {s t : Bool} (he : e.Framed s t) (g : Nat) :
    g < M.numCaptureGroups ↔ ∃ g' text S i j, g ≤ g' ∧ e.Captures text S ∧ lastSpan S g' = some (i, j) := by
  obtain ⟨N, h1, h2⟩ := byteNFA_ok h
  obtain ⟨hN, hM, _, _⟩ := pipeline_ne U e h1 h2 hne
  obtain ⟨A, _, _, hA⟩ := frS_byte U he h1 hN h2 hne
  have hs : SymP (fun a : U8Atom => ∃ x, Sym.check a x = true) M := fun p a q hE =>
    ⟨a.lo, by have := u8New_symP U hN h2 hne p a q hE; simp [Sym.check, U8Atom.check, this]⟩
  have back : ∀ {bs : List UInt8} {caps}, M.Acc ⟨0, bs, []⟩ ⟨unitLen U8Atom bs, [], caps⟩ →
      ∃ text S, e.Captures text S ∧ Reads caps S := by
    intro bs caps hacc
    obtain ⟨text, rfl⟩ := accepted_text U hN h2 hacc
    rw [unitLen_u8, encode_length] at hacc
    obtain ⟨S, k1, k2⟩ := acc_captures U h1 h2 hne hacc
    exact ⟨text, S, k1, k2⟩
  constructor
  · intro hg
    by_cases h0 : g = 0
    · obtain ⟨xs, caps, _, hacc⟩ := (comes_any hA hs
        (hM.trim (M.length - 1) (by have := List.length_pos_iff.mpr hne; omega)).1).acc hne
      obtain ⟨text, S, k1, _⟩ := back hacc
      obtain ⟨i, j, hij⟩ := lastSpan_zero k1
      exact ⟨0, text, S, i, j, by omega, k1, hij⟩
    · obtain ⟨g', p, q, h5, h6⟩ := numCaptureGroups_edge hg h0
      obtain ⟨xs, caps, hu, hacc⟩ := (comes_set hM hA hs h6).acc hne
      obtain ⟨text, S, k1, k2⟩ := back hacc
      rw [(reads_last k2 g').1] at hu
      cases hS : lastSpan S g' with
      | none => rw [hS] at hu; simp at hu
      | some p => exact ⟨g', text, S, p.1, p.2, h5, k1, hS⟩
  · rintro ⟨g', text, S, i, j, hg, hS, hij⟩
    obtain ⟨caps, hR, hacc⟩ := captures_acc U h1 h2 hne hS
    have := run_set_edge (g := g') hacc.2 (by rw [(reads_last hR _).1, hij]; simp)
    omega

/-- **C67 for the attribute macro**: which fields the struct must have and which of them are optional. -/
theorem C67_attribute (U : Utf8Seqs) {p : List Char} {k : Nat} {A : Attr} (h : compileAttr U.seqs p k = .ok (some A))
    {e : ERE} (hp : parseStr p = .ok e) {s t : Bool} (he : e.Framed s t) (hl : LiveAtoms e)
    (hm : ∃ text, e.MatchesIn text) :
    A.optional.length = k ∧
    (∀ g, g < k ↔ ∃ g' text S i j, g ≤ g' ∧ e.Captures text S ∧ lastSpan S g' = some (i, j)) ∧
    ∀ g, g < k → (A.optional[g]? = some true ↔ ∃ text S, e.Captures text S ∧ lastSpan S g = none) := by
  obtain ⟨e', N, hp', hN, _, hf, hk, hopt⟩ := compileAttr_ok h
  obtain rfl : e' = e := by rw [hp] at hp'; exact (Except.ok.inj hp').symm
  obtain ⟨N', e1, hR, _⟩ := workingNew_ready e' hm
  obtain rfl : N' = N := by rw [charNFA] at hN; exact ok_unique e1 hN
  obtain ⟨hlen, hget⟩ := mapM_get hopt
  rw [List.length_range] at hlen
  refine ⟨hk.symm, fun g => ?_, fun g hg => ?_⟩
  · rw [hk, hlen]
    exact C67_fields_exact hN hR.ne he hl g
  · obtain ⟨y, hy, hd⟩ := hget g g (by rw [List.getElem?_range (by omega)])
    rw [(C28_mandatory_groups hN hR.ne g).1] at hd
    rw [hy, ← C67_optional_exact hN hR.ne he hl g, Except.ok.inj hd]
    simp

/-- The pattern `^a(b)?$`. -/
def patOptLine : ERE := .mk [.mk [.start, .single (.atom (.normal 'a')),
  .quantified (.sub (.mk [.mk [.single (.atom (.normal 'b'))]])) ⟨.question, false⟩, .end_]]

/-- non-vacuity: `^a(b)?$`, where the second field is optional. -/
example : parseStr "^a(b)?$".toList = .ok patOptLine ∧ patOptLine.Framed true true ∧ LiveAtoms patOptLine ∧
    (∃ text, patOptLine.MatchesIn text) ∧
    (compileAttr utf8Sequences "^a(b)?$".toList 2).map (·.map (·.optional)) = .ok (some [false, true]) := by
  refine ⟨(C43_parser_grammar _ _).2 ?_, ⟨_, rfl, ?_⟩, ?_, ⟨['a'], ?_⟩, by decide +kernel⟩
  · exact .one (.cons (w := ['^']) .start (.cons (w := ['a']) (.single (.atom (.plain (by decide))))
      (.cons (w := ('(' :: (['b'] ++ [')'])) ++ ['?'])
        (.quantified (.sub (.one (.cons (w := ['b']) (v := []) (.single (.atom (.plain (by decide)))) .nil)))
          (.greedy .question)) (.cons (w := ['$']) (v := []) .end_ .nil))))
  · intro b hb
    rw [List.mem_singleton] at hb
    exact ⟨[.single (.atom (.normal 'a')),
      .quantified (.sub (.mk [.mk [.single (.atom (.normal 'b'))]])) ⟨.question, false⟩], by rw [hb]; rfl, by decide, by decide⟩
  · simp only [LiveAtoms, patOptLine, ERE.atomsAll, branchesAtoms, EREBranch.atomsAll, partsAtoms, EREPart.atomsAll,
      EREExpr.atomsAll, Bool.and_true, Bool.true_and, Bool.and_eq_true, decide_eq_true_eq]
    exact ⟨⟨'a', by decide⟩, ⟨'b', by decide⟩⟩
  · exact ⟨[], ['a'], [], rfl, .intro (List.mem_singleton.mpr rfl) (.cons (m1 := []) (m2 := ['a']) .start
      (.cons (m1 := ['a']) (m2 := []) (.single (.atom (by decide)))
        (.cons (m1 := []) (m2 := []) (.quantified (n := 0) (by decide) (by simp) .zero) (.cons (m1 := []) (m2 := []) .end_ .nil))))⟩

/-- The pattern `[b-a]|(c)`. -/
def patDeadOr : ERE := .mk [.mk [.single (.atom (.matching [.range 'b' 'a']))],
  .mk [.single (.sub (.mk [.mk [.single (.atom (.normal 'c'))]]))]]

/-- **C67 is false with atoms that stand for no character**: every match of `[b-a]|(c)` sets group 1, but its field is
declared optional. -/
theorem C67_negation_dead : patDeadOr.Framed false false ∧ patDeadOr.MatchesIn ['c'] ∧
    (charNFA patDeadOr).map (·.groupIsOptional 1) = .ok true ∧
    ∀ text S, patDeadOr.Captures text S → lastSpan S 1 ≠ none := by
  refine ⟨⟨_, rfl, ?_⟩, ⟨[], ['c'], [], rfl, .intro (List.mem_cons_of_mem _ (List.mem_singleton.mpr rfl))
    (.cons (m1 := ['c']) (m2 := []) (.single (.sub (.intro (List.mem_singleton.mpr rfl)
      (.cons (m1 := ['c']) (m2 := []) (.single (.atom (by decide))) .nil)))) .nil)⟩, by decide +kernel, ?_⟩
  · intro b hb
    simp only [List.mem_cons, List.not_mem_nil, or_false] at hb
    rcases hb with rfl | rfl
    · exact ⟨[.single (.atom (.matching [.range 'b' 'a']))], rfl, by decide, by decide⟩
    · exact ⟨[.single (.sub (.mk [.mk [.single (.atom (.normal 'c'))]]))], rfl, by decide, by decide⟩
  · rintro text S ⟨pre, mid, post, S', _, hc, rfl⟩
    cases hc with
    | @intro _ bs1 b bs2 _ _ _ _ _ hbs hb =>
      match bs1, hbs with
      | [], hbs =>
        simp only [List.nil_append, List.cons.injEq] at hbs
        obtain ⟨rfl, _⟩ := hbs
        cases hb with
        | cons h1 _ =>
          cases h1 with
          | single h1 =>
            cases h1 with
            | atom h1 =>
              exfalso
              simp only [Atom.check, List.any_cons, List.any_nil, Bool.or_false, Term.check, Bool.and_eq_true, decide_eq_true_eq] at h1
              exact absurd (Char.le_trans h1.1 h1.2) (by decide)
      | [_], hbs =>
        simp only [List.cons_append, List.nil_append, List.cons.injEq] at hbs
        obtain ⟨rfl, rfl, _⟩ := hbs
        cases hb with
        | cons h1 h2 =>
          cases h2
          cases h1 with
          | single h1 =>
            cases h1 with
            | sub h1 => simp [lastSpan, groupsBranches, EREBranch.groups, groupsParts, EREPart.groups, EREExpr.groups]
      | _ :: _ :: _, hbs => simp at hbs

/-- **C44 is also false with such atoms**: for `^([b-a])?$` the struct must have two fields, but the array of the chosen
engine has length 1, so that the emitted program does not type-check. -/
theorem C67_negation_attribute :
    (compileAttr utf8Sequences "^([b-a])?$".toList 2).map (·.map (fun A => (A.fields, A.engine.groups,
      A.engine.compiles ["ere"], A.compiles ["ere"]))) = .ok (some (2, 1, true, false)) := by decide +kernel

end Ere.Props
