import Verif.Props.Unset

/-! C67: patterns with other anchors. -/

namespace Ere.Props
open Ere

/-- The pattern `^(a|$)(^b|(c))$`. -/
def patCross : ERE := .mk [.mk [.start, .single (.sub (.mk [.mk [.single (.atom (.normal 'a'))], .mk [.end_]])),
  .single (.sub (.mk [.mk [.start, .single (.atom (.normal 'b'))],
    .mk [.single (.sub (.mk [.mk [.single (.atom (.normal 'c'))]]))]])), .end_]]

theorem cross_first {g : Nat} {pre mid post : List Char} {S : List Span}
    (h : CapERE (.mk [.mk [.single (.atom (.normal 'a'))], .mk [.end_]]) g pre mid post S) : mid ≠ [] ∨ post = [] := by
  cases h with
  | @intro _ bs1 b bs2 _ _ _ _ _ hbs hb =>
    match bs1, hbs with
    | [], hbs =>
      simp only [List.nil_append, List.cons.injEq] at hbs
      obtain ⟨rfl, _⟩ := hbs
      cases hb with
      | cons h1 _ =>
        cases h1 with
        | single h1 =>
          cases h1
          exact .inl (by simp)
    | [_], hbs =>
      simp only [List.cons_append, List.nil_append, List.cons.injEq] at hbs
      obtain ⟨_, rfl, _⟩ := hbs
      cases hb with
      | cons h1 h2 =>
        cases h2
        generalize hp : [] ++ post = p at h1
        cases h1
        exact .inr (by simpa using hp)
    | _ :: _ :: _, hbs => simp at hbs

theorem cross_second {g : Nat} {pre mid post : List Char} {S : List Span}
    (h : CapERE (.mk [.mk [.start, .single (.atom (.normal 'b'))],
      .mk [.single (.sub (.mk [.mk [.single (.atom (.normal 'c'))]]))]]) g pre mid post S) :
    (mid ≠ [] ∧ ∃ x ∈ S, x.group = g) ∨ (pre = [] ∧ mid ≠ []) := by
  cases h with
  | @intro _ bs1 b bs2 _ _ _ _ _ hbs hb =>
    match bs1, hbs with
    | [], hbs =>
      simp only [List.nil_append, List.cons.injEq] at hbs
      obtain ⟨rfl, _⟩ := hbs
      cases hb with
      | cons h1 hb =>
        cases h1
        cases hb with
        | cons h2 _ =>
          cases h2 with
          | single h2 =>
            cases h2
            exact .inr ⟨rfl, by simp⟩
    | [_], hbs =>
      simp only [List.cons_append, List.nil_append, List.cons.injEq] at hbs
      obtain ⟨rfl, rfl, _⟩ := hbs
      cases hb with
      | cons h1 h2 =>
        cases h2
        cases h1 with
        | single h1 =>
          cases h1 with
          | sub h1 =>
            refine .inl ⟨?_, _, List.mem_append_left _ (List.mem_append_right _ (List.mem_singleton.mpr rfl)), ?_⟩
            · cases h1 with
              | @intro _ bs1 b bs2 _ _ _ _ _ hbs hb =>
                match bs1, hbs with
                | [], hbs =>
                  simp only [List.nil_append, List.cons.injEq] at hbs
                  obtain ⟨rfl, _⟩ := hbs
                  cases hb with
                  | cons h1 _ =>
                    cases h1 with
                    | single h1 =>
                      cases h1
                      simp
                | _ :: _, hbs => simp at hbs
            · simp [groupsBranches, EREBranch.groups, groupsParts, EREPart.groups, EREExpr.groups]
    | _ :: _ :: _, hbs => simp at hbs

/-- **C67 is false for other anchors**: every match of `^(a|$)(^b|(c))$` sets group 3, but its field is declared optional. -/
theorem C67_negation : LiveAtoms patCross ∧ patCross.MatchesIn ['a', 'c'] ∧
    (charNFA patCross).map (·.groupIsOptional 3) = .ok true ∧
    ∀ text S, patCross.Captures text S → lastSpan S 3 ≠ none := by
  refine ⟨?_, ⟨[], ['a', 'c'], [], rfl, ?_⟩, by decide +kernel, ?_⟩
  · simp only [LiveAtoms, patCross, ERE.atomsAll, branchesAtoms, EREBranch.atomsAll, partsAtoms, EREPart.atomsAll,
      EREExpr.atomsAll, Bool.and_true, Bool.true_and, Bool.and_eq_true, decide_eq_true_eq]
    exact ⟨⟨'a', by decide⟩, ⟨'b', by decide⟩, ⟨'c', by decide⟩⟩
  · exact .intro (List.mem_singleton.mpr rfl) (.cons (m1 := []) (m2 := ['a', 'c']) .start (.cons (m1 := ['a']) (m2 := ['c'])
      (.single (.sub (.intro (List.mem_cons_self ..) (.cons (m1 := ['a']) (m2 := []) (.single (.atom (by decide))) .nil))))
      (.cons (m1 := ['c']) (m2 := []) (.single (.sub (.intro (List.mem_cons_of_mem _ (List.mem_singleton.mpr rfl))
        (.cons (m1 := ['c']) (m2 := []) (.single (.sub (.intro (List.mem_singleton.mpr rfl)
          (.cons (m1 := ['c']) (m2 := []) (.single (.atom (by decide))) .nil)))) .nil)))) (.cons (m1 := []) (m2 := []) .end_ .nil))))
  · rintro text S ⟨pre, mid, post, S', _, hc, rfl⟩
    cases hc with
    | @intro _ bs1 b bs2 _ _ _ _ _ hbs hb =>
      match bs1, hbs with
      | [], hbs =>
        simp only [List.nil_append, List.cons.injEq] at hbs
        obtain ⟨rfl, _⟩ := hbs
        cases hb with
        | cons h0 hb =>
          cases h0
          cases hb with
          | cons h1 hb =>
            cases hb with
            | cons h2 h3 =>
              cases h2 with
              | single h2 =>
                cases h2 with
                | sub h2 =>
                  rcases cross_second h2 with ⟨c, hS⟩ | ⟨hpre, hm⟩
                  · intro hn
                    obtain ⟨x, hx, hg⟩ := hS
                    simp only [lastSpan, Option.map_eq_none_iff, List.find?_eq_none, List.mem_reverse, beq_iff_eq] at hn
                    exact hn x (by simp [hx]) hg
                  · exfalso
                    cases h1 with
                    | single h1 =>
                      cases h1 with
                      | sub h1 =>
                        rcases cross_first h1 with h | h
                        · simp [h] at hpre
                        · simp [hm] at h
      | _ :: _, hbs => simp at hbs

end Ere.Props
