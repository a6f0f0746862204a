import Verif.Proofs.Decided
import Verif.Props.Attribute

/-!
# Property theorems about patterns for which the next character decides: C73

The hypothesis `e.Decided fun _ => True` (Spec/Decided.lean) can be checked by looking at the pattern. Neither the placing of
anchors nor empty rounds of repetitions are restricted further.
-/

namespace Ere.Props
open Ere

/-- `exec` reports nothing if there is no match, and otherwise the only match that starts as far left as any, with its groups. -/
def OnlyOk (e : ERE) (text : List Char) (groups : Nat) (res : Except Err (Option (List (Option (Nat × Nat))))) : Prop :=
  (res = .ok none ∧ ¬ e.MatchesIn text) ∨
  ∃ r S, res = .ok (some r) ∧ e.Only text S ∧ r.length = groups ∧ ∀ g, (r[g]?).join = lastSpan S g

/-- **C73.** If the next character decides, there is at most one way to match from each place, including the groups. -/
theorem C73_one_way {e : ERE} (hd : e.Decided fun _ => True) {text : List Char} {S S' : List Span} (h : e.Captures text S)
    (h' : e.Captures text S') {i j j' : Nat} (hi : lastSpan S 0 = some (i, j)) (hi' : lastSpan S' 0 = some (i, j')) : S = S' := by
  obtain ⟨pre, mid, post, S0, c1, c2, rfl⟩ := h
  obtain ⟨pre', mid', post', S0', c1', c2', rfl⟩ := h'
  rw [lastSpan_whole] at hi hi'
  have e1 := (Prod.mk.inj (Option.some.inj hi)).1
  have e2 := (Prod.mk.inj (Option.some.inj hi')).1
  have hp : pre = pre' := by
    have ht : pre ++ (mid ++ post) = pre' ++ (mid' ++ post') := by rw [← List.append_assoc, ← List.append_assoc, ← c1, ← c1']
    rcases List.append_eq_append_iff.mp ht with ⟨x, h2, _⟩ | ⟨x, h2, _⟩
    · rw [h2, byteLen_append] at e2
      rw [h2, byteLen_eq_zero.mp (by omega : byteLen x = 0), List.append_nil]
    · rw [h2, byteLen_append] at e1
      rw [h2, byteLen_eq_zero.mp (by omega : byteLen x = 0), List.append_nil]
  subst hp
  rw [c1, List.append_assoc, List.append_assoc] at c1'
  obtain ⟨e3, e4⟩ := ERE.Decided.once e 1 _ hd _ _ _ _ _ _ _ (List.append_cancel_left c1') c2 c2' trivial trivial
  rw [e3, e4]

theorem onlyOk_of {e : ERE} (hd : e.Decided fun _ => True) {text : List Char} {k : Nat} {res} (h : ExecOk e text k res)
    (hl : ∀ r, res = .ok (some r) → ∀ S' i' j', e.Captures text S' → lastSpan S' 0 = some (i', j') →
      ∃ i j, (r[0]?).join = some (i, j) ∧ i ≤ i') : OnlyOk e text k res := by
  rcases h with h | ⟨r, S, h1, h2, h3, h4⟩
  · exact .inl h
  · refine .inr ⟨r, S, h1, ⟨h2, fun S' hS' => ?_⟩, h3, h4⟩
    have hw : ∀ {S}, e.Captures text S → ∃ i j, lastSpan S 0 = some (i, j) := by
      rintro S ⟨_, _, _, S0, _, _, rfl⟩
      exact ⟨_, _, lastSpan_whole _ _ _⟩
    obtain ⟨i', j', hi'⟩ := hw hS'
    obtain ⟨i, j, g1, g2⟩ := hl r h1 S' i' j' hS' hi'
    rw [h4 0] at g1
    refine ⟨i, j, i', j', g1, hi', ?_⟩
    rcases Nat.lt_or_ge i i' with hlt | hge
    · exact .inl hlt
    · have : i = i' := by omega
      subst this
      exact .inr (C73_one_way hd hS' h2 hi' g1)

/-- **C73 (flat engine over characters).** -/
theorem C73_flat_char {e : ERE} (hd : e.Decided fun _ => True) {F : Flat Atom} (h : compileFlatChar e = .ok F) (text : List Char) :
    OnlyOk e text F.groups (F.exec text text) :=
  onlyOk_of hd (C23_flat_char_exec h text) fun r hr S' i' j' hS hl => by
    obtain ⟨i, j, h1, h2⟩ := C26_flat_char h hr
    exact ⟨i, j, h1, h2 S' i' j' hS hl⟩

/-- **C73 (flat engine over bytes).** -/
theorem C73_flat_u8 (U : Utf8Seqs) {e : ERE} (hd : e.Decided fun _ => True) {F : Flat U8Atom}
    (h : compileFlatU8 U.seqs e = .ok F) (text : List Char) : OnlyOk e text F.groups (F.exec text (encode text)) :=
  onlyOk_of hd (C23_flat_u8_exec U h text) fun r hr S' i' j' hS hl => by
    obtain ⟨i, j, h1, h2⟩ := C26_flat_u8 U h hr
    exact ⟨i, j, h1, h2 S' i' j' hS hl⟩

/-- **C73 (one-pass engine).** -/
theorem C73_one_pass (U : Utf8Seqs) {e : ERE} (hd : e.Decided fun _ => True) {P : OnePass}
    (h : compileOnePassU8 U.seqs e = .ok (some P)) (hc : P.compiles = true) (text : List Char) :
    OnlyOk e text P.groups (P.exec text (encode text)) :=
  onlyOk_of hd (C23_one_pass_exec U h hc text) fun r hr S' i' j' hS hl => by
    obtain ⟨i, j, h1, h2⟩ := C26_one_pass U h hc hr
    exact ⟨i, j, h1, h2 S' i' j' hS hl⟩

/-- **C73 (DFA engine, partial).** Missing: patterns that match the empty text and have a `^` that is not crossed first. There it
fails (`C73_negation`). -/
theorem C73_dfa_partial (U : Utf8Seqs) {e : ERE} (hd : e.Decided fun _ => True) (hs : e.StartSimple) {G : DfaEngine}
    (h : compileDfaU8 U.seqs e = .ok (some G)) (text : List Char) :
    OnlyOk e text G.tdfa.numCaptureGroups (G.tdfa.exec text (encode text)) :=
  onlyOk_of hd (C23_dfa_exec_partial U hs h text) fun r hr S' i' j' hS hl => by
    obtain ⟨i, j, h1, h2⟩ := C26_dfa U h hr
    exact ⟨i, j, h1, h2 S' i' j' hS hl⟩

/-- **C73 (`compile_regex!`, partial).** Missing: the same, if the engine chosen is a DFA. -/
theorem C73_compile_regex_partial (U : Utf8Seqs) {p : List Char} {e : ERE} (hp : parseStr p = .ok e)
    (hd : e.Decided fun _ => True) {E : Engine} (h : compileRegex U.seqs p = .ok (some E)) {cr : List String}
    (hc : E.compiles cr = true) (hs : StartOk e E) (text : List Char) : OnlyOk e text E.groups (E.exec text) :=
  have hE := compileRegex_ok hp h
  onlyOk_of hd ((C41_compile_regex_partial U hE hc hs).exec text) fun _ hr _ _ _ hS hl => C26_compile_regex U hE hc hr hS hl

/-- **C73 (attribute macro, partial).** Missing: the same. -/
theorem C73_attribute_partial (U : Utf8Seqs) {p : List Char} {e : ERE} (hp : parseStr p = .ok e)
    (hd : e.Decided fun _ => True) {k : Nat} {A : Attr} (h : compileAttr U.seqs p k = .ok (some A)) {cr : List String}
    (hc : A.compiles cr = true) (hs : StartOk e A.engine) (text : List Char) : OnlyOk e text k (A.exec text) := by
  obtain ⟨e', h1, h2⟩ := C45_attribute_partial U h hc
  rw [hp] at h1
  cases h1
  exact onlyOk_of hd ((h2 hs).1.exec text) fun _ hr _ _ _ hS hl => C26_attribute U h hc hp hr hS hl

/-! ## What follows -/

theorem only_unique {e : ERE} {text : List Char} {S S' : List Span} (h : e.Only text S) (h' : e.Only text S') : S = S' := by
  obtain ⟨i, j, i', j', a1, a2, a3⟩ := h.2 S' h'.1
  obtain ⟨k, l, k', l', b1, b2, b3⟩ := h'.2 S h.1
  rcases a3 with a3 | a3
  · rcases b3 with b3 | b3
    · rw [a1] at b2; rw [a2] at b1
      cases b2; cases b1
      omega
    · exact b3
  · exact a3.symm

/-- **C73 (agreement).** Two programs for the same pattern that report the only match report the same. -/
theorem C73_agree {e : ERE} {text : List Char} {k k' : Nat} {res res'} (h : OnlyOk e text k res) (h' : OnlyOk e text k' res') :
    (res = .ok none ∧ res' = .ok none) ∨
    ∃ r r', res = .ok (some r) ∧ res' = .ok (some r') ∧ ∀ g : Nat, (r[g]?).join = (r'[g]?).join := by
  rcases h with ⟨h, h1⟩ | ⟨r, S, h, h1, _, h2⟩
  · rcases h' with ⟨h', _⟩ | ⟨r', S', _, h3, _⟩
    · exact .inl ⟨h, h'⟩
    · exact absurd (captures_matchesIn.mp ⟨_, h3.1⟩) h1
  · rcases h' with ⟨_, h3⟩ | ⟨r', S', h', h3, _, h4⟩
    · exact absurd (captures_matchesIn.mp ⟨_, h1.1⟩) h3
    · exact .inr ⟨r, r', h, h', fun g => by rw [h2, h4, only_unique h1 h3]⟩

/-- **C73 (lazy quantifiers).** It does not matter which quantifiers are lazy: a report that is right for one pattern is right for
the other. -/
theorem C73_lazy {e e' : ERE} (hg : e.greedy = e'.greedy) {text : List Char} {k : Nat} {res} (h : OnlyOk e text k res) :
    OnlyOk e' text k res := by
  have hc := captures_greedy hg text
  rcases h with ⟨h, h1⟩ | ⟨r, S, h, h1, h2⟩
  · refine .inl ⟨h, fun hm => h1 ?_⟩
    obtain ⟨S, hS⟩ := captures_matchesIn.mpr hm
    exact captures_matchesIn.mp ⟨S, (hc S).mpr hS⟩
  · exact .inr ⟨r, S, h, ⟨(hc S).mp h1.1, fun S' hS' => h1.2 S' ((hc S').mpr hS')⟩, h2⟩

/-- **C46 (next character decides).** The report is also the preferred match. (`evenAnchors` is not demanded.) -/
theorem C46_decided {e : ERE} (hp : e.progress = true) {text : List Char} {k : Nat} {res} (h : OnlyOk e text k res) :
    FirstOk e text k res := by
  rcases h with ⟨hx, hn⟩ | ⟨r, S, r1, r2, r3, r4⟩
  · refine .inl ⟨hx, ?_⟩
    cases hf : e.first text with
    | none => rfl
    | some S => exact absurd (captures_matchesIn.mp ⟨S, first_captures hf⟩) hn
  · cases hf : e.first text with
    | none =>
      have := (first_isSome hp text).mpr (captures_matchesIn.mp ⟨S, r2.1⟩)
      simp [hf] at this
    | some S' =>
      obtain ⟨i, j, l1, l2⟩ := first_left hp hf
      obtain ⟨a, b, a', b', m1, m2, m3⟩ := r2.2 S' (first_captures hf)
      have h5 := l2 S a b r2.1 m1
      rw [l1] at m2
      cases m2
      rcases m3 with m3 | m3
      · omega
      · exact .inr ⟨r, S', r1, hf, r3, by rw [m3]; exact r4⟩

/-- **C69 (next character decides).** The report is also the longest of the leftmost matches. -/
theorem C69_decided {e : ERE} {exec : List Char → Except Err (Option (List (Option (Nat × Nat))))} {k : Nat} (hk : 0 < k)
    (h : ∀ text, OnlyOk e text k (exec text)) : Longest e exec := by
  intro text r hr
  rcases h text with ⟨h1, _⟩ | ⟨r', S, h1, ⟨h2, h3⟩, h4, h5⟩
  · rw [h1] at hr; simp at hr
  rw [h1] at hr
  have := Option.some.inj (Except.ok.inj hr)
  subst this
  obtain ⟨pre, mid, post, S0, c1, c2, c3⟩ := h2
  have h0 := h5 0
  rw [c3, lastSpan_whole] at h0
  refine ⟨_, _, ?_, ⟨pre, mid, post, c1, c2.matches, rfl, rfl⟩, fun pre' mid' post' d1 d2 => ?_⟩
  · cases hx : r'[0]? with
    | none => rw [List.getElem?_eq_none_iff] at hx; omega
    | some x => rw [hx] at h0; exact congrArg some h0
  · obtain ⟨S', hS'⟩ := d2.captured 1
    obtain ⟨a, b, a', b', m1, m2, m3⟩ := h3 (S' ++ [⟨0, byteLen pre', byteLen (pre' ++ mid')⟩]) ⟨pre', mid', post', S', d1, hS', rfl⟩
    rw [c3, lastSpan_whole] at m1
    rw [lastSpan_whole] at m2
    cases m1; cases m2
    rcases m3 with m3 | m3
    · exact .inl m3
    · rw [c3] at m3
      have := congrArg (lastSpan · 0) m3
      simp only [lastSpan_whole, Option.some.injEq, Prod.mk.injEq] at this
      exact .inr ⟨this.1, by omega⟩

/-! ## Cases -/

/-- The pattern `(^|,)(a+?)(;|$)`. -/
def patEntry : ERE := .mk [.mk [
  .single (.sub (.mk [.mk [.start], .mk [.single (.atom (.normal ','))]])),
  .single (.sub (.mk [.mk [.quantified (.atom (.normal 'a')) ⟨.plus, true⟩]])),
  .single (.sub (.mk [.mk [.single (.atom (.normal ';'))], .mk [.end_]]))]]

/-- non-vacuity: the next character decides in `(^|,)(a+?)(;|$)`, … -/
theorem patEntry_decided : patEntry.Decided fun _ => True := by
  simp [patEntry, ERE.Decided, branchesDecided, EREBranch.Decided, partsDecided, EREPart.Decided, EREExpr.Decided, ERE.sees,
    branchesSee, EREBranch.sees, partsSee, EREPart.sees, EREExpr.sees, Atom.check, QType.min, QType.max]

/-- … it is not one of the patterns of `C46_flat_char_partial`, and its only match in `,é,aa;a` is reported; with a greedy
quantifier it is the same pattern in the sense of `C73_lazy`. -/
example : patEntry.evenAnchors = false ∧ patEntry.progress = true ∧ patEntry.greedy ≠ patEntry ∧
    patEntry.greedy.greedy = patEntry.greedy ∧
    (compileFlatChar patEntry).map (fun F => decide (F.exec [',', 'é', ',', 'a', 'a', ';', 'a'] [',', 'é', ',', 'a', 'a', ';', 'a'] =
      .ok (some [some (3, 7), some (3, 4), some (4, 6), some (6, 7)]))) = .ok true := by
  refine ⟨by decide, by decide, by simp [patEntry, ERE.greedy, greedyBranches, EREBranch.greedy, greedyParts, EREPart.greedy,
    EREExpr.greedy], rfl, by decide +kernel⟩

/-- non-vacuity (one-pass engine, `compile_regex!`): `^a*b$`. -/
theorem patLong_decided : patLong.Decided fun _ => True := by
  simp [patLong, ERE.Decided, branchesDecided, EREBranch.Decided, partsDecided, EREPart.Decided, EREExpr.Decided,
    partsSee, EREPart.sees, EREExpr.sees, Atom.check]
example : parseStr "^a*b$".toList = .ok patLong ∧ (∃ E, compileRegex utf8Sequences "^a*b$".toList = .ok (some E) ∧
    E.compiles ["ere"] = true ∧ StartOk patLong E ∧ E.exec ['a', 'b'] = .ok (some [some (0, 2)])) := by
  refine ⟨patLong_spells, ?_⟩
  have hX : (compileRegex utf8Sequences "^a*b$".toList).map (·.map fun E => (E.compiles ["ere"],
      decide (E.exec ['a', 'b'] = .ok (some [some (0, 2)])))) = .ok (some (true, true)) := by decide +kernel
  cases hc : compileRegex utf8Sequences "^a*b$".toList with
  | error x => rw [hc] at hX; simp [Except.map] at hX
  | ok o =>
    cases o with
    | none => rw [hc] at hX; simp [Except.map] at hX
    | some E =>
      rw [hc] at hX
      simp only [Except.map, Option.map_some, Except.ok.injEq, Option.some.injEq, Prod.mk.injEq, decide_eq_true_eq] at hX
      exact ⟨E, rfl, hX.1, fun _ _ => .inr (.inl (by decide)), hX.2⟩

/-- The pattern `a(;|$)`. -/
def patTail : ERE := .mk [.mk [.single (.atom (.normal 'a')),
  .single (.sub (.mk [.mk [.single (.atom (.normal ';'))], .mk [.end_]]))]]

/-- non-vacuity (DFA engine): in `a(;|$)` the next character decides, and it is compiled to a DFA. -/
example : (patTail.Decided fun _ => True) ∧ patTail.StartSimple ∧
    (compileDfaU8 utf8Sequences patTail).map (·.map fun G => decide (G.tdfa.exec ['é', 'a'] (encode ['é', 'a']) =
      .ok (some [some (2, 3), some (3, 3)]))) = .ok (some true) := by
  refine ⟨?_, .inl (by decide), by decide +kernel⟩
  simp [patTail, ERE.Decided, branchesDecided, EREBranch.Decided, partsDecided, EREPart.Decided, EREExpr.Decided,
    EREBranch.sees, partsSee, EREPart.sees, EREExpr.sees, Atom.check]

/-- `a|ab` is not such a pattern: there are two ways to match from the start of `ab`. -/
example : ¬ patShort.Decided fun _ => True := by
  intro h
  have h1 : patShort.Captures ['a', 'b'] [⟨0, 0, 1⟩] := ⟨[], ['a'], ['b'], [], rfl,
    .intro (bs1 := []) rfl (.cons (m1 := ['a']) (m2 := []) (S1 := []) (S2 := []) (.single (.atom (by decide))) .nil), rfl⟩
  have h2 : patShort.Captures ['a', 'b'] [⟨0, 0, 2⟩] := ⟨[], ['a', 'b'], [], [], rfl,
    .intro (bs1 := [_]) rfl (.cons (m1 := ['a']) (m2 := ['b']) (S1 := []) (S2 := []) (.single (.atom (by decide)))
      (.cons (m1 := ['b']) (m2 := []) (S1 := []) (S2 := []) (.single (.atom (by decide))) .nil)), rfl⟩
  exact absurd (C73_one_way h h1 h2 (i := 0) (j := 1) (j' := 2) rfl rfl) (by decide)

/-- **C73 is false for the DFA engine** without a condition: the next character decides in `(^|b)$`, and in `x` the DFA engine
reports a match although there is none. -/
theorem C73_negation : (patStartOrB.Decided fun _ => True) ∧ ∃ G, compileDfaU8 utf8Sequences patStartOrB = .ok (some G) ∧
    ¬ OnlyOk patStartOrB ['x'] G.tdfa.numCaptureGroups (G.tdfa.exec ['x'] (encode ['x'])) := by
  refine ⟨by simp [patStartOrB, ERE.Decided, branchesDecided, EREBranch.Decided, partsDecided, EREPart.Decided, EREExpr.Decided,
    EREBranch.sees, partsSee, EREPart.sees, EREExpr.sees], ?_⟩
  obtain ⟨G, h1, _, h2, r, h3⟩ := C20_dfa_test_negation
  refine ⟨G, h1, ?_⟩
  rintro (⟨h4, _⟩ | ⟨_, S, _, h5, _⟩)
  · rw [h3] at h4; simp at h4
  · exact h2 (captures_matchesIn.mp ⟨S, h5.1⟩)

end Ere.Props
