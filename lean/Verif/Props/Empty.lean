import Verif.Proofs.Perl
import Verif.Props.Longest

/-!
# Property theorems about repetitions with empty rounds: C70

`ERE.perl` (Spec/Perl.lean) is the match that Perl prefers, for any pattern: a round of an unbounded repetition which
matches the empty text is the last one. For patterns without such rounds it is the match of C46.
-/

namespace Ere.Props
open Ere

/-- The result is the match that Perl prefers: every group holds what it captured last in it, the others are unset. -/
def PerlOk (e : ERE) (text : List Char) (groups : Nat) (res : Except Err (Option (List (Option (Nat × Nat))))) : Prop :=
  (res = .ok none ∧ e.perl text = none) ∨
  ∃ r S, res = .ok (some r) ∧ e.perl text = some S ∧ r.length = groups ∧ ∀ g : Nat, (r[g]?).join = lastSpan S g

/-- The match that Perl prefers is a match, there is one exactly if the pattern matches somewhere, and it starts as
far left as any match. For every pattern. (About the specification; no engine involved.) -/
theorem C70_perl_sound (e : ERE) (text : List Char) :
    (∀ S, e.perl text = some S → e.Captures text S) ∧
    ((e.perl text).isSome = true ↔ e.MatchesIn text) ∧
    ∀ S, e.perl text = some S → ∃ i j, lastSpan S 0 = some (i, j) ∧
      ∀ S' i' j', e.Captures text S' → lastSpan S' 0 = some (i', j') → i ≤ i' :=
  ⟨fun _ => perl_captures, perl_isSome text, fun _ => perl_left⟩

/-- If every round of an unbounded repetition consumes something, it is the preferred match of C46. -/
theorem C70_perl_first {e : ERE} (hp : e.progress = true) (text : List Char) : e.perl text = e.first text :=
  perl_eq_first hp text

theorem perlOk_of_first {e : ERE} (hp : e.progress = true) {text : List Char} {k : Nat} {res} (h : FirstOk e text k res) :
    PerlOk e text k res := by
  rcases h with ⟨h1, h2⟩ | ⟨r, S, h1, h2, h3, h4⟩
  · exact .inl ⟨h1, by rw [perl_eq_first hp]; exact h2⟩
  · exact .inr ⟨r, S, h1, by rw [perl_eq_first hp]; exact h2, h3, h4⟩

/-- **C70 (`compile_regex!`).** Missing: patterns with rounds that may be empty, for which it is false in general
(`C70_negation`). -/
theorem C70_compile_regex_partial (U : Utf8Seqs) {p : List Char} {e : ERE} (he : parseStr p = .ok e) (hp : e.progress = true)
    {E : Engine} (h : compileRegex U.seqs p = .ok (some E)) {cr : List String} (hc : E.compiles cr = true)
    (hs : StartOk e E) (ho : OrderOk e E) (text : List Char) : PerlOk e text E.groups (E.exec text) :=
  perlOk_of_first hp (C46_compile_regex_partial U hp (compileRegex_ok he h) hc hs ho text)

/-- The pattern `(|a)*`. -/
def patEmptyFirst : ERE := .mk [.mk [.quantified (.sub (.mk [.mk [], .mk [.single (.atom (.normal 'a'))]])) ⟨.star, false⟩]]

/-- The pattern `(|a){0,3}`. -/
def patEmptyThree : ERE :=
  .mk [.mk [.quantified (.sub (.mk [.mk [], .mk [.single (.atom (.normal 'a'))]])) ⟨.range 0 (some 3), false⟩]]

/-- **C70 is false in general:** for `(|a)*` on `aaa` Perl prefers the empty match, as the empty alternative comes first and
the round that takes it is the last. The flat engine over characters and the program of `compile_regex!` report the first byte, with the group set to the empty stretch behind it: a
round that Perl would not start is followed by one that ends the loop. Neither is it the longest match, which
is all of `aaa`, nor what is reported for `(|a){0,3}`, which by C46 is the empty match. -/
theorem C70_negation : patEmptyFirst.progress = false ∧
    patEmptyFirst.perl ['a', 'a', 'a'] = some [⟨1, 0, 0⟩, ⟨0, 0, 0⟩] ∧
    (compileFlatChar patEmptyFirst).map (fun F => decide (F.exec ['a', 'a', 'a'] ['a', 'a', 'a'] =
      .ok (some [some (0, 1), some (1, 1)]))) = .ok true ∧
    (compileRegex utf8Sequences "(|a)*".toList).map (·.map fun E => (E.compiles ["ere"],
      decide (E.exec ['a', 'a', 'a'] = .ok (some [some (0, 1), some (1, 1)])))) = .ok (some (true, true)) ∧
    patEmptyThree.progress = true ∧ patEmptyThree.evenAnchors = true ∧
    patEmptyThree.first ['a', 'a', 'a'] = some [⟨1, 0, 0⟩, ⟨1, 0, 0⟩, ⟨1, 0, 0⟩, ⟨0, 0, 0⟩] := by
  decide +kernel

/-- The longest match of `(|a)*` on `aaa` is the whole text. -/
theorem C70_negation_longest : MatchesERE patEmptyFirst [] ['a', 'a', 'a'] [] := by
  refine .intro (List.mem_singleton.mpr rfl) (.cons (m1 := ['a', 'a', 'a']) (m2 := []) ?_ .nil)
  have h : ∀ pre post, MatchesExpr (.sub (.mk [.mk [], .mk [.single (.atom (.normal 'a'))]])) pre ['a'] post := fun pre post =>
    .sub (.intro (b := .mk [.single (.atom (.normal 'a'))]) (by simp)
      (.cons (m1 := ['a']) (m2 := []) (.single (.atom rfl)) .nil))
  refine .quantified (n := 3) (by decide) (by intro m h; simp [QType.max] at h) ?_
  exact .succ (m1 := ['a']) (m2 := ['a', 'a']) (h _ _) (.succ (m1 := ['a']) (m2 := ['a']) (h _ _)
    (.succ (m1 := ['a']) (m2 := []) (h _ _) .zero))

/-- The pattern `(a*)*b?`. -/
def patEmptyLast : ERE := .mk [.mk [
  .quantified (.sub (.mk [.mk [.quantified (.atom (.normal 'a')) ⟨.star, false⟩]])) ⟨.star, false⟩,
  .quantified (.atom (.normal 'b')) ⟨.question, false⟩]]

/-- With the empty way last the engines do as Perl does: for `(a*)*b?` on `aab` the group holds the empty round behind `aa`. -/
theorem C70_case : patEmptyLast.progress = false ∧
    patEmptyLast.perl ['a', 'a', 'b'] = some [⟨1, 0, 2⟩, ⟨1, 2, 2⟩, ⟨0, 0, 3⟩] ∧
    (compileFlatChar patEmptyLast).map (fun F => decide (F.exec ['a', 'a', 'b'] ['a', 'a', 'b'] =
      .ok (some [some (0, 3), some (2, 2)]))) = .ok true := by
  decide +kernel

/-- non-vacuity: `a(b)?` fulfils the hypotheses of `C70_compile_regex_partial` (its program is computed in
Props/Longest.lean), and the match that Perl prefers is the one reported there. -/
example : (ERE.mk [.mk [.single (.atom (.normal 'a')), .quantified (.sub (.mk [.mk [.single (.atom (.normal 'b'))]]))
    ⟨.question, false⟩]]).perl ['c', 'a', 'b'] = some [⟨1, 2, 3⟩, ⟨0, 1, 3⟩] := by decide +kernel

end Ere.Props
