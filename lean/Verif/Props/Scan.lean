import Verif.Props.Attribute
import Verif.Proofs.Laws
import Verif.Proofs.Longest
import Verif.Proofs.Unset
import Verif.Props.Leftmost
import Verif.Props.Total
import Verif.Spec.Scan

/-!
# Property theorems about looking for all occurrences: C72

There is no function for it in the library. The usual way is to call `exec` again on what follows the whole match, as
`scanAll` does.
-/

namespace Ere.Props
open Ere

/-- `&text[n..]`: panics if `n` is not on a character boundary. -/
def dropBytes : Nat → List Char → Except Err (List Char)
  | 0, t => .ok t
  | _ + 1, [] => .error .panic
  | n + 1, c :: t => if charLen c ≤ n + 1 then dropBytes (n + 1 - charLen c) t else .error .panic

/-- A program that looks for all occurrences in `rest`, which begins at byte `off` of the text, with at most `k` calls of
`exec` (more is an error). `exec` returns slices of the text; the place of a slice is where its pointer points to:

    while let Some(m) = exec(rest) {
        let (i, j) = range of m[0];
        found.push((off + i, off + j));
        skip j bytes; if i == j { skip a character, or stop if there is none }
    } -/
def scanAll (exec : List Char → Except Err (Option (List (Option (Nat × Nat))))) :
    Nat → Nat → List Char → Except Err (List (Nat × Nat))
  | 0, _, _ => .error .fuel
  | k + 1, off, rest =>
    match exec rest with
    | .error x => .error x
    | .ok none => .ok []
    | .ok (some r) =>
      match (r[0]?).join with
      | none => .error .panic
      | some (i, j) =>
        match dropBytes j rest with
        | .error x => .error x
        | .ok rest' =>
          if i = j then
            match rest' with
            | [] => .ok [(off + i, off + j)]
            | c :: rest'' => (scanAll exec k (off + j + charLen c) rest'').map ((off + i, off + j) :: ·)
          else (scanAll exec k (off + j) rest').map ((off + i, off + j) :: ·)

theorem dropBytes_append : ∀ a b, dropBytes (byteLen a) (a ++ b) = .ok b
  | [], b => by simp [byteLen, dropBytes]
  | c :: a, b => by
    have hc : 0 < charLen c := charLen_pos c
    rw [byteLen_cons]
    obtain ⟨n, hn⟩ : ∃ n, charLen c + byteLen a = n + 1 := ⟨charLen c + byteLen a - 1, by omega⟩
    rw [hn, List.cons_append, dropBytes, if_pos (by omega), ← hn, Nat.add_sub_cancel_left, dropBytes_append a b]

theorem byteLen_mono {a b c d : List Char} (h : a ++ b = c ++ d) (hl : byteLen a ≤ byteLen c) : a.length ≤ c.length := by
  rcases Nat.lt_or_ge c.length a.length with h1 | h1
  · exfalso
    obtain ⟨x, rfl⟩ : ∃ x, a = c ++ x := by
      rcases List.append_eq_append_iff.mp h with ⟨x, h2, _⟩ | ⟨x, h2, _⟩
      · rw [h2, List.length_append] at h1; omega
      · exact ⟨x, h2⟩
    rw [byteLen_append] at hl
    have : byteLen x = 0 := by omega
    rw [byteLen_eq_zero] at this
    subst this
    simp at h1
  · exact h1

/-- What is needed of `exec`: it finds something exactly if there is a match, what it reports is one, and there is none
further left. -/
def FindsLeft (e : ERE) (exec : List Char → Except Err (Option (List (Option (Nat × Nat))))) : Prop :=
  ∀ text, (exec text = .ok none ∧ ¬ e.MatchesIn text) ∨
    ∃ r pre mid post, exec text = .ok (some r) ∧ (r[0]?).join = some (byteLen pre, byteLen (pre ++ mid)) ∧
      text = pre ++ mid ++ post ∧ MatchesERE e pre mid post ∧
      ∀ pre' mid' post', text = pre' ++ mid' ++ post' → MatchesERE e pre' mid' post' → pre.length ≤ pre'.length

theorem findsLeft_of {e : ERE} {k : Nat} {exec} (h : ∀ text, ExecOk e text k (exec text))
    (hl : ∀ text r, exec text = .ok (some r) → ∀ S' i' j', e.Captures text S' → lastSpan S' 0 = some (i', j') →
      ∃ i j, (r[0]?).join = some (i, j) ∧ i ≤ i') : FindsLeft e exec := by
  intro text
  rcases h text with h1 | ⟨r, S, h1, ⟨pre, mid, post, S0, c1, c2, c3⟩, _, h4⟩
  · exact .inl h1
  · have h0 : (r[0]?).join = some (byteLen pre, byteLen (pre ++ mid)) := by
      rw [h4 0, c3]
      exact lastSpan_whole _ _ _
    refine .inr ⟨r, pre, mid, post, h1, h0, c1, c2.matches, fun pre' mid' post' ht hm => ?_⟩
    obtain ⟨S', hS'⟩ := hm.captured 1
    obtain ⟨i, j, k1, k2⟩ := hl text r h1 _ _ _ ⟨pre', mid', post', S', ht, hS', rfl⟩ (lastSpan_whole _ _ _)
    rw [h0] at k1
    cases k1
    rw [List.append_assoc] at c1 ht
    exact byteLen_mono (c1.symm.trans ht) k2

/-- For a pattern without `^`: `exec` on what follows `before` finds what comes next in the whole text. -/
theorem FindsLeft.rest {e : ERE} {exec} (h : FindsLeft e exec) (hs : e.hasStart = false) (before rest : List Char) :
    (exec rest = .ok none ∧ e.NoMore before rest) ∨
    ∃ r pre mid post, exec rest = .ok (some r) ∧ (r[0]?).join = some (byteLen pre, byteLen (pre ++ mid)) ∧
      e.Next before rest pre mid post := by
  rcases h rest with ⟨h1, h2⟩ | ⟨r, pre, mid, post, h1, h2, h3, h4, h5⟩
  · exact .inl ⟨h1, fun pre mid post ht hm => h2 ⟨pre, mid, post, ht, hm.noStart hs pre⟩⟩
  · exact .inr ⟨r, pre, mid, post, h1, h2, h3, h4.noStart hs _, fun pre' mid' post' ht hm =>
      h5 pre' mid' post' ht (hm.noStart hs pre')⟩

theorem FindsLeft.scan {e : ERE} {exec} (h : FindsLeft e exec) (hs : e.hasStart = false) : ∀ (k : Nat) (before rest : List Char),
    rest.length < k → ∃ l, scanAll exec k (byteLen before) rest = .ok l ∧ e.Scans before rest l
  | 0, _, _, hk => absurd hk (by omega)
  | k + 1, before, rest, hk => by
    rw [scanAll]
    rcases h.rest hs before rest with ⟨h1, h2⟩ | ⟨r, pre, mid, post, h1, h2, h3⟩
    · rw [h1]
      exact ⟨[], rfl, .done h2⟩
    · have ht := h3.1
      rw [h1]
      simp only [h2]
      have hd : dropBytes (byteLen (pre ++ mid)) rest = .ok post := by rw [ht]; exact dropBytes_append _ _
      rw [hd]
      simp only
      have hlen := congrArg List.length ht
      simp only [List.length_append] at hlen
      by_cases hm : mid = []
      · subst hm
        rw [List.append_nil, if_pos rfl]
        cases post with
        | nil => exact ⟨_, rfl, by rw [← byteLen_append]; exact .last h3⟩
        | cons c post =>
          simp only [List.length_cons] at hlen
          obtain ⟨l, l1, l2⟩ := h.scan hs k (before ++ (pre ++ [c])) post (by omega)
          have : byteLen before + byteLen pre + charLen c = byteLen (before ++ (pre ++ [c])) := by
            rw [byteLen_append, byteLen_append, byteLen_cons, byteLen_nil]; omega
          simp only [this, l1]
          exact ⟨_, rfl, by rw [← byteLen_append]; exact .empty h3 l2⟩
      · have hb : byteLen mid ≠ 0 := fun hb => hm (byteLen_eq_zero.mp hb)
        have hp : 0 < mid.length := List.length_pos_iff.mpr hm
        rw [if_neg (by rw [byteLen_append]; omega)]
        obtain ⟨l, l1, l2⟩ := h.scan hs k (before ++ (pre ++ mid)) post (by omega)
        simp only [← byteLen_append, l1]
        exact ⟨_, rfl, .more h3 hm l2⟩

/-! ## What such a list tells -/

theorem scans_matches {e : ERE} {before rest l} (h : e.Scans before rest l) : ∀ i j, (i, j) ∈ l →
    ∃ pre mid post, rest = pre ++ mid ++ post ∧ MatchesERE e (before ++ pre) mid post ∧ i = byteLen (before ++ pre) ∧
      j = byteLen (before ++ (pre ++ mid)) := by
  induction h with
  | done _ => intro i j hm; cases hm
  | @more before rest pre mid post l hn _ _ ih =>
    intro i j hm
    rcases List.mem_cons.mp hm with h1 | h1
    · cases h1
      exact ⟨pre, mid, post, hn.1, hn.2.1, rfl, rfl⟩
    · obtain ⟨pre', mid', post', k1, k2, k3, k4⟩ := ih i j h1
      refine ⟨pre ++ mid ++ pre', mid', post', by rw [hn.1, k1]; simp, ?_, ?_, ?_⟩
      · simpa using k2
      · simpa using k3
      · simpa using k4
  | @empty before rest pre c post l hn _ ih =>
    intro i j hm
    rcases List.mem_cons.mp hm with h1 | h1
    · cases h1
      exact ⟨pre, [], c :: post, hn.1, hn.2.1, rfl, by rw [List.append_nil]⟩
    · obtain ⟨pre', mid', post', k1, k2, k3, k4⟩ := ih i j h1
      refine ⟨pre ++ [c] ++ pre', mid', post', by rw [hn.1, k1]; simp, ?_, ?_, ?_⟩
      · simpa using k2
      · simpa using k3
      · simpa using k4
  | @last before rest pre hn =>
    intro i j hm
    rw [List.mem_singleton] at hm
    cases hm
    exact ⟨pre, [], [], hn.1, hn.2.1, rfl, by rw [List.append_nil]⟩

theorem scans_from {e : ERE} {before rest l} (h : e.Scans before rest l) : ∀ i j, (i, j) ∈ l → byteLen before ≤ i := by
  intro i j hm
  obtain ⟨pre, _, _, _, _, h1, _⟩ := scans_matches h i j hm
  rw [h1, byteLen_append]
  omega

theorem scans_ordered {e : ERE} {before rest l} (h : e.Scans before rest l) :
    l.Pairwise fun a b => a.2 ≤ b.1 ∧ a.1 < b.1 := by
  induction h with
  | done _ => exact .nil
  | @more before rest pre mid post l hn hm hl ih =>
    refine .cons (fun b hb => ?_) ih
    have := scans_from hl b.1 b.2 hb
    have hb : byteLen mid ≠ 0 := fun hb => hm (byteLen_eq_zero.mp hb)
    simp only [byteLen_append] at this ⊢
    omega
  | @empty before rest pre c post l hn hl ih =>
    refine .cons (fun b hb => ?_) ih
    have := scans_from hl b.1 b.2 hb
    have hc := charLen_pos c
    simp only [byteLen_append, byteLen_cons, byteLen_nil] at this ⊢
    omega
  | last _ => exact List.pairwise_singleton _ _

theorem prefix_of_length {a b c d : List Char} (h : a ++ b = c ++ d) (hl : a.length ≤ c.length) : ∃ x, c = a ++ x ∧ b = x ++ d := by
  rcases List.append_eq_append_iff.mp h with ⟨x, h2, h3⟩ | ⟨x, h2, h3⟩
  · exact ⟨x, h2, h3⟩
  · have : x = [] := by
      rw [h2, List.length_append] at hl
      exact List.length_eq_zero_iff.mp (by omega)
    subst this
    exact ⟨[], by simpa using h2.symm, by simpa using h3.symm⟩

theorem scans_complete {e : ERE} {before rest l} (h : e.Scans before rest l) : ∀ pre mid post, rest = pre ++ mid ++ post →
    MatchesERE e (before ++ pre) mid post →
    ∃ i j, (i, j) ∈ l ∧ i ≤ byteLen (before ++ pre) ∧ (byteLen (before ++ pre) < j ∨ byteLen (before ++ pre) = i) := by
  induction h with
  | done hn => intro pre mid post h1 h2; exact absurd h2 (hn _ _ _ h1)
  | @more before rest pre mid post l hn hm hl ih =>
    intro pre' mid' post' h1 h2
    obtain ⟨k1, _, k3⟩ := hn
    have hlen := k3 _ _ _ h1 h2
    rw [k1, List.append_assoc, List.append_assoc] at h1
    obtain ⟨x, rfl, h3⟩ := prefix_of_length h1 hlen
    rcases Nat.lt_or_ge x.length mid.length with hx | hx
    · refine ⟨_, _, List.mem_cons_self, by simp only [byteLen_append]; omega, .inl ?_⟩
      obtain ⟨y, rfl, _⟩ := prefix_of_length h3.symm (Nat.le_of_lt hx)
      have : byteLen y ≠ 0 := by
        intro hy
        rw [byteLen_eq_zero] at hy
        subst hy
        simp at hx
      simp only [byteLen_append]
      omega
    · obtain ⟨y, rfl, h4⟩ := prefix_of_length h3 hx
      have ha : before ++ (pre ++ (mid ++ y)) = before ++ (pre ++ mid) ++ y := by simp
      rw [ha] at h2 ⊢
      obtain ⟨i, j, m1, m2⟩ := ih y mid' post' (by rw [List.append_assoc]; exact h4) h2
      exact ⟨i, j, List.mem_cons_of_mem _ m1, m2⟩
  | @empty before rest pre c post l hn hl ih =>
    intro pre' mid' post' h1 h2
    obtain ⟨k1, _, k3⟩ := hn
    have hlen := k3 _ _ _ h1 h2
    rw [k1, List.append_nil, List.append_assoc] at h1
    obtain ⟨x, rfl, h3⟩ := prefix_of_length h1 hlen
    cases x with
    | nil => exact ⟨_, _, List.mem_cons_self, by simp, .inr (by simp)⟩
    | cons c' y =>
      rw [List.cons_append] at h3
      obtain ⟨rfl, h4⟩ := List.cons.inj h3
      have ha : before ++ (pre ++ c :: y) = before ++ (pre ++ [c]) ++ y := by simp
      rw [ha] at h2 ⊢
      obtain ⟨i, j, m1, m2⟩ := ih y mid' post' (by rw [List.append_assoc]; exact h4) h2
      exact ⟨i, j, List.mem_cons_of_mem _ m1, m2⟩
  | @last before rest pre hn =>
    intro pre' mid' post' h1 h2
    obtain ⟨k1, _, k3⟩ := hn
    have hlen := k3 _ _ _ h1 h2
    rw [k1, List.append_nil, List.append_assoc] at h1
    obtain ⟨x, rfl, h3⟩ := prefix_of_length h1 hlen
    have hx : x = [] := (List.append_eq_nil_iff.mp h3.symm).1
    subst hx
    exact ⟨_, _, List.mem_cons_self, by simp, .inr (by simp)⟩

/-- The list of offsets found: all are matches of the text, one behind the other and no two at the same place, and none
is missed, that is, every match of the text begins within one of them, or at the same place. -/
structure AllFound (e : ERE) (text : List Char) (l : List (Nat × Nat)) : Prop where
  sound : ∀ i j, (i, j) ∈ l → ∃ pre mid post, text = pre ++ mid ++ post ∧ MatchesERE e pre mid post ∧
    i = byteLen pre ∧ j = byteLen (pre ++ mid)
  ordered : l.Pairwise fun a b => a.2 ≤ b.1 ∧ a.1 < b.1
  complete : ∀ pre mid post, text = pre ++ mid ++ post → MatchesERE e pre mid post →
    ∃ i j, (i, j) ∈ l ∧ i ≤ byteLen pre ∧ (byteLen pre < j ∨ byteLen pre = i)

theorem scans_allFound {e : ERE} {text l} (h : e.Scans [] text l) : AllFound e text l :=
  ⟨scans_matches h, scans_ordered h, scans_complete h⟩

theorem FindsLeft.all {e : ERE} {exec} (h : FindsLeft e exec) (hs : e.hasStart = false) (text : List Char) :
    ∃ l, scanAll exec (text.length + 1) 0 text = .ok l ∧ e.Scans [] text l ∧ AllFound e text l := by
  obtain ⟨l, h1, h2⟩ := h.scan hs (text.length + 1) [] text (by omega)
  exact ⟨l, h1, h2, scans_allFound h2⟩

/-! ## C72 -/

/-- **C72 (flat engine over characters).** For a pattern without `^`, calling `exec` again on what follows the match finds all
occurrences, with no more than one call for each character and one at the end, and without a panic. -/
theorem C72_flat_char {e : ERE} (hs : e.hasStart = false) {F : Flat Atom} (h : compileFlatChar e = .ok F) (text : List Char) :
    ∃ l, scanAll (fun t => F.exec t t) (text.length + 1) 0 text = .ok l ∧ e.Scans [] text l ∧ AllFound e text l :=
  (findsLeft_of (C23_flat_char_exec h) fun text r hr S' i' j' hS hl => by
    obtain ⟨i, j, h1, h2⟩ := C26_flat_char h hr
    exact ⟨i, j, h1, h2 S' i' j' hS hl⟩).all hs text

/-- **C72 (flat engine over bytes).** -/
theorem C72_flat_u8 (U : Utf8Seqs) {e : ERE} (hs : e.hasStart = false) {F : Flat U8Atom} (h : compileFlatU8 U.seqs e = .ok F)
    (text : List Char) : ∃ l, scanAll (fun t => F.exec t (encode t)) (text.length + 1) 0 text = .ok l ∧ e.Scans [] text l ∧
      AllFound e text l :=
  (findsLeft_of (C23_flat_u8_exec U h) fun text r hr S' i' j' hS hl => by
    obtain ⟨i, j, h1, h2⟩ := C26_flat_u8 U h hr
    exact ⟨i, j, h1, h2 S' i' j' hS hl⟩).all hs text

/-- **C72 (DFA engine).** -/
theorem C72_dfa (U : Utf8Seqs) {e : ERE} (hs : e.hasStart = false) {G : DfaEngine} (h : compileDfaU8 U.seqs e = .ok (some G))
    (text : List Char) : ∃ l, scanAll (fun t => G.tdfa.exec t (encode t)) (text.length + 1) 0 text = .ok l ∧
      e.Scans [] text l ∧ AllFound e text l :=
  (findsLeft_of (C23_dfa_exec_partial U (.inl hs) h) fun text r hr S' i' j' hS hl => by
    obtain ⟨i, j, h1, h2⟩ := C26_dfa U h hr
    exact ⟨i, j, h1, h2 S' i' j' hS hl⟩).all hs text

/-- **C72 (`compile_regex!`).** For a pattern without `^`, if the emitted program compiles. -/
theorem C72_compile_regex (U : Utf8Seqs) {p : List Char} {e : ERE} (hp : parseStr p = .ok e) (hs : e.hasStart = false)
    {E : Engine} (h : compileRegex U.seqs p = .ok (some E)) {cr : List String} (hc : E.compiles cr = true) (text : List Char) :
    ∃ l, scanAll E.exec (text.length + 1) 0 text = .ok l ∧ e.Scans [] text l ∧ AllFound e text l :=
  have hE := compileRegex_ok hp h
  (findsLeft_of (C41_compile_regex_partial U hE hc fun _ _ => .inl hs).exec fun _ _ hr _ _ _ hS hl =>
    C26_compile_regex U hE hc hr hS hl).all hs text

/-- **C72 (attribute macro).** -/
theorem C72_attribute (U : Utf8Seqs) {p : List Char} {e : ERE} (hp : parseStr p = .ok e) (hs : e.hasStart = false)
    {k : Nat} {A : Attr} (h : compileAttr U.seqs p k = .ok (some A)) {cr : List String} (hc : A.compiles cr = true)
    (text : List Char) : ∃ l, scanAll A.exec (text.length + 1) 0 text = .ok l ∧ e.Scans [] text l ∧ AllFound e text l := by
  obtain ⟨E, h1, h2, _, h4⟩ := C45_same_program U h hc
  rw [show A.exec = E.exec from funext fun text => (h4 text).2]
  exact C72_compile_regex U hp hs h1 h2 text

/-! ## Cases -/

/-- The pattern `a*|b`. -/
def patScan : ERE := .mk [.mk [.quantified (.atom (.normal 'a')) ⟨.star, false⟩], .mk [.single (.atom (.normal 'b'))]]

/-- non-vacuity: in `éaac` the pattern `a*|b` is found at four places; three of the occurrences are empty. -/
example : patScan.hasStart = false ∧
    (compileFlatChar patScan).map (fun F => decide (scanAll (fun t => F.exec t t) 5 0 ['é', 'a', 'a', 'c'] =
      .ok [(0, 0), (2, 4), (4, 4), (5, 5)])) = .ok true := by decide +kernel

/-- non-vacuity: `a(b)?` (parsed in Props/Total) in `abéa`. -/
example : patOptB.hasStart = false ∧
    (compileRegex utf8Sequences "a(b)?".toList).map (·.map fun E => (E.compiles ["ere"],
      decide (scanAll E.exec 5 0 ['a', 'b', 'é', 'a'] = .ok [(0, 2), (4, 5)]))) = .ok (some (true, true)) := by decide +kernel

/-- The pattern `^a`. -/
def patHeadA : ERE := .mk [.mk [.start, .single (.atom (.normal 'a'))]]

/-- **C72 is false for patterns with `^`:** in `aa` the pattern `^a` is found twice, as what follows a match is a text of its
own. (The crate offers no other way: `exec` takes the text, not a place in it.) -/
theorem C72_negation : (compileFlatChar patHeadA).map (fun F => decide (scanAll (fun t => F.exec t t) 3 0 ['a', 'a'] =
      .ok [(0, 1), (1, 2)])) = .ok true ∧
    (compileRegex utf8Sequences "^a".toList).map (·.map fun E => (E.compiles ["ere"],
      decide (scanAll E.exec 3 0 ['a', 'a'] = .ok [(0, 1), (1, 2)]))) = .ok (some (true, true)) ∧
    ¬ MatchesERE patHeadA ['a'] ['a'] [] := by
  refine ⟨by decide +kernel, by decide +kernel, fun h => ?_⟩
  obtain ⟨b, hb, h⟩ := matchesERE_iff.mp h
  rw [List.mem_singleton] at hb
  subst hb
  obtain ⟨m1, m2, _, h1, _⟩ := matchesParts_cons.mp h
  generalize hp : ['a'] = pre at h1
  cases h1
  cases hp

end Ere.Props
