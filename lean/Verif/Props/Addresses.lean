import Verif.Props.Records

/-! # C87: IPv4 addresses and dates -/

namespace Ere.Props

open scoped Computability
open Language

/-! ## Digits -/

/-- The character of a digit. -/
abbrev dig (k : Nat) : Char := Nat.digitChar k

/-- `[lo-hi]`. -/
abbrev rangeAtom (lo hi : Char) : Atom := .matching [.range lo hi]

theorem dig_toNat {k : Nat} (h : k < 10) : (dig k).toNat = 48 + k := by
  have : ∀ k < 10, (dig k).toNat = 48 + k := by decide
  exact this k h

theorem range_digits {lo hi : Char} (a b : Nat) (h1 : lo.toNat = 48 + a) (h2 : hi.toNat = 48 + b) (h3 : b < 10) (c : Char) :
    (rangeAtom lo hi).check c = true ↔ ∃ k, a ≤ k ∧ k ≤ b ∧ c = dig k := by
  simp only [Atom.check, Term.check, List.any_cons, List.any_nil, Bool.or_false, Bool.and_eq_true, decide_eq_true_eq, char_le,
    h1, h2]
  constructor
  · intro h
    exact ⟨c.toNat - 48, by omega, by omega, char_of_toNat (by rw [dig_toNat (by omega)]; omega)⟩
  · rintro ⟨k, h4, h5, rfl⟩
    rw [dig_toNat (by omega)]
    omega

theorem normal_digit {d : Char} (a : Nat) (h : d = dig a) (c : Char) : (Atom.normal d).check c = true ↔ c = dig a := by
  rw [h]
  simp only [Atom.check, beq_iff_eq]
  exact eq_comm

theorem mem_cons_atom {a : Atom} {ps : List EREPart} {w : List Char} :
    w ∈ partsLang (.single (.atom a) :: ps) ↔ ∃ c v, a.check c = true ∧ v ∈ partsLang ps ∧ w = c :: v := by
  rw [partsLang, mem_mul]
  constructor
  · rintro ⟨_, ⟨c, hc, rfl⟩, v, hv, rfl⟩
    exact ⟨c, v, (C75_atoms _ _).mpr hc, hv, rfl⟩
  · rintro ⟨c, v, hc, hv, rfl⟩
    exact ⟨[c], ⟨c, (C75_atoms _ _).mp hc, rfl⟩, v, hv, rfl⟩

theorem mem_nil_parts {w : List Char} : w ∈ partsLang [] ↔ w = [] := by
  rw [partsLang, mem_one]

theorem count_parts (x : EREExpr) (n : Nat) (b : Bool) (ps : List EREPart) :
    partsLang (.quantified x ⟨.multiple n, b⟩ :: ps) = partsLang (List.replicate n (.single x) ++ ps) := by
  rw [partsLang_append, partsLang, EREPart.lang, QType.lang]
  congr 1
  induction n with
  | zero => rw [pow_zero]; rfl
  | succ n ih => rw [pow_succ', ih, List.replicate_succ, partsLang]; rfl

theorem mem_alternatives {bs : List EREBranch} {w : List Char} : w ∈ (ERE.mk bs).lang ↔ ∃ b ∈ bs, w ∈ b.lang := by
  rw [ERE.lang, mem_branchesLang]

theorem digits_one : ∀ i < 10, [dig i] = digitsOf i := by decide +kernel
theorem digits_two : ∀ i < 10, 1 ≤ i → ∀ j < 10, [dig i, dig j] = digitsOf (10 * i + j) := by decide +kernel
theorem digits_three : ∀ i < 10, 1 ≤ i → ∀ j < 10, ∀ k < 10, [dig i, dig j, dig k] = digitsOf (100 * i + 10 * j + k) := by
  decide +kernel

theorem padded_two {i j : Nat} (h2 : i < 10) (h3 : j < 10) : [dig i, dig j] = padded 2 (10 * i + j) := by
  simp only [padded, List.nil_append, List.cons_append]
  rw [show (10 * i + j) / 10 % 10 = i by omega, show (10 * i + j) % 10 = j by omega]

theorem padded_four {i j k l : Nat} (h1 : i < 10) (h2 : j < 10) (h3 : k < 10) (h4 : l < 10) :
    [dig i, dig j, dig k, dig l] = padded 4 (1000 * i + 100 * j + 10 * k + l) := by
  simp only [padded, List.nil_append, List.cons_append]
  rw [show (1000 * i + 100 * j + 10 * k + l) / 10 / 10 / 10 % 10 = i by omega,
    show (1000 * i + 100 * j + 10 * k + l) / 10 / 10 % 10 = j by omega,
    show (1000 * i + 100 * j + 10 * k + l) / 10 % 10 = k by omega, show (1000 * i + 100 * j + 10 * k + l) % 10 = l by omega]

/-! ## IPv4 addresses -/

/-- `25[0-5]|2[0-4][0-9]|1[0-9]{2}|[1-9][0-9]|[0-9]`. -/
def octetERE : ERE := .mk [
  .mk [.single (.atom (.normal '2')), .single (.atom (.normal '5')), .single (.atom (rangeAtom '0' '5'))],
  .mk [.single (.atom (.normal '2')), .single (.atom (rangeAtom '0' '4')), .single (.atom digitAtom)],
  .mk [.single (.atom (.normal '1')), .quantified (.atom digitAtom) ⟨.multiple 2, false⟩],
  .mk [.single (.atom (rangeAtom '1' '9')), .single (.atom digitAtom)],
  .mk [.single (.atom digitAtom)]]

/-- The strings of this pattern are the numbers up to 255 in decimal notation. -/
theorem octet_lang (w : List Char) : w ∈ octetERE.lang ↔ ∃ n < 256, w = digitsOf n := by
  have d2 := normal_digit (d := '2') 2 rfl
  have d5 := normal_digit (d := '5') 5 rfl
  have d1 := normal_digit (d := '1') 1 rfl
  have r05 := range_digits (lo := '0') (hi := '5') 0 5 rfl rfl (by omega)
  have r04 := range_digits (lo := '0') (hi := '4') 0 4 rfl rfl (by omega)
  have r09 : ∀ c, digitAtom.check c = true ↔ _ := range_digits (lo := '0') (hi := '9') 0 9 rfl rfl (by omega)
  have r19 := range_digits (lo := '1') (hi := '9') 1 9 rfl rfl (by omega)
  simp only [octetERE, mem_alternatives, List.mem_cons, List.not_mem_nil, or_false, exists_eq_or_imp, exists_eq_left,
    EREBranch.lang, count_parts, List.replicate, List.append_nil, mem_cons_atom, mem_nil_parts,
    d2, d5, d1, r05, r04, r09, r19]
  constructor
  · rintro (⟨_, _, rfl, ⟨_, _, rfl, ⟨_, _, ⟨k, _, h2, rfl⟩, rfl, rfl⟩, rfl⟩, rfl⟩ |
      ⟨_, _, rfl, ⟨_, _, ⟨j, _, h1, rfl⟩, ⟨_, _, ⟨k, _, h2, rfl⟩, rfl, rfl⟩, rfl⟩, rfl⟩ |
      ⟨_, _, rfl, ⟨_, _, ⟨j, _, h1, rfl⟩, ⟨_, _, ⟨k, _, h2, rfl⟩, rfl, rfl⟩, rfl⟩, rfl⟩ |
      ⟨_, _, ⟨j, h0, h1, rfl⟩, ⟨_, _, ⟨k, _, h2, rfl⟩, rfl, rfl⟩, rfl⟩ |
      ⟨_, _, ⟨k, _, h2, rfl⟩, rfl, rfl⟩)
    · exact ⟨_, by omega, digits_three 2 (by omega) (by omega) 5 (by omega) k (by omega)⟩
    · exact ⟨_, by omega, digits_three 2 (by omega) (by omega) j (by omega) k (by omega)⟩
    · exact ⟨_, by omega, digits_three 1 (by omega) (by omega) j (by omega) k (by omega)⟩
    · exact ⟨_, by omega, digits_two j (by omega) h0 k (by omega)⟩
    · exact ⟨_, by omega, digits_one k (by omega)⟩
  · rintro ⟨n, hn, rfl⟩
    by_cases h1 : n < 10
    · exact .inr (.inr (.inr (.inr ⟨_, _, ⟨n, by omega, by omega, rfl⟩, rfl, (digits_one n h1).symm⟩)))
    by_cases h2 : n < 100
    · refine .inr (.inr (.inr (.inl ⟨_, _, ⟨n / 10, by omega, by omega, rfl⟩, ⟨_, _, ⟨n % 10, by omega, by omega, rfl⟩, rfl, rfl⟩, ?_⟩)))
      rw [digits_two (n / 10) (by omega) (by omega) (n % 10) (by omega)]
      congr 1; omega
    by_cases h3 : n < 200
    · refine .inr (.inr (.inl ⟨_, _, rfl, ⟨_, _, ⟨n / 10 % 10, by omega, by omega, rfl⟩,
        ⟨_, _, ⟨n % 10, by omega, by omega, rfl⟩, rfl, rfl⟩, rfl⟩, ?_⟩))
      rw [digits_three 1 (by omega) (by omega) (n / 10 % 10) (by omega) (n % 10) (by omega)]
      congr 1; omega
    by_cases h4 : n < 250
    · refine .inr (.inl ⟨_, _, rfl, ⟨_, _, ⟨n / 10 % 10, by omega, by omega, rfl⟩,
        ⟨_, _, ⟨n % 10, by omega, by omega, rfl⟩, rfl, rfl⟩, rfl⟩, ?_⟩)
      rw [digits_three 2 (by omega) (by omega) (n / 10 % 10) (by omega) (n % 10) (by omega)]
      congr 1; omega
    · refine .inl ⟨_, _, rfl, ⟨_, _, rfl, ⟨_, _, ⟨n % 10, by omega, by omega, rfl⟩, rfl, rfl⟩, rfl⟩, ?_⟩
      rw [digits_three 2 (by omega) (by omega) 5 (by omega) (n % 10) (by omega)]
      congr 1; omega

theorem octet_simple : Simple octetERE := ⟨by decide, by decide, by decide⟩

theorem octet_apart : ∀ w ∈ octetERE.lang, '.' ∉ w := by
  intro w hw
  obtain ⟨n, hn, rfl⟩ := (octet_lang w).mp hw
  have : ∀ n < 256, '.' ∉ digitsOf n := by decide +kernel
  exact this n hn

/-- The first three fields of an address. -/
def octets : List (ERE × Char) := [(octetERE, '.'), (octetERE, '.'), (octetERE, '.')]

/-- The pattern for IPv4 addresses. -/
def ipv4ERE : ERE := recordERE octets octetERE

/-- How a field is spelled. -/
def octetText : List Char := "25[0-5]|2[0-4][0-9]|1[0-9]{2}|[1-9][0-9]|[0-9]".toList

theorem range_spelled {lo hi : Char} (h1 : lo ≠ ']') (h2 : hi ≠ ']') (h3 : lo ≠ '^') :
    SpellsExpr (.atom (rangeAtom lo hi)) ['[', lo, '-', hi, ']'] :=
  .atom (.matching (w := [lo, '-', hi, ']']) (by simpa using h3) (.plain (by simpa using h1) (.range h1 h2 .close)))

theorem plain_spelled {c : Char} (h : c ∉ specials) : SpellsPart (.single (.atom (.normal c))) [c] := .single (.atom (.plain h))

theorem digit_spelled : SpellsExpr (.atom digitAtom) "[0-9]".toList := range_spelled (by decide) (by decide) (by decide)

theorem octet_spelled : SpellsERE octetERE octetText :=
  .more (w := "25[0-5]".toList) (.cons (w := ['2']) (plain_spelled (by decide)) (.cons (w := ['5']) (plain_spelled (by decide))
      (.cons (w := "[0-5]".toList) (v := []) (.single (range_spelled (by decide) (by decide) (by decide))) .nil)))
    (.more (w := "2[0-4][0-9]".toList) (.cons (w := ['2']) (plain_spelled (by decide))
        (.cons (w := "[0-4]".toList) (.single (range_spelled (by decide) (by decide) (by decide)))
          (.cons (w := "[0-9]".toList) (v := []) (.single digit_spelled) .nil)))
      (.more (w := "1[0-9]{2}".toList) (.cons (w := ['1']) (plain_spelled (by decide))
          (.cons (w := "[0-9]{2}".toList) (v := []) (.quantified (w := "[0-9]".toList) (v := "{2}".toList) digit_spelled
            (.greedy (.multiple (w := ['2']) (.digits (by decide) (by decide) (by decide) (by decide))))) .nil))
        (.more (w := "[1-9][0-9]".toList) (.cons (w := "[1-9]".toList) (.single (range_spelled (by decide) (by decide) (by decide)))
            (.cons (w := "[0-9]".toList) (v := []) (.single digit_spelled) .nil))
          (.one (.cons (w := "[0-9]".toList) (v := []) (.single digit_spelled) .nil)))))

theorem record_spelled {last : ERE} {vl : List Char} (hl : SpellsERE last vl) : ∀ {xs : List (ERE × Char)} {vs : List (List Char × List Char)},
    List.Forall₂ (fun x v => SpellsERE x.1 v.1 ∧ SpellsAtom (.normal x.2) v.2) xs vs →
    SpellsBranch (.mk (recordParts xs last ++ [.end_])) (vs.flatMap (fun v => '(' :: (v.1 ++ ')' :: v.2)) ++ ('(' :: (vl ++ [')', '$'])))
  | [], [], _ => by
    have := SpellsBranch.cons (.single (.sub hl)) (.cons .end_ .nil)
    simpa [recordParts] using this
  | (i, s) :: xs, v :: vs, .cons ⟨h1, h2⟩ h3 => by
    have := SpellsBranch.cons (.single (.sub h1)) (.cons (.single (.atom h2)) (record_spelled hl h3))
    simpa [recordParts] using this

theorem parse_record {last : ERE} {vl : List Char} (hl : SpellsERE last vl) {xs : List (ERE × Char)} {vs : List (List Char × List Char)}
    (h : List.Forall₂ (fun x v => SpellsERE x.1 v.1 ∧ SpellsAtom (.normal x.2) v.2) xs vs) :
    parseStr ('^' :: (vs.flatMap (fun v => '(' :: (v.1 ++ ')' :: v.2)) ++ ('(' :: (vl ++ [')', '$'])))) = .ok (recordERE xs last) :=
  parseStr_iff.mpr (.one (.cons (w := ['^']) .start (record_spelled hl h)))

/-- The pattern of `tests/pure_regex.rs` lines 83-117 and `benches/ere_benchmark.rs` lines 193-197. -/
def ipv4Text : List Char :=
  "^(25[0-5]|2[0-4][0-9]|1[0-9]{2}|[1-9][0-9]|[0-9])\\.(25[0-5]|2[0-4][0-9]|1[0-9]{2}|[1-9][0-9]|[0-9])\\.(25[0-5]|2[0-4][0-9]|1[0-9]{2}|[1-9][0-9]|[0-9])\\.(25[0-5]|2[0-4][0-9]|1[0-9]{2}|[1-9][0-9]|[0-9])$".toList

theorem parse_ipv4 : parseStr ipv4Text = .ok ipv4ERE := by
  have hd : SpellsAtom (.normal '.') ['\\', '.'] := .escaped (by decide)
  have h := parse_record octet_spelled (xs := octets) (vs := [(octetText, ['\\', '.']), (octetText, ['\\', '.']), (octetText, ['\\', '.'])])
    (.cons ⟨octet_spelled, hd⟩ (.cons ⟨octet_spelled, hd⟩ (.cons ⟨octet_spelled, hd⟩ .nil)))
  refine Eq.trans (congrArg parseStr ?_) h
  decide +kernel

theorem octets_simple : ∀ x ∈ octets, Simple x.1 := by
  intro x hx
  simp only [octets, List.mem_cons, List.not_mem_nil, or_false] at hx
  rcases hx with rfl | rfl | rfl <;> exact octet_simple

theorem octets_apart : Apart octets := by
  intro x hx
  simp only [octets, List.mem_cons, List.not_mem_nil, or_false] at hx
  rcases hx with rfl | rfl | rfl <;> exact octet_apart

theorem cut_dotted {a b c d : Nat} (ha : a < 256) (hb : b < 256) (hc : c < 256) :
    cutAt (seps octets) (dotted a b c d) = some [digitsOf a, digitsOf b, digitsOf c, digitsOf d] := by
  have key := fun {n} (h : n < 256) => octet_apart _ ((octet_lang _).mpr ⟨n, h, rfl⟩)
  show cutAt ['.', '.', '.'] (dotted a b c d) = _
  rw [dotted, cutAt_sep (key ha), cutAt_sep (key hb), cutAt_sep (key hc), cutAt]
  rfl

/-- What `exec` reports for an address: all of it, and its numbers. -/
def ipv4Answer (a b c d : Nat) : List (Option (Nat × Nat)) :=
  some (0, byteLen (dotted a b c d)) ::
    (stretches 0 ['.', '.', '.'] [digitsOf a, digitsOf b, digitsOf c, digitsOf d]).map some

theorem each_octets {ws : List (List Char)} : Each (recordLangs octets octetERE) ws ↔
    ∃ a b c d, a < 256 ∧ b < 256 ∧ c < 256 ∧ d < 256 ∧ ws = [digitsOf a, digitsOf b, digitsOf c, digitsOf d] := by
  constructor
  · intro h
    match ws, h with
    | [w1, w2, w3, w4], ⟨h1, h2, h3, h4, _⟩ =>
      obtain ⟨a, ha, rfl⟩ := (octet_lang _).mp h1
      obtain ⟨b, hb, rfl⟩ := (octet_lang _).mp h2
      obtain ⟨c, hc, rfl⟩ := (octet_lang _).mp h3
      obtain ⟨d, hd, rfl⟩ := (octet_lang _).mp h4
      exact ⟨a, b, c, d, ha, hb, hc, hd, rfl⟩
    | _ :: _ :: _ :: _ :: _ :: _, h => simp [octets, recordLangs, Each] at h
    | [], h => simp [octets, recordLangs, Each] at h
    | [_], h => simp [octets, recordLangs, Each] at h
    | [_, _], h => simp [octets, recordLangs, Each] at h
    | [_, _, _], h => simp [octets, recordLangs, Each] at h
  · rintro ⟨a, b, c, d, ha, hb, hc, hd, rfl⟩
    exact ⟨(octet_lang _).mpr ⟨a, ha, rfl⟩, (octet_lang _).mpr ⟨b, hb, rfl⟩, (octet_lang _).mpr ⟨c, hc, rfl⟩,
      (octet_lang _).mpr ⟨d, hd, rfl⟩, trivial⟩

/-- **C87 (IPv4).** The pattern of the benchmark compiles. `test` accepts exactly the texts that are four numbers up to 255 in
decimal notation without leading zeros, with dots between them, and `exec` reports the four numbers. -/
theorem C87_ipv4 (U : Utf8Seqs) {cr : List String} (hcr : "ere" ∈ cr) :
    ∃ E, compileRegex U.seqs ipv4Text = .ok (some E) ∧ E.compiles cr = true ∧
      (∀ a b c d, a < 256 → b < 256 → c < 256 → d < 256 → E.test (dotted a b c d) = .ok true ∧
        E.exec (dotted a b c d) = .ok (some (ipv4Answer a b c d))) ∧
      ∀ text, (∀ a b c d, a < 256 → b < 256 → c < 256 → d < 256 → text ≠ dotted a b c d) →
        E.test text = .ok false ∧ E.exec text = .ok none := by
  obtain ⟨E, h, hc⟩ := C87_compiles U octets_simple octet_simple octets_apart (by simp [octets])
    ⟨_, each_octets.mpr ⟨0, 0, 0, 0, by omega, by omega, by omega, by omega, rfl⟩⟩ (by decide) parse_ipv4 hcr
  have key := C87_records U octets_simple octet_simple octets_apart (by decide) parse_ipv4 h hc
  refine ⟨E, h, hc, fun a b c d ha hb hc hd => ?_, fun text hn => ?_⟩
  · have hcut := cut_dotted (d := d) ha hb hc
    rcases key (dotted a b c d) with ⟨_, _, k⟩ | ⟨ws, k1, _, k3, k4⟩
    · exact absurd ⟨_, hcut, each_octets.mpr ⟨a, b, c, d, ha, hb, hc, hd, rfl⟩⟩ k
    · rw [hcut] at k1
      cases k1
      exact ⟨k3, k4⟩
  · rcases key text with ⟨k1, k2, _⟩ | ⟨ws, k1, k2, _⟩
    · exact ⟨k1, k2⟩
    · exfalso
      obtain ⟨a, b, c, d, ha, hb, hc, hd, rfl⟩ := each_octets.mp k2
      obtain ⟨w, vs, r, e1, e2, rfl, _⟩ := cutAt_some k1
      cases e1
      obtain ⟨w, vs, r, e1, e3, rfl, _⟩ := cutAt_some e2
      cases e1
      obtain ⟨w, vs, r, e1, e4, rfl, _⟩ := cutAt_some e3
      cases e1
      simp only [List.map_nil, cutAt, Option.some.injEq, List.cons.injEq, and_true] at e4
      subst e4
      exact hn a b c d ha hb hc hd rfl

/-- **C87 (IPv4, the engines of the test).** The engines that `tests/pure_regex.rs` lines 83-117 runs on ten thousand addresses
report the four numbers of every address. -/
theorem C87_ipv4_engines (U : Utf8Seqs) {a b c d : Nat} (ha : a < 256) (hb : b < 256) (hc : c < 256) (hd : d < 256) :
    (∀ F, compileFlatChar ipv4ERE = .ok F → F.exec (dotted a b c d) (dotted a b c d) = .ok (some (ipv4Answer a b c d))) ∧
    (∀ F, compileFlatU8 U.seqs ipv4ERE = .ok F →
      F.exec (dotted a b c d) (encode (dotted a b c d)) = .ok (some (ipv4Answer a b c d))) ∧
    ∀ G, compileDfaU8 U.seqs ipv4ERE = .ok (some G) →
      G.tdfa.exec (dotted a b c d) (encode (dotted a b c d)) = .ok (some (ipv4Answer a b c d)) := by
  obtain ⟨h1, h2, _, h4⟩ := C87_engines U octets_simple octet_simple octets_apart (by decide) (cut_dotted (d := d) ha hb hc)
    (each_octets.mpr ⟨a, b, c, d, ha, hb, hc, hd, rfl⟩)
  exact ⟨h1, h2, h4⟩

/-- There are such flat engines. -/
example (U : Utf8Seqs) : (∃ F, compileFlatChar ipv4ERE = .ok F) ∧ ∃ F, compileFlatU8 U.seqs ipv4ERE = .ok F :=
  C17_flat_returns U _ ⟨dotted 192 168 0 1, (record_matches octets_simple octet_simple octets_apart _).mpr
    ⟨_, cut_dotted (by omega) (by omega) (by omega), each_octets.mpr ⟨_, _, _, _, by omega, by omega, by omega, by omega, rfl⟩⟩⟩

example : dotted 192 168 0 1 = "192.168.0.1".toList ∧
    ipv4Answer 192 168 0 1 = [some (0, 11), some (0, 3), some (4, 7), some (8, 9), some (10, 11)] := by decide +kernel

/-! ## Dates -/

/-- `[0-9]{4}`. -/
def yearERE : ERE := .mk [.mk [.quantified (.atom digitAtom) ⟨.multiple 4, false⟩]]

/-- `0[1-9]|1[0-2]`. -/
def monthERE : ERE := .mk [.mk [.single (.atom (.normal '0')), .single (.atom (rangeAtom '1' '9'))],
  .mk [.single (.atom (.normal '1')), .single (.atom (rangeAtom '0' '2'))]]

/-- `0[1-9]|[12][0-9]|3[01]`. -/
def dayERE : ERE := .mk [.mk [.single (.atom (.normal '0')), .single (.atom (rangeAtom '1' '9'))],
  .mk [.single (.atom (.matching [.single '1', .single '2'])), .single (.atom digitAtom)],
  .mk [.single (.atom (.normal '3')), .single (.atom (.matching [.single '0', .single '1']))]]

theorem year_lang (w : List Char) : w ∈ yearERE.lang ↔ ∃ y < 10000, w = padded 4 y := by
  have r09 : ∀ c, digitAtom.check c = true ↔ _ := range_digits (lo := '0') (hi := '9') 0 9 rfl rfl (by omega)
  simp only [yearERE, mem_alternatives, List.mem_cons, List.not_mem_nil, or_false, exists_eq_left,
    EREBranch.lang, count_parts, List.replicate, List.append_nil, mem_cons_atom, mem_nil_parts, r09]
  constructor
  · rintro ⟨_, _, ⟨i, _, h1, rfl⟩, ⟨_, _, ⟨j, _, h2, rfl⟩, ⟨_, _, ⟨k, _, h3, rfl⟩, ⟨_, _, ⟨l, _, h4, rfl⟩, rfl, rfl⟩, rfl⟩, rfl⟩, rfl⟩
    exact ⟨_, by omega, padded_four (by omega) (by omega) (by omega) (by omega)⟩
  · rintro ⟨y, hy, rfl⟩
    refine ⟨_, _, ⟨y / 1000, by omega, by omega, rfl⟩, ⟨_, _, ⟨y / 100 % 10, by omega, by omega, rfl⟩,
      ⟨_, _, ⟨y / 10 % 10, by omega, by omega, rfl⟩, ⟨_, _, ⟨y % 10, by omega, by omega, rfl⟩, rfl, rfl⟩, rfl⟩, rfl⟩, ?_⟩
    rw [padded_four (by omega) (by omega) (by omega) (by omega)]
    congr 1; omega

theorem month_lang (w : List Char) : w ∈ monthERE.lang ↔ ∃ m, 1 ≤ m ∧ m ≤ 12 ∧ w = padded 2 m := by
  have d0 := normal_digit (d := '0') 0 rfl
  have d1 := normal_digit (d := '1') 1 rfl
  have r19 := range_digits (lo := '1') (hi := '9') 1 9 rfl rfl (by omega)
  have r02 := range_digits (lo := '0') (hi := '2') 0 2 rfl rfl (by omega)
  simp only [monthERE, mem_alternatives, List.mem_cons, List.not_mem_nil, or_false, exists_eq_or_imp, exists_eq_left,
    EREBranch.lang, mem_cons_atom, mem_nil_parts, d0, d1, r19, r02]
  constructor
  · rintro (⟨_, _, rfl, ⟨_, _, ⟨k, h1, h2, rfl⟩, rfl, rfl⟩, rfl⟩ | ⟨_, _, rfl, ⟨_, _, ⟨k, h1, h2, rfl⟩, rfl, rfl⟩, rfl⟩)
    · exact ⟨_, by omega, by omega, padded_two (i := 0) (by omega) (by omega)⟩
    · exact ⟨_, by omega, by omega, padded_two (i := 1) (by omega) (by omega)⟩
  · rintro ⟨m, h1, h2, rfl⟩
    by_cases h : m < 10
    · refine .inl ⟨_, _, rfl, ⟨_, _, ⟨m, by omega, by omega, rfl⟩, rfl, rfl⟩, ?_⟩
      rw [padded_two (by omega) (by omega)]
      congr 1; omega
    · refine .inr ⟨_, _, rfl, ⟨_, _, ⟨m - 10, by omega, by omega, rfl⟩, rfl, rfl⟩, ?_⟩
      rw [padded_two (by omega) (by omega)]
      congr 1; omega

theorem day_lang (w : List Char) : w ∈ dayERE.lang ↔ ∃ d, 1 ≤ d ∧ d ≤ 31 ∧ w = padded 2 d := by
  have d0 := normal_digit (d := '0') 0 rfl
  have d3 := normal_digit (d := '3') 3 rfl
  have r19 := range_digits (lo := '1') (hi := '9') 1 9 rfl rfl (by omega)
  have r09 : ∀ c, digitAtom.check c = true ↔ _ := range_digits (lo := '0') (hi := '9') 0 9 rfl rfl (by omega)
  have s12 : ∀ c, (Atom.matching [.single '1', .single '2']).check c = true ↔ c = dig 1 ∨ c = dig 2 := by
    intro c
    simp only [Atom.check, Term.check, List.any_cons, List.any_nil, Bool.or_false, Bool.or_eq_true, beq_iff_eq]
    exact or_congr eq_comm eq_comm
  have s01 : ∀ c, (Atom.matching [.single '0', .single '1']).check c = true ↔ c = dig 0 ∨ c = dig 1 := by
    intro c
    simp only [Atom.check, Term.check, List.any_cons, List.any_nil, Bool.or_false, Bool.or_eq_true, beq_iff_eq]
    exact or_congr eq_comm eq_comm
  simp only [dayERE, mem_alternatives, List.mem_cons, List.not_mem_nil, or_false, exists_eq_or_imp, exists_eq_left,
    EREBranch.lang, mem_cons_atom, mem_nil_parts, d0, d3, r19, r09, s12, s01]
  constructor
  · rintro (⟨_, _, rfl, ⟨_, _, ⟨k, h1, h2, rfl⟩, rfl, rfl⟩, rfl⟩ | ⟨_, _, rfl | rfl, ⟨_, _, ⟨k, h1, h2, rfl⟩, rfl, rfl⟩, rfl⟩ |
      ⟨_, _, rfl, ⟨_, _, rfl | rfl, rfl, rfl⟩, rfl⟩)
    · exact ⟨_, by omega, by omega, padded_two (i := 0) (by omega) (by omega)⟩
    · exact ⟨_, by omega, by omega, padded_two (i := 1) (by omega) (by omega)⟩
    · exact ⟨_, by omega, by omega, padded_two (i := 2) (by omega) (by omega)⟩
    · exact ⟨_, by omega, by omega, padded_two (i := 3) (j := 0) (by omega) (by omega)⟩
    · exact ⟨_, by omega, by omega, padded_two (i := 3) (j := 1) (by omega) (by omega)⟩
  · rintro ⟨m, h1, h2, rfl⟩
    by_cases h : m < 10
    · refine .inl ⟨_, _, rfl, ⟨_, _, ⟨m, by omega, by omega, rfl⟩, rfl, rfl⟩, ?_⟩
      rw [padded_two (by omega) (by omega)]
      congr 1; omega
    by_cases h : m < 20
    · refine .inr (.inl ⟨_, _, .inl rfl, ⟨_, _, ⟨m - 10, by omega, by omega, rfl⟩, rfl, rfl⟩, ?_⟩)
      rw [padded_two (by omega) (by omega)]
      congr 1; omega
    by_cases h : m < 30
    · refine .inr (.inl ⟨_, _, .inr rfl, ⟨_, _, ⟨m - 20, by omega, by omega, rfl⟩, rfl, rfl⟩, ?_⟩)
      rw [padded_two (by omega) (by omega)]
      congr 1; omega
    by_cases h : m = 30
    · refine .inr (.inr ⟨_, _, rfl, ⟨_, _, .inl rfl, rfl, rfl⟩, ?_⟩)
      rw [padded_two (by omega) (by omega)]
      congr 1
    · refine .inr (.inr ⟨_, _, rfl, ⟨_, _, .inr rfl, rfl, rfl⟩, ?_⟩)
      rw [padded_two (by omega) (by omega)]
      congr 1; omega

/-- Year and month. -/
def dateFields : List (ERE × Char) := [(yearERE, '-'), (monthERE, '-')]

/-- The pattern for dates. -/
def dateERE : ERE := recordERE dateFields dayERE

/-- The pattern of `tests/pure_regex.rs` lines 220-238. -/
def dateText : List Char := "^([0-9]{4})-(0[1-9]|1[0-2])-(0[1-9]|[12][0-9]|3[01])$".toList

theorem two_spelled {a b : Char} (h1 : a ∉ ['[', ']', '-', '^']) (h2 : b ∉ ['[', ']', '-', '^']) :
    SpellsExpr (.atom (.matching [.single a, .single b])) ['[', a, b, ']'] := by
  simp only [List.mem_cons, List.not_mem_nil, or_false, not_or] at h1 h2
  refine .atom (.matching (w := [a, b, ']']) (by simpa using h1.2.2.2) (.plain (by simpa using h1.2.1)
    (.single h1.2.1 (by simpa using h2.2.2.1) ?_ (.single h2.2.1 (by decide) ?_ .close))))
  · rintro ⟨k, t, ht⟩
    simp only [classText, List.cons_append, List.cons.injEq] at ht
    exact h1.1 ht.1.symm
  · rintro ⟨k, t, ht⟩
    simp only [classText, List.cons_append, List.cons.injEq] at ht
    exact h2.1 ht.1.symm

theorem parse_date : parseStr dateText = .ok dateERE := by
  have hy : SpellsERE yearERE "[0-9]{4}".toList := .one (.cons (w := "[0-9]{4}".toList) (v := [])
    (.quantified (w := "[0-9]".toList) (v := "{4}".toList) digit_spelled
      (.greedy (.multiple (w := ['4']) (.digits (by decide) (by decide) (by decide) (by decide))))) .nil)
  have hm : SpellsERE monthERE "0[1-9]|1[0-2]".toList :=
    .more (w := "0[1-9]".toList) (.cons (w := ['0']) (plain_spelled (by decide))
        (.cons (w := "[1-9]".toList) (v := []) (.single (range_spelled (by decide) (by decide) (by decide))) .nil))
      (.one (.cons (w := ['1']) (plain_spelled (by decide))
        (.cons (w := "[0-2]".toList) (v := []) (.single (range_spelled (by decide) (by decide) (by decide))) .nil)))
  have hd : SpellsERE dayERE "0[1-9]|[12][0-9]|3[01]".toList :=
    .more (w := "0[1-9]".toList) (.cons (w := ['0']) (plain_spelled (by decide))
        (.cons (w := "[1-9]".toList) (v := []) (.single (range_spelled (by decide) (by decide) (by decide))) .nil))
      (.more (w := "[12][0-9]".toList) (.cons (w := "[12]".toList) (.single (two_spelled (by decide) (by decide)))
          (.cons (w := "[0-9]".toList) (v := []) (.single digit_spelled) .nil))
        (.one (.cons (w := ['3']) (plain_spelled (by decide))
          (.cons (w := "[01]".toList) (v := []) (.single (two_spelled (by decide) (by decide))) .nil))))
  have hs : SpellsAtom (.normal '-') ['-'] := .plain (by decide)
  have h := parse_record hd (xs := dateFields) (vs := [("[0-9]{4}".toList, ['-']), ("0[1-9]|1[0-2]".toList, ['-'])])
    (.cons ⟨hy, hs⟩ (.cons ⟨hm, hs⟩ .nil))
  refine Eq.trans (congrArg parseStr ?_) h
  decide +kernel

theorem date_simple : ∀ x ∈ dateFields, Simple x.1 := by
  intro x hx
  simp only [dateFields, List.mem_cons, List.not_mem_nil, or_false] at hx
  rcases hx with rfl | rfl <;> exact ⟨by decide, by decide, by decide⟩

theorem day_simple : Simple dayERE := ⟨by decide, by decide, by decide⟩

theorem padded_apart : ∀ (k n : Nat), '-' ∉ padded k n
  | 0, _ => by simp [padded]
  | k + 1, n => by
    have h : ∀ i < 10, '-' ≠ Nat.digitChar i := by decide
    have := h (n % 10) (by omega)
    simp [padded, padded_apart k, this]

theorem date_apart : Apart dateFields := by
  intro x hx w hw
  simp only [dateFields, List.mem_cons, List.not_mem_nil, or_false] at hx
  rcases hx with rfl | rfl
  · obtain ⟨y, _, rfl⟩ := (year_lang w).mp hw
    exact padded_apart _ _
  · obtain ⟨y, _, _, rfl⟩ := (month_lang w).mp hw
    exact padded_apart _ _

theorem each_date {ws : List (List Char)} : Each (recordLangs dateFields dayERE) ws ↔
    ∃ y m d, y < 10000 ∧ (1 ≤ m ∧ m ≤ 12) ∧ (1 ≤ d ∧ d ≤ 31) ∧ ws = [padded 4 y, padded 2 m, padded 2 d] := by
  constructor
  · intro h
    match ws, h with
    | [w1, w2, w3], ⟨h1, h2, h3, _⟩ =>
      obtain ⟨y, hy, rfl⟩ := (year_lang _).mp h1
      obtain ⟨m, hm, hm', rfl⟩ := (month_lang _).mp h2
      obtain ⟨d, hd, hd', rfl⟩ := (day_lang _).mp h3
      exact ⟨y, m, d, hy, ⟨hm, hm'⟩, ⟨hd, hd'⟩, rfl⟩
    | _ :: _ :: _ :: _ :: _, h => simp [dateFields, recordLangs, Each] at h
    | [], h => simp [dateFields, recordLangs, Each] at h
    | [_], h => simp [dateFields, recordLangs, Each] at h
    | [_, _], h => simp [dateFields, recordLangs, Each] at h
  · rintro ⟨y, m, d, hy, hm, hd, rfl⟩
    exact ⟨(year_lang _).mpr ⟨y, hy, rfl⟩, (month_lang _).mpr ⟨m, hm.1, hm.2, rfl⟩, (day_lang _).mpr ⟨d, hd.1, hd.2, rfl⟩, trivial⟩

theorem cut_date {y m d : Nat} : cutAt (seps dateFields) (isoDate y m d) = some [padded 4 y, padded 2 m, padded 2 d] := by
  show cutAt ['-', '-'] (isoDate y m d) = _
  rw [isoDate, cutAt_sep (padded_apart _ _), cutAt_sep (padded_apart _ _), cutAt]
  rfl

theorem padded_bytes : ∀ (k n : Nat), byteLen (padded k n) = k
  | 0, _ => rfl
  | k + 1, n => by
    have h : ∀ i < 10, charLen (Nat.digitChar i) = 1 := by decide
    have := h (n % 10) (by omega)
    rw [padded, byteLen_append, padded_bytes k]
    simp [byteLen, this]

/-- **C87 (dates).** The pattern of the test compiles. `test` accepts exactly the texts `yyyy-mm-dd` with a month from 1 to 12 and
a day from 1 to 31, and `exec` reports year, month and day. -/
theorem C87_date (U : Utf8Seqs) {cr : List String} (hcr : "ere" ∈ cr) :
    ∃ E, compileRegex U.seqs dateText = .ok (some E) ∧ E.compiles cr = true ∧
      (∀ y m d, y < 10000 → 1 ≤ m ∧ m ≤ 12 → 1 ≤ d ∧ d ≤ 31 → E.test (isoDate y m d) = .ok true ∧
        E.exec (isoDate y m d) = .ok (some [some (0, 10), some (0, 4), some (5, 7), some (8, 10)])) ∧
      ∀ text, (∀ y m d, y < 10000 → 1 ≤ m ∧ m ≤ 12 → 1 ≤ d ∧ d ≤ 31 → text ≠ isoDate y m d) →
        E.test text = .ok false ∧ E.exec text = .ok none := by
  obtain ⟨E, h, hc⟩ := C87_compiles U date_simple day_simple date_apart (by simp [dateFields])
    ⟨_, each_date.mpr ⟨0, 1, 1, by omega, by omega, by omega, rfl⟩⟩ (by decide) parse_date hcr
  have key := C87_records U date_simple day_simple date_apart (by decide) parse_date h hc
  refine ⟨E, h, hc, fun y m d hy hm hd => ?_, fun text hn => ?_⟩
  · have hcut := cut_date (y := y) (m := m) (d := d)
    rcases key (isoDate y m d) with ⟨_, _, k⟩ | ⟨ws, k1, _, k3, k4⟩
    · exact absurd ⟨_, hcut, each_date.mpr ⟨y, m, d, hy, hm, hd, rfl⟩⟩ k
    · rw [hcut] at k1
      cases k1
      refine ⟨k3, k4.trans (congrArg (fun r => Except.ok (some r)) ?_)⟩
      have hd : charLen '-' = 1 := by decide
      simp only [recordAnswer, isoDate, dateFields, seps, List.map_cons, List.map_nil, stretches, byteLen_append, byteLen_cons,
        padded_bytes, hd]
  · rcases key text with ⟨k1, k2, _⟩ | ⟨ws, k1, k2, _⟩
    · exact ⟨k1, k2⟩
    · exfalso
      obtain ⟨y, m, d, hy, hm, hd, rfl⟩ := each_date.mp k2
      obtain ⟨w, vs, r, e1, e2, rfl, _⟩ := cutAt_some k1
      cases e1
      obtain ⟨w, vs, r, e1, e3, rfl, _⟩ := cutAt_some e2
      cases e1
      simp only [List.map_nil, cutAt, Option.some.injEq, List.cons.injEq, and_true] at e3
      subst e3
      exact hn y m d hy hm hd rfl

example : isoDate 2000 1 1 = "2000-01-01".toList ∧ isoDate 26 11 18 = "0026-11-18".toList := by decide

/-- The separator must not occur in the field before it: with `^(.*)-(b*)$` cutting at the first `-` would reject `a-b-b`, which
matches; the theorem does not apply, because the strings of `.*` may contain a `-`. -/
example : cutAt ['-'] "a-b-b".toList = some ["a".toList, "b-b".toList] ∧
    (recordERE [(.mk [.mk [.quantified (.atom .dot) ⟨.star, false⟩]], '-')]
      (.mk [.mk [.quantified (.atom (.normal 'b')) ⟨.star, false⟩]])).first "a-b-b".toList =
      some [⟨1, 0, 3⟩, ⟨2, 4, 5⟩, ⟨0, 0, 5⟩] := by decide +kernel

end Ere.Props
