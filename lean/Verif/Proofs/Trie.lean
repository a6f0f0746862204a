import Verif.Proofs.Utf8
import Verif.Proofs.Search

/-! The prefix tree of `nfa_symbol`. -/

namespace Ere

/-! ### Sequences -/

theorem matchesSeq_append {s w : List U8Atom} {bs} :
    MatchesSeq (s ++ w) bs ↔ ∃ b1 b2, bs = b1 ++ b2 ∧ MatchesSeq s b1 ∧ MatchesSeq w b2 := by
  induction s generalizing bs with
  | nil =>
    constructor
    · intro h; exact ⟨[], bs, rfl, trivial, h⟩
    · rintro ⟨b1, b2, rfl, h1, h2⟩
      cases b1 with
      | nil => exact h2
      | cons => exact absurd h1 (by simp [MatchesSeq])
  | cons a s ih =>
    cases bs with
    | nil =>
      constructor
      · intro h; exact absurd h (by simp [MatchesSeq])
      · rintro ⟨b1, b2, h, h1, h2⟩
        have := (List.append_eq_nil_iff.mp h.symm).1
        subst this
        exact absurd h1 (by simp [MatchesSeq])
    | cons b bs =>
      constructor
      · intro h
        obtain ⟨b1, b2, rfl, h1, h2⟩ := ih.mp h.2
        exact ⟨b :: b1, b2, rfl, ⟨h.1, h1⟩, h2⟩
      · rintro ⟨b1, b2, h, h1, h2⟩
        cases b1 with
        | nil => exact absurd h1 (by simp [MatchesSeq])
        | cons c b1 =>
          injection h with h3 h4
          subst h3
          exact ⟨h1.1, ih.mpr ⟨b1, b2, h4, h1.2, h2⟩⟩

theorem matchesSeq_length {s : List U8Atom} {bs} (h : MatchesSeq s bs) : bs.length = s.length := by
  induction s generalizing bs with
  | nil => cases bs with
    | nil => rfl
    | cons => exact absurd h (by simp [MatchesSeq])
  | cons a s ih => cases bs with
    | nil => exact absurd h (by simp [MatchesSeq])
    | cons b bs => simp [ih h.2]

theorem matchesSeq_low {s : List U8Atom} (h : ∀ a ∈ s, a.lo ≤ a.hi) : MatchesSeq s (s.map (·.lo)) := by
  induction s with
  | nil => trivial
  | cons a s ih =>
    refine ⟨?_, ih (fun x hx => h x (by simp [hx]))⟩
    simp only [U8Atom.check, Bool.and_eq_true, decide_eq_true_eq]
    exact ⟨UInt8.le_refl _, h a (by simp)⟩

/-- The sequences of an atom match exactly the encodings of its characters. -/
theorem atomSeqs_exact (U : Utf8Seqs) (a : Atom) (bs) :
    (∃ s ∈ atomSeqs U.seqs a, MatchesSeq s bs) ↔
      ∃ c : Char, a.check c = true ∧ bs = String.utf8EncodeChar c := by
  unfold atomSeqs
  simp only [List.mem_flatMap]
  constructor
  · rintro ⟨s, ⟨r, hr, hs⟩, hm⟩
    obtain ⟨c, h1, h2, rfl⟩ := (U.exact_ r.lo r.hi bs).mp ⟨s, hs, hm⟩
    exact ⟨c, (a.toRanges_check c).mp ⟨r, hr, h1, h2⟩, rfl⟩
  · rintro ⟨c, h1, rfl⟩
    obtain ⟨r, hr, h2, h3⟩ := (a.toRanges_check c).mpr h1
    obtain ⟨s, hs, hm⟩ := (U.exact_ r.lo r.hi _).mpr ⟨c, h2, h3, rfl⟩
    exact ⟨s, ⟨r, hr, hs⟩, hm⟩

theorem atomSeqs_nonempty (U : Utf8Seqs) (a : Atom) : ∀ s ∈ atomSeqs U.seqs a, ∀ x ∈ s, x.lo ≤ x.hi := by
  intro s hs
  obtain ⟨r, hr, h⟩ := List.mem_flatMap.mp hs
  exact U.nonempty _ _ s h

/-- No sequence is a proper prefix of another one, because UTF-8 is prefix free. -/
theorem atomSeqs_prefixFree (U : Utf8Seqs) (a : Atom) {s w : List U8Atom}
    (h1 : s ∈ atomSeqs U.seqs a) (h2 : s ++ w ∈ atomSeqs U.seqs a) : w = [] := by
  have hm := matchesSeq_low (atomSeqs_nonempty U a _ h2)
  obtain ⟨b1, b2, hb, hm1, hm2⟩ := matchesSeq_append.mp hm
  obtain ⟨c, _, e1⟩ := (atomSeqs_exact U a _).mp ⟨_, h2, hm⟩
  obtain ⟨c', _, e2⟩ := (atomSeqs_exact U a _).mp ⟨_, h1, hm1⟩
  have : String.utf8EncodeChar c' ++ b2 = String.utf8EncodeChar c ++ [] := by
    rw [← e1, ← e2, hb, List.append_nil]
  obtain ⟨_, rfl⟩ := enc_inj_append this
  have := matchesSeq_length hm2
  exact List.length_eq_zero_iff.mp (by simpa using this.symm)

theorem atomSeqs_ne_nil (U : Utf8Seqs) (a : Atom) {s : List U8Atom} (h : s ∈ atomSeqs U.seqs a) :
    s ≠ [] := by
  rintro rfl
  obtain ⟨c, _, e⟩ := (atomSeqs_exact U a []).mp ⟨[], h, trivial⟩
  exact enc_ne_nil c e.symm

/-! ### The tree -/

/-- Accepting paths of the prefix tree. -/
inductive TAcc (T : Trie) : Nat → List U8Atom → Prop
  | last {q ts a} : T[q]? = some ts → (a, none) ∈ ts → TAcc T q [a]
  | cons {q ts a r w} : T[q]? = some ts → (a, some r) ∈ ts → TAcc T r w → TAcc T q (a :: w)

/-- Invariant of the prefix tree: `word q` is what has been read when in state `q`. -/
structure TrieInv (T : Trie) (S : List U8Atom → Prop) (word : Nat → List U8Atom) : Prop where
  pos : 0 < T.length
  root : word 0 = []
  edge : ∀ q ts, T[q]? = some ts → ∀ a r, (a, some r) ∈ ts → r < T.length ∧ word r = word q ++ [a]
  acc : ∀ q ts, T[q]? = some ts → ∀ a, (a, none) ∈ ts → S (word q ++ [a])
  live : ∀ q, q < T.length → q ≠ 0 → ∃ w, w ≠ [] ∧ S (word q ++ w)

theorem tacc_sound {T S word} (h : TrieInv T S word) {q w} (ha : TAcc T q w) : S (word q ++ w) := by
  induction ha with
  | last h1 h2 => exact h.acc _ _ h1 _ h2
  | cons h1 h2 _ ih =>
    rw [(h.edge _ _ h1 _ _ h2).2] at ih
    simpa using ih

/-- `T'` has at least the edges of `T`. -/
def TSub (T T' : Trie) : Prop :=
  ∀ (q : Nat) ts, T[q]? = some ts → ∃ ts', T'[q]? = some ts' ∧ ∀ x ∈ ts, x ∈ ts'

theorem tsub_refl (T : Trie) : TSub T T := fun _ ts h => ⟨ts, h, fun _ hx => hx⟩

theorem tsub_trans {A B C : Trie} (h1 : TSub A B) (h2 : TSub B C) : TSub A C := by
  intro q ts h
  obtain ⟨t1, h3, h4⟩ := h1 q ts h
  obtain ⟨t2, h5, h6⟩ := h2 q t1 h3
  exact ⟨t2, h5, fun x hx => h6 x (h4 x hx)⟩

theorem tacc_mono {A B : Trie} (h : TSub A B) {q w} (ha : TAcc A q w) : TAcc B q w := by
  induction ha with
  | last h1 h2 => obtain ⟨t, h3, h4⟩ := h _ _ h1; exact .last h3 (h4 _ h2)
  | cons h1 h2 _ ih => obtain ⟨t, h3, h4⟩ := h _ _ h1; exact .cons h3 (h4 _ h2) ih

theorem tsub_modify (T : Trie) (q : Nat) (x) : TSub T (T.modify q (fun ts => ts ++ [x])) := by
  intro p ts h
  rw [List.getElem?_modify, h]
  by_cases hq : q = p
  · exact ⟨ts ++ [x], by simp [hq], fun y hy => by simp [hy]⟩
  · exact ⟨ts, by simp [hq], fun y hy => hy⟩

theorem tsub_append (T : Trie) (x) : TSub T (T ++ [x]) := by
  intro p ts h
  have := (List.getElem?_eq_some_iff.mp h).1
  exact ⟨ts, by rw [List.getElem?_append_left this]; exact h, fun _ hy => hy⟩

theorem get_modify_cases {T : Trie} {q p : Nat} {x} {ts}
    (h : (T.modify q (fun ts => ts ++ [x]))[p]? = some ts) :
    (∃ ts0, T[p]? = some ts0 ∧ (ts = ts0 ∨ (p = q ∧ ts = ts0 ++ [x]))) := by
  rw [List.getElem?_modify] at h
  cases hp : T[p]? with
  | none => rw [hp] at h; simp at h
  | some ts0 =>
    rw [hp] at h
    by_cases hq : q = p
    · simp [hq] at h; exact ⟨ts0, rfl, Or.inr ⟨hq.symm, h.symm⟩⟩
    · simp [hq] at h; exact ⟨ts0, rfl, Or.inl h.symm⟩

theorem trieInsert_spec {S : List U8Atom → Prop} (hpf : ∀ s w, S s → S (s ++ w) → w = []) :
    ∀ (as : List U8Atom) (T : Trie) (word : Nat → List U8Atom) (q : Nat), as ≠ [] →
      TrieInv T S word → q < T.length → S (word q ++ as) →
      ∃ T' word', trieInsert T (some q) as = .ok T' ∧ TrieInv T' S word' ∧ TSub T T' ∧
        TAcc T' q as := by
  intro as
  induction as with
  | nil => intro T word q h; exact absurd rfl h
  | cons a as ih =>
    intro T word q _ hinv hq hS
    rw [trieInsert.eq_def]
    obtain ⟨ts, hts⟩ : ∃ ts, T[q]? = some ts := ⟨T[q], List.getElem?_eq_getElem hq⟩
    simp only [hts]
    cases hf : ts.find? (fun t => t.1 == a) with
    | some t =>
      obtain ⟨b, x⟩ := t
      have hb : b = a := by simpa using List.find?_some hf
      subst hb
      have hmem := List.mem_of_find?_eq_some hf
      simp only
      cases x with
      | none =>
        have h1 := hinv.acc q ts hts b hmem
        have : as = [] := hpf _ _ h1 (by simpa using hS)
        subst this
        exact ⟨T, word, by simp [trieInsert], hinv, tsub_refl T, .last hts hmem⟩
      | some r =>
        have hr := hinv.edge q ts hts b r hmem
        have hr0 : r ≠ 0 := by
          rintro rfl
          have h1 := hr.2
          rw [hinv.root] at h1
          simp at h1
        have hne : as ≠ [] := by
          rintro rfl
          obtain ⟨w, hw, hw2⟩ := hinv.live r hr.1 hr0
          rw [hr.2] at hw2
          exact hw (hpf _ _ hS hw2)
        obtain ⟨T', word', h1, h2, h3, h4⟩ := ih T word r hne hinv hr.1 (by rw [hr.2]; simpa using hS)
        obtain ⟨ts', h5, h6⟩ := h3 q ts hts
        exact ⟨T', word', h1, h2, h3, .cons h5 (h6 _ hmem) h4⟩
    | none =>
      simp only
      cases as with
      | nil =>
        refine ⟨_, word, rfl, ?_, tsub_modify T q _, ?_⟩
        · refine ⟨by simpa using hinv.pos, hinv.root, ?_, ?_, ?_⟩
          · intro p tp hp b r hbr
            obtain ⟨ts0, h1, h2⟩ := get_modify_cases hp
            rw [List.length_modify]
            rcases h2 with rfl | ⟨rfl, rfl⟩
            · exact hinv.edge _ _ h1 _ _ hbr
            · rcases List.mem_append.mp hbr with hbr | hbr
              · exact hinv.edge _ _ h1 _ _ hbr
              · simp at hbr
          · intro p tp hp b hb
            obtain ⟨ts0, h1, h2⟩ := get_modify_cases hp
            rcases h2 with rfl | ⟨rfl, rfl⟩
            · exact hinv.acc _ _ h1 _ hb
            · rcases List.mem_append.mp hb with hb | hb
              · exact hinv.acc _ _ h1 _ hb
              · simp at hb; subst hb; exact hS
          · intro p hp
            rw [List.length_modify] at hp
            exact hinv.live p hp
        · refine .last (ts := ts ++ [(a, none)]) ?_ (by simp)
          rw [List.getElem?_modify, hts]; simp
      | cons a2 as =>
        obtain ⟨word2, hw2⟩ : ∃ word2 : Nat → List U8Atom,
            word2 = fun p => if p = T.length then word q ++ [a] else word p := ⟨_, rfl⟩
        have hold : ∀ p, p < T.length → word2 p = word p := by
          intro p hp; rw [hw2]; simp only; rw [if_neg (by omega)]
        have hnew : word2 T.length = word q ++ [a] := by rw [hw2]; simp
        obtain ⟨T2, hT2⟩ : ∃ T2 : Trie, T2 = (T ++ [[]]).modify q
            (fun ts => ts ++ [(a, some T.length)]) := ⟨_, rfl⟩
        have hlen : T2.length = T.length + 1 := by rw [hT2]; simp
        have hget : ∀ p tp, T2[p]? = some tp → (∃ ts0, T[p]? = some ts0 ∧
            (tp = ts0 ∨ (p = q ∧ tp = ts0 ++ [(a, some T.length)]))) ∨ (p = T.length ∧ tp = []) := by
          intro p tp hp
          rw [hT2] at hp
          obtain ⟨ts0, h1, h2⟩ := get_modify_cases hp
          by_cases hpl : p < T.length
          · rw [List.getElem?_append_left hpl] at h1
            exact Or.inl ⟨ts0, h1, h2⟩
          · rw [List.getElem?_append_right (by omega)] at h1
            have hp0 : p - T.length = 0 := by
              by_contra hc
              rw [List.getElem?_singleton, if_neg hc] at h1
              simp at h1
            rw [hp0] at h1
            simp at h1
            subst h1
            have : p = T.length := by omega
            subst this
            rcases h2 with rfl | ⟨h2, _⟩
            · exact Or.inr ⟨rfl, rfl⟩
            · omega
        have hinv2 : TrieInv T2 S word2 := by
          refine ⟨by omega, by rw [hold 0 hinv.pos]; exact hinv.root, ?_, ?_, ?_⟩
          · intro p tp hp b r hbr
            rw [hlen]
            rcases hget p tp hp with ⟨ts0, h1, h2⟩ | ⟨_, rfl⟩
            · have hpl := (List.getElem?_eq_some_iff.mp h1).1
              have hold' : (b, some r) ∈ ts0 → r < T.length + 1 ∧ word2 r = word2 p ++ [b] := by
                intro hm
                have := hinv.edge _ _ h1 _ _ hm
                rw [hold p hpl, hold r this.1]
                exact ⟨by omega, this.2⟩
              rcases h2 with rfl | ⟨rfl, rfl⟩
              · exact hold' hbr
              · rcases List.mem_append.mp hbr with hbr | hbr
                · exact hold' hbr
                · simp at hbr
                  obtain ⟨rfl, rfl⟩ := hbr
                  rw [hnew, hold p hpl]
                  exact ⟨by omega, rfl⟩
            · simp at hbr
          · intro p tp hp b hb
            rcases hget p tp hp with ⟨ts0, h1, h2⟩ | ⟨_, rfl⟩
            · have hpl := (List.getElem?_eq_some_iff.mp h1).1
              rw [hold p hpl]
              rcases h2 with rfl | ⟨rfl, rfl⟩
              · exact hinv.acc _ _ h1 _ hb
              · rcases List.mem_append.mp hb with hb | hb
                · exact hinv.acc _ _ h1 _ hb
                · simp at hb
            · simp at hb
          · intro p hp hp0
            rw [hlen] at hp
            by_cases hpl : p < T.length
            · rw [hold p hpl]; exact hinv.live p hpl hp0
            · have : p = T.length := by omega
              subst this
              rw [hnew]
              exact ⟨a2 :: as, by simp, by simpa using hS⟩
        obtain ⟨T', word', h1, h2, h3, h4⟩ := ih T2 word2 T.length (by simp) hinv2 (by omega)
          (by rw [hnew]; simpa using hS)
        have hsub : TSub T T2 := by
          rw [hT2]; exact tsub_trans (tsub_append T _) (tsub_modify _ _ _)
        refine ⟨T', word', by rw [← hT2]; exact h1, h2, tsub_trans hsub h3, ?_⟩
        have hq2 : T2[q]? = some (ts ++ [(a, some T.length)]) := by
          rw [hT2, List.getElem?_modify, List.getElem?_append_left hq, hts]; simp
        obtain ⟨ts', h5, h6⟩ := h3 q _ hq2
        exact .cons h5 (h6 _ (by simp)) h4

theorem trieAll_spec {S : List U8Atom → Prop} (hpf : ∀ s w, S s → S (s ++ w) → w = [])
    (hne : ¬ S []) : ∀ (ss : List (List U8Atom)) (T : Trie) (word : Nat → List U8Atom),
      (∀ s ∈ ss, S s) → TrieInv T S word →
      ∃ T' word', trieAll T ss = .ok T' ∧ TrieInv T' S word' ∧ TSub T T' ∧ ∀ s ∈ ss, TAcc T' 0 s := by
  intro ss
  induction ss with
  | nil => intro T word _ h; exact ⟨T, word, rfl, h, tsub_refl T, by simp⟩
  | cons s ss ih =>
    intro T word hss hinv
    have hs := hss s (by simp)
    obtain ⟨T1, word1, h1, h2, h3, h4⟩ := trieInsert_spec hpf s T word 0
      (by rintro rfl; exact hne hs) hinv hinv.pos (by rw [hinv.root]; exact hs)
    obtain ⟨T2, word2, h5, h6, h7, h8⟩ := ih T1 word1 (fun x hx => hss x (by simp [hx])) h2
    refine ⟨T2, word2, by rw [trieAll, h1]; exact h5, h6, tsub_trans h3 h7, ?_⟩
    intro x hx
    rcases List.mem_cons.mp hx with rfl | hx
    · exact tacc_mono h7 h4
    · exact h8 x hx

/-! ### `nfa_symbol` -/

/-- Paths of symbol edges. -/
inductive SPath {σ : Type} (E : Nat → Lab σ → Nat → Prop) : Nat → List σ → Nat → Prop
  | nil {q} : SPath E q [] q
  | cons {q a r w x} : E q (.sym a) r → SPath E r w x → SPath E q (a :: w) x

theorem spath_mono {σ : Type} {E E' : Nat → Lab σ → Nat → Prop}
    (h : ∀ q a r, E q (.sym a) r → E' q (.sym a) r) {q w x} (hp : SPath E q w x) : SPath E' q w x := by
  induction hp with
  | nil => exact .nil
  | cons h1 _ ih => exact .cons (h _ _ _ h1) ih

/-- What `nfa_symbol` produces for a set of sequences. -/
structure SymSpec (P : NFA U8Atom) (S : List U8Atom → Prop) (word : Nat → List U8Atom) : Prop where
  len : 2 ≤ P.length
  root : word 0 = []
  noeps : ∀ s ∈ P, s.epsilons = []
  edge : ∀ q b r, P.HasEdge q (.sym b) r → q < P.length - 1 ∧
    ((r = P.length - 1 ∧ S (word q ++ [b])) ∨ (r < P.length - 1 ∧ r ≠ 0 ∧ word r = word q ++ [b]))
  complete : ∀ s, S s → SPath P.HasEdge 0 s (P.length - 1)
  live : ∀ q, q < P.length - 1 → q ≠ 0 → ∃ w, w ≠ [] ∧ S (word q ++ w)

theorem u8Symbol_spec (U : Utf8Seqs) (a : Atom) : ∃ P word, u8Symbol U.seqs a = .ok P ∧
    SymSpec P (· ∈ atomSeqs U.seqs a) word := by
  have hinv0 : TrieInv [[]] (· ∈ atomSeqs U.seqs a) (fun _ => []) := by
    refine ⟨by simp, rfl, ?_, ?_, ?_⟩
    · intro q ts h; cases q <;> simp at h; subst h; simp
    · intro q ts h; cases q <;> simp at h; subst h; simp
    · intro q hq h0; simp at hq; exact absurd hq h0
  obtain ⟨T, word, h1, h2, _, h4⟩ := trieAll_spec (S := (· ∈ atomSeqs U.seqs a))
    (fun s w h1 h2 => atomSeqs_prefixFree U a h1 h2) (fun h => atomSeqs_ne_nil U a h rfl)
    (atomSeqs U.seqs a) [[]] (fun _ => []) (fun _ h => h) hinv0
  have hpos := h2.pos
  obtain ⟨P, hP⟩ : ∃ P : NFA U8Atom, P = T.map (fun ts => ⟨ts.map (fun t => ⟨t.2.getD T.length, t.1⟩), []⟩)
    ++ [State.new] := ⟨_, rfl⟩
  have hlen : P.length = T.length + 1 := by rw [hP]; simp
  have hedge : ∀ q b r, P.HasEdge q (.sym b) r ↔ ∃ ts x, T[q]? = some ts ∧ (b, x) ∈ ts ∧
      r = x.getD T.length := by
    intro q b r
    rw [hasEdge_iff]
    constructor
    · rintro ⟨s, hs, hb⟩
      rw [hP] at hs
      by_cases hq : q < T.length
      · rw [List.getElem?_append_left (by simpa using hq), List.getElem?_map] at hs
        obtain ⟨ts, hts, rfl⟩ := Option.map_eq_some_iff.mp hs
        obtain ⟨t, ht, he⟩ := List.mem_map.mp (show (⟨r, b⟩ : Trans U8Atom) ∈ _ from hb)
        obtain ⟨e1, e2⟩ := Trans.mk.inj he
        exact ⟨ts, t.2, hts, by rw [← e2]; exact ht, e1.symm⟩
      · rw [List.getElem?_append_right (by simpa using hq)] at hs
        have hs' : s = State.new := by
          rw [List.getElem?_singleton] at hs
          split at hs <;> simp at hs
          exact hs.symm
        subst hs'
        exact absurd hb has_new
    · rintro ⟨ts, x, hts, hb, rfl⟩
      have hq := (List.getElem?_eq_some_iff.mp hts).1
      refine ⟨⟨ts.map (fun t => ⟨t.2.getD T.length, t.1⟩), []⟩, ?_, ?_⟩
      · rw [hP, List.getElem?_append_left (by simpa using hq), List.getElem?_map, hts]; rfl
      · exact List.mem_map.mpr ⟨(b, x), hb, rfl⟩
  refine ⟨P, word, by rw [u8Symbol, h1, hP], ⟨by omega, h2.root, ?_, ?_, ?_, fun q h h0 => h2.live q (by omega) h0⟩⟩
  · intro s hs
    rw [hP] at hs
    rcases List.mem_append.mp hs with hs | hs
    · obtain ⟨ts, _, rfl⟩ := List.mem_map.mp hs; rfl
    · rw [List.mem_singleton.mp hs]; rfl
  · intro q b r he
    obtain ⟨ts, x, h5, h6, rfl⟩ := (hedge q b r).mp he
    have hq := (List.getElem?_eq_some_iff.mp h5).1
    refine ⟨by omega, ?_⟩
    cases x with
    | none => left; exact ⟨by simp [hlen], h2.acc _ _ h5 _ h6⟩
    | some r =>
      right
      have := h2.edge _ _ h5 _ _ h6
      refine ⟨by simp only [Option.getD_some]; omega, ?_, this.2⟩
      rintro h0
      simp only [Option.getD_some] at h0
      subst h0
      have h3 := this.2
      rw [h2.root] at h3
      simp at h3
  · intro s hs
    have := h4 s hs
    rw [hlen, Nat.add_sub_cancel]
    clear h4 hs
    have key : ∀ {q w}, TAcc T q w → SPath P.HasEdge q w T.length := by
      intro q w h
      induction h with
      | last h5 h6 => exact .cons ((hedge _ _ _).mpr ⟨_, none, h5, h6, rfl⟩) .nil
      | cons h5 h6 _ ih => exact .cons ((hedge _ _ _).mpr ⟨_, some _, h5, h6, rfl⟩) ih
    exact key this

end Ere
