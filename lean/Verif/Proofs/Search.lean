import Verif.Proofs.Finish
import Verif.Proofs.TreeSem

/-! From accepting runs of the compiled automaton to matches of the pattern. -/

namespace Ere

theorem unitLen_char (cs : List Char) : unitLen Atom cs = byteLen cs := rfl

/-- The run over the whole text, with skips around, is a run of the tree on a stretch. -/
theorem skips_iff (t : Tree) (text : List Char) (caps : Caps) :
    (∃ d1 d2, Skip Atom ⟨0, text, []⟩ d1 ∧ t.Run d1 d2 ∧ Skip Atom d2 ⟨byteLen text, [], caps⟩) ↔
    ∃ pre mid post, text = pre ++ mid ++ post ∧
      t.Run ⟨byteLen pre, mid ++ post, []⟩ ⟨byteLen (pre ++ mid), post, caps⟩ := by
  constructor
  · rintro ⟨⟨o1, r1, c1⟩, ⟨o2, r2, c2⟩, ⟨pre, e1, e2, e3⟩, hr, ⟨post, e4, e5, e6⟩⟩
    simp only [List.append_nil] at e1 e2 e3 e4 e5 e6
    subst e1 e3 e4 e6
    obtain ⟨mid, e7, e8⟩ := Tree.run_shape hr
    simp only at e7 e8
    subst e7
    refine ⟨pre, mid, r2, by simp, ?_⟩
    rw [Nat.zero_add, unitLen_char] at e2
    subst e2
    rw [byteLen_append, ← e8]; exact hr
  · rintro ⟨pre, mid, post, rfl, hr⟩
    refine ⟨⟨byteLen pre, mid ++ post, []⟩, ⟨byteLen (pre ++ mid), post, caps⟩,
      ⟨pre, by simp, ?_, rfl⟩, hr, ⟨post, by simp, ?_, rfl⟩⟩
    · simp [unitLen_char]
    · simp [unitLen_char, byteLen_append, Nat.add_assoc]

/-- The compiled automaton, seen from the outside. -/
theorem workingNew_spec (t : Tree) (ht : t.StarOk) :
    ∃ M, workingNew t = .ok M ∧ M.WF ∧ M.NoMix ∧ M.Sink ∧ M.Trim ∧ M.Ranked ∧
      (∀ text caps, M.Acc ⟨0, text, []⟩ ⟨byteLen text, [], caps⟩ ↔
        ∃ pre mid post, text = pre ++ mid ++ post ∧
          t.Run ⟨byteLen pre, mid ++ post, []⟩ ⟨byteLen (pre ++ mid), post, caps⟩) := by
  obtain ⟨M, h1, h2, h3, h4, h5, h6, h7⟩ := newLoopOpt_spec t ht true true
  refine ⟨M, h1, h2, h3, h4, h5, h6, fun text caps => ?_⟩
  rw [h7, ← skips_iff]
  simp

/-- Forgetting captures: the automaton accepts iff the pattern matches somewhere. -/
theorem exists_run_iff (e : ERE) (text : List Char) :
    (∃ caps, ∃ pre mid post, text = pre ++ mid ++ post ∧
      (Tree.fromERE e).1.Run ⟨byteLen pre, mid ++ post, []⟩ ⟨byteLen (pre ++ mid), post, caps⟩) ↔
    e.MatchesIn text := by
  constructor
  · rintro ⟨caps, pre, mid, post, h1, h2⟩
    exact ⟨pre, mid, post, h1, (Tree.mt_fromERE _ _ _ _).mp ⟨[], caps, h2⟩⟩
  · rintro ⟨pre, mid, post, h1, h2⟩
    obtain ⟨caps, h3⟩ := Tree.matchesText_caps ((Tree.mt_fromERE _ _ _ _).mpr h2) []
    exact ⟨caps, pre, mid, post, h1, h3⟩

/-! ### The lazy marker -/

mutual
/-- Remove every lazy marker of a pattern. -/
def ERE.greedy : ERE → ERE
  | .mk bs => .mk (greedyBranches bs)
/-- … of all branches. -/
def greedyBranches : List EREBranch → List EREBranch
  | [] => []
  | b :: bs => b.greedy :: greedyBranches bs
/-- … of a branch. -/
def EREBranch.greedy : EREBranch → EREBranch
  | .mk ps => .mk (greedyParts ps)
/-- … of all parts. -/
def greedyParts : List EREPart → List EREPart
  | [] => []
  | p :: ps => p.greedy :: greedyParts ps
/-- … of a part. -/
def EREPart.greedy : EREPart → EREPart
  | .single e => .single e.greedy
  | .quantified e q => .quantified e.greedy ⟨q.q, false⟩
  | .start => .start
  | .end_ => .end_
/-- … of an expression. -/
def EREExpr.greedy : EREExpr → EREExpr
  | .atom a => .atom a
  | .sub e => .sub e.greedy
end

theorem times_congr {e e' : EREExpr} (h : ∀ pre mid post, MatchesExpr e pre mid post ↔
    MatchesExpr e' pre mid post) (n) : ∀ pre mid post, MatchesTimes e n pre mid post ↔
    MatchesTimes e' n pre mid post := by
  induction n with
  | zero => intro pre mid post; constructor <;> (intro h; cases h; exact .zero)
  | succ n ih =>
    intro pre mid post
    constructor
    · intro h1; cases h1 with | succ a b => exact .succ ((h _ _ _).mp a) ((ih _ _ _).mp b)
    · intro h1; cases h1 with | succ a b => exact .succ ((h _ _ _).mpr a) ((ih _ _ _).mpr b)

theorem parts_congr {ps ps' : List EREPart} (h : List.Forall₂ (fun p p' => ∀ pre mid post,
    MatchesPart p pre mid post ↔ MatchesPart p' pre mid post) ps ps') : ∀ pre mid post,
    MatchesBranch (.mk ps) pre mid post ↔ MatchesBranch (.mk ps') pre mid post := by
  induction h with
  | nil => intros; exact Iff.rfl
  | cons h1 _ ih =>
    intro pre mid post
    constructor
    · intro h; cases h with | cons a b => exact .cons ((h1 _ _ _).mp a) ((ih _ _ _).mp b)
    · intro h; cases h with | cons a b => exact .cons ((h1 _ _ _).mpr a) ((ih _ _ _).mpr b)

mutual
theorem greedy_ere : (e : ERE) → ∀ pre mid post,
    MatchesERE e.greedy pre mid post ↔ MatchesERE e pre mid post
  | .mk bs => by
    intro pre mid post
    rw [ERE.greedy]
    have := greedy_branches bs pre mid post
    constructor
    · intro h
      cases h with
      | intro h1 h2 => obtain ⟨b, h3, h4⟩ := this.mp ⟨_, h1, h2⟩; exact .intro h3 h4
    · intro h
      cases h with
      | intro h1 h2 => obtain ⟨b, h3, h4⟩ := this.mpr ⟨_, h1, h2⟩; exact .intro h3 h4
theorem greedy_branches : (bs : List EREBranch) → ∀ pre mid post,
    (∃ b ∈ greedyBranches bs, MatchesBranch b pre mid post) ↔ ∃ b ∈ bs, MatchesBranch b pre mid post
  | [] => by intro pre mid post; rw [greedyBranches]
  | b :: bs => by
    intro pre mid post
    rw [greedyBranches]
    simp only [List.mem_cons, exists_eq_or_imp]
    rw [greedy_branch b, greedy_branches bs]
theorem greedy_branch : (b : EREBranch) → ∀ pre mid post,
    MatchesBranch b.greedy pre mid post ↔ MatchesBranch b pre mid post
  | .mk ps => by
    intro pre mid post
    rw [EREBranch.greedy]
    exact parts_congr (greedy_parts ps) _ _ _
theorem greedy_parts : (ps : List EREPart) → List.Forall₂ (fun p p' => ∀ pre mid post,
    MatchesPart p pre mid post ↔ MatchesPart p' pre mid post) (greedyParts ps) ps
  | [] => by rw [greedyParts]; exact .nil
  | p :: ps => by rw [greedyParts]; exact .cons (greedy_part p) (greedy_parts ps)
theorem greedy_part : (p : EREPart) → ∀ pre mid post,
    MatchesPart p.greedy pre mid post ↔ MatchesPart p pre mid post
  | .single e => by
    intro pre mid post
    rw [EREPart.greedy]
    constructor
    · intro h; cases h with | single h => exact .single ((greedy_expr e _ _ _).mp h)
    · intro h; cases h with | single h => exact .single ((greedy_expr e _ _ _).mpr h)
  | .quantified e q => by
    intro pre mid post
    rw [EREPart.greedy]
    constructor
    · intro h
      cases h with
      | quantified h1 h2 h3 => exact .quantified h1 h2 ((times_congr (greedy_expr e) _ _ _ _).mp h3)
    · intro h
      cases h with
      | quantified h1 h2 h3 => exact .quantified h1 h2 ((times_congr (greedy_expr e) _ _ _ _).mpr h3)
  | .start => by intro pre mid post; rw [EREPart.greedy]
  | .end_ => by intro pre mid post; rw [EREPart.greedy]
theorem greedy_expr : (e : EREExpr) → ∀ pre mid post,
    MatchesExpr e.greedy pre mid post ↔ MatchesExpr e pre mid post
  | .atom a => by intro pre mid post; rw [EREExpr.greedy]
  | .sub e => by
    intro pre mid post
    rw [EREExpr.greedy]
    constructor
    · intro h; cases h with | sub h => exact .sub ((greedy_ere e _ _ _).mp h)
    · intro h; cases h with | sub h => exact .sub ((greedy_ere e _ _ _).mpr h)
end

end Ere
