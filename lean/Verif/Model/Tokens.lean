import Verif.Model.Engines

/-!
# Emitted source tokens, and `NFAStatic`

Sources: `ToTokens` of `CharClass`, `BracketCharClass` and `BracketExpressionTerm`
(`/repo/ere-core/src/parse_tree.rs` 349-355, 727-768, 813-828), of `EpsilonType` and
`EpsilonTransition` (`/repo/ere-core/src/working_nfa.rs` 15-33, 71-81) and
`/repo/ere-core/src/engines/nfa_static.rs`.

A token stream is an expression tree `Tok` whose leaves are paths and literals. The user's compiler is
modelled by resolving the paths against the public items of the crate (`lookup`) and evaluating the
expression at the expected type (`evalAtom`, …); `none` is a compile error. Simplified: the constants
`terms`, `transitions`, `epsilons` and `states` of the emitted blocks are written out where they are
used, and their declared types are not repeated.
-/

namespace Ere

/-- A path such as `::ere::parse_tree::CharClass::Dot`; `leading` is the leading `::`. -/
structure RPath where
  leading : Bool
  segs : List String
deriving DecidableEq, Repr

/-- Emitted expressions. -/
inductive Tok
  | path (p : RPath)
  | call (p : RPath) (args : List Tok)
  | chr (c : Char)
  | num (n : Nat)
  | slice (xs : List Tok)

/-! ## What is emitted -/

/-- `::ere::parse_tree::BracketCharClass::…`. -/
def clsPath (v : String) : RPath := ⟨true, ["ere", "parse_tree", "BracketCharClass", v]⟩

/-- `ToTokens for BracketCharClass`, parse_tree.rs 727-768. -/
def BracketCharClass.tok : BracketCharClass → Tok
  | alphanumeric => .path (clsPath "Alphanumeric")
  | control => .path (clsPath "Control")
  | lower => .path (clsPath "Lower")
  | space => .path (clsPath "Space")
  | alphabet => .path (clsPath "Alphabet")
  | digit => .path (clsPath "Digit")
  | print => .path (clsPath "Print")
  | upper => .path (clsPath "Upper")
  | blank => .path (clsPath "Blank")
  | graphic => .path (clsPath "Graph")
  | punctuation => .path (clsPath "Punctuation")
  | hexDigit => .path (clsPath "XDigit")

/-- `::ere::parse_tree::BracketExpressionTerm::…`. -/
def termPath (v : String) : RPath := ⟨true, ["ere", "parse_tree", "BracketExpressionTerm", v]⟩

/-- `ToTokens for BracketExpressionTerm`, parse_tree.rs 813-828. -/
def Term.tok : Term → Tok
  | .single c => .call (termPath "Single") [.chr c]
  | .range a z => .call (termPath "Range") [.chr a, .chr z]
  | .cls k => .call (termPath "CharClass") [k.tok]

/-- `::ere::nfa_static::AtomStatic::…`. -/
def atomPath (v : String) : RPath := ⟨true, ["ere", "nfa_static", "AtomStatic", v]⟩

/-- `AtomStatic::serialize_as_token_stream`, nfa_static.rs 34-56, with `ToTokens for CharClass`,
parse_tree.rs 349-355. -/
def Atom.tok : Atom → Tok
  | .normal c => .call (atomPath "NormalChar") [.chr c]
  | .dot => .call (atomPath "CharClass") [.path ⟨true, ["ere", "parse_tree", "CharClass", "Dot"]⟩]
  | .matching ts => .call (atomPath "MatchingList") [.slice (ts.map Term.tok)]
  | .nonmatching ts => .call (atomPath "NonmatchingList") [.slice (ts.map Term.tok)]

/-- `::ere::working_nfa::EpsilonType::…`. -/
def epsPath (v : String) : RPath := ⟨true, ["ere", "working_nfa", "EpsilonType", v]⟩

/-- `ToTokens for EpsilonType`, working_nfa.rs 15-33. -/
def EpsType.tok : EpsType → Tok
  | .none => .path (epsPath "None")
  | .startAnchor => .path (epsPath "StartAnchor")
  | .endAnchor => .path (epsPath "EndAnchor")
  | .startCapture g => .call (epsPath "StartCapture") [.num g]
  | .endCapture g => .call (epsPath "EndCapture") [.num g]

/-- `ToTokens for EpsilonTransition`, working_nfa.rs 71-81: the path has no leading `::ere`. -/
def Eps.tok (e : Eps) : Tok :=
  .call ⟨false, ["ere_core", "working_nfa", "EpsilonTransition", "__load"]⟩ [.num e.dst, e.special.tok]

/-- `NFATransitionStatic::serialize_as_token_stream`, nfa_static.rs 93-104. -/
def transTok (t : Trans Atom) : Tok :=
  .call ⟨true, ["ere", "nfa_static", "NFATransitionStatic", "__load"]⟩ [.num t.dst, t.symbol.tok]

/-- `NFAStateStatic::serialize_as_token_stream`, nfa_static.rs 127-144. -/
def stateTok (s : State Atom) : Tok :=
  .call ⟨true, ["ere", "nfa_static", "NFAStateStatic", "__load"]⟩
    [.slice (s.transitions.map transTok), .slice (s.epsilons.map Eps.tok)]

/-- `serialize_nfa_as_token_stream`, nfa_static.rs 226-238; the const argument of
`NFAStatic::<#capture_groups>` is written as a first argument. -/
def nfaTok (N : NFA Atom) : Tok :=
  .call ⟨true, ["ere", "nfa_static", "NFAStatic", "__load"]⟩
    [.num N.numCaptureGroups, .slice (N.map stateTok)]

/-! ## What the user's compiler makes of it -/

/-- `AtomStatic`, nfa_static.rs 15-24, with `CharClass::Dot` inlined. -/
inductive AtomStatic
  | normal (c : Char)
  | dot
  | matching (ts : List Term)
  | nonmatching (ts : List Term)
deriving DecidableEq, Repr, Inhabited

/-- `AtomStatic::check`, nfa_static.rs 26-33. -/
def AtomStatic.check : AtomStatic → Char → Bool
  | normal a, c => a == c
  | dot, c => c != '\x00'
  | matching ts, c => ts.any (fun t => t.check c)
  | nonmatching ts, c => ! ts.any (fun t => t.check c)

/-- The public items that the emitted paths can name. -/
inductive Item
  | cls (k : BracketCharClass)
  | dot
  | termSingle | termRange | termClass
  | atomNormal | atomClass | atomMatching | atomNonmatching
  | eps (e : EpsType)
  | epsStart | epsEnd
  | loadEps | loadTrans | loadState | loadNFA
deriving DecidableEq, Repr

/-- The declarations of the crate (paths below the crate root): `BracketCharClass` parse_tree.rs
626-651, `BracketExpressionTerm` 771-775, `CharClass` 331-334, `AtomStatic` nfa_static.rs 15-24,
`EpsilonType` working_nfa.rs 8-14 and the `__load` functions. -/
def itemTable : List (List String × Item) :=
  [(["parse_tree", "BracketCharClass", "Alphanumeric"], .cls .alphanumeric),
   (["parse_tree", "BracketCharClass", "Control"], .cls .control),
   (["parse_tree", "BracketCharClass", "Lower"], .cls .lower),
   (["parse_tree", "BracketCharClass", "Space"], .cls .space),
   (["parse_tree", "BracketCharClass", "Alphabet"], .cls .alphabet),
   (["parse_tree", "BracketCharClass", "Digit"], .cls .digit),
   (["parse_tree", "BracketCharClass", "Print"], .cls .print),
   (["parse_tree", "BracketCharClass", "Upper"], .cls .upper),
   (["parse_tree", "BracketCharClass", "Blank"], .cls .blank),
   (["parse_tree", "BracketCharClass", "Graphic"], .cls .graphic),
   (["parse_tree", "BracketCharClass", "Punctuation"], .cls .punctuation),
   (["parse_tree", "BracketCharClass", "HexDigit"], .cls .hexDigit),
   (["parse_tree", "CharClass", "Dot"], .dot),
   (["parse_tree", "BracketExpressionTerm", "Single"], .termSingle),
   (["parse_tree", "BracketExpressionTerm", "Range"], .termRange),
   (["parse_tree", "BracketExpressionTerm", "CharClass"], .termClass),
   (["nfa_static", "AtomStatic", "NormalChar"], .atomNormal),
   (["nfa_static", "AtomStatic", "CharClass"], .atomClass),
   (["nfa_static", "AtomStatic", "MatchingList"], .atomMatching),
   (["nfa_static", "AtomStatic", "NonmatchingList"], .atomNonmatching),
   (["working_nfa", "EpsilonType", "None"], .eps .none),
   (["working_nfa", "EpsilonType", "StartAnchor"], .eps .startAnchor),
   (["working_nfa", "EpsilonType", "EndAnchor"], .eps .endAnchor),
   (["working_nfa", "EpsilonType", "StartCapture"], .epsStart),
   (["working_nfa", "EpsilonType", "EndCapture"], .epsEnd),
   (["working_nfa", "EpsilonTransition", "__load"], .loadEps),
   (["nfa_static", "NFATransitionStatic", "__load"], .loadTrans),
   (["nfa_static", "NFAStateStatic", "__load"], .loadState),
   (["nfa_static", "NFAStatic", "__load"], .loadNFA)]

/-- Name resolution in a crate that depends on the crates `cr`: the first segment is the name of a
dependency. `ere` re-exports everything of `ere_core` (`/repo/src/lib.rs` 3), so both have the same items. -/
def resolve (cr : List String) (p : RPath) : Option Item :=
  match p.segs with
  | [] => none
  | c :: r => if cr.contains c && (c == "ere" || c == "ere_core") then itemTable.lookup r else none

/-- An expression of type `BracketCharClass`. -/
def evalClass (cr : List String) : Tok → Option BracketCharClass
  | .path p => match resolve cr p with
    | some (.cls k) => some k
    | _ => none
  | _ => none

/-- An expression of type `BracketExpressionTerm`. -/
def evalTerm (cr : List String) : Tok → Option Term
  | .call p [.chr c] => if resolve cr p = some .termSingle then some (.single c) else none
  | .call p [.chr a, .chr z] => if resolve cr p = some .termRange then some (.range a z) else none
  | .call p [t] => if resolve cr p = some .termClass then (evalClass cr t).map .cls else none
  | _ => none

/-- An expression of type `CharClass`. -/
def evalDot (cr : List String) : Tok → Bool
  | .path p => resolve cr p = some .dot
  | _ => false

/-- An expression of type `AtomStatic`. -/
def evalAtom (cr : List String) : Tok → Option AtomStatic
  | .call p [.chr c] => if resolve cr p = some .atomNormal then some (.normal c) else none
  | .call p [.slice xs] =>
    match xs.mapM (evalTerm cr) with
    | none => none
    | some ts =>
      if resolve cr p = some .atomMatching then some (.matching ts)
      else if resolve cr p = some .atomNonmatching then some (.nonmatching ts)
      else none
  | .call p [t] => if resolve cr p = some .atomClass ∧ evalDot cr t then some .dot else none
  | _ => none

/-- An expression of type `EpsilonType`. -/
def evalEpsType (cr : List String) : Tok → Option EpsType
  | .path p => match resolve cr p with
    | some (.eps e) => some e
    | _ => none
  | .call p [.num g] => match resolve cr p with
    | some .epsStart => some (.startCapture g)
    | some .epsEnd => some (.endCapture g)
    | _ => none
  | _ => none

/-- An expression of type `EpsilonTransition`. -/
def evalEps (cr : List String) : Tok → Option Eps
  | .call p [.num n, t] => if resolve cr p = some .loadEps then (evalEpsType cr t).map (Eps.mk n) else none
  | _ => none

/-- An expression of type `NFATransitionStatic`. -/
def evalTrans (cr : List String) : Tok → Option (Trans AtomStatic)
  | .call p [.num n, t] => if resolve cr p = some .loadTrans then (evalAtom cr t).map (Trans.mk n) else none
  | _ => none

/-- An expression of type `NFAStateStatic`. -/
def evalState (cr : List String) : Tok → Option (State AtomStatic)
  | .call p [.slice ts, .slice es] =>
    if resolve cr p = some .loadState then
      match ts.mapM (evalTrans cr), es.mapM (evalEps cr) with
      | some ts, some es => some ⟨ts, es⟩
      | _, _ => none
    else none
  | _ => none

/-- `NFAStatic<N>`, nfa_static.rs 147-152. -/
structure NFAStatic where
  groups : Nat
  states : NFA AtomStatic
deriving DecidableEq, Repr

/-- An expression of type `NFAStatic<_>`. -/
def evalNFA (cr : List String) : Tok → Option NFAStatic
  | .call p [.num k, .slice ss] =>
    if resolve cr p = some .loadNFA then (ss.mapM (evalState cr)).map (NFAStatic.mk k) else none
  | _ => none

instance : Sym AtomStatic Char where
  check := AtomStatic.check
  len := charLen
  beq a b := decide (a = b)
  beq_sound := by intro a b h c; rw [decide_eq_true_eq] at h; rw [h]
  beq_refl := by simp
  len_pos := by intro c; unfold charLen; split <;> (try split) <;> (try split) <;> omega

/-- `NFAStatic::test`, nfa_static.rs 155-203: the text is the same as in `WorkingNFA::test`
(working_nfa.rs 935-985), which is `NFA.test`. -/
def NFAStatic.test (S : NFAStatic) (text : List Char) : Except Err Bool := NFA.test S.states text

/-- Whether the source emitted by `serialize_flat_lockstep_nfa_token_stream` for the symbols compiles in a
crate with the dependencies `cr`: for every state with code, every transition has
`let symbol = #symbol;` (flat_lockstep_nfa.rs 106-122, 130-160, 338-355). -/
def Flat.symbolsCompile (cr : List String) (F : Flat Atom) : Bool :=
  F.nfa.zipIdx.all (fun p => F.nfa.excludedFlat p.2 ||
    p.1.transitions.all (fun t => (evalAtom cr t.symbol.tok).isSome))

end Ere
