import Verif.Model.Pick

/-!
# The tests of the repository, run on the model

No theorems here. The tests in `/repo/tests/pure_regex.rs`, the unit tests of the modules and the example of
README.md say what the code does on some patterns and texts. `#guard` evaluates the model on the same patterns
and texts and stops the build if the answers differ. This checks that the model was read off the code rightly; it
also covers which patterns the macros for particular engines accept.
-/

namespace Ere.Tests

/-- The macros. The last two are `WorkingNFA::test` and `U8NFA::test`. -/
inductive Macro
  | dfa | flatChar | flatU8 | onePass | fixed | regex | nfaChar | nfaU8
deriving DecidableEq

/-- What a macro made: the number of groups, `test` and, if there is one, `exec`. -/
structure Made where
  groups : Nat
  test : List Char → Except Err Bool
  exec : Option (List Char → Except Err (Option (List (Option (Nat × Nat)))))

/-- The crates that a user of the crate can name. -/
def crates : List String := ["ere", "ere_core"]

/-- Run a macro; `none` for a compile error, a panic is an error. -/
def run (m : Macro) (pattern : String) : Except Err (Option Made) :=
  match parseStr pattern.toList with
  | .error _ => .ok none
  | .ok e => match m with
    | .dfa => do return (← compileDfaU8 utf8Sequences e).map fun E =>
        ⟨E.tdfa.numCaptureGroups, fun t => .ok (E.dfa.test (encode t)), some fun t => E.tdfa.exec t (encode t)⟩
    | .flatChar => do
      let F ← compileFlatChar e
      return if F.symbolsCompile crates then some ⟨F.groups, fun t => .ok (F.test t), some fun t => F.exec t t⟩ else none
    | .flatU8 => do
      let F ← compileFlatU8 utf8Sequences e
      return some ⟨F.groups, fun t => .ok (F.test (encode t)), some fun t => F.exec t (encode t)⟩
    | .onePass => do return (← compileOnePassU8 utf8Sequences e).bind fun P =>
        if P.compiles then some ⟨P.groups, fun t => P.test (encode t), some fun t => P.exec t (encode t)⟩ else none
    | .fixed => do return (← compileFixed utf8Sequences e).bind fun E =>
        if E.compiles crates then some ⟨E.groups, E.test, some E.exec⟩ else none
    | .regex => do return (← compileRegex utf8Sequences pattern.toList).bind fun E =>
        if E.compiles crates then some ⟨E.groups, E.test, some E.exec⟩ else none
    | .nfaChar => do
      let N ← charNFA e
      return some ⟨N.numCaptureGroups, fun t => N.test t, none⟩
    | .nfaU8 => do
      let N ← byteNFA utf8Sequences e
      return some ⟨N.numCaptureGroups, fun t => N.test (encode t), none⟩

/-- The part of a text from one byte position to another. -/
def slice (from_ upto : Nat) : Nat → List Char → List Char
  | _, [] => []
  | off, c :: cs =>
    let rest := slice from_ upto (off + c.utf8Size) cs
    if from_ ≤ off ∧ off < upto then c :: rest else rest

/-- `assert_match!`, pure_regex.rs 9-18 (for automata without `exec` only the answer of `test`). -/
def assertMatch (M : Made) (text : String) (want : List (Option String)) : Bool :=
  (M.test text.toList).toOption == some true &&
    match M.exec with
    | none => true
    | some f => match f text.toList with
      | .ok (some r) => r.map (·.map fun p => String.ofList (slice p.1 p.2 0 text.toList)) == want
      | _ => false

/-- `assert_nomatch!`, pure_regex.rs 19-32. -/
def assertNomatch (M : Made) (text : String) : Bool :=
  (M.test text.toList).toOption == some false &&
    match M.exec with
    | none => true
    | some f => (f text.toList).toOption == some none

/-- All macros accept the pattern, make the same number of groups and pass the tests. -/
def passes (ms : List Macro) (pattern : String) (groups : Nat) (yes : List (String × List (Option String)))
    (no : List String) : Bool :=
  ms.all fun m => match run m pattern with
    | .ok (some M) => M.groups == groups && yes.all (fun p => assertMatch M p.1 p.2) && no.all (assertNomatch M)
    | _ => false

/-- The macro refuses the pattern. -/
def refused (m : Macro) (pattern : String) : Bool :=
  match run m pattern with
  | .ok none => true
  | _ => false

/-! `phone_number`, pure_regex.rs -/

#guard passes [.dfa, .flatChar, .flatU8, .onePass] "^(\\+1 )?[0-9]{3}-[0-9]{3}-[0-9]{4}$" 2
  [("012-345-6789", [some "012-345-6789", none]), ("+1 555-555-5555", [some "+1 555-555-5555", some "+1 "]),
    ("123-555-9876", [some "123-555-9876", none])]
  ["abcd", "0123456789", "012--345-6789", "(555) 555-5555", "1 555-555-5555"]

/-! `byte_value_exec`, pure_regex.rs; the one-pass macro must refuse the pattern -/

#guard passes [.dfa, .flatChar, .flatU8] "^(25[0-5]|2[0-4][0-9]|1[0-9]{2}|[1-9][0-9]|[0-9])$" 2
  ((List.range 256).map fun i => (toString i, [some (toString i), some (toString i)]))
  ["abcd", "00", "256"]
#guard refused .onePass "^(25[0-5]|2[0-4][0-9]|1[0-9]{2}|[1-9][0-9]|[0-9])$"

/-! `ipv4_exec`, pure_regex.rs (with other numbers); the one-pass macro must refuse the pattern -/

#guard passes [.dfa, .flatChar, .flatU8] "^(25[0-5]|2[0-4][0-9]|1[0-9]{2}|[1-9][0-9]|[0-9])\\.(25[0-5]|2[0-4][0-9]|1[0-9]{2}|[1-9][0-9]|[0-9])\\.(25[0-5]|2[0-4][0-9]|1[0-9]{2}|[1-9][0-9]|[0-9])\\.(25[0-5]|2[0-4][0-9]|1[0-9]{2}|[1-9][0-9]|[0-9])$" 5
  [("68.32.130.60", [some "68.32.130.60", some "68", some "32", some "130", some "60"]),
    ("253.230.241.194", [some "253.230.241.194", some "253", some "230", some "241", some "194"]),
    ("107.48.249.14", [some "107.48.249.14", some "107", some "48", some "249", some "14"]),
    ("199.221.1.228", [some "199.221.1.228", some "199", some "221", some "1", some "228"]),
    ("136.117.52.162", [some "136.117.52.162", some "136", some "117", some "52", some "162"]),
    ("15.11.13.4", [some "15.11.13.4", some "15", some "11", some "13", some "4"]),
    ("195.110.216.14", [some "195.110.216.14", some "195", some "110", some "216", some "14"]),
    ("113.224.253.119", [some "113.224.253.119", some "113", some "224", some "253", some "119"]),
    ("176.118.112.235", [some "176.118.112.235", some "176", some "118", some "112", some "235"]),
    ("148.11.213.51", [some "148.11.213.51", some "148", some "11", some "213", some "51"]),
    ("95.151.61.170", [some "95.151.61.170", some "95", some "151", some "61", some "170"]),
    ("216.97.155.145", [some "216.97.155.145", some "216", some "97", some "155", some "145"])]
  ["abcd", "1.1.1", "...", "1::", "256.0.0.0"]
#guard refused .onePass "^(25[0-5]|2[0-4][0-9]|1[0-9]{2}|[1-9][0-9]|[0-9])\\.(25[0-5]|2[0-4][0-9]|1[0-9]{2}|[1-9][0-9]|[0-9])\\.(25[0-5]|2[0-4][0-9]|1[0-9]{2}|[1-9][0-9]|[0-9])\\.(25[0-5]|2[0-4][0-9]|1[0-9]{2}|[1-9][0-9]|[0-9])$"

/-! `needle`, pure_regex.rs; the one-pass macro must refuse the pattern -/

#guard passes [.dfa, .flatChar, .flatU8] "nee+dle" 1
  [("needle", [some "needle"]), ("haystackhaysneedletackhaystack", [some "needle"]),
    ("haystackneeeeeeeeedlehaystack", [some "neeeeeeeeedle"]), ("needneedlele", [some "needle"])]
  ["haystackhaystack", "0123456789", "nothinghere", "npuowahpeoifjap098uq09p3ior", "nedle"]
#guard refused .onePass "nee+dle"

/-! `dot`, pure_regex.rs (some of the characters) -/

#guard passes [.dfa, .flatChar, .flatU8, .onePass] "^.$" 1
  [("\x01", [some "\x01"]), ("\n", [some "\n"]), ("A", [some "A"]), ("\x7f", [some "\x7f"]),
    ("\u0080", [some "\u0080"]), ("\u07ff", [some "\u07ff"]), ("\u0800", [some "\u0800"]),
    ("\ud7ff", [some "\ud7ff"]), ("\ue000", [some "\ue000"]), ("\uffff", [some "\uffff"]),
    ((String.singleton (Char.ofNat 0x10000)), [some (String.singleton (Char.ofNat 0x10000))]),
    ((String.singleton (Char.ofNat 0x10ffff)), [some (String.singleton (Char.ofNat 0x10ffff))]),
    ("\u1234", [some "\u1234"])]
  ["\x00", "12", "\u00e5\u00a9", ""]

/-! `duplicate_paths`, pure_regex.rs -/

#guard passes [.dfa, .flatChar, .flatU8, .onePass, .fixed] "^(ab|bc|ab|bc)(xy|yz|yz|xy)$" 3
  [("abxy", [some "abxy", some "ab", some "xy"]), ("abyz", [some "abyz", some "ab", some "yz"]),
    ("bcxy", [some "bcxy", some "bc", some "xy"]), ("bcyz", [some "bcyz", some "bc", some "yz"])]
  ["acxy", "abxz", "bc", "yz"]

/-! `hex_color`, pure_regex.rs -/

#guard passes [.dfa, .flatChar, .flatU8, .onePass, .fixed] "^#([0-9a-fA-F]{2})([0-9a-fA-F]{2})([0-9a-fA-F]{2})$" 4
  [("#abcdef", [some "#abcdef", some "ab", some "cd", some "ef"]),
    ("#FfFfFf", [some "#FfFfFf", some "Ff", some "Ff", some "Ff"]),
    ("#000000", [some "#000000", some "00", some "00", some "00"])]
  ["#qaaaaa", "#12345", "#1234567"]

/-! `iso8601_date_extended`, pure_regex.rs -/

#guard passes [.dfa, .flatChar, .flatU8, .onePass, .fixed] "^([0-9]{4})-(0[1-9]|1[0-2])-(0[1-9]|[12][0-9]|3[01])$" 4
  [("2000-01-01", [some "2000-01-01", some "2000", some "01", some "01"])]
  ["a", "1999-1-1", "2000-00-00"]

/-! `iso8601_time_extended`, pure_regex.rs -/

#guard passes [.dfa, .flatChar, .flatU8, .onePass] "^T?([01][0-9]|2[0-3]):([0-5][0-9]):([0-5][0-9]([.,][0-9]+)?)$" 5
  [("T00:00:00", [some "T00:00:00", some "00", some "00", some "00", none]),
    ("23:59:59.9999", [some "23:59:59.9999", some "23", some "59", some "59.9999", some ".9999"])]
  ["24:00:00", "212345", "00:60:00", "00:00:60"]

/-! `line_abc`, pure_regex.rs -/

#guard passes [.dfa, .flatChar, .flatU8] "(^|\n)abc(\n|$)" 3
  [("abc", [some "abc", some "", some ""]), ("\nabc", [some "\nabc", some "\n", some ""]),
    ("abc\n", [some "abc\n", some "", some "\n"]), ("\n\nabc\n", [some "\nabc\n", some "\n", some "\n"])]
  ["ac", "\n\n", "\nab", "bc\n"]

/-! `us_state_abbreviations`, pure_regex.rs -/

/-- The pattern of the test. -/
def statesText : String :=
  "AL|AK|AZ|AR|CA|CO|CT|DE|FL|GA|HI|ID|IL|IN|IA|KS|KY|LA|ME|MD|MA|MI|MN|MS|MO|MT|NE|NV|NH|NJ|NM|NY|NC|ND|OH|\
  OK|OR|PA|RI|SC|SD|TN|TX|UT|VT|VA|WA|WV|WI|WY"

/-- All pairs of letters. -/
def letterPairs : List String :=
  (List.range 26).flatMap fun i => (List.range 26).map fun j =>
    String.ofList [Char.ofNat (65 + i), Char.ofNat (65 + j)]

#guard passes [.dfa, .flatChar, .flatU8] statesText 1
  ((letterPairs.filter (statesText.splitOn "|").contains).map fun s => (s, [some s]))
  (letterPairs.filter fun s => !(statesText.splitOn "|").contains s)
#guard passes [.dfa, .flatChar, .flatU8] statesText 1
  [("ALABAMA", [some "AL"]), ("REAL", [some "AL"]), ("TACO", [some "CO"]), ("TXT", [some "TX"]), ("MEME", [some "ME"]),
    ("ORCA", [some "OR"]), ("WYVERN", [some "WY"]), ("WHINE", [some "HI"])]
  ["Alabama", "ct"]

/-! `find_quoted`, pure_regex.rs -/

#guard passes [.dfa, .flatChar, .flatU8] "\"((\\\\\"|[^\"])*)\"" 3
  [("\"\"", [some "\"\"", some "", none]), ("\"a\\\"\"", [some "\"a\\\"\"", some "a\\\"", some "\\\""]),
    ("\"a\\\"c\"", [some "\"a\\\"c\"", some "a\\\"c", some "c"]),
    ("before\"a\\\"c\"", [some "\"a\\\"c\"", some "a\\\"c", some "c"]),
    ("\"a\\\" e\"after", [some "\"a\\\" e\"", some "a\\\" e", some "e"])]
  ["unquoted", "\"unended", "unstarted\"", "'single quotes'"]

/-! `find_discord_emoji`, pure_regex.rs -/

#guard passes [.dfa, .flatChar, .flatU8] ":[[:alnum:]_]{2,}:" 1
  [(":crab:", [some ":crab:"]), ("this crate is fire :fire:", [some ":fire:"]),
    (":regional_indicator_e::regional_indicator_r::regional_indicator_e:", [some ":regional_indicator_e:"]),
    ("writing :pencil2:", [some ":pencil2:"])]
  ["without emojis", "unended :emoji", "emoji is unstarted:", "turbofish::<>", "single char :a:",
    ":with-dash:", "this is a noun: apple\nthis is a verb: jump"]

/-! `html_comment`, pure_regex.rs -/

#guard passes [.dfa, .flatChar, .flatU8] "<!--.*?-->" 1
  [("<!---->", [some "<!---->"]), ("<!-- comment -->", [some "<!-- comment -->"]),
    ("<div><!-- comment --></div>", [some "<!-- comment -->"]),
    ("<div><!-- comment -->--></div>", [some "<!-- comment -->"]),
    ("<div><!--<!-- comment -->--></div>", [some "<!--<!-- comment -->"]),
    ("<!--<!-- comment -->-->", [some "<!--<!-- comment -->"])]
  []

/-! `html_link_extract`, pure_regex.rs -/

#guard passes [.flatChar, .flatU8] "<a([[:space:]]*[^[:space:][:cntrl:]\"'>/=]+([[:space:]]*=[[:space:]]*([^[:space:]\"'=<>`]+|\"[^\"]*\"|'[^']*'))?)*?[[:space:]]*href[[:space:]]*=[[:space:]]*([^[:space:]\"'=<>`]+|\"[^\"]*\"|'[^']*')([[:space:]]*[^[:space:][:cntrl:]\"'>/=]+([[:space:]]*=[[:space:]]*([^[:space:]\"'=<>`]+|\"[^\"]*\"|'[^']*'))?)*?[[:space:]]*>[^<]*</a[[:space:]]*>" 8
  [("<a href='my_url_here'></a>", [some "<a href='my_url_here'></a>", none, none, none, some "'my_url_here'", none, none, none]),
    ("<div><a class= 'my_class' href='my_url_here'></a></div>", [some "<a class= 'my_class' href='my_url_here'></a>", some " class= 'my_class'", some "= 'my_class'", some "'my_class'", some "'my_url_here'", none, none, none]),
    ("<a\n                class= 'my_class'\n                href='my_url_here'\n                disabled\n            >This is the label</a >", [some "<a\n                class= 'my_class'\n                href='my_url_here'\n                disabled\n            >This is the label</a >", some "\n                class= 'my_class'", some "= 'my_class'", some "'my_class'", some "'my_url_here'", some "\n                disabled", none, none])]
  []

/-! `http_request`, pure_regex.rs -/

#guard passes [.dfa, .flatChar, .flatU8] ("^([A-Z]+) ([^[:space:]]+) (HTTP/[0-9].[0-9])\r\n(([!#$%&'*+-.^_`|~[:alnum:]]+:[ \t]*[^\r\n]*?[ \t]*\r\n)*)\r\n([\x00-" ++ String.singleton (Char.ofNat 0x10ffff) ++ "]*)$") 7
  [("GET /index.html HTTP/1.1\r\nheader-one: header-text\r\nheader-two: header-text-two\r\n\r\nHTTP body here", [some "GET /index.html HTTP/1.1\r\nheader-one: header-text\r\nheader-two: header-text-two\r\n\r\nHTTP body here", some "GET", some "/index.html", some "HTTP/1.1", some "header-one: header-text\r\nheader-two: header-text-two\r\n", some "header-two: header-text-two\r\n", some "HTTP body here"]),
    ("GET / HTTP/1.1\r\n\r\n", [some "GET / HTTP/1.1\r\n\r\n", some "GET", some "/", some "HTTP/1.1", some "", none, some ""])]
  ["obviously not http", "", "GET / HTTP/1.1\n\nwithout carriage return",
    "first GET / HTTP/1.1\r\n\r\npreceded", "OPTION /invalid url HTTP/1.1\r\n\r\nbody"]

/-! `uri_with_authority`, pure_regex.rs -/

#guard passes [.dfa, .flatChar, .flatU8, .onePass] "^([[:alpha:]][[:alnum:]-+.]+)://([^?#]+)([?][^#]*)?(#[^#]*)?$" 5
  [("https://example.com", [some "https://example.com", some "https", some "example.com", none, none]),
    ("https://subdomain.example.com/category/page2", [some "https://subdomain.example.com/category/page2", some "https", some "subdomain.example.com/category/page2", none, none]),
    ("https://subdomain.example.com/category/page2?query=1234", [some "https://subdomain.example.com/category/page2?query=1234", some "https", some "subdomain.example.com/category/page2", some "?query=1234", none]),
    ("https://subdomain.example.com/category/page2?query=1234#fragment", [some "https://subdomain.example.com/category/page2?query=1234#fragment", some "https", some "subdomain.example.com/category/page2", some "?query=1234", some "#fragment"])]
  []

/-! `greedy_anchor_priority_alternation`, pure_regex.rs -/

#guard passes [.dfa, .flatChar, .flatU8] "(^a$)|(^a)|(a$)|(a)" 5
  [("a", [some "a", some "a", none, none, none]), ("ax", [some "a", none, some "a", none, none]),
    ("xa", [some "a", none, none, some "a", none]), ("xax", [some "a", none, none, none, some "a"])]
  []

/-! `greedy`, pure_regex.rs -/

#guard passes [.regex] "^(a|ab)b?cd$" 2
  [("abcd", [some "abcd", some "a"])]
  []

#guard passes [.regex] "^(ab|a)b?cd$" 2
  [("abcd", [some "abcd", some "ab"])]
  []

#guard passes [.regex] "^(a*)(a*)$" 3
  [("aaaaaaaa", [some "aaaaaaaa", some "aaaaaaaa", some ""])]
  []

#guard passes [.regex] "a*" 1
  [("aaaaaaaa", [some "aaaaaaaa"]), ("aabaaaaaa", [some "aa"])]
  []

#guard passes [.regex] "a*?" 1
  [("aaaaaaaa", [some ""])]
  []

#guard passes [.regex] "a*?|a*" 1
  [("aaaaaaaa", [some ""]), ("aaaabaaaa", [some ""])]
  []

#guard passes [.regex] "ba*?b|a*" 1
  [("abaaabaaaa", [some "a"])]
  []

#guard passes [.regex] "a??" 1
  [("abaaabaaaa", [some ""])]
  []

#guard passes [.regex] "()^a|()c" 3
  [("a", [some "a", some "", none]), ("c", [some "c", none, some ""]), ("bc", [some "c", none, some ""])]
  []

/-! README.md (with the spelling `1F2E3D` corrected to `1F2e3D`) -/

#guard passes [.regex] "^(\\+1 )?[0-9]{3}-[0-9]{3}-[0-9]{4}$" 2
  [("012-345-6789", [some "012-345-6789", none]), ("987-654-3210", [some "987-654-3210", none]),
    ("+1 555-555-5555", [some "+1 555-555-5555", some "+1 "])]
  ["abcd", "0123456789", "(555) 555-5555"]

#guard passes [.regex] "^#?([[:xdigit:]]{2})([[:xdigit:]]{2})([[:xdigit:]]{2})([[:xdigit:]]{2})?$" 5
  [("#000000", [some "#000000", some "00", some "00", some "00", none]),
    ("1F2e3D", [some "1F2e3D", some "1F", some "2e", some "3D", none]),
    ("ffffff80", [some "ffffff80", some "ff", some "ff", some "ff", some "80"])]
  ["green", "%FFFFFF", "#2"]

/-! the tests of working_nfa.rs and working_u8_nfa.rs -/

#guard passes [.nfaChar, .nfaU8] "^.*(.*)*$" 2
  [("", []), ("asdf", []), ("1234567", []), ("0", [])]
  ["\x00"]

#guard passes [.nfaChar, .nfaU8] "^a|b*^c|d^|n" 1
  [("a", []), ("c", []), ("cq", []), ("wwwnwww", [])]
  ["", "qb", "qc", "b", "bc", "bbbbbbc", "d"]

#guard passes [.nfaChar, .nfaU8] "a$|b$c*|$d|n" 1
  [("a", []), ("b", []), ("qb", []), ("wwwnwww", [])]
  ["", "bq", "qc", "c", "bc", "bcccccc", "d"]

#guard passes [.nfaChar, .nfaU8] "^[[:digit:].]$" 1
  [("0", []), ("1", []), ("9", []), (".", [])]
  ["", "a", "11", "1.", ".2", "09", "d"]

#guard passes [.nfaChar, .nfaU8] "^(\\+1 )?[0-9]{3}-[0-9]{3}-[0-9]{4}$" 2
  [("012-345-6789", []), ("+1 555-555-5555", [])]
  ["abcd", "1 555-555-5555"]

/-! `reconstruction`, parse_tree.rs 857-888 -/

#guard ["asdf", "as+df123$", "asd?f*123", "^asdf123.*", "a[|]", "[^]a-z1-4A-X-]asdf", "cd[X-]er",
  "my word is [[:alnum:]_]", "my word is [[:lower:][:digit:]_]", "a|b", "a|b|c", "a(a(b|c)|d)|(g|f)b",
  "(a|b)|(c|d){3}", "a[y-z]{1,3}", "a{3,}", "a(efg){1,}"].all fun s =>
    (parseStr s.toList).toOption.map (fun e => String.ofList e.display) == some s

/-! `parse_quantifiers`, parse_tree.rs 890-926 -/

#guard [("", none), ("+asdf", some ("asdf", QType.plus)), ("*", some ("", .star)), ("e?", none), ("{", none), ("{}", none),
  ("{1}", some ("", .multiple 1)), ("{9}ee", some ("ee", .multiple 9)), ("{10,}ee", some ("ee", .range 10 none)),
  ("{0,11}ef", some ("ef", .range 0 (some 11))), ("{0,e11}ef", none), ("{0;11}ef", none)].all fun p =>
    takeQuantifier p.1.toList == p.2.map fun q => (q.1.toList, ⟨q.2, false⟩)

/-! `parse_atom_simple`, `parse_atom_brackets`, `parse_atom_err`, parse_tree.rs 928-1023 -/

/-- `Atom::take`, with the rest as a text; `none` for an error. -/
def take (s : String) : Option (String × Atom) :=
  (takeAtom s.toList).toOption.map fun p => (String.ofList p.1, p.2)

#guard [("a", "", Atom.normal 'a'), ("abcd", "bcd", .normal 'a'), ("\\\\", "", .normal '\\'),
  ("\\[asdf\\]", "asdf\\]", .normal '['), ("\\.", "", .normal '.'), (" ", "", .normal ' '), (".", "", .dot),
  ("..", ".", .dot),
  ("[ab]", "", .matching [.single 'a', .single 'b']), ("[]ab]", "", .matching [.single ']', .single 'a', .single 'b']),
  ("[]ab-]", "", .matching [.single ']', .single 'a', .single 'b', .single '-']),
  ("[]a-y]", "", .matching [.single ']', .range 'a' 'y']), ("[]+--]", "", .matching [.single ']', .range '+' '-']),
  ("[^]a-y]", "", .nonmatching [.single ']', .range 'a' 'y']),
  ("[^]+--]", "", .nonmatching [.single ']', .range '+' '-'])].all fun p => take p.1 == some p.2
#guard [("\\", ParseError.invalidAtom '\\'), (")", .invalidAtom ')'), ("\\a", .invalidEscapedChar 'a')].all fun p =>
  match takeAtom p.1.toList with
  | .error e => e == p.2
  | .ok _ => false

/-! `atom_to_ranges_*`, parse_tree.rs 1025-1073 -/

#guard [("a", [('a', 'a')]), ("[a-z]", [('a', 'z')]), ("[0-45-9]", [('0', '9')]), ("[5-90-4]", [('0', '9')]),
  ("[0-46-89]", [('0', '4'), ('6', '9')]), ("[96-80-4]", [('0', '4'), ('6', '9')]),
  ("[^b-y]", [('\x00', 'a'), ('z', Char.ofNat 0x10ffff)]), ("[^1-45-8]", [('\x00', '0'), ('9', Char.ofNat 0x10ffff)]),
  ("[^5-81-4]", [('\x00', '0'), ('9', Char.ofNat 0x10ffff)]),
  ("[^1-486-7]", [('\x00', '0'), ('5', '5'), ('9', Char.ofNat 0x10ffff)]),
  ("[^86-71-4]", [('\x00', '0'), ('5', '5'), ('9', Char.ofNat 0x10ffff)])].all fun p =>
    (take p.1).map (fun q => q.2.toRanges.map fun r => (r.lo, r.hi)) == some p.2

/-! `atom_eq`, parse_tree.rs 1075-1105 -/

#guard [("[a-z]", "[a-kl-z]"), ("[a-z]", "[l-za-k]"), ("a", "[a]"),
  ("[1-8]", "[^\x00-09-" ++ String.singleton (Char.ofNat 0x10ffff) ++ "]"), ("[[:upper:]]", "[A-Z]")].all fun p =>
    match take p.1, take p.2 with
    | some a, some b => Sym.beq a.2 b.2
    | _, _ => false
#guard match take "[a-z]", take "[A-Z]" with
  | some a, some b => !Sym.beq a.2 b.2
  | _, _ => false

end Ere.Tests
