import Verif.Spec.Semantics
import Verif.Model.Atom

/-!
# Specification: taking apart a URI

As one would by hand: a letter and further characters up to a colon, `//`, what is in front of the first `?` or `#`, the query if
there is a `?`, the fragment if there is a `#`, and nothing behind.
-/

namespace Ere

/-- A character of a scheme. -/
def schemeChar (c : Char) : Bool := BracketCharClass.alphanumeric.checkAscii c || c == '-' || c == '+' || c == '.'

/-- Skips `://`. -/
def skipSlashes : List Char → Option (List Char)
  | ':' :: '/' :: '/' :: r => some r
  | _ => none

/-- The query or the fragment: if the rest begins with `m`, this character and what follows up to the next `#`. -/
def tailPiece (m : Char) : List Char → List Char
  | [] => []
  | c :: r => if c = m then c :: r.takeWhile (· != '#') else []

/-- The scheme, the authority with the path, the query and the fragment (with `?` and `#`; empty if there is none). -/
def uriPieces : List Char → Option (List Char × List Char × List Char × List Char)
  | [] => none
  | c :: r =>
    let run := r.takeWhile schemeChar
    if BracketCharClass.alphabet.checkAscii c && !run.isEmpty then
      (skipSlashes (r.drop run.length)).bind fun r =>
        let path := r.takeWhile fun c => c != '?' && c != '#'
        let r := r.drop path.length
        let query := tailPiece '?' r
        let r := r.drop query.length
        let fragment := tailPiece '#' r
        if !path.isEmpty && (r.drop fragment.length).isEmpty then some (c :: run, path, query, fragment) else none
    else none

/-- The places of the pieces. -/
def uriPlaces (text : List Char) : Option (List (Option (Nat × Nat))) :=
  (uriPieces text).map fun (s, p, q, f) =>
    let a := byteLen s
    let b := a + 3 + byteLen p
    let d := b + byteLen q
    let e := d + byteLen f
    [some (0, e), some (0, a), some (a + 3, b), if q.isEmpty then none else some (b, d), if f.isEmpty then none else some (d, e)]

end Ere
