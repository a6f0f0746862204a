import Verif.Model.NFA
import Verif.Proofs.Atom

/-! Characters as automaton symbols. -/

namespace Ere

/-- Characters as automaton symbols (`Atom::check`, `char::len_utf8`, `PartialEq for Atom`). -/
instance : Sym Atom Char where
  check := Atom.check
  len := charLen
  beq := Atom.beq
  beq_sound := by
    intro a b h c
    exact Atom.beq_sound h c
  beq_refl := by intro a; simp [Atom.beq]
  len_pos := by intro c; unfold charLen; split <;> (try split) <;> (try split) <;> omega

end Ere
