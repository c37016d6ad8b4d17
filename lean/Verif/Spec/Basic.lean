import Mathlib.Algebra.BigOperators.Group.List.Basic

/-! Small specifications shared by several properties. -/

namespace Verif

/-- Signed sums: add the labels with sign `+` (`true`), subtract those with sign `-`. -/
def signedSum {P : Type} [AddCommGroup P] (pattern : List Bool) (xs : List P) : P :=
  ((pattern.zip xs).map fun sx => if sx.1 then sx.2 else -sx.2).sum

end Verif
