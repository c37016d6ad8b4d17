import Verif.Model.Hamiltonian

/-!
Model of `/repo/pyblock3/heisenberg.py`: basis of a site, spin matrices, and the list of coupling terms.  The square root of
numpy is a parameter.
-/

namespace Verif
namespace Heisenberg
variable {K : Type}

/-- Python `range(lo, hi, 2)`. -/
def range2 (lo hi : Int) : List Int := (List.range ((hi - lo + 1) / 2).toNat).map fun k : Nat => lo + 2 * (k : Int)

/-- heisenberg.py:60-63: the basis of a site. -/
def basis (twos : Int) : BondInfo SZ := (range2 (-twos) (twos + 1)).foldl (fun b j => Dict.set b ⟨0, j, 0⟩ 1) []

section
variable [Zero K]

/-- `self.FT.zeros(bond_infos=(basis, basis), dq=dq)`. -/
def siteZeros (twos : Int) (dq : SZ) : Option (OpT SZ K) :=
  OpT.zeros SZ.isFermion Hamiltonian.szLe [basis twos, basis twos] dq

/-- heisenberg.py:143-148 `i_operator`. -/
def iOp [One K] (twos : Int) : Option (OpT SZ K) :=
  (siteZeros twos ⟨0, 0, 0⟩).bind fun T => Hamiltonian.setEven T ((basis twos).map fun p => (p.1, 1))

/-- heisenberg.py:150-153 `h_operator`. -/
def hOp (twos : Int) : Option (OpT SZ K) := siteZeros twos ⟨0, 0, 0⟩

/-- heisenberg.py:155-160 `sp_operator`; `//` is floor division. -/
def spOp (sqrt : Int → K) (tj : Int) : Option (OpT SZ K) :=
  (siteZeros tj ⟨0, 2, 0⟩).bind fun T =>
    Hamiltonian.setEven T ((range2 (-tj) (tj - 1)).map fun tm => (⟨0, tm, 0⟩, sqrt ((tj - tm) * (tj + tm + 2) / 4)))

/-- heisenberg.py:162-167 `sm_operator`. -/
def smOp (sqrt : Int → K) (tj : Int) : Option (OpT SZ K) :=
  (siteZeros tj ⟨0, -2, 0⟩).bind fun T =>
    Hamiltonian.setEven T ((range2 (-tj + 2) (tj + 1)).map fun tm => (⟨0, tm, 0⟩, sqrt ((tj + tm) * (tj - tm + 2) / 4)))

end

/-- heisenberg.py:169-174 `sz_operator`. -/
def szOp [Field K] (tj : Int) : Option (OpT SZ K) :=
  (siteZeros tj ⟨0, 0, 0⟩).bind fun T =>
    Hamiltonian.setEven T ((range2 (-tj) (tj + 1)).map fun tm => (⟨0, tm, 0⟩, (tm : K) / 2))

/-- The names used: three spin operators (heisenberg.py:101-103), the identity and the whole operator (95-96), and those that `right_svd` makes
(symbolic.py:433-471). -/
inductive Name where
  | sp | sm | sz | i | h | x | xl | xr
  deriving DecidableEq

/-- heisenberg.py:101-103: the symbol of an operator on site `m`; the code makes it for `sp`, `sm` and `sz` only. -/
def sym [One K] (n : Name) (m : Int) : OpElement Name SZ K :=
  ⟨n, [m], 1, match n with | .sp => ⟨0, 2, 0⟩ | .sm => ⟨0, -2, 0⟩ | _ => ⟨0, 0, 0⟩⟩

/-- heisenberg.py:108-112: the three terms of one bond, built with the operations of expr.py.  `0.5 * v * x * y` associates to
the left: number times element times element.  `none`: the assertion fails. -/
def bondTerms [Field K] [DecidableEq K] (small : K → Bool) (i j : Int) (v : K) : Option (List (OpVal Name SZ K)) :=
  if i = j then none else
  let term (c : K) (x y : Name) : Option (OpVal Name SZ K) :=
    (OpVal.mul small (.num c) (.elem (sym x i))).bind fun t => OpVal.mul small t (.elem (sym y j))
  (term (1 / 2 * v) .sp .sm).bind fun a => (term (1 / 2 * v) .sm .sp).bind fun b => (term v .sz .sz).map fun c => [a, b, c]

/-- The strings among the entries of `OpSum(terms)`; `none`: an entry has no attribute `sort` (an `OpElement` or a nonzero
number; the number 0 is filtered out by expr.py:314). -/
def asStrings [Zero K] [DecidableEq K] (l : List (OpVal Name SZ K)) : Option (List (Option (OpString Name SZ K))) :=
  l.mapM fun t => match t with
    | .str s => some (some s)
    | .num c => if c = 0 then some none else none
    | _ => none

/-- heisenberg.py:107-115: `h_expr = OpSum(terms)` followed by `h_expr.sort(fermion=False)`. -/
def hExpr [Field K] [DecidableEq K] (small : K → Bool) (topology : List (Int × Int × K)) :
    Option (List (OpString Name SZ K)) :=
  (topology.mapM fun t => bondTerms small t.1 t.2.1 t.2.2).bind fun l =>
    (asStrings l.flatten).map fun s => OpSum.sort false s

end Heisenberg
end Verif
