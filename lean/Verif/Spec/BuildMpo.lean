import Verif.Thm.Expr
import Verif.Model.BuildMpo

/-!
What a matrix product operator made of symbols stands for.
-/

namespace Verif
namespace BuildMpo
variable {N L K R : Type} [CommRing K] [DecidableEq K] [DecidableEq N] [Ring R] [Algebra K R]

/-- The value of a symbol of a tensor, for values `v` of the elementary operators: its factor times what the tensor's dictionary has for it. -/
def entryValue (v : N → List Int → R) (ops : Dict (Key N) (OpVal N L K)) (e : OpElement N L K) : R :=
  algebraMap K R e.factor * evalVal v ((Dict.get? ops (key e)).getD (.num 0))

/-- The value of row `i` of a column. -/
def columnValue (v : N → List Int → R) (col : Column N L K) (i : Nat) : R :=
  match col.mat[i]? with
  | some (some e) => entryValue v col.ops e
  | _ => 0

/-- Row `i` of the product of the matrices of operators, site by site; the last one is a column. -/
def chainValue (v : N → List Int → R) : List (SiteMatrix N L K) → Column N L K → Nat → R
  | [], col, i => columnValue v col i
  | m :: ms, col, i => ((m.entries.filter fun p => decide (p.1.1 = i)).map fun p => entryValue v m.ops p.2 * chainValue v ms col p.1.2).sum

/-- The strings a value consists of. -/
def strs : OpVal N L K → List (OpString N L K)
  | .num _ => []
  | .elem e => [OpString.mk' [e]]
  | .str s => [s]
  | .sum l => l.filterMap id

/-- The symbol is the identity or an operator of site `i`. -/
def AtSite (iop : OpElement N L K) (i : Int) (e : OpElement N L K) : Prop := e = iop ∨ e.site.head? = some i

/-- The symbol is the identity or an operator of site `i`, has factor 1 and is one of the symbols that have a label in the table `lab`. -/
structure SymbolOk (lab : N → List Int → Option L) (iop : OpElement N L K) (i : Int) (e : OpElement N L K) : Prop where
  factor : e.factor = 1
  label : lab e.name e.site = some e.label
  site : AtSite iop i e

/-- A value that can be replaced by a matrix: a symbol with factor 1, a string, or a sum of strings. -/
def Plain : OpVal N L K → Prop
  | .num _ => False
  | .elem e => e.factor = 1
  | .str _ => True
  | .sum l => none ∉ l

/-- The charge of a string of operators. -/
def charge [AddCommGroup L] (ops : List (OpElement N L K)) : L := (ops.map (·.label)).sum

/-- The entries of the tensor of site `i` are expressions in operators of this site, and the charge of each string in row `j`, column `k` is the label
of the row plus the label of the column. -/
structure SiteOk [AddCommGroup L] (lab : N → List Int → Option L) (iop : OpElement N L K) (i : Int) (m : SiteMatrix N L K) : Prop where
  rows : m.lop.length = m.nRows
  cols : m.rop.length = m.nCols
  entries : ∀ p ∈ m.entries, ∃ (a b : OpElement N L K) (w : OpVal N L K), m.lop[p.1.1]? = some a ∧ m.rop[p.1.2]? = some b ∧ Dict.get? m.ops (key p.2) = some w ∧
    Plain w ∧ ∀ s ∈ strs w, s.ops ≠ [] ∧ (∀ e ∈ s.ops, SymbolOk lab iop i e) ∧ charge s.ops = a.label + b.label

/-- The same for the last tensor. -/
structure LastOk [AddCommGroup L] (lab : N → List Int → Option L) (iop : OpElement N L K) (i : Int) (ne : Prop) (col : Column N L K) : Prop where
  rows : col.lop.length = col.mat.length
  entries : ∀ (j : Nat) (e : OpElement N L K), col.mat[j]? = some (some e) → ∃ (a : OpElement N L K) (w : OpVal N L K), col.lop[j]? = some a ∧ Dict.get? col.ops (key e) = some w ∧
    Plain w ∧ ∀ s ∈ strs w, (∀ e ∈ s.ops, SymbolOk lab iop i e) ∧ charge s.ops = a.label
  /-- There is no empty string, if there was none in the expression or if the expression was split. -/
  nonempty : ne → ∀ (j : Nat) (e : OpElement N L K) (w : OpVal N L K), col.mat[j]? = some (some e) → Dict.get? col.ops (key e) = some w → ∀ s ∈ strs w, s.ops ≠ []

/-- Neighbouring tensors have the same number of states on the bond, with opposite labels. -/
def Bonded [AddCommGroup L] : List (SiteMatrix N L K) → Column N L K → Prop
  | [], _ => True
  | [m], col => m.rop.map (·.label) = col.lop.map fun e => -e.label
  | m :: m' :: ms, col => (m.rop.map (·.label) = m'.lop.map fun e => -e.label) ∧ Bonded (m' :: ms) col

/-- The operators of an expression on `n` sites: the identity or an operator of one of the sites, with factor 1, with the label that
`lab` has for name and site, and not named `x` (the name used for new symbols). -/
structure Admissible (x : N) (lab : N → List Int → Option L) (iop : OpElement N L K) (n : Nat) (e : OpElement N L K) : Prop where
  factor : e.factor = 1
  label : lab e.name e.site = some e.label
  name : e.name ≠ x
  site : e = iop ∨ ∃ s t, e.site = s :: t ∧ 0 ≤ s ∧ s < n

/-- An expression on `n` sites from which a matrix product operator can be built: all strings have the charge `q`. -/
structure Expression [AddCommGroup L] (x : N) (lab : N → List Int → Option L) (iop : OpElement N L K) (q : L) (n : Nat) (terms : List (Option (OpString N L K))) : Prop where
  ops : ∀ s ∈ terms.filterMap id, ∀ e ∈ s.ops, Admissible x lab iop n e
  charge : ∀ s ∈ terms.filterMap id, charge s.ops = q

/-- The symbol for the identity: no site, label 0, factor 1. -/
structure IdentitySymbol [AddCommGroup L] (x : N) (lab : N → List Int → Option L) (iop : OpElement N L K) : Prop where
  factor : iop.factor = 1
  site : iop.site = []
  label : iop.label = 0
  labels : lab iop.name [] = some 0
  name : iop.name ≠ x

end BuildMpo
end Verif
