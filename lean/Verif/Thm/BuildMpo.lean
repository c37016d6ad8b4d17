import Verif.Proof.BuildMpoStep
import Verif.Thm.CanonQR
import Mathlib.Data.Matrix.Basic
import Mathlib.LinearAlgebra.Matrix.Notation

/-!
C52: the matrix product operator built from an operator expression stands for that expression.
-/

set_option linter.unusedSectionVars false

namespace Verif
namespace BuildMpo
variable {N L K R V : Type} [CommRing K] [DecidableEq K] [DecidableEq N] [Ring R] [Algebra K R] [AddCommGroup L] [DecidableEq L]

theorem strs_sort (terms : List (Option (OpString N L K))) : strs (OpVal.sum ((OpSum.sort true terms).map some)) = (terms.filterMap id).map (·.sort true) := by
  simp [strs, OpSum.sort, List.filterMap_map]

/-- The tensor from which the construction starts. -/
theorem start_ok {x : N} {lab : N → List Int → Option L} {iop hop : OpElement N L K} (hhop : hop.factor = 1) {n : Nat} {terms : List (Option (OpString N L K))}
    (ht : Expression x lab iop hop.label n terms) :
    ColOK x lab iop n (0 : Nat) (∀ s ∈ terms.filterMap id, s.ops ≠ []) (⟨[hop], [some hop], [(key hop, .sum ((OpSum.sort true terms).map some))]⟩ : Column N L K) := by
  refine ⟨rfl, ?_⟩
  intro j e hj
  cases j with
  | succ j => simp at hj
  | zero =>
    simp only [List.getElem?_cons_zero, Option.some.injEq] at hj
    subst hj
    refine ⟨hop, _, .sum ((OpSum.sort true terms).map some), rfl, by simp [Dict.get?], Or.inl ⟨hhop, rfl, by simp [AccOK], by simp⟩, ?_⟩
    intro s hs
    rw [strs_sort] at hs
    obtain ⟨t, ht', rfl⟩ := List.mem_map.1 hs
    obtain ⟨h1, h2⟩ := C27_sorted true t
    refine ⟨⟨h2, ?_⟩, ?_, ?_⟩
    · intro a ha
      have h := ht.ops t ht' a (h1.mem_iff.1 ha)
      exact ⟨⟨h.factor, h.label, h.name⟩, by exact_mod_cast h.site⟩
    · rw [← ht.charge t ht']
      exact (h1.map _).sum_eq
    · intro hne h0
      rw [h0] at h1
      exact hne t ht' h1.nil_eq.symm

/-- C52: from an expression on `n` sites `build` makes `n` tensors.  The tensor of a site contains operators of this site only, each entry has the charge
that the labels of its row and column say, the labels of the two sides of a bond fit, and the product of the tensors from left to right is the expression:
for all values of the elementary operators for which operators of different sites anticommute.  The singular values that are not kept are zero. -/
theorem C52_build [Nontrivial K] (names : N × N × N) (lab : N → List Int → Option L) (small : K → Bool) (hsmall : ∀ x, small x = true ↔ x = 0) (c : V → K)
    (svd : Arr K → Arr K × Arr V × Arr K) (hsvd : IsSvd c svd) (big : V → Bool) (hbig : ∀ s, big s = false → c s = 0) (iop hop : OpElement N L K)
    (hi : IdentitySymbol names.1 lab iop) (hhop : hop.factor = 1) (n : Nat) (hn : 0 < n) (terms : List (Option (OpString N L K)))
    (ht : Expression names.1 lab iop hop.label n terms) :
    ∃ ms col, build names small c svd big iop hop n terms = some (ms, col) ∧ ms.length + 1 = n ∧
      (∀ (i : Nat) (m : SiteMatrix N L K), ms[i]? = some m → SiteOk lab iop i m) ∧ LastOk lab iop (n - 1) (1 < n ∨ ∀ s ∈ terms.filterMap id, s.ops ≠ []) col ∧ Bonded ms col ∧
      (ms.head?.map (·.lop)).getD col.lop = [hop] ∧
      ∀ v : N → List Int → R, v iop.name [] = 1 →
        (∀ s ∈ terms.filterMap id, ∀ a ∈ s.ops, ∀ b ∈ s.ops, a.site ≠ b.site → evalElem v a * evalElem v b = -(evalElem v b * evalElem v a)) →
        chainValue v ms col 0 = evalVal v (.sum terms) := by
  have hid : IdentOK names.1 lab iop := ⟨⟨hi.factor, by rw [hi.label, hi.site, hi.labels], hi.name⟩, hi.site, hi.label⟩
  obtain ⟨ms, col, h1, h2, h3, h4, h5, h6, h7⟩ := split_chain (R := R) names rfl hid hsmall hsvd hbig (n := n) (n - 1) 0 _ _ (start_ok hhop ht)
  refine ⟨ms, col, ?_, by omega, ?_, ⟨h3.rows, ?_, ?_⟩, h5, h6, ?_⟩
  · rw [build, List.range_eq_range']
    exact h1
  · intro i m hm
    simpa using h4 i m hm
  · intro j e hj
    obtain ⟨a, w, val, g1, g2, g3, g4⟩ := h3.entries j e hj
    refine ⟨a, w, g1, g2, g3.plain, ?_⟩
    intro s hs
    obtain ⟨t, ht, e⟩ := g3.ops s hs
    obtain ⟨⟨_, g5⟩, g6, _⟩ := g4 t ht
    rw [e]
    refine ⟨fun b hb => ⟨(g5 b hb).1.1, (g5 b hb).1.2.1, ?_⟩, g6⟩
    rcases (g5 b hb).2 with h | ⟨s', t', h8, h9, h10⟩
    · exact Or.inl h
    · refine Or.inr ?_
      rw [h8]
      simp only [List.head?_cons, Option.some.injEq]
      omega
  · intro hne j e w hj hw s hs
    obtain ⟨a, w', val, g1, g2, g3, g4⟩ := h3.entries j e hj
    rw [hw] at g2
    injection g2 with g2
    subst g2
    obtain ⟨t, ht, e⟩ := g3.ops s hs
    rw [e]
    exact (g4 t ht).2.2 (hne.imp (by omega) id)
  · intro v hv hanti
    rw [h7 v (by rw [hi.site]; exact hv) 0 (by simp), ← C27_sum v terms hanti]
    simp [columnValue, entryValue, hhop, Dict.get?, key]

/-! ### A concrete case -/

/-- A routine meeting the product contract over any ring. -/
def plainSvd {K : Type} [CommRing K] (a : Arr K) : Arr K × Arr K × Arr K :=
  ((plainQR a).1, ⟨[min (a.shape.getD 0 0) (a.shape.getD 1 0)], fun _ => 1⟩, (plainQR a).2)

theorem plainSvd_isSvd {K : Type} [CommRing K] : IsSvd (fun x : K => x) plainSvd := by
  refine ⟨?_, ?_, ?_, ?_⟩
  · intro a m n h h1 h2
    exact plainQR_factorises.left a m n h h1 h2
  · intro a m n h _ _
    simp [plainSvd, h]
  · intro a m n h h1 h2
    exact plainQR_factorises.right a m n h h1 h2
  · intro a m n h h1 h2 i hi j hj
    rw [← plainQR_factorises.product a m n h h1 h2 i hi j hj]
    refine sum_map_congr' _ _ _ fun t _ => ?_
    simp [plainSvd]

/-- Names of symbols. -/
inductive Name
  | C | D | I | H | X | XL | XR
  deriving DecidableEq

open Name

/-- Labels: the number of particles. -/
def exLab : Name → List Int → Option Int
  | C, _ => some 1
  | D, _ => some (-1)
  | _, _ => some 0

def exOp (nm : Name) (site : List Int) : OpElement Name Int Int := ⟨nm, site, 1, (exLab nm site).getD 0⟩

/-- Hopping between three sites, in both orders, and a number operator. -/
def exTerms : List (Option (OpString Name Int Int)) :=
  [some ⟨[exOp C [0], exOp D [1]], 2⟩, some ⟨[exOp C [1], exOp D [0]], 2⟩, some ⟨[exOp D [1], exOp C [2]], 5⟩, some ⟨[exOp C [1], exOp D [2]], 7⟩,
    some ⟨[exOp C [1], exOp D [1]], 3⟩, none]

/-- The hypotheses of `C52_build` hold for it. -/
example : Expression X exLab (exOp I []) 0 3 exTerms ∧ IdentitySymbol X exLab (exOp I []) := by
  refine ⟨⟨?_, by decide⟩, ⟨rfl, rfl, rfl, rfl, by decide⟩⟩
  intro s hs e he
  have : e.factor = 1 ∧ exLab e.name e.site = some e.label ∧ e.name ≠ X ∧ ∃ k ∈ [0, 1, 2], e.site = [k] := by
    revert e
    revert s
    decide
  obtain ⟨h1, h2, h3, k, hk, h4⟩ := this
  refine ⟨h1, h2, h3, Or.inr ⟨k, [], h4, ?_⟩⟩
  simp only [List.mem_cons, List.not_mem_nil, or_false] at hk
  rcases hk with rfl | rfl | rfl <;> decide

/-- Values for which operators of sites that occur together anticommute. -/
def exValue : Name → List Int → Matrix (Fin 2) (Fin 2) Int
  | C, [1] => !![0, 1; 1, 0]
  | D, [1] => !![0, 1; -1, 0]
  | C, _ => !![1, 0; 0, -1]
  | D, _ => !![2, 0; 0, -2]
  | _, _ => 1

example : ∀ s ∈ exTerms.filterMap id, ∀ a ∈ s.ops, ∀ b ∈ s.ops, a.site ≠ b.site → evalElem exValue a * evalElem exValue b = -(evalElem exValue b * evalElem exValue a) := by
  decide

/-- The operator that is built: three tensors, with three states on each bond. -/
example : (build (X, XL, XR) (fun x => decide (x = 0)) (fun x : Int => x) plainSvd (fun x => decide (x ≠ 0)) (exOp I []) (exOp H []) 3 exTerms).map
    (fun r => (r.1.map fun m => (m.nRows, m.nCols, m.entries.length), r.2.mat.length)) = some ([(1, 3, 3), (3, 3, 5)], 3) := by
  decide +kernel

end BuildMpo
end Verif
