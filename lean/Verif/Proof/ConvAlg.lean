import Mathlib.Algebra.Algebra.Basic
import Mathlib.Algebra.BigOperators.Ring.Finset
import Mathlib.Algebra.BigOperators.Fin
import Mathlib.Algebra.BigOperators.GroupWithZero.Action
import Mathlib.Algebra.Field.Basic
import Mathlib.Algebra.CharZero.Defs
import Mathlib.Data.Fintype.BigOperators
import Mathlib.Tactic.Abel
import Mathlib.Tactic.Ring
import Mathlib.Tactic.Module
import Mathlib.Tactic.FieldSimp

/-!
Algebra of the conventional form of a quantum-chemistry Hamiltonian: how the partial sums over the sites to the left grow with one more site.
-/

set_option linter.unusedSectionVars false

namespace Verif
namespace ConvAlg
open Finset
variable {K R : Type} [Field K] [CharZero K] [Ring R] [Algebra K R]

/-- Anticommutation of creation and annihilation operators; nothing is assumed about a creation and an annihilation operator of the same orbital. -/
structure Car (C D : Nat → Bool → R) : Prop where
  cc : ∀ i s j t, C i s * C j t = -(C j t * C i s)
  dd : ∀ i s j t, D i s * D j t = -(D j t * D i s)
  cd : ∀ i s j t, i ≠ j → C i s * D j t = -(D j t * C i s)

theorem Car.dc {C D : Nat → Bool → R} (h : Car C D) (i : Nat) (s : Bool) (j : Nat) (t : Bool) (hij : i ≠ j) : D i s * C j t = -(C j t * D i s) := by
  rw [h.cd j t i s (Ne.symm hij), neg_neg]

section anti
variable {a b c x y : R}

theorem anti2 (h1 : a * x = -(x * a)) (h2 : b * x = -(x * b)) : a * b * x = x * a * b := by
  rw [mul_assoc, h2, mul_neg, ← mul_assoc, h1, neg_mul, neg_neg]

theorem anti3 (h1 : a * x = -(x * a)) (h2 : b * x = -(x * b)) (h3 : c * x = -(x * c)) : a * b * c * x = -(x * a * b * c) := by
  rw [mul_assoc (a * b), h3, mul_neg, ← mul_assoc, anti2 h1 h2]

/-- Two pairs. -/
theorem anti22 (h1 : a * x = -(x * a)) (h2 : b * x = -(x * b)) (h3 : a * y = -(y * a)) (h4 : b * y = -(y * b)) : a * b * (x * y) = x * y * (a * b) := by
  rw [← mul_assoc, anti2 h1 h2, mul_assoc x, mul_assoc x, anti2 h3 h4, mul_assoc x y, ← mul_assoc y]
end anti

section split
variable {M : Type} [AddCommGroup M]

theorem split2 (m : Nat) (F : Nat → Nat → M) :
    ∑ i ∈ range (m + 1), ∑ j ∈ range (m + 1), F i j = ∑ i ∈ range m, ∑ j ∈ range m, F i j + ∑ i ∈ range m, F i m + ∑ j ∈ range m, F m j + F m m := by
  simp only [sum_range_succ, sum_add_distrib]
  abel

theorem split3 (m : Nat) (F : Nat → Nat → Nat → M) :
    ∑ j ∈ range (m + 1), ∑ k ∈ range (m + 1), ∑ l ∈ range (m + 1), F j k l =
      ∑ j ∈ range m, ∑ k ∈ range m, ∑ l ∈ range m, F j k l +
      ∑ j ∈ range m, ∑ k ∈ range m, F j k m + ∑ j ∈ range m, ∑ l ∈ range m, F j m l + ∑ k ∈ range m, ∑ l ∈ range m, F m k l +
      ∑ j ∈ range m, F j m m + ∑ k ∈ range m, F m k m + ∑ l ∈ range m, F m m l + F m m m := by
  simp only [sum_range_succ, sum_add_distrib]
  abel

theorem split4 (m : Nat) (F : Nat → Nat → Nat → Nat → M) :
    ∑ i ∈ range (m + 1), ∑ j ∈ range (m + 1), ∑ k ∈ range (m + 1), ∑ l ∈ range (m + 1), F i j k l =
      ∑ i ∈ range m, ∑ j ∈ range m, ∑ k ∈ range m, ∑ l ∈ range m, F i j k l +
      (∑ i ∈ range m, ∑ j ∈ range m, ∑ k ∈ range m, F i j k m + ∑ i ∈ range m, ∑ j ∈ range m, ∑ l ∈ range m, F i j m l +
        ∑ i ∈ range m, ∑ k ∈ range m, ∑ l ∈ range m, F i m k l + ∑ j ∈ range m, ∑ k ∈ range m, ∑ l ∈ range m, F m j k l) +
      (∑ i ∈ range m, ∑ j ∈ range m, F i j m m + ∑ i ∈ range m, ∑ k ∈ range m, F i m k m + ∑ i ∈ range m, ∑ l ∈ range m, F i m m l +
        ∑ j ∈ range m, ∑ k ∈ range m, F m j k m + ∑ j ∈ range m, ∑ l ∈ range m, F m j m l + ∑ k ∈ range m, ∑ l ∈ range m, F m m k l) +
      (∑ i ∈ range m, F i m m m + ∑ j ∈ range m, F m j m m + ∑ k ∈ range m, F m m k m + ∑ l ∈ range m, F m m m l) + F m m m m := by
  simp only [sum_range_succ, sum_add_distrib]
  abel
end split

variable (t : Bool → Nat → Nat → K) (v : Bool → Bool → Nat → Nat → Nat → Nat → K) (C D : Nat → Bool → R)

/-- The symmetries of the two-electron integrals that are used. -/
structure Sym2 : Prop where
  pair : ∀ s s' i j k l, v s s' i j k l = v s' s k l i j
  left : ∀ s s' i j k l, v s s' i j k l = v s s' j i k l

theorem Sym2.right {v : Bool → Bool → Nat → Nat → Nat → Nat → K} (h : Sym2 v) (s s' : Bool) (i j k l : Nat) : v s s' i j k l = v s s' i j l k := by
  rw [h.pair, h.left, h.pair]

/-- The term of the two-electron operator with the indices `i j k l`, summed over spins. -/
def X (i j k l : Nat) : R := ∑ s, ∑ s', (1 / 2 * v s s' i j k l) • (C i s * C k s' * D l s' * D j s)

/-- The Hamiltonian on the sites below `M`, with the symmetric part of the one-electron integrals. -/
def hSum (M : Nat) : R :=
  ∑ i ∈ range M, ∑ j ∈ range M, ∑ s, (1 / 2 * (t s i j + t s j i)) • (C i s * D j s) +
    ∑ i ∈ range M, ∑ j ∈ range M, ∑ k ∈ range M, ∑ l ∈ range M, X v C D i j k l

def rd2 (M i : Nat) (s : Bool) : R := ∑ j ∈ range M, ∑ k ∈ range M, ∑ l ∈ range M, ∑ s', v s s' i j k l • (C j s * C l s' * D k s')
def r2 (M i : Nat) (s : Bool) : R := ∑ j ∈ range M, ∑ k ∈ range M, ∑ l ∈ range M, ∑ s', v s s' i j k l • (C k s' * D l s' * D j s)

/-- `RD` and `R` on the sites below `M`. -/
def rdSum (M i : Nat) (s : Bool) : R := ∑ j ∈ range M, (1 / 2 * t s i j) • C j s + rd2 v C D M i s
def rSum (M i : Nat) (s : Bool) : R := ∑ j ∈ range M, (1 / 2 * t s i j) • D j s + r2 v C D M i s

/-- The operators of site `m`. -/
def hLoc (m : Nat) : R := ∑ s, t s m m • (C m s * D m s) + X v C D m m m m
def rdLoc (m i : Nat) (s : Bool) : R := (1 / 2 * t s i m) • C m s + ∑ s', v s s' i m m m • (C m s * C m s' * D m s')
def rLoc (m i : Nat) (s : Bool) : R := (1 / 2 * t s i m) • D m s + ∑ s', v s s' i m m m • (C m s' * D m s' * D m s)
def pLoc (m i k : Nat) (si sk : Bool) : R := v si sk i m k m • (D m sk * D m si)
def pdLoc (m i k : Nat) (si sk : Bool) : R := v si sk i m k m • (C m si * C m sk)
def qLoc (m i j : Nat) (si sj : Bool) : R := -(v si sj i m m j • (C m sj * D m si)) + if si = sj then ∑ s', v si s' i j m m • (C m s' * D m s') else 0

variable {t v C D}

theorem sumBool {M : Type} [AddCommGroup M] (f : Bool → M) : ∑ s, f s = f true + f false := Fintype.sum_bool f

/-! ### RD -/

theorem rd_a (m i : Nat) (s : Bool) : ∑ j ∈ range m, ∑ l ∈ range m, ∑ s', v s s' i j m l • (C j s * C l s' * D m s') =
    ∑ s', ∑ j ∈ range m, ∑ l ∈ range m, C j s * C l s' * (v s s' i j m l • D m s') := by
  simp only [sumBool, sum_add_distrib, mul_smul_comm]

theorem half_add_half (x : K) (r : R) : (1 / 2 * x) • r + (1 / 2 * x) • r = x • r := by
  rw [← add_smul]
  congr 1
  ring

theorem rd_a_sym (h : Car C D) (m i : Nat) (s : Bool) : ∑ j ∈ range m, ∑ l ∈ range m, ∑ s', v s s' i j m l • (C j s * C l s' * D m s') =
    ∑ s', ∑ j ∈ range m, ∑ l ∈ range m, (C j s * C l s' * ((1 / 2 * v s s' i j m l) • D m s') + C j s' * C l s * ((-(1 / 2) * v s s' i l m j) • D m s')) := by
  have key : ∀ s', ∑ j ∈ range m, ∑ l ∈ range m, C j s' * C l s * ((-(1 / 2) * v s s' i l m j) • D m s') =
      ∑ j ∈ range m, ∑ l ∈ range m, C j s * C l s' * ((1 / 2 * v s s' i j m l) • D m s') := by
    intro s'
    rw [sum_comm]
    refine sum_congr rfl fun j _ => sum_congr rfl fun l _ => ?_
    rw [h.cc l s' j s, neg_mul, mul_smul_comm, mul_smul_comm, neg_mul, neg_smul, neg_neg]
  simp only [sum_add_distrib, key]
  simp only [← sum_add_distrib, mul_smul_comm, half_add_half]
  simp only [sumBool, sum_add_distrib]

theorem rd_b (h : Car C D) (m i : Nat) (s : Bool) : ∑ k ∈ range m, ∑ l ∈ range m, ∑ s', v s s' i m k l • (C m s * C l s' * D k s') =
    ∑ s', ∑ k ∈ range m, ∑ l ∈ range m, C l s' * D k s' * (v s s' i m k l • C m s) := by
  have key : ∀ s', ∀ k ∈ range m, ∀ l ∈ range m, C l s' * D k s' * (v s s' i m k l • C m s) = v s s' i m k l • (C m s * C l s' * D k s') := by
    intro s' k hk l hl
    rw [mul_smul_comm, anti2 (h.cc l s' m s) (h.dc k s' m s (by simp at hk; omega))]
  rw [sumBool, sum_congr rfl fun k hk => sum_congr rfl (key true k hk), sum_congr rfl fun k hk => sum_congr rfl (key false k hk)]
  simp only [sumBool, sum_add_distrib]

theorem rd_b' (h : Car C D) (m i : Nat) (s : Bool) : ∑ j ∈ range m, ∑ k ∈ range m, ∑ s', v s s' i j k m • (C j s * C m s' * D k s') =
    ∑ s', ∑ j ∈ range m, ∑ k ∈ range m, C j s * D k s' * ((-1 * v s s' i j k m) • C m s') := by
  have key : ∀ s', ∀ j ∈ range m, ∀ k ∈ range m, C j s * D k s' * ((-1 * v s s' i j k m) • C m s') = v s s' i j k m • (C j s * C m s' * D k s') := by
    intro s' j hj k hk
    rw [mul_smul_comm, mul_assoc (C j s), h.dc k s' m s' (by simp at hk; omega), mul_neg, neg_one_mul, neg_smul, smul_neg, neg_neg, mul_assoc]
  rw [sumBool, sum_congr rfl fun k hk => sum_congr rfl (key true k hk), sum_congr rfl fun k hk => sum_congr rfl (key false k hk)]
  simp only [sumBool, sum_add_distrib]

theorem rd_p (h : Car C D) (m i : Nat) (s : Bool) : ∑ k ∈ range m, ∑ s', v s s' i m k m • (C m s * C m s' * D k s') =
    ∑ s', ∑ k ∈ range m, D k s' * pdLoc v C m i k s s' := by
  have key : ∀ s', ∀ k ∈ range m, D k s' * pdLoc v C m i k s s' = v s s' i m k m • (C m s * C m s' * D k s') := by
    intro s' k hk
    have hk : k ≠ m := by simp at hk; omega
    rw [pdLoc, mul_smul_comm, anti2 (h.cd m s k s' hk.symm) (h.cd m s' k s' hk.symm), mul_assoc]
  rw [sumBool, sum_congr rfl (key true), sum_congr rfl (key false)]
  simp only [sumBool, sum_add_distrib]

theorem rd_q (h : Car C D) (hv : Sym2 v) (m i : Nat) (s : Bool) :
    ∑ j ∈ range m, ∑ s', v s s' i j m m • (C j s * C m s' * D m s') + ∑ l ∈ range m, ∑ s', v s s' i m m l • (C m s * C l s' * D m s') =
      ∑ s', ∑ k ∈ range m, C k s' * qLoc v C D m k i s' s := by
  rw [sum_comm (s := univ), ← sum_add_distrib]
  refine sum_congr rfl fun k hk => ?_
  have hk : k ≠ m := by simp at hk; omega
  have e : ∀ s', C k s' * qLoc v C D m k i s' s = v s s' i m m k • (C m s * C k s' * D m s') +
      if s' = s then ∑ s', v s s' i k m m • (C k s * C m s' * D m s') else 0 := by
    intro s'
    rw [qLoc, mul_add, mul_neg, mul_smul_comm, hv.pair s' s, hv.left s s', hv.right s s']
    congr 1
    · rw [← mul_assoc, h.cc k s' m s, neg_mul, smul_neg, neg_neg]
    · split_ifs with hs
      · subst hs
        rw [mul_sum]
        refine sum_congr rfl fun x _ => ?_
        rw [mul_smul_comm, hv.left, mul_assoc]
      · rw [mul_zero]
  rw [sum_congr rfl fun x _ => e x, sum_add_distrib, sum_ite_eq' univ s, if_pos (mem_univ _), add_comm]

/-- One more site in `RD`. -/
theorem rd_step (h : Car C D) (hv : Sym2 v) (m i : Nat) (s : Bool) :
    rdSum t v C D (m + 1) i s = rdSum t v C D m i s + rdLoc t v C D m i s +
      ∑ s', ∑ k ∈ range m, D k s' * pdLoc v C m i k s s' + ∑ s', ∑ k ∈ range m, C k s' * qLoc v C D m k i s' s +
      ∑ s', ∑ j ∈ range m, ∑ l ∈ range m, C j s * C l s' * (v s s' i j m l • D m s') +
      ∑ s', ∑ k ∈ range m, ∑ l ∈ range m, C l s' * D k s' * (v s s' i m k l • C m s) +
      ∑ s', ∑ j ∈ range m, ∑ k ∈ range m, C j s * D k s' * ((-1 * v s s' i j k m) • C m s') := by
  rw [rdSum, rd2, split3, sum_range_succ, rd_a, rd_b h, rd_b' h, rd_p h, ← rd_q h hv, rdSum, rd2, rdLoc]
  abel

/-! ### R -/

theorem r_a (h : Car C D) (m i : Nat) (s : Bool) : -∑ j ∈ range m, ∑ l ∈ range m, ∑ s', v s s' i j m l • (C m s' * D l s' * D j s) =
    ∑ s', ∑ j ∈ range m, ∑ l ∈ range m, D l s' * D j s * ((-1 * v s s' i j m l) • C m s') := by
  have key : ∀ s', ∀ j ∈ range m, ∀ l ∈ range m, D l s' * D j s * ((-1 * v s s' i j m l) • C m s') = -(v s s' i j m l • (C m s' * D l s' * D j s)) := by
    intro s' j hj l hl
    rw [mul_smul_comm, neg_one_mul, neg_smul, anti2 (h.dc l s' m s' (by simp at hl; omega)) (h.dc j s m s' (by simp at hj; omega))]
  rw [sumBool, sum_congr rfl fun k hk => sum_congr rfl (key true k hk), sum_congr rfl fun k hk => sum_congr rfl (key false k hk)]
  simp only [sumBool, sum_add_distrib, sum_neg_distrib, neg_add]

theorem r_a_sym (h : Car C D) (m i : Nat) (s : Bool) : ∑ s', ∑ j ∈ range m, ∑ l ∈ range m, D l s' * D j s * ((-1 * v s s' i j m l) • C m s') =
    ∑ s', ∑ j ∈ range m, ∑ l ∈ range m, (D l s' * D j s * ((-(1 / 2) * v s s' i j m l) • C m s') + D l s * D j s' * ((1 / 2 * v s s' i l m j) • C m s')) := by
  refine sum_congr rfl fun s' _ => ?_
  have key : ∑ j ∈ range m, ∑ l ∈ range m, D l s * D j s' * ((1 / 2 * v s s' i l m j) • C m s') =
      ∑ j ∈ range m, ∑ l ∈ range m, D l s' * D j s * ((-(1 / 2) * v s s' i j m l) • C m s') := by
    rw [sum_comm]
    refine sum_congr rfl fun j _ => sum_congr rfl fun l _ => ?_
    rw [h.dd j s l s', neg_mul, mul_smul_comm, mul_smul_comm, neg_mul, neg_smul]
  simp only [sum_add_distrib, key]
  simp only [← sum_add_distrib, mul_neg, mul_smul_comm, neg_mul, neg_smul, ← neg_add, half_add_half, one_mul]

theorem r_b (m i : Nat) (s : Bool) : -∑ k ∈ range m, ∑ l ∈ range m, ∑ s', v s s' i m k l • (C k s' * D l s' * D m s) =
    ∑ s', ∑ k ∈ range m, ∑ l ∈ range m, C k s' * D l s' * ((-1 * v s s' i m k l) • D m s) := by
  simp only [sumBool, sum_add_distrib, neg_one_mul, neg_smul, mul_neg, mul_smul_comm, sum_neg_distrib, neg_add]

theorem r_b' (h : Car C D) (m i : Nat) (s : Bool) : -∑ j ∈ range m, ∑ k ∈ range m, ∑ s', v s s' i j k m • (C k s' * D m s' * D j s) =
    ∑ s', ∑ j ∈ range m, ∑ k ∈ range m, C k s' * D j s * ((-1 * -1 * v s s' i j k m) • D m s') := by
  have key : ∀ s', ∀ j ∈ range m, ∀ k ∈ range m, C k s' * D j s * ((-1 * -1 * v s s' i j k m) • D m s') = -(v s s' i j k m • (C k s' * D m s' * D j s)) := by
    intro s' j hj k hk
    rw [mul_smul_comm, mul_assoc (C k s'), h.dd j s m s', neg_mul_neg, one_mul, one_mul, mul_neg, smul_neg, mul_assoc]
  rw [sumBool, sum_congr rfl fun k hk => sum_congr rfl (key true k hk), sum_congr rfl fun k hk => sum_congr rfl (key false k hk)]
  simp only [sumBool, sum_add_distrib, sum_neg_distrib, neg_add]

theorem r_p (m i : Nat) (s : Bool) : -∑ k ∈ range m, ∑ s', v s s' i m k m • (C k s' * D m s' * D m s) =
    ∑ s', ∑ k ∈ range m, C k s' * -pLoc v D m i k s s' := by
  simp only [sumBool, sum_add_distrib, pLoc, mul_neg, mul_smul_comm, sum_neg_distrib, neg_add, mul_assoc]

theorem r_q (h : Car C D) (m i : Nat) (s : Bool) :
    -(∑ j ∈ range m, ∑ s', v s s' i j m m • (C m s' * D m s' * D j s) + ∑ l ∈ range m, ∑ s', v s s' i m m l • (C m s' * D l s' * D m s)) =
      ∑ s', ∑ k ∈ range m, D k s' * -qLoc v C D m i k s s' := by
  rw [sum_comm (s := univ), ← sum_add_distrib, ← sum_neg_distrib]
  refine sum_congr rfl fun k hk => ?_
  have hk : k ≠ m := by simp at hk; omega
  have e : ∀ s', D k s' * -qLoc v C D m i k s s' = -(v s s' i m m k • (C m s' * D k s' * D m s)) +
      if s = s' then -∑ s', v s s' i k m m • (C m s' * D m s' * D k s) else 0 := by
    intro s'
    rw [qLoc, neg_add, neg_neg, mul_add, mul_smul_comm]
    congr 1
    · rw [← mul_assoc, h.dc k s' m s' hk, neg_mul, smul_neg]
    · split_ifs with hs
      · subst hs
        rw [mul_neg, mul_sum]
        congr 1
        refine sum_congr rfl fun x _ => ?_
        rw [mul_smul_comm, anti2 (h.cd m x k s hk.symm) (h.dd m x k s), mul_assoc]
      · rw [neg_zero, mul_zero]
  rw [sum_congr rfl fun x _ => e x, sum_add_distrib, sum_ite_eq univ s, if_pos (mem_univ _), neg_add, add_comm, sum_neg_distrib]

/-- One more site in `-R`. -/
theorem r_step (h : Car C D) (m i : Nat) (s : Bool) :
    -rSum t v C D (m + 1) i s = -rSum t v C D m i s + -rLoc t v C D m i s +
      ∑ s', ∑ k ∈ range m, C k s' * -pLoc v D m i k s s' + ∑ s', ∑ k ∈ range m, D k s' * -qLoc v C D m i k s s' +
      ∑ s', ∑ j ∈ range m, ∑ l ∈ range m, D l s' * D j s * ((-1 * v s s' i j m l) • C m s') +
      ∑ s', ∑ k ∈ range m, ∑ l ∈ range m, C k s' * D l s' * ((-1 * v s s' i m k l) • D m s) +
      ∑ s', ∑ j ∈ range m, ∑ k ∈ range m, C k s' * D j s * ((-1 * -1 * v s s' i j k m) • D m s') := by
  rw [rSum, r2, split3, sum_range_succ, ← r_a h, ← r_b, ← r_b' h, ← r_p, ← r_q h, rSum, r2, rLoc]
  abel

/-! ### H -/

theorem X_symm (h : Car C D) (hv : Sym2 v) (i j k l : Nat) : X v C D i j k l = X v C D k l i j := by
  rw [X, X, sum_comm]
  refine sum_congr rfl fun s' _ => sum_congr rfl fun s _ => ?_
  rw [hv.pair s s', h.cc i s k s', neg_mul, neg_mul, mul_assoc, mul_assoc, h.dd l s' j s, mul_neg, mul_neg, neg_neg, ← mul_assoc, ← mul_assoc]

/-- `2 X` without the factor. -/
theorem two_X (i j k l : Nat) : X v C D i j k l + X v C D i j k l = ∑ s, ∑ s', v s s' i j k l • (C i s * C k s' * D l s' * D j s) := by
  simp only [X, ← sum_add_distrib, half_add_half]

theorem h_rd (hv : Sym2 v) (m : Nat) :
    ∑ i ∈ range m, ∑ k ∈ range m, ∑ l ∈ range m, X v C D i m k l + ∑ i ∈ range m, ∑ k ∈ range m, ∑ l ∈ range m, X v C D i m k l = ∑ s, rd2 v C D m m s * D m s := by
  simp only [← sum_add_distrib, two_X, rd2, sum_mul]
  rw [sum_comm (s := univ)]
  refine sum_congr rfl fun i _ => ?_
  rw [sum_comm (s := univ), sum_comm]
  refine sum_congr rfl fun l _ => ?_
  rw [sum_comm (s := univ)]
  refine sum_congr rfl fun k _ => sum_congr rfl fun s _ => sum_congr rfl fun s' _ => ?_
  rw [smul_mul_assoc, hv.left, hv.right]

theorem h_r (h : Car C D) (m : Nat) :
    ∑ j ∈ range m, ∑ k ∈ range m, ∑ l ∈ range m, X v C D m j k l + ∑ j ∈ range m, ∑ k ∈ range m, ∑ l ∈ range m, X v C D m j k l = ∑ s, -r2 v C D m m s * C m s := by
  simp only [← sum_add_distrib, two_X, r2, neg_mul, sum_mul, sum_neg_distrib]
  rw [sum_comm (s := univ), ← sum_neg_distrib]
  refine sum_congr rfl fun j hj => ?_
  rw [sum_comm (s := univ), ← sum_neg_distrib]
  refine sum_congr rfl fun k hk => ?_
  rw [sum_comm (s := univ), ← sum_neg_distrib]
  refine sum_congr rfl fun l hl => ?_
  rw [← sum_neg_distrib]
  refine sum_congr rfl fun s _ => ?_
  rw [← sum_neg_distrib]
  refine sum_congr rfl fun s' _ => ?_
  simp only [mem_range] at hj hl
  rw [smul_mul_assoc, anti3 (h.cc k s' m s) (h.dc l s' m s (by omega)) (h.dc j s m s (by omega)), smul_neg, neg_neg]

theorem spins_out (m : Nat) (F : Bool → Bool → Nat → Nat → R) :
    ∑ sr, ∑ sl, ∑ j ∈ range m, ∑ k ∈ range m, F sl sr j k = ∑ j ∈ range m, ∑ k ∈ range m, ∑ sl, ∑ sr, F sl sr j k := by
  simp only [sumBool, sum_add_distrib]
  abel

theorem spin_out (m : Nat) (F : Bool → Nat → R) : ∑ s, ∑ j ∈ range m, F s j = ∑ j ∈ range m, ∑ s, F s j := sum_comm

theorem h_q (h : Car C D) (m : Nat) :
    ∑ i ∈ range m, ∑ j ∈ range m, X v C D i j m m + ∑ i ∈ range m, ∑ j ∈ range m, X v C D i j m m +
      (∑ i ∈ range m, ∑ l ∈ range m, X v C D i m m l + ∑ i ∈ range m, ∑ l ∈ range m, X v C D i m m l) =
    ∑ sr, ∑ sl, ∑ j ∈ range m, ∑ k ∈ range m, C j sl * D k sr * qLoc v C D m j k sl sr := by
  rw [spins_out]
  simp only [← sum_add_distrib, two_X]
  refine sum_congr rfl fun j hj => sum_congr rfl fun k hk => sum_congr rfl fun s _ => ?_
  have hk : k ≠ m := by simp at hk; omega
  have e : ∀ s', C j s * D k s' * qLoc v C D m j k s s' = v s s' j m m k • (C j s * C m s' * D k s' * D m s) +
      if s = s' then ∑ s', v s s' j k m m • (C j s * C m s' * D m s' * D k s) else 0 := by
    intro s'
    rw [qLoc, mul_add, mul_neg, mul_smul_comm]
    congr 1
    · rw [← smul_neg]
      congr 1
      rw [mul_assoc (C j s), ← mul_assoc (D k s'), h.dc k s' m s' hk, neg_mul, mul_neg, neg_neg]
      simp only [mul_assoc]
    · split_ifs with hs
      · subst hs
        rw [mul_sum]
        refine sum_congr rfl fun x _ => ?_
        rw [mul_smul_comm, mul_assoc (C j s), ← mul_assoc (D k s), ← anti2 (h.cd m x k s hk.symm) (h.dd m x k s)]
        simp only [mul_assoc]
      · rw [mul_zero]
  rw [sum_congr rfl fun x _ => e x, sum_add_distrib, sum_add_distrib, sum_ite_eq univ s, if_pos (mem_univ _), add_comm]

theorem h_p (m : Nat) : ∑ i ∈ range m, ∑ k ∈ range m, X v C D i m k m =
    ∑ sr, ∑ sl, ∑ j ∈ range m, ∑ k ∈ range m, C j sl * C k sr * ((1 / 2 : K) • pLoc v D m j k sl sr) := by
  rw [spins_out]
  refine sum_congr rfl fun j hj => sum_congr rfl fun k hk => sum_congr rfl fun s _ => sum_congr rfl fun s' _ => ?_
  rw [pLoc, smul_smul, mul_smul_comm]
  simp only [mul_assoc]

theorem h_pd (h : Car C D) (hv : Sym2 v) (m : Nat) : ∑ j ∈ range m, ∑ l ∈ range m, X v C D m j m l =
    ∑ sr, ∑ sl, ∑ j ∈ range m, ∑ k ∈ range m, D k sr * D j sl * ((1 / 2 : K) • pdLoc v C m j k sl sr) := by
  rw [spins_out]
  refine sum_congr rfl fun j hj => sum_congr rfl fun k hk => sum_congr rfl fun s _ => sum_congr rfl fun s' _ => ?_
  have hj : j ≠ m := by simp at hj; omega
  have hk : k ≠ m := by simp at hk; omega
  rw [pdLoc, smul_smul, mul_smul_comm, hv.left, hv.right, anti22 (h.dc k s' m s hk) (h.dc j s m s hj) (h.dc k s' m s' hk) (h.dc j s m s' hj)]
  simp only [mul_assoc]

theorem h_c (m : Nat) : ∑ i ∈ range m, X v C D i m m m + ∑ i ∈ range m, X v C D i m m m =
    ∑ s, ∑ j ∈ range m, C j s * ∑ s', v s s' j m m m • (C m s' * D m s' * D m s) := by
  rw [spin_out]
  simp only [← sum_add_distrib, two_X, mul_sum]
  refine sum_congr rfl fun j hj => sum_congr rfl fun s _ => sum_congr rfl fun s' _ => ?_
  rw [mul_smul_comm]
  simp only [mul_assoc]

theorem h_d (h : Car C D) (hv : Sym2 v) (m : Nat) : ∑ j ∈ range m, X v C D m j m m + ∑ j ∈ range m, X v C D m j m m =
    ∑ s, ∑ j ∈ range m, D j s * -∑ s', v s s' j m m m • (C m s * C m s' * D m s') := by
  rw [spin_out]
  simp only [← sum_add_distrib, two_X, mul_sum, mul_neg, ← sum_neg_distrib]
  refine sum_congr rfl fun j hj => sum_congr rfl fun s _ => sum_congr rfl fun s' _ => ?_
  have hj : m ≠ j := by simp at hj; omega
  rw [mul_smul_comm, hv.left, anti3 (h.cd m s j s hj) (h.cd m s' j s hj) (h.dd m s' j s), ← smul_neg, ]
  simp only [mul_assoc]

theorem h_t (h : Car C D) (m : Nat) :
    ∑ i ∈ range m, ∑ s, (1 / 2 * (t s i m + t s m i)) • (C i s * D m s) + ∑ j ∈ range m, ∑ s, (1 / 2 * (t s m j + t s j m)) • (C m s * D j s) =
      ∑ s, ∑ j ∈ range m, C j s * ((1 / 2 * t s j m) • D m s) + ∑ s, ∑ j ∈ range m, D j s * -((1 / 2 * t s j m) • C m s) +
      ∑ s, (∑ j ∈ range m, (1 / 2 * t s m j) • C j s) * D m s + ∑ s, -(∑ j ∈ range m, (1 / 2 * t s m j) • D j s) * C m s := by
  simp only [spin_out, sum_mul, ← sum_neg_distrib, ← sum_add_distrib]
  refine sum_congr rfl fun j hj => sum_congr rfl fun s _ => ?_
  have hj : j ≠ m := by simp at hj; omega
  rw [mul_neg, mul_smul_comm, mul_smul_comm, h.dc j s m s hj, smul_mul_assoc, neg_mul, smul_mul_assoc, h.dc j s m s hj]
  module

theorem cyc3 (m : Nat) (F : Nat → Nat → Nat → R) :
    ∑ i ∈ range m, ∑ j ∈ range m, ∑ k ∈ range m, F k i j = ∑ i ∈ range m, ∑ j ∈ range m, ∑ k ∈ range m, F i j k := by
  rw [sum_comm (f := fun i j => ∑ k ∈ range m, F i j k)]
  refine sum_congr rfl fun i _ => ?_
  rw [sum_comm (f := fun j k => F j i k), sum_comm]

theorem h_loc (m : Nat) : ∑ s, (1 / 2 * (t s m m + t s m m)) • (C m s * D m s) + X v C D m m m m = hLoc t v C D m := by
  rw [hLoc]
  congr 1
  refine sum_congr rfl fun s _ => ?_
  congr 1
  ring

/-- One more site in the Hamiltonian. -/
theorem h_step (h : Car C D) (hv : Sym2 v) (m : Nat) :
    hSum t v C D (m + 1) = hSum t v C D m + hLoc t v C D m +
      ∑ s, ∑ j ∈ range m, C j s * rLoc t v C D m j s + ∑ s, ∑ j ∈ range m, D j s * -rdLoc t v C D m j s +
      ∑ s, rdSum t v C D m m s * D m s + ∑ s, -rSum t v C D m m s * C m s +
      ∑ sr, ∑ sl, ∑ j ∈ range m, ∑ k ∈ range m, C j sl * C k sr * ((1 / 2 : K) • pLoc v D m j k sl sr) +
      ∑ sr, ∑ sl, ∑ j ∈ range m, ∑ k ∈ range m, D k sr * D j sl * ((1 / 2 : K) • pdLoc v C m j k sl sr) +
      ∑ sr, ∑ sl, ∑ j ∈ range m, ∑ k ∈ range m, C j sl * D k sr * qLoc v C D m j k sl sr := by
  have e1 : ∑ i ∈ range m, ∑ j ∈ range m, ∑ k ∈ range m, X v C D i j k m = ∑ i ∈ range m, ∑ k ∈ range m, ∑ l ∈ range m, X v C D i m k l := by
    rw [← cyc3 m fun i k l => X v C D i m k l]
    exact sum_congr rfl fun i _ => sum_congr rfl fun j _ => sum_congr rfl fun k _ => X_symm h hv _ _ _ _
  have e2 : ∑ i ∈ range m, ∑ j ∈ range m, ∑ l ∈ range m, X v C D i j m l = ∑ j ∈ range m, ∑ k ∈ range m, ∑ l ∈ range m, X v C D m j k l := by
    rw [← cyc3 m fun i k l => X v C D m i k l]
    exact sum_congr rfl fun i _ => sum_congr rfl fun j _ => sum_congr rfl fun k _ => X_symm h hv _ _ _ _
  have e3 : ∑ j ∈ range m, ∑ k ∈ range m, X v C D m j k m = ∑ i ∈ range m, ∑ l ∈ range m, X v C D i m m l := by
    rw [sum_comm]
    exact sum_congr rfl fun i _ => sum_congr rfl fun j _ => X_symm h hv _ _ _ _
  have e4 : ∑ k ∈ range m, ∑ l ∈ range m, X v C D m m k l = ∑ i ∈ range m, ∑ j ∈ range m, X v C D i j m m :=
    sum_congr rfl fun i _ => sum_congr rfl fun j _ => X_symm h hv _ _ _ _
  have e5 : ∑ k ∈ range m, X v C D m m k m = ∑ i ∈ range m, X v C D i m m m := sum_congr rfl fun i _ => X_symm h hv _ _ _ _
  have e6 : ∑ l ∈ range m, X v C D m m m l = ∑ j ∈ range m, X v C D m j m m := sum_congr rfl fun i _ => X_symm h hv _ _ _ _
  rw [← h_p, ← h_pd h hv, ← h_q h]
  simp only [rLoc, rdLoc, rdSum, rSum, mul_add, add_mul, neg_add, sum_add_distrib]
  rw [← h_rd hv, ← h_r h, ← h_c, ← h_d h hv, ← h_loc]
  have ht := h_t (t := t) h m
  rw [hSum, split2, split4, e1, e2, e3, e4, e5, e6, hSum]
  rw [← sub_eq_zero] at ht ⊢
  rw [← ht]
  abel

end ConvAlg
end Verif
