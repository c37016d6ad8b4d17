import Verif.Model.Fuse
import Verif.Proof.Index

/-! Row-major positions. -/

namespace Verif

theorem inBox_prod_pos {s i : List Nat} (h : inBox s i = true) : 0 < s.prod := by
  induction s generalizing i with
  | nil => simp
  | cons a t ih =>
    cases i with
    | nil => simp [inBox] at h
    | cons b u =>
      simp only [inBox, Bool.and_eq_true, decide_eq_true_eq] at h
      have := ih h.2
      simp only [List.prod_cons]
      exact Nat.mul_pos (by omega) this

theorem ravel_lt {s i : List Nat} (h : inBox s i = true) : ravel s i < s.prod := by
  induction s generalizing i with
  | nil => simp [ravel]
  | cons a t ih =>
    cases i with
    | nil => simp [inBox] at h
    | cons b u =>
      simp only [inBox, Bool.and_eq_true, decide_eq_true_eq] at h
      have := ih h.2
      simp only [ravel, List.prod_cons]
      calc b * t.prod + ravel t u < b * t.prod + t.prod := by omega
        _ = (b + 1) * t.prod := by ring
        _ ≤ a * t.prod := Nat.mul_le_mul_right _ (by omega)

theorem unravel_ravel {s i : List Nat} (h : inBox s i = true) : unravel s (ravel s i) = i := by
  induction s generalizing i with
  | nil => cases i <;> simp_all [inBox, unravel]
  | cons a t ih =>
    cases i with
    | nil => simp [inBox] at h
    | cons b u =>
      simp only [inBox, Bool.and_eq_true, decide_eq_true_eq] at h
      have hl := ravel_lt h.2
      have hp := inBox_prod_pos h.2
      simp only [ravel, unravel]
      have h1 : (b * t.prod + ravel t u) / t.prod = b := by
        rw [Nat.mul_comm, Nat.mul_add_div hp, Nat.div_eq_of_lt hl, Nat.add_zero]
      have h2 : (b * t.prod + ravel t u) % t.prod = ravel t u := by
        rw [Nat.mul_comm, Nat.mul_add_mod, Nat.mod_eq_of_lt hl]
      rw [h1, h2, ih h.2]

theorem inBox_unravel {s : List Nat} {k : Nat} (h : k < s.prod) : inBox s (unravel s k) = true := by
  induction s generalizing k with
  | nil => simp [unravel, inBox]
  | cons a t ih =>
    simp only [List.prod_cons] at h
    have hp : 0 < t.prod := Nat.pos_of_ne_zero (by intro h0; rw [h0] at h; simp at h)
    simp only [unravel, inBox, Bool.and_eq_true, decide_eq_true_eq]
    refine ⟨?_, ih (Nat.mod_lt _ hp)⟩
    rw [Nat.div_lt_iff_lt_mul hp]; exact h

theorem ravel_unravel {s : List Nat} {k : Nat} (h : k < s.prod) : ravel s (unravel s k) = k := by
  induction s generalizing k with
  | nil => simp at h; simp [ravel, h]
  | cons a t ih =>
    simp only [List.prod_cons] at h
    have hp : 0 < t.prod := Nat.pos_of_ne_zero (by intro h0; rw [h0] at h; simp at h)
    simp only [unravel, ravel]
    rw [ih (Nat.mod_lt _ hp), Nat.mul_comm]
    exact Nat.div_add_mod k t.prod

theorem unravel_length (s : List Nat) (k : Nat) : (unravel s k).length = s.length := by
  induction s generalizing k with
  | nil => rfl
  | cons a t ih => simp [unravel, ih]

theorem ravel_append {s1 s2 i1 i2 : List Nat} (h : i1.length = s1.length) :
    ravel (s1 ++ s2) (i1 ++ i2) = ravel s1 i1 * s2.prod + ravel s2 i2 := by
  induction s1 generalizing i1 with
  | nil =>
    have : i1 = [] := by simpa using h
    subst this; simp [ravel]
  | cons a t ih =>
    cases i1 with
    | nil => simp at h
    | cons b u =>
      simp only [List.cons_append, ravel, ih (by simpa using h), List.prod_append]
      ring

/-- Grouping consecutive axes into one does not move entries in row-major order. -/
theorem ravel_group {l s r il is ir : List Nat} (hl : il.length = l.length) (hs : is.length = s.length) :
    ravel (l ++ s ++ r) (il ++ is ++ ir) = ravel (l ++ [s.prod] ++ r) (il ++ [ravel s is] ++ ir) := by
  rw [ravel_append (by simp [hl, hs]), ravel_append hl, ravel_append (s1 := l ++ [s.prod]) (by simp [hl]),
    ravel_append hl]
  simp [ravel]

theorem reshape_group {l s r il ir : List Nat} {j : Nat} (hl : inBox l il = true)
    (hj : j < s.prod) (hr : inBox r ir = true) :
    unravel (l ++ s ++ r) (ravel (l ++ [s.prod] ++ r) (il ++ [j] ++ ir)) = il ++ unravel s j ++ ir := by
  have hll := inBox_length hl
  have := ravel_group (l := l) (s := s) (r := r) (il := il) (is := unravel s j) (ir := ir) hll
    (unravel_length s j)
  rw [ravel_unravel hj] at this
  rw [← this]
  apply unravel_ravel
  rw [inBox_append (by simp [hll, unravel_length]), inBox_append hll]
  simp [hl, hr, inBox_unravel hj]

theorem reshape_ungroup {l s r il is ir : List Nat} (hl : inBox l il = true)
    (hs : inBox s is = true) (hr : inBox r ir = true) :
    unravel (l ++ [s.prod] ++ r) (ravel (l ++ s ++ r) (il ++ is ++ ir)) = il ++ [ravel s is] ++ ir := by
  have hll := inBox_length hl
  rw [ravel_group hll (inBox_length hs)]
  apply unravel_ravel
  rw [inBox_append (by simp [hll]), inBox_append hll]
  simp [hl, hr, inBox, ravel_lt hs]

end Verif
