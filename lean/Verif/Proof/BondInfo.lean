import Verif.Model.BondInfo
import Verif.Proof.Dict
import Verif.Spec.Basic
import Mathlib.Algebra.BigOperators.Group.List.Basic
import Mathlib.Algebra.BigOperators.Ring.List

/-! Helper lemmas about the bond model. -/

namespace Verif
namespace Dict
variable {α β γ : Type} [DecidableEq α]

/-- A loop `for k, v in d.items(): if p: r[k] = f`. -/
theorem get?_foldl_set (p : α → β → Bool) (f : α → β → γ) (d : Dict α β) (hd : WF d)
    (r : Dict α γ) (q : α) :
    get? (d.foldl (fun r (x : α × β) => if p x.1 x.2 then set r x.1 (f x.1 x.2) else r) r) q =
      ((get? d q).bind fun v => if p q v then some (f q v) else none).or (get? r q) := by
  induction d generalizing r with
  | nil => simp
  | cons x t ih =>
    obtain ⟨k, v⟩ := x
    simp only [WF, List.map_cons, List.nodup_cons] at hd
    simp only [List.foldl_cons]
    rw [ih hd.2]
    by_cases h : k = q
    · subst h
      have : get? t k = none := (get?_eq_none_iff t k).2 hd.1
      simp only [this, get?_cons, if_true]
      by_cases h1 : p k v <;> simp [h1]
    · have hr : get? (if p k v = true then set r k (f k v) else r) q = get? r q := by
        split_ifs
        · exact get?_set_ne r h _
        · rfl
      simp only [get?_cons, if_neg h, hr]

theorem WF_foldl_set (p : α → β → Bool) (f : α → β → γ) (d : Dict α β) (r : Dict α γ) (hr : WF r) :
    WF (d.foldl (fun r (x : α × β) => if p x.1 x.2 then set r x.1 (f x.1 x.2) else r) r) := by
  induction d generalizing r with
  | nil => simpa
  | cons x t ih =>
    simp only [List.foldl_cons]
    apply ih
    split_ifs
    · exact hr.set _ _
    · exact hr

end Dict

namespace BondInfo
variable {Q : Type} [DecidableEq Q]

section
variable [Add Q]

theorem count_inner (ok : Q → Bool) (ka : Q) (va : Nat) (b : BondInfo Q) (r : BondInfo Q) (q : Q) :
    Counter.count (b.foldl (fun quanta (x : Q × Nat) =>
      if ok (ka + x.1) then Counter.incr quanta (ka + x.1) (va * x.2) else quanta) r) q =
    Counter.count r q +
      (if ok q then (b.map fun y => if ka + y.1 = q then va * y.2 else 0).sum else 0) := by
  induction b generalizing r with
  | nil => simp
  | cons x t ih =>
    simp only [List.foldl_cons]
    rw [ih]
    by_cases h : ka + x.1 = q
    · subst h
      by_cases h2 : ok (ka + x.1) <;> simp [h2, Counter.count_incr]; omega
    · by_cases h2 : ok q <;> by_cases h3 : ok (ka + x.1) <;> simp [h, h2, h3, Counter.count_incr]

theorem sum_inner (ka : Q) (va : Nat) (b : BondInfo Q) (r : BondInfo Q) :
    (Dict.values (b.foldl (fun quanta (x : Q × Nat) =>
      Counter.incr quanta (ka + x.1) (va * x.2)) r)).sum =
    (Dict.values r).sum + va * (Dict.values b).sum := by
  induction b generalizing r with
  | nil => simp [Dict.values]
  | cons x t ih =>
    simp only [List.foldl_cons]
    rw [ih, Counter.sum_values_incr]
    simp only [Dict.values, List.map_cons, List.sum_cons]
    rw [Nat.mul_add]; omega

end

end BondInfo
end Verif
