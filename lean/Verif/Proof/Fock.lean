import Verif.Spec.Fock
import Verif.Proof.SiteOps
import Mathlib.Data.Fintype.BigOperators
import Mathlib.Data.Fintype.Pi
import Mathlib.Algebra.BigOperators.Pi

/-!
Lemmas on fermionic operators between occupation-number states: anticommutation, products as products of matrices, and the matrices of the operators
of one site.
-/

set_option linter.unusedSectionVars false

namespace Verif
namespace Fock

/-- Sign of the number of occupied modes. -/
def sgn (v : List Bool) : Int := (-1) ^ v.count true

theorem sgn_append (a b : List Bool) : sgn (a ++ b) = sgn a * sgn b := by
  simp [sgn, pow_add]

theorem sgn_set (v : List Bool) (m : Nat) (b : Bool) (h : v[m]? = some (!b)) : sgn (v.set m b) = -sgn v := by
  induction v generalizing m with
  | nil => simp at h
  | cons a t ih =>
    cases m with
    | zero =>
      simp only [List.getElem?_cons_zero, Option.some.injEq] at h
      subst h
      cases b <;> simp [sgn, pow_succ]
    | succ m =>
      have := ih m (by simpa using h)
      simp only [sgn, List.set_cons_succ] at this ⊢
      rw [List.count_cons, List.count_cons, pow_add, pow_add, this, neg_mul]

theorem act_some {o : Op} {v : List Bool} (h : v[o.2]? = some (!o.1)) : act o v = some (sgn (v.take o.2), v.set o.2 o.1) := by
  unfold act
  have : v.getD o.2 o.1 = !o.1 := by simp [List.getD_eq_getElem?_getD, h]
  rw [this]
  simp [sgn]

theorem act_none {o : Op} {v : List Bool} (h : v[o.2]? ≠ some (!o.1)) : act o v = none := by
  unfold act
  rw [if_pos]
  rw [List.getD_eq_getElem?_getD]
  cases e : v[o.2]? with
  | none => rfl
  | some x =>
    rw [e] at h
    cases x <;> cases ho : o.1 <;> simp_all

/-- Operators of different modes anticommute. -/
theorem car_aux {o o' : Op} (h : o.2 < o'.2) (v : List Bool) :
    actAll [o, o'] v = (actAll [o', o] v).map fun r => (-r.1, r.2) := by
  have hne : o'.2 ≠ o.2 := by omega
  simp only [actAll, one_mul]
  by_cases h1 : v[o.2]? = some (!o.1) <;> by_cases h2 : v[o'.2]? = some (!o'.1)
  · rw [act_some h1, act_some h2]
    have g1 : (v.set o'.2 o'.1)[o.2]? = some (!o.1) := by rw [List.getElem?_set_ne hne]; exact h1
    have g2 : (v.set o.2 o.1)[o'.2]? = some (!o'.1) := by rw [List.getElem?_set_ne hne.symm]; exact h2
    simp only [act_some g1, act_some g2, Option.map_some, Option.some.injEq, Prod.mk.injEq]
    refine ⟨?_, List.set_comm _ _ hne⟩
    rw [List.take_set_of_le (by omega), List.take_set, sgn_set _ _ _ (by rw [List.getElem?_take_of_lt h]; exact h1)]
    ring
  · rw [act_none h2, act_some h1]
    have g2 : (v.set o.2 o.1)[o'.2]? ≠ some (!o'.1) := by rw [List.getElem?_set_ne hne.symm]; exact h2
    simp [act_none g2]
  · rw [act_some h2, act_none h1]
    have g1 : (v.set o'.2 o'.1)[o.2]? ≠ some (!o.1) := by rw [List.getElem?_set_ne hne]; exact h1
    simp [act_none g1]
  · rw [act_none h2, act_none h1]
    simp

theorem car {o o' : Op} (h : o.2 ≠ o'.2) (u v : List Bool) : element [o, o'] u v = -element [o', o] u v := by
  have : ∀ {o o' : Op}, o.2 < o'.2 → element [o, o'] u v = -element [o', o] u v := by
    intro o o' h
    unfold element
    rw [car_aux h]
    cases actAll [o', o] v with
    | none => simp
    | some r =>
      obtain ⟨s, w⟩ := r
      simp only [Option.map_some]
      split_ifs <;> simp
  rcases Nat.lt_or_gt_of_ne h with h | h
  · exact this h
  · rw [this (o := o') (o' := o) h, neg_neg]

theorem length_act {o : Op} {v : List Bool} {s : Int} {w : List Bool} (h : act o v = some (s, w)) : w.length = v.length := by
  unfold act at h
  split_ifs at h
  simp only [Option.some.injEq, Prod.mk.injEq] at h
  rw [← h.2, List.length_set]

theorem length_actAll (w : List Op) {v v' : List Bool} {s : Int} (h : actAll w v = some (s, v')) : v'.length = v.length := by
  induction w generalizing v' s with
  | nil =>
    simp only [actAll, Option.some.injEq, Prod.mk.injEq] at h
    rw [h.2]
  | cons o w ih =>
    unfold actAll at h
    cases h1 : actAll w v with
    | none => simp [h1] at h
    | some r =>
      obtain ⟨s1, v1⟩ := r
      simp only [h1] at h
      cases h2 : act o v1 with
      | none => simp [h2] at h
      | some r2 =>
        obtain ⟨s2, v2⟩ := r2
        simp only [h2, Option.some.injEq, Prod.mk.injEq] at h
        rw [← h.2, length_act h2, ih h1]

section
variable {n : Nat}

theorem length_modes (u : Fin n → Bool × Bool) : (modes u).length = 2 * n := by simp [modes]

theorem getElem?_modes (u : Fin n → Bool × Bool) (i : Fin n) (s : Bool) :
    (modes u)[2 * i.1 + s.toNat]? = some (if s then (u i).2 else (u i).1) := by
  have hi := i.2
  have h : 2 * i.1 + s.toNat < 2 * n := by cases s <;> simp <;> omega
  unfold modes
  rw [List.getElem?_ofFn, dif_pos h]
  congr 1
  cases s
  · have h1 : (2 * i.1 + false.toNat) % 2 = 0 := by simp
    have h2 : (⟨(2 * i.1 + false.toNat) / 2, by simp⟩ : Fin n) = i := Fin.ext (by simp)
    simp only [h1, if_true, Bool.false_eq_true, if_false]
    rw [h2]
  · have h1 : (2 * i.1 + true.toNat) % 2 = 1 := by simp [Nat.add_mod]
    have h2 : (⟨(2 * i.1 + true.toNat) / 2, by simp; omega⟩ : Fin n) = i := Fin.ext (by simp; omega)
    simp only [h1, if_true, one_ne_zero, if_false]
    rw [h2]

theorem mode_split {k n : Nat} (h : k < 2 * n) : ∃ (i : Fin n) (s : Bool), k = 2 * i.1 + s.toNat := by
  refine ⟨⟨k / 2, by omega⟩, decide (k % 2 = 1), ?_⟩
  simp only
  by_cases e : k % 2 = 1
  · simp only [e, decide_true, Bool.toNat_true]
    omega
  · simp only [e, decide_false, Bool.toNat_false]
    omega

theorem modes_ext {u : Fin n → Bool × Bool} {v : List Bool} (hl : v.length = 2 * n)
    (h : ∀ (i : Fin n) (s : Bool), v[2 * i.1 + s.toNat]? = some (if s then (u i).2 else (u i).1)) : v = modes u := by
  apply List.ext_getElem?
  intro k
  by_cases hk : k < 2 * n
  · obtain ⟨i, s, rfl⟩ := mode_split hk
    rw [h, getElem?_modes]
  · rw [List.getElem?_eq_none (by omega), List.getElem?_eq_none (by rw [length_modes]; omega)]

theorem modes_injective : Function.Injective (modes (n := n)) := by
  intro u v h
  funext i
  have h1 := getElem?_modes u i false
  have h2 := getElem?_modes u i true
  rw [h, getElem?_modes] at h1 h2
  simp only [Option.some.injEq, Bool.false_eq_true, if_false, if_true] at h1 h2
  exact (Prod.ext h1 h2).symm

theorem modes_surjective (v : List Bool) (h : v.length = 2 * n) : ∃ u : Fin n → Bool × Bool, v = modes u := by
  refine ⟨fun i => (v.getD (2 * i.1) false, v.getD (2 * i.1 + 1) false), modes_ext h ?_⟩
  intro i s
  have := i.2
  cases s
  · have : 2 * i.1 < v.length := by omega
    simp [this]
  · have : 2 * i.1 + 1 < v.length := by omega
    simp [this]

variable {K : Type} [Field K]

/-- The matrix of a product of operators between the states of `n` sites. -/
def fockMat (n : Nat) (w : List Op) : Matrix (Fin n → Bool × Bool) (Fin n → Bool × Bool) K := fun u d => (element w (modes u) (modes d) : K)

theorem fockMat_cons (o : Op) (w : List Op) : fockMat (K := K) n (o :: w) = fockMat n [o] * fockMat n w := by
  funext u d
  rw [Matrix.mul_apply]
  unfold fockMat element
  simp only [actAll]
  cases h : actAll w (modes d) with
  | none => simp
  | some r =>
    obtain ⟨s, v⟩ := r
    obtain ⟨m, rfl⟩ := modes_surjective v ((length_actAll w h).trans (length_modes d))
    rw [Finset.sum_eq_single m]
    · simp only [if_true]
      cases act o (modes m) with
      | none => simp
      | some r2 =>
        obtain ⟨s2, v2⟩ := r2
        simp only [one_mul]
        split_ifs
        · push_cast
          ring
        · simp
    · intro m' _ hm
      have : modes m ≠ modes m' := fun h => hm (modes_injective h).symm
      simp [this]
    · simp

theorem fockMat_nil : fockMat (K := K) n [] = 1 := by
  funext u d
  unfold fockMat element
  simp only [actAll, Matrix.one_apply]
  by_cases h : u = d
  · simp [h]
  · have : modes d ≠ modes u := fun e => h (modes_injective e).symm
    simp [h, this]

theorem fockMat_prod (w : List Op) : fockMat (K := K) n w = (w.map fun o => fockMat n [o]).prod := by
  induction w with
  | nil => simp [fockMat_nil]
  | cons o w ih => rw [fockMat_cons, ih, List.map_cons, List.prod_cons]

theorem fockMat_car {o o' : Op} (h : o.2 ≠ o'.2) : fockMat (K := K) n [o] * fockMat n [o'] = -(fockMat n [o'] * fockMat n [o]) := by
  rw [← fockMat_cons, ← fockMat_cons]
  funext u d
  simp [fockMat, car h]

/-! ### Operators of one site -/

/-- Parity of the fermions on the sites before `k`. -/
def parBelow (d : Fin n → Bool × Bool) : Nat → Bool
  | 0 => false
  | k + 1 => if h : k < n then xor (parBelow d k) (xor (d ⟨k, h⟩).1 (d ⟨k, h⟩).2) else parBelow d k

theorem parBelow_congr {u d : Fin n → Bool × Bool} {k : Nat} (h : ∀ j : Fin n, j.1 < k → u j = d j) : parBelow u k = parBelow d k := by
  induction k with
  | zero => rfl
  | succ k ih =>
    unfold parBelow
    rw [ih fun j hj => h j (by omega)]
    split_ifs with hk
    · rw [h ⟨k, hk⟩ (by simp)]
    · rfl

theorem sgn_modes (d : Fin n → Bool × Bool) (k : Nat) (hk : k ≤ n) : sgn ((modes d).take (2 * k)) = if parBelow d k then -1 else 1 := by
  induction k with
  | zero => simp [sgn, parBelow]
  | succ k ih =>
    have h := ih (by omega)
    have h1 := getElem?_modes d ⟨k, by omega⟩ false
    have h2 := getElem?_modes d ⟨k, by omega⟩ true
    simp only [Bool.toNat_false, Bool.toNat_true, add_zero, Bool.false_eq_true, if_false, if_true] at h1 h2
    have : (modes d).take (2 * (k + 1)) = (modes d).take (2 * k) ++ [(d ⟨k, by omega⟩).1] ++ [(d ⟨k, by omega⟩).2] := by
      rw [show 2 * (k + 1) = 2 * k + 1 + 1 by ring, List.take_add_one, List.take_add_one, h1, h2]
      rfl
    rw [this, sgn_append, sgn_append, h, parBelow, dif_pos (by omega)]
    cases parBelow d k <;> cases (d ⟨k, by omega⟩).1 <;> cases (d ⟨k, by omega⟩).2 <;> simp [sgn]

/-- An operator of site `i` with even part `A` and odd part `B`, as an operator on all sites: the odd part anticommutes with the fermions before the site. -/
def emb (i : Fin n) (A B : Matrix (Bool × Bool) (Bool × Bool) K) : Matrix (Fin n → Bool × Bool) (Fin n → Bool × Bool) K := fun u d =>
  if (∀ j, j ≠ i → u j = d j) then A (u i) (d i) + (if parBelow d i then -1 else 1) * B (u i) (d i) else 0

theorem fockMat_one (i : Fin n) (b s : Bool) : fockMat (K := K) n [(b, 2 * i.1 + s.toNat)] = emb i 0 (Hamiltonian.spinMat b s) := by
  funext u d
  have hi := i.2
  unfold fockMat element emb
  simp only [actAll]
  have hd := getElem?_modes d i s
  have hocc : (if s then (d i).2 else (d i).1) = Hamiltonian.occOf s (d i).1 (d i).2 := by cases s <;> rfl
  rw [hocc] at hd
  by_cases h : Hamiltonian.occOf s (d i).1 (d i).2 = !b
  · rw [h] at hd
    rw [act_some (o := (b, 2 * i.1 + s.toNat)) hd]
    simp only [one_mul]
    have hset : ((modes d).set (2 * i.1 + s.toNat) b = modes u) ↔ (∀ j, j ≠ i → u j = d j) ∧ Hamiltonian.occOf s (u i).1 (u i).2 = b ∧
        Hamiltonian.occOf (!s) (d i).1 (d i).2 = Hamiltonian.occOf (!s) (u i).1 (u i).2 := by
      constructor
      · intro e
        refine ⟨?_, ?_, ?_⟩
        · intro j hj
          have hj' : j.1 ≠ i.1 := fun h => hj (Fin.ext h)
          have k1 := getElem?_modes u j false
          have k2 := getElem?_modes u j true
          rw [← e, List.getElem?_set_ne (by cases s <;> simp <;> omega), getElem?_modes] at k1 k2
          simp only [Option.some.injEq, Bool.false_eq_true, if_false, if_true] at k1 k2
          exact (Prod.ext k1 k2).symm
        · have k := getElem?_modes u i s
          rw [← e, List.getElem?_set_self (by rw [length_modes]; cases s <;> simp <;> omega)] at k
          simp only [Option.some.injEq] at k
          rw [k]
          cases s <;> rfl
        · have k := getElem?_modes u i (!s)
          rw [← e, List.getElem?_set_ne (by cases s <;> simp), getElem?_modes] at k
          simp only [Option.some.injEq] at k
          cases s <;> simpa [Hamiltonian.occOf] using k
      · rintro ⟨h1, h2, h3⟩
        refine modes_ext (by rw [List.length_set, length_modes]) fun j t => ?_
        by_cases hj : j = i
        · subst hj
          by_cases ht : t = s
          · subst ht
            rw [List.getElem?_set_self (by rw [length_modes]; cases t <;> simp <;> omega), ← h2]
            cases t <;> rfl
          · have ht' : t = !s := by cases t <;> cases s <;> first | rfl | exact absurd rfl ht
            subst ht'
            rw [List.getElem?_set_ne (by cases s <;> simp), getElem?_modes]
            cases s <;> simpa [Hamiltonian.occOf] using h3
        · have hj' : j.1 ≠ i.1 := fun h => hj (Fin.ext h)
          have hne : 2 * i.1 + s.toNat ≠ 2 * j.1 + t.toNat := by
            have := s.toNat_lt
            have := t.toNat_lt
            omega
          rw [List.getElem?_set_ne hne, getElem?_modes, h1 j hj]
    have hsgn : sgn ((modes d).take (2 * i.1 + s.toNat)) = (if parBelow d i then -1 else 1) * (if s && (d i).1 then -1 else 1) := by
      have h1 := getElem?_modes d i false
      simp only [Bool.toNat_false, add_zero, Bool.false_eq_true, if_false] at h1
      cases s
      · simp [sgn_modes d i.1 (by omega)]
      · rw [Bool.toNat_true, List.take_add_one, h1, sgn_append, sgn_modes d i.1 (by omega)]
        cases (d i).1 <;> simp [sgn]
    by_cases h1 : ∀ j, j ≠ i → u j = d j
    · rw [if_pos h1]
      simp only [Hamiltonian.spinMat, Matrix.zero_apply, zero_add, h, true_and]
      by_cases h2 : Hamiltonian.occOf s (u i).1 (u i).2 = b ∧ Hamiltonian.occOf (!s) (d i).1 (d i).2 = Hamiltonian.occOf (!s) (u i).1 (u i).2
      · rw [if_pos (hset.2 ⟨h1, h2⟩), if_pos h2, hsgn]
        unfold Hamiltonian.spinSign
        push_cast
        split_ifs <;> simp
      · rw [if_neg fun e => h2 (hset.1 e).2, if_neg h2]
        simp
    · rw [if_neg h1, if_neg fun e => h1 (hset.1 e).1]
      simp
  · rw [act_none (o := (b, 2 * i.1 + s.toNat)) (by rw [hd]; simpa using h)]
    simp [Hamiltonian.spinMat, h]

theorem emb_add (i : Fin n) (A B A' B' : Matrix (Bool × Bool) (Bool × Bool) K) : emb i (A + A') (B + B') = emb i A B + emb i A' B' := by
  funext u d
  simp only [emb, Matrix.add_apply]
  split_ifs <;> ring

theorem emb_smul (i : Fin n) (c : K) (A B : Matrix (Bool × Bool) (Bool × Bool) K) : emb i (c • A) (c • B) = c • emb i A B := by
  funext u d
  simp only [emb, Matrix.smul_apply, smul_eq_mul]
  split_ifs <;> ring

theorem emb_zero (i : Fin n) : emb i (0 : Matrix (Bool × Bool) (Bool × Bool) K) 0 = 0 := by
  funext u d
  simp [emb]

theorem emb_one (i : Fin n) : emb i (1 : Matrix (Bool × Bool) (Bool × Bool) K) 0 = 1 := by
  funext u d
  simp only [emb, Matrix.zero_apply, mul_zero, add_zero, Matrix.one_apply]
  by_cases h : u = d
  · subst h; simp
  · rw [if_neg h]
    split_ifs with h1 h2
    · exact absurd (funext fun j => by
        by_cases e : j = i
        · rw [e]; exact h2
        · exact h1 j e) h
    · rfl
    · rfl

/-- A sum over the states that differ from `d` on site `i` only. -/
theorem sum_site (i : Fin n) (d : Fin n → Bool × Bool) (f : (Fin n → Bool × Bool) → K) (hf : ∀ m, (¬ ∀ j, j ≠ i → m j = d j) → f m = 0) :
    ∑ m, f m = ∑ x : Bool × Bool, f (Function.update d i x) := by
  symm
  refine Finset.sum_bij_ne_zero (fun x _ _ => Function.update d i x) (fun _ _ _ => Finset.mem_univ _) ?_ ?_ (fun _ _ _ => rfl)
  · intro x _ _ y _ _ h
    have := congrFun h i
    simpa using this
  · intro m _ hm
    have h : ∀ j, j ≠ i → m j = d j := by
      by_contra h
      exact hm (hf m h)
    have e : Function.update d i (m i) = m := by
      funext j
      by_cases hj : j = i
      · subst hj; simp
      · rw [Function.update_of_ne hj, h j hj]
    exact ⟨m i, Finset.mem_univ _, by rw [e]; exact hm, e⟩

theorem emb_mul (i : Fin n) (A B A' B' : Matrix (Bool × Bool) (Bool × Bool) K) :
    emb i A B * emb i A' B' = emb i (B * B' + A * A') (B * A' + A * B') := by
  funext u d
  rw [Matrix.mul_apply, sum_site i d]
  · have hp : ∀ x, parBelow (Function.update d i x) i = parBelow d i := fun x => parBelow_congr fun j hj => by
      rw [Function.update_of_ne]
      intro e
      rw [e] at hj
      omega
    have h1 : ∀ x, (∀ j, j ≠ i → Function.update d i x j = d j) := fun x j hj => by rw [Function.update_of_ne hj]
    have h2 : ∀ x, (∀ j, j ≠ i → u j = Function.update d i x j) ↔ ∀ j, j ≠ i → u j = d j := fun x => by
      constructor
      · intro h j hj
        rw [h j hj, h1 x j hj]
      · intro h j hj
        rw [h j hj, h1 x j hj]
    simp only [emb, h2, hp, Function.update_self]
    by_cases h : ∀ j, j ≠ i → u j = d j
    · simp only [if_pos h, Matrix.add_apply, Matrix.mul_apply]
      rw [mul_add, Finset.mul_sum, Finset.mul_sum, ← Finset.sum_add_distrib, ← Finset.sum_add_distrib, ← Finset.sum_add_distrib]
      refine Finset.sum_congr rfl fun x _ => ?_
      rw [if_pos fun j hj => h1 x j hj]
      split_ifs <;> ring
    · simp only [if_neg h, zero_mul, Finset.sum_const_zero]
  · intro m hm
    rw [emb, emb, if_neg hm, mul_zero]

end
end Fock
end Verif
