import Verif.Model.Expr
import Verif.Proof.Py
import Verif.Proof.Index
import Mathlib.Algebra.Algebra.Basic
import Mathlib.Tactic.Ring
import Mathlib.Tactic.NoncommRing

/-!
Properties C27 and C28: symbolic operator expressions.

A symbol stands for an element `v name site` of some algebra `R` over the numbers `K`.  The quantum label of a symbol plays no
role, as equality of symbols in the code ignores it.
-/

set_option linter.unusedSectionVars false

namespace Verif
variable {N L K R : Type} [CommRing K] [Ring R] [Algebra K R]

/-! ### Specification: the value of an expression -/

/-- Value of one symbol. -/
def evalElem (v : N → List Int → R) (e : OpElement N L K) : R := algebraMap K R e.factor * v e.name e.site

/-- Value of a string: factor times the product of the symbols in order. -/
def evalString (v : N → List Int → R) (s : OpString N L K) : R :=
  algebraMap K R s.factor * (s.ops.map (evalElem v)).prod

/-- Value of any expression. -/
def evalVal (v : N → List Int → R) : OpVal N L K → R
  | .num c => algebraMap K R c
  | .elem e => evalElem v e
  | .str s => evalString v s
  | .sum l => (l.map fun x => (x.map (evalString v)).getD 0).sum

/-! ### C27 -/

theorem tupleLe_total (a b : List Int) : tupleLe a b = true ∨ tupleLe b a = true := by
  induction a generalizing b with
  | nil => simp [tupleLe]
  | cons x s ih =>
    cases b with
    | nil => simp [tupleLe]
    | cons y t =>
      simp only [tupleLe, Bool.or_eq_true, decide_eq_true_eq, Bool.and_eq_true]
      rcases lt_trichotomy x y with h | h | h
      · exact Or.inl (Or.inl h)
      · rcases ih t with h' | h'
        · exact Or.inl (Or.inr ⟨h, h'⟩)
        · exact Or.inr (Or.inr ⟨h.symm, h'⟩)
      · exact Or.inr (Or.inl h)

theorem tupleLe_trans (a b c : List Int) (h1 : tupleLe a b = true) (h2 : tupleLe b c = true) : tupleLe a c = true := by
  induction a generalizing b c with
  | nil => simp [tupleLe]
  | cons x s ih =>
    cases b with
    | nil => simp [tupleLe] at h1
    | cons y t =>
      cases c with
      | nil => simp [tupleLe] at h2
      | cons z u =>
        simp only [tupleLe, Bool.or_eq_true, decide_eq_true_eq, Bool.and_eq_true] at h1 h2 ⊢
        rcases h1 with h1 | ⟨h1, h1'⟩
        · rcases h2 with h2 | ⟨h2, _⟩
          · exact Or.inl (h1.trans h2)
          · exact Or.inl (h2 ▸ h1)
        · rcases h2 with h2 | ⟨h2, h2'⟩
          · exact Or.inl (h1 ▸ h2)
          · exact Or.inr ⟨h1.trans h2, ih t u h1' h2'⟩

theorem tupleLe_antisymm (a b : List Int) (h1 : tupleLe a b = true) (h2 : tupleLe b a = true) : a = b := by
  induction a generalizing b with
  | nil => cases b with
    | nil => rfl
    | cons => simp [tupleLe] at h2
  | cons x s ih =>
    cases b with
    | nil => simp [tupleLe] at h1
    | cons y t =>
      simp only [tupleLe, Bool.or_eq_true, decide_eq_true_eq, Bool.and_eq_true] at h1 h2
      rcases h1 with h1 | ⟨h1, h1'⟩
      · rcases h2 with h2 | ⟨h2, _⟩ <;> omega
      · rcases h2 with h2 | ⟨_, h2'⟩
        · omega
        · rw [h1, ih t h1' h2']

theorem tupleLe_refl (a : List Int) : tupleLe a a = true := by
  rcases tupleLe_total a a with h | h <;> exact h

/-- Comparison of operators by site. -/
abbrev siteLe (x y : OpElement N L K) : Bool := tupleLe x.site y.site

/-- Number of later operators that stand on a smaller site. -/
def crossings (x : OpElement N L K) (l : List (OpElement N L K)) : Nat := (l.filter fun y => !siteLe x y).length

theorem sign_fold (x : OpElement N L K) (l : List (OpElement N L K)) (f : K) :
    l.foldl (fun f jx => if tupleLe x.site jx.site then f else -f) f = (-1) ^ crossings x l * f := by
  induction l generalizing f with
  | nil => simp [crossings]
  | cons y t ih =>
    rw [List.foldl_cons, ih]
    unfold crossings siteLe
    by_cases h : tupleLe x.site y.site = true
    · rw [if_pos h, List.filter_cons_of_neg (by simp [h])]
    · rw [if_neg h, List.filter_cons_of_pos (by simp [h]), List.length_cons, pow_succ]
      ring

/-- Moving one operator into a sorted string. -/
theorem insert_prod (ε : K) (w : OpElement N L K → R) (x : OpElement N L K) (l : List (OpElement N L K))
    (hsort : l.Pairwise fun a b => siteLe a b = true)
    (hcomm : ∀ y ∈ l, x.site ≠ y.site → w x * w y = algebraMap K R ε * (w y * w x)) :
    w x * (l.map w).prod = algebraMap K R (ε ^ crossings x l) * ((insertBy siteLe x l).map w).prod := by
  induction l with
  | nil => simp [insertBy, crossings]
  | cons y t ih =>
    rw [List.pairwise_cons] at hsort
    by_cases h : siteLe x y = true
    · have hz : crossings x (y :: t) = 0 := by
        unfold crossings
        rw [List.length_eq_zero_iff, List.filter_eq_nil_iff]
        intro z hz
        rcases List.mem_cons.1 hz with rfl | hz
        · simp [h]
        · have : siteLe x z = true := tupleLe_trans _ _ _ h (hsort.1 z hz)
          simp [this]
      rw [hz]
      simp [insertBy, h]
    · have hne : x.site ≠ y.site := by
        intro he
        apply h
        unfold siteLe
        rw [he]
        exact tupleLe_refl _
      have h1 := ih hsort.2 (fun z hz => hcomm z (List.mem_cons_of_mem _ hz))
      have hc : crossings x (y :: t) = crossings x t + 1 := by
        unfold crossings
        rw [List.filter_cons_of_pos (by simp [h]), List.length_cons]
      simp only [insertBy, h, Bool.false_eq_true, if_false, List.map_cons, List.prod_cons]
      rw [hc, pow_succ, map_mul, ← mul_assoc, hcomm y List.mem_cons_self hne, mul_assoc, mul_assoc, h1]
      rw [← mul_assoc (w y), ← Algebra.commutes, Algebra.commutes (ε ^ crossings x t) (algebraMap K R ε)]
      simp only [mul_assoc]

/-- Sum over the string of the number of operators each one has to pass. -/
def inversions : List (OpElement N L K) → Nat
  | [] => 0
  | x :: t => crossings x t + inversions t

theorem sortSign_eq (l : List (OpElement N L K)) (f : K) : OpString.sortSign l f = (-1) ^ inversions l * f := by
  induction l generalizing f with
  | nil => simp [OpString.sortSign, inversions]
  | cons x t ih => rw [OpString.sortSign, ih, sign_fold, inversions, pow_add]; ring

theorem crossings_perm (x : OpElement N L K) {l m : List (OpElement N L K)} (h : l.Perm m) : crossings x l = crossings x m := by
  unfold crossings
  exact (h.filter _).length_eq

theorem sort_prod (ε : K) (w : OpElement N L K → R) (l : List (OpElement N L K))
    (hcomm : ∀ x ∈ l, ∀ y ∈ l, x.site ≠ y.site → w x * w y = algebraMap K R ε * (w y * w x)) :
    (l.map w).prod = algebraMap K R (ε ^ inversions l) * ((sortBy siteLe l).map w).prod := by
  induction l with
  | nil => simp [sortBy, inversions]
  | cons x t ih =>
    have h1 := ih (fun a ha b hb => hcomm a (List.mem_cons_of_mem _ ha) b (List.mem_cons_of_mem _ hb))
    have hs : (sortBy siteLe t).Pairwise fun a b => siteLe a b = true :=
      sortBy_sorted siteLe (fun a b => tupleLe_total _ _) (fun a b c => tupleLe_trans _ _ _) t
    have h2 := insert_prod ε w x (sortBy siteLe t) hs (fun y hy =>
      hcomm x List.mem_cons_self y (List.mem_cons_of_mem _ ((mem_sortBy _ _ _).1 hy)))
    rw [List.map_cons, List.prod_cons, h1, ← mul_assoc, ← Algebra.commutes, mul_assoc, h2,
      crossings_perm x (sortBy_perm siteLe t), inversions, pow_add, map_mul, sortBy, ← mul_assoc,
      Algebra.commutes (ε ^ inversions t) (algebraMap K R _)]

/-- C27: sorting a string of operators keeps its value in every ring where operators on different sites anticommute. -/
theorem C27_fermion (v : N → List Int → R) (s : OpString N L K)
    (hanti : ∀ x ∈ s.ops, ∀ y ∈ s.ops, x.site ≠ y.site →
      evalElem v x * evalElem v y = - (evalElem v y * evalElem v x)) :
    evalString v (s.sort true) = evalString v s := by
  have h := sort_prod (-1 : K) (evalElem v) s.ops (fun x hx y hy hne => by rw [hanti x hx y hy hne]; simp)
  unfold evalString OpString.sort
  simp only [if_true]
  rw [sortSign_eq, h, ← mul_assoc, ← map_mul, mul_comm s.factor]

/-- C27: with the bosonic option the value is kept when operators on different sites commute. -/
theorem C27_boson (v : N → List Int → R) (s : OpString N L K)
    (hcomm : ∀ x ∈ s.ops, ∀ y ∈ s.ops, x.site ≠ y.site →
      evalElem v x * evalElem v y = evalElem v y * evalElem v x) :
    evalString v (s.sort false) = evalString v s := by
  have h := sort_prod (1 : K) (evalElem v) s.ops (fun x hx y hy hne => by rw [hcomm x hx y hy hne]; simp)
  unfold evalString OpString.sort
  simp only [Bool.false_eq_true, if_false]
  rw [h]
  simp

/-- C27: the result holds the same operators, in nondecreasing order of site. -/
theorem C27_sorted (fermion : Bool) (s : OpString N L K) :
    (s.sort fermion).ops.Perm s.ops ∧ (s.sort fermion).ops.Pairwise fun x y => tupleLe x.site y.site = true :=
  ⟨sortBy_perm _ _, sortBy_sorted siteLe (fun a b => tupleLe_total _ _) (fun a b c => tupleLe_trans _ _ _) _⟩

/-- C27: operators on the same site keep their order. -/
theorem C27_stable (fermion : Bool) (s : OpString N L K) (site : List Int) :
    (s.sort fermion).ops.filter (fun x => decide (x.site = site)) = s.ops.filter fun x => decide (x.site = site) := by
  have hins : ∀ (x : OpElement N L K) (l : List (OpElement N L K)),
      (insertBy siteLe x l).filter (fun x => decide (x.site = site)) = (x :: l).filter fun x => decide (x.site = site) := by
    intro x l
    induction l with
    | nil => simp [insertBy]
    | cons y t ih =>
      by_cases h : siteLe x y = true
      · simp [insertBy, h]
      · simp only [insertBy, h, Bool.false_eq_true, if_false]
        rw [List.filter_cons, ih]
        have hne : ¬ (x.site = site ∧ y.site = site) := by
          rintro ⟨h1, h2⟩
          apply h
          unfold siteLe
          rw [h1, h2]
          exact tupleLe_refl _
        by_cases h1 : x.site = site
        · have h2 : ¬ y.site = site := fun h2 => hne ⟨h1, h2⟩
          simp [h1, h2]
        · by_cases h2 : y.site = site <;> simp [h1, h2]
  unfold OpString.sort
  simp only
  generalize s.ops = l
  induction l with
  | nil => rfl
  | cons x t ih =>
    rw [sortBy]
    have := hins x (sortBy siteLe t)
    rw [this, List.filter_cons, ih, List.filter_cons]

/-- C27: sorting a sum keeps its value. -/
theorem C27_sum [DecidableEq K] [DecidableEq N] (v : N → List Int → R) (l : List (Option (OpString N L K)))
    (hanti : ∀ s ∈ l.filterMap id, ∀ x ∈ s.ops, ∀ y ∈ s.ops, x.site ≠ y.site →
      evalElem v x * evalElem v y = - (evalElem v y * evalElem v x)) :
    evalVal v (.sum ((OpSum.sort true l).map some)) = evalVal v (.sum l) := by
  simp only [evalVal, OpSum.sort]
  rw [List.map_map, List.map_map]
  induction l with
  | nil => rfl
  | cons a t ih =>
    cases a with
    | none =>
      simp only [List.filterMap_cons, id] at hanti ih ⊢
      rw [ih hanti]
      simp
    | some s =>
      simp only [List.filterMap_cons, id, List.mem_cons, forall_eq_or_imp] at hanti ih ⊢
      rw [List.map_cons, List.map_cons, List.sum_cons, List.sum_cons, ih hanti.2]
      simp [C27_fermion v s hanti.1]

/-- C27: the fermionic option does not look at the kind of operator: for two even (commuting) operators out of order, such as
two number operators, it changes the sign although the product is unchanged. -/
theorem C27_even_operators_get_a_sign :
    ∃ s : OpString Unit Unit Int, ∃ v : Unit → List Int → Int,
      (∀ x ∈ s.ops, ∀ y ∈ s.ops, evalElem v x * evalElem v y = evalElem v y * evalElem v x) ∧
      evalString v (s.sort true) ≠ evalString v s :=
  ⟨{ ops := [⟨(), [1], 1, ()⟩, ⟨(), [0], 1, ()⟩], factor := 1 }, fun _ _ => 1, fun _ _ _ _ => by ring, by decide⟩

/-- Four operators on three sites; four pairs are out of order. -/
def exString : OpString Nat Unit Int :=
  { ops := [⟨1, [2], 1, ()⟩, ⟨2, [0], 1, ()⟩, ⟨3, [2], 1, ()⟩, ⟨4, [1], 1, ()⟩], factor := 5 }

example : ((exString.sort true).ops.map (·.name), (exString.sort true).factor) = ([2, 4, 1, 3], -5) := by decide

/-! ### C28 -/

theorem evalElem_abs (v : N → List Int → R) (e : OpElement N L K) :
    evalElem v e = algebraMap K R e.factor * evalElem v e.abs := by
  simp [evalElem, OpElement.abs]

theorem prod_evalElem (v : N → List Int → R) (ops : List (OpElement N L K)) :
    (ops.map (evalElem v)).prod = algebraMap K R (ops.map (·.factor)).prod * ((ops.map OpElement.abs).map (evalElem v)).prod := by
  induction ops with
  | nil => simp
  | cons e t ih =>
    simp only [List.map_cons, List.prod_cons, map_mul]
    rw [ih, evalElem_abs v e]
    simp only [mul_assoc]
    congr 1
    rw [← mul_assoc, ← mul_assoc, Algebra.commutes (t.map (·.factor)).prod]

theorem eval_mk' (v : N → List Int → R) (ops : List (OpElement N L K)) (f : K) :
    evalString v (OpString.mk' ops f) = algebraMap K R f * (ops.map (evalElem v)).prod := by
  unfold evalString OpString.mk'
  simp only
  rw [prod_evalElem v ops, mul_comm, map_mul, mul_assoc]

section
variable [DecidableEq K]

/-- The value of an optional string. -/
def evalOpt (v : N → List Int → R) (x : Option (OpString N L K)) : R := (x.map (evalString v)).getD 0

theorem evalVal_sum (v : N → List Int → R) (l : List (Option (OpString N L K))) :
    evalVal v (.sum l) = (l.map (evalOpt v)).sum := rfl

theorem eval_strStr (v : N → List Int → R) (s t : OpString N L K) :
    evalString v (OpVal.strStr s t) = evalString v s * evalString v t := by
  unfold OpVal.strStr
  rw [eval_mk', List.map_append, List.prod_append, map_mul]
  unfold evalString
  rw [mul_assoc, mul_assoc]
  congr 1
  rw [← mul_assoc, ← mul_assoc, Algebra.commutes]

theorem evalOpt_mul (v : N → List Int → R) (x : Option (OpString N L K)) (t : OpString N L K) :
    evalOpt v (x.map fun s => OpVal.strStr s t) = evalOpt v x * evalString v t := by
  cases x <;> simp [evalOpt, eval_strStr]

theorem evalOpt_mul' (v : N → List Int → R) (x : Option (OpString N L K)) (t : OpString N L K) :
    evalOpt v (x.map fun s => OpVal.strStr t s) = evalString v t * evalOpt v x := by
  cases x <;> simp [evalOpt, eval_strStr]

theorem eval_strNum (v : N → List Int → R) (small : K → Bool) (hsmall : ∀ x, small x = true → x = 0) (s : OpString N L K)
    (c : K) : evalOpt v (OpVal.strNum small s c) = evalString v s * algebraMap K R c := by
  unfold OpVal.strNum
  split_ifs with h1 h2
  · simp [evalOpt, h1]
  · have h3 := hsmall _ h2
    unfold evalString
    rw [← Algebra.commutes, ← mul_assoc, ← map_mul, mul_comm c, h3]
    simp [evalOpt]
  · simp only [evalOpt, Option.map_some, Option.getD_some, eval_mk']
    unfold evalString
    rw [← Algebra.commutes c, ← mul_assoc, ← map_mul, mul_comm c]

theorem eval_ofOpt (v : N → List Int → R) (x : Option (OpString N L K)) : evalVal v (OpVal.ofOpt x) = evalOpt v x := by
  cases x <;> simp [OpVal.ofOpt, evalVal, evalOpt]

theorem eval_elemNum (v : N → List Int → R) (e : OpElement N L K) (c : K) :
    evalVal v (OpVal.elemNum e c) = evalElem v e * algebraMap K R c := by
  unfold OpVal.elemNum
  split_ifs with h
  · simp [evalVal, h]
  · simp only [evalVal, evalElem, map_mul]
    rw [mul_assoc, Algebra.commutes c, mul_assoc]

theorem eval_mapStrings (v : N → List Int → R) (f : OpString N L K → OpString N L K) (l : List (Option (OpString N L K)))
    (g : R → R) (hg0 : g 0 = 0) (hgadd : ∀ a b, g (a + b) = g a + g b)
    (hf : ∀ s, evalString v (f s) = g (evalString v s)) (w : OpVal N L K) (h : OpVal.mapStrings f l = .ok w) :
    evalVal v w = g (evalVal v (.sum l)) := by
  unfold OpVal.mapStrings at h
  split_ifs at h
  cases h
  rw [evalVal_sum, evalVal_sum, List.map_map]
  induction l with
  | nil => simp [hg0]
  | cons a t ih =>
    simp only [List.map_cons, List.sum_cons, Function.comp]
    rw [hgadd, ← ih (by simp_all)]
    cases a with
    | none => simp [evalOpt, hg0, Function.comp_def]
    | some s => simp [evalOpt, hf, Function.comp_def]

theorem eval_elem_mul_sum (v : N → List Int → R) (e : OpElement N L K) (s : OpString N L K) :
    evalString v (OpString.mk' (e :: s.ops) s.factor) = evalElem v e * evalString v s := by
  rw [eval_mk', List.map_cons, List.prod_cons]
  unfold evalString
  rw [← mul_assoc, ← mul_assoc, Algebra.commutes]

theorem eval_sum_mul_elem (v : N → List Int → R) (e : OpElement N L K) (s : OpString N L K) :
    evalString v (OpString.mk' (s.ops ++ [e]) s.factor) = evalString v s * evalElem v e := by
  rw [eval_mk', List.map_append, List.prod_append]
  unfold evalString
  simp [mul_assoc]

theorem sum_map_hom (f : R → R) (h0 : f 0 = 0) (hadd : ∀ a b, f (a + b) = f a + f b) {α : Type} (l : List α) (g : α → R) :
    (l.map fun x => f (g x)).sum = f (l.map g).sum := by
  induction l with
  | nil => simp [h0]
  | cons a t ih => simp [hadd, ih]

theorem eval_sum_sum (v : N → List Int → R) (l r : List (Option (OpString N L K))) (hl : l.any (·.isNone) = false) :
    (((l.filterMap id).flatMap fun s => r.map fun y => y.map fun t => OpVal.strStr s t).map (evalOpt v)).sum =
      (l.map (evalOpt v)).sum * (r.map (evalOpt v)).sum := by
  induction l with
  | nil => simp
  | cons a t ih =>
    cases a with
    | none => simp at hl
    | some s =>
      simp only [List.any_cons, Option.isNone_some, Bool.false_or] at hl
      simp only [List.filterMap_cons, id, List.flatMap_cons, List.map_append, List.sum_append, List.map_cons, List.sum_cons]
      have ih' := ih hl
      simp only [id] at ih'
      rw [ih', add_mul]
      congr 1
      rw [List.map_map]
      have : (evalOpt v ∘ fun y => Option.map (fun t => OpVal.strStr s t) y) = fun y => evalString v s * evalOpt v y := by
        funext y; exact evalOpt_mul' v y s
      rw [this, sum_map_hom (fun z => evalString v s * z) (by simp) (by intros; rw [mul_add])]
      rfl

/-- Is the value a plain number? -/
def OpVal.isNum : OpVal N L K → Bool
  | .num _ => true
  | _ => false

theorem mulL_eval (v : N → List Int → R) (small : K → Bool) (a b c : OpVal N L K)
    (hs : (∀ x, small x = true → x = 0) ∨ (a.isNum = false ∧ b.isNum = false))
    (h : OpVal.mulL small a b = .ok c) : evalVal v c = evalVal v a * evalVal v b := by
  cases a with
  | num x =>
    cases b <;> simp only [OpVal.mulL, PyRet.ok.injEq, reduceCtorEq] at h
    subst h
    simp [evalVal]
  | elem e =>
    cases b with
    | num x => simp only [OpVal.mulL, PyRet.ok.injEq] at h; subst h; exact eval_elemNum v e x
    | elem f =>
      simp only [OpVal.mulL, PyRet.ok.injEq] at h
      subst h
      simp [evalVal, eval_mk']
    | str s => simp [OpVal.mulL] at h
    | sum l =>
      exact eval_mapStrings v _ l (fun z => evalElem v e * z) (by simp) (by intros; rw [mul_add])
        (eval_elem_mul_sum v e) c h
  | str s =>
    cases b with
    | num x =>
      simp only [OpVal.mulL, PyRet.ok.injEq] at h
      subst h
      rw [eval_ofOpt]
      rcases hs with hs | hs
      · exact eval_strNum v small hs s x
      · simp [OpVal.isNum] at hs
    | elem f => simp only [OpVal.mulL, PyRet.ok.injEq] at h; subst h; exact eval_sum_mul_elem v f s
    | str t => simp only [OpVal.mulL, PyRet.ok.injEq] at h; subst h; exact eval_strStr v s t
    | sum l => simp [OpVal.mulL] at h
  | sum l =>
    cases b with
    | num x =>
      rcases hs with hs | hs
      · simp only [OpVal.mulL] at h
        split_ifs at h with h0
        · cases h
          simp [evalVal, h0]
        · cases h
          rw [evalVal_sum, evalVal_sum, List.map_map]
          have : (evalOpt v ∘ fun y : Option (OpString N L K) => y.bind fun s => OpVal.strNum small s x) =
              fun y => evalOpt v y * algebraMap K R x := by
            funext y
            cases y with
            | none => simp [evalOpt]
            | some s => simp only [Function.comp, Option.bind_some]; exact eval_strNum v small hs s x
          rw [this, sum_map_hom (fun z => z * algebraMap K R x) (by simp) (by intros; rw [add_mul])]
          rfl
      · simp [OpVal.isNum] at hs
    | elem f => simp [OpVal.mulL] at h
    | str t =>
      simp only [OpVal.mulL, PyRet.ok.injEq] at h
      subst h
      rw [evalVal_sum, evalVal_sum, List.map_map]
      have : (evalOpt v ∘ fun y : Option (OpString N L K) => y.map fun s => OpVal.strStr s t) =
          fun y => evalOpt v y * evalString v t := by
        funext y; exact evalOpt_mul v y t
      rw [this, sum_map_hom (fun z => z * evalString v t) (by simp) (by intros; rw [add_mul])]
      rfl
    | sum r =>
      simp only [OpVal.mulL] at h
      split_ifs at h with hn
      cases h
      exact eval_sum_sum v l r (by simpa only [Bool.not_eq_true] using hn)

theorem mulR_eval (v : N → List Int → R) (small : K → Bool) (a b c : OpVal N L K)
    (hs : (∀ x, small x = true → x = 0) ∨ (a.isNum = false ∧ b.isNum = false))
    (h : OpVal.mulR small b a = .ok c) : evalVal v c = evalVal v a * evalVal v b := by
  cases b with
  | num x => cases a <;> simp [OpVal.mulR] at h
  | elem e =>
    cases a with
    | num x =>
      simp only [OpVal.mulR, PyRet.ok.injEq] at h; subst h
      rw [eval_elemNum v e x, ← Algebra.commutes]; rfl
    | elem f => simp [OpVal.mulR] at h
    | str s => simp [OpVal.mulR] at h
    | sum l =>
      exact eval_mapStrings v _ l (fun z => z * evalElem v e) (by simp) (by intros; rw [add_mul])
        (eval_sum_mul_elem v e) c h
  | str s =>
    cases a with
    | num x =>
      simp only [OpVal.mulR, PyRet.ok.injEq] at h
      subst h
      rw [eval_ofOpt]
      rcases hs with hs | hs
      · rw [eval_strNum v small hs s x, ← Algebra.commutes]; rfl
      · simp [OpVal.isNum] at hs
    | elem f => simp only [OpVal.mulR, PyRet.ok.injEq] at h; subst h; exact eval_elem_mul_sum v f s
    | str t => simp [OpVal.mulR] at h
    | sum l => simp [OpVal.mulR] at h
  | sum l =>
    cases a with
    | num x =>
      rcases hs with hs | hs
      · simp only [OpVal.mulR] at h
        split_ifs at h with h0
        · cases h
          simp [evalVal, h0]
        · cases h
          rw [evalVal_sum, evalVal_sum, List.map_map]
          have : (evalOpt v ∘ fun y : Option (OpString N L K) => y.bind fun s => OpVal.strNum small s x) =
              fun y => algebraMap K R x * evalOpt v y := by
            funext y
            cases y with
            | none => simp [evalOpt]
            | some s =>
              simp only [Function.comp, Option.bind_some]
              rw [eval_strNum v small hs s x, ← Algebra.commutes]; rfl
          rw [this, sum_map_hom (fun z => algebraMap K R x * z) (by simp) (by intros; rw [mul_add])]
          rfl
      · simp [OpVal.isNum] at hs
    | elem f => simp [OpVal.mulR] at h
    | str t =>
      simp only [OpVal.mulR, PyRet.ok.injEq] at h
      subst h
      rw [evalVal_sum, evalVal_sum, List.map_map]
      have : (evalOpt v ∘ fun y : Option (OpString N L K) => y.map fun s => OpVal.strStr t s) =
          fun y => evalString v t * evalOpt v y := by
        funext y; exact evalOpt_mul' v y t
      rw [this, sum_map_hom (fun z => evalString v t * z) (by simp) (by intros; rw [mul_add])]
      rfl
    | sum r => simp [OpVal.mulR] at h

/-- C28: a product of expressions has the product of the values.  (`small` says which factors are dropped; here only zero is.) -/
theorem C28_mul (v : N → List Int → R) (small : K → Bool) (hsmall : ∀ x, small x = true → x = 0) (a b c : OpVal N L K)
    (h : OpVal.mul small a b = some c) : evalVal v c = evalVal v a * evalVal v b := by
  unfold OpVal.mul at h
  cases h1 : OpVal.mulL small a b with
  | ok w => rw [h1] at h; cases h; exact mulL_eval v small a b c (Or.inl hsmall) h1
  | error => rw [h1] at h; cases h
  | notImpl =>
    rw [h1] at h
    cases h2 : OpVal.mulR small b a with
    | ok w => rw [h2] at h; cases h; exact mulR_eval v small a b c (Or.inl hsmall) h2
    | error => rw [h2] at h; cases h
    | notImpl => rw [h2] at h; cases h

/-- C28: a product of two expressions that are not numbers is exact whatever the threshold. -/
theorem C28_mul_expressions (v : N → List Int → R) (small : K → Bool) (a b c : OpVal N L K)
    (ha : a.isNum = false) (hb : b.isNum = false) (h : OpVal.mul small a b = some c) :
    evalVal v c = evalVal v a * evalVal v b := by
  unfold OpVal.mul at h
  cases h1 : OpVal.mulL small a b with
  | ok w => rw [h1] at h; cases h; exact mulL_eval v small a b c (Or.inr ⟨ha, hb⟩) h1
  | error => rw [h1] at h; cases h
  | notImpl =>
    rw [h1] at h
    cases h2 : OpVal.mulR small b a with
    | ok w => rw [h2] at h; cases h; exact mulR_eval v small a b c (Or.inr ⟨ha, hb⟩) h2
    | error => rw [h2] at h; cases h
    | notImpl => rw [h2] at h; cases h

/-- C28: a sum of expressions has the sum of the values. -/
theorem C28_add (v : N → List Int → R) (a b c : OpVal N L K) (h : OpVal.add a b = some c) :
    evalVal v c = evalVal v a + evalVal v b := by
  have hs : ∀ e : OpElement N L K, evalString v (OpString.mk' [e]) = evalElem v e := by intro e; simp [eval_mk']
  cases a <;> cases b <;> simp only [OpVal.add, OpVal.addL, OpVal.addR, reduceCtorEq] at h
  all_goals try split_ifs at h with h0
  all_goals first
    | (simp only [reduceCtorEq] at h; done)
    | (simp only [Option.some.injEq] at h; subst h; simp [evalVal, hs, *])
    | skip

/-- Does the sum hold only strings (no numbers 0)? -/
def OpVal.clean : OpVal N L K → Bool
  | .sum l => !l.any (·.isNone)
  | _ => true

/-- C28: every product of expressions whose sums hold only strings succeeds. -/
theorem C28_mul_defined (small : K → Bool) (a b : OpVal N L K) (ha : a.clean = true) (hb : b.clean = true) :
    (OpVal.mul small a b).isSome = true := by
  cases a <;> cases b <;>
    simp only [OpVal.clean, Bool.not_eq_true'] at ha hb <;>
    simp only [OpVal.mul, OpVal.mulL, OpVal.mulR, OpVal.mapStrings, ha, hb, Bool.false_eq_true, if_false, Option.isSome_some] <;>
    (try split_ifs <;> simp)

/-- C28: sums are defined except: element with string, and expression with a nonzero number. -/
theorem C28_add_defined (a b : OpVal N L K) :
    (OpVal.add a b).isSome = true ↔
      match a, b with
      | .elem _, .str _ => False
      | .str _, .elem _ => False
      | .num _, .num _ => True
      | .num c, _ => c = 0
      | _, .num c => c = 0
      | _, _ => True := by
  cases a <;> cases b <;> simp [OpVal.add, OpVal.addL, OpVal.addR] <;> (try split_ifs <;> simp_all)

/-- C28: the negative of a symbol. -/
theorem C28_neg (v : N → List Int → R) (e : OpElement N L K) : evalElem v e.neg = - evalElem v e := by
  simp [evalElem, OpElement.neg]

section
variable [DecidableEq N]

theorem same_eval (v : N → List Int → R) (x y : OpElement N L K) (h : x.same y = true) : evalElem v x = evalElem v y := by
  unfold OpElement.same at h
  obtain ⟨h1, h2, h3⟩ := of_decide_eq_true h
  unfold evalElem
  rw [h1, h2, h3]

theorem collect_eval (v : N → List Int → R) (mp : List (List (OpElement N L K) × K)) (s : OpString N L K) :
    ((OpSum.collect mp s).map fun p => algebraMap K R p.2 * (p.1.map (evalElem v)).prod).sum =
      (mp.map fun p => algebraMap K R p.2 * (p.1.map (evalElem v)).prod).sum + evalString v s := by
  induction mp with
  | nil => simp [OpSum.collect, evalString]
  | cons p t ih =>
    obtain ⟨k, w⟩ := p
    unfold OpSum.collect
    split_ifs with h
    · have : (k.map (evalElem v)) = s.ops.map (evalElem v) := by
        obtain ⟨h1, h2⟩ := h
        revert h1 h2
        generalize s.ops = l
        clear ih
        induction k generalizing l with
        | nil =>
          intro h1 _
          cases l with
          | nil => rfl
          | cons => simp at h1
        | cons a k ih =>
          intro h1 h2
          cases l with
          | nil => simp at h1
          | cons b l =>
            simp only [List.zip_cons_cons, List.all_cons, Bool.and_eq_true] at h2
            simp only [List.length_cons, Nat.add_right_cancel_iff] at h1
            rw [List.map_cons, List.map_cons, same_eval v a b h2.1, ih l h1 h2.2]
      simp only [List.map_cons, List.sum_cons]
      unfold evalString
      rw [map_add, add_mul, this]
      abel
    · simp only [List.map_cons, List.sum_cons]
      rw [ih]
      abel

/-- Collected terms: each operator string occurring in the sum, with its total coefficient. -/
def collected (l : List (OpString N L K)) : List (List (OpElement N L K) × K) := l.foldl OpSum.collect []

/-- C28: collecting like terms changes the value exactly by the terms whose total coefficient is dropped. -/
theorem C28_simplify (v : N → List Int → R) (small : K → Bool) (l : List (OpString N L K)) :
    (l.map (evalString v)).sum = ((OpSum.simplify small l).map (evalString v)).sum +
      (((collected l).filter fun p => small p.2).map fun p => algebraMap K R p.2 * (p.1.map (evalElem v)).prod).sum := by
  have h1 : ((collected l).map fun p => algebraMap K R p.2 * (p.1.map (evalElem v)).prod).sum = (l.map (evalString v)).sum := by
    have gen : ∀ mp : List (List (OpElement N L K) × K),
        ((l.foldl OpSum.collect mp).map fun p => algebraMap K R p.2 * (p.1.map (evalElem v)).prod).sum =
          (mp.map fun p => algebraMap K R p.2 * (p.1.map (evalElem v)).prod).sum + (l.map (evalString v)).sum := by
      induction l with
      | nil => intro mp; simp
      | cons s t ih =>
        intro mp
        rw [List.foldl_cons, ih, collect_eval]
        simp [add_assoc]
    simpa [collected] using gen []
  rw [← h1]
  unfold OpSum.simplify
  rw [List.map_map]
  have h2 : (evalString v ∘ fun p : List (OpElement N L K) × K => OpString.mk' p.1 p.2) =
      fun p => algebraMap K R p.2 * (p.1.map (evalElem v)).prod := by
    funext p; exact eval_mk' v p.1 p.2
  rw [h2]
  unfold collected
  generalize l.foldl OpSum.collect [] = m
  induction m with
  | nil => simp
  | cons p t ih =>
    by_cases hp : small p.2 = true
    · simp only [List.map_cons, List.sum_cons, List.filter_cons, hp, Bool.not_true, Bool.false_eq_true, if_false, if_true]
      rw [ih]
      abel
    · simp only [List.map_cons, List.sum_cons, List.filter_cons, hp, Bool.not_false, Bool.false_eq_true, if_false, if_true]
      rw [ih]
      abel

/-- C28: when only zero counts as small, collecting like terms keeps the value. -/
theorem C28_simplify_exact (v : N → List Int → R) (small : K → Bool) (hsmall : ∀ x, small x = true → x = 0)
    (l : List (OpString N L K)) :
    ((OpSum.simplify small l).map (evalString v)).sum = (l.map (evalString v)).sum := by
  rw [C28_simplify v small l]
  have : (((collected l).filter fun p => small p.2).map fun p => algebraMap K R p.2 * (p.1.map (evalElem v)).prod).sum = 0 := by
    apply sum_map_zero'
    intro p hp
    rw [hsmall _ (List.mem_filter.1 hp).2]
    simp
  rw [this, add_zero]

end
end

/-- C28: a sum multiplied by a tiny number can no longer be multiplied by a sum, since the list of strings then holds the
number 0 (`'int' object has no attribute 'strings'`). -/
theorem C28_placeholder_breaks_product :
    ∃ a b : OpVal Unit Unit Int, ∃ small : Int → Bool, a.clean = true ∧ b.clean = true ∧
      ((OpVal.mul small a (.num 1)).bind fun a' => OpVal.mul small a' b).isNone = true :=
  ⟨.sum [some { ops := [], factor := 1 }], .sum [some { ops := [], factor := 1 }], fun x => decide (x = 1), by decide, by decide,
    by decide⟩

/-- Beside C28: `(2 x0 x1 + 3 x1) * x0` expands into two strings, and `x0 x1 + 3 x1 x0 + 4 x0 x1` collects into two. -/
def exSum : OpVal Nat Unit Int :=
  .sum [some { ops := [⟨0, [], 1, ()⟩, ⟨1, [], 1, ()⟩], factor := 2 }, some { ops := [⟨1, [], 1, ()⟩], factor := 3 }]

example : (match OpVal.mul (fun x : Int => decide (x = 0)) exSum (.elem ⟨0, [], 5, ()⟩) with
    | some (.sum l) => l.map fun s => s.map fun t => (t.ops.map (·.name), t.factor)
    | _ => []) = [some ([0, 1, 0], 10), some ([1, 0], 15)] := by decide

example : ((OpSum.simplify (fun x : Int => decide (x = 0)) [({ ops := [⟨0, [], 1, ()⟩, ⟨1, [], 1, ()⟩], factor := 1 } : OpString Nat Unit Int),
    { ops := [⟨1, [], 1, ()⟩, ⟨0, [], 1, ()⟩], factor := 3 }, { ops := [⟨0, [], 1, ()⟩, ⟨1, [], 1, ()⟩], factor := 4 }]).map
      fun t => (t.ops.map (·.name), t.factor)) = [([0, 1], 5), ([1, 0], 3)] := by decide

end Verif
