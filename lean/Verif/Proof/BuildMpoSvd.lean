import Verif.Proof.BuildMpoCollect

/-!
Lemmas for the construction of matrix product operators: the decomposition of a group and one step over a site.
-/

set_option linter.unusedSectionVars false

namespace Verif
namespace BuildMpo
variable {N L K R V : Type} [CommRing K] [DecidableEq K] [DecidableEq N] [Ring R] [Algebra K R] [AddCommGroup L] [DecidableEq L]
variable {x : N} {lab : N → List Int → Option L} {iop : OpElement N L K}

theorem zipIdx_eq_map {α : Type} (d : α) (l : List α) : l.zipIdx = (List.range l.length).map fun i => (l.getD i d, i) := by
  refine List.ext_getElem (by simp) fun i h1 h2 => ?_
  simp only [List.length_zipIdx] at h1
  simp [List.getElem?_eq_getElem h1]

/-- The product of the two factors, over all values. -/
theorem svd_sum (m n k : Nat) (P Q : Nat → R) (u : Nat → Nat → K) (s : Nat → K) (w M : Nat → Nat → K)
    (h : ∀ i < m, ∀ j < n, ((List.range k).map fun t => u i t * s t * w t j).sum = M i j) :
    ((List.range k).map fun t => ((List.range m).map fun i => P i * algebraMap K R (s t * u i t)).sum * ((List.range n).map fun j => Q j * algebraMap K R (w t j)).sum).sum =
      ((List.range m).map fun i => ((List.range n).map fun j => algebraMap K R (M i j) * P i * Q j).sum).sum := by
  have e : ∀ t, ((List.range m).map fun i => P i * algebraMap K R (s t * u i t)).sum * ((List.range n).map fun j => Q j * algebraMap K R (w t j)).sum =
      ((List.range m).map fun i => ((List.range n).map fun j => algebraMap K R (u i t * s t * w t j) * P i * Q j).sum).sum := by
    intro t
    rw [← sum_map_mul_right']
    refine sum_map_congr' _ _ _ fun i _ => ?_
    rw [← sum_map_mul_left']
    refine sum_map_congr' _ _ _ fun j _ => ?_
    rw [← Algebra.commutes (w t j), ← Algebra.commutes (s t * u i t)]
    have : algebraMap K R (u i t * s t * w t j) = algebraMap K R (s t * u i t) * algebraMap K R (w t j) := by
      rw [← map_mul]
      congr 1
      ring
    rw [this]
    simp only [mul_assoc]
    congr 1
    rw [← mul_assoc, ← mul_assoc, Algebra.commutes]
  simp only [e]
  rw [sum_comm']
  refine sum_map_congr' _ _ _ fun i hi => ?_
  rw [sum_comm']
  refine sum_map_congr' _ _ _ fun j hj => ?_
  rw [← h i (List.mem_range.1 hi) j (List.mem_range.1 hj), sum_map_mul_right', sum_map_mul_right', map_list_sum, List.map_map]
  rfl

/-- The coefficients of a group, entered in a matrix and read back. -/
theorem matrix_sum (m n : Nat) (P Q : Nat → R) (vals : List (Nat × Nat × K)) (h : ∀ t ∈ vals, t.1 < m ∧ t.2.1 < n) :
    ((List.range m).map fun i => ((List.range n).map fun j =>
      algebraMap K R (((vals.filter fun v => decide ([v.1, v.2.1] = [i, j])).map fun v => v.2.2).sum) * P i * Q j).sum).sum =
      (vals.map fun t => algebraMap K R t.2.2 * P t.1 * Q t.2.1).sum := by
  induction vals with
  | nil => simp
  | cons a vals ih =>
    rw [List.map_cons, List.sum_cons, ← ih fun t ht => h t (by simp [ht])]
    have e : ∀ i j, algebraMap K R ((((a :: vals).filter fun v => decide ([v.1, v.2.1] = [i, j])).map fun v => v.2.2).sum) * P i * Q j =
        (if i = a.1 then (if j = a.2.1 then algebraMap K R a.2.2 * P i * Q j else 0) else 0) +
          algebraMap K R (((vals.filter fun v => decide ([v.1, v.2.1] = [i, j])).map fun v => v.2.2).sum) * P i * Q j := by
      intro i j
      by_cases h1 : i = a.1
      · by_cases h2 : j = a.2.1
        · rw [List.filter_cons_of_pos (by simp [h1, h2]), List.map_cons, List.sum_cons, map_add, add_mul, add_mul, if_pos h1, if_pos h2]
        · rw [List.filter_cons_of_neg (by simp [Ne.symm h2]), if_pos h1, if_neg h2, zero_add]
      · rw [List.filter_cons_of_neg (by simp [Ne.symm h1]), if_neg h1, zero_add]
    simp only [e, sum_map_add']
    congr 1
    obtain ⟨h1, h2⟩ := h a (by simp)
    have e2 : ∀ i, ((List.range n).map fun j => if i = a.1 then (if j = a.2.1 then algebraMap K R a.2.2 * P i * Q j else 0) else 0).sum =
        if i = a.1 then algebraMap K R a.2.2 * P i * Q a.2.1 else 0 := by
      intro i
      by_cases h3 : i = a.1
      · simp only [if_pos h3]
        rw [sum_map_ite_eq' _ List.nodup_range a.2.1 (fun j => algebraMap K R a.2.2 * P i * Q j), if_pos (List.mem_range.2 h2)]
      · simp [h3]
    simp only [e2]
    rw [sum_map_ite_eq' _ List.nodup_range a.1 (fun i => algebraMap K R a.2.2 * P i * Q a.2.1), if_pos (List.mem_range.2 h1)]

theorem strNum_factor {small : K → Bool} (hsmall : ∀ x, small x = true ↔ x = 0) {s t : OpString N L K} {f : K} (h : ∀ e ∈ s.ops, Ok x lab e)
    (ht : OpVal.strNum small s f = some t) : t.factor ≠ 0 := by
  unfold OpVal.strNum at ht
  split_ifs at ht with h1 h2
  injection ht with ht
  rw [prod_mk' h] at ht
  rw [← ht]
  exact fun h => h2 ((hsmall _).2 h)

/-- The left factor of a group. -/
theorem leftVal_spec {small : K → Bool} (hsmall : ∀ x, small x = true ↔ x = 0) (c : V → K) (svd : Arr K → Arr K × Arr V × Arr K) {n i : Int} {rl : Nat → L}
    {g : Group N L K} (hg : GroupOK x lab iop n i rl g) (ip t : Nat) :
    ∃ val, g.leftVal small c svd ip t = some val ∧ AccOK val ∧
      (∀ s ∈ strs val, s.factor ≠ 0 ∧ (∀ e ∈ s.ops, Ok x lab e ∧ AtSite iop i e) ∧ charge s.ops = g.ql + rl ip ∧ s.ops ≠ []) ∧
      ∀ v : N → List Int → R, evalVal v val = ((List.range g.mpl.length).map fun j =>
        (if (g.mpl.getD j (0, [])).1 = ip then opsVal v (g.mpl.getD j (0, [])).2 else 0) * algebraMap K R (c ((svd g.matrix).2.1.get [t]) * (svd g.matrix).1.get [j, t])).sum := by
  unfold Group.leftVal
  obtain ⟨val, h1, h2, h3⟩ := objDot_spec (g.mpl.zipIdx.map fun p =>
    if p.1.1 = ip then OpVal.ofOpt (OpVal.strNum small (OpString.mk' p.1.2) (c ((svd g.matrix).2.1.get [t]) * (svd g.matrix).1.get [p.2, t])) else .num 0) (by
      intro y hy
      obtain ⟨p, _, rfl⟩ := List.mem_map.1 hy
      split_ifs
      · exact ⟨_, rfl⟩
      · exact ⟨none, rfl⟩)
  refine ⟨val, h1, h2, ?_, ?_⟩
  · intro s hs
    rw [h3] at hs
    obtain ⟨y, hy, hs⟩ := List.mem_flatMap.1 hs
    obtain ⟨p, hp, rfl⟩ := List.mem_map.1 hy
    have hm := hg.left p.1 (by
      rw [zipIdx_eq_map (0, [])] at hp
      obtain ⟨j, hj, rfl⟩ := List.mem_map.1 hp
      simp only
      rw [List.getD_eq_getElem _ _ (List.mem_range.1 hj)]
      exact List.getElem_mem _)
    split_ifs at hs with h
    · rw [strs_ofOpt] at hs
      have hs := Option.mem_toList.1 hs
      have hok : ∀ e ∈ (OpString.mk' p.1.2).ops, Ok x lab e := by
        rw [prod_mk' (x := x) (lab := lab) fun e he => (hm.1 e he).1]
        exact fun e he => (hm.1 e he).1
      have ho := strNum_some hok hs
      rw [prod_mk' (x := x) (lab := lab) fun e he => (hm.1 e he).1] at ho
      exact ⟨strNum_factor hsmall hok hs, by rw [ho]; exact hm.1, by rw [ho, hm.2.1, h], by rw [ho]; exact hm.2.2⟩
    · simp [strs] at hs
  · intro v
    rw [eval_strs v h2, h3, sum_flatMap', zipIdx_eq_map (0, []), List.map_map, List.map_map]
    refine sum_map_congr' _ _ _ fun j hj => ?_
    simp only [Function.comp]
    split_ifs
    · rw [strs_ofOpt, eval_strNum_toList v (fun x h => (hsmall x).1 h), eval_mk', map_one, one_mul]
      rfl
    · simp [strs]

/-- The right factor of a group. -/
theorem rightVal_spec {small : K → Bool} (hsmall : ∀ x, small x = true ↔ x = 0) (svd : Arr K → Arr K × Arr V × Arr K) {n i : Int} {rl : Nat → L}
    {g : Group N L K} (hg : GroupOK x lab iop n i rl g) (t : Nat) :
    ∃ val, g.rightVal small svd t = some val ∧ AccOK val ∧
      (∀ s ∈ strs val, s.factor ≠ 0 ∧ Later x lab iop n (i + 1) s.ops ∧ charge s.ops = g.qr ∧ s.ops ≠ []) ∧
      ∀ v : N → List Int → R, evalVal v val = ((List.range g.mpr.length).map fun j =>
        opsVal v (g.mpr.getD j []) * algebraMap K R ((svd g.matrix).2.2.get [t, j])).sum := by
  unfold Group.rightVal
  obtain ⟨val, h1, h2, h3⟩ := objDot_spec (g.mpr.zipIdx.map fun p => OpVal.ofOpt (OpVal.strNum small (OpString.mk' p.1) ((svd g.matrix).2.2.get [t, p.2]))) (by
      intro y hy
      obtain ⟨p, _, rfl⟩ := List.mem_map.1 hy
      exact ⟨_, rfl⟩)
  refine ⟨val, h1, h2, ?_, ?_⟩
  · intro s hs
    rw [h3] at hs
    obtain ⟨y, hy, hs⟩ := List.mem_flatMap.1 hs
    obtain ⟨p, hp, rfl⟩ := List.mem_map.1 hy
    have hm := hg.right p.1 (by
      rw [zipIdx_eq_map []] at hp
      obtain ⟨j, hj, rfl⟩ := List.mem_map.1 hp
      simp only
      rw [List.getD_eq_getElem _ _ (List.mem_range.1 hj)]
      exact List.getElem_mem _)
    rw [strs_ofOpt] at hs
    have hs := Option.mem_toList.1 hs
    have hok : ∀ e ∈ (OpString.mk' p.1).ops, Ok x lab e := by
      rw [prod_mk' (x := x) (lab := lab) fun e he => (hm.1.2 e he).1]
      exact fun e he => (hm.1.2 e he).1
    have ho := strNum_some hok hs
    rw [prod_mk' (x := x) (lab := lab) fun e he => (hm.1.2 e he).1] at ho
    exact ⟨strNum_factor hsmall hok hs, by rw [ho]; exact hm.1, by rw [ho, hm.2.1], by rw [ho]; exact hm.2.2⟩
  · intro v
    rw [eval_strs v h2, h3, sum_flatMap', zipIdx_eq_map [], List.map_map, List.map_map]
    refine sum_map_congr' _ _ _ fun j hj => ?_
    simp only [Function.comp]
    rw [strs_ofOpt, eval_strNum_toList v (fun x h => (hsmall x).1 h), eval_mk', map_one, one_mul]
    rfl

/-- Value of an element of the left factor. -/
def leftV (small : K → Bool) (c : V → K) (svd : Arr K → Arr K × Arr V × Arr K) (g : Group N L K) (ip t : Nat) : OpVal N L K :=
  (g.leftVal small c svd ip t).getD (.num 0)

/-- Value of an element of the right factor. -/
def rightV (small : K → Bool) (svd : Arr K → Arr K × Arr V × Arr K) (g : Group N L K) (t : Nat) : OpVal N L K :=
  (g.rightVal small svd t).getD (.num 0)

/-- The kept values of a group give back what the group holds. -/
theorem group_sum {small : K → Bool} (hsmall : ∀ x, small x = true ↔ x = 0) {c : V → K} {svd : Arr K → Arr K × Arr V × Arr K} (hsvd : IsSvd c svd)
    {big : V → Bool} (hbig : ∀ s, big s = false → c s = 0) {n i : Int} {rl : Nat → L} {g : Group N L K} (hg : GroupOK x lab iop n i rl g)
    (hl : g.mpl ≠ []) (hr : g.mpr ≠ []) (v : N → List Int → R) (ip : Nat) :
    ((g.mask svd big).map fun t => evalVal v (leftV small c svd g ip t) * evalVal v (rightV small svd g t)).sum = gval v ip g := by
  have hl := List.length_pos_iff.2 hl
  have hr := List.length_pos_iff.2 hr
  have eL : ∀ t, evalVal v (leftV small c svd g ip t) = ((List.range g.mpl.length).map fun j =>
        (if (g.mpl.getD j (0, [])).1 = ip then opsVal v (g.mpl.getD j (0, [])).2 else 0) * algebraMap K R (c ((svd g.matrix).2.1.get [t]) * (svd g.matrix).1.get [j, t])).sum := by
    intro t
    obtain ⟨val, h1, _, _, h4⟩ := leftVal_spec (R := R) hsmall c svd hg ip t
    rw [leftV, h1]
    exact h4 v
  have eR : ∀ t, evalVal v (rightV small svd g t) = ((List.range g.mpr.length).map fun j =>
        opsVal v (g.mpr.getD j []) * algebraMap K R ((svd g.matrix).2.2.get [t, j])).sum := by
    intro t
    obtain ⟨val, h1, _, _, h4⟩ := rightVal_spec (R := R) hsmall svd hg t
    rw [rightV, h1]
    exact h4 v
  unfold Group.mask
  rw [sum_filter', hsvd.values g.matrix g.mpl.length g.mpr.length rfl hl hr]
  have e : ∀ t, (if big ((svd g.matrix).2.1.get [t]) = true then evalVal v (leftV small c svd g ip t) * evalVal v (rightV small svd g t) else 0) =
      evalVal v (leftV small c svd g ip t) * evalVal v (rightV small svd g t) := by
    intro t
    split_ifs with h
    · rfl
    · rw [eL, hbig _ (by simpa using h)]
      simp
  simp only [e]
  simp only [eL, eR, List.headD_cons]
  rw [svd_sum g.mpl.length g.mpr.length _ (fun j => if (g.mpl.getD j (0, [])).1 = ip then opsVal v (g.mpl.getD j (0, [])).2 else 0)
    (fun j => opsVal v (g.mpr.getD j [])) (fun i t => (svd g.matrix).1.get [i, t]) (fun t => c ((svd g.matrix).2.1.get [t]))
    (fun t j => (svd g.matrix).2.2.get [t, j]) (fun i j => g.matrix.get [i, j]) (hsvd.product g.matrix _ _ rfl hl hr)]
  unfold Group.matrix gval
  simp only
  rw [matrix_sum _ _ _ _ _ hg.bounds]
  refine sum_map_congr' _ _ _ fun t _ => ?_
  unfold part
  split_ifs <;> simp

/-! ### The numbering of the columns -/

/-- The columns of the new matrix: group, value, number. -/
def newCols (svd : Arr K → Arr K × Arr V × Arr K) (big : V → Bool) (im : Nat) (gs : List (Group N L K)) : List (Group N L K × Nat × Nat) :=
  (columns svd big im gs).flatMap fun g => g.2.map fun t => (g.1, t)

theorem newCols_numbers (svd : Arr K → Arr K × Arr V × Arr K) (big : V → Bool) (gs : List (Group N L K)) : ∀ im,
    (newCols svd big im gs).map (fun j => j.2.2) = List.range' im (newCols svd big im gs).length := by
  induction gs with
  | nil => intro im; rfl
  | cons g gs ih =>
    intro im
    have ih := ih (im + (g.mask svd big).length)
    unfold newCols at ih ⊢
    simp only [columns, List.flatMap_cons, List.map_append, List.length_append, List.length_map, List.length_zipIdx]
    rw [ih, ← List.range'_append]
    congr 1
    · rw [List.map_map]
      have : ((fun j : Group N L K × Nat × Nat => j.2.2) ∘ fun t => (g, t)) = Prod.snd := rfl
      rw [this, List.zipIdx_map_snd]
    · simp

theorem mem_newCols (svd : Arr K → Arr K × Arr V × Arr K) (big : V → Bool) (gs : List (Group N L K)) : ∀ im, ∀ j ∈ newCols svd big im gs, j.1 ∈ gs := by
  induction gs with
  | nil => intro im j hj; simp [newCols, columns] at hj
  | cons g gs ih =>
    intro im j hj
    unfold newCols at hj
    simp only [columns, List.flatMap_cons, List.mem_append] at hj
    rcases hj with hj | hj
    · obtain ⟨t, _, rfl⟩ := List.mem_map.1 hj
      simp
    · exact List.mem_cons_of_mem _ (ih _ j hj)

theorem getElem?_newCols (svd : Arr K → Arr K × Arr V × Arr K) (big : V → Bool) (gs : List (Group N L K)) :
    ∀ j ∈ newCols svd big 0 gs, (newCols svd big 0 gs)[j.2.2]? = some j := by
  intro j hj
  obtain ⟨k, hk, e⟩ := List.getElem_of_mem hj
  have h := congrArg (fun l => l[k]?) (newCols_numbers svd big gs 0)
  simp only [List.getElem?_map, List.getElem?_eq_getElem hk, e, Option.map_some, List.getElem?_range' hk] at h
  injection h with h
  have : j.2.2 = k := by omega
  rw [this, List.getElem?_eq_getElem hk, e]

theorem sum_newCols (svd : Arr K → Arr K × Arr V × Arr K) (big : V → Bool) (F : Group N L K → Nat → R) (gs : List (Group N L K)) : ∀ im,
    ((newCols svd big im gs).map fun j => F j.1 j.2.1).sum = (gs.map fun g => ((g.mask svd big).map (F g)).sum).sum := by
  induction gs with
  | nil => intro im; rfl
  | cons g gs ih =>
    intro im
    have ih := ih (im + (g.mask svd big).length)
    unfold newCols at ih ⊢
    simp only [columns, List.flatMap_cons, List.map_append, List.sum_append, List.map_cons, List.sum_cons, ih]
    congr 1
    rw [List.map_map]
    have : ((fun j : Group N L K × Nat × Nat => F j.1 j.2.1) ∘ fun t => (g, t)) = F g ∘ Prod.fst := rfl
    rw [this, ← List.map_map, List.zipIdx_map_fst]

end BuildMpo
end Verif
