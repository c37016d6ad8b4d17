import Verif.Proof.DavidsonLoop
import Mathlib.Analysis.Matrix.Spectrum
import Mathlib.Data.Fin.Tuple.Sort

/-!
Property C60: the Davidson solver is variational.
-/

set_option linter.unusedSectionVars false

namespace Verif
open RCLike
variable {𝕜 V : Type} [RCLike 𝕜] [NormedAddCommGroup V] [InnerProductSpace 𝕜 V]

theorem famOf_range (l : List V) : Set.range (famOf l l.length) = {x | x ∈ l} := by
  ext x
  constructor
  · rintro ⟨i, rfl⟩
    simp only [famOf, List.getD_eq_getElem?_getD, List.getElem?_eq_getElem i.isLt, Option.getD_some, Set.mem_setOf_eq]
    exact List.getElem_mem _
  · intro hx
    obtain ⟨i, hi, rfl⟩ := List.mem_iff_getElem.1 hx
    exact ⟨⟨i, hi⟩, by simp [famOf, List.getD_eq_getElem?_getD, List.getElem?_eq_getElem hi]⟩

theorem foldl_getD {α : Type} (f : V → α → V) (d : α) (l : List α) (x : V) :
    l.foldl f x = (List.range l.length).foldl (fun w i => f w (l.getD i d)) x := by
  induction l generalizing x with
  | nil => rfl
  | cons u t ih =>
    rw [List.foldl_cons, ih, List.length_cons, List.range_succ_eq_map, List.foldl_cons, List.foldl_map]
    rfl

variable {eigh : Nat → (Nat → Nat → 𝕜) → (Nat → 𝕜) × (Nat → Nat → 𝕜)} {pre : Option (V → V → 𝕜 → V)} {small : 𝕜 → Bool}

/-- Lines 147-150: the initial guesses become an orthonormal family with the same span. -/
theorem davidsonInit_ortho (done rest out : List V) (ho : Orthonormal 𝕜 (famOf done done.length))
    (h : davidsonInit (davidsonIn eigh pre small) done rest = some out) :
    Orthonormal 𝕜 (famOf out out.length) ∧
      Submodule.span 𝕜 {x | x ∈ out} = Submodule.span 𝕜 {x | x ∈ done} ⊔ Submodule.span 𝕜 {x | x ∈ rest} := by
  induction rest generalizing done with
  | nil =>
    cases h
    exact ⟨ho, by simp⟩
  | cons v t ih =>
    rw [davidsonInit, Option.bind_eq_some_iff] at h
    obtain ⟨u, hu, h⟩ := h
    obtain ⟨hw0, rfl⟩ := davidsonIn_normalize.1 hu
    have ho' := (orthonormal_famOf done done.length).1 ho
    obtain ⟨w, hw⟩ : ∃ w, done.foldl (fun w u => w + (-(davidsonIn eigh pre small : DavidsonEnv 𝕜 V).dot u w) • u) v = w := ⟨_, rfl⟩
    rw [hw] at hw0 h
    have hw' : w = v - ∑ j ∈ Finset.range done.length, (inner 𝕜 (done.getD j 0) v : 𝕜) • done.getD j 0 := by
      rw [← hw, foldl_getD _ 0]
      exact foldl_project (fun j => done.getD j 0) done.length ho' v
    have hp : (∑ j ∈ Finset.range done.length, (inner 𝕜 (done.getD j 0) v : 𝕜) • done.getD j 0) ∈
        Submodule.span 𝕜 {x | x ∈ done} := by
      rw [← famOf_range]
      exact Submodule.sum_mem _ fun j hj => Submodule.smul_mem _ _
        (Submodule.subset_span ⟨⟨j, Finset.mem_range.1 hj⟩, rfl⟩)
    have hc : (((‖w‖ : ℝ) : 𝕜)⁻¹) ≠ 0 := inv_ne_zero (by exact_mod_cast norm_ne_zero_iff.2 hw0)
    have hspan : Submodule.span 𝕜 {x | x ∈ done ++ [((‖w‖ : ℝ) : 𝕜)⁻¹ • w]} =
        Submodule.span 𝕜 {x | x ∈ done} ⊔ Submodule.span 𝕜 {v} := by
      have e : {x | x ∈ done ++ [((‖w‖ : ℝ) : 𝕜)⁻¹ • w]} = {x | x ∈ done} ∪ {((‖w‖ : ℝ) : 𝕜)⁻¹ • w} := by
        ext x; simp [or_comm]
      rw [e, Submodule.span_union, Submodule.span_singleton_smul_eq (IsUnit.mk0 _ hc)]
      apply le_antisymm
      · refine sup_le le_sup_left ?_
        rw [Submodule.span_singleton_le_iff_mem, hw']
        exact Submodule.sub_mem _ (Submodule.mem_sup_right (Submodule.mem_span_singleton_self v)) (Submodule.mem_sup_left hp)
      · refine sup_le le_sup_left ?_
        rw [Submodule.span_singleton_le_iff_mem]
        have : v = w + ∑ j ∈ Finset.range done.length, (inner 𝕜 (done.getD j 0) v : 𝕜) • done.getD j 0 := by rw [hw']; abel
        rw [this]
        exact Submodule.add_mem _ (Submodule.mem_sup_right (Submodule.mem_span_singleton_self w)) (Submodule.mem_sup_left hp)
    have hcons : ∀ l : List V, Submodule.span 𝕜 {x | x ∈ v :: l} = Submodule.span 𝕜 {v} ⊔ Submodule.span 𝕜 {x | x ∈ l} := by
      intro l
      rw [← Submodule.span_union]
      congr 1
      ext x; simp
    have hortho : Orthonormal 𝕜 (famOf (done ++ [((‖w‖ : ℝ) : 𝕜)⁻¹ • w]) (done ++ [((‖w‖ : ℝ) : 𝕜)⁻¹ • w]).length) := by
      rw [List.length_append, List.length_singleton]
      refine (orthonormal_famOf _ _).2 (orthonormal_snoc (fun j => done.getD j 0)
        (fun j => (done ++ [((‖w‖ : ℝ) : 𝕜)⁻¹ • w]).getD j 0) done.length ho' w hw0 ?_ ?_ ?_)
      · intro i hi
        rw [hw']
        exact project_orthogonal (fun j => done.getD j 0) done.length ho' v i hi
      · intro i hi
        simp [List.getD_eq_getElem?_getD, List.getElem?_append_left hi]
      · simp [List.getD_eq_getElem?_getD]
    obtain ⟨h1, h2⟩ := ih _ hortho h
    refine ⟨h1, ?_⟩
    rw [h2, hspan, hcons, sup_assoc]

/-- Independent guesses can be orthonormalised. -/
theorem davidsonInit_some (done rest : List V) (ho : Orthonormal 𝕜 (famOf done done.length))
    (hi : ∀ p v q, rest = p ++ v :: q → v ∉ Submodule.span 𝕜 {x | x ∈ done} ⊔ Submodule.span 𝕜 {x | x ∈ p}) :
    ∃ out, davidsonInit (davidsonIn eigh pre small) done rest = some out := by
  induction rest generalizing done with
  | nil => exact ⟨_, rfl⟩
  | cons v t ih =>
    obtain ⟨w, hw⟩ : ∃ w, done.foldl (fun w u => w + (-(davidsonIn eigh pre small : DavidsonEnv 𝕜 V).dot u w) • u) v = w := ⟨_, rfl⟩
    have hw' : w = v - ∑ j ∈ Finset.range done.length, (inner 𝕜 (done.getD j 0) v : 𝕜) • done.getD j 0 := by
      rw [← hw, foldl_getD _ 0]
      exact foldl_project (fun j => done.getD j 0) done.length ((orthonormal_famOf done done.length).1 ho) v
    have hp : (∑ j ∈ Finset.range done.length, (inner 𝕜 (done.getD j 0) v : 𝕜) • done.getD j 0) ∈
        Submodule.span 𝕜 {x | x ∈ done} := by
      rw [← famOf_range]
      exact Submodule.sum_mem _ fun j hj => Submodule.smul_mem _ _
        (Submodule.subset_span ⟨⟨j, Finset.mem_range.1 hj⟩, rfl⟩)
    have hv : v ∉ Submodule.span 𝕜 {x | x ∈ done} := by
      have := hi [] v t rfl
      simpa using this
    have hw0 : w ≠ 0 := by
      intro h0
      rw [hw', sub_eq_zero] at h0
      exact hv (h0 ▸ hp)
    have hn := davidsonIn_normalize (eigh := eigh) (pre := pre) (small := small) |>.2 ⟨hw0, rfl⟩
    have h1 : davidsonInit (davidsonIn eigh pre small) done [v] = some (done ++ [((‖w‖ : ℝ) : 𝕜)⁻¹ • w]) := by
      rw [davidsonInit, hw, hn]; rfl
    obtain ⟨a1, a2⟩ := davidsonInit_ortho done [v] _ ho h1
    have e : ∀ x : V, {y | y ∈ [x]} = {x} := by intro x; ext y; simp
    rw [e] at a2
    obtain ⟨out, hout⟩ := ih _ a1 (by
      intro p u q ht
      have := hi (v :: p) u q (by rw [ht]; rfl)
      have hcons : Submodule.span 𝕜 {x | x ∈ v :: p} = Submodule.span 𝕜 {v} ⊔ Submodule.span 𝕜 {x | x ∈ p} := by
        rw [← Submodule.span_union]
        congr 1
        ext x; simp
      rw [hcons, ← sup_assoc] at this
      rwa [a2])
    exact ⟨out, by rw [davidsonInit, hw, hn, Option.bind_some, hout]⟩

/-- Linear independence in the form used by the induction. -/
theorem independent_split (b : List V) (h : LinearIndependent 𝕜 (famOf b b.length)) (p : List V) (v : V) (q : List V)
    (hb : b = p ++ v :: q) : v ∉ Submodule.span 𝕜 {x | x ∈ p} := by
  subst hb
  intro hv
  have hi : p.length < (p ++ v :: q).length := by simp
  have := h.notMem_span_image (s := {i | i.val < p.length}) (x := ⟨p.length, hi⟩) (by simp)
  apply this
  have e : famOf (p ++ v :: q) (p ++ v :: q).length ⟨p.length, hi⟩ = v := by
    simp [famOf, List.getD_eq_getElem?_getD]
  rw [e]
  refine Submodule.span_mono ?_ hv
  intro x hx
  obtain ⟨i, hip, rfl⟩ := List.mem_iff_getElem.1 hx
  refine ⟨⟨i, by simp; omega⟩, hip, ?_⟩
  simp [famOf, List.getD_eq_getElem?_getD, List.getElem?_append_left hip, List.getElem?_eq_getElem hip]

/-- The run of the solver, seen from outside. -/
theorem davidson_out (a : V →ₗ[𝕜] V) (ha : a.IsSymmetric) (he : EighWorks eigh)
    (b : List V) (k maxIter minSize maxSize : Nat)
    (ld : List 𝕜) (vs : List V) (it : Nat) (w : Bool)
    (h : davidson a (davidsonIn eigh pre small) b k maxIter minSize maxSize = some (ld, vs, it, w)) :
    ld.length = k ∧ vs.length = k ∧ DavidsonOut a (Submodule.span 𝕜 {x | x ∈ b}) k vs (fun i => ld.getD i 0) := by
  unfold davidson at h
  by_cases h0 : b.length ≠ k ∨ k = 0 ∨ maxIter = 0
  · rw [if_pos h0] at h; cases h
  rw [if_neg h0] at h
  simp only [ne_eq, not_or, not_not] at h0
  obtain ⟨hbl, hk, hm⟩ := h0
  simp only [Option.bind_eq_some_iff, Option.map_eq_some_iff] at h
  obtain ⟨b0, hb0, ⟨st, it', w'⟩, hl, hx⟩ := h
  simp only [Prod.mk.injEq] at hx
  obtain ⟨rfl, rfl, rfl, rfl⟩ := hx
  have hlen : b0.length = k := by
    rw [davidsonInit_length _ _ _ hb0]; simp [hbl]
  have hinv : DavidsonInv a k (if minSize < k then k else minSize)
      { b := b0, sigma := List.replicate k 0, ck := 0, m := k, msig := 0,
        ld := fun _ => 0 } :=
    ⟨by simp [hlen], by simp [hlen], by simp, fun i hi => by simp at hi, by simp only; omega, by simp, Or.inl hlen⟩
  obtain ⟨ho, hsp⟩ := davidsonInit_ortho (eigh := eigh) (pre := pre) (small := small) ([] : List V) b _
    ⟨fun i => i.elim0, fun i => i.elim0⟩ hb0
  have hsp' : Submodule.span 𝕜 {x | x ∈ b} = Submodule.span 𝕜 (Set.range (famOf b0 k)) := by
    have := famOf_range b0
    rw [hlen] at this
    rw [this, hsp]; simp
  rw [hlen] at ho
  have hout := davidsonLoop_out a ha he (Submodule.span 𝕜 {x | x ∈ b}) k _ maxSize
    (by split_ifs <;> omega) maxIter 0 _ st it' w' (by omega) ⟨hinv, ho, fun j M _ hW => hsp' ▸ hW⟩ hl
  obtain ⟨h1, h2, _⟩ := davidsonLoop_spec a _ k _ maxSize (by split_ifs <;> omega) maxIter 0 _ st it' w' (by omega) hinv hl
  refine ⟨by simp [h1], by simp [h1, h2], ?_, ?_⟩
  · have e : (fun j : Fin k => ((List.range st.ck).map st.ld).getD j.val 0) = fun j : Fin k => st.ld j.val := by
      funext j
      simp [List.getD_eq_getElem?_getD, h1]
    rw [e]
    exact hout.family.take (le_refl k) fun i hi => by simp [List.getD_eq_getElem?_getD, h1, hi]
  · intro j M hj hW
    have e : ((List.range st.ck).map st.ld).getD j 0 = st.ld j := by simp [List.getD_eq_getElem?_getD, h1, hj]
    simp only [e]
    exact hout.upper j M hj hW

/-- C60: for a Hermitian operator the reported vectors are orthonormal, the reported values are real and ascending, and the operator has between the reported vectors exactly the reported values on the diagonal.  This holds whether or
not the run converged. -/
theorem C60_ritz (a : V →ₗ[𝕜] V) (ha : a.IsSymmetric) (he : EighWorks eigh)
    (b : List V) (k maxIter minSize maxSize : Nat)
    (ld : List 𝕜) (vs : List V) (it : Nat) (w : Bool)
    (h : davidson a (davidsonIn eigh pre small) b k maxIter minSize maxSize = some (ld, vs, it, w)) :
    ld.length = k ∧ vs.length = k ∧
      (∀ i j, i < k → j < k → inner 𝕜 (vs.getD i 0) (vs.getD j 0) = if i = j then (1 : 𝕜) else 0) ∧
      (∀ i j, i < k → j < k → inner 𝕜 (vs.getD i 0) (a (vs.getD j 0)) = if i = j then ld.getD j 0 else 0) ∧
      (∀ j, j < k → ((re (ld.getD j 0) : ℝ) : 𝕜) = ld.getD j 0) ∧
      ∀ i j, i ≤ j → j < k → re (ld.getD i 0) ≤ re (ld.getD j 0) := by
  obtain ⟨h1, h2, h3⟩ := davidson_out a ha he b k maxIter minSize maxSize ld vs it w h
  refine ⟨h1, h2, (orthonormal_famOf vs k).1 h3.family.ortho, ?_, ?_, ?_⟩
  · intro i j hi hj
    have := h3.family.ritz ⟨i, hi⟩ ⟨j, hj⟩
    simpa [famOf] using this
  · intro j hj
    exact h3.family.real ⟨j, hj⟩
  · intro i j hij hj
    exact h3.family.sorted ⟨i, by omega⟩ ⟨j, hj⟩ hij

/-- C60: no reported value is below the true spectrum: if the operator is at least `μ` on all vectors orthogonal to some `j`
vectors (for instance to the `j` lowest eigenvectors, `μ` being the next eigenvalue), the value with index `j` is at least `μ`. -/
theorem C60_not_below (a : V →ₗ[𝕜] V) (ha : a.IsSymmetric) (he : EighWorks eigh)
    (b : List V) (k maxIter minSize maxSize : Nat)
    (ld : List 𝕜) (vs : List V) (it : Nat) (w : Bool)
    (h : davidson a (davidsonIn eigh pre small) b k maxIter minSize maxSize = some (ld, vs, it, w))
    (j : Nat) (hj : j < k) (f : Fin j → V) (μ : ℝ)
    (hf : ∀ v, (∀ i, inner 𝕜 (f i) v = 0) → μ * ‖v‖ ^ 2 ≤ re (inner 𝕜 v (a v))) :
    μ ≤ re (ld.getD j 0) := by
  obtain ⟨_, _, h3⟩ := davidson_out a ha he b k maxIter minSize maxSize ld vs it w h
  exact h3.family.lower ⟨j, hj⟩ f μ hf

/-- C60: no reported value is above what the guesses already give: if `j + 1` independent combinations of the guesses span a
space on which the operator is at most `M`, the value with index `j` is at most `M`. -/
theorem C60_not_above (a : V →ₗ[𝕜] V) (ha : a.IsSymmetric) (he : EighWorks eigh)
    (b : List V) (k maxIter minSize maxSize : Nat)
    (ld : List 𝕜) (vs : List V) (it : Nat) (w : Bool)
    (h : davidson a (davidsonIn eigh pre small) b k maxIter minSize maxSize = some (ld, vs, it, w))
    (j : Nat) (hj : j < k) (g : Fin (j + 1) → V) (hg : LinearIndependent 𝕜 g) (hin : ∀ i, g i ∈ Submodule.span 𝕜 {x | x ∈ b})
    (M : ℝ) (hM : ∀ v ∈ Submodule.span 𝕜 (Set.range g), re (inner 𝕜 v (a v)) ≤ M * ‖v‖ ^ 2) :
    re (ld.getD j 0) ≤ M := by
  obtain ⟨_, _, h3⟩ := davidson_out a ha he b k maxIter minSize maxSize ld vs it w h
  exact h3.upper j M hj ⟨g, hg, hin, hM⟩

/-- C60, the case of one root: the reported energy is the energy of the reported unit vector, it is not above the energy of the
guess, and it is not below the bottom of the spectrum. -/
theorem C60_ground (a : V →ₗ[𝕜] V) (ha : a.IsSymmetric) (he : EighWorks eigh)
    (g : V) (maxIter minSize maxSize : Nat) (ld : List 𝕜) (vs : List V) (it : Nat) (w : Bool)
    (h : davidson a (davidsonIn eigh pre small) [g] 1 maxIter minSize maxSize = some (ld, vs, it, w)) :
    ∃ (e : ℝ) (v : V), ld = [(e : 𝕜)] ∧ vs = [v] ∧ ‖v‖ = 1 ∧ inner 𝕜 v (a v) = (e : 𝕜) ∧
      e * ‖g‖ ^ 2 ≤ re (inner 𝕜 g (a g)) ∧ ∀ μ : ℝ, (∀ u, μ * ‖u‖ ^ 2 ≤ re (inner 𝕜 u (a u))) → μ ≤ e := by
  have hg : g ≠ 0 := by
    rintro rfl
    have h0 : davidsonInit (davidsonIn eigh pre small : DavidsonEnv 𝕜 V) [] [0] = none := by
      simp [davidsonInit, davidsonIn]
    unfold davidson at h
    by_cases hc : [(0 : V)].length ≠ 1 ∨ 1 = 0 ∨ maxIter = 0
    · rw [if_pos hc] at h; cases h
    · rw [if_neg hc, h0] at h; cases h
  have hg1 : LinearIndependent 𝕜 (![g] : Fin 1 → V) := LinearIndependent.of_subsingleton (0 : Fin 1) hg
  obtain ⟨h1, h2, h3, h4, h5, _⟩ := C60_ritz a ha he [g] 1 maxIter minSize maxSize ld vs it w h
  obtain ⟨x, rfl⟩ := List.length_eq_one_iff.1 h1
  obtain ⟨v, rfl⟩ := List.length_eq_one_iff.1 h2
  have hx : ((re x : ℝ) : 𝕜) = x := h5 0 (by omega)
  refine ⟨re x, v, by rw [hx], rfl, ?_, ?_, ?_, ?_⟩
  · have : inner 𝕜 v v = (1 : 𝕜) := h3 0 0 (by omega) (by omega)
    rw [inner_self_eq_norm_sq_to_K] at this
    have h6 : ‖v‖ ^ 2 = 1 := by exact_mod_cast this
    have := norm_nonneg v
    nlinarith
  · have : inner 𝕜 v (a v) = x := h4 0 0 (by omega) (by omega)
    rw [this, hx]
  · have hpos : 0 < ‖g‖ ^ 2 := by have := norm_pos_iff.2 hg; positivity
    rw [← le_div_iff₀ hpos]
    refine C60_not_above a ha he [g] 1 maxIter minSize maxSize [x] [v] it w h 0 (by omega) ![g]
      hg1 ?_ _ ?_
    · intro i
      match i with
      | ⟨0, _⟩ => exact Submodule.subset_span (by simp)
    · intro u hu
      rw [Matrix.range_cons, Matrix.range_empty, Set.union_empty] at hu
      obtain ⟨c, rfl⟩ := Submodule.mem_span_singleton.1 hu
      rw [map_smul, inner_smul_left, inner_smul_right, ← mul_assoc, RCLike.conj_mul, ← RCLike.ofReal_pow, RCLike.re_ofReal_mul,
        norm_smul, mul_pow, div_mul_eq_mul_div, mul_comm (‖c‖ ^ 2) (‖g‖ ^ 2), ← mul_assoc, mul_div_right_comm,
        mul_div_assoc, div_self hpos.ne', mul_one, mul_comm]
  · intro μ hμ
    exact C60_not_below a ha he [g] 1 maxIter minSize maxSize [x] [v] it w h 0 (by omega) (fun i => i.elim0) μ
      fun u _ => hμ u

/-! ### The contract can be kept, and the solver does return -/

/-- Every Hermitian matrix has what `np.linalg.eigh` promises. -/
theorem isEigh_exists (m : Nat) (M : Nat → Nat → 𝕜)
    (hM : ∀ i j, i < m → j < m → M i j = (starRingEnd 𝕜) (M j i)) : ∃ ld alpha, IsEigh m M ld alpha := by
  let A : Matrix (Fin m) (Fin m) 𝕜 := Matrix.of fun i j => M i.val j.val
  have hA : A.IsHermitian := by
    ext i j
    exact (hM i.val j.val i.isLt j.isLt).symm
  let σ : Equiv.Perm (Fin m) := Tuple.sort hA.eigenvalues
  have hσ : Monotone (hA.eigenvalues ∘ σ) := Tuple.monotone_sort _
  refine ⟨fun j => if h : j < m then ((hA.eigenvalues (σ ⟨j, h⟩) : ℝ) : 𝕜) else 0,
    fun i j => if h : i < m ∧ j < m then hA.eigenvectorBasis (σ ⟨j, h.2⟩) ⟨i, h.1⟩ else 0, ?_, ?_, ?_, ?_⟩
  · intro j hj
    simp only [dif_pos hj, RCLike.ofReal_re]
  · intro i j hij hj
    have hi : i < m := lt_of_le_of_lt hij hj
    simp only [dif_pos hj, dif_pos hi, RCLike.ofReal_re]
    exact hσ (show (⟨i, hi⟩ : Fin m) ≤ ⟨j, hj⟩ from hij)
  · intro j k hj hk
    have h1 := orthonormal_iff_ite.1 hA.eigenvectorBasis.orthonormal (σ ⟨j, hj⟩) (σ ⟨k, hk⟩)
    rw [PiLp.inner_apply] at h1
    rw [Finset.sum_range]
    simp only [EmbeddingLike.apply_eq_iff_eq, Fin.mk.injEq] at h1
    rw [← h1]
    refine Finset.sum_congr rfl fun i _ => ?_
    rw [dif_pos ⟨i.isLt, hj⟩, dif_pos ⟨i.isLt, hk⟩]
    simp [mul_comm]
  · intro i k hi hk
    have h1 := congrFun (hA.mulVec_eigenvectorBasis (σ ⟨k, hk⟩)) ⟨i, hi⟩
    rw [Finset.sum_range, dif_pos ⟨hi, hk⟩]
    simp only [dif_pos hk]
    rw [Matrix.mulVec, dotProduct] at h1
    rw [mul_comm]
    refine Eq.trans ?_ (h1.trans ?_)
    · refine Finset.sum_congr rfl fun j _ => ?_
      rw [dif_pos ⟨j.isLt, hk⟩]
      rfl
    · simp [RCLike.real_smul_eq_coe_mul]

/-- C60: the contract of the dense eigensolver can be kept for all Hermitian matrices, real or complex. -/
theorem C60_contract (𝕜 : Type) [RCLike 𝕜] :
    ∃ eigh : Nat → (Nat → Nat → 𝕜) → (Nat → 𝕜) × (Nat → Nat → 𝕜), EighWorks eigh := by
  classical
  refine ⟨fun m M => if h : ∀ i j, i < m → j < m → M i j = (starRingEnd 𝕜) (M j i) then
    ((isEigh_exists m M h).choose, (isEigh_exists m M h).choose_spec.choose) else (fun _ => 0, fun _ _ => 0), ?_⟩
  intro m M h
  simp only [dif_pos h]
  exact (isEigh_exists m M h).choose_spec.choose_spec

/-- C60: with as many independent guesses as roots, at least one iteration, room for the roots and for the space kept at a restart,
a convergence test that accepts 0, and a preconditioner that does not lead back into the space already searched (for instance
none), the solver returns. -/
theorem C60_returns (a : V →ₗ[𝕜] V) (ha : a.IsSymmetric) (he : EighWorks eigh) (hs : small 0 = true) (hp : NoBreakdown pre)
    (b : List V) (hi : LinearIndependent 𝕜 (fun i : Fin b.length => b.getD i.val 0)) (k maxIter minSize maxSize : Nat) (hb : b.length = k)
    (hk : 0 < k) (hm : 0 < maxIter) (h1 : minSize ≤ maxSize) (h2 : k ≤ maxSize) :
    ∃ ld vs it w, davidson a (davidsonIn eigh pre small) b k maxIter minSize maxSize = some (ld, vs, it, w) := by
  unfold davidson
  rw [if_neg (by omega)]
  obtain ⟨b0, hb0⟩ := davidsonInit_some (eigh := eigh) (pre := pre) (small := small) ([] : List V) b
    ⟨fun i => i.elim0, fun i => i.elim0⟩ (by
      intro p v q hpq
      have := independent_split b hi p v q hpq
      simpa using this)
  obtain ⟨ho, -⟩ := davidsonInit_ortho (eigh := eigh) (pre := pre) (small := small) ([] : List V) b _
    ⟨fun i => i.elim0, fun i => i.elim0⟩ hb0
  have hlen : b0.length = k := by rw [davidsonInit_length _ _ _ hb0]; simp [hb]
  rw [hlen] at ho
  have := davidsonLoop_returns a ha he hs hp k (if minSize < k then k else minSize) maxSize (by split_ifs <;> omega)
    (by split_ifs <;> omega) maxIter 0
    { b := b0, sigma := List.replicate k 0, ck := 0, m := k, msig := 0, ld := fun _ => 0 }
    ⟨⟨by simp [hlen], by simp [hlen], by simp, fun i hi => by simp at hi, by simp only; omega, by simp, Or.inl hlen⟩, ho, by
      rintro j M _ ⟨g, hg, hin, -⟩
      have h0 := hg.ne_zero 0
      exact absurd ((Submodule.mem_bot 𝕜).1 (hin 0)) h0⟩
  obtain ⟨⟨st, it, w⟩, hr⟩ := Option.ne_none_iff_exists'.1 this
  exact ⟨_, _, _, _, by simp only [hb0, Option.bind_some, hr]; rfl⟩

/-- Non-trivial case: a complex Hermitian matrix in the plane which does not have the guess as eigenvector. -/
example : ∃ (eigh : Nat → (Nat → Nat → ℂ) → (Nat → ℂ) × (Nat → Nat → ℂ)) (a : EuclideanSpace ℂ (Fin 2) →ₗ[ℂ] EuclideanSpace ℂ (Fin 2))
    (g : EuclideanSpace ℂ (Fin 2)), EighWorks eigh ∧ a.IsSymmetric ∧ g ≠ 0 ∧ (∀ z : ℂ, a g ≠ z • g) ∧
      ∃ ld vs it w, davidson a (davidsonIn eigh none fun z => decide (‖z‖ < 1)) [g] 1 50 2 30 = some (ld, vs, it, w) := by
  obtain ⟨eigh, he⟩ := C60_contract ℂ
  have hh : (!![(2 : ℂ), Complex.I; -Complex.I, 3]).IsHermitian := by
    ext i j; fin_cases i <;> fin_cases j <;> simp
  have hg : (EuclideanSpace.single 0 1 : EuclideanSpace ℂ (Fin 2)) ≠ 0 := by
    intro h
    have := congrArg (fun v : EuclideanSpace ℂ (Fin 2) => v 0) h
    simp at this
  refine ⟨eigh, Matrix.toEuclideanLin !![(2 : ℂ), Complex.I; -Complex.I, 3], EuclideanSpace.single 0 1, he,
    Matrix.isHermitian_iff_isSymmetric.1 hh, hg, ?_, ?_⟩
  · intro z h
    have := congrArg (fun v : EuclideanSpace ℂ (Fin 2) => v 1) h
    simp [Matrix.toEuclideanLin_apply, Matrix.mulVec, dotProduct] at this
  · refine C60_returns _ (Matrix.isHermitian_iff_isSymmetric.1 hh) he (by simp) (by intro f hf; cases hf) _ ?_ 1 50 2 30 rfl
      (by omega) (by omega) (by omega) (by omega)
    have e : (fun i : Fin [(EuclideanSpace.single 0 1 : EuclideanSpace ℂ (Fin 2))].length =>
        [(EuclideanSpace.single 0 1 : EuclideanSpace ℂ (Fin 2))].getD i.val 0) = ![EuclideanSpace.single 0 1] := by
      funext i; match i with | ⟨0, _⟩ => rfl
    rw [e]
    have h1 : LinearIndependent ℂ (![EuclideanSpace.single 0 1] : Fin 1 → EuclideanSpace ℂ (Fin 2)) :=
      LinearIndependent.of_subsingleton (0 : Fin 1) hg
    exact h1

end Verif
