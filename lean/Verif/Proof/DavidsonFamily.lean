import Verif.Spec.Davidson
import Mathlib.Analysis.InnerProductSpace.Symmetric
import Mathlib.LinearAlgebra.Matrix.NonsingularInverse
import Mathlib.LinearAlgebra.FiniteDimensional.Lemmas
import Mathlib.LinearAlgebra.Dimension.LinearMap
import Mathlib.LinearAlgebra.Matrix.ToLin

/-!
Orthonormal families on which an operator is diagonal: energies of their combinations, and the two comparison arguments.
-/

set_option linter.unusedSectionVars false

namespace Verif
open RCLike
variable {𝕜 V : Type} [RCLike 𝕜] [NormedAddCommGroup V] [InnerProductSpace 𝕜 V]

/-- Orthonormal vectors between which the operator has no matrix elements, with ascending real diagonal. -/
structure RitzFamily (a : V →ₗ[𝕜] V) {m : Nat} (B : Fin m → V) (ld : Fin m → 𝕜) : Prop where
  ortho : Orthonormal 𝕜 B
  ritz : ∀ j k, inner 𝕜 (B j) (a (B k)) = if j = k then ld k else 0
  real : ∀ j, ((re (ld j) : ℝ) : 𝕜) = ld j
  sorted : ∀ i j, i ≤ j → re (ld i) ≤ re (ld j)

theorem RitzFamily.energy {a : V →ₗ[𝕜] V} {m : Nat} {B : Fin m → V} {ld : Fin m → 𝕜} (h : RitzFamily a B ld)
    (c : Fin m → 𝕜) :
    re (inner 𝕜 (∑ i, c i • B i) (a (∑ i, c i • B i))) = ∑ i, ‖c i‖ ^ 2 * re (ld i) := by
  rw [map_sum, sum_inner, map_sum]
  refine Finset.sum_congr rfl fun i _ => ?_
  rw [inner_sum]
  have e : ∀ j, inner 𝕜 (c i • B i) (a (c j • B j)) = if i = j then (starRingEnd 𝕜) (c i) * c i * ld i else 0 := by
    intro j
    rw [map_smul, inner_smul_left, inner_smul_right, h.ritz]
    by_cases hij : i = j
    · subst hij; simp [mul_assoc]
    · simp [hij]
  rw [Finset.sum_congr rfl fun j _ => e j, Finset.sum_ite_eq]
  simp only [Finset.mem_univ, if_true]
  rw [RCLike.conj_mul, ← h.real i, ← RCLike.ofReal_pow, ← RCLike.ofReal_mul, RCLike.ofReal_re, RCLike.ofReal_re]

theorem Orthonormal.norm_comb {m : Nat} {B : Fin m → V} (h : Orthonormal 𝕜 B) (c : Fin m → 𝕜) :
    ‖∑ i, c i • B i‖ ^ 2 = ∑ i, ‖c i‖ ^ 2 := by
  rw [← @inner_self_eq_norm_sq 𝕜, h.inner_sum]
  rw [map_sum]
  refine Finset.sum_congr rfl fun i _ => ?_
  rw [RCLike.conj_mul, ← RCLike.ofReal_pow, RCLike.ofReal_re]

/-- More unknowns than equations: `n` vectors always leave a non-trivial combination of `n + 1` others orthogonal to them. -/
theorem exists_orthogonal {n p : Nat} (hnp : n < p) (g : Fin p → V) (f : Fin n → V) :
    ∃ c : Fin p → 𝕜, c ≠ 0 ∧ ∀ i, inner 𝕜 (f i) (∑ j, c j • g j) = 0 := by
  let L : (Fin p → 𝕜) →ₗ[𝕜] (Fin n → 𝕜) :=
    { toFun := fun c i => inner 𝕜 (f i) (∑ j, c j • g j)
      map_add' := by
        intro c d; funext i
        simp only [Pi.add_apply, add_smul, Finset.sum_add_distrib, inner_add_right]
      map_smul' := by
        intro r c; funext i
        simp only [Pi.smul_apply, smul_eq_mul, mul_smul, ← Finset.smul_sum, inner_smul_right, RingHom.id_apply] }
  have hk : LinearMap.ker L ≠ ⊥ := LinearMap.ker_ne_bot_of_finrank_lt (by simpa using hnp)
  obtain ⟨c, hc, hne⟩ := (Submodule.ne_bot_iff _).1 hk
  exact ⟨c, hne, fun i => congrFun (LinearMap.mem_ker.1 hc) i⟩

/-- Lower comparison: if the operator is bounded below by `μ` on everything orthogonal to `j` vectors, the value with index `j`
is not below `μ`. -/
theorem RitzFamily.lower {a : V →ₗ[𝕜] V} {m : Nat} {B : Fin m → V} {ld : Fin m → 𝕜} (h : RitzFamily a B ld)
    (j : Fin m) (f : Fin j.val → V) (μ : ℝ)
    (hf : ∀ v, (∀ i, inner 𝕜 (f i) v = 0) → μ * ‖v‖ ^ 2 ≤ re (inner 𝕜 v (a v))) : μ ≤ re (ld j) := by
  obtain ⟨c, hne, ho⟩ := exists_orthogonal (𝕜 := 𝕜) (Nat.lt_succ_self j.val)
    (fun i : Fin (j.val + 1) => B ⟨i.val, by omega⟩) f
  have h' : RitzFamily a (fun i : Fin (j.val + 1) => B ⟨i.val, by omega⟩) (fun i : Fin (j.val + 1) => ld ⟨i.val, by omega⟩) := by
    refine ⟨h.ortho.comp _ fun x y hxy => ?_, fun x y => ?_, fun x => h.real _, fun x y hxy => h.sorted _ _ ?_⟩
    · simpa [Fin.ext_iff] using hxy
    · rw [h.ritz]; simp [Fin.ext_iff]
    · exact hxy
  have h1 := hf _ ho
  rw [h'.energy, Orthonormal.norm_comb h'.ortho] at h1
  have hpos : 0 < ∑ i, ‖c i‖ ^ 2 := by
    obtain ⟨i, hi⟩ := Function.ne_iff.1 hne
    exact Finset.sum_pos' (fun i _ => by positivity) ⟨i, Finset.mem_univ _, by
      have : 0 < ‖c i‖ := norm_pos_iff.2 hi
      positivity⟩
  have h2 : ∑ i, ‖c i‖ ^ 2 * re (ld ⟨i.val, by omega⟩) ≤ ∑ i, ‖c i‖ ^ 2 * re (ld j) :=
    Finset.sum_le_sum fun i _ => mul_le_mul_of_nonneg_left (h.sorted _ _ (by
      change i.val ≤ j.val
      omega)) (by positivity)
  rw [← Finset.sum_mul] at h2
  have h3 : μ * ∑ i, ‖c i‖ ^ 2 ≤ re (ld j) * ∑ i, ‖c i‖ ^ 2 := by
    refine h1.trans (h2.trans_eq (mul_comm _ _))
  exact le_of_mul_le_mul_right h3 hpos

/-- Upper comparison: if the space of the family contains `j + 1` independent vectors on whose combinations the operator is
bounded above by `M`, the value with index `j` is not above `M`. -/
theorem RitzFamily.upper {a : V →ₗ[𝕜] V} {m : Nat} {B : Fin m → V} {ld : Fin m → 𝕜} (h : RitzFamily a B ld)
    (j : Fin m) (g : Fin (j.val + 1) → V) (hg : LinearIndependent 𝕜 g)
    (hin : ∀ i, g i ∈ Submodule.span 𝕜 (Set.range B)) (M : ℝ)
    (hM : ∀ v ∈ Submodule.span 𝕜 (Set.range g), re (inner 𝕜 v (a v)) ≤ M * ‖v‖ ^ 2) : re (ld j) ≤ M := by
  obtain ⟨c, hne, ho⟩ := exists_orthogonal (𝕜 := 𝕜) (Nat.lt_succ_self j.val) g
    (fun i : Fin j.val => B ⟨i.val, by omega⟩)
  have hv : ∑ i, c i • g i ∈ Submodule.span 𝕜 (Set.range B) :=
    Submodule.sum_mem _ fun i _ => Submodule.smul_mem _ _ (hin i)
  have hvg : ∑ i, c i • g i ∈ Submodule.span 𝕜 (Set.range g) :=
    Submodule.sum_mem _ fun i _ => Submodule.smul_mem _ _ (Submodule.subset_span ⟨i, rfl⟩)
  have hv0 : ∑ i, c i • g i ≠ 0 := fun h0 => hne (funext fun i => by
    simpa using Fintype.linearIndependent_iff.1 hg c h0 i)
  obtain ⟨d, hd⟩ := (Submodule.mem_span_range_iff_exists_fun 𝕜).1 hv
  have h1 := hM _ hvg
  rw [← hd] at h1 ho hv0
  rw [h.energy, Orthonormal.norm_comb h.ortho] at h1
  have hlow : ∀ i : Fin m, i < j → d i = 0 := by
    intro i hi
    have := ho ⟨i.val, hi⟩
    rw [h.ortho.inner_right_fintype] at this
    exact this
  have hpos : 0 < ∑ i, ‖d i‖ ^ 2 := by
    rw [← Orthonormal.norm_comb h.ortho]
    have := norm_pos_iff.2 hv0
    positivity
  have h2 : ∑ i, ‖d i‖ ^ 2 * re (ld j) ≤ ∑ i, ‖d i‖ ^ 2 * re (ld i) := by
    refine Finset.sum_le_sum fun i _ => ?_
    by_cases hi : i < j
    · simp [hlow i hi]
    · exact mul_le_mul_of_nonneg_left (h.sorted _ _ (not_lt.1 hi)) (by positivity)
  rw [← Finset.sum_mul] at h2
  have h3 : re (ld j) * ∑ i, ‖d i‖ ^ 2 ≤ M * ∑ i, ‖d i‖ ^ 2 := by
    rw [mul_comm]; exact h2.trans h1
  exact le_of_mul_le_mul_right h3 hpos

/-- The first vectors of such a family are themselves `j + 1` independent vectors with energies at most the value `j`. -/
theorem RitzFamily.head {a : V →ₗ[𝕜] V} {m : Nat} {B : Fin m → V} {ld : Fin m → 𝕜} (h : RitzFamily a B ld) (j : Fin m) :
    LinearIndependent 𝕜 (fun i : Fin (j.val + 1) => B ⟨i.val, by omega⟩) ∧
      ∀ v ∈ Submodule.span 𝕜 (Set.range fun i : Fin (j.val + 1) => B ⟨i.val, by omega⟩),
        re (inner 𝕜 v (a v)) ≤ re (ld j) * ‖v‖ ^ 2 := by
  have h' : RitzFamily a (fun i : Fin (j.val + 1) => B ⟨i.val, by omega⟩) (fun i : Fin (j.val + 1) => ld ⟨i.val, by omega⟩) := by
    refine ⟨h.ortho.comp _ fun x y hxy => ?_, fun x y => ?_, fun x => h.real _, fun x y hxy => h.sorted _ _ ?_⟩
    · simpa [Fin.ext_iff] using hxy
    · rw [h.ritz]; simp [Fin.ext_iff]
    · exact hxy
  refine ⟨h'.ortho.linearIndependent, fun v hv => ?_⟩
  obtain ⟨c, hc⟩ := (Submodule.mem_span_range_iff_exists_fun 𝕜).1 hv
  rw [← hc, h'.energy, Orthonormal.norm_comb h'.ortho, mul_comm, Finset.sum_mul]
  exact Finset.sum_le_sum fun i _ => mul_le_mul_of_nonneg_left (h.sorted _ _ (by
      change i.val ≤ j.val
      omega)) (by positivity)

end Verif
