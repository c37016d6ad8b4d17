import Verif.Proof.DavidsonFamily
import Verif.Thm.Linalg

/-!
One iteration of the Davidson solver: the projected eigenproblem turns orthonormal trial vectors into a Ritz family of the same
span, and the expansion step adds one more orthonormal vector.
-/

set_option linter.unusedSectionVars false

namespace Verif
open RCLike
variable {𝕜 V : Type} [RCLike 𝕜] [NormedAddCommGroup V] [InnerProductSpace 𝕜 V]

/-- The first `m` vectors of a list. -/
def famOf (b : List V) (m : Nat) : Fin m → V := fun i => b.getD i.val 0

theorem foldl_skip (f : Nat → V) (j n : Nat) (x : V) :
    (List.range n).foldl (fun w i => if i ≠ j then w + f i else w) x = x + ∑ i ∈ Finset.range n, if i ≠ j then f i else 0 := by
  induction n with
  | zero => simp
  | succ n ih =>
    rw [List.range_succ, List.foldl_append, ih, Finset.sum_range_succ]
    simp only [List.foldl_cons, List.foldl_nil]
    split_ifs <;> simp [add_assoc]

theorem rotate_family (m : Nat) (alpha : Nat → Nat → 𝕜) (b : List V) (hm : m ≤ b.length) (j : Fin m) :
    famOf (davidsonRotate m alpha b) m j = ∑ i : Fin m, alpha i.val j.val • famOf b m i := by
  unfold famOf
  rw [davidsonRotate_getD m alpha b j.val (by omega), if_pos j.isLt, foldl_skip (fun i => alpha i j.val • b.getD i 0),
    Finset.sum_range (fun i => if i ≠ j.val then alpha i j.val • b.getD i 0 else 0)]
  rw [Finset.sum_ite]
  simp only [Finset.sum_const_zero, add_zero]
  rw [← Finset.add_sum_erase Finset.univ _ (Finset.mem_univ j)]
  congr 1
  refine Finset.sum_congr ?_ fun _ _ => rfl
  ext i; simp [Fin.ext_iff]

theorem ritz_rotate (a : V →ₗ[𝕜] V) {m : Nat} (B : Fin m → V) (hB : Orthonormal 𝕜 B) (M : Nat → Nat → 𝕜)
    (hM : ∀ i j : Fin m, M i.val j.val = inner 𝕜 (B i) (a (B j))) (ld : Nat → 𝕜) (alpha : Nat → Nat → 𝕜)
    (he : IsEigh m M ld alpha) :
    RitzFamily a (fun j : Fin m => ∑ i : Fin m, alpha i.val j.val • B i) (fun j => ld j.val) ∧
      ∀ i, B i ∈ Submodule.span 𝕜 (Set.range fun j : Fin m => ∑ i : Fin m, alpha i.val j.val • B i) := by
  have ho : ∀ j k : Fin m, ∑ i : Fin m, (starRingEnd 𝕜) (alpha i.val j.val) * alpha i.val k.val = if j = k then 1 else 0 := by
    intro j k
    have := he.ortho j.val k.val j.isLt k.isLt
    rw [Finset.sum_range (fun i => (starRingEnd 𝕜) (alpha i j.val) * alpha i k.val)] at this
    rw [this]; simp [Fin.ext_iff]
  have hg : ∀ i k : Fin m, ∑ j : Fin m, M i.val j.val * alpha j.val k.val = alpha i.val k.val * ld k.val := by
    intro i k
    have := he.eigen i.val k.val i.isLt k.isLt
    rwa [Finset.sum_range (fun j => M i.val j * alpha j k.val)] at this
  refine ⟨⟨?_, ?_, fun j => he.real _ j.isLt, fun i j hij => he.sorted _ _ hij j.isLt⟩, ?_⟩
  · rw [orthonormal_iff_ite]
    intro j k
    rw [hB.inner_sum, ho]
  · intro j k
    rw [map_sum, sum_inner]
    have e : ∀ i : Fin m, inner 𝕜 (alpha i.val j.val • B i) (∑ l : Fin m, a (alpha l.val k.val • B l)) =
        (starRingEnd 𝕜) (alpha i.val j.val) * alpha i.val k.val * ld k.val := by
      intro i
      rw [inner_smul_left, inner_sum, mul_assoc, ← hg i k]
      congr 1
      refine Finset.sum_congr rfl fun l _ => ?_
      rw [map_smul, inner_smul_right, hM, mul_comm]
    rw [Finset.sum_congr rfl fun i _ => e i, ← Finset.sum_mul, ho]
    split_ifs <;> simp
  · intro i
    let A : Matrix (Fin m) (Fin m) 𝕜 := Matrix.of fun i j => alpha i.val j.val
    have h1 : A.conjTranspose * A = 1 := by
      ext j k
      rw [Matrix.mul_apply, Matrix.one_apply, ← ho j k]
      rfl
    have h2 : A * A.conjTranspose = 1 := mul_eq_one_comm.1 h1
    have h3 : B i = ∑ j : Fin m, (starRingEnd 𝕜) (alpha i.val j.val) • ∑ l : Fin m, alpha l.val j.val • B l := by
      simp only [Finset.smul_sum, smul_smul]
      rw [Finset.sum_comm]
      simp only [← Finset.sum_smul]
      have h4 : ∀ l : Fin m, ∑ j : Fin m, (starRingEnd 𝕜) (alpha i.val j.val) * alpha l.val j.val = if l = i then 1 else 0 := by
        intro l
        have := congrFun (congrFun h2 l) i
        rw [Matrix.mul_apply, Matrix.one_apply] at this
        rw [← this]
        refine Finset.sum_congr rfl fun j _ => ?_
        rw [mul_comm]; rfl
      rw [Finset.sum_congr rfl fun l _ => by rw [h4 l]]
      simp
    rw [h3]
    exact Submodule.sum_mem _ fun j _ => Submodule.smul_mem _ _ (Submodule.subset_span ⟨j, rfl⟩)

variable (eigh : Nat → (Nat → Nat → 𝕜) → (Nat → 𝕜) × (Nat → Nat → 𝕜)) (pre : Option (V → V → 𝕜 → V)) (small : 𝕜 → Bool)

/-- Lines 163-189 of linalg.py on orthonormal trial vectors. -/
theorem davidsonRitz_family (a : V →ₗ[𝕜] V) (ha : a.IsSymmetric) (he : EighWorks eigh) (k minSize : Nat)
    (st : DavidsonState 𝕜 V) (h : DavidsonInv a k minSize st) (ho : Orthonormal 𝕜 (famOf st.b st.m)) :
    RitzFamily a (famOf (davidsonRitz a (davidsonIn eigh pre small) st).b st.m)
        (fun j => (davidsonRitz a (davidsonIn eigh pre small) st).ld j.val) ∧
      ∀ i, famOf st.b st.m i ∈
        Submodule.span 𝕜 (Set.range (famOf (davidsonRitz a (davidsonIn eigh pre small) st).b st.m)) := by
  have him := images_sigma a st.b st.sigma st.msig st.m h.len h.m_le h.images
  have hmat : ∀ i j, i < st.m → j < st.m →
      davidsonMatrix (davidsonIn eigh pre small) st.b (davidsonSigma a st.b st.sigma st.msig st.m) i j =
        inner 𝕜 (st.b.getD i 0) (a (st.b.getD j 0)) := by
    intro i j hi hj
    unfold davidsonMatrix
    simp only [davidsonIn]
    rw [← him i hi, ← him j hj]
    split_ifs
    · rfl
    · rw [inner_conj_symm]; exact ha _ _
  have hE := he st.m (davidsonMatrix (davidsonIn eigh pre small) st.b (davidsonSigma a st.b st.sigma st.msig st.m)) (by
    intro i j hi hj
    rw [hmat i j hi hj, hmat j i hj hi, inner_conj_symm]
    exact (ha _ _).symm)
  have := ritz_rotate a (famOf st.b st.m) ho _ (fun i j => hmat i.val j.val i.isLt j.isLt) _ _ hE
  have e : (fun j : Fin st.m => ∑ i : Fin st.m, (eigh st.m (davidsonMatrix (davidsonIn eigh pre small) st.b
      (davidsonSigma a st.b st.sigma st.msig st.m))).2 i.val j.val • famOf st.b st.m i) =
      famOf (davidsonRitz a (davidsonIn eigh pre small) st).b st.m := by
    funext j
    exact (rotate_family st.m _ st.b h.m_le j).symm
  rw [e] at this
  exact this

theorem foldl_project (B : Nat → V) (n : Nat) (ho : ∀ i j, i < n → j < n → inner 𝕜 (B i) (B j) = if i = j then (1 : 𝕜) else 0)
    (q : V) :
    (List.range n).foldl (fun q j => q + (-(inner 𝕜 (B j) q : 𝕜)) • B j) q = q - ∑ j ∈ Finset.range n, (inner 𝕜 (B j) q : 𝕜) • B j := by
  induction n with
  | zero => simp
  | succ n ih =>
    rw [List.range_succ, List.foldl_append, ih fun i j hi hj => ho i j (by omega) (by omega), Finset.sum_range_succ]
    simp only [List.foldl_cons, List.foldl_nil]
    have : inner 𝕜 (B n) (q - ∑ j ∈ Finset.range n, (inner 𝕜 (B j) q : 𝕜) • B j) = (inner 𝕜 (B n) q : 𝕜) := by
      rw [inner_sub_right, inner_sum, Finset.sum_eq_zero, sub_zero]
      intro j hj
      have := Finset.mem_range.1 hj
      rw [inner_smul_right, ho n j (by omega) (by omega), if_neg (by omega), mul_zero]
    rw [this, neg_smul]
    abel

theorem project_orthogonal (B : Nat → V) (n : Nat)
    (ho : ∀ i j, i < n → j < n → inner 𝕜 (B i) (B j) = if i = j then (1 : 𝕜) else 0) (q : V) (i : Nat) (hi : i < n) :
    inner 𝕜 (B i) (q - ∑ j ∈ Finset.range n, (inner 𝕜 (B j) q : 𝕜) • B j) = (0 : 𝕜) := by
  rw [inner_sub_right, inner_sum, Finset.sum_eq_single i]
  · rw [inner_smul_right, ho i i hi hi, if_pos rfl, mul_one, sub_self]
  · intro j hj hne
    rw [inner_smul_right, ho i j hi (Finset.mem_range.1 hj), if_neg (Ne.symm hne), mul_zero]
  · intro h; exact absurd (Finset.mem_range.2 hi) h

theorem inner_normalized (v : V) (hv : v ≠ 0) : inner 𝕜 (((‖v‖ : ℝ) : 𝕜)⁻¹ • v) (((‖v‖ : ℝ) : 𝕜)⁻¹ • v) = (1 : 𝕜) := by
  have h := norm_ne_zero_iff.2 hv
  rw [inner_smul_left, inner_smul_right, inner_self_eq_norm_sq_to_K, map_inv₀, RCLike.conj_ofReal]
  have : ((‖v‖ : ℝ) : 𝕜) ≠ 0 := by exact_mod_cast h
  field_simp

/-- Adding one normalised vector orthogonal to `n` orthonormal ones. -/
theorem orthonormal_snoc (B B' : Nat → V) (n : Nat)
    (ho : ∀ i j, i < n → j < n → inner 𝕜 (B i) (B j) = if i = j then (1 : 𝕜) else 0) (w : V) (hw : w ≠ 0)
    (hwo : ∀ i, i < n → inner 𝕜 (B i) w = (0 : 𝕜)) (hB : ∀ i, i < n → B' i = B i) (hn : B' n = ((‖w‖ : ℝ) : 𝕜)⁻¹ • w) :
    ∀ i j, i < n + 1 → j < n + 1 → inner 𝕜 (B' i) (B' j) = if i = j then (1 : 𝕜) else 0 := by
  intro i j hi hj
  by_cases h1 : i = n <;> by_cases h2 : j = n
  · subst h1; subst h2
    rw [hn, inner_normalized w hw, if_pos rfl]
  · subst h1
    rw [hn, hB j (by omega), if_neg (Ne.symm h2), inner_smul_left, ← inner_conj_symm, hwo j (by omega)]
    simp
  · subst h2
    rw [hn, hB i (by omega), if_neg h1, inner_smul_right, hwo i (by omega), mul_zero]
  · rw [hB i (by omega), hB j (by omega), ho i j (by omega) (by omega)]

theorem orthonormal_famOf (b : List V) (m : Nat) :
    Orthonormal 𝕜 (famOf b m) ↔ ∀ i j, i < m → j < m → inner 𝕜 (b.getD i 0) (b.getD j 0) = if i = j then (1 : 𝕜) else 0 := by
  rw [orthonormal_iff_ite]
  constructor
  · intro h i j hi hj
    have := h ⟨i, hi⟩ ⟨j, hj⟩
    simpa [famOf] using this
  · intro h i j
    have := h i.val j.val i.isLt j.isLt
    rw [famOf, famOf, this]
    simp [Fin.ext_iff]

end Verif
