import Verif.Proof.DavidsonRitz

/-!
The whole run of the Davidson solver: orthonormal trial vectors at every iteration, and values that never rise.
-/

set_option linter.unusedSectionVars false

namespace Verif
open RCLike
variable {𝕜 V : Type} [RCLike 𝕜] [NormedAddCommGroup V] [InnerProductSpace 𝕜 V]

/-- The space `W` contains `j + 1` independent vectors on whose combinations the energy is at most `M`. -/
def UpperOn (a : V →ₗ[𝕜] V) (W : Submodule 𝕜 V) (j : Nat) (M : ℝ) : Prop :=
  ∃ g : Fin (j + 1) → V, LinearIndependent 𝕜 g ∧ (∀ i, g i ∈ W) ∧
    ∀ v ∈ Submodule.span 𝕜 (Set.range g), re (inner 𝕜 v (a v)) ≤ M * ‖v‖ ^ 2

theorem UpperOn.mono {a : V →ₗ[𝕜] V} {W W' : Submodule 𝕜 V} (h : W ≤ W') {j : Nat} {M : ℝ} (hu : UpperOn a W j M) :
    UpperOn a W' j M := by
  obtain ⟨g, h1, h2, h3⟩ := hu
  exact ⟨g, h1, fun i => h (h2 i), h3⟩

theorem RitzFamily.le_of_upperOn {a : V →ₗ[𝕜] V} {m : Nat} {B : Fin m → V} {ld : Fin m → 𝕜} (h : RitzFamily a B ld)
    (j : Fin m) (M : ℝ) (hu : UpperOn a (Submodule.span 𝕜 (Set.range B)) j.val M) : re (ld j) ≤ M := by
  obtain ⟨g, h1, h2, h3⟩ := hu
  exact h.upper j g h1 h2 M h3

/-- What holds at the head of every iteration. -/
structure DavidsonVar (a : V →ₗ[𝕜] V) (W : Submodule 𝕜 V) (k minSize : Nat) (st : DavidsonState 𝕜 V) : Prop where
  inv : DavidsonInv a k minSize st
  ortho : Orthonormal 𝕜 (famOf st.b st.m)
  upper : ∀ j M, j < k → UpperOn a W j M → UpperOn a (Submodule.span 𝕜 (Set.range (famOf st.b st.m))) j M

/-- What holds for the first `k` vectors and values when the run ends. -/
structure DavidsonOut (a : V →ₗ[𝕜] V) (W : Submodule 𝕜 V) (k : Nat) (b : List V) (ld : Nat → 𝕜) : Prop where
  family : RitzFamily a (famOf b k) (fun j => ld j.val)
  upper : ∀ j M, j < k → UpperOn a W j M → re (ld j) ≤ M

theorem RitzFamily.take {a : V →ₗ[𝕜] V} {m k : Nat} (hk : k ≤ m) {b b' : List V} {ld : Nat → 𝕜}
    (h : RitzFamily a (famOf b m) (fun j => ld j.val)) (hb : ∀ i, i < k → b'.getD i 0 = b.getD i 0) :
    RitzFamily a (famOf b' k) (fun j => ld j.val) := by
  have e : famOf b' k = fun i : Fin k => famOf b m ⟨i.val, by omega⟩ := by
    funext i; exact hb i.val i.isLt
  rw [e]
  refine ⟨h.ortho.comp _ fun x y hxy => ?_, fun x y => ?_, fun x => h.real ⟨x.val, by omega⟩,
    fun x y hxy => h.sorted ⟨x.val, by omega⟩ ⟨y.val, by omega⟩ hxy⟩
  · simpa [Fin.ext_iff] using hxy
  · rw [h.ritz]; simp [Fin.ext_iff]

variable {eigh : Nat → (Nat → Nat → 𝕜) → (Nat → 𝕜) × (Nat → Nat → 𝕜)} {pre : Option (V → V → 𝕜 → V)} {small : 𝕜 → Bool}

/-- The projected eigenproblem: the values do not exceed any bound known for the trial space. -/
theorem davidsonRitz_out (a : V →ₗ[𝕜] V) (ha : a.IsSymmetric) (he : EighWorks eigh) (W : Submodule 𝕜 V) (k minSize : Nat)
    (st : DavidsonState 𝕜 V) (h : DavidsonVar a W k minSize st) :
    RitzFamily a (famOf (davidsonRitz a (davidsonIn eigh pre small) st).b st.m)
        (fun j => (davidsonRitz a (davidsonIn eigh pre small) st).ld j.val) ∧
      ∀ j M, j < k → UpperOn a W j M → re ((davidsonRitz a (davidsonIn eigh pre small) st).ld j) ≤ M := by
  obtain ⟨h1, h2⟩ := davidsonRitz_family eigh pre small a ha he k minSize st h.inv h.ortho
  refine ⟨h1, fun j M hj hu => ?_⟩
  have hm := h.inv.k_le
  refine h1.le_of_upperOn ⟨j, by omega⟩ M ((h.upper j M hj hu).mono ?_)
  rw [Submodule.span_le]
  rintro _ ⟨i, rfl⟩
  exact h2 i

/-- The first vectors of a Ritz family keep the bounds, in any trial space which contains them. -/
theorem upperOn_of_ritz {a : V →ₗ[𝕜] V} {m : Nat} {b b' : List V} {ld : Nat → 𝕜}
    (h : RitzFamily a (famOf b m) (fun j => ld j.val)) (m' j : Nat) (hj : j < m) (hj' : j < m')
    (hb : ∀ i, i ≤ j → b'.getD i 0 = b.getD i 0) (M : ℝ) (hM : re (ld j) ≤ M) :
    UpperOn a (Submodule.span 𝕜 (Set.range (famOf b' m'))) j M := by
  obtain ⟨h1, h2⟩ := h.head ⟨j, hj⟩
  refine ⟨_, h1, fun i => Submodule.subset_span ⟨⟨i.val, by have := i.isLt; omega⟩, ?_⟩, fun v hv => (h2 v hv).trans ?_⟩
  · exact hb i.val (by have := i.isLt; omega)
  · exact mul_le_mul_of_nonneg_right hM (by positivity)

/-- Lines 204-227: what the expansion does to the list of trial vectors. -/
theorem davidsonExpand_b (E : DavidsonEnv 𝕜 V) (k minSize maxSize : Nat) (hk : k ≤ minSize) (a : V →ₗ[𝕜] V)
    (st st' : DavidsonState 𝕜 V) (h : DavidsonInv a k minSize st)
    (hx : davidsonExpand E minSize maxSize st = some st') :
    ∃ n, k ≤ n ∧ n ≤ st.m ∧ st'.m = n + 1 ∧ st'.ld = st.ld ∧ (∀ i, i < n → st'.b.getD i 0 = st.b.getD i 0) ∧
      E.normalize ((List.range n).foldl
        (fun q j => q + (- E.dot (st.b.getD j 0) q) • st.b.getD j 0)
        (match E.precondition with
          | none => davidsonResidual st st.ck
          | some f => f (davidsonResidual st st.ck) (st.b.getD st.ck 0) (st.ld st.ck))) = some (st'.b.getD n 0) := by
  have hd := h.deflated
  have hml := h.m_le
  have hkm := h.k_le
  unfold davidsonExpand at hx
  simp only at hx
  refine ⟨if maxSize ≤ st.m then minSize else st.m, ?_, ?_, ?_⟩
  · split_ifs <;> omega
  · split_ifs at hx ⊢ <;> omega
  split_ifs at hx ⊢ with h1 h2 h3 h3
  all_goals simp only [reduceCtorEq, Option.map_eq_some_iff] at hx
  all_goals obtain ⟨q, hq, rfl⟩ := hx
  all_goals refine ⟨rfl, rfl, fun i hi => ?_, hq.trans (congrArg some ?_)⟩
  all_goals simp only [List.getD_eq_getElem?_getD, List.getElem?_set]
  · rw [if_neg (by omega), List.getElem?_append_left (by omega)]
  · rw [if_pos trivial, if_pos (by simp; omega)]; rfl
  · rw [if_neg (by omega)]
  · rw [if_pos trivial, if_pos (by omega)]; rfl
  · rw [if_neg (by omega), List.getElem?_append_left (by omega)]
  · rw [if_pos trivial, if_pos (by simp; omega)]; rfl
  · rw [if_neg (by omega)]
  · rw [if_pos trivial, if_pos (by omega)]; rfl

theorem davidsonExpand_var (a : V →ₗ[𝕜] V) (W : Submodule 𝕜 V) (k minSize maxSize : Nat) (hk : k ≤ minSize)
    (st st' : DavidsonState 𝕜 V) (hi : DavidsonInv a k minSize st)
    (hms : st.msig = st.m) (hr : RitzFamily a (famOf st.b st.m) (fun j => st.ld j.val))
    (hu : ∀ j M, j < k → UpperOn a W j M → re (st.ld j) ≤ M)
    (hx : davidsonExpand (davidsonIn eigh pre small) minSize maxSize st = some st') :
    DavidsonVar a W k minSize st' ∧ st'.ld = st.ld ∧ ∀ i, i < k → st'.b.getD i 0 = st.b.getD i 0 := by
  have hinv := davidsonExpand_inv a _ k minSize maxSize hk st st' hi hms hx
  obtain ⟨n, hkn, hnm, hm', hld, hb, hbn⟩ := davidsonExpand_b _ k minSize maxSize hk a st st' hi hx
  have ho := (orthonormal_famOf st.b st.m).1 hr.ortho
  have ho' : ∀ i j, i < n → j < n → inner 𝕜 (st.b.getD i 0) (st.b.getD j 0) = if i = j then (1 : 𝕜) else 0 :=
    fun i j h1 h2 => ho i j (by omega) (by omega)
  generalize (match (davidsonIn eigh pre small : DavidsonEnv 𝕜 V).precondition with
          | none => davidsonResidual st st.ck
          | some f => f (davidsonResidual st st.ck) (st.b.getD st.ck 0) (st.ld st.ck)) = q at hbn
  obtain ⟨hw0, hbn⟩ := davidsonIn_normalize.1 hbn
  have hfold : (List.range n).foldl (fun q j => q + (-((davidsonIn eigh pre small : DavidsonEnv 𝕜 V).dot (st.b.getD j 0) q)) • st.b.getD j 0) q = _ :=
    foldl_project (𝕜 := 𝕜) (fun j => st.b.getD j 0) n ho' q
  rw [hfold] at hbn hw0
  have hon := orthonormal_snoc (fun j => st.b.getD j 0) (fun j => st'.b.getD j 0) n ho' _ hw0
    (fun i hi => project_orthogonal (fun j => st.b.getD j 0) n ho' q i hi) hb hbn
  refine ⟨⟨hinv, ?_, fun j M hj hW => ?_⟩, hld, fun i hi => hb i (by omega)⟩
  · rw [hm']
    exact (orthonormal_famOf st'.b (n + 1)).2 hon
  · exact upperOn_of_ritz hr st'.m j (by omega) (by omega) (fun i hi => hb i (by omega)) M (hu j M hj hW)

/-- The solver does not run into a zero vector when the preconditioner keeps the residual out of the space already searched. -/
theorem davidsonExpand_some (a : V →ₗ[𝕜] V) (k minSize maxSize : Nat) (hmm : minSize ≤ maxSize)
    (hs : small 0 = true) (hp : NoBreakdown pre) (st : DavidsonState 𝕜 V) (hi : DavidsonInv a k minSize st)
    (hms : st.msig = st.m) (hr : RitzFamily a (famOf st.b st.m) (fun j => st.ld j.val))
    (hq : ¬ small (inner 𝕜 (davidsonResidual st st.ck) (davidsonResidual st st.ck)) = true) :
    davidsonExpand (davidsonIn eigh pre small) minSize maxSize st ≠ none := by
  have ho := (orthonormal_famOf st.b st.m).1 hr.ortho
  have hck : st.ck < st.m := lt_of_lt_of_le hi.ck_lt hi.k_le
  have hres0 : davidsonResidual st st.ck ≠ 0 := by
    intro h0
    rw [h0, inner_zero_left] at hq
    exact hq hs
  have hresO : ∀ i, i < st.m → inner 𝕜 (st.b.getD i 0) (davidsonResidual st st.ck) = (0 : 𝕜) := by
    intro i him
    unfold davidsonResidual
    rw [← hi.images st.ck (by omega), inner_add_right, inner_smul_right, ho i st.ck him hck]
    have := hr.ritz ⟨i, him⟩ ⟨st.ck, hck⟩
    simp only [famOf, Fin.mk.injEq] at this
    rw [this]
    split_ifs <;> simp
  have hml := hi.m_le
  unfold davidsonExpand
  simp only
  rw [if_neg (by split_ifs <;> omega)]
  obtain ⟨n, hn, hnm⟩ : ∃ n, (if maxSize ≤ st.m then minSize else st.m) = n ∧ n ≤ st.m := ⟨_, rfl, by split_ifs <;> omega⟩
  rw [hn]
  have ho' : ∀ i j, i < n → j < n → inner 𝕜 (st.b.getD i 0) (st.b.getD j 0) = if i = j then (1 : 𝕜) else 0 :=
    fun i j h1 h2 => ho i j (by omega) (by omega)
  obtain ⟨q, hqd, hqs⟩ : ∃ q, (match (davidsonIn eigh pre small : DavidsonEnv 𝕜 V).precondition with
          | none => davidsonResidual st st.ck
          | some f => f (davidsonResidual st st.ck) (st.b.getD st.ck 0) (st.ld st.ck)) = q ∧
        q ∉ Submodule.span 𝕜 (Set.range (famOf st.b n)) := by
    have hsub : Submodule.span 𝕜 (Set.range (famOf st.b n)) ≤ Submodule.span 𝕜 (Set.range (famOf st.b st.m)) := by
      rw [Submodule.span_le]
      rintro _ ⟨i, rfl⟩
      exact Submodule.subset_span ⟨⟨i.val, by omega⟩, rfl⟩
    change ∃ q, (match pre with
          | none => davidsonResidual st st.ck
          | some f => f (davidsonResidual st st.ck) (st.b.getD st.ck 0) (st.ld st.ck)) = q ∧ _
    cases hpre : pre with
    | none =>
      refine ⟨_, rfl, fun hmem => hres0 ?_⟩
      have : inner 𝕜 (davidsonResidual st st.ck) (davidsonResidual st st.ck) = (0 : 𝕜) := by
        refine Submodule.span_induction (p := fun v _ => inner 𝕜 v (davidsonResidual st st.ck) = (0 : 𝕜)) ?_ ?_ ?_ ?_ (hsub hmem)
        · rintro _ ⟨i, rfl⟩; exact hresO i.val i.isLt
        · simp
        · intro x y _ _ hx hy; rw [inner_add_left, hx, hy, add_zero]
        · intro c x _ hx; rw [inner_smul_left, hx, mul_zero]
      exact inner_self_eq_zero.1 this
    | some f =>
      refine ⟨_, rfl, fun hmem => hp f hpre (Set.range (famOf st.b st.m)) _ _ (st.ld st.ck) ?_ hres0 ⟨⟨st.ck, hck⟩, rfl⟩ (hsub hmem)⟩
      rintro _ ⟨i, rfl⟩
      exact hresO i.val i.isLt
  intro hnone
  rw [Option.map_eq_none_iff] at hnone
  have hnone : (davidsonIn eigh pre small : DavidsonEnv 𝕜 V).normalize ((List.range n).foldl (fun q j => q +
      (-((davidsonIn eigh pre small : DavidsonEnv 𝕜 V).dot (st.b.getD j 0) q)) • st.b.getD j 0)
        (match (davidsonIn eigh pre small : DavidsonEnv 𝕜 V).precondition with
          | none => davidsonResidual st st.ck
          | some f => f (davidsonResidual st st.ck) (st.b.getD st.ck 0) (st.ld st.ck))) = none := hnone
  rw [hqd] at hnone
  have hfold : (List.range n).foldl (fun q j => q + (-((davidsonIn eigh pre small : DavidsonEnv 𝕜 V).dot (st.b.getD j 0) q)) • st.b.getD j 0) q = _ :=
    foldl_project (𝕜 := 𝕜) (fun j => st.b.getD j 0) n ho' q
  rw [hfold] at hnone
  have hw0 : q - ∑ j ∈ Finset.range n, (inner 𝕜 (st.b.getD j 0) q : 𝕜) • st.b.getD j 0 ≠ 0 := by
    intro h0
    apply hqs
    rw [sub_eq_zero.1 h0]
    exact Submodule.sum_mem _ fun j hj => Submodule.smul_mem _ _
      (Submodule.subset_span ⟨⟨j, Finset.mem_range.1 hj⟩, rfl⟩)
  rw [davidsonIn_normalize.2 ⟨hw0, rfl⟩] at hnone
  cases hnone

theorem davidsonLoop_out (a : V →ₗ[𝕜] V) (ha : a.IsSymmetric) (he : EighWorks eigh) (W : Submodule 𝕜 V) (k minSize maxSize : Nat) (hk : k ≤ minSize) :
    ∀ (n xiter : Nat) (st st' : DavidsonState 𝕜 V) (it : Nat) (warn : Bool), 0 < n → DavidsonVar a W k minSize st →
      davidsonLoop a (davidsonIn eigh pre small) k minSize maxSize n xiter st = some (st', it, warn) →
        DavidsonOut a W k st'.b st'.ld := by
  intro n
  induction n with
  | zero => intro _ _ _ _ _ h; omega
  | succ n ih =>
    intro xiter st st' it warn _ hv h
    obtain ⟨hi, hms, _⟩ := davidsonRitz_spec a (davidsonIn eigh pre small) k minSize st hv.inv
    obtain ⟨hr, hu⟩ := davidsonRitz_out (eigh := eigh) (pre := pre) (small := small) a ha he W k minSize st hv
    have hm1 : (davidsonRitz a (davidsonIn eigh pre small) st).m = st.m := rfl
    rw [davidsonLoop] at h
    rw [← hm1] at hr
    clear hm1
    generalize davidsonRitz a (davidsonIn eigh pre small) st = s1 at h hi hms hr hu
    have hout : DavidsonOut a W k s1.b s1.ld := ⟨hr.take hi.k_le fun _ _ => rfl, hu⟩
    simp only at h
    by_cases hq : (davidsonIn eigh pre small : DavidsonEnv 𝕜 V).small ((davidsonIn eigh pre small : DavidsonEnv 𝕜 V).dot
        (davidsonResidual s1 s1.ck) (davidsonResidual s1 s1.ck)) = true
    · rw [if_pos hq] at h
      by_cases hck : s1.ck + 1 = k
      · rw [if_pos hck] at h
        simp only [Option.some.injEq, Prod.mk.injEq] at h
        obtain ⟨rfl, rfl, rfl⟩ := h
        exact hout
      · rw [if_neg hck] at h
        by_cases hn : n = 0
        · rw [if_pos hn] at h
          simp only [Option.some.injEq, Prod.mk.injEq] at h
          obtain ⟨rfl, rfl, rfl⟩ := h
          exact hout
        · rw [if_neg hn] at h
          refine ih _ { s1 with ck := s1.ck + 1 } _ _ _ (by omega)
            ⟨⟨hi.len, hi.m_le, hi.msig_le, hi.images, ?_, hi.k_le, hi.deflated⟩, hr.ortho, ?_⟩ h
          · have := hi.ck_lt; simp only; omega
          · intro j M hj hW
            have := hi.k_le
            exact upperOn_of_ritz hr s1.m j (by omega) (by omega) (fun _ _ => rfl) M (hu j M hj hW)
    · rw [if_neg hq] at h
      cases hx : davidsonExpand (davidsonIn eigh pre small) minSize maxSize s1 with
      | none => rw [hx] at h; cases h
      | some s2 =>
        rw [hx] at h
        simp only at h
        obtain ⟨hv2, hld, hb⟩ := davidsonExpand_var a W k minSize maxSize hk s1 s2 hi hms hr hu hx
        by_cases hn : n = 0
        · rw [if_pos hn] at h
          simp only [Option.some.injEq, Prod.mk.injEq] at h
          obtain ⟨rfl, rfl, rfl⟩ := h
          exact ⟨by rw [hld]; exact hr.take hi.k_le hb, by rw [hld]; exact hu⟩
        · rw [if_neg hn] at h
          exact ih _ _ _ _ _ (by omega) hv2 h

theorem davidsonLoop_returns (a : V →ₗ[𝕜] V) (ha : a.IsSymmetric) (he : EighWorks eigh) (hs : small 0 = true)
    (hp : NoBreakdown pre) (k minSize maxSize : Nat) (hk : k ≤ minSize) (hmm : minSize ≤ maxSize) :
    ∀ (n xiter : Nat) (st : DavidsonState 𝕜 V), DavidsonVar a ⊥ k minSize st →
      davidsonLoop a (davidsonIn eigh pre small) k minSize maxSize n xiter st ≠ none := by
  intro n
  induction n with
  | zero => intro _ _ _ h; cases h
  | succ n ih =>
    intro xiter st hv h
    obtain ⟨hi, hms, _⟩ := davidsonRitz_spec a (davidsonIn eigh pre small) k minSize st hv.inv
    obtain ⟨hr, hu⟩ := davidsonRitz_out (eigh := eigh) (pre := pre) (small := small) a ha he ⊥ k minSize st hv
    have hm1 : (davidsonRitz a (davidsonIn eigh pre small) st).m = st.m := rfl
    rw [davidsonLoop] at h
    rw [← hm1] at hr
    clear hm1
    generalize davidsonRitz a (davidsonIn eigh pre small) st = s1 at h hi hms hr hu
    simp only at h
    by_cases hq : (davidsonIn eigh pre small : DavidsonEnv 𝕜 V).small ((davidsonIn eigh pre small : DavidsonEnv 𝕜 V).dot
        (davidsonResidual s1 s1.ck) (davidsonResidual s1 s1.ck)) = true
    · rw [if_pos hq] at h
      split_ifs at h with h1 h2
      refine ih _ { s1 with ck := s1.ck + 1 }
        ⟨⟨hi.len, hi.m_le, hi.msig_le, hi.images, ?_, hi.k_le, hi.deflated⟩, hr.ortho, ?_⟩ h
      · have := hi.ck_lt; simp only; omega
      · intro j M hj hW
        have := hi.k_le
        exact upperOn_of_ritz hr s1.m j (by omega) (by omega) (fun _ _ => rfl) M (hu j M hj hW)
    · rw [if_neg hq] at h
      cases hx : davidsonExpand (davidsonIn eigh pre small) minSize maxSize s1 with
      | none => exact davidsonExpand_some a k minSize maxSize hmm hs hp s1 hi hms hr hq hx
      | some s2 =>
        rw [hx] at h
        simp only at h
        split_ifs at h with h1
        exact ih _ _ (davidsonExpand_var a ⊥ k minSize maxSize hk s1 s2 hi hms hr hu hx).1 h

end Verif
