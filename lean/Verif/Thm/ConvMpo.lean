import Verif.Spec.ConvMpo
import Verif.Proof.ConvCells
import Verif.Thm.QcMpo
import Verif.Thm.Fcidump

/-!
Property C54: the matrix product operator that `build_qc_mpo` makes with the conventional partial sums has the matrix elements of the second-quantised Hamiltonian.
-/

set_option linter.unusedSectionVars false

namespace Verif
namespace ConvMpo
open Hamiltonian Fock ConvAlg Symbolic
variable {K : Type} [Field K] [DecidableEq K] [CharZero K]

theorem element_mat {n : Nat} (H : FockOp K) (u d : Fin n → Bool × Bool) : matrixElement H (modes u) (modes d) = (H.map fun t => t.1 • fockMat n t.2).sum u d := by
  rw [Hamiltonian.sum_apply]
  rfl

theorem spinOp_mat (n : Nat) (t : Bool → Nat → Nat → K) (v : Bool → Bool → Nat → Nat → Nat → Nat → K) :
    ((spinOp n (fun s i j => 1 / 2 * (t s i j + t s j i)) v).map fun t => t.1 • fockMat (K := K) n t.2).sum = hSum t v (cr K n) (an K n) n := by
  have s2 : ∀ {M : Type} [AddCommMonoid M] (f : Bool → M), (([false, true] : List Bool).map f).sum = ∑ s, f s := fun f => ssum f
  simp only [spinOp, List.map_append, List.sum_append, sum_flatMap', List.map_map, Function.comp_def, lsum, s2, hSum, X]
  have c1 : ∀ i j s, fockMat (K := K) n [(true, 2 * i + Bool.toNat s), (false, 2 * j + Bool.toNat s)] = cr K n i s * an K n j s := fun i j s => by
    rw [fockMat_cons]
    rfl
  have c2 : ∀ i j k l s s', fockMat (K := K) n [(true, 2 * i + Bool.toNat s), (true, 2 * k + Bool.toNat s'), (false, 2 * l + Bool.toNat s'), (false, 2 * j + Bool.toNat s)] =
      cr K n i s * cr K n k s' * an K n l s' * an K n j s := fun i j k l s s' => by
    rw [fockMat_cons, fockMat_cons (true, 2 * k + Bool.toNat s'), fockMat_cons (false, 2 * l + Bool.toNat s')]
    simp only [mul_assoc]
    rfl
  simp only [c1, c2]

theorem mapM_congr' {α β : Type} (l : List α) (f f' : α → Option β) (h : ∀ a ∈ l, f a = f' a) : l.mapM f = l.mapM f' := by
  induction l with
  | nil => rfl
  | cons a l ih => rw [List.mapM_cons, List.mapM_cons, h a (List.mem_cons_self ..), ih fun b hb => h b (List.mem_cons_of_mem _ hb)]

/-- C54: for two or more orbitals, `build_qc_mpo` makes a matrix product operator with the matrix elements of `Σ t_s,ij c†_is c_js + 1/2 Σ v_st,ijkl c†_is c†_kt c_lt c_js`
between occupation-number states, with the symmetric part of the one-electron integrals; with and without symmetrised two-electron sums.  The integrals may depend on the spins.
Exactly the integrals that are zero are left out. -/
theorem C54_conventional (tiny : K → Bool) (htiny : ∀ x, tiny x = true ↔ x = 0) (x : Fcidump.Integrals K) (orbSym : List Nat) (hn : 2 ≤ orbSym.length) (sym : Bool)
    (ha : SpinAllowed orbSym x.t x.v) (hv : SpinSymmetric x.v) :
    ∃ ws X, buildQcMpo tiny x orbSym sym = some ws ∧ Represents orbSym (spinOp orbSym.length (fun s i j => 1 / 2 * (x.t s i j + x.t s j i)) x.v) ws X := by
  have hv' : Sym2 x.v := ⟨hv.electrons, hv.orbitals⟩
  obtain ⟨k, hk⟩ : ∃ k, orbSym.length = k + 2 := ⟨orbSym.length - 2, by omega⟩
  let mats := (List.range orbSym.length).map (matOf tiny x.t x.v orbSym sym orbSym.length)
  have hmats : mats = matOf tiny x.t x.v orbSym sym orbSym.length 0 :: (List.range' 1 (k + 1)).map (matOf tiny x.t x.v orbSym sym orbSym.length) := by
    have : List.range orbSym.length = 0 :: List.range' 1 (k + 1) := by rw [hk, List.range_eq_range', List.range'_succ]
    show (List.range orbSym.length).map _ = _
    rw [this, List.map_cons]
  have hget : ∀ (i : Nat) (m' : CellMat K), mats[i]? = some m' → i < orbSym.length ∧ m' = matOf tiny x.t x.v orbSym sym orbSym.length i := by
    intro i m' h
    rw [List.getElem?_map] at h
    obtain ⟨j, h1, h2⟩ := Option.map_eq_some_iff.1 h
    obtain ⟨h3, h4⟩ := List.getElem?_eq_some_iff.1 h1
    rw [List.getElem_range] at h4
    subst h4
    exact ⟨by simpa using h3, h2.symm⟩
  have hlast : ∀ (h : mats ≠ []), (mats.getLast h).rq = [0] := by
    intro h
    rw [List.getLast_map, List.getLast_range]
    exact rop_last _ _ (by omega)
  have hlink : Linked mats := by
    have := linked_from (sym := sym) hn htiny ha orbSym.length 0 (by omega)
    rwa [← List.range_eq_range'] at this
  obtain ⟨ws, h1, h2, h3, h4⟩ := cell_chain orbSym rfl 0 (matOf tiny x.t x.v orbSym sym orbSym.length 0)
    ((List.range' 1 (k + 1)).map (matOf tiny x.t x.v orbSym sym orbSym.length)) 0 (by simp; omega)
    (fun i m' h => by
      rw [← hmats] at h
      obtain ⟨hi, rfl⟩ := hget i m' h
      rw [zero_add]
      exact onsite_at hn htiny ha hi)
    (by rw [← hmats]; exact hlink) (by
      simp only [← hmats]
      exact hlast _)
  rw [← hmats] at h1 h2 h3 h4
  have hl : leftLeg (matOf tiny x.t x.v orbSym sym orbSym.length 0).dq (matOf tiny x.t x.v orbSym sym orbSym.length 0).lq = [(0, 1)] := trivial_left
  rw [hl, trivial_leg, List.drop_zero] at h2
  refine ⟨ws, innerBonds mats, ?_, h2, ?_, ?_, ?_⟩
  · rw [buildQcMpo, ← h1, List.mapM_map]
    refine mapM_congr' _ _ _ fun m hm => ?_
    exact (cells_at hn htiny ha (List.mem_range.1 hm)).1
  · intro b hb
    obtain ⟨m, _, rfl⟩ := List.mem_map.1 hb
    exact leg_good _
  · refine h3 fun i m' h => ?_
    obtain ⟨hi, rfl⟩ := hget i m' h
    rw [zero_add]
    exact neutral_at hn htiny ha hi
  · intro u d
    have e := h4 0 (0, 0) ⟨rfl, rfl⟩ u d
    rw [if_pos (fun l hl => absurd hl (by omega)), List.drop_zero, List.drop_zero, chain_all hn htiny ha hv', ← spinOp_mat, ← element_mat] at e
    refine Eq.trans ?_ e.symm
    simp [parBelow, matOf]

/-- C54, for symmetric one-electron integrals. -/
theorem C54_symmetric (tiny : K → Bool) (htiny : ∀ x, tiny x = true ↔ x = 0) (x : Fcidump.Integrals K) (orbSym : List Nat) (hn : 2 ≤ orbSym.length) (sym : Bool)
    (ha : SpinAllowed orbSym x.t x.v) (ht : ∀ s i j, x.t s i j = x.t s j i) (hv : SpinSymmetric x.v) :
    ∃ ws X, buildQcMpo tiny x orbSym sym = some ws ∧ Represents orbSym (spinOp orbSym.length x.t x.v) ws X := by
  have := C54_conventional tiny htiny x orbSym hn sym ha hv
  have e : (fun s i j => 1 / 2 * (x.t s i j + x.t s j i)) = x.t := by
    funext s i j
    rw [ht s j i]
    ring
  rwa [e] at this

theorem spinOp_restricted (n : Nat) (h : Nat → Nat → K) (g : Nat → Nat → Nat → Nat → K) : spinOp n (fun _ => h) (fun _ _ => g) = qcOp n h g := rfl

/-- C54: for integrals that do not depend on the spins, the operator is the one of `build_mpo` (see C53): the two ways to build the Hamiltonian agree. -/
theorem C54_agree {V : Type} (small : K → Bool) (hsmall : ∀ x, small x = true ↔ x = 0) (c : V → K) (svd : Arr K → Arr K × Arr V × Arr K) (hsvd : IsSvd c svd)
    (big : V → Bool) (hbig : ∀ s, big s = false → c s = 0) (tiny : K → Bool) (htiny : ∀ x, tiny x = true ↔ x = 0) (keep : K → Bool) (hkeep : ∀ x, keep x = true ↔ x ≠ 0)
    (orbSym : List Nat) (hn : 2 ≤ orbSym.length) (hl : orbSym.length ≤ 8192) (sym : Bool) (h : Fcidump.T2 K) (g : Fcidump.T4 K)
    (ha : Allowed orbSym (fun i j => h (i, j)) fun i j k l => g (i, j, k, l)) (ht : ∀ i j, h (i, j) = h (j, i))
    (he : ∀ i j k l, g (i, j, k, l) = g (k, l, i, j)) (ho : ∀ i j k l, g (i, j, k, l) = g (j, i, k, l)) :
    ∃ terms ws X ws' X', decodeTerms orbSym (generateQcTerms orbSym.length (fun i j => h (i, j)) (fun i j k l => g (i, j, k, l)) keep) = some terms ∧
      buildMpo small c svd big orbSym (terms.map some) = some ws ∧ buildQcMpo tiny (.restricted h g) orbSym sym = some ws' ∧
      OpOnBonds SZ.isFermion ([(0, 1)] :: X ++ [[(0, 1)]]) (orbSym.map fun g => ([siteBasis g], [siteBasis g])) ws ∧
      OpOnBonds SZ.isFermion ([(0, 1)] :: X' ++ [[(0, 1)]]) (orbSym.map fun g => ([siteBasis g], [siteBasis g])) ws' ∧
      ∀ u d : Fin orbSym.length → Bool × Bool, opAmpl SZ.isFermion ws X false (0, 0) (legsOf orbSym u) (legsOf orbSym d) (0, 0) =
        opAmpl SZ.isFermion ws' X' false (0, 0) (legsOf orbSym u) (legsOf orbSym d) (0, 0) := by
  obtain ⟨terms, ws, X, a1, a2, a3⟩ := C53_hamiltonian small hsmall c svd hsvd big hbig orbSym (by rintro rfl; simp at hn) hl _ _ keep hkeep ha
  obtain ⟨ws', X', b1, b2⟩ := C54_symmetric tiny htiny (.restricted h g) orbSym hn sym ⟨fun _ => ha.one, fun _ _ => ha.two⟩ (fun _ => ht) ⟨fun _ _ => he, fun _ _ => ho⟩
  exact ⟨terms, ws, X, ws', X', a1, a2, b1, a3.bonds, b2.bonds, fun u d => (a3.elements u d).trans (b2.elements u d).symm⟩

/-! ### Integrals shared out over ranks -/

theorem g2e_all (n r s : Nat) (g : Fcidump.T4 K) (i j k l : Nat) :
    Fcidump.parallelizeG2e n r s g (i, j, k, l) = if (i < n ∧ j < n ∧ k < n ∧ l < n) ∧ Fcidump.droppedG2e r s i j k l = true then 0 else g (i, j, k, l) := by
  have e : Fcidump.parallelizeG2e n r s g = (Fcidump.allIdx n).foldl (fun g ix => if g ix = 0 then g else if
      (fun ix : Fcidump.Idx4 => Fcidump.droppedG2e r s ix.1 ix.2.1 ix.2.2.1 ix.2.2.2) ix then Fcidump.put g ix 0 else g) g := by
    unfold Fcidump.parallelizeG2e Fcidump.allIdx
    simp only [List.foldl_flatMap, List.foldl_map]
  rw [e, Fcidump.foldl_drop]
  simp only [Fcidump.mem_allIdx]

theorem dropped_perm (r s : Nat) {i j k l i' j' k' l' : Nat} (h : [i, j, k, l].Perm [i', j', k', l']) : Fcidump.droppedG2e r s i j k l = Fcidump.droppedG2e r s i' j' k' l' := by
  unfold Fcidump.droppedG2e
  rw [Fcidump.sort_perm h]

theorem g2e_perm (n r s : Nat) (g : Fcidump.T4 K) {i j k l i' j' k' l' : Nat} (h : [i, j, k, l].Perm [i', j', k', l']) (hg : g (i, j, k, l) = g (i', j', k', l')) :
    Fcidump.parallelizeG2e n r s g (i, j, k, l) = Fcidump.parallelizeG2e n r s g (i', j', k', l') := by
  rw [g2e_all, g2e_all, dropped_perm r s h, hg]
  have : (i < n ∧ j < n ∧ k < n ∧ l < n) ↔ (i' < n ∧ j' < n ∧ k' < n ∧ l' < n) := by
    have := h.mem_iff (a := n)
    have e1 : (i < n ∧ j < n ∧ k < n ∧ l < n) ↔ ∀ a ∈ [i, j, k, l], a < n := by simp
    have e2 : (i' < n ∧ j' < n ∧ k' < n ∧ l' < n) ↔ ∀ a ∈ [i', j', k', l'], a < n := by simp
    rw [e1, e2]
    exact ⟨fun h1 a ha => h1 a (h.mem_iff.2 ha), fun h1 a ha => h1 a (h.mem_iff.1 ha)⟩
  simp only [this]

theorem perm_swap (i j k l : Nat) : [i, j, k, l].Perm [k, l, i, j] := by
  have := List.perm_append_comm (l₁ := [i, j]) (l₂ := [k, l])
  simpa using this

/-- The integrals of a rank have the symmetry of the integrals. -/
theorem rank_symmetric (n r s : Nat) (c : K) (x : Fcidump.Integrals K) (hv : SpinSymmetric x.v) : SpinSymmetric (Fcidump.parallelize n r s c x).2.v := by
  cases x with
  | restricted h g =>
    exact ⟨fun _ _ i j k l => g2e_perm n r s g (perm_swap ..) (hv.electrons false false i j k l),
      fun _ _ i j k l => g2e_perm n r s g (List.Perm.swap ..) (hv.orbitals false false i j k l)⟩
  | unrestricted ha hb gaa gab gbb =>
    refine ⟨?_, ?_⟩
    · intro σ τ i j k l
      cases σ <;> cases τ
      · exact g2e_perm n r s gaa (perm_swap ..) (hv.electrons false false i j k l)
      · rfl
      · rfl
      · exact g2e_perm n r s gbb (perm_swap ..) (hv.electrons true true i j k l)
    · intro σ τ i j k l
      cases σ <;> cases τ
      · exact g2e_perm n r s gaa (List.Perm.swap ..) (hv.orbitals false false i j k l)
      · exact g2e_perm n r s gab (List.Perm.swap ..) (hv.orbitals false true i j k l)
      · exact g2e_perm n r s gab (((List.Perm.swap ..).cons _).cons _) (hv.orbitals true false i j k l)
      · exact g2e_perm n r s gbb (List.Perm.swap ..) (hv.orbitals true true i j k l)

theorem rank_allowed (orbSym : List Nat) (n r s : Nat) (c : K) (x : Fcidump.Integrals K) (ha : SpinAllowed orbSym x.t x.v) :
    SpinAllowed orbSym (Fcidump.parallelize n r s c x).2.t (Fcidump.parallelize n r s c x).2.v := by
  have h1 : ∀ (h : Fcidump.T2 K) i j, Fcidump.parallelizeH1e n r s h (i, j) ≠ 0 → h (i, j) ≠ 0 := by
    intro h i j h0
    rw [Fcidump.h1e_value] at h0
    split_ifs at h0
    · exact absurd rfl h0
    · exact h0
  have h2 : ∀ (g : Fcidump.T4 K) i j k l, Fcidump.parallelizeG2e n r s g (i, j, k, l) ≠ 0 → g (i, j, k, l) ≠ 0 := by
    intro g i j k l h0
    rw [g2e_all] at h0
    split_ifs at h0
    · exact absurd rfl h0
    · exact h0
  cases x with
  | restricted h g => exact ⟨fun σ i j h0 => ha.one σ i j (h1 _ _ _ h0), fun σ τ i j k l h0 => ha.two σ τ i j k l (h2 _ _ _ _ _ h0)⟩
  | unrestricted ta tb gaa gab gbb =>
    refine ⟨?_, ?_⟩
    · intro σ i j h0
      cases σ
      · exact ha.one false i j (h1 _ _ _ h0)
      · exact ha.one true i j (h1 _ _ _ h0)
    · intro σ τ i j k l h0
      cases σ <;> cases τ
      · exact ha.two false false i j k l (h2 _ _ _ _ _ h0)
      · exact ha.two false true i j k l (h2 _ _ _ _ _ h0)
      · exact ha.two true false i j k l (h2 _ _ _ _ _ h0)
      · exact ha.two true true i j k l (h2 _ _ _ _ _ h0)

/-- The integrals of the ranks add up to the integrals. -/
theorem rank_total (n s : Nat) (hs : 0 < s) (c : K) (x : Fcidump.Integrals K) :
    (∀ σ i j, i < n → ∑ r ∈ Finset.range s, (Fcidump.parallelize n r s c x).2.t σ i j = x.t σ i j) ∧
    ∀ σ τ i j k l, i < n → j < n → k < n → l < n → ∑ r ∈ Finset.range s, (Fcidump.parallelize n r s c x).2.v σ τ i j k l = x.v σ τ i j k l := by
  have h1 : ∀ (h : Fcidump.T2 K) i j, i < n → ∑ r ∈ Finset.range s, Fcidump.parallelizeH1e n r s h (i, j) = h (i, j) := by
    intro h i j hi
    obtain ⟨o, ho, e⟩ := Fcidump.C31_h1e (K := K) n s hs i j hi
    simp only [e]
    rw [← lsum]
    exact Fcidump.sum_owner s o ho _
  have h2 : ∀ (g : Fcidump.T4 K) i j k l, i < n → j < n → k < n → l < n → ∑ r ∈ Finset.range s, Fcidump.parallelizeG2e n r s g (i, j, k, l) = g (i, j, k, l) := by
    intro g i j k l hi hj hk hl
    obtain ⟨o, ho, -, e⟩ := Fcidump.C31_g2e (K := K) n s hs
    simp only [e i j k l hi hj hk hl]
    rw [← lsum]
    exact Fcidump.sum_owner s _ (ho _) _
  cases x with
  | restricted h g => exact ⟨fun σ i j hi => h1 _ _ _ hi, fun σ τ i j k l hi hj hk hl => h2 _ _ _ _ _ hi hj hk hl⟩
  | unrestricted ta tb gaa gab gbb =>
    refine ⟨?_, ?_⟩
    · intro σ i j hi
      cases σ
      · exact h1 ta i j hi
      · exact h1 tb i j hi
    · intro σ τ i j k l hi hj hk hl
      cases σ <;> cases τ
      · exact h2 gaa _ _ _ _ hi hj hk hl
      · exact h2 gab _ _ _ _ hi hj hk hl
      · exact h2 gab _ _ _ _ hk hl hi hj
      · exact h2 gbb _ _ _ _ hi hj hk hl

/-- Matrix elements are linear in the integrals. -/
theorem spinOp_total (n s : Nat) (t : Nat → Bool → Nat → Nat → K) (v : Nat → Bool → Bool → Nat → Nat → Nat → Nat → K) (t' : Bool → Nat → Nat → K)
    (v' : Bool → Bool → Nat → Nat → Nat → Nat → K) (ht : ∀ σ i j, i < n → j < n → ∑ r ∈ Finset.range s, t r σ i j = t' σ i j)
    (hv : ∀ σ τ i j k l, i < n → j < n → k < n → l < n → ∑ r ∈ Finset.range s, v r σ τ i j k l = v' σ τ i j k l) (a b : List Bool) :
    ∑ r ∈ Finset.range s, matrixElement (spinOp n (t r) (v r)) a b = matrixElement (spinOp n t' v') a b := by
  have s2 : ∀ {M : Type} [AddCommMonoid M] (f : Bool → M), (([false, true] : List Bool).map f).sum = ∑ s, f s := fun f => ssum f
  simp only [matrixElement, spinOp, List.map_append, List.sum_append, sum_flatMap', List.map_map, Function.comp_def, lsum, s2, Finset.sum_add_distrib]
  congr 1
  · rw [Finset.sum_comm]
    refine Finset.sum_congr rfl fun i hi => ?_
    rw [Finset.sum_comm]
    refine Finset.sum_congr rfl fun j hj => ?_
    rw [Finset.sum_comm]
    refine Finset.sum_congr rfl fun σ _ => ?_
    rw [← Finset.sum_mul, ht σ i j (Finset.mem_range.1 hi) (Finset.mem_range.1 hj)]
  · rw [Finset.sum_comm]
    refine Finset.sum_congr rfl fun i hi => ?_
    rw [Finset.sum_comm]
    refine Finset.sum_congr rfl fun j hj => ?_
    rw [Finset.sum_comm]
    refine Finset.sum_congr rfl fun k hk => ?_
    rw [Finset.sum_comm]
    refine Finset.sum_congr rfl fun l hl => ?_
    rw [Finset.sum_comm]
    refine Finset.sum_congr rfl fun σ _ => ?_
    rw [Finset.sum_comm]
    refine Finset.sum_congr rfl fun τ _ => ?_
    rw [← Finset.sum_mul, ← Finset.mul_sum, hv σ τ i j k l (Finset.mem_range.1 hi) (Finset.mem_range.1 hj) (Finset.mem_range.1 hk) (Finset.mem_range.1 hl)]

/-- C54: when the integrals are shared out over ranks, every rank can build its part, and the matrix elements of the parts add up to those of the Hamiltonian. -/
theorem C54_ranks (tiny : K → Bool) (htiny : ∀ x, tiny x = true ↔ x = 0) (x : Fcidump.Integrals K) (constE : K) (orbSym : List Nat) (hn : 2 ≤ orbSym.length) (sym : Bool)
    (ha : SpinAllowed orbSym x.t x.v) (ht : ∀ s i j, x.t s i j = x.t s j i) (hv : SpinSymmetric x.v) (size : Nat) (hs : 0 < size) :
    ∃ (ws : Nat → List (OpT SZ K)) (X : Nat → List (BondInfo SZ)),
      (∀ r, buildQcMpo tiny (Fcidump.parallelize orbSym.length r size constE x).2 orbSym sym = some (ws r) ∧
        OpOnBonds SZ.isFermion ([(0, 1)] :: X r ++ [[(0, 1)]]) (orbSym.map fun g => ([siteBasis g], [siteBasis g])) (ws r)) ∧
      ∀ u d : Fin orbSym.length → Bool × Bool,
        ∑ r ∈ Finset.range size, opAmpl SZ.isFermion (ws r) (X r) false (0, 0) (legsOf orbSym u) (legsOf orbSym d) (0, 0) =
          matrixElement (spinOp orbSym.length x.t x.v) (modes u) (modes d) := by
  have h := fun r => C54_conventional tiny htiny (Fcidump.parallelize orbSym.length r size constE x).2 orbSym hn sym (rank_allowed orbSym _ r size constE x ha)
    (rank_symmetric _ r size constE x hv)
  choose ws X h1 h2 using h
  refine ⟨ws, X, fun r => ⟨h1 r, (h2 r).bonds⟩, fun u d => ?_⟩
  simp only [fun r => (h2 r).elements u d]
  obtain ⟨t1, t2⟩ := rank_total orbSym.length size hs constE x
  refine spinOp_total _ _ _ _ _ _ ?_ t2 _ _
  intro σ i j hi hj
  rw [← Finset.mul_sum, Finset.sum_add_distrib, t1 σ i j hi, t1 σ j i hj, ht σ j i]
  ring

/-! ### One orbital -/

theorem mem_mapM {α β : Type} {f : α → Option β} {l : List α} {l' : List β} (h : l.mapM f = some l') (a : α) (ha : a ∈ l) : ∃ b ∈ l', f a = some b := by
  induction l generalizing l' with
  | nil => simp at ha
  | cons x t ih =>
    rw [List.mapM_cons] at h
    cases hx : f x with
    | none => simp [hx] at h
    | some y =>
      cases ht : t.mapM f with
      | none => simp [hx, ht] at h
      | some ys =>
        simp only [hx, ht, Option.pure_def, Option.bind_eq_bind, Option.bind_some, Option.some.injEq] at h
        subst h
        rcases List.mem_cons.1 ha with rfl | ha
        · exact ⟨y, by simp, hx⟩
        · obtain ⟨b, hb, e⟩ := ih ht ha
          exact ⟨b, List.mem_cons_of_mem _ hb, e⟩

theorem foldlM_none {α β : Type} (f : β → α → Option β) (l : List α) (a : α) (ha : a ∈ l) (h : ∀ b, f b a = none) (b : β) : l.foldlM f b = none := by
  induction l generalizing b with
  | nil => simp at ha
  | cons x t ih =>
    rw [List.foldlM_cons]
    rcases List.mem_cons.1 ha with rfl | ha
    · rw [h]
      rfl
    · cases f b x with
      | none => rfl
      | some y => exact ih ha y

/-- C54: with a single orbital the construction fails: the table of the right operators has one entry, the row of symbols has many. -/
theorem C54_one_orbital (tiny : K → Bool) (x : Fcidump.Integrals K) (g : Nat) (sym : Bool) : buildQcMpo tiny x [g] sym = none := by
  show (List.range 1).mapM _ = none
  have h : tensor tiny x.t x.v [g] 0 sym 1 = none := by
    unfold tensor
    cases hc : (puts x.v [g] sym 1 0).mapM (cell tiny x.t x.v [g] 0) with
    | none => rfl
    | some cells =>
      obtain ⟨T, hT, _, _, hT1⟩ := i_site (K := K) g
      have hne : (T.odd.isEmpty && T.even.isEmpty) = false := by
        cases he : T.even with
        | nil =>
          rw [he, partMat_nil] at hT1
          have := congrFun (congrFun hT1 (false, false)) (false, false)
          simp at this
        | cons a l => simp
      have hcell : (some ⟨0, 1, 1, T⟩ : Option (Cell SZ K)) ∈ cells := by
        have hp : (⟨0, 1, some iSymbol⟩ : Put K) ∈ puts x.v [g] sym 1 0 := by simp [puts, firstRow]
        have hcv : cell tiny x.t x.v [g] 0 (⟨0, 1, some iSymbol⟩ : Put K) = some (some ⟨0, 1, 1, T⟩) := by
          have : getOp tiny x.t x.v [g] 0 (iSymbol : Sym K).abs = some (some T) := by
            simp [getOp, iSymbol, OpElement.abs, hT]
          simp only [cell, this, Option.map_some, Option.bind_some]
          rw [hne]
          rfl
        obtain ⟨y, hy, e⟩ := mem_mapM hc _ hp
        rw [hcv] at e
        injection e with e
        rwa [← e] at hy
      exact foldlM_none _ _ ⟨0, 1, 1, T⟩ (List.mem_filterMap.2 ⟨_, hcell, rfl⟩) (fun m => by
        simp only [putCell]
        have : (fromOpNames ((rop (K := K) [g] 1 0).map (·.label))).1[1]?.join = none := by
          rw [rop_last _ _ rfl]
          decide
        rw [this]
        split
        · simp_all
        · rfl) _
  simp [List.range_succ, h]

/-! ### A concrete case -/

/-- Three orbitals, the last one with another point-group label.  Hopping between the first two depends on the spin; an electron with spin up in the first orbital interacts
with one with spin down in the last. -/
def exInts : Fcidump.Integrals Rat :=
  .unrestricted (fun p => if p = (0, 1) ∨ p = (1, 0) then 3 else 0) (fun p => if p = (0, 1) ∨ p = (1, 0) then 5 else 0) (fun _ => 0)
    (fun q => if q = (0, 0, 2, 2) then 7 else 0) (fun _ => 0)

theorem ex_ints_allowed : SpinAllowed exSym exInts.t exInts.v := by
  refine ⟨?_, ?_⟩
  · intro s i j h
    cases s <;> simp only [exInts, Fcidump.Integrals.t, Bool.false_eq_true, if_false, if_true] at h <;> split_ifs at h with h'
    · rcases h' with h' | h' <;> obtain ⟨rfl, rfl⟩ := Prod.mk.inj h' <;> rfl
    · simp at h
    · rcases h' with h' | h' <;> obtain ⟨rfl, rfl⟩ := Prod.mk.inj h' <;> rfl
    · simp at h
  · intro s s' i j k l h
    cases s <;> cases s' <;> simp [exInts, Fcidump.Integrals.v] at h <;> obtain ⟨rfl, rfl, rfl, rfl⟩ := h <;> rfl

theorem ex_ints_symmetric : SpinSymmetric exInts.v := by
  refine ⟨?_, ?_⟩
  · intro s s' i j k l
    cases s <;> cases s' <;> simp [exInts, Fcidump.Integrals.v]
  · intro s s' i j k l
    cases s <;> cases s' <;> simp [exInts, Fcidump.Integrals.v, and_left_comm]
    all_goals congr 1; simp only [eq_iff_iff]; omega

/-- The tensors exist.  An electron with spin down hops with 5 and a minus sign for its partner, one with spin up with 3; the interaction counts once. -/
example : ∃ ws X, buildQcMpo (fun x => decide (x = 0)) exInts exSym true = some ws ∧
    OpOnBonds SZ.isFermion ([(0, 1)] :: X ++ [[(0, 1)]]) (exSym.map fun g => ([siteBasis g], [siteBasis g])) ws ∧
    opAmpl SZ.isFermion ws X false (0, 0) (legsOf (n := 3) exSym ![(false, true), (true, false), (false, false)])
      (legsOf (n := 3) exSym ![(false, false), (true, true), (false, false)]) (0, 0) = -5 ∧
    opAmpl SZ.isFermion ws X false (0, 0) (legsOf (n := 3) exSym ![(true, false), (false, false), (false, false)])
      (legsOf (n := 3) exSym ![(false, false), (true, false), (false, false)]) (0, 0) = 3 ∧
    opAmpl SZ.isFermion ws X false (0, 0) (legsOf (n := 3) exSym ![(true, false), (false, false), (false, true)])
      (legsOf (n := 3) exSym ![(true, false), (false, false), (false, true)]) (0, 0) = 7 := by
  obtain ⟨ws, X, h1, h2⟩ := C54_symmetric (K := Rat) (fun x => decide (x = 0)) (by simp) exInts exSym (by decide) true ex_ints_allowed (by
    intro s i j
    cases s <;> simp [exInts, Fcidump.Integrals.t] <;> congr 1 <;> simp only [eq_iff_iff] <;> omega) ex_ints_symmetric
  refine ⟨ws, X, h1, h2.bonds, (h2.elements _ _).trans ?_, (h2.elements _ _).trans ?_, (h2.elements _ _).trans ?_⟩
  · decide +kernel
  · decide +kernel
  · decide +kernel

end ConvMpo
end Verif
