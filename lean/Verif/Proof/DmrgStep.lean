import Verif.Proof.DmrgWindow
import Verif.Thm.DavidsonVar

/-! The local problem of a window as a linear map of vectors. -/

set_option linter.unusedSectionVars false

namespace Verif
section
variable {Q 𝕜 : Type} [DecidableEq Q] [AddCommGroup Q] [RCLike 𝕜] [DecidableEq 𝕜]

theorem sum_even {isF : Q → Bool} {legs : List (BondInfo Q)} (hw : ∀ b ∈ legs, Dict.WF b) (f : List (Q × Nat) → 𝕜)
    (hf : ∀ x ∈ legIndices legs, fermParity isF (x.map Prod.fst) = true → f x = 0) :
    ((legIndices legs).map f).sum = ∑ x : {x // x ∈ evenIndices isF legs}, f x.1 := by
  have h1 : ((legIndices legs).map f).sum = ((evenIndices isF legs).map f).sum := by
    unfold evenIndices
    generalize legIndices legs = L at hf
    induction L with
    | nil => rfl
    | cons x L ih =>
      rw [List.map_cons, List.sum_cons, ih fun y hy => hf y (by simp [hy]), List.filter_cons]
      cases hx : fermParity isF (x.map Prod.fst) with
      | true => rw [hf x (by simp) hx]; simp
      | false => simp
  have hn : (evenIndices isF legs).Nodup := (legIndices_nodup hw).filter _
  rw [h1, ← List.sum_toFinset _ hn]
  rw [← Finset.sum_coe_sort]
  exact Fintype.sum_equiv (Equiv.subtypeEquivRight fun x => by simp) _ _ fun _ => rfl

/-- Matrix elements of the operator of a window. -/
def winKernel (isF : Q → Bool) (ws : List (OpT Q 𝕜)) (m : BondInfo Q) (n : Nat) (x y : List (Q × Nat)) : 𝕜 :=
  opAmpl isF ws [m] false (0, 0) [x.take n, x.drop n] [y.take n, y.drop n] (0, 0)

/-- The operator of a window with its constant. -/
noncomputable def winMap (isF : Q → Bool) (ws : List (OpT Q 𝕜)) (m : BondInfo Q) (n : Nat) (c : 𝕜) (legs : List (BondInfo Q)) :
    WindowSpace 𝕜 isF legs →ₗ[𝕜] WindowSpace 𝕜 isF legs where
  toFun v := WithLp.toLp 2 fun x => ∑ y, winKernel isF ws m n x.1 y.1 * v y + c * v x
  map_add' u v := by
    ext x
    simp only [PiLp.add_apply, mul_add, Finset.sum_add_distrib]
    ring
  map_smul' a v := by
    ext x
    simp only [PiLp.smul_apply, smul_eq_mul, RingHom.id_apply, mul_add, Finset.mul_sum]
    congr 1
    · exact Finset.sum_congr rfl fun y _ => by ring
    · ring

theorem winMap_apply (isF : Q → Bool) (ws : List (OpT Q 𝕜)) (m : BondInfo Q) (n : Nat) (c : 𝕜) (legs : List (BondInfo Q)) (v : WindowSpace 𝕜 isF legs)
    (x : {x // x ∈ evenIndices isF legs}) : winMap isF ws m n c legs v x = ∑ y, winKernel isF ws m n x.1 y.1 * v y + c * v x := rfl

theorem components_apply (isF : Q → Bool) (legs : List (BondInfo Q)) (T : SpT Q 𝕜) (x : {x // x ∈ evenIndices isF legs}) :
    components isF legs T x = entry T ((0, 0) :: x.1 ++ [(0, 0)]) := rfl

theorem inner_window {isF : Q → Bool} {legs : List (BondInfo Q)} (u v : WindowSpace 𝕜 isF legs) : inner 𝕜 u v = ∑ x, star (u x) * v x := by
  rw [PiLp.inner_apply]
  refine Finset.sum_congr rfl fun x _ => ?_
  rw [RCLike.inner_apply, mul_comm]
  rfl

theorem entry_odd {isF : Q → Bool} (h0 : isF 0 = false) {T : SpT Q 𝕜} (hT : EvenBlocks isF T) {x : List (Q × Nat)} (hx : fermParity isF (x.map Prod.fst) = true) :
    entry T ((0, 0) :: x ++ [(0, 0)]) = 0 := by
  unfold entry
  refine sum_map_zero' _ _ fun b hb => ?_
  unfold blockEntry
  rw [if_neg]
  rintro ⟨h1, -⟩
  have h2 := hT b hb
  rw [h1] at h2
  simp only [List.cons_append, List.map_cons, List.map_append, List.map_nil] at h2
  rw [fermParity_cons, fermParity_append, fermParity_cons, h0, hx] at h2
  simp [fermParity] at h2

/-- Legs of a local problem with the same rows and columns. -/
theorem appliedOne_components {isF : Q → Bool} (h0 : isF 0 = false) {ph0 ph1 : List (BondInfo Q)} {m : BondInfo Q} {ws : List (OpT Q 𝕜)} {T : SpT Q 𝕜}
    (hw : ∀ b ∈ ph0 ++ ph1, Dict.WF b) (hT : EvenBlocks isF T) {a b : List (Q × Nat)} (ha : a.length = ph0.length) :
    appliedOne isF ph0 ph1 m ws T a b = ∑ y, winKernel isF ws m ph0.length (a ++ b) y.1 * components isF (ph0 ++ ph1) T y := by
  simp only [components_apply]
  rw [← sum_even hw (fun y => winKernel isF ws m ph0.length (a ++ b) y * entry T ((0, 0) :: y ++ [(0, 0)]))
    fun y _ hy => by rw [entry_odd h0 hT hy, mul_zero], legIndices_append_sum]
  unfold appliedOne
  refine sum_map_congr' _ _ _ fun p hp => sum_map_congr' _ _ _ fun q _ => ?_
  have lp := legIndices_length hp
  unfold winKernel
  rw [← ha, List.take_left, List.drop_left, ha, ← lp, List.take_left, List.drop_left]

theorem sandwichOne_inner {isF : Q → Bool} (h0 : isF 0 = false) {ph0 ph1 : List (BondInfo Q)} {m : BondInfo Q} {ws : List (OpT Q 𝕜)} {B T : SpT Q 𝕜}
    (hw : ∀ b ∈ ph0 ++ ph1, Dict.WF b) (hB : EvenBlocks isF B) (hT : EvenBlocks isF T) (c : 𝕜) :
    inner 𝕜 (components isF (ph0 ++ ph1) B) (winMap isF ws m ph0.length c (ph0 ++ ph1) (components isF (ph0 ++ ph1) T)) =
      sandwichOne isF (ph0, ph0) (ph1, ph1) m B ws T + c * inner 𝕜 (components isF (ph0 ++ ph1) B) (components isF (ph0 ++ ph1) T) := by
  have e : sandwichOne isF (ph0, ph0) (ph1, ph1) m B ws T =
      ∑ x : {x // x ∈ evenIndices isF (ph0 ++ ph1)}, star (components isF (ph0 ++ ph1) B x) *
        ∑ y, winKernel isF ws m ph0.length x.1 y.1 * components isF (ph0 ++ ph1) T y := by
    simp only [components_apply]
    rw [← sum_even hw (fun x => star (entry B ((0, 0) :: x ++ [(0, 0)])) * ∑ y : {x // x ∈ evenIndices isF (ph0 ++ ph1)},
      winKernel isF ws m ph0.length x y.1 * entry T ((0, 0) :: y.1 ++ [(0, 0)]))
      fun x _ hx => by rw [entry_odd h0 hB hx, star_zero, zero_mul], legIndices_append_sum]
    unfold sandwichOne
    refine sum_map_congr' _ _ _ fun a ha => sum_map_congr' _ _ _ fun b _ => ?_
    rw [appliedOne_components h0 hw hT (legIndices_length ha)]
    rfl
  rw [e, inner_window, inner_window, Finset.mul_sum, ← Finset.sum_add_distrib]
  refine Finset.sum_congr rfl fun x _ => ?_
  rw [winMap_apply]
  ring

theorem dot_components {isF : Q → Bool} (h0 : isF 0 = false) {legs : List (BondInfo Q)} {B T : SpT Q 𝕜} (hw : ∀ b ∈ legs, Dict.WF b)
    (cB : Conforms ([(0, 1)] :: legs ++ [[(0, 1)]]) B) (cT : Conforms ([(0, 1)] :: legs ++ [[(0, 1)]]) T) (hT : EvenBlocks isF T) :
    Mps.dot (Mps.conj ⟨[B], 0⟩) ⟨[T], 0⟩ = some (inner 𝕜 (components isF legs B) (components isF legs T)) := by
  have hB : OnBonds ([(0, 1)] :: [] ++ [[(0, 1)]]) [legs] (Mps.conj ⟨[B], 0⟩).tensors := onBonds_conj (ts := [B]) ⟨cB, trivial⟩
  have eB : ∀ p, ampl (Mps.conj (⟨[B], 0⟩ : Mps Q 𝕜)).tensors [] (0, 0) [p] (0, 0) = star (entry B ((0, 0) :: p ++ [(0, 0)])) := fun p =>
    (C19_conj (⟨[B], 0⟩ : Mps Q 𝕜)).2 [] (0, 0) [p] (0, 0)
  have h2 : OnBonds ([(0, 1)] :: [] ++ [[(0, 1)]]) [legs] (Mps.mk [T] (0 : 𝕜)).tensors := ⟨cT, trivial⟩
  rw [dot_any hB h2 (by simp) (by simp) (by simpa using hw) (by simp)]
  congr 1
  rw [List.map_singleton, cart_cons_sum, inner_window]
  simp only [components_apply]
  rw [← sum_even hw (fun x => star (entry B ((0, 0) :: x ++ [(0, 0)])) * entry T ((0, 0) :: x ++ [(0, 0)]))
    fun x _ hx => by rw [entry_odd h0 hT hx, mul_zero]]
  refine sum_map_congr' _ _ _ fun a _ => ?_
  rw [cart, List.map_singleton, List.sum_singleton, eB]
  rfl

/-- The product, in components. -/
theorem product_components {isF : Q → Bool} (h0 : isF 0 = false) (le : Q → Q → Bool) {ph0 ph1 : List (BondInfo Q)} {m : BondInfo Q} {o : Mpo Q 𝕜} {T : SpT Q 𝕜}
    (h : LocalOp isF (ph0, ph0) (ph1, ph1) m o.tensors T) :
    (∃ R, Mps.applyOne isF le o ⟨[T], 0⟩ = some ⟨[R], 0⟩ ∧ Conforms ([(0, 1)] :: (ph0 ++ ph1) ++ [[(0, 1)]]) R ∧
      components isF (ph0 ++ ph1) R = winMap isF o.tensors m ph0.length o.const (ph0 ++ ph1) (components isF (ph0 ++ ph1) T)) ∨
    Mps.applyOne isF le o ⟨[T], 0⟩ = none ∧
      winMap isF o.tensors m ph0.length o.const (ph0 ++ ph1) (components isF (ph0 ++ ph1) T) = o.const • components isF (ph0 ++ ph1) T := by
  have hw : ∀ b ∈ ph0 ++ ph1, Dict.WF b := by
    intro b hb
    rcases List.mem_append.1 hb with hb | hb
    · exact ((h.legs (ph0, ph0) (by simp)).2.2 b (by simp [hb])).1
    · exact ((h.legs (ph1, ph1) (by simp)).2.2 b (by simp [hb])).1
  have split : ∀ x : {x // x ∈ evenIndices isF (ph0 ++ ph1)}, ∃ a b, x.1 = a ++ b ∧ a.length = ph0.length ∧ b.length = ph1.length := by
    rintro ⟨x, hx⟩
    obtain ⟨a, ha, b, hb, rfl⟩ := mem_legIndices_append (List.mem_filter.1 hx).1
    exact ⟨a, b, rfl, legIndices_length ha, legIndices_length hb⟩
  rcases C58_product (o := o) h0 le h (Or.inr h.ket) with ⟨e, hz⟩ | ⟨R, r1, r2, r3, r4⟩
  · right
    refine ⟨e, ?_⟩
    ext x
    obtain ⟨a, b, hx, la, lb⟩ := split x
    rw [winMap_apply, hx, ← appliedOne_components h0 hw h.ketEven la, hz a b la lb, zero_add]
    rfl
  · left
    refine ⟨R, r1, r2, ?_⟩
    ext x
    obtain ⟨a, b, hx, la, lb⟩ := split x
    rw [winMap_apply, components_apply, components_apply, hx, r4 a b la lb, appliedOne_components h0 hw h.ketEven la]

theorem winMap_symmetric {isF : Q → Bool} {ws : List (OpT Q 𝕜)} {m : BondInfo Q} {n : Nat} {c : 𝕜} {legs : List (BondInfo Q)} (hc : star c = c)
    (hk : ∀ x ∈ evenIndices isF legs, ∀ y ∈ evenIndices isF legs, winKernel isF ws m n x y = star (winKernel isF ws m n y x)) :
    (winMap isF ws m n c legs).IsSymmetric := by
  intro u v
  rw [inner_window, inner_window]
  simp only [winMap_apply, star_add, star_mul', star_sum, hc, add_mul, mul_add, Finset.sum_add_distrib, Finset.sum_mul, Finset.mul_sum]
  congr 1
  · rw [Finset.sum_comm]
    refine Finset.sum_congr rfl fun x _ => Finset.sum_congr rfl fun y _ => ?_
    rw [hk x.1 x.2 y.1 y.2]
    ring
  · refine Finset.sum_congr rfl fun x _ => ?_
    ring

theorem legIndices_flatten {phys : List (List (BondInfo Q))} : ∀ {x : List (Q × Nat)}, x ∈ legIndices phys.flatten →
    ∃ ps, List.Forall₂ (fun (p : List (Q × Nat)) ph => p.length = ph.length) ps phys ∧ x = ps.flatten := by
  induction phys with
  | nil =>
    intro x hx
    exact ⟨[], .nil, by simpa [legIndices, cart] using hx⟩
  | cons ph phys ih =>
    intro x hx
    rw [List.flatten_cons] at hx
    obtain ⟨a, ha, b, hb, rfl⟩ := mem_legIndices_append hx
    obtain ⟨ps, h1, rfl⟩ := ih hb
    exact ⟨a :: ps, .cons (legIndices_length ha) h1, rfl⟩

theorem mem_windowLegs {e f : BondInfo Q} {Z : List (BondInfo Q)} {phys : List (List (BondInfo Q))} {l r : Nat} {x : List (Q × Nat)}
    (hx : x ∈ legIndices (windowLegs e f Z phys l r)) :
    ∃ a ps b, List.Forall₂ (fun (p : List (Q × Nat)) ph => p.length = ph.length) ps ((phys.drop l).take (r - l)) ∧ x = a :: ps.flatten ++ [b] := by
  unfold windowLegs at hx
  obtain ⟨u, hu, v, hv, rfl⟩ := mem_legIndices_append hx
  rcases u with _ | ⟨a, u⟩
  · have := legIndices_length hu; simp at this
  obtain ⟨b, rfl⟩ : ∃ b, v = [b] := List.length_eq_one_iff.1 (by simpa using legIndices_length hv)
  have h1 := (mem_cart _ _).1 hu
  rw [List.map_cons] at h1
  obtain ⟨ps, h2, rfl⟩ := legIndices_flatten ((mem_cart _ _).2 (List.forall₂_cons.1 h1).2)
  exact ⟨a, ps, b, h2, rfl⟩

theorem sandwich_star {isF : Q → Bool} {phys : List (List (BondInfo Q))} {q : Q} {X Y Z : List (BondInfo Q)} {ws : List (OpT Q 𝕜)} (hH : HermitianOp isF phys X ws)
    (bs ks : List (SpT Q 𝕜)) :
    sandwich isF (phys.map fun ph => (ph, ph)) Y X Z bs ws ks false (0, 0) (0, 0) (0, 0) (q, 0) (0, 0) (q, 0) =
      star (sandwich isF (phys.map fun ph => (ph, ph)) Z X Y ks ws bs false (0, 0) (0, 0) (0, 0) (q, 0) (0, 0) (q, 0)) := by
  unfold sandwich
  simp only [List.map_map, Function.comp_def]
  rw [star_listSum, sum_comm']
  refine sum_map_congr' _ _ _ fun us hu => ?_
  rw [star_listSum]
  refine sum_map_congr' _ _ _ fun ds hd => ?_
  rw [hH ds us hd hu, star_mul', star_mul', star_star]
  ring

theorem inner_single {isF : Q → Bool} {ws : List (OpT Q 𝕜)} {m : BondInfo Q} {n : Nat} {legs : List (BondInfo Q)} (x y : {x // x ∈ evenIndices isF legs}) :
    inner 𝕜 (EuclideanSpace.single x (1 : 𝕜)) (winMap isF ws m n 0 legs (EuclideanSpace.single y (1 : 𝕜))) = winKernel isF ws m n x.1 y.1 := by
  rw [inner_window, Finset.sum_eq_single x, winMap_apply, Finset.sum_eq_single y]
  · simp
  · intro z _ hz
    simp [hz]
  · simp
  · intro z _ hz
    simp [hz]
  · simp

/-- Kets of the window with one component only. -/
theorem WindowProblem.units {isF : Q → Bool} (h0 : isF 0 = false) {phys : List (List (BondInfo Q))} (gp : ∀ ph ∈ phys, ∀ c ∈ ph, GoodBond c) {q : Q}
    {X : List (BondInfo Q)} {mpo : Mpo Q 𝕜} {l r : Nat} (hlr : l < r) (hr2 : r ≤ l + 2) (hr : r ≤ mpo.tensors.length) {k : Nat → SpT Q 𝕜} {Zk : List (BondInfo Q)}
    {o : Mpo Q 𝕜} {ph0 ph1 : List (BondInfo Q)} {m : BondInfo Q} (hP : WindowProblem isF phys q X mpo l r k Zk o ph0 ph1 m) :
    ∃ (kk : {x // x ∈ evenIndices isF (ph0 ++ ph1)} → Nat → SpT Q 𝕜) (ZZ : {x // x ∈ evenIndices isF (ph0 ++ ph1)} → List (BondInfo Q)),
      (∀ x y, winKernel isF o.tensors m ph0.length x.1 y.1 = sandwich isF (phys.map fun ph => (ph, ph)) (ZZ x) X (ZZ y) ((List.range mpo.tensors.length).map (kk x))
        mpo.tensors ((List.range mpo.tensors.length).map (kk y)) false (0, 0) (0, 0) (0, 0) (q, 0) (0, 0) (q, 0)) ∧
      (∀ x y, (if x = y then (1 : 𝕜) else 0) = innerProduct [(0, 1)] [(q, 1)] phys (ampl ((List.range mpo.tensors.length).map (kk x)) (ZZ x))
        (ampl ((List.range mpo.tensors.length).map (kk y)) (ZZ y))) ∧
      ∀ x, ∃ T, Conforms ([(0, 1)] :: (ph0 ++ ph1) ++ [[(0, 1)]]) T ∧ EvenBlocks isF T ∧ components isF (ph0 ++ ph1) T = EuclideanSpace.single x (1 : 𝕜) := by
  have hw : ∀ b ∈ ph0 ++ ph1, Dict.WF b := by
    intro b hb
    rcases List.mem_append.1 hb with hb | hb
    · exact ((hP.legs (ph0, ph0) (by simp)).2.2 b (by simp [hb])).1
    · exact ((hP.legs (ph1, ph1) (by simp)).2.2 b (by simp [hb])).1
  have key : ∀ x : {x // x ∈ evenIndices isF (ph0 ++ ph1)}, ∃ (k' : Nat → SpT Q 𝕜) (Z' : List (BondInfo Q)), (∀ i, i < l ∨ r ≤ i → k' i = k i) ∧ SameOutside l r Zk Z' ∧
      FitsOn [(0, 1)] [(q, 1)] phys mpo.tensors.length Z' k' ∧ (∀ i < mpo.tensors.length, EvenBlocks isF (k' i)) ∧
      ∀ a ps b, List.Forall₂ (fun (p : List (Q × Nat)) ph => p.length = ph.length) ps ((phys.drop l).take (r - l)) →
        ampl ((List.range' l (r - l)).map k') ((Z'.drop l).take (r - 1 - l)) a ps b = if a :: ps.flatten ++ [b] = x.1 then 1 else 0 := fun x =>
    unit_ket h0 (goodBond_one 0) (goodBond_one q) gp hlr hr2 hr hP.fits hP.even (by rw [← hP.eq]; exact x.2)
  choose kk ZZ c1 c2 c3 c4 c5 using key
  have comp : ∀ (x : {x // x ∈ evenIndices isF (ph0 ++ ph1)}) (T : SpT Q 𝕜),
      (∀ a ps b, List.Forall₂ (fun (p : List (Q × Nat)) ph => p.length = ph.length) ps ((phys.drop l).take (r - l)) →
        entry T ((0, 0) :: (a :: ps.flatten ++ [b]) ++ [(0, 0)]) = ampl ((List.range' l (r - l)).map (kk x)) (((ZZ x).drop l).take (r - 1 - l)) a ps b) →
      components isF (ph0 ++ ph1) T = EuclideanSpace.single x (1 : 𝕜) := by
    intro x T hT
    ext z
    have hz : ∀ w, w ∈ evenIndices isF (ph0 ++ ph1) → w ∈ legIndices (windowLegs [(0, 1)] [(q, 1)] Zk phys l r) := fun w hw => by
      rw [← hP.eq]; exact (List.mem_filter.1 hw).1
    obtain ⟨a, ps, b, hf, hz⟩ := mem_windowLegs (hz z.1 z.2)
    rw [components_apply, hz, hT a ps b hf, c5 x a ps b hf, ← hz, EuclideanSpace.single_apply]
    by_cases h : z = x
    · rw [if_pos h, if_pos (congrArg Subtype.val h)]
    · rw [if_neg h, if_neg fun h' => h (Subtype.ext h')]
  have pair : ∀ x y, ∃ B T : SpT Q 𝕜, Conforms ([(0, 1)] :: (ph0 ++ ph1) ++ [[(0, 1)]]) B ∧ EvenBlocks isF B ∧ Conforms ([(0, 1)] :: (ph0 ++ ph1) ++ [[(0, 1)]]) T ∧ EvenBlocks isF T ∧
      components isF (ph0 ++ ph1) B = EuclideanSpace.single x (1 : 𝕜) ∧ components isF (ph0 ++ ph1) T = EuclideanSpace.single y (1 : 𝕜) ∧
      Mps.dot (Mps.conj ⟨[B], 0⟩) ⟨[T], 0⟩ = some (innerProduct [(0, 1)] [(q, 1)] phys (ampl ((List.range mpo.tensors.length).map (kk x)) (ZZ x))
        (ampl ((List.range mpo.tensors.length).map (kk y)) (ZZ y))) ∧
      sandwichOne isF (ph0, ph0) (ph1, ph1) m B o.tensors T = sandwich isF (phys.map fun ph => (ph, ph)) (ZZ x) X (ZZ y) ((List.range mpo.tensors.length).map (kk x))
        mpo.tensors ((List.range mpo.tensors.length).map (kk y)) false (0, 0) (0, 0) (0, 0) (q, 0) (0, 0) (q, 0) := by
    intro x y
    obtain ⟨bra', ket', B, T, -, -, -, -, d1, d2, d3, d4, d5, d6, d7, d8⟩ := hP.all (k' := kk x) (k'' := kk y) (fun i hi => ⟨c1 x i hi, c1 y i hi⟩) (c2 x) (c2 y) (c3 x) (c3 y)
      fun i hi => ⟨c4 x i hi, c4 y i hi⟩
    rw [← hP.eq] at d1 d3
    exact ⟨B, T, d1, d2, d3, d4, comp x B d5, comp y T d6, d7, d8⟩
  refine ⟨kk, ZZ, fun x y => ?_, fun x y => ?_, fun x => ?_⟩
  · obtain ⟨B, T, d1, d2, d3, d4, d5, d6, d7, d8⟩ := pair x y
    have := sandwichOne_inner (ws := o.tensors) (m := m) h0 hw d2 d4 0
    rw [d5, d6, inner_single, zero_mul, add_zero] at this
    rw [this, d8]
  · obtain ⟨B, T, d1, d2, d3, d4, d5, d6, d7, d8⟩ := pair x y
    rw [dot_components h0 hw d1 d3 d4, d5, d6] at d7
    rw [← Option.some.inj d7, EuclideanSpace.inner_single_left, EuclideanSpace.single_apply]
    simp
  · obtain ⟨B, T, d1, d2, d3, d4, d5, d6, d7, d8⟩ := pair x x
    exact ⟨T, d3, d4, d6⟩

theorem WindowProblem.symmetric {isF : Q → Bool} (h0 : isF 0 = false) {phys : List (List (BondInfo Q))} (gp : ∀ ph ∈ phys, ∀ c ∈ ph, GoodBond c) {q : Q}
    {X : List (BondInfo Q)} {mpo : Mpo Q 𝕜} {l r : Nat} (hlr : l < r) (hr2 : r ≤ l + 2) (hr : r ≤ mpo.tensors.length) {k : Nat → SpT Q 𝕜} {Zk : List (BondInfo Q)}
    {o : Mpo Q 𝕜} {ph0 ph1 : List (BondInfo Q)} {m : BondInfo Q} (hP : WindowProblem isF phys q X mpo l r k Zk o ph0 ph1 m)
    (hH : HermitianOp isF phys X mpo.tensors) (hc : star mpo.const = mpo.const) :
    (winMap isF o.tensors m ph0.length o.const (ph0 ++ ph1)).IsSymmetric := by
  obtain ⟨kk, ZZ, u1, -, -⟩ := hP.units h0 gp hlr hr2 hr
  refine winMap_symmetric (by rw [hP.const, hc]) fun x hx y hy => ?_
  rw [u1 ⟨x, hx⟩ ⟨y, hy⟩, u1 ⟨y, hy⟩ ⟨x, hx⟩]
  exact sandwich_star hH _ _

theorem list_finset_sum {ι α : Type} [Fintype ι] (L : List α) (f : α → ι → 𝕜) : (L.map fun u => ∑ x, f u x).sum = ∑ x, (L.map fun u => f u x).sum := by
  induction L with
  | nil => simp
  | cons a L ih => simp only [List.map_cons, List.sum_cons, ih, Finset.sum_add_distrib]

theorem quad_sum {ι α : Type} [Fintype ι] (L : List α) (H : α → α → 𝕜) (A : ι → α → 𝕜) (v : ι → 𝕜) :
    (L.map fun us => (L.map fun ds => star (∑ x, v x * A x us) * H us ds * ∑ y, v y * A y ds).sum).sum =
      ∑ x, ∑ y, star (v x) * v y * (L.map fun us => (L.map fun ds => star (A x us) * H us ds * A y ds).sum).sum := by
  have h1 : ∀ us ds, star (∑ x, v x * A x us) * H us ds * ∑ y, v y * A y ds = ∑ x, ∑ y, star (v x) * v y * (star (A x us) * H us ds * A y ds) := by
    intro us ds
    rw [star_sum, Finset.sum_mul, Finset.sum_mul]
    refine Finset.sum_congr rfl fun x _ => ?_
    rw [Finset.mul_sum]
    refine Finset.sum_congr rfl fun y _ => ?_
    rw [star_mul']
    ring
  simp only [h1, list_finset_sum, sum_map_mul_left']

theorem form_sum {ι α : Type} [Fintype ι] (L : List α) (A : ι → α → 𝕜) (v : ι → 𝕜) :
    (L.map fun us => star (∑ x, v x * A x us) * ∑ y, v y * A y us).sum = ∑ x, ∑ y, star (v x) * v y * (L.map fun us => star (A x us) * A y us).sum := by
  have h1 : ∀ us, star (∑ x, v x * A x us) * ∑ y, v y * A y us = ∑ x, ∑ y, star (v x) * v y * (star (A x us) * A y us) := by
    intro us
    rw [star_sum, Finset.sum_mul]
    refine Finset.sum_congr rfl fun x _ => ?_
    rw [Finset.mul_sum]
    refine Finset.sum_congr rfl fun y _ => ?_
    rw [star_mul']
    ring
  simp only [h1, list_finset_sum, sum_map_mul_left']

theorem innerProduct_edges {q : Q} {phys : List (List (BondInfo Q))} (A B : Q × Nat → List (List (Q × Nat)) → Q × Nat → 𝕜) :
    innerProduct [(0, 1)] [(q, 1)] phys A B = ((cart (phys.map legIndices)).map fun us => star (A (0, 0) us (q, 0)) * B (0, 0) us (q, 0)).sum := by
  unfold innerProduct
  simp only [legBasis_single, List.map_singleton, List.sum_singleton]

/-- A bound of the whole operator bounds the local one. -/
theorem WindowProblem.lower {isF : Q → Bool} (h0 : isF 0 = false) {phys : List (List (BondInfo Q))} (gp : ∀ ph ∈ phys, ∀ c ∈ ph, GoodBond c) {q : Q}
    {X : List (BondInfo Q)} {mpo : Mpo Q 𝕜} {l r : Nat} (hlr : l < r) (hr2 : r ≤ l + 2) (hr : r ≤ mpo.tensors.length) {k : Nat → SpT Q 𝕜} {Zk : List (BondInfo Q)}
    {o : Mpo Q 𝕜} {ph0 ph1 : List (BondInfo Q)} {m : BondInfo Q} (hP : WindowProblem isF phys q X mpo l r k Zk o ph0 ph1 m)
    {μ : ℝ} (hμ : BoundedBelow isF phys X mpo.tensors mpo.const μ) (v : WindowSpace 𝕜 isF (ph0 ++ ph1)) :
    μ * ‖v‖ ^ 2 ≤ RCLike.re (inner 𝕜 v (winMap isF o.tensors m ph0.length o.const (ph0 ++ ph1) v)) := by
  obtain ⟨kk, ZZ, u1, u2, -⟩ := hP.units h0 gp hlr hr2 hr
  have h := hμ fun us => ∑ x, v x * ampl ((List.range mpo.tensors.length).map (kk x)) (ZZ x) (0, 0) us (q, 0)
  rw [quad_sum, form_sum] at h
  have e2 : ∀ x y, ((cart (phys.map legIndices)).map fun us => star (ampl ((List.range mpo.tensors.length).map (kk x)) (ZZ x) (0, 0) us (q, 0)) *
      ampl ((List.range mpo.tensors.length).map (kk y)) (ZZ y) (0, 0) us (q, 0)).sum = if x = y then (1 : 𝕜) else 0 := by
    intro x y
    rw [u2 x y, innerProduct_edges]
  have e1 : ∀ x y, ((cart (phys.map legIndices)).map fun us => ((cart (phys.map legIndices)).map fun ds =>
      star (ampl ((List.range mpo.tensors.length).map (kk x)) (ZZ x) (0, 0) us (q, 0)) * opAmpl isF mpo.tensors X false (0, 0) us ds (0, 0) *
      ampl ((List.range mpo.tensors.length).map (kk y)) (ZZ y) (0, 0) ds (q, 0)).sum).sum = winKernel isF o.tensors m ph0.length x.1 y.1 := by
    intro x y
    rw [u1 x y]
    unfold sandwich
    simp only [List.map_map, Function.comp_def]
  have e3 : ∀ us : List (List (Q × Nat)), ((‖∑ x, v x * ampl ((List.range mpo.tensors.length).map (kk x)) (ZZ x) (0, 0) us (q, 0)‖ ^ 2 : ℝ) : 𝕜) =
      star (∑ x, v x * ampl ((List.range mpo.tensors.length).map (kk x)) (ZZ x) (0, 0) us (q, 0)) *
        ∑ x, v x * ampl ((List.range mpo.tensors.length).map (kk x)) (ZZ x) (0, 0) us (q, 0) := by
    intro us
    rw [RCLike.ofReal_pow, ← RCLike.conj_mul]
    rfl
  have e4 : ((((cart (phys.map legIndices)).map fun us => ‖∑ x, v x * ampl ((List.range mpo.tensors.length).map (kk x)) (ZZ x) (0, 0) us (q, 0)‖ ^ 2).sum : ℝ) : 𝕜) =
      ((‖v‖ ^ 2 : ℝ) : 𝕜) := by
    have : ∀ L : List ℝ, ((L.sum : ℝ) : 𝕜) = (L.map (RCLike.ofReal : ℝ → 𝕜)).sum := by
      intro L
      induction L with
      | nil => simp
      | cons a L ih => simp [ih]
    rw [this, List.map_map]
    simp only [Function.comp_def, e3]
    rw [form_sum, RCLike.ofReal_pow, ← inner_self_eq_norm_sq_to_K, inner_window]
    refine Finset.sum_congr rfl fun x _ => ?_
    rw [Finset.sum_eq_single x]
    · rw [e2, if_pos rfl, mul_one]
    · intro y _ hy
      rw [e2, if_neg (Ne.symm hy), mul_zero]
    · simp
  rw [RCLike.ofReal_inj.1 e4] at h
  refine h.trans (le_of_eq ?_)
  congr 1
  simp only [e1, e2]
  rw [inner_window, Finset.mul_sum, ← Finset.sum_add_distrib]
  refine Finset.sum_congr rfl fun x _ => ?_
  rw [winMap_apply, mul_add, Finset.mul_sum _ _ (star (v x)), hP.const]
  congr 1
  · exact Finset.sum_congr rfl fun y _ => by ring
  · rw [Finset.sum_eq_single x]
    · rw [if_pos rfl]; ring
    · intro y _ hy
      rw [if_neg (Ne.symm hy), mul_zero]
    · simp

/-- The local map is determined by the products. -/
theorem WindowProblem.map {isF : Q → Bool} (h0 : isF 0 = false) (le : Q → Q → Bool) {phys : List (List (BondInfo Q))} (gp : ∀ ph ∈ phys, ∀ c ∈ ph, GoodBond c) {q : Q}
    {X : List (BondInfo Q)} {mpo : Mpo Q 𝕜} {l r : Nat} (hlr : l < r) (hr2 : r ≤ l + 2) (hr : r ≤ mpo.tensors.length) {k : Nat → SpT Q 𝕜} {Zk : List (BondInfo Q)}
    {o : Mpo Q 𝕜} {ph0 ph1 : List (BondInfo Q)} {m : BondInfo Q} (hP : WindowProblem isF phys q X mpo l r k Zk o ph0 ph1 m)
    (a : WindowSpace 𝕜 isF (ph0 ++ ph1) →ₗ[𝕜] WindowSpace 𝕜 isF (ph0 ++ ph1)) :
    LocalMap isF le o (ph0 ++ ph1) a ↔ a = winMap isF o.tensors m ph0.length o.const (ph0 ++ ph1) := by
  have main : ∀ T : SpT Q 𝕜, Conforms ([(0, 1)] :: (ph0 ++ ph1) ++ [[(0, 1)]]) T → EvenBlocks isF T →
      LocalOp isF (ph0, ph0) (ph1, ph1) m o.tensors T := fun T h1 h2 => ⟨hP.op, h1, h2, hP.bond, hP.legs⟩
  constructor
  · intro ha
    obtain ⟨-, -, -, -, u3⟩ := hP.units h0 gp hlr hr2 hr
    refine (EuclideanSpace.basisFun {x // x ∈ evenIndices isF (ph0 ++ ph1)} 𝕜).toBasis.ext fun x => ?_
    obtain ⟨T, t1, t2, t3⟩ := u3 x
    simp only [OrthonormalBasis.coe_toBasis, EuclideanSpace.basisFun_apply]
    rw [← t3]
    rcases product_components h0 le (main T t1 t2) with ⟨R, r1, -, r3⟩ | ⟨r1, r2⟩
    · rw [(ha T t1 t2).1 R r1, r3]
    · rw [(ha T t1 t2).2 r1, r2]
  · rintro rfl T t1 t2
    rcases product_components h0 le (main T t1 t2) with ⟨R, r1, -, r3⟩ | ⟨r1, r2⟩
    · refine ⟨fun R' hR' => ?_, fun h => by rw [r1] at h; cases h⟩
      rw [r1] at hR'
      obtain rfl : R = R' := by simpa using hR'
      exact r3.symm
    · exact ⟨fun R' hR' => (by rw [r1] at hR'; cases hR'), fun _ => r2⟩

end
end Verif
