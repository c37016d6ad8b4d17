import Verif.Proof.MpsInfoState
import Mathlib.LinearAlgebra.FiniteDimensional.Lemmas
import Mathlib.LinearAlgebra.Dimension.Finite

/-! Every function on the configurations with the target charge is the amplitude of a state on the full bonds. -/

set_option linter.unusedSectionVars false

namespace Verif
section
variable {X K : Type} [DecidableEq X] [Field K]

/-- A space of functions spanned by the functions `f a`, `a ∈ A`, and supported on `B` is spanned by `min |A| |B|` of its elements. -/
theorem spanning_family (f : X → X → K) (A B : List X) (hB : ∀ a ∈ A, ∀ b, b ∉ B → f a b = 0) :
    ∃ w : Nat → X → K, (∀ i, w i ∈ Submodule.span K (f '' {a | a ∈ A})) ∧
      ∀ v ∈ Submodule.span K (f '' {a | a ∈ A}), ∃ c : Nat → K, v = ∑ i ∈ Finset.range (min A.length B.length), c i • w i := by
  classical
  set S := Submodule.span K (f '' {a | a ∈ A}) with hS
  have hfin : (f '' {a | a ∈ A}).Finite := (List.finite_toSet A).image f
  haveI : FiniteDimensional K S := FiniteDimensional.span_of_finite K hfin
  have h1 : Module.finrank K S ≤ A.length := by
    have e : f '' {a | a ∈ A} = ((A.toFinset.image f : Finset (X → K)) : Set (X → K)) := by
      ext g
      simp
    rw [hS, e]
    refine (finrank_span_finset_le_card _).trans (Finset.card_image_le.trans ?_)
    exact List.toFinset_card_le A
  have h2 : Module.finrank K S ≤ B.length := by
    set g : X → X → K := fun b => Pi.single b 1
    have e : ((B.toFinset.image g : Finset (X → K)) : Set (X → K)) = g '' {b | b ∈ B} := by
      ext g
      simp
    have hle : S ≤ Submodule.span K ((B.toFinset.image g : Finset (X → K)) : Set (X → K)) := by
      rw [hS, Submodule.span_le]
      rintro _ ⟨a, ha, rfl⟩
      have : f a = ∑ b ∈ B.toFinset, f a b • g b := by
        funext y
        rw [Finset.sum_apply]
        simp only [g, Pi.smul_apply, Pi.single_apply, smul_eq_mul, mul_ite, mul_one, mul_zero]
        rw [Finset.sum_ite_eq]
        split_ifs with hy
        · rfl
        · exact hB a ha y (by simpa using hy)
      rw [SetLike.mem_coe, this]
      refine Submodule.sum_mem _ fun b hb => Submodule.smul_mem _ _ (Submodule.subset_span ?_)
      rw [e]
      exact ⟨b, by simpa using hb, rfl⟩
    haveI : FiniteDimensional K (Submodule.span K ((B.toFinset.image g : Finset (X → K)) : Set (X → K))) := FiniteDimensional.span_finset K _
    refine (Submodule.finrank_mono hle).trans ((finrank_span_finset_le_card _).trans (Finset.card_image_le.trans ?_))
    exact List.toFinset_card_le B
  set r := Module.finrank K S
  set bas := Module.finBasis K S
  refine ⟨fun i => if h : i < r then (bas ⟨i, h⟩ : X → K) else 0, fun i => ?_, fun v hv => ?_⟩
  · beta_reduce
    by_cases h : i < r
    · rw [dif_pos h]; exact (bas ⟨i, h⟩).2
    · rw [dif_neg h]; exact Submodule.zero_mem _
  · refine ⟨fun i => if h : i < r then bas.repr ⟨v, hv⟩ ⟨i, h⟩ else 0, ?_⟩
    have hr : r ≤ min A.length B.length := le_min h1 h2
    rw [← Finset.sum_subset (Finset.range_mono hr)]
    · have e := bas.sum_repr ⟨v, hv⟩
      have e' : ((∑ i, bas.repr ⟨v, hv⟩ i • bas i : S) : X → K) = v := congrArg Subtype.val e
      rw [Submodule.coe_sum] at e'
      refine e'.symm.trans ?_
      rw [Finset.sum_range]
      refine Finset.sum_congr rfl fun i _ => ?_
      beta_reduce
      rw [dif_pos i.2, dif_pos i.2]
      rfl
    · intro i _ hi
      have hi' : ¬ i < r := by simpa using hi
      beta_reduce
      rw [dif_neg hi', zero_smul]

end

section
variable {Q K : Type} [DecidableEq Q] [AddCommGroup Q] [Field K]

/-- Amplitudes of the continuations of `a`. -/
def contRow (target : Q) (basis : List (BondInfo Q)) (ψ : List (Q × Nat) → K) (d : Nat) (q : Q) (a b : List (Q × Nat)) : K :=
  if b ∈ rightStates target basis d q then ψ (a ++ b) else 0

def contSpace (vacuum target : Q) (basis : List (BondInfo Q)) (ψ : List (Q × Nat) → K) (d : Nat) (q : Q) : Submodule K (List (Q × Nat) → K) :=
  Submodule.span K (contRow target basis ψ d q '' {a | a ∈ leftStates vacuum basis d q})

theorem mem_leftStates {vacuum : Q} {basis : List (BondInfo Q)} {d : Nat} {q : Q} {a : List (Q × Nat)} :
    a ∈ leftStates vacuum basis d q ↔ a ∈ legIndices (basis.take d) ∧ vacuum + totalCharge a = q := by
  simp [leftStates]

theorem mem_rightStates {target : Q} {basis : List (BondInfo Q)} {d : Nat} {q : Q} {a : List (Q × Nat)} :
    a ∈ rightStates target basis d q ↔ a ∈ legIndices (basis.drop d) ∧ q + totalCharge a = target := by
  simp [rightStates]

theorem mem_legIndices_join {s t : List (BondInfo Q)} {a b : List (Q × Nat)} (ha : a ∈ legIndices s) (hb : b ∈ legIndices t) :
    a ++ b ∈ legIndices (s ++ t) := by
  induction s generalizing a with
  | nil =>
    have : a = [] := by simpa [legIndices, cart] using ha
    subst this
    exact hb
  | cons c s ih =>
    obtain ⟨p, hp, ps, hps, rfl⟩ := mem_legIndices_cons.1 ha
    exact mem_legIndices_cons.2 ⟨p, hp, ps ++ b, ih hps, rfl⟩

theorem drop_eq_getD_cons {basis : List (BondInfo Q)} {d : Nat} (hd : d < basis.length) : basis.drop d = basis.getD d [] :: basis.drop (d + 1) := by
  rw [List.drop_eq_getElem_cons hd]
  simp [List.getD_eq_getElem?_getD, List.getElem?_eq_getElem hd]

theorem take_succ_getD {basis : List (BondInfo Q)} {d : Nat} (hd : d < basis.length) : basis.take (d + 1) = basis.take d ++ [basis.getD d []] := by
  rw [List.take_succ_eq_append_getElem hd]
  simp [List.getD_eq_getElem?_getD, List.getElem?_eq_getElem hd]

theorem leftStates_snoc {vacuum : Q} {basis : List (BondInfo Q)} {d : Nat} (hd : d < basis.length) {q : Q} {a : List (Q × Nat)} {s : Q × Nat}
    (ha : a ∈ leftStates vacuum basis d q) (hs : s ∈ legBasis (basis.getD d [])) : a ++ [s] ∈ leftStates vacuum basis (d + 1) (q + s.1) := by
  rw [mem_leftStates] at ha ⊢
  refine ⟨?_, ?_⟩
  · rw [take_succ_getD hd]
    exact mem_legIndices_join ha.1 (mem_legIndices_cons.2 ⟨s, hs, [], by simp [legIndices, cart], rfl⟩)
  · rw [totalCharge_append, ← add_assoc, ha.2]
    simp [totalCharge]

theorem rightStates_cons {target : Q} {basis : List (BondInfo Q)} {d : Nat} (hd : d < basis.length) {q : Q} {b : List (Q × Nat)} {s : Q × Nat}
    (hs : s ∈ legBasis (basis.getD d [])) : s :: b ∈ rightStates target basis d q ↔ b ∈ rightStates target basis (d + 1) (q + s.1) := by
  rw [mem_rightStates, mem_rightStates, drop_eq_getD_cons hd, totalCharge_cons, add_assoc]
  constructor
  · rintro ⟨h, e⟩
    obtain ⟨p, hp, ps, hps, h⟩ := mem_legIndices_cons.1 h
    rw [List.cons.injEq] at h
    exact ⟨h.2 ▸ hps, e⟩
  · rintro ⟨h, e⟩
    exact ⟨mem_legIndices_cons.2 ⟨s, hs, b, h, rfl⟩, e⟩

/-- Fixing the next site leads to the space of the next bond. -/
theorem contSpace_step {vacuum target : Q} {basis : List (BondInfo Q)} (ψ : List (Q × Nat) → K) {d : Nat} (hd : d < basis.length) {q : Q}
    {s : Q × Nat} (hs : s ∈ legBasis (basis.getD d [])) {v : List (Q × Nat) → K} (hv : v ∈ contSpace vacuum target basis ψ d q) :
    (fun b => v (s :: b)) ∈ contSpace vacuum target basis ψ (d + 1) (q + s.1) := by
  have h : contSpace vacuum target basis ψ d q ≤ (contSpace vacuum target basis ψ (d + 1) (q + s.1)).comap (LinearMap.funLeft K K (List.cons s)) := by
    unfold contSpace
    rw [Submodule.span_le]
    rintro _ ⟨a, ha, rfl⟩
    rw [SetLike.mem_coe, Submodule.mem_comap]
    refine Submodule.subset_span ⟨a ++ [s], leftStates_snoc hd ha hs, ?_⟩
    funext b
    simp only [LinearMap.funLeft_apply, contRow]
    by_cases hb : b ∈ rightStates target basis (d + 1) (q + s.1)
    · rw [if_pos hb, if_pos ((rightStates_cons hd hs).2 hb)]
      simp
    · rw [if_neg hb, if_neg fun h => hb ((rightStates_cons hd hs).1 h)]
  exact h hv

theorem leftStates_zero (vacuum : Q) (basis : List (BondInfo Q)) (q : Q) : leftStates vacuum basis 0 q = if vacuum = q then [[]] else [] := by
  by_cases h : vacuum = q <;> simp [leftStates, legIndices, cart, h]

theorem rightStates_end (target : Q) (basis : List (BondInfo Q)) (q : Q) :
    rightStates target basis basis.length q = if q = target then [[]] else [] := by
  by_cases h : q = target <;> simp [rightStates, legIndices, cart, h]

theorem reachable_left {vacuum target : Q} {basis : List (BondInfo Q)} (h : Reachable vacuum target basis) :
    0 < (leftStates vacuum basis basis.length target).length := by
  obtain ⟨x, hx, e⟩ := h
  exact List.length_pos_of_mem (mem_leftStates.2 ⟨by rwa [List.take_length], e⟩)

theorem reachable_right {vacuum target : Q} {basis : List (BondInfo Q)} (h : Reachable vacuum target basis) :
    0 < (rightStates target basis 0 vacuum).length := by
  obtain ⟨x, hx, e⟩ := h
  exact List.length_pos_of_mem (mem_rightStates.2 ⟨by simpa using hx, e⟩)

/-- Number of basis vectors of the full bond. -/
def fullCount (vacuum target : Q) (basis : List (BondInfo Q)) (d : Nat) (q : Q) : Nat :=
  min (leftStates vacuum basis d q).length (rightStates target basis d q).length

theorem exact_family {vacuum target : Q} {basis : List (BondInfo Q)} (hne : basis ≠ []) (hr : Reachable vacuum target basis) (ψ : List (Q × Nat) → K) :
    ∃ w : Nat → Q → Nat → List (Q × Nat) → K, ∃ coef : Nat → Q → Nat → Q × Nat → Nat → K,
      w 0 vacuum 0 = contRow target basis ψ 0 vacuum [] ∧ w basis.length target 0 [] = 1 ∧
      ∀ d, d < basis.length → ∀ q i s, s ∈ legBasis (basis.getD d []) → ∀ b,
        w d q i (s :: b) = ∑ j ∈ Finset.range (fullCount vacuum target basis (d + 1) (q + s.1)), coef d q i s j * w (d + 1) (q + s.1) j b := by
  classical
  have hn : 0 < basis.length := List.length_pos_iff.2 hne
  have gen : ∀ d q, ∃ w : Nat → List (Q × Nat) → K, (∀ i, w i ∈ contSpace vacuum target basis ψ d q) ∧
      ∀ v ∈ contSpace vacuum target basis ψ d q, ∃ c : Nat → K, v = ∑ i ∈ Finset.range (fullCount vacuum target basis d q), c i • w i := by
    intro d q
    refine spanning_family (contRow target basis ψ d q) _ _ ?_
    intro a _ b hb
    rw [contRow, if_neg hb]
  choose u hu hspan using gen
  set w : Nat → Q → Nat → List (Q × Nat) → K := fun d q =>
    if d = 0 ∧ q = vacuum then fun _ => contRow target basis ψ 0 vacuum [] else
    if d = basis.length ∧ q = target then fun _ b => if b = [] then 1 else 0 else u d q with hw
  have p2 : ∀ d, d < basis.length → ∀ q i, w d q i ∈ contSpace vacuum target basis ψ d q := by
    intro d hd q i
    simp only [hw]
    by_cases h0 : d = 0 ∧ q = vacuum
    · rw [if_pos h0]
      obtain ⟨rfl, rfl⟩ := h0
      exact Submodule.subset_span ⟨[], by rw [Set.mem_setOf_eq, leftStates_zero, if_pos rfl]; simp, rfl⟩
    · rw [if_neg h0, if_neg (by omega)]
      exact hu d q i
  have p1 : ∀ d, 0 < d → ∀ q, ∀ v ∈ contSpace vacuum target basis ψ d q, ∃ c : Nat → K,
      v = ∑ i ∈ Finset.range (fullCount vacuum target basis d q), c i • w d q i := by
    intro d hd q v hv
    simp only [hw]
    rw [if_neg (by omega)]
    by_cases hl : d = basis.length ∧ q = target
    · rw [if_pos hl]
      obtain ⟨rfl, rfl⟩ := hl
      have h1 : fullCount vacuum q basis basis.length q = 1 := by
        unfold fullCount
        rw [rightStates_end, if_pos rfl]
        have := reachable_left hr
        simp only [List.length_cons, List.length_nil]
        omega
      refine ⟨fun _ => v [], ?_⟩
      rw [h1, Finset.sum_range_one]
      have hz : ∀ b, b ≠ [] → v b = 0 := by
        intro b hb
        have hle : contSpace vacuum q basis ψ basis.length q ≤ LinearMap.ker (LinearMap.proj b : (List (Q × Nat) → K) →ₗ[K] K) := by
          unfold contSpace
          rw [Submodule.span_le]
          rintro _ ⟨a, _, rfl⟩
          rw [SetLike.mem_coe, LinearMap.mem_ker, LinearMap.proj_apply, contRow, if_neg]
          rw [rightStates_end, if_pos rfl]
          simpa using hb
        exact hle hv
      funext b
      by_cases hb : b = []
      · subst hb; simp
      · simp [hb, hz b hb]
    · rw [if_neg hl]
      exact hspan d q v hv
  have step : ∀ d q i s, ∃ c : Nat → K, d < basis.length → s ∈ legBasis (basis.getD d []) → ∀ b,
      w d q i (s :: b) = ∑ j ∈ Finset.range (fullCount vacuum target basis (d + 1) (q + s.1)), c j * w (d + 1) (q + s.1) j b := by
    intro d q i s
    by_cases h : d < basis.length ∧ s ∈ legBasis (basis.getD d [])
    · obtain ⟨c, hc⟩ := p1 (d + 1) (by omega) (q + s.1) _ (contSpace_step ψ h.1 h.2 (p2 d h.1 q i))
      refine ⟨c, fun _ _ b => ?_⟩
      have := congrFun hc b
      simp only [Finset.sum_apply, Pi.smul_apply, smul_eq_mul] at this
      exact this
    · exact ⟨fun _ => 0, fun h1 h2 => absurd ⟨h1, h2⟩ h⟩
  choose coef hcoef using step
  refine ⟨w, coef, ?_, ?_, fun d hd q i s hs b => hcoef d q i s hd hs b⟩
  · simp [hw]
  · simp only [hw]
    rw [if_neg (by omega)]
    simp

/-- The path sum with these coefficients gives back the function. -/
theorem exact_path {vacuum target : Q} {basis : List (BondInfo Q)} {bonds : List (BondInfo Q)} (hlen : bonds.length = basis.length + 1)
    (hcount : ∀ d, d ≤ basis.length → ∀ q, Counter.count (bonds.getD d []) q = fullCount vacuum target basis d q)
    {w : Nat → Q → Nat → List (Q × Nat) → K} {coef : Nat → Q → Nat → Q × Nat → Nat → K} (h1 : w basis.length target 0 [] = 1)
    (hstep : ∀ d, d < basis.length → ∀ q i s, s ∈ legBasis (basis.getD d []) → ∀ b,
        w d q i (s :: b) = ∑ j ∈ Finset.range (fullCount vacuum target basis (d + 1) (q + s.1)), coef d q i s j * w (d + 1) (q + s.1) j b)
    (k d : Nat) (hk : d + k = basis.length) (q : Q) (i : Nat) (hi : i < fullCount vacuum target basis d q) (ps : List (Q × Nat))
    (hps : ps ∈ legIndices (basis.drop d)) :
    pathSum (fun d qs ix => coef d (qs.getD 0 0) (ix.getD 0 0) (qs.getD 1 0, ix.getD 1 0) (ix.getD 2 0)) d (bonds.drop (d + 1)) (q, i) ps = w d q i ps := by
  induction k generalizing d q i ps with
  | zero =>
    have hd : d = basis.length := by omega
    subst hd
    have : ps = [] := by simpa [legIndices, cart] using hps
    subst this
    have hq : q = target := by
      by_contra hq
      rw [fullCount, rightStates_end, if_neg hq] at hi
      simp at hi
    subst hq
    have hi0 : i = 0 := by
      rw [fullCount, rightStates_end, if_pos rfl] at hi
      simp only [List.length_cons, List.length_nil] at hi
      omega
    subst hi0
    rw [h1]
    rw [List.drop_eq_nil_of_le (by omega)]
    rfl
  | succ k ih =>
    have hd : d < basis.length := by omega
    rw [drop_eq_getD_cons hd] at hps
    obtain ⟨s, hs, ps, hps', rfl⟩ := mem_legIndices_cons.1 hps
    rw [drop_eq_getD_cons (by omega : d + 1 < bonds.length), pathSum, hcount (d + 1) (by omega), hstep d hd q i s hs ps]
    rw [Finset.sum_eq_multiset_sum]
    change _ = ((List.range _).map _).sum
    apply sum_map_congr'
    intro j hj
    rw [ih (d + 1) (by omega) (q + s.1) j (List.mem_range.1 hj) ps hps']
    rfl

end
end Verif
