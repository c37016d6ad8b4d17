import Verif.Proof.MpeNet
import Verif.Thm.MpsProd
import Verif.Thm.MpsDot

/-! Expectation values of a network computed by applying the operator and taking the overlap. -/

set_option linter.unusedSectionVars false

namespace Verif
section
variable {Q K : Type} [DecidableEq Q] [AddCommGroup Q] [CommRing K] [StarRing K] [DecidableEq K]

theorem goodBond_one (q : Q) : GoodBond [(q, 1)] := by
  refine ⟨by simp [Dict.WF, Dict.keys], ?_⟩
  simp

theorem onBonds_conj {bonds : List (BondInfo Q)} {phys : List (List (BondInfo Q))} {ts : List (SpT Q K)} (h : OnBonds bonds phys ts) :
    OnBonds bonds phys (ts.map SpT.conj) := by
  induction ts generalizing bonds phys with
  | nil =>
    rcases bonds with _ | ⟨a, _ | ⟨b, bonds⟩⟩ <;> rcases phys with _ | ⟨p, phys⟩ <;> simp_all [OnBonds]
  | cons T ts ih =>
    rcases bonds with _ | ⟨a, _ | ⟨b, bonds⟩⟩
    · exact h.elim
    · rcases phys with _ | ⟨p, phys⟩ <;> exact h.elim
    · rcases phys with _ | ⟨p, phys⟩
      · exact h.elim
      · exact ⟨h.1.conj, ih h.2⟩

/-- The overlap of two chains with one label on each edge, with or without empty tensors. -/
theorem dot_any {q q' : Q} {X Y : List (BondInfo Q)} {phys : List (List (BondInfo Q))} {a b : Mps Q K}
    (hA : OnBonds ([(q, 1)] :: X ++ [[(q', 1)]]) phys a.tensors) (hB : OnBonds ([(q, 1)] :: Y ++ [[(q', 1)]]) phys b.tensors)
    (gA : ∀ c ∈ X, GoodBond c) (gB : ∀ c ∈ Y, GoodBond c) (hp : ∀ ph ∈ phys, ∀ c ∈ ph, Dict.WF c) (hc : a.const * b.const = 0) :
    Mps.dot a b = some (((cart (phys.map legIndices)).map fun ps => ampl a.tensors X (q, 0) ps (q', 0) * ampl b.tensors Y (q, 0) ps (q', 0)).sum) := by
  have hw : ∀ c ∈ [(q, 1)] :: [(q', 1)] :: X ++ Y, Dict.WF c := by
    intro c hc
    simp only [List.cons_append, List.mem_cons, List.mem_append] at hc
    rcases hc with rfl | rfl | hc | hc
    · exact (goodBond_one q).1
    · exact (goodBond_one q').1
    · exact (gA c hc).1
    · exact (gB c hc).1
  by_cases hn : [] ∈ a.tensors ∨ [] ∈ b.tensors
  · rw [C20_dot_const_lost _ _ X Y _ a b hA hB hw hp hn]
    congr 1
    refine (List.sum_eq_zero fun z hz => ?_).symm
    obtain ⟨u, -, rfl⟩ := List.mem_map.1 hz
    rcases hn with h | h
    · rw [ampl_empty h, zero_mul]
    · rw [ampl_empty (ts := b.tensors) h, mul_zero]
  · have nA : ∀ T ∈ a.tensors, T ≠ [] := fun T hT h0 => hn (Or.inl (h0 ▸ hT))
    have nB : ∀ T ∈ b.tensors, T ≠ [] := fun T hT h0 => hn (Or.inr (h0 ▸ hT))
    rw [C20_dot _ _ X Y _ a b hA hB hw hp nA nB, hc, add_zero]
    congr 1
    simp only [legBasis_single, List.map_cons, List.map_nil, List.sum_cons, List.sum_nil, add_zero]

theorem cart_length {α : Type} {ls : List (List α)} {x : List α} (h : x ∈ cart ls) : x.length = ls.length := by
  induction ls generalizing x with
  | nil => simp [cart] at h; rw [h]; rfl
  | cons l ls ih =>
    rw [cart] at h
    obtain ⟨z, _, hz⟩ := List.mem_flatMap.1 h
    obtain ⟨w, hw, rfl⟩ := List.mem_map.1 hz
    simp [ih hw]

theorem Network.applicable {isF : Q → Bool} {qb qk : Q} {Y X Z : List (BondInfo Q)} {phys : List (List (BondInfo Q) × List (BondInfo Q))}
    {bs : List (SpT Q K)} {ws : List (OpT Q K)} {ks : List (SpT Q K)} (h : Network isF qb qk Y X Z phys bs ws ks) :
    Applicable isF [(0, 1)] [(0, 1)] [(0, 1)] [(qk, 1)] X Z phys ws ks where
  op := h.op
  state := h.ket
  good := by
    intro c hc
    simp only [List.cons_append, List.mem_cons, List.mem_append] at hc
    rcases hc with rfl | rfl | rfl | rfl | hc | hc
    · exact goodBond_one _
    · exact goodBond_one _
    · exact goodBond_one _
    · exact goodBond_one _
    · exact h.bonds c (by simp [hc])
    · exact h.bonds c (by simp [hc])
  legs := by
    intro ph hp
    obtain ⟨h1, h2, h3⟩ := h.legs ph hp
    refine ⟨h1, ?_, h3⟩
    intro h0
    rw [h0] at h2
    exact h1 (List.length_eq_zero_iff.1 h2)
  parity := .of_even h.ketEven

/-- `sandwich` is the overlap of the bra with the operator applied to the ket. -/
theorem sandwich_applied {isF : Q → Bool} (h0 : isF 0 = false) {phys : List (List (BondInfo Q) × List (BondInfo Q))} {Y X Z : List (BondInfo Q)}
    {bs : List (SpT Q K)} {ws : List (OpT Q K)} {ks : List (SpT Q K)} (b m b' m' k' : Q × Nat) :
    sandwich isF phys Y X Z bs ws ks false b m (0, 0) b' m' k' = ((cart (phys.map fun ph => legIndices ph.1)).map fun us =>
      star (ampl bs Y b us b') * applied isF X Z phys ws ks m (0, 0) us m' k').sum := by
  unfold sandwich applied
  refine sum_map_congr' _ _ _ fun us _ => ?_
  rw [← sum_map_mul_left']
  refine sum_map_congr' _ _ _ fun ds _ => ?_
  rw [h0, mul_assoc]

/-- Expectation value, operator without constant. -/
theorem expectation_network {isF : Q → Bool} (h0 : isF 0 = false) (le : Q → Q → Bool) {q : Q} {Y X Z : List (BondInfo Q)}
    {phys : List (List (BondInfo Q) × List (BondInfo Q))} {bra ket : Mps Q K} {mpo : Mpo Q K}
    (h : Network isF q q Y X Z phys bra.tensors mpo.tensors ket.tensors) (hX : X ≠ []) (hm : mpo.const = 0) (hk : ket.const = 0) :
    Mpe.expectation isF le bra mpo ket = some (sandwich isF phys Y X Z bra.tensors mpo.tensors ket.tensors false (0, 0) (0, 0) (0, 0) (q, 0) (0, 0) (q, 0)) := by
  have hlen : ∀ us ∈ cart (phys.map fun ph => legIndices ph.1), us.length = mpo.tensors.length := by
    intro us hu
    rw [cart_length hu, List.length_map]
    obtain ⟨l1, l2⟩ := OpOnBonds.lengths (l := [(0, 1)]) (bonds := X ++ [[(0, 1)]]) h.op
    rw [l1, l2]
  have hwf : ∀ ph ∈ phys.map Prod.fst, ∀ c ∈ ph, Dict.WF c := by
    intro ph hp c hc
    obtain ⟨p, hp', rfl⟩ := List.mem_map.1 hp
    exact ((h.legs p hp').2.2 c (by simp [hc])).1
  unfold Mpe.expectation Mps.apply
  rcases C20_apply_tensors isF le mpo ket h.applicable hX with ⟨e, hz⟩ | ⟨ts, N, e1, e2, e3, e4, e5⟩
  · rw [e]
    simp only
    rw [sandwich_applied h0]
    congr 1
    refine (List.sum_eq_zero fun z hz' => ?_).symm
    obtain ⟨u, hu, rfl⟩ := List.mem_map.1 hz'
    rw [hz _ _ _ _ _ (hlen u hu), mul_zero]
  · rw [e1]
    simp only [hm, hk, ne_eq, not_true_eq_false, false_and, if_false]
    simp only [zero_add, one_mul] at e2 e5
    have hb : OnBonds ([(0, 1)] :: Y ++ [[(q, 1)]]) (phys.map Prod.fst) bra.conj.tensors := onBonds_conj h.bra
    rw [dot_any hb (b := ⟨ts, 0⟩) e2 (fun c hc => h.bonds c (by simp [hc])) e3 hwf (by simp), sandwich_applied h0]
    congr 1
    rw [List.map_map]
    refine sum_map_congr' _ _ _ fun us hu => ?_
    rw [(C19_conj bra).2]
    congr 1
    have := e5 0 0 0 0 us (by omega) (by omega) (by omega) (by omega) (hlen us hu)
    simpa using this

end
end Verif
