import Verif.Proof.Contract
import Verif.Thm.Mps
import Verif.Model.MpsProd
import Verif.Spec.Mps

/-! C20, inner products: `np.dot` of two matrix product states. -/

set_option linter.unusedSectionVars false

namespace Verif
section
variable {Q K : Type} [DecidableEq Q] [AddCommGroup Q] [CommRing K]

theorem legIndices_cons_sum (b : BondInfo Q) (legs : List (BondInfo Q)) (f : List (Q × Nat) → K) :
    ((legIndices (b :: legs)).map f).sum = ((legBasis b).map fun x => ((legIndices legs).map fun p => f (x :: p)).sum).sum := by
  unfold legIndices
  rw [List.map_cons, cart, sum_flatMap']
  simp only [List.map_map]
  rfl

theorem legIndices_nil_sum (f : List (Q × Nat) → K) : ((legIndices ([] : List (BondInfo Q))).map f).sum = f [] := by
  simp [legIndices, cart]

theorem legIndices_one_sum (b : BondInfo Q) (f : List (Q × Nat) → K) :
    ((legIndices [b]).map f).sum = ((legBasis b).map fun x => f [x]).sum := by
  rw [legIndices_cons_sum]
  simp only [legIndices_nil_sum]

theorem sum_comm3 {α β γ : Type} (l : List α) (m : List β) (n : List γ) (f : α → β → γ → K) :
    (l.map fun a => (m.map fun b => (n.map fun c => f a b c).sum).sum).sum =
      (n.map fun c => (l.map fun a => (m.map fun b => f a b c).sum).sum).sum := by
  rw [sum_map_congr' l _ _ fun a _ => sum_comm' m n (f a)]
  exact sum_comm' l n _

/-- The sum over all configurations of the physical legs and over the right edge of the product of two amplitudes. -/
def overlap (as bs : List (SpT Q K)) (X Y : List (BondInfo Q)) (phys : List (List (BondInfo Q))) (r : BondInfo Q) (x w : Q × Nat) : K :=
  ((cart (phys.map legIndices)).map fun ps => ((legBasis r).map fun y => ampl as X x ps y * ampl bs Y w ps y).sum).sum

theorem overlap_one (A B : SpT Q K) (ph : List (BondInfo Q)) (r : BondInfo Q) (x w : Q × Nat) :
    overlap [A] [B] [] [] [ph] r x w =
      ((legIndices ph).map fun p => ((legBasis r).map fun y => entry A (x :: p ++ [y]) * entry B (w :: p ++ [y])).sum).sum := by
  unfold overlap
  have : cart ([ph].map legIndices) = (legIndices ph).map fun p => [p] := by
    simp [cart]
    induction legIndices ph with
    | nil => rfl
    | cons a t ih => simp [ih]
  rw [this, List.map_map]
  rfl

theorem overlap_cons (A B : SpT Q K) (as bs : List (SpT Q K)) (b c : BondInfo Q) (X Y : List (BondInfo Q)) (ph : List (BondInfo Q))
    (phys : List (List (BondInfo Q))) (r : BondInfo Q) (x w : Q × Nat) :
    overlap (A :: as) (B :: bs) (b :: X) (c :: Y) (ph :: phys) r x w =
      ((legBasis b).map fun z => ((legBasis c).map fun z' =>
        ((legIndices ph).map fun p => entry A (x :: p ++ [z]) * entry B (w :: p ++ [z'])).sum * overlap as bs X Y phys r z z').sum).sum := by
  unfold overlap
  rw [List.map_cons, cart, sum_flatMap']
  have e1 : ∀ z z', ((legIndices ph).map fun p => entry A (x :: p ++ [z]) * entry B (w :: p ++ [z'])).sum *
      ((cart (phys.map legIndices)).map fun ps => ((legBasis r).map fun y => ampl as X z ps y * ampl bs Y z' ps y).sum).sum =
      ((legIndices ph).map fun p => ((cart (phys.map legIndices)).map fun ps => ((legBasis r).map fun y =>
        (entry A (x :: p ++ [z]) * entry B (w :: p ++ [z'])) * (ampl as X z ps y * ampl bs Y z' ps y)).sum).sum).sum := by
    intro z z'
    rw [← sum_map_mul_right']
    refine sum_map_congr' _ _ _ fun p _ => ?_
    rw [← sum_map_mul_left']
    refine sum_map_congr' _ _ _ fun ps _ => ?_
    rw [← sum_map_mul_left']
  refine Eq.symm ((sum_map_congr' _ _ _ fun z _ => sum_map_congr' _ _ _ fun z' _ => e1 z z').trans ?_)
  rw [sum_comm3]
  refine sum_map_congr' _ _ _ fun p _ => ?_
  rw [sum_comm3, List.map_map]
  refine sum_map_congr' _ _ _ fun ps _ => ?_
  rw [sum_comm3]
  refine sum_map_congr' _ _ _ fun y _ => ?_
  rw [ampl_cons, ampl_cons, ← sum_map_mul_right']
  refine sum_map_congr' _ _ _ fun z _ => ?_
  rw [← sum_map_mul_left']
  refine sum_map_congr' _ _ _ fun z' _ => ?_
  ring

theorem item_eq {R : SpT Q K} (hR : Conforms [] R) (hu : UniqueLabels R) : SpT.item R = some (entry R []) := by
  have h : ∀ b ∈ R, b.1 = [] ∧ b.2.shape = [] := by
    intro b hb
    have := hR b hb
    generalize b.1 = q at this
    generalize b.2.shape = s at this
    cases this
    exact ⟨rfl, rfl⟩
  rcases R with _ | ⟨b, _ | ⟨c, R⟩⟩
  · rfl
  · have hb := h b (by simp)
    simp [SpT.item, hb.1, entry, blockEntry, hb.2, inBox]
  · have h1 := (h b (by simp)).1
    have h2 := (h c (by simp)).1
    simp [UniqueLabels, h1, h2] at hu

theorem ndim_ends {l r : BondInfo Q} {ph : List (BondInfo Q)} {A : SpT Q K} (hA : Conforms (l :: ph ++ [r]) A) (hne : A ≠ []) :
    A.ndim = ph.length + 2 := by
  rw [ndim_eq hA hne]; simp

/-- One site of the sweep: from the bond vectors left of it to those right of it. -/
theorem dot_step {lA lB rA rB : BondInfo Q} {ph : List (BondInfo Q)} {L A B : SpT Q K} (hL : Conforms [lA, lB] L)
    (hA : Conforms (lA :: ph ++ [rA]) A) (hB : Conforms (lB :: ph ++ [rB]) B) (wA : Dict.WF lA) (wB : Dict.WF lB) (wp : ∀ b ∈ ph, Dict.WF b) :
    ∃ R1, SpT.tensordot L A [0] [0] = some R1 ∧ Conforms (lB :: ph ++ [rA]) R1 ∧
      (∀ w p z, p.length = ph.length → entry R1 (w :: p ++ [z]) = ((legBasis lA).map fun x => entry L [x, w] * entry A (x :: p ++ [z])).sum) := by
  obtain ⟨R1, h1, h2, -, h4, -⟩ := sp_contract [] [lA] [lB] [] (ph ++ [rA]) (by simpa using wA) L A hL hA
  refine ⟨R1, h1, h2, fun w p z hp => ?_⟩
  have := h4 [] [w] [] (p ++ [z]) rfl rfl rfl (by simp [hp])
  rw [legIndices_one_sum] at this
  exact this

theorem firstAxes_eq (n : Nat) : Mps.firstAxes n = axesAt 0 n := by
  unfold Mps.firstAxes axesAt
  rw [List.range_eq_range']

/-- Contraction of all but the last legs. -/
theorem front_contract {l rA rB : BondInfo Q} {ph : List (BondInfo Q)} {A B : SpT Q K} (hA : Conforms (l :: ph ++ [rA]) A)
    (hB : Conforms (l :: ph ++ [rB]) B) (wl : Dict.WF l) (wp : ∀ b ∈ ph, Dict.WF b) :
    ∃ R, SpT.tensordot A B (Mps.firstAxes (ph.length + 1)) (Mps.firstAxes (ph.length + 1)) = some R ∧ Conforms [rA, rB] R ∧
      ∀ z z', entry R [z, z'] = ((legBasis l).map fun x => ((legIndices ph).map fun p => entry A (x :: p ++ [z]) * entry B (x :: p ++ [z'])).sum).sum := by
  obtain ⟨R, h1, h2, -, h4, -⟩ := sp_contract [] (l :: ph) [rA] [] [rB] (by
    intro b hb
    rcases List.mem_cons.1 hb with rfl | hb
    · exact wl
    · exact wp b hb) A B hA hB
  rw [firstAxes_eq]
  refine ⟨R, h1, h2, fun z z' => ?_⟩
  have := h4 [] [z] [] [z'] rfl rfl rfl rfl
  rw [legIndices_cons_sum] at this
  exact this

/-- Contraction of all legs. -/
theorem full_contract {l r : BondInfo Q} {ph : List (BondInfo Q)} {A B : SpT Q K} (hA : Conforms (l :: ph ++ [r]) A)
    (hB : Conforms (l :: ph ++ [r]) B) (wl : Dict.WF l) (wp : ∀ b ∈ ph, Dict.WF b) (wr : Dict.WF r) :
    ∃ R, SpT.tensordot A B (Mps.firstAxes (ph.length + 2)) (Mps.firstAxes (ph.length + 2)) = some R ∧
      SpT.item R = some ((legBasis l).map fun x => ((legIndices ph).map fun p =>
        ((legBasis r).map fun y => entry A (x :: p ++ [y]) * entry B (x :: p ++ [y])).sum).sum).sum := by
  obtain ⟨R, h1, h2, h3, h4, -⟩ := sp_contract [] (l :: ph ++ [r]) [] [] [] (by
    intro b hb
    rw [List.cons_append] at hb
    rcases List.mem_cons.1 hb with rfl | hb
    · exact wl
    rcases List.mem_append.1 hb with hb | hb
    · exact wp b hb
    · rw [List.mem_singleton.1 hb]; exact wr) A B (by simpa using hA) (by simpa using hB)
  rw [firstAxes_eq]
  have hlen : (l :: ph ++ [r]).length = ph.length + 2 := by simp
  rw [hlen] at h1
  refine ⟨R, h1, ?_⟩
  rw [item_eq h2 h3]
  have := h4 [] [] [] [] rfl rfl rfl rfl
  simp only [List.nil_append, List.append_nil] at this
  rw [this, List.cons_append, legIndices_cons_sum]
  simp only [legIndices_append_sum, legIndices_one_sum]
  rfl

theorem onBonds_single {l r : BondInfo Q} {phys : List (List (BondInfo Q))} {ts : List (SpT Q K)} (h : OnBonds [l, r] phys ts) :
    ∃ ph T, phys = [ph] ∧ ts = [T] ∧ Conforms (l :: ph ++ [r]) T := by
  rcases phys with _ | ⟨ph, phys⟩
  · exact h.elim
  rcases ts with _ | ⟨T, ts⟩
  · exact h.elim
  have h2 := h.2
  rcases phys with _ | ⟨ph', phys⟩ <;> rcases ts with _ | ⟨T', ts⟩ <;> simp_all [OnBonds]

theorem dotGo_spec (c : K) {X Y : List (BondInfo Q)} {phys : List (List (BondInfo Q))} {as bs : List (SpT Q K)} {lA lB r : BondInfo Q}
    (hA : OnBonds (lA :: X ++ [r]) phys as) (hB : OnBonds (lB :: Y ++ [r]) phys bs) (hlen : X.length = Y.length)
    (wA : ∀ b ∈ lA :: X, Dict.WF b) (wB : ∀ b ∈ lB :: Y, Dict.WF b) (wr : Dict.WF r) (wp : ∀ ph ∈ phys, ∀ b ∈ ph, Dict.WF b)
    (nA : ∀ T ∈ as, T ≠ []) (nB : ∀ T ∈ bs, T ≠ []) {L : SpT Q K} (hL : Conforms [lA, lB] L) :
    Mps.dotGo c (some L) as bs =
      some (((legBasis lA).map fun x => ((legBasis lB).map fun w => entry L [x, w] * overlap as bs X Y phys r x w).sum).sum + c) := by
  induction X generalizing Y phys as bs lA lB L with
  | nil =>
    obtain rfl : Y = [] := List.length_eq_zero_iff.1 hlen.symm
    obtain ⟨ph, A, rfl, rfl, cA⟩ := onBonds_single hA
    obtain ⟨ph', B, h, rfl, cB⟩ := onBonds_single hB
    obtain rfl : ph = ph' := by simpa using h
    have neA := nA A (by simp)
    have neB := nB B (by simp)
    have wpp := wp ph (by simp)
    obtain ⟨R1, e1, c1, v1⟩ := dot_step hL cA cB (wA _ (by simp)) (wB _ (by simp)) wpp
    obtain ⟨R2, e2, v2⟩ := full_contract c1 cB (wB _ (by simp)) wpp wr
    have i1 : (A.isEmpty || B.isEmpty) = false := by simp [neA, neB]
    have i2 : ¬ (A.ndim ≠ B.ndim) := by rw [ndim_ends cA neA, ndim_ends cB neB]; simp
    rw [Mps.dotGo, i1]
    simp only [Bool.false_eq_true, if_false, i2, List.isEmpty_nil, if_true]
    rw [ndim_ends cA neA, e1, Option.bind_some, e2, Option.bind_some, Mps.dotGo]
    · rw [v2]
      simp only [Option.map_some, overlap_one]
      congr 2
      simp only [← sum_map_mul_left']
      rw [sum_comm' (legBasis lA)]
      refine sum_map_congr' _ _ _ fun w _ => ?_
      rw [sum_comm' (legBasis lA)]
      refine sum_map_congr' _ _ _ fun p hp => ?_
      rw [sum_comm' (legBasis lA)]
      refine sum_map_congr' _ _ _ fun y _ => ?_
      rw [v1 w p y (legIndices_length hp), ← sum_map_mul_right']
      refine sum_map_congr' _ _ _ fun x _ => ?_
      ring
    · simp
  | cons b X ih =>
    rcases Y with _ | ⟨d, Y⟩
    · simp at hlen
    rcases phys with _ | ⟨ph, phys⟩
    · exact hA.elim
    rcases as with _ | ⟨A, as⟩
    · exact hA.elim
    rcases bs with _ | ⟨B, bs⟩
    · exact hB.elim
    obtain ⟨cA, hA⟩ := hA
    obtain ⟨cB, hB⟩ := hB
    have neA := nA A (by simp)
    have neB := nB B (by simp)
    have wpp := wp ph (by simp)
    obtain ⟨R1, e1, c1, v1⟩ := dot_step hL cA cB (wA _ (by simp)) (wB _ (by simp)) wpp
    obtain ⟨R2, e2, c2, v2⟩ := front_contract c1 cB (wB _ (by simp)) wpp
    have i1 : (A.isEmpty || B.isEmpty) = false := by simp [neA, neB]
    have i2 : ¬ (A.ndim ≠ B.ndim) := by rw [ndim_ends cA neA, ndim_ends cB neB]; simp
    have i3 : as.isEmpty = false := by
      rcases as with _ | ⟨A', as⟩
      · rcases X with _ | ⟨b', X⟩ <;> rcases phys with _ | ⟨p', phys⟩ <;> simp [OnBonds] at hA
      · rfl
    rw [Mps.dotGo, i1]
    simp only [Bool.false_eq_true, if_false, i2, i3]
    have hn : A.ndim - 1 = ph.length + 1 := by rw [ndim_ends cA neA]; omega
    rw [hn, e1, Option.bind_some, e2, Option.bind_some]
    have hrec := ih hA hB (by simpa using hlen) (fun x hx => wA x (List.mem_cons_of_mem _ hx)) (fun x hx => wB x (List.mem_cons_of_mem _ hx))
      (fun x hx => wp x (List.mem_cons_of_mem _ hx)) (fun x hx => nA x (List.mem_cons_of_mem _ hx))
      (fun x hx => nB x (List.mem_cons_of_mem _ hx)) c2
    rw [hrec]
    congr 2
    have e3 : ∀ x w, entry L [x, w] * overlap (A :: as) (B :: bs) (b :: X) (d :: Y) (ph :: phys) r x w =
        ((legBasis b).map fun z => ((legBasis d).map fun z' =>
          (entry L [x, w] * ((legIndices ph).map fun p => entry A (x :: p ++ [z]) * entry B (w :: p ++ [z'])).sum) *
            overlap as bs X Y phys r z z').sum).sum := by
      intro x w
      rw [overlap_cons, ← sum_map_mul_left']
      refine sum_map_congr' _ _ _ fun z _ => ?_
      rw [← sum_map_mul_left']
      refine sum_map_congr' _ _ _ fun z' _ => ?_
      ring
    simp only [e3]
    rw [sum_comm3 (legBasis lA) (legBasis lB) (legBasis b)]
    refine sum_map_congr' _ _ _ fun z _ => ?_
    rw [sum_comm3 (legBasis lA) (legBasis lB) (legBasis d)]
    refine sum_map_congr' _ _ _ fun z' _ => ?_
    rw [v2]
    simp only [sum_map_mul_right']
    congr 1
    rw [sum_comm' (legBasis lA)]
    refine sum_map_congr' _ _ _ fun w _ => ?_
    simp only [← sum_map_mul_left']
    rw [sum_comm' (legBasis lA)]
    refine sum_map_congr' _ _ _ fun p hp => ?_
    rw [v1 w p z (legIndices_length hp), ← sum_map_mul_right']
    refine sum_map_congr' _ _ _ fun x _ => ?_
    ring

/-- The number of sites of a chain. -/
theorem OnBonds.length {bonds : List (BondInfo Q)} {phys : List (List (BondInfo Q))} {ts : List (SpT Q K)} (h : OnBonds bonds phys ts) :
    bonds.length = ts.length + 1 ∧ phys.length = ts.length := by
  induction ts generalizing bonds phys with
  | nil =>
    rcases bonds with _ | ⟨a, _ | ⟨b, bonds⟩⟩ <;> rcases phys with _ | ⟨p, phys⟩ <;> simp_all [OnBonds]
  | cons T ts ih =>
    rcases bonds with _ | ⟨a, _ | ⟨b, bonds⟩⟩ <;> rcases phys with _ | ⟨p, phys⟩ <;> simp only [OnBonds] at h
    have := ih h.2
    simp at this ⊢
    omega

/-- C20: `np.dot` of two states on the same edges and physical legs without empty site tensors is the sum over all configurations (basis vectors
of the left edge, of the physical legs of every site and of the right edge) of the product of the amplitudes, plus the product of the
constants. -/
theorem C20_dot (l r : BondInfo Q) (X Y : List (BondInfo Q)) (phys : List (List (BondInfo Q))) (a b : Mps Q K)
    (hA : OnBonds (l :: X ++ [r]) phys a.tensors) (hB : OnBonds (l :: Y ++ [r]) phys b.tensors)
    (hw : ∀ c ∈ l :: r :: X ++ Y, Dict.WF c) (hp : ∀ ph ∈ phys, ∀ c ∈ ph, Dict.WF c)
    (nA : ∀ T ∈ a.tensors, T ≠ []) (nB : ∀ T ∈ b.tensors, T ≠ []) :
    Mps.dot a b = some (((legBasis l).map fun x => ((cart (phys.map legIndices)).map fun ps => ((legBasis r).map fun y =>
      ampl a.tensors X x ps y * ampl b.tensors Y x ps y).sum).sum).sum + a.const * b.const) := by
  have wl := hw l (by simp)
  have wr := hw r (by simp)
  have hlen : a.tensors.length = b.tensors.length := by rw [← hA.length.2, ← hB.length.2]
  have hXY : X.length = Y.length := by
    have h1 := hA.length.1
    have h2 := hB.length.1
    simp at h1 h2
    omega
  obtain ⟨as, ca⟩ := a
  obtain ⟨bs, cb⟩ := b
  simp only at hA hB nA nB hlen ⊢
  unfold Mps.dot
  rw [if_neg (by simpa using hlen)]
  simp only
  rcases X with _ | ⟨b, X⟩
  · obtain rfl : Y = [] := List.length_eq_zero_iff.1 hXY.symm
    obtain ⟨ph, A, rfl, rfl, cA⟩ := onBonds_single hA
    obtain ⟨ph', B, h, rfl, cB⟩ := onBonds_single hB
    obtain rfl : ph = ph' := by simpa using h
    have neA := nA A (by simp)
    have neB := nB B (by simp)
    obtain ⟨R, e, v⟩ := full_contract cA cB wl (hp ph (by simp)) wr
    have i1 : (A.isEmpty || B.isEmpty) = false := by simp [neA, neB]
    have i2 : ¬ (A.ndim ≠ B.ndim) := by rw [ndim_ends cA neA, ndim_ends cB neB]; simp
    rw [Mps.dotGo, i1]
    simp only [Bool.false_eq_true, if_false, i2, List.isEmpty_nil, if_true]
    rw [ndim_ends cA neA, e, Option.bind_some, Mps.dotGo]
    · rw [v]
      refine congrArg some (congrArg (· + ca * cb) ?_)
      refine sum_map_congr' _ _ _ fun x _ => ?_
      exact (overlap_one A B ph r x x).symm
    · simp
  · rcases Y with _ | ⟨d, Y⟩
    · simp at hXY
    rcases phys with _ | ⟨ph, phys⟩
    · exact hA.elim
    rcases as with _ | ⟨A, as⟩
    · exact hA.elim
    rcases bs with _ | ⟨B, bs⟩
    · exact hB.elim
    obtain ⟨cA, hA⟩ := hA
    obtain ⟨cB, hB⟩ := hB
    have neA := nA A (by simp)
    have neB := nB B (by simp)
    obtain ⟨R, e, c, v⟩ := front_contract cA cB wl (hp ph (by simp))
    have i1 : (A.isEmpty || B.isEmpty) = false := by simp [neA, neB]
    have i2 : ¬ (A.ndim ≠ B.ndim) := by rw [ndim_ends cA neA, ndim_ends cB neB]; simp
    have i3 : as.isEmpty = false := by
      rcases as with _ | ⟨A', as⟩
      · rcases X with _ | ⟨b', X⟩ <;> rcases phys with _ | ⟨p', phys⟩ <;> simp [OnBonds] at hA
      · rfl
    rw [Mps.dotGo, i1]
    simp only [Bool.false_eq_true, if_false, i2, i3]
    have hn : A.ndim - 1 = ph.length + 1 := by rw [ndim_ends cA neA]; omega
    rw [hn, e, Option.bind_some, dotGo_spec (ca * cb) hA hB (by simpa using hXY) (fun x hx => hw x (by simp at hx ⊢; tauto))
      (fun x hx => hw x (by simp at hx ⊢; tauto)) wr (fun x hx => hp x (List.mem_cons_of_mem _ hx))
      (fun x hx => nA x (List.mem_cons_of_mem _ hx)) (fun x hx => nB x (List.mem_cons_of_mem _ hx)) c]
    refine congrArg some (congrArg (· + ca * cb) ?_)
    refine Eq.trans ?_ (sum_map_congr' _ _ _ fun x _ => (overlap_cons A B as bs b d X Y ph phys r x x).symm)
    rw [sum_comm' (legBasis l)]
    refine sum_map_congr' _ _ _ fun z _ => ?_
    rw [sum_comm' (legBasis l)]
    refine sum_map_congr' _ _ _ fun z' _ => ?_
    rw [v, sum_map_mul_right']

/-- The sweep stops at an empty tensor. -/
theorem dotGo_empty (c : K) {X Y : List (BondInfo Q)} {phys : List (List (BondInfo Q))} {as bs : List (SpT Q K)} {lA lB r : BondInfo Q}
    (hA : OnBonds (lA :: X ++ [r]) phys as) (hB : OnBonds (lB :: Y ++ [r]) phys bs) (hlen : X.length = Y.length)
    (wA : ∀ b ∈ lA :: X, Dict.WF b) (wB : ∀ b ∈ lB :: Y, Dict.WF b) (wp : ∀ ph ∈ phys, ∀ b ∈ ph, Dict.WF b)
    (hn : [] ∈ as ∨ [] ∈ bs) {L : SpT Q K} (hL : Conforms [lA, lB] L) : Mps.dotGo c (some L) as bs = some 0 := by
  induction X generalizing Y phys as bs lA lB L with
  | nil =>
    obtain rfl : Y = [] := List.length_eq_zero_iff.1 hlen.symm
    obtain ⟨ph, A, rfl, rfl, cA⟩ := onBonds_single hA
    obtain ⟨ph', B, h, rfl, cB⟩ := onBonds_single hB
    have i1 : (A.isEmpty || B.isEmpty) = true := by
      rcases hn with h | h
      · simp at h; simp [← h]
      · simp at h; simp [← h]
    rw [Mps.dotGo, i1]
    simp
  | cons b X ih =>
    rcases Y with _ | ⟨d, Y⟩
    · simp at hlen
    rcases phys with _ | ⟨ph, phys⟩
    · exact hA.elim
    rcases as with _ | ⟨A, as⟩
    · exact hA.elim
    rcases bs with _ | ⟨B, bs⟩
    · exact hB.elim
    obtain ⟨cA, hA⟩ := hA
    obtain ⟨cB, hB⟩ := hB
    by_cases i1 : (A.isEmpty || B.isEmpty) = true
    · rw [Mps.dotGo, i1]
      simp
    have neA : A ≠ [] := fun h => i1 (by simp [h])
    have neB : B ≠ [] := fun h => i1 (by simp [h])
    have wpp := wp ph (by simp)
    obtain ⟨R1, e1, c1, v1⟩ := dot_step hL cA cB (wA _ (by simp)) (wB _ (by simp)) wpp
    obtain ⟨R2, e2, c2, v2⟩ := front_contract c1 cB (wB _ (by simp)) wpp
    have i2 : ¬ (A.ndim ≠ B.ndim) := by rw [ndim_ends cA neA, ndim_ends cB neB]; simp
    have i3 : as.isEmpty = false := by
      rcases as with _ | ⟨A', as⟩
      · rcases X with _ | ⟨b', X⟩ <;> rcases phys with _ | ⟨p', phys⟩ <;> simp [OnBonds] at hA
      · rfl
    rw [Bool.not_eq_true] at i1
    rw [Mps.dotGo, i1]
    simp only [Bool.false_eq_true, if_false, i2, i3]
    have hn1 : A.ndim - 1 = ph.length + 1 := by rw [ndim_ends cA neA]; omega
    rw [hn1, e1, Option.bind_some, e2, Option.bind_some]
    refine ih hA hB (by simpa using hlen) (fun x hx => wA x (List.mem_cons_of_mem _ hx)) (fun x hx => wB x (List.mem_cons_of_mem _ hx))
      (fun x hx => wp x (List.mem_cons_of_mem _ hx)) ?_ c2
    rcases hn with h | h
    · rcases List.mem_cons.1 h with h | h
      · exact absurd h.symm neA
      · exact Or.inl h
    · rcases List.mem_cons.1 h with h | h
      · exact absurd h.symm neB
      · exact Or.inr h

/-- C20: states without sites are their constants. -/
theorem C20_dot_no_sites (c d : K) : Mps.dot (⟨[], c⟩ : Mps Q K) ⟨[], d⟩ = some (c * d) := by
  simp [Mps.dot, Mps.dotGo]

/-- C20, violation: when some site tensor has no blocks `np.dot` returns 0 and the product of the constants is lost. -/
theorem C20_dot_const_lost (l r : BondInfo Q) (X Y : List (BondInfo Q)) (phys : List (List (BondInfo Q))) (a b : Mps Q K)
    (hA : OnBonds (l :: X ++ [r]) phys a.tensors) (hB : OnBonds (l :: Y ++ [r]) phys b.tensors)
    (hw : ∀ c ∈ l :: r :: X ++ Y, Dict.WF c) (hp : ∀ ph ∈ phys, ∀ c ∈ ph, Dict.WF c)
    (hn : [] ∈ a.tensors ∨ [] ∈ b.tensors) : Mps.dot a b = some 0 := by
  have wl := hw l (by simp)
  have hlen : a.tensors.length = b.tensors.length := by rw [← hA.length.2, ← hB.length.2]
  have hXY : X.length = Y.length := by
    have h1 := hA.length.1
    have h2 := hB.length.1
    simp at h1 h2
    omega
  obtain ⟨as, ca⟩ := a
  obtain ⟨bs, cb⟩ := b
  simp only at hA hB hn hlen ⊢
  unfold Mps.dot
  rw [if_neg (by simpa using hlen)]
  simp only
  rcases X with _ | ⟨b, X⟩
  · obtain rfl : Y = [] := List.length_eq_zero_iff.1 hXY.symm
    obtain ⟨ph, A, rfl, rfl, cA⟩ := onBonds_single hA
    obtain ⟨ph', B, h, rfl, cB⟩ := onBonds_single hB
    have i1 : (A.isEmpty || B.isEmpty) = true := by
      rcases hn with h | h
      · simp at h; simp [← h]
      · simp at h; simp [← h]
    rw [Mps.dotGo, i1]
    simp
  · rcases Y with _ | ⟨d, Y⟩
    · simp at hXY
    rcases phys with _ | ⟨ph, phys⟩
    · exact hA.elim
    rcases as with _ | ⟨A, as⟩
    · exact hA.elim
    rcases bs with _ | ⟨B, bs⟩
    · exact hB.elim
    obtain ⟨cA, hA⟩ := hA
    obtain ⟨cB, hB⟩ := hB
    by_cases i1 : (A.isEmpty || B.isEmpty) = true
    · rw [Mps.dotGo, i1]
      simp
    have neA : A ≠ [] := fun h => i1 (by simp [h])
    have neB : B ≠ [] := fun h => i1 (by simp [h])
    obtain ⟨R, e, c, v⟩ := front_contract cA cB wl (hp ph (by simp))
    have i2 : ¬ (A.ndim ≠ B.ndim) := by rw [ndim_ends cA neA, ndim_ends cB neB]; simp
    have i3 : as.isEmpty = false := by
      rcases as with _ | ⟨A', as⟩
      · rcases X with _ | ⟨b', X⟩ <;> rcases phys with _ | ⟨p', phys⟩ <;> simp [OnBonds] at hA
      · rfl
    rw [Bool.not_eq_true] at i1
    rw [Mps.dotGo, i1]
    simp only [Bool.false_eq_true, if_false, i2, i3]
    have hn1 : A.ndim - 1 = ph.length + 1 := by rw [ndim_ends cA neA]; omega
    rw [hn1, e, Option.bind_some]
    refine dotGo_empty (ca * cb) hA hB (by simpa using hXY) (fun x hx => hw x (by simp at hx ⊢; tauto))
      (fun x hx => hw x (by simp at hx ⊢; tauto)) (fun x hx => hp x (List.mem_cons_of_mem _ hx)) ?_ c
    rcases hn with h | h
    · rcases List.mem_cons.1 h with h | h
      · exact absurd h.symm neA
      · exact Or.inl h
    · rcases List.mem_cons.1 h with h | h
      · exact absurd h.symm neB
      · exact Or.inr h

end

section
/-- The hypotheses of `C20_dot` are met by two states with constants 4 and 6; the value. -/
example : OnBonds [[(0, 1)], [(0, 1), (1, 1)], [(1, 1)]] mpsPhys mpsA.tensors ∧ OnBonds [[(0, 1)], [(1, 1)], [(1, 1)]] mpsPhys mpsB.tensors ∧
    (∀ T ∈ mpsA.tensors, T ≠ []) ∧ ∀ T ∈ mpsB.tensors, T ≠ [] :=
  ⟨⟨by decide, by decide, trivial⟩, ⟨by decide, by decide, trivial⟩, by simp [mpsA, mpsSite], by simp [mpsB, mpsSite]⟩

example : Mps.dot mpsA mpsB = some (3 * 7 * (11 * 13) + 4 * 6) := by decide +kernel

/-- With an empty tensor the constants 4 and 6 are lost. -/
example : Mps.dot mpsA ⟨[[], mpsSite [([1, 0, 1], 13)]], 6⟩ = some 0 := by decide +kernel

end
end Verif
