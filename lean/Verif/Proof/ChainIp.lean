import Verif.Thm.Trunc
import Verif.Thm.Canon
import Verif.Spec.Svd

/-! Chains of site tensors as families of vectors. -/

set_option linter.unusedSectionVars false

namespace Verif
section
variable {Q K : Type} [DecidableEq Q]

/-- The amplitude of a chain; `bs` are the bonds behind each site. -/
def chain [Zero K] [One K] [Add K] [Mul K] : List (SpT Q K) → List (BondInfo Q) → Q × Nat → List (List (Q × Nat)) → Q × Nat → K
  | [], _, w, [], y => if w = y then 1 else 0
  | T :: ts, b :: bs, w, p :: ps, y => ((legBasis b).map fun z => entry T (w :: p ++ [z]) * chain ts bs z ps y).sum
  | _, _, _, _, _ => 0

/-- The basis of the physical legs and the right edge. -/
def cells (phys : List (List (BondInfo Q))) (r : BondInfo Q) : List (List (List (Q × Nat)) × (Q × Nat)) :=
  (cart (phys.map legIndices)).flatMap fun ps => (legBasis r).map fun y => (ps, y)

theorem cells_sum [AddCommMonoid K] (phys : List (List (BondInfo Q))) (r : BondInfo Q) (f : List (List (Q × Nat)) × (Q × Nat) → K) :
    ((cells phys r).map f).sum = ((cart (phys.map legIndices)).map fun ps => ((legBasis r).map fun y => f (ps, y)).sum).sum := by
  unfold cells
  rw [sum_flatMap']
  simp only [List.map_map]
  rfl

theorem cells_nil_sum [AddCommMonoid K] (r : BondInfo Q) (f : List (List (Q × Nat)) × (Q × Nat) → K) :
    ((cells [] r).map f).sum = ((legBasis r).map fun y => f ([], y)).sum := by
  rw [cells_sum]
  simp [cart]

theorem cells_cons_sum [AddCommMonoid K] (ph : List (BondInfo Q)) (phys : List (List (BondInfo Q))) (r : BondInfo Q)
    (f : List (List (Q × Nat)) × (Q × Nat) → K) :
    ((cells (ph :: phys) r).map f).sum = ((legIndices ph).map fun p => ((cells phys r).map fun j => f (p :: j.1, j.2)).sum).sum := by
  rw [cells_sum, List.map_cons, cart, sum_flatMap']
  apply sum_map_congr'
  intro p _
  rw [cells_sum, List.map_map]
  rfl

theorem mem_cells {phys : List (List (BondInfo Q))} {r : BondInfo Q} {j : List (List (Q × Nat)) × (Q × Nat)} (h : j ∈ cells phys r) :
    List.Forall₂ (fun (p : List (Q × Nat)) ph => p ∈ legIndices ph) j.1 phys ∧ j.2 ∈ legBasis r := by
  unfold cells at h
  simp only [List.mem_flatMap, List.mem_map] at h
  obtain ⟨ps, h1, y, h2, rfl⟩ := h
  refine ⟨?_, h2⟩
  have := (mem_cart _ _).1 h1
  simp only
  clear h1
  induction phys generalizing ps with
  | nil => cases this; exact .nil
  | cons ph phys ih =>
    rw [List.map_cons] at this
    cases this with
    | cons a b => exact .cons a (ih _ b)

theorem chain_eq_ampl [Zero Q] [CommSemiring K] {r : BondInfo Q} (hr : Dict.WF r) {ts : List (SpT Q K)} {l : BondInfo Q} {X : List (BondInfo Q)}
    {phys : List (List (BondInfo Q))} (h : OnBonds (l :: X ++ [r]) phys ts) {ps : List (List (Q × Nat))} (hps : ps.length = phys.length)
    (x : Q × Nat) {y : Q × Nat} (hy : y ∈ legBasis r) : chain ts (X ++ [r]) x ps y = ampl ts X x ps y := by
  induction X generalizing l phys ts x ps with
  | nil =>
    rcases phys with _ | ⟨ph, phys⟩
    · exact h.elim
    rcases ts with _ | ⟨T, ts⟩
    · exact h.elim
    have h2 := h.2
    rcases phys with _ | ⟨ph', phys⟩
    swap
    · exact h2.elim
    rcases ts with _ | ⟨T', ts⟩
    swap
    · exact h2.elim
    obtain ⟨p, rfl⟩ := List.length_eq_one_iff.1 hps
    simp only [List.nil_append, chain, ampl]
    rw [sum_map_congr' _ _ (fun z => if z = y then entry T (x :: p ++ [z]) else 0) (fun z _ => by
      by_cases e : z = y <;> simp [e])]
    rw [sum_map_ite_eq' _ (legBasis_nodup hr), if_pos hy]
  | cons b X ih =>
    rcases phys with _ | ⟨ph, phys⟩
    · exact h.elim
    rcases ts with _ | ⟨T, ts⟩
    · exact h.elim
    rcases ps with _ | ⟨p, ps⟩
    · simp at hps
    rw [ampl_cons]
    simp only [List.cons_append, chain]
    apply sum_map_congr'
    intro z _
    rw [ih h.2 (by simpa using hps)]

end

/-! ### Inner products -/

section
variable {K α β γ : Type} [CommRing K] [StarRing K]

/-- The inner product of two vectors. -/
def ip (J : List α) (f g : α → K) : K := (J.map fun j => star (f j) * g j).sum

theorem ip_add (J : List α) (f f' g g' : α → K) :
    ip J (fun j => f j + f' j) (fun j => g j + g' j) = ip J f g + ip J f g' + (ip J f' g + ip J f' g') := by
  unfold ip
  rw [← sum_map_add', ← sum_map_add', ← sum_map_add']
  apply sum_map_congr'
  intro j _
  rw [star_add]
  ring

theorem ip_star (J : List α) (f g : α → K) : star (ip J f g) = ip J g f := by
  unfold ip
  rw [star_sum_list]
  apply sum_map_congr'
  intro j _
  rw [star_mul', star_star, mul_comm]

theorem ip_congr {J : List α} {f f' g g' : α → K} (hf : ∀ j ∈ J, f j = f' j) (hg : ∀ j ∈ J, g j = g' j) : ip J f g = ip J f' g' := by
  unfold ip
  apply sum_map_congr'
  intro j hj
  rw [hf j hj, hg j hj]

theorem ip_sums (J : List α) (Z : List β) (W : List γ) (a : β → K) (b : γ → K) (A : β → α → K) (B : γ → α → K) :
    ip J (fun j => (Z.map fun z => a z * A z j).sum) (fun j => (W.map fun w => b w * B w j).sum) =
      (Z.map fun z => (W.map fun w => star (a z) * b w * ip J (A z) (B w)).sum).sum := by
  unfold ip
  rw [sum_map_congr' _ _ _ (fun j _ => by rw [star_sum_list, mul_sums])]
  rw [sum_comm']
  apply sum_map_congr'
  intro z _
  rw [sum_comm']
  apply sum_map_congr'
  intro w _
  rw [← sum_map_mul_left']
  apply sum_map_congr'
  intro j _
  rw [star_mul']
  ring

/-- A family of orthonormal vectors. -/
def Ortho [DecidableEq β] (J : List α) (Z : List β) (A : β → α → K) : Prop := ∀ z ∈ Z, ∀ z' ∈ Z, ip J (A z) (A z') = if z = z' then 1 else 0

theorem ip_ortho [DecidableEq β] {J : List α} {Z : List β} (hZ : Z.Nodup) {A : β → α → K} (h : Ortho J Z A) (a b : β → K) :
    ip J (fun j => (Z.map fun z => a z * A z j).sum) (fun j => (Z.map fun z => b z * A z j).sum) = ip Z a b := by
  rw [ip_sums]
  unfold ip at *
  apply sum_map_congr'
  intro z hz
  rw [sum_map_congr' _ _ (fun w => if w = z then star (a z) * b w else 0) (fun w hw => by
    have := h z hz w hw
    unfold ip at this
    rw [this]
    by_cases e : z = w
    · simp [e]
    · simp [e, Ne.symm e])]
  rw [sum_map_ite_eq' _ hZ, if_pos hz]

end

section
variable {K ι α β γ : Type} [CommRing K] [StarRing K]

theorem ip_swap (I : List ι) (J : List α) (f g : ι → α → K) : (I.map fun i => ip J (f i) (g i)).sum = (J.map fun j => ip I (fun i => f i j) (fun i => g i j)).sum := by
  unfold ip
  exact sum_comm' I J _

/-- Two orthogonal contributions: one with orthonormal vectors on the right, one with orthonormal vectors on the left. -/
theorem pythagoras_left [DecidableEq β] [DecidableEq γ] {I : List ι} {J : List α} {Z : List β} {W : List γ} (hZ : Z.Nodup) (hW : W.Nodup)
    (D : ι → β → K) (A : β → α → K) (L : ι → γ → K) (C : γ → α → K) (hA : Ortho J Z A) (hL : Ortho I W fun w i => L i w)
    (horth : ∀ z ∈ Z, ∀ w ∈ W, (I.map fun i => star (D i z) * L i w).sum = 0) :
    (I.map fun i => ip J (fun j => (Z.map fun z => D i z * A z j).sum + (W.map fun w => L i w * C w j).sum)
      (fun j => (Z.map fun z => D i z * A z j).sum + (W.map fun w => L i w * C w j).sum)).sum =
      (I.map fun i => ip Z (D i) (D i)).sum + (W.map fun w => ip J (C w) (C w)).sum := by
  have h1 : (I.map fun i => ip J (fun j => (Z.map fun z => D i z * A z j).sum) (fun j => (Z.map fun z => D i z * A z j).sum)).sum =
      (I.map fun i => ip Z (D i) (D i)).sum := by
    apply sum_map_congr'
    intro i _
    exact ip_ortho hZ hA _ _
  have h4 : (I.map fun i => ip J (fun j => (W.map fun w => L i w * C w j).sum) (fun j => (W.map fun w => L i w * C w j).sum)).sum =
      (W.map fun w => ip J (C w) (C w)).sum := by
    rw [ip_swap, ip_swap W J]
    apply sum_map_congr'
    intro j _
    rw [← ip_ortho hW hL (fun w => C w j) (fun w => C w j)]
    apply ip_congr <;> intro i _ <;> apply sum_map_congr' <;> intro w _ <;> rw [mul_comm]
  have h2 : (I.map fun i => ip J (fun j => (Z.map fun z => D i z * A z j).sum) (fun j => (W.map fun w => L i w * C w j).sum)).sum = 0 := by
    rw [sum_map_congr' _ _ _ (fun i _ => ip_sums J Z W (D i) (L i) A C)]
    rw [sum_comm']
    apply sum_map_zero'
    intro z hz
    rw [sum_comm']
    apply sum_map_zero'
    intro w hw
    rw [sum_map_mul_right', horth z hz w hw, zero_mul]
  have h3 : (I.map fun i => ip J (fun j => (W.map fun w => L i w * C w j).sum) (fun j => (Z.map fun z => D i z * A z j).sum)).sum = 0 := by
    have := congrArg star h2
    rw [star_zero, star_sum_list] at this
    rw [← this]
    apply sum_map_congr'
    intro i _
    rw [ip_star]
  rw [sum_map_congr' _ _ _ (fun i _ => ip_add J _ _ _ _), sum_map_add', sum_map_add', sum_map_add', h1, h2, h3, h4]
  ring

/-- Two orthogonal contributions behind the same isometry. -/
theorem pythagoras_right [DecidableEq β] {I : List ι} {J : List α} {Z : List β} (hZ : Z.Nodup) (L : ι → β → K) (E F : β → α → K)
    (hL : Ortho I Z fun z i => L i z) (horth : ∀ z ∈ Z, ip J (E z) (F z) = 0) :
    (I.map fun i => ip J (fun j => (Z.map fun z => L i z * (E z j + F z j)).sum) (fun j => (Z.map fun z => L i z * (E z j + F z j)).sum)).sum =
      (Z.map fun z => ip J (E z) (E z)).sum + (Z.map fun z => ip J (F z) (F z)).sum := by
  have h4 : (I.map fun i => ip J (fun j => (Z.map fun z => L i z * (E z j + F z j)).sum) (fun j => (Z.map fun z => L i z * (E z j + F z j)).sum)).sum =
      (Z.map fun z => ip J (fun j => E z j + F z j) (fun j => E z j + F z j)).sum := by
    rw [ip_swap, ip_swap Z J]
    apply sum_map_congr'
    intro j _
    rw [← ip_ortho hZ hL (fun z => E z j + F z j) (fun z => E z j + F z j)]
    apply ip_congr <;> intro i _ <;> apply sum_map_congr' <;> intro w _ <;> rw [mul_comm]
  rw [h4, ← sum_map_add']
  apply sum_map_congr'
  intro z hz
  rw [ip_add, horth z hz, ← ip_star J (E z) (F z), horth z hz, star_zero]
  ring

end

section
variable {Q K : Type} [DecidableEq Q] [CommRing K] [StarRing K]

theorem rightIsometric_ortho {m : BondInfo Q} {legs : List (BondInfo Q)} {T : SpT Q K} :
    RightIsometric m legs T ↔ Ortho (legIndices legs) (legBasis m) fun z x => entry T (z :: x) := Iff.rfl

theorem leftIsometric_ortho {m : BondInfo Q} {legs : List (BondInfo Q)} {T : SpT Q K} :
    LeftIsometric legs m T ↔ Ortho (legIndices legs) (legBasis m) fun z x => entry T (x ++ [z]) := Iff.rfl

/-- Every site is an isometry to the left. -/
def RightChain : List (BondInfo Q) → List (List (BondInfo Q)) → List (SpT Q K) → Prop
  | l :: r :: bonds, ph :: phys, T :: ts => RightIsometric l (ph ++ [r]) T ∧ RightChain (r :: bonds) phys ts
  | _, _, _ => True

theorem ip_cells_cons (ph : List (BondInfo Q)) (phys : List (List (BondInfo Q))) (r : BondInfo Q)
    (f g : List (List (Q × Nat)) × (Q × Nat) → K) :
    ip (cells (ph :: phys) r) f g = ((legIndices ph).map fun p => ip (cells phys r) (fun j => f (p :: j.1, j.2)) (fun j => g (p :: j.1, j.2))).sum :=
  cells_cons_sum ph phys r _

theorem legIndices_snoc_sum (ph : List (BondInfo Q)) (b : BondInfo Q) (f : List (Q × Nat) → K) :
    ((legIndices (ph ++ [b])).map f).sum = ((legIndices ph).map fun p => ((legBasis b).map fun z => f (p ++ [z])).sum).sum := by
  unfold legIndices
  induction ph generalizing f with
  | nil =>
    simp only [List.nil_append, List.map_cons, List.map_nil, cart, sum_flatMap', List.map_map, Function.comp_def, List.sum_cons, List.sum_nil, add_zero]
  | cons c ph ih =>
    simp only [List.cons_append, List.map_cons, cart, sum_flatMap', List.map_map, Function.comp_def]
    apply sum_map_congr'
    intro a _
    exact ih _

/-- A chain of isometries is an isometry. -/
theorem rightChain_ortho {r l : BondInfo Q} {B : List (BondInfo Q)} {phys : List (List (BondInfo Q))} {ts : List (SpT Q K)}
    (hlast : (l :: B).getLast? = some r) (hon : OnBonds (l :: B) phys ts) (hw : ∀ b ∈ l :: B, Dict.WF b) (h : RightChain (l :: B) phys ts) :
    Ortho (cells phys r) (legBasis l) fun z j => chain ts B z j.1 j.2 := by
  induction B generalizing l phys ts with
  | nil =>
    simp at hlast
    subst hlast
    rcases phys with _ | ⟨ph, phys⟩
    swap
    · exact hon.elim
    rcases ts with _ | ⟨T, ts⟩
    swap
    · exact hon.elim
    intro z hz z' hz'
    unfold ip
    rw [cells_nil_sum]
    simp only [chain]
    rw [sum_map_congr' _ _ (fun y => if y = z then (if z' = z then (1 : K) else 0) else 0) (fun y _ => by
      by_cases e : z = y
      · subst e; simp
      · simp [e, Ne.symm e])]
    rw [sum_map_ite_eq' _ (legBasis_nodup (hw l (by simp))), if_pos hz]
    by_cases e : z = z' <;> simp [e, eq_comm]
  | cons b B ih =>
    rcases phys with _ | ⟨ph, phys⟩
    · exact hon.elim
    rcases ts with _ | ⟨T, ts⟩
    · exact hon.elim
    have hin := ih (l := b) (by simpa using hlast) hon.2 (fun c hc => hw c (by simp [hc])) h.2
    intro z hz z' hz'
    rw [ip_cells_cons, ← h.1 z hz z' hz', legIndices_snoc_sum]
    apply sum_map_congr'
    intro p _
    simp only [chain]
    exact ip_ortho (legBasis_nodup (hw b (by simp))) hin _ _

end

section
variable {Q K : Type} [DecidableEq Q] [CommRing K]

/-- A factor on the left of the first site can be taken out of the chain. -/
theorem chain_head {b : BondInfo Q} {N T : SpT Q K} {ph : List (BondInfo Q)} {B : List (BondInfo Q)} (w : Q × Nat) (f : Q × Nat → K)
    (h : ∀ p v, p.length = ph.length → entry N (w :: p ++ [v]) = ((legBasis b).map fun z => f z * entry T (z :: p ++ [v])).sum)
    (ts : List (SpT Q K)) {p : List (Q × Nat)} (hp : p.length = ph.length) (ps : List (List (Q × Nat))) (y : Q × Nat) :
    chain (N :: ts) B w (p :: ps) y = ((legBasis b).map fun z => f z * chain (T :: ts) B z (p :: ps) y).sum := by
  cases B with
  | nil => simp [chain]
  | cons c B =>
    simp only [chain]
    rw [sum_map_congr' _ _ _ (fun v _ => by rw [h p v hp, ← sum_map_mul_right'])]
    rw [sum_comm' (legBasis c) (legBasis b)]
    apply sum_map_congr'
    intro z _
    rw [← sum_map_mul_left']
    apply sum_map_congr'
    intro v _
    ring

end
end Verif
