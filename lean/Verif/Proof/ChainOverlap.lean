import Verif.Proof.ChainIp
import Verif.Thm.MpsDot

/-! Inner products of chains that agree in isometric parts. -/

set_option linter.unusedSectionVars false

namespace Verif
section
variable {Q K : Type} [DecidableEq Q] [AddCommGroup Q] [CommRing K] [StarRing K]

/-- The inner product of two chains with common edges. -/
def chainIp (l r : BondInfo Q) (phys : List (List (BondInfo Q))) (B : List (BondInfo Q)) (ts : List (SpT Q K)) (B' : List (BondInfo Q)) (us : List (SpT Q K)) : K :=
  ((legBasis l).map fun x => ip (cells phys r) (fun j => chain ts B x j.1 j.2) (fun j => chain us B' x j.1 j.2)).sum

/-- A common isometry at the left end can be left out. -/
theorem chainIp_peel {l b r : BondInfo Q} (hb : Dict.WF b) {ph : List (BondInfo Q)} {phys : List (List (BondInfo Q))} {B B' : List (BondInfo Q)} {T : SpT Q K}
    {ts us : List (SpT Q K)} (hT : LeftIsometric (l :: ph) b T) :
    chainIp l r (ph :: phys) (b :: B) (T :: ts) (b :: B') (T :: us) = chainIp b r phys B ts B' us := by
  unfold chainIp
  simp only [ip_cells_cons, chain]
  rw [← legIndices_cons_sum l ph (fun w => ip (cells phys r) (fun j => ((legBasis b).map fun z => entry T (w ++ [z]) * chain ts B z j.1 j.2).sum)
    (fun j => ((legBasis b).map fun z => entry T (w ++ [z]) * chain us B' z j.1 j.2).sum)), ip_swap, ip_swap (legBasis b)]
  refine sum_map_congr' _ _ _ fun j _ => ?_
  rw [← ip_ortho (legBasis_nodup hb) hT (fun z => chain ts B z j.1 j.2) fun z => chain us B' z j.1 j.2]
  apply ip_congr <;> intro i _ <;> apply sum_map_congr' <;> intro w _ <;> rw [mul_comm]

/-- A common chain of isometries at the left end can be left out. -/
theorem chainIp_left {r : BondInfo Q} {phys : List (List (BondInfo Q))} {B B' : List (BondInfo Q)} {ts us : List (SpT Q K)} (A : List (SpT Q K)) :
    ∀ (l : BondInfo Q) (BA : List (BondInfo Q)) (physA : List (List (BondInfo Q))), BA.length = A.length → physA.length = A.length → (∀ b ∈ BA, Dict.WF b) →
      (∀ i < A.length, LeftIsometric ((l :: BA).getD i [] :: physA.getD i []) (BA.getD i []) (A.getD i [])) →
      chainIp l r (physA ++ phys) (BA ++ B) (A ++ ts) (BA ++ B') (A ++ us) = chainIp ((l :: BA).getD A.length []) r phys B ts B' us := by
  induction A with
  | nil =>
    intro l BA physA h1 h2 hw h
    obtain rfl := List.length_eq_zero_iff.1 h1
    obtain rfl := List.length_eq_zero_iff.1 h2
    rfl
  | cons T A ih =>
    intro l BA physA h1 h2 hw h
    rcases BA with _ | ⟨b, BA⟩
    · simp at h1
    rcases physA with _ | ⟨ph, physA⟩
    · simp at h2
    have h0 := h 0 (by simp)
    simp only [List.getD_cons_zero] at h0
    rw [List.cons_append, List.cons_append, List.cons_append, List.cons_append, List.cons_append, chainIp_peel (hw b (by simp)) h0,
      ih b BA physA (by simpa using h1) (by simpa using h2) (fun c hc => hw c (by simp [hc])) (fun i hi => by
        have := h (i + 1) (by simpa using hi)
        simpa only [List.getD_cons_succ] using this)]
    rfl

/-- A common chain of isometries at the right end can be left out. -/
theorem ip_right {b r : BondInfo Q} (hb : Dict.WF b) {physC : List (List (BondInfo Q))} {BC : List (BondInfo Q)} {C : List (SpT Q K)}
    (hC : Ortho (cells physC r) (legBasis b) fun z j => chain C BC z j.1 j.2) (phys : List (List (BondInfo Q))) :
    ∀ (l l' : BondInfo Q) (B B' : List (BondInfo Q)) (ts us : List (SpT Q K)), OnBonds (l :: B) phys ts → OnBonds (l' :: B') phys us →
      (l :: B).getLast? = some b → (l' :: B').getLast? = some b → ∀ x ∈ legBasis l, ∀ x' ∈ legBasis l',
      ip (cells (phys ++ physC) r) (fun j => chain (ts ++ C) (B ++ BC) x j.1 j.2) (fun j => chain (us ++ C) (B' ++ BC) x' j.1 j.2) =
        ip (cells phys b) (fun j => chain ts B x j.1 j.2) (fun j => chain us B' x' j.1 j.2) := by
  induction phys with
  | nil =>
    intro l l' B B' ts us h h' hl hl' x hx x' hx'
    rcases B with _ | ⟨c, B⟩ <;> rcases ts with _ | ⟨T, ts⟩ <;> try exact h.elim
    rcases B' with _ | ⟨c, B'⟩ <;> rcases us with _ | ⟨T, us⟩ <;> try exact h'.elim
    simp only [List.getLast?_singleton, Option.some.injEq] at hl hl'
    subst hl hl'
    simp only [List.nil_append]
    rw [hC x hx x' hx']
    unfold ip
    rw [cells_nil_sum]
    simp only [chain]
    rw [sum_map_congr' _ _ (fun y => if y = x then (if x' = x then (1 : K) else 0) else 0) (fun y _ => by
      by_cases e : x = y
      · subst e; simp
      · simp [e, Ne.symm e])]
    rw [sum_map_ite_eq' _ (legBasis_nodup hb), if_pos hx]
    by_cases e : x = x' <;> simp [e, eq_comm]
  | cons ph phys ih =>
    intro l l' B B' ts us h h' hl hl' x hx x' hx'
    rcases B with _ | ⟨c, B⟩ <;> rcases ts with _ | ⟨T, ts⟩ <;> try exact h.elim
    rcases B' with _ | ⟨c', B'⟩ <;> rcases us with _ | ⟨T', us⟩ <;> try exact h'.elim
    simp only [List.cons_append, ip_cells_cons, chain]
    refine sum_map_congr' _ _ _ fun p _ => ?_
    rw [ip_sums, ip_sums]
    refine sum_map_congr' _ _ _ fun z hz => sum_map_congr' _ _ _ fun z' hz' => ?_
    rw [ih c c' B B' ts us h.2 h'.2 (by simpa using hl) (by simpa using hl') z hz z' hz']

end
end Verif
