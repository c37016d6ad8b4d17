import Verif.Spec.Decomp
import Verif.Proof.MpeRotate
import Verif.Thm.TensorSvd
import Verif.Proof.DensityMatrix

/-! Density matrices of states of two sites. -/

set_option linter.unusedSectionVars false

namespace Verif
namespace Decomp

section
variable {Q K : Type} [DecidableEq Q] [AddCommGroup Q]

theorem core_nil_right [Add K] [Mul K] [Zero K] (A : SpT Q K) (ia ib oa ob : List Nat) : SpT.tensordotCore A [] ia ib oa ob = [] := by
  unfold SpT.tensordotCore
  simp only [SpT.collectB, List.foldl_nil, Dict.get?]
  induction A with
  | nil => rfl
  | cons a A ih => rw [List.foldl_cons]; exact ih

/-- The last three axes, given as negative numbers. -/
theorem neg_axes [Add K] [Mul K] [Zero K] {la lb : List (BondInfo Q)} {na nb : Nat} {A B : SpT Q K} (hA : Conforms la A) (hB : Conforms lb B) (ea : la.length = na + 3)
    (eb : lb.length = nb + 3) : SpT.tensordot A B [-3, -2, -1] [-3, -2, -1] = SpT.tensordot A B (axesAt na 3) (axesAt nb 3) := by
  have norm : ∀ {T : SpT Q K} {l : List (BondInfo Q)} {n : Nat}, Conforms l T → l.length = n + 3 → T ≠ [] →
      ([-3, -2, -1] : List Int).map (SpT.normAxis T.ndim) = (axesAt n 3).map (SpT.normAxis T.ndim) := by
    intro T l n h e hne
    rw [ndim_of_conforms h hne, e]
    have e1 : SpT.normAxis (n + 3) (-3) = n := by unfold SpT.normAxis; rw [if_neg (by omega)]; omega
    have e2 : SpT.normAxis (n + 3) (-2) = n + 1 := by unfold SpT.normAxis; rw [if_neg (by omega)]; omega
    have e3 : SpT.normAxis (n + 3) (-1) = n + 2 := by unfold SpT.normAxis; rw [if_neg (by omega)]; omega
    rw [show (axesAt n 3).map (SpT.normAxis (n + 3)) = List.range' n 3 from normAxes_ofNat _ _]
    simp only [List.map_cons, List.map_nil, e1, e2, e3]
    rfl
  by_cases h1 : A = []
  · subst h1; unfold SpT.tensordot; simp [SpT.tensordotCore, axesAt]
  by_cases h2 : B = []
  · subst h2; unfold SpT.tensordot; simp [core_nil_right, axesAt]
  unfold SpT.tensordot
  rw [norm hA ea h1, norm hB eb h2]

theorem Conserves.smul [Mul K] {pat : List Bool} {dq : Q} {T : SpT Q K} (h : Conserves pat dq T) (c : K) : Conserves pat dq (T.smul c) := by
  intro b hb
  obtain ⟨b', hb', rfl⟩ := List.mem_map.1 hb
  exact h b' hb'

theorem Conforms.smul [Mul K] {legs : List (BondInfo Q)} {T : SpT Q K} (h : Conforms legs T) (c : K) : Conforms legs (T.smul c) := by
  intro b hb
  obtain ⟨b', hb', rfl⟩ := List.mem_map.1 hb
  exact h b' hb'

theorem UniqueLabels.smul [Mul K] {T : SpT Q K} (h : UniqueLabels T) (c : K) : UniqueLabels (T.smul c) := by
  unfold UniqueLabels SpT.smul at *
  rw [List.map_map]
  exact h

theorem Conserves.add [Add K] {pat : List Bool} {dq : Q} {A B : SpT Q K} (hu : UniqueLabels A) (hA : Conserves pat dq A) (hB : Conserves pat dq B) :
    Conserves pat dq (A.add B) := by
  have e : A.foldl (fun m a => Dict.set m a.1 a.2) [] = A := by simpa using foldl_set_append (m := []) A hu
  intro b hb
  unfold SpT.add at hb
  rw [e] at hb
  rcases mem_accumulate_labels _ _ _ hb with h | h
  · obtain ⟨b', hb', e⟩ := List.mem_map.1 h
    rw [← e]; exact hA b' hb'
  · obtain ⟨b', hb', e⟩ := List.mem_map.1 h
    rw [← e]; exact hB b' hb'

theorem map_id_blocks (T : SpT Q K) : (T.map fun b => (b.1, b.2.mapK id)) = T := by
  conv_rhs => rw [← List.map_id T]
  rfl

theorem stored_id (T : SpT Q K) : TSvd.stored id T = T := map_id_blocks T

theorem label_zero {e : BondInfo Q} (he : ∀ x ∈ e, x.1 = 0) {legs : List (BondInfo Q)} {qs : List Q} {sh : List Nat} (h : IsCombination legs qs sh) (i : Nat)
    (hi : legs[i]? = some e) : qs.getD i 0 = 0 := by
  induction h generalizing i with
  | nil => simp at hi
  | @cons b q n legs qs sh hb _ ih =>
    cases i with
    | zero =>
      simp only [List.getElem?_cons_zero, Option.some.injEq] at hi
      subst hi
      exact he _ (Dict.mem_of_get? hb)
    | succ i => exact ih i (by simpa using hi)

end

section
variable {Q : Type} [DecidableEq Q] [AddCommGroup Q] {e a p q b f : BondInfo Q} {dq : Q}

/-- The density matrix of the left half of a state. -/
theorem densityOf_left (hw : Window e a p q b f) {W : SpT Q ℝ} (hW : TwoSite e a p q b f dq W) :
    ∃ R, densityOf id true W = some R ∧ Conforms ([e, a, p] ++ [e, a, p]) R ∧ UniqueLabels R ∧ Conserves [false, true, true, false, false, false] 0 R ∧
      ∀ x x', x.length = 3 → x'.length = 3 → entry R (x ++ x') = ((legIndices [q, b, f]).map fun y => entry W (x ++ y) * entry W (x' ++ y)).sum := by
  have hc : Conforms ([e, a, p] ++ [q, b, f] ++ []) W := by simpa using hW.conf
  obtain ⟨R, r1, r2, r3, r4, r5⟩ := sp_contract [e, a, p] [q, b, f] [] [e, a, p] [] (fun x hx => (hw.good x (by simp at hx ⊢; tauto)).1) W.conj W hc.conj hc
  refine ⟨R, ?_, by simpa using r2, r3, ?_, ?_⟩
  · unfold densityOf
    simp only [if_true]
    rw [neg_axes hc.conj hc (na := 3) (nb := 3) rfl rfl]
    have : SpT.tensordot W.conj W (axesAt 3 3) (axesAt 3 3) = some R := r1
    rw [this, Option.map_some, map_id_blocks]
  · intro x hx
    obtain ⟨u, v, m, u', v', l1, l2, l3, l4, l5, ⟨A, hA, eA⟩, ⟨B, hB, eB⟩, e0⟩ := r5 x hx
    obtain ⟨A', hA', rfl⟩ := List.mem_map.1 hA
    have cA := hW.charge A' hA'
    have cB := hW.charge B hB
    have zA := label_zero hw.edgeL (hW.conf A' hA') 0 rfl
    have zB := label_zero hw.edgeL (hW.conf B hB) 0 rfl
    simp only at eA
    rw [e0]
    rw [eA] at cA zA
    rw [eB] at cB zB
    obtain ⟨u0, u1, u2, rfl⟩ := List.length_eq_three.1 l1
    obtain ⟨m0, m1, m2, rfl⟩ := List.length_eq_three.1 l3
    obtain ⟨w0, w1, w2, rfl⟩ := List.length_eq_three.1 l4
    obtain rfl := List.length_eq_zero_iff.1 l2
    obtain rfl := List.length_eq_zero_iff.1 l5
    simp [signedSum] at cA cB zA zB ⊢
    subst zA; subst zB
    have := cA.trans cB.symm
    simp only [zero_add, neg_zero, ← add_assoc] at this ⊢
    have h2 : u1 + u2 = w1 + w2 := by simpa using this
    rw [h2]; abel
  · intro x x' hx hx'
    have := r4 x [] x' [] hx rfl hx' rfl
    simp only [List.append_nil, entry_conj, star_trivial] at this
    exact this

/-- The density matrix of the right half of a state. -/
theorem densityOf_right (hw : Window e a p q b f) {W : SpT Q ℝ} (hW : TwoSite e a p q b f dq W) :
    ∃ R, densityOf id false W = some R ∧ Conforms ([q, b, f] ++ [q, b, f]) R ∧ UniqueLabels R ∧ Conserves [false, true, false, true, false, false] 0 R ∧
      ∀ y y', y.length = 3 → y'.length = 3 → entry R (y ++ y') = ((legIndices [e, a, p]).map fun x => entry W (x ++ y) * entry W (x ++ y')).sum := by
  have hc : Conforms ([] ++ [e, a, p] ++ [q, b, f]) W := by simpa using hW.conf
  obtain ⟨R, r1, r2, r3, r4, r5⟩ := sp_contract [] [e, a, p] [q, b, f] [] [q, b, f] (fun x hx => (hw.good x (by simp at hx ⊢; tauto)).1) W.conj W hc.conj hc
  refine ⟨R, ?_, by simpa using r2, r3, ?_, ?_⟩
  · unfold densityOf
    simp only [Bool.false_eq_true, if_false]
    have : SpT.tensordot W.conj W [0, 1, 2] [0, 1, 2] = some R := r1
    rw [this, Option.map_some, map_id_blocks]
  · intro x hx
    obtain ⟨u, v, m, u', v', l1, l2, l3, l4, l5, ⟨A, hA, eA⟩, ⟨B, hB, eB⟩, e0⟩ := r5 x hx
    obtain ⟨A', hA', rfl⟩ := List.mem_map.1 hA
    have cA := hW.charge A' hA'
    have cB := hW.charge B hB
    have zA := label_zero hw.edgeR (hW.conf A' hA') 5 rfl
    have zB := label_zero hw.edgeR (hW.conf B hB) 5 rfl
    simp only at eA
    rw [e0]
    rw [eA] at cA zA
    rw [eB] at cB zB
    obtain ⟨u0, u1, u2, rfl⟩ := List.length_eq_three.1 l2
    obtain ⟨m0, m1, m2, rfl⟩ := List.length_eq_three.1 l3
    obtain ⟨w0, w1, w2, rfl⟩ := List.length_eq_three.1 l5
    obtain rfl := List.length_eq_zero_iff.1 l1
    obtain rfl := List.length_eq_zero_iff.1 l4
    simp [signedSum] at cA cB zA zB ⊢
    subst zA; subst zB
    have := cA.trans cB.symm
    simp only [add_zero, neg_zero, add_right_inj] at this ⊢
    have h2 : u0 + -u1 = w0 + -w1 := this
    have : w0 + -w1 = u0 + -u1 := h2.symm
    calc _ = -(u0 + -u1) + (w0 + -w1) := by abel
      _ = 0 := by rw [h2]; abel
  · intro y y' hy hy'
    have := r4 [] y [] y' rfl hy rfl hy'
    simp only [List.nil_append, entry_conj, star_trivial] at this
    exact this

/-- The weighted sum of density matrices. -/
theorem densitySum_spec (fw : Bool) {legs : List (BondInfo Q)} {pat : List Bool} {n : Nat} (g : SpT Q ℝ → List (Q × Nat) → List (Q × Nat) → ℝ)
    {Ws : List (SpT Q ℝ)} {ws : List ℝ} (hne : Ws ≠ []) (hlen : ws.length = Ws.length)
    (hone : ∀ W ∈ Ws, ∃ R, densityOf id fw W = some R ∧ Conforms legs R ∧ UniqueLabels R ∧ Conserves pat 0 R ∧
      ∀ x x', x.length = n → x'.length = n → entry R (x ++ x') = g W x x') :
    ∃ R, densitySum id fw Ws ws = some R ∧ Conforms legs R ∧ UniqueLabels R ∧ Conserves pat 0 R ∧
      ∀ x x', x.length = n → x'.length = n → entry R (x ++ x') = ((Ws.zip ws).map fun p => p.2 * g p.1 x x').sum := by
  obtain ⟨W, Ws, rfl⟩ := List.exists_cons_of_ne_nil hne
  obtain ⟨w, ws, rfl⟩ := List.exists_cons_of_length_eq_add_one (n := Ws.length) (by simpa using hlen)
  obtain ⟨R, r1, r2, r3, r4, r5⟩ := hone W (by simp)
  have step : ∀ (l : List (SpT Q ℝ × ℝ)) (d : SpT Q ℝ), (∀ x ∈ l, x.1 ∈ Ws) → Conforms legs d → UniqueLabels d → Conserves pat 0 d →
      ∃ R, l.foldlM (fun d p => (densityOf id fw p.1).map fun t => d.add (t.smul p.2)) d = some R ∧ Conforms legs R ∧ UniqueLabels R ∧ Conserves pat 0 R ∧
        ∀ x x', x.length = n → x'.length = n → entry R (x ++ x') = entry d (x ++ x') + (l.map fun p => p.2 * g p.1 x x').sum := by
    intro l
    induction l with
    | nil => intro d _ h1 h2 h3; exact ⟨d, rfl, h1, h2, h3, fun _ _ _ _ => by simp⟩
    | cons y l ih =>
      intro d hl h1 h2 h3
      obtain ⟨T, t1, t2, t3, t4, t5⟩ := hone y.1 (List.mem_cons_of_mem _ (hl y (by simp)))
      obtain ⟨a1, a2, a3⟩ := C11_add legs d (T.smul y.2) h1 (Conforms.smul t2 _) h2
      obtain ⟨R, s1, s2, s3, s4, s5⟩ := ih (d.add (T.smul y.2)) (fun x hx => hl x (List.mem_cons_of_mem _ hx)) a1 a2 (Conserves.add h2 h3 (Conserves.smul t4 _))
      refine ⟨R, ?_, s2, s3, s4, ?_⟩
      · rw [List.foldlM_cons, t1]; exact s1
      · intro x x' hx hx'
        rw [s5 x x' hx hx', a3, C11_smul, t5 x x' hx hx', List.map_cons, List.sum_cons]
        ring
  obtain ⟨S, s1, s2, s3, s4, s5⟩ := step (Ws.zip ws) (R.smul w) (fun x hx => (List.of_mem_zip (a := x.1) (b := x.2) hx).1) (Conforms.smul r2 _) (UniqueLabels.smul r3 _) (Conserves.smul r4 _)
  refine ⟨S, ?_, s2, s3, s4, ?_⟩
  · have : densitySum id fw (W :: Ws) (w :: ws) = (densityOf id fw W).bind fun d =>
      (Ws.zip ws).foldlM (fun d p => (densityOf id fw p.1).map fun t => d.add (t.smul p.2)) (d.smul w) := rfl
    rw [this, r1]; exact s1
  · intro x x' hx hx'
    rw [s5 x x' hx hx', C11_smul, r5 x x' hx hx', List.zip_cons_cons, List.map_cons, List.sum_cons]

end
end Decomp
end Verif
