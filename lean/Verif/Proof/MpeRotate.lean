import Verif.Model.MpeSweep
import Verif.Proof.Hdot
import Verif.Thm.MpsDot

/-! One site of an environment: the entries of `leftRotate` and `rightRotate`. -/

set_option linter.unusedSectionVars false

namespace Verif
section
variable {Q K : Type} [DecidableEq Q] [AddCommGroup Q] [CommRing K] [StarRing K]

theorem entry_conj (T : SpT Q K) (x : List (Q × Nat)) : entry T.conj x = star (entry T x) := by
  unfold SpT.conj
  induction T with
  | nil => simp [entry_nil]
  | cons b T ih =>
    rw [List.map_cons, entry_cons, entry_cons, ih, star_add]
    congr 1
    unfold blockEntry Arr.mapK
    simp only
    split_ifs <;> simp

theorem Conforms.conj {legs : List (BondInfo Q)} {T : SpT Q K} (h : Conforms legs T) : Conforms legs T.conj := by
  intro b hb
  obtain ⟨b', hb', rfl⟩ := List.mem_map.1 hb
  exact h b' hb'

theorem EvenBlocks.conj {isF : Q → Bool} {T : SpT Q K} (h : EvenBlocks isF T) : EvenBlocks isF T.conj := by
  intro b hb
  obtain ⟨b', hb', rfl⟩ := List.mem_map.1 hb
  exact h b' hb'

theorem conj_ndim (T : SpT Q K) : T.conj.ndim = T.ndim := by
  rcases T with _ | ⟨b, T⟩ <;> rfl

/-- Where the labels of a contraction over consecutive legs come from. -/
def FromPair (n1 n n2 m1 m2 : Nat) (A B R : SpT Q K) : Prop :=
  ∀ r ∈ R, ∃ u v m u' v' : List Q, u.length = n1 ∧ v.length = n2 ∧ m.length = n ∧ u'.length = m1 ∧ v'.length = m2 ∧
    (∃ a ∈ A, a.1 = u ++ m ++ v) ∧ (∃ b ∈ B, b.1 = u' ++ m ++ v') ∧ r.1 = (u ++ v) ++ (u' ++ v')

theorem rotateKet_spec (a1 s a2 b1 b2 : List (BondInfo Q)) (hw : ∀ b ∈ s, Dict.WF b) (A : OpT Q K) (B : SpT Q K)
    (ho : Conforms (a1 ++ s ++ a2) A.odd) (he : Conforms (a1 ++ s ++ a2) A.even) (hB : Conforms (b1 ++ s ++ b2) B) :
    ∃ R, A.rotateKet B (axesAt a1.length s.length) (axesAt b1.length s.length) = some R ∧
      Conforms ((a1 ++ a2) ++ (b1 ++ b2)) R.odd ∧ Conforms ((a1 ++ a2) ++ (b1 ++ b2)) R.even ∧ UniqueLabels R.odd ∧ UniqueLabels R.even ∧
      (∀ p u v u' v', u.length = a1.length → v.length = a2.length → u'.length = b1.length → v'.length = b2.length →
        opEntry R p ((u ++ v) ++ (u' ++ v')) = ((legIndices s).map fun m => opEntry A p (u ++ m ++ v) * entry B (u' ++ m ++ v')).sum) ∧
      FromPair a1.length s.length a2.length b1.length b2.length A.odd B R.odd ∧
      FromPair a1.length s.length a2.length b1.length b2.length A.even B R.even := by
  obtain ⟨e, e1, e2, e3, e4, e5⟩ := sp_contract a1 s a2 b1 b2 hw A.even B he hB
  obtain ⟨o, o1, o2, o3, o4, o5⟩ := sp_contract a1 s a2 b1 b2 hw A.odd B ho hB
  refine ⟨⟨o, e⟩, ?_, o2, e2, o3, e3, ?_, o5, e5⟩
  · unfold OpT.rotateKet
    simp only [norm_axesAt, e1, o1, Option.bind_some, Option.map_some]
  · intro p u v u' v' h1 h2 h3 h4
    unfold opEntry
    rw [e4 u v u' v' h1 h2 h3 h4, o4 u v u' v' h1 h2 h3 h4, ← sum_map_mul_left', ← sum_map_add']
    exact sum_map_congr' _ _ _ fun m _ => by ring

theorem rotateBra_spec (a1 s a2 b1 b2 : List (BondInfo Q)) (hw : ∀ b ∈ s, Dict.WF b) (A : SpT Q K) (B : OpT Q K)
    (hA : Conforms (a1 ++ s ++ a2) A) (ho : Conforms (b1 ++ s ++ b2) B.odd) (he : Conforms (b1 ++ s ++ b2) B.even) :
    ∃ R, OpT.rotateBra A B (axesAt a1.length s.length) (axesAt b1.length s.length) = some R ∧
      Conforms ((a1 ++ a2) ++ (b1 ++ b2)) R.odd ∧ Conforms ((a1 ++ a2) ++ (b1 ++ b2)) R.even ∧ UniqueLabels R.odd ∧ UniqueLabels R.even ∧
      (∀ p u v u' v', u.length = a1.length → v.length = a2.length → u'.length = b1.length → v'.length = b2.length →
        opEntry R p ((u ++ v) ++ (u' ++ v')) = ((legIndices s).map fun m => entry A (u ++ m ++ v) * opEntry B p (u' ++ m ++ v')).sum) ∧
      FromPair a1.length s.length a2.length b1.length b2.length A B.odd R.odd ∧
      FromPair a1.length s.length a2.length b1.length b2.length A B.even R.even := by
  obtain ⟨e, e1, e2, e3, e4, e5⟩ := sp_contract a1 s a2 b1 b2 hw A B.even hA he
  obtain ⟨o, o1, o2, o3, o4, o5⟩ := sp_contract a1 s a2 b1 b2 hw A B.odd hA ho
  refine ⟨⟨o, e⟩, ?_, o2, e2, o3, e3, ?_, o5, e5⟩
  · unfold OpT.rotateBra
    simp only [norm_axesAt, e1, o1, Option.bind_some, Option.map_some]
  · intro p u v u' v' h1 h2 h3 h4
    unfold opEntry
    rw [e4 u v u' v' h1 h2 h3 h4, o4 u v u' v' h1 h2 h3 h4, ← sum_map_mul_left', ← sum_map_add']
    exact sum_map_congr' _ _ _ fun m _ => by ring

theorem opEntry_transpose {legs : List (BondInfo Q)} {A : OpT Q K} (ho : Conforms legs A.odd) (he : Conforms legs A.even) (axes : List Nat)
    (hax : axes.Perm (List.range legs.length)) (p : Bool) (x : List (Q × Nat)) (hx : x.length = legs.length) :
    opEntry (A.transpose axes) p (pick axes x) = opEntry A p x := by
  unfold opEntry
  have h1 := C14_entry legs A.even he axes hax x hx
  have h2 := C14_entry legs A.odd ho axes hax x hx
  rw [← h1, ← h2]
  rfl

theorem len1 {α : Type} {l : List α} (h : l.length = 1) : ∃ a, l = [a] := List.length_eq_one_iff.1 h

theorem len2 {α : Type} {l : List α} (h : l.length = 2) : ∃ a b, l = [a, b] := List.length_eq_two.1 h

/-- Parity of the labels that remain after an operator tensor is joined with two bosonic tensors. -/
theorem par_left (isF : Q → Bool) (b k b' k' : Q) (u d : List Q) (p : Bool) (h1 : fermParity isF ((b :: u) ++ (k :: d)) = p)
    (h2 : fermParity isF ((k :: d) ++ [k']) = false) (h3 : fermParity isF ((b :: u) ++ [b']) = false) : fermParity isF [b', k'] = p := by
  rw [fermParity_append] at h1 h2 h3
  have e : fermParity isF [b', k'] = xor (fermParity isF [b']) (fermParity isF [k']) := by
    rw [← fermParity_append]; rfl
  rw [e, ← h1]
  clear e h1
  generalize fermParity isF (b :: u) = x at *
  generalize fermParity isF (k :: d) = y at *
  generalize fermParity isF [b'] = z at *
  generalize fermParity isF [k'] = w at *
  revert x y z w; decide

/-- Entries of a left environment extended by one site. -/
theorem leftRotate_spec (isF : Q → Bool) {wl bL kL mL bR kR mR : BondInfo Q} {ups downs : List (BondInfo Q)} {L W : OpT Q K} {B T : SpT Q K}
    (hL : OpSite isF wl [bL] [kL] mL L) (hW : OpSite isF mL ups downs mR W) (hB : Conforms (bL :: ups ++ [bR]) B) (hT : Conforms (kL :: downs ++ [kR]) T)
    (eB : EvenBlocks isF B) (eT : EvenBlocks isF T) (nB : B ≠ []) (nT : T ≠ []) (hlen : ups.length = downs.length) (wm : Dict.WF mL)
    (wb : ∀ c ∈ bL :: ups, Dict.WF c) (wk : ∀ c ∈ kL :: downs, Dict.WF c) :
    ∃ R, Mpe.leftRotate isF L W B T = some R ∧ OpSite isF wl [bR] [kR] mR R ∧
      ∀ p e b' k' m', opEntry R p [e, b', k', m'] = ((legIndices (bL :: ups)).map fun bu => ((legIndices (kL :: downs)).map fun kd =>
        star (entry B (bu ++ [b'])) * (((legBasis mL).map fun m => opEntry L p [e, bu.headD (0, 0), kd.headD (0, 0), m] *
          opEntry W (xor p (isF (kd.headD (0, 0)).1)) (m :: bu.tail ++ kd.tail ++ [m'])).sum * entry T (kd ++ [k']))).sum).sum := by
  obtain ⟨R1, a1, a2, a3⟩ := hdot_site isF wm (uA := [bL]) (dA := [kL]) rfl hlen hL hW
  have nbB : B.ndim = ups.length + 2 := by rw [ndim_of_conforms hB nB]; simp
  have nbT : T.ndim = downs.length + 2 := by rw [ndim_of_conforms hT nT]; simp
  obtain ⟨R2, b1, b2, b3, b4, b5, b6, b7, b8⟩ := rotateKet_spec (wl :: bL :: ups) (kL :: downs) [mR] [] [kR] wk R1 T a2.odd a2.even hT
  have l2 : (wl :: bL :: ups ++ [mR]) ++ ([] ++ [kR]) = [wl] ++ (bL :: ups) ++ [mR, kR] := by simp
  rw [l2] at b2 b3
  obtain ⟨R3, c1, c2, c3, c4, c5, c6, c7, c8⟩ := rotateBra_spec [] (bL :: ups) [bR] [wl] [mR, kR] wb B.conj R2 hB.conj b2 b3
  have l3 : ([] ++ [bR]) ++ ([wl] ++ [mR, kR]) = [bR, wl, mR, kR] := rfl
  rw [l3] at c2 c3
  have hperm : [1, 0, 3, 2].Perm (List.range [bR, wl, mR, kR].length) := by
    show [1, 0, 3, 2].Perm [0, 1, 2, 3]
    decide
  -- labels
  have lab : ∀ (X1 X2 X3 : SpT Q K) (p : Bool), (∀ x ∈ X1, fermParity isF (physLabels x.1) = p) →
      FromPair (wl :: bL :: ups).length (kL :: downs).length [mR].length 0 1 X1 T X2 →
      FromPair 0 (bL :: ups).length 1 1 2 B.conj X2 X3 → ∀ x ∈ X3, fermParity isF (physLabels (pick [1, 0, 3, 2] x.1)) = p := by
    intro X1 X2 X3 p h1 h2 h3 x hx
    obtain ⟨u, v, m, u', v', i1, i2, i3, i4, i5, ⟨y, hy, j1⟩, ⟨z, hz, j2⟩, j3⟩ := h3 x hx
    obtain ⟨f, g, n, f', g', k1, k2, k3, k4, k5, ⟨y', hy', l1⟩, ⟨z', hz', l2⟩, l3⟩ := h2 z hz
    obtain rfl := List.length_eq_zero_iff.1 i1
    obtain rfl := List.length_eq_zero_iff.1 k4
    obtain ⟨b', rfl⟩ := len1 i2
    obtain ⟨e, rfl⟩ := len1 i4
    obtain ⟨m', k', rfl⟩ := len2 i5
    obtain ⟨m'', rfl⟩ := len1 (k2.trans rfl)
    obtain ⟨k'', rfl⟩ := len1 k5
    rcases f with _ | ⟨e', f⟩
    · simp at k1
    rcases f with _ | ⟨b, us⟩
    · simp at k1
    rcases n with _ | ⟨k, ds⟩
    · simp at k3
    have hm : e = e' ∧ m = b :: us ∧ m' = m'' ∧ k' = k'' := by
      have h := j2.symm.trans l3
      have hlm : m.length = (b :: us).length := by simp at k1 i3 ⊢; omega
      simp only [List.nil_append, List.singleton_append, List.cons_append, List.append_assoc] at h
      obtain ⟨h0, h⟩ := List.cons.inj h
      have h' : m ++ [m', k'] = (b :: us) ++ [m'', k''] := by simpa using h
      obtain ⟨h1, h2⟩ := List.append_inj h' hlm
      have h2 : m' = m'' ∧ k' = k'' := by simpa using h2
      exact ⟨h0, h1, h2.1, h2.2⟩
    obtain ⟨rfl, rfl, rfl, rfl⟩ := hm
    have q1 := h1 y' hy'
    rw [l1] at q1
    have s1 : e :: b :: us ++ k :: ds ++ [m'] = e :: (b :: us ++ k :: ds) ++ [m'] := by simp
    rw [s1, physLabels_mid] at q1
    have q2 := eT z' hz'
    rw [l2] at q2
    have q3 := eB.conj y hy
    rw [j1] at q3
    have s2 : physLabels (pick [1, 0, 3, 2] x.1) = [b', k'] := by
      rw [j3]
      have h3 : ([] ++ [b']) ++ ([e] ++ [m', k']) = [b', e, m', k'] := rfl
      rw [h3]
      simp [pick, physLabels]
    rw [s2]
    exact par_left isF b k b' k' us ds p q1 q2 q3
  refine ⟨R3.transpose [1, 0, 3, 2], ?_, ⟨?_, ?_, transpose_unique c2 c4 hperm, transpose_unique c3 c5 hperm, ?_, ?_⟩, ?_⟩
  · unfold Mpe.leftRotate
    rw [if_neg (by omega)]
    have e1 : B.ndim - 2 = ups.length := by omega
    have e2 : T.ndim - 2 = downs.length := by omega
    simp only [e1, e2, a1, Option.bind_some]
    have g1 : R1.rotateKet T ((List.range' (ups.length + 2) (downs.length + 1)).map Int.ofNat) ((List.range' 0 (downs.length + 1)).map Int.ofNat) = some R2 := b1
    have g2 : OpT.rotateBra B.conj R2 ((List.range' 0 (ups.length + 1)).map Int.ofNat) ((List.range' 1 (ups.length + 1)).map Int.ofNat) = some R3 := c1
    rw [g1, Option.bind_some, g2, Option.map_some]
  · exact C14_conforms _ _ c2 _ hperm
  · exact C14_conforms _ _ c3 _ hperm
  · intro x hx
    obtain ⟨x', hx', rfl⟩ := List.mem_map.1 hx
    exact lab R1.odd R2.odd R3.odd true a2.oddParity b7 c7 x' hx'
  · intro x hx
    obtain ⟨x', hx', rfl⟩ := List.mem_map.1 hx
    exact lab R1.even R2.even R3.even false a2.evenParity b8 c8 x' hx'
  · intro p e b' k' m'
    have h1 := opEntry_transpose c2 c3 [1, 0, 3, 2] hperm p [b', e, m', k'] rfl
    have h2 : pick [1, 0, 3, 2] [b', e, m', k'] = [e, b', k', m'] := by simp [pick]
    rw [h2] at h1
    rw [h1]
    have h3 := c6 p [] [b'] [e] [m', k'] rfl rfl rfl rfl
    have h4 : ([] ++ [b']) ++ ([e] ++ [m', k']) = [b', e, m', k'] := rfl
    rw [h4] at h3
    rw [h3]
    refine sum_map_congr' _ _ _ fun bu hbu => ?_
    have lbu := legIndices_length hbu
    rcases bu with _ | ⟨b, u⟩
    · simp at lbu
    have h5 := b6 p (e :: b :: u) [m'] [] [k'] (by simpa using lbu) rfl rfl rfl
    have h6 : (e :: b :: u ++ [m']) ++ ([] ++ [k']) = [e] ++ (b :: u) ++ [m', k'] := by simp
    rw [h6] at h5
    rw [h5, entry_conj, List.nil_append, ← sum_map_mul_left']
    refine sum_map_congr' _ _ _ fun kd hkd => ?_
    have lkd := legIndices_length hkd
    rcases kd with _ | ⟨k, d⟩
    · simp at lkd
    have h7 := a3 p e m' [b] u [k] d rfl rfl (by simpa using lbu) (by simpa using lkd)
    have h8 : e :: ([b] ++ u) ++ ([k] ++ d) ++ [m'] = e :: b :: u ++ (k :: d) ++ [m'] := by simp
    rw [h8] at h7
    rw [h7, List.nil_append]
    simp only [List.headD_cons, List.tail_cons]
    have h9 : fermParity isF ([k].map Prod.fst) = isF k.1 := by
      rw [List.map_cons, List.map_nil, fermParity_cons]
      simp [fermParity]
    rw [h9]
    rfl

/-- Entries of a right environment extended by one site. -/
theorem rightRotate_spec (isF : Q → Bool) {wr bL kL mL bR kR mR : BondInfo Q} {ups downs : List (BondInfo Q)} {R W : OpT Q K} {B T : SpT Q K}
    (hR : OpSite isF mR [bR] [kR] wr R) (hW : OpSite isF mL ups downs mR W) (hB : Conforms (bL :: ups ++ [bR]) B) (hT : Conforms (kL :: downs ++ [kR]) T)
    (eB : EvenBlocks isF B) (eT : EvenBlocks isF T) (nB : B ≠ []) (nT : T ≠ []) (hlen : ups.length = downs.length) (wm : Dict.WF mR)
    (wb : ∀ c ∈ ups ++ [bR], Dict.WF c) (wk : ∀ c ∈ downs ++ [kR], Dict.WF c) :
    ∃ R', Mpe.rightRotate isF R W B T = some R' ∧ OpSite isF mL [bL] [kL] wr R' ∧
      ∀ p m b k e, opEntry R' p [m, b, k, e] = ((legIndices ups).map fun u => ((legBasis bR).map fun b' => ((legIndices downs).map fun d =>
        ((legBasis kR).map fun k' => star (entry B (b :: u ++ [b'])) * (((legBasis mR).map fun m' => opEntry W p (m :: u ++ d ++ [m']) *
          opEntry R (xor p (fermParity isF (d.map Prod.fst))) [m', b', k', e]).sum * entry T (k :: d ++ [k']))).sum).sum).sum).sum := by
  obtain ⟨R1, a1, a2, a3⟩ := hdot_site isF wm (uB := [bR]) (dB := [kR]) hlen rfl hW hR
  have nbB : B.ndim = ups.length + 2 := by rw [ndim_of_conforms hB nB]; simp
  have nbT : T.ndim = downs.length + 2 := by rw [ndim_of_conforms hT nT]; simp
  have hB' : Conforms ([bL] ++ (ups ++ [bR]) ++ []) B := by simpa using hB
  have hT' : Conforms ([kL] ++ (downs ++ [kR]) ++ []) T := by simpa using hT
  have a2o : Conforms ((mL :: (ups ++ [bR])) ++ (downs ++ [kR]) ++ [wr]) R1.odd := a2.odd
  have a2e : Conforms ((mL :: (ups ++ [bR])) ++ (downs ++ [kR]) ++ [wr]) R1.even := a2.even
  obtain ⟨R2, b1, b2, b3, b4, b5, b6, b7, b8⟩ := rotateKet_spec (mL :: (ups ++ [bR])) (downs ++ [kR]) [wr] [kL] [] wk R1 T a2o a2e hT'
  have l2 : (mL :: (ups ++ [bR]) ++ [wr]) ++ ([kL] ++ []) = [mL] ++ (ups ++ [bR]) ++ [wr, kL] := by simp
  rw [l2] at b2 b3
  obtain ⟨R3, c1, c2, c3, c4, c5, c6, c7, c8⟩ := rotateBra_spec [bL] (ups ++ [bR]) [] [mL] [wr, kL] wb B.conj R2 hB'.conj b2 b3
  have l3 : ([bL] ++ []) ++ ([mL] ++ [wr, kL]) = [bL, mL, wr, kL] := rfl
  rw [l3] at c2 c3
  have hperm : [1, 0, 3, 2].Perm (List.range [bL, mL, wr, kL].length) := by
    show [1, 0, 3, 2].Perm [0, 1, 2, 3]
    decide
  -- labels
  have lab : ∀ (X1 X2 X3 : SpT Q K) (p : Bool), (∀ x ∈ X1, fermParity isF (physLabels x.1) = p) →
      FromPair (mL :: (ups ++ [bR])).length (downs ++ [kR]).length 1 1 0 X1 T X2 →
      FromPair 1 (ups ++ [bR]).length 0 1 2 B.conj X2 X3 → ∀ x ∈ X3, fermParity isF (physLabels (pick [1, 0, 3, 2] x.1)) = p := by
    intro X1 X2 X3 p h1 h2 h3 x hx
    obtain ⟨u, v, m, u', v', i1, i2, i3, i4, i5, ⟨y, hy, j1⟩, ⟨z, hz, j2⟩, j3⟩ := h3 x hx
    obtain ⟨f, g, n, f', g', k1, k2, k3, k4, k5, ⟨y', hy', l1⟩, ⟨z', hz', l2⟩, l3⟩ := h2 z hz
    obtain rfl := List.length_eq_zero_iff.1 i2
    obtain rfl := List.length_eq_zero_iff.1 k5
    obtain ⟨b, rfl⟩ := len1 i1
    obtain ⟨ml, rfl⟩ := len1 i4
    obtain ⟨e, k, rfl⟩ := len2 i5
    obtain ⟨e', rfl⟩ := len1 k2
    obtain ⟨k'', rfl⟩ := len1 k4
    rcases f with _ | ⟨ml', f⟩
    · simp at k1
    have hm : ml = ml' ∧ m = f ∧ e = e' ∧ k = k'' := by
      have h := j2.symm.trans l3
      have hlm : m.length = f.length := by simp at k1 i3 ⊢; omega
      simp only [List.append_nil, List.cons_append, List.append_assoc, List.nil_append] at h
      obtain ⟨h0, h⟩ := List.cons.inj h
      obtain ⟨h1, h2⟩ := List.append_inj h hlm
      have h2 : e = e' ∧ k = k'' := by simpa using h2
      exact ⟨h0, h1, h2.1, h2.2⟩
    obtain ⟨rfl, rfl, rfl, rfl⟩ := hm
    have q1 := h1 y' hy'
    rw [l1] at q1
    have s1 : ml :: m ++ n ++ [e] = ml :: (m ++ n) ++ [e] := by simp
    rw [s1, physLabels_mid] at q1
    have q2 := eT z' hz'
    rw [l2, List.append_nil] at q2
    have q3 := eB.conj y hy
    rw [j1, List.append_nil] at q3
    have s2 : physLabels (pick [1, 0, 3, 2] x.1) = [b, k] := by
      rw [j3]
      have h3 : ([b] ++ []) ++ ([ml] ++ [e, k]) = [b, ml, e, k] := rfl
      rw [h3]
      simp [pick, physLabels]
    rw [s2]
    rw [fermParity_append] at q1 q2 q3
    have e' : fermParity isF [b, k] = xor (fermParity isF [b]) (fermParity isF [k]) := by
      rw [← fermParity_append]; rfl
    rw [e', ← q1]
    clear e' q1 s2 s1
    generalize fermParity isF [b] = x at *
    generalize fermParity isF [k] = y at *
    generalize fermParity isF m = z at *
    generalize fermParity isF n = w at *
    revert q2 q3
    clear * -
    revert x y z w
    decide
  refine ⟨R3.transpose [1, 0, 3, 2], ?_, ⟨?_, ?_, transpose_unique c2 c4 hperm, transpose_unique c3 c5 hperm, ?_, ?_⟩, ?_⟩
  · unfold Mpe.rightRotate
    rw [if_neg (by omega)]
    have e1 : B.ndim - 2 = ups.length := by omega
    have e2 : T.ndim - 2 = downs.length := by omega
    simp only [e1, e2, a1, Option.bind_some]
    have z1 : (mL :: (ups ++ [bR])).length = ups.length + 2 := by simp
    have z2 : (downs ++ [kR]).length = downs.length + 1 := by simp
    have z3 : (ups ++ [bR]).length = ups.length + 1 := by simp
    rw [z1, z2] at b1
    rw [z3] at c1
    have g1 : R1.rotateKet T ((List.range' (ups.length + 2) (downs.length + 1)).map Int.ofNat) ((List.range' 1 (downs.length + 1)).map Int.ofNat) = some R2 := b1
    have g2 : OpT.rotateBra B.conj R2 ((List.range' 1 (ups.length + 1)).map Int.ofNat) ((List.range' 1 (ups.length + 1)).map Int.ofNat) = some R3 := c1
    rw [g1, Option.bind_some, g2, Option.map_some]
  · exact C14_conforms _ _ c2 _ hperm
  · exact C14_conforms _ _ c3 _ hperm
  · intro x hx
    obtain ⟨x', hx', rfl⟩ := List.mem_map.1 hx
    exact lab R1.odd R2.odd R3.odd true a2.oddParity b7 c7 x' hx'
  · intro x hx
    obtain ⟨x', hx', rfl⟩ := List.mem_map.1 hx
    exact lab R1.even R2.even R3.even false a2.evenParity b8 c8 x' hx'
  · intro p m b k e
    have h1 := opEntry_transpose c2 c3 [1, 0, 3, 2] hperm p [b, m, e, k] rfl
    have h2 : pick [1, 0, 3, 2] [b, m, e, k] = [m, b, k, e] := by simp [pick]
    rw [h2] at h1
    rw [h1]
    have h3 := c6 p [b] [] [m] [e, k] rfl rfl rfl rfl
    have h4 : ([b] ++ []) ++ ([m] ++ [e, k]) = [b, m, e, k] := rfl
    rw [h4] at h3
    rw [h3, legIndices_append_sum]
    refine sum_map_congr' _ _ _ fun u hu => ?_
    have lu := legIndices_length hu
    rw [legIndices_one_sum]
    refine sum_map_congr' _ _ _ fun b' _ => ?_
    have h5 := b6 p (m :: (u ++ [b'])) [e] [k] [] (by simpa using lu) rfl rfl rfl
    have h6 : (m :: (u ++ [b']) ++ [e]) ++ ([k] ++ []) = [m] ++ (u ++ [b']) ++ [e, k] := by simp
    rw [h6] at h5
    rw [h5, entry_conj, legIndices_append_sum, ← sum_map_mul_left']
    refine sum_map_congr' _ _ _ fun d hd => ?_
    have ld := legIndices_length hd
    rw [legIndices_one_sum, ← sum_map_mul_left']
    refine sum_map_congr' _ _ _ fun k' _ => ?_
    have h7 := a3 p m e u [b'] d [k'] lu ld rfl rfl
    rw [h7]
    simp [List.append_assoc]

end
end Verif
