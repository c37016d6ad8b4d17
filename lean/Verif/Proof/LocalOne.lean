import Verif.Proof.LocalProd

/-! Two operator tensors on one state tensor, with the ends closed. -/

set_option linter.unusedSectionVars false

namespace Verif
section
variable {Q K : Type} [DecidableEq Q] [AddCommGroup Q] [CommRing K] [StarRing K]

/-- Contraction of the last legs of one tensor with the first legs of another. -/
theorem tensordotN_contract {a s b : List (BondInfo Q)} (hw : ∀ c ∈ s, Dict.WF c) {A B : SpT Q K} (hA : Conforms (a ++ s) A) (hB : Conforms (s ++ b) B) :
    ∃ R, SpT.tensordotN A B s.length = some R ∧ Conforms (a ++ b) R ∧ UniqueLabels R ∧
      (∀ u v, u.length = a.length → v.length = b.length →
        entry R (u ++ v) = ((legIndices s).map fun m => entry A (u ++ m) * entry B (m ++ v)).sum) ∧
      ∀ r ∈ R, ∃ u m v : List Q, u.length = a.length ∧ m.length = s.length ∧ v.length = b.length ∧ (∃ c ∈ A, c.1 = u ++ m) ∧ (∃ c ∈ B, c.1 = m ++ v) ∧
        r.1 = u ++ v := by
  obtain ⟨R, r1, r2, r3, r4, r5⟩ := sp_contract a s [] [] b hw A B (by simpa using hA) (by simpa using hB)
  have e : SpT.tensordotN A B s.length = SpT.tensordot A B (axesAt a.length s.length) (axesAt ([] : List (BondInfo Q)).length s.length) := by
    unfold SpT.tensordotN
    by_cases hA0 : A = []
    · subst hA0
      simp [SpT.tensordot, SpT.tensordotCore, axesAt]
    · have nA : A.ndim = a.length + s.length := by rw [ndim_of_conforms hA hA0]; simp
      have m1 : ((List.range s.length).map fun i : Nat => (i : Int) - (s.length : Int)).map (SpT.normAxis A.ndim) =
          (axesAt a.length s.length).map (SpT.normAxis A.ndim) := by
        rw [axesAt, normAxes_ofNat, List.map_map, nA, List.range'_eq_map_range]
        apply List.map_congr_left
        intro i hi
        have := List.mem_range.1 hi
        simp only [Function.comp, SpT.normAxis]
        rw [if_neg (by omega)]
        omega
      have m2 : ((List.range s.length).map fun i : Nat => (i : Int)) = axesAt ([] : List (BondInfo Q)).length s.length := by
        rw [axesAt, List.length_nil, ← List.range_eq_range']; rfl
      unfold SpT.tensordot
      simp only [m1, m2]
  refine ⟨R, e.trans r1, by simpa using r2, r3, ?_, ?_⟩
  · intro u v hu hv
    have := r4 u [] [] v hu rfl rfl hv
    simpa using this
  · intro r hr
    obtain ⟨u, v, m, u', v', e1, e2, e3, e4, e5, h1, h2, e6⟩ := r5 r hr
    obtain rfl := List.length_eq_zero_iff.1 e2
    obtain rfl := List.length_eq_zero_iff.1 e4
    exact ⟨u, m, v', e1, e3, e5, by simpa using h1, by simpa using h2, by simpa using e6⟩

theorem ones_closeL (le : Q → Q → Bool) :
    SpT.ones le [[((0 : Q), 1)], [(0, 1)], [(0, 1)]] (some [false, false, true]) none = some (oneBlock (K := K) [0, 0, 0]) := by
  simp [SpT.ones, SpT.skeleton, cart, sortBy, insertBy, BondFusingInfo.signedLabels, oneBlock]

theorem ones_closeR (le : Q → Q → Bool) :
    SpT.ones le [[((0 : Q), 1)], [(0, 1)], [(0, 1)]] (some [true, true, false]) none = some (oneBlock (K := K) [0, 0, 0]) := by
  simp [SpT.ones, SpT.skeleton, cart, sortBy, insertBy, BondFusingInfo.signedLabels, oneBlock]

theorem noBlocks_opEntry {W : OpT Q K} (h : W.noBlocks = true) (s : Bool) (x : List (Q × Nat)) : opEntry W s x = 0 := by
  unfold OpT.noBlocks at h
  simp only [Bool.and_eq_true, List.isEmpty_iff] at h
  unfold opEntry
  simp [h.1, h.2, entry_nil]

theorem noBlocks_ndim {W : OpT Q K} (h : W.noBlocks = true) : W.ndim = 0 := by
  unfold OpT.noBlocks at h
  simp only [Bool.and_eq_true, List.isEmpty_iff] at h
  unfold OpT.ndim
  simp [h.1, h.2, SpT.ndim]

theorem pdotStep_noBlocks {W : OpT Q K} (h : W.noBlocks = true) (isF : Q → Bool) (r : SpT Q K) (p : Nat) (b : Bool) :
    OpT.pdotStep isF W r p b = none := by
  unfold OpT.pdotStep
  rw [if_pos (by rw [noBlocks_ndim h]; omega)]

theorem pdotStep_empty (isF : Q → Bool) (W : OpT Q K) (p : Nat) (b : Bool) : OpT.pdotStep isF W [] p b = none ∨ OpT.pdotStep isF W [] p b = some [] := by
  have h : ∀ (A : SpT Q K) x y, SpT.tensordot A [] x y = none ∨ SpT.tensordot A [] x y = some [] := by
    intro A x y
    unfold SpT.tensordot
    dsimp only
    split_ifs
    · right
      congr 1
      unfold SpT.tensordotCore SpT.collectB
      induction A with
      | nil => rfl
      | cons a A ih => simp [Dict.get?]
    · exact Or.inl rfl
  have h2 : ∀ x y, OpT.tensordotState isF W [] x y = none ∨ OpT.tensordotState isF W [] x y = some [] := by
    intro x y
    unfold OpT.tensordotState
    dsimp only
    rcases h W.even _ _ with e | e <;> rw [e]
    · exact Or.inl rfl
    · rw [Option.bind_some]
      rcases h W.odd _ _ with e' | e' <;> rw [e']
      · exact Or.inl rfl
      · right; simp [OpT.addAliased, SpT.add]
  unfold OpT.pdotStep
  split_ifs
  · exact Or.inl rfl
  · rcases h2 ((List.range' (W.ndim / 2 - 1 + 1) (W.ndim / 2 - 1)).map Int.ofNat) ((List.range' p (W.ndim / 2 - 1)).map Int.ofNat) with e | e <;>
      simp only [e]
    · exact Or.inl rfl
    · right; rfl
  · rcases h2 ((List.range' (W.ndim / 2 - 1 + 1) (W.ndim / 2 - 1 + 1)).map Int.ofNat) ((List.range' p (W.ndim / 2 - 1 + 1)).map Int.ofNat) with e | e <;>
      simp only [e]
    · exact Or.inl rfl
    · right; rfl

/-- What the product of two operator tensors with a state tensor should be. -/
def localVal (isF : Q → Bool) (d0 d1 : List (BondInfo Q)) (m : BondInfo Q) (A0 A1 : OpT Q K) (B : SpT Q K) (u0 u1 : List (Q × Nat)) : K :=
  ((legIndices d0).map fun p => ((legIndices d1).map fun q =>
    opAmpl isF [A0, A1] [m] false (0, 0) [u0, u1] [p, q] (0, 0) * entry B ((0, 0) :: (p ++ q) ++ [(0, 0)])).sum).sum

theorem localVal_eq (isF : Q → Bool) (h0 : isF 0 = false) (d0 d1 : List (BondInfo Q)) (m : BondInfo Q) (A0 A1 : OpT Q K) (B : SpT Q K) (u0 u1 : List (Q × Nat)) :
    localVal isF d0 d1 m A0 A1 B u0 u1 = ((legIndices d0).map fun p => ((legBasis m).map fun z => opEntry A0 false ((0, 0) :: u0 ++ p ++ [z]) *
      ((legIndices d1).map fun q => opEntry A1 (fermParity isF (((0, 0) :: p).map Prod.fst)) (z :: u1 ++ q ++ [(0, 0)]) *
        entry B ((0, 0) :: p ++ q ++ [(0, 0)])).sum).sum).sum := by
  unfold localVal
  refine sum_map_congr' _ _ _ fun p _ => ?_
  have e : fermParity isF (((0, 0) :: p).map Prod.fst) = xor false (fermParity isF (p.map Prod.fst)) := by
    rw [List.map_cons, fermParity_cons, h0]
  rw [e]
  simp only [opAmpl, ← sum_map_mul_left', ← sum_map_mul_right']
  rw [sum_comm']
  refine sum_map_congr' _ _ _ fun z _ => sum_map_congr' _ _ _ fun q _ => ?_
  simp only [List.cons_append, List.append_assoc]
  ring

/-- The two operator tensors on the state tensor, before the ends are closed. -/
theorem pdot_two {isF : Q → Bool} (h0 : isF 0 = false) {u0 d0 u1 d1 : List (BondInfo Q)} {m : BondInfo Q} {A0 A1 : OpT Q K} {B : SpT Q K}
    (hA0 : OpSite isF [(0, 1)] u0 d0 m A0) (hA1 : OpSite isF m u1 d1 [(0, 1)] A1) (l0 : u0.length = d0.length) (l1 : u1.length = d1.length)
    (n0 : d0 ≠ []) (n1 : d1 ≠ []) (w0 : ∀ b ∈ d0, Dict.WF b) (w1 : ∀ b ∈ d1, Dict.WF b) (wm : Dict.WF m)
    (hB : Conforms ([(0, 1)] :: (d0 ++ d1) ++ [[(0, 1)]]) B) (eB : EvenBlocks isF B) :
    (OpT.pdotList isF [A0, A1] B = none ∧ ∀ a b, a.length = u0.length → b.length = u1.length → localVal isF d0 d1 m A0 A1 B a b = 0) ∨
      ∃ R, OpT.pdotList isF [A0, A1] B = some R ∧ Conforms ([[(0, 1)], [(0, 1)]] ++ (u0 ++ u1) ++ [[(0, 1)], [(0, 1)]]) R ∧ UniqueLabels R ∧
        ∀ a b, a.length = u0.length → b.length = u1.length →
          entry R ([(0, 0), (0, 0)] ++ (a ++ b) ++ [(0, 0), (0, 0)]) = localVal isF d0 d1 m A0 A1 B a b := by
  have hun : OpT.pdotList isF [A0, A1] B = ((OpT.pdotStep isF A1 B (1 + (A0.ndim / 2 - 1)) true).bind fun r => OpT.pdotStep isF A0 r 1 false).map
      fun r => r.transpose (some ([1, 0] ++ List.range' 2 (r.ndim - 2))) := rfl
  by_cases b0 : A0.noBlocks = true
  · left
    constructor
    · rw [hun]
      have : (fun r => OpT.pdotStep isF A0 r 1 false) = fun _ => none := by
        funext r; exact pdotStep_noBlocks b0 isF r 1 false
      rw [this]
      cases OpT.pdotStep isF A1 B (1 + (A0.ndim / 2 - 1)) true <;> rfl
    · intro a b _ _
      rw [localVal_eq isF h0]
      refine sum_map_zero' _ _ fun p _ => sum_map_zero' _ _ fun z _ => ?_
      rw [noBlocks_opEntry b0, zero_mul]
  by_cases b1 : A1.noBlocks = true
  · left
    constructor
    · rw [hun, pdotStep_noBlocks b1]; rfl
    · intro a b _ _
      rw [localVal_eq isF h0]
      refine sum_map_zero' _ _ fun p _ => sum_map_zero' _ _ fun z _ => ?_
      rw [sum_map_zero' _ _ fun q _ => by rw [noBlocks_opEntry b1, zero_mul], mul_zero]
  rw [Bool.not_eq_true] at b0 b1
  have hdim : 1 + (A0.ndim / 2 - 1) = ([(0, 1)] :: d0 : List (BondInfo Q)).length := by
    rw [opSite_ndim hA0 b0 l0, List.length_cons]; omega
  obtain ⟨R1, r1, r2, r3, r4⟩ := pdotStep_last isF (pre := [(0, 1)] :: d0) hA1 l1 n1 w1 b1 (by simpa using hB) eB
  rw [← hdim] at r1
  rw [hun, r1, Option.bind_some]
  have hval : ∀ a b, a.length = u0.length → b.length = u1.length → localVal isF d0 d1 m A0 A1 B a b =
      ((legIndices d0).map fun p => ((legBasis m).map fun z => opEntry A0 false ((0, 0) :: a ++ p ++ [z]) *
        entry R1 ([(0, 0)] ++ (p ++ [z]) ++ (b ++ [(0, 0), (0, 0)]))).sum).sum := by
    intro a b ha hb
    rw [localVal_eq isF h0]
    refine sum_map_congr' _ _ _ fun p hp => sum_map_congr' _ _ _ fun z _ => ?_
    congr 1
    have := r4 ((0, 0) :: p) z b (0, 0) (0, 0) (by simp [legIndices_length hp]) hb
    rw [show (0, 0) :: p ++ z :: b ++ [((0 : Q), 0), (0, 0)] = [(0, 0)] ++ (p ++ [z]) ++ (b ++ [(0, 0), (0, 0)]) by simp] at this
    rw [this]
  by_cases hR1 : R1 = []
  · subst hR1
    have hz : ∀ a b, a.length = u0.length → b.length = u1.length → localVal isF d0 d1 m A0 A1 B a b = 0 := by
      intro a b ha hb
      rw [hval a b ha hb]
      refine sum_map_zero' _ _ fun p _ => sum_map_zero' _ _ fun z _ => ?_
      rw [entry_nil, mul_zero]
    rcases pdotStep_empty isF A0 1 false with e | e
    · left
      exact ⟨by rw [e]; rfl, hz⟩
    · right
      rw [e]
      refine ⟨[], rfl, ?_, by simp [UniqueLabels], fun a b ha hb => by rw [hz a b ha hb, entry_nil]⟩
      intro b hb; simp at hb
  · right
    obtain ⟨R2, s1, s2, s3, s4⟩ := pdotStep_inner isF (pre := [[(0, 1)]]) (rest := u1 ++ [[(0, 1)], [(0, 1)]]) hA0 l0 n0 w0 wm b0
      (B := R1) (by simpa using r2) hR1 (by
        intro b hb
        have hc := r2 b hb
        rcases hq : b.1 with _ | ⟨q, t⟩
        · simp [fermParity]
        · rw [hq] at hc
          generalize b.2.shape = sh at hc
          cases hc with
          | cons hd _ =>
            have : q = 0 := by
              simp only [Dict.get?] at hd
              by_contra hne
              simp [Ne.symm hne] at hd
            simp [this, fermParity_cons, h0]
            rfl)
    have s1' : OpT.pdotStep isF A0 R1 1 false = some R2 := s1
    rw [s1', Option.map_some]
    have s2' : Conforms ([[(0, 1)]] ++ [[(0, 1)]] ++ (u0 ++ u1 ++ [[(0, 1)], [(0, 1)]])) R2 := by simpa using s2
    obtain ⟨t1, t2, t3, -⟩ := swap_transpose s2' s3
    have hfin : R2.transpose (some ([1, 0] ++ List.range' 2 (R2.ndim - 2))) =
        R2.transpose (some (swapAxes ([[(0, 1)]] : List (BondInfo Q)).length ([[(0, 1)]] : List (BondInfo Q)).length
          (u0 ++ u1 ++ [[(0, 1)], [(0, 1)]]).length)) := by
      by_cases h2 : R2 = []
      · rw [h2]; rfl
      · have : R2.ndim = 2 + (u0 ++ u1 ++ [[((0 : Q), 1)], [(0, 1)]]).length := by
          rw [ndim_of_conforms s2' h2]; simp; omega
        rw [this, Nat.add_sub_cancel_left]
        rfl
    rw [hfin]
    refine ⟨_, rfl, by simpa using t1, t2, ?_⟩
    intro a b ha hb
    have e1 := t3 [(0, 0)] [(0, 0)] (a ++ b ++ [(0, 0), (0, 0)]) rfl rfl (by simp [ha, hb])
    rw [show [((0 : Q), 0), (0, 0)] ++ (a ++ b) ++ [((0 : Q), 0), (0, 0)] = [(0, 0)] ++ [(0, 0)] ++ (a ++ b ++ [(0, 0), (0, 0)]) by simp, e1]
    have e2 := s4 [(0, 0)] (0, 0) a (b ++ [(0, 0), (0, 0)]) rfl ha (by simp [hb])
    rw [show [((0 : Q), 0)] ++ [(0, 0)] ++ (a ++ b ++ [(0, 0), (0, 0)]) = [(0, 0)] ++ ((0, 0) :: a) ++ (b ++ [(0, 0), (0, 0)]) by simp, e2, hval a b ha hb]
    have e3 : fermParity isF (([((0 : Q), 0)] : List (Q × Nat)).map Prod.fst) = false := by
      simp [fermParity_cons, h0]; rfl
    rw [e3]

theorem sum_edge2 (f : List (Q × Nat) → K) : ((legIndices [[((0 : Q), 1)], [(0, 1)]]).map f).sum = f [(0, 0), (0, 0)] := by
  rw [legIndices_cons_sum]
  simp [legBasis_single, legIndices_one_sum]

/-- Closing both ends. -/
theorem close_ends (le : Q → Q → Bool) {u : List (BondInfo Q)} {R : SpT Q K} (hR : Conforms ([[(0, 1)], [(0, 1)]] ++ u ++ [[(0, 1)], [(0, 1)]]) R) (hne : R ≠ []) :
    ∃ T, (R.infos.bind fun ir => if ir.length < 2 then none else
        (SpT.ones le [ir.getD 1 [], ir.getD 0 [], ir.getD 1 []] (some [false, false, true]) none).bind fun rl =>
        (SpT.ones le [ir.getD (ir.length - 2) [], ir.getD (ir.length - 1) [], ir.getD (ir.length - 1) []] (some [true, true, false]) none).bind fun rr =>
        (SpT.tensordotN rl R 2).bind fun r => SpT.tensordotN r rr 2) = some T ∧
      Conforms ([(0, 1)] :: u ++ [[(0, 1)]]) T ∧ UniqueLabels T ∧
      ∀ a, a.length = u.length → entry T ((0, 0) :: a ++ [(0, 0)]) = entry R ([(0, 0), (0, 0)] ++ a ++ [(0, 0), (0, 0)]) := by
  have g1 := (goodBond_one (0 : Q)).1
  have hws : ∀ c ∈ [[((0 : Q), 1)], [(0, 1)]], Dict.WF c := by
    intro c hc
    simp only [List.mem_cons, List.not_mem_nil, or_false, or_self] at hc
    rw [hc]; exact g1
  obtain ⟨S, s1, s2, s3, s4, -⟩ := tensordotN_contract (a := [[((0 : Q), 1)]]) (s := [[(0, 1)], [(0, 1)]]) (b := u ++ [[(0, 1)], [(0, 1)]]) hws
    (A := oneBlock (K := K) [0, 0, 0]) (B := R) (conforms_oneBlock [0, 0, 0]) (by simpa using hR)
  obtain ⟨T, t1, t2, t3, t4, -⟩ := tensordotN_contract (a := [(0, 1)] :: u) (s := [[(0, 1)], [(0, 1)]]) (b := [[((0 : Q), 1)]]) hws
    (A := S) (B := oneBlock (K := K) [0, 0, 0]) (by simpa using s2) (conforms_oneBlock [0, 0, 0])
  refine ⟨T, ?_, by simpa using t2, t3, ?_⟩
  · rw [infos_eq hR hne, Option.bind_some]
    have hlen : ([[((0 : Q), 1)], [(0, 1)]] ++ u ++ [[(0, 1)], [(0, 1)]]).length = u.length + 4 := by simp
    have hg : ∀ k < u.length + 4, ([[((0 : Q), 1)], [(0, 1)]] ++ u ++ [[(0, 1)], [(0, 1)]]).getD k [] = [(0, 1)] →
        ((List.range ([[((0 : Q), 1)], [(0, 1)]] ++ u ++ [[(0, 1)], [(0, 1)]]).length).map fun k => Verif.occ k R).getD k [] = [(0, 1)] := by
      intro k hk h
      rw [List.getD_eq_getElem?_getD, List.getElem?_map, List.getElem?_range (by omega), Option.map_some, Option.getD_some]
      exact occ_edge hR hne (by omega) h
    have hll : ((List.range ([[((0 : Q), 1)], [(0, 1)]] ++ u ++ [[(0, 1)], [(0, 1)]]).length).map fun k => Verif.occ k R).length = u.length + 4 := by
      rw [List.length_map, List.length_range, hlen]
    rw [hll, if_neg (by omega), hg 0 (by omega) rfl, hg 1 (by omega) rfl, hg (u.length + 4 - 2) (by omega) (by
        rw [show u.length + 4 - 2 = u.length + 2 by omega]; simp), hg (u.length + 4 - 1) (by omega) (by
        rw [show u.length + 4 - 1 = u.length + 3 by omega]; simp), ones_closeL, Option.bind_some, ones_closeR, Option.bind_some]
    have s1' : SpT.tensordotN (oneBlock (K := K) [0, 0, 0]) R 2 = some S := s1
    rw [s1', Option.bind_some]
    exact t1
  · intro a ha
    rw [t4 ((0, 0) :: a) [(0, 0)] (by simp [ha]) rfl, sum_edge2, entry_oneBlock, if_pos (by simp), mul_one]
    have := s4 [(0, 0)] (a ++ [(0, 0), (0, 0)]) rfl (by simp [ha])
    rw [sum_edge2, entry_oneBlock, if_pos (by simp), one_mul] at this
    rw [show (0, 0) :: a ++ [((0 : Q), 0), (0, 0)] = [(0, 0)] ++ (a ++ [(0, 0), (0, 0)]) by simp, this]
    simp

/-- Two operator tensors on the state tensor. -/
theorem applyOne_two {isF : Q → Bool} (h0 : isF 0 = false) (le : Q → Q → Bool) {u0 d0 u1 d1 : List (BondInfo Q)} {m : BondInfo Q} {A0 A1 : OpT Q K}
    {B : SpT Q K} (hA0 : OpSite isF [(0, 1)] u0 d0 m A0) (hA1 : OpSite isF m u1 d1 [(0, 1)] A1) (l0 : u0.length = d0.length) (l1 : u1.length = d1.length)
    (n0 : d0 ≠ []) (n1 : d1 ≠ []) (w0 : ∀ b ∈ d0, Dict.WF b) (w1 : ∀ b ∈ d1, Dict.WF b) (wm : Dict.WF m)
    (hB : Conforms ([(0, 1)] :: (d0 ++ d1) ++ [[(0, 1)]]) B) (eB : EvenBlocks isF B) :
    (Mps.applyOneTensors isF le [A0, A1] B = none ∧ ∀ a b, a.length = u0.length → b.length = u1.length → localVal isF d0 d1 m A0 A1 B a b = 0) ∨
      ∃ R, Mps.applyOneTensors isF le [A0, A1] B = some R ∧ Conforms ([(0, 1)] :: (u0 ++ u1) ++ [[(0, 1)]]) R ∧ UniqueLabels R ∧
        ∀ a b, a.length = u0.length → b.length = u1.length → entry R ((0, 0) :: (a ++ b) ++ [(0, 0)]) = localVal isF d0 d1 m A0 A1 B a b := by
  unfold Mps.applyOneTensors
  rcases pdot_two h0 hA0 hA1 l0 l1 n0 n1 w0 w1 wm hB eB with ⟨e, hz⟩ | ⟨R, r1, r2, r3, r4⟩
  · exact Or.inl ⟨by rw [e]; rfl, hz⟩
  · by_cases hne : R = []
    · subst hne
      left
      refine ⟨by rw [r1]; rfl, fun a b ha hb => ?_⟩
      rw [← r4 a b ha hb, entry_nil]
    · right
      obtain ⟨T, t1, t2, t3, t4⟩ := close_ends le r2 hne
      refine ⟨T, ?_, t2, t3, ?_⟩
      · rw [r1, Option.bind_some]; exact t1
      · intro a b ha hb
        rw [t4 (a ++ b) (by simp [ha, hb]), r4 a b ha hb]

end
end Verif
