import Verif.Proof.LocalOne
import Verif.Proof.MpeWindow
import Verif.Spec.MpeLocal

/-! Merging of the tensors of a window, and windows of one site. -/

set_option linter.unusedSectionVars false

namespace Verif
section
variable {Q K : Type} [DecidableEq Q] [AddCommGroup Q] [CommRing K] [StarRing K]

theorem hdot_conforms {P R : List (BondInfo Q)} {c : BondInfo Q} (hc : Dict.WF c) {A B : SpT Q K} (hA : Conforms (P ++ [c]) A) (hB : Conforms (c :: R) B) :
    ∃ N, SpT.hdot A B = some N ∧ Conforms (P ++ R) N ∧ (∀ isF, EvenBlocks isF A → EvenBlocks isF B → EvenBlocks isF N) ∧
      ∀ u v, u.length = P.length → v.length = R.length → entry N (u ++ v) = ((legBasis c).map fun z => entry A (u ++ [z]) * entry B (z :: v)).sum := by
  obtain ⟨N, n1, n2, n3, n4, n5⟩ := tensordotN_contract (a := P) (s := [c]) (b := R) (by simpa using hc) hA (by simpa using hB)
  refine ⟨N, n1, n2, ?_, ?_⟩
  · intro isF eA eB r hr
    obtain ⟨u, m, v, -, -, -, ⟨a, ha, e1⟩, ⟨b, hb, e2⟩, e3⟩ := n5 r hr
    have h1 := eA a ha
    have h2 := eB b hb
    rw [e1, fermParity_append] at h1
    rw [e2, fermParity_append] at h2
    rw [e3, fermParity_append]
    generalize fermParity isF u = x at *
    generalize fermParity isF m = y at *
    generalize fermParity isF v = z at *
    clear * - h1 h2
    revert x y z
    decide
  · intro u v hu hv
    rw [n4 u v hu hv, legIndices_one_sum]
    simp

/-- Merging from the left. -/
theorem merge_go {l r : BondInfo Q} {X : List (BondInfo Q)} : ∀ {c : BondInfo Q} {P : List (BondInfo Q)} {phys : List (List (BondInfo Q))}
    {ts : List (SpT Q K)} {A : SpT Q K}, Conforms (l :: P ++ [c]) A → OnBonds (c :: X ++ [r]) phys ts → (∀ b ∈ c :: X, Dict.WF b) →
    ∃ T, ts.foldlM SpT.hdot A = some T ∧ Conforms (l :: (P ++ phys.flatten) ++ [r]) T ∧
      (∀ isF, EvenBlocks isF A → (∀ t ∈ ts, EvenBlocks isF t) → EvenBlocks isF T) ∧
      ∀ x p ps y, p.length = P.length → List.Forall₂ (fun (p : List (Q × Nat)) ph => p.length = ph.length) ps phys →
        entry T (x :: (p ++ ps.flatten) ++ [y]) = ((legBasis c).map fun z => entry A (x :: p ++ [z]) * ampl ts X z ps y).sum := by
  induction X with
  | nil =>
    intro c P phys ts A hA hT hw
    rcases phys with _ | ⟨ph, _ | ⟨ph', phys⟩⟩
    · rcases ts with _ | ⟨t, ts⟩ <;> simp [OnBonds] at hT
    · rcases ts with _ | ⟨t, _ | ⟨t', ts⟩⟩
      · simp [OnBonds] at hT
      · obtain ⟨h1, -⟩ := hT
        obtain ⟨N, n1, n2, n3, n4⟩ := hdot_conforms (P := l :: P) (R := ph ++ [r]) (hw c (by simp)) hA (by simpa using h1)
        refine ⟨N, by simp [n1], by simpa using n2, fun isF e1 e2 => n3 isF e1 (e2 t (by simp)), ?_⟩
        intro x p ps y hp hps
        rcases ps with _ | ⟨p', _ | ⟨p'', ps⟩⟩
        · cases hps
        · cases hps with
          | cons hp' _ =>
            have := n4 (x :: p) (p' ++ [y]) (by simp [hp]) (by simp [hp'])
            rw [show x :: (p ++ [p'].flatten) ++ [y] = x :: p ++ (p' ++ [y]) by simp, this]
            refine sum_map_congr' _ _ _ fun z _ => ?_
            simp [ampl]
        · cases hps with
          | cons _ h => cases h
      · simp [OnBonds] at hT
    · rcases ts with _ | ⟨t, _ | ⟨t', ts⟩⟩ <;> simp [OnBonds] at hT
  | cons c' X ih =>
    intro c P phys ts A hA hT hw
    rcases phys with _ | ⟨ph, phys⟩
    · rcases ts with _ | ⟨t, ts⟩ <;> simp [OnBonds] at hT
    · rcases ts with _ | ⟨t, ts⟩
      · simp [OnBonds] at hT
      · obtain ⟨h1, h2⟩ := hT
        obtain ⟨N, n1, n2, n3, n4⟩ := hdot_conforms (P := l :: P) (R := ph ++ [c']) (hw c (by simp)) hA (by simpa using h1)
        obtain ⟨T, t1, t2, t3, t4⟩ := ih (c := c') (P := P ++ ph) (phys := phys) (ts := ts) (A := N) (by simpa using n2) h2
          (fun b hb => hw b (List.mem_cons_of_mem _ hb))
        refine ⟨T, by simp [n1, t1], by simpa using t2, fun isF e1 e2 => t3 isF (n3 isF e1 (e2 t (by simp))) fun t ht => e2 t (by simp [ht]), ?_⟩
        intro x p ps y hp hps
        cases hps with
        | @cons p' _ ps _ hp' hps =>
          have := t4 x (p ++ p') ps y (by simp [hp, hp']) hps
          rw [show x :: (p ++ (p' :: ps).flatten) ++ [y] = x :: (p ++ p' ++ ps.flatten) ++ [y] by simp, this]
          simp only [ampl_cons, ← sum_map_mul_left']
          rw [sum_comm']
          refine sum_map_congr' _ _ _ fun z' _ => ?_
          have h3 := n4 (x :: p) (p' ++ [z']) (by simp [hp]) (by simp [hp'])
          rw [show x :: (p ++ p') ++ [z'] = x :: p ++ (p' ++ [z']) by simp, h3, ← sum_map_mul_right']
          refine sum_map_congr' _ _ _ fun z _ => ?_
          simp only [List.cons_append]
          ring

/-- Merging: the one tensor has the amplitudes of the state. -/
theorem merge_spec {l r : BondInfo Q} {X : List (BondInfo Q)} {phys : List (List (BondInfo Q))} {m : Mps Q K} (h : OnBonds (l :: X ++ [r]) phys m.tensors)
    (hw : ∀ b ∈ X, Dict.WF b) : ∃ T, m.merge = some ⟨[T], m.const⟩ ∧ Conforms (l :: phys.flatten ++ [r]) T ∧
      (∀ isF, (∀ t ∈ m.tensors, EvenBlocks isF t) → EvenBlocks isF T) ∧
      ∀ x ps y, List.Forall₂ (fun (p : List (Q × Nat)) ph => p.length = ph.length) ps phys → entry T (x :: ps.flatten ++ [y]) = ampl m.tensors X x ps y := by
  obtain ⟨ts, c⟩ := m
  dsimp only at h
  unfold Mps.merge
  dsimp only
  rcases ts with _ | ⟨t, ts⟩
  · rcases phys with _ | ⟨ph, phys⟩ <;> rcases X with _ | ⟨b, X⟩ <;> simp [OnBonds] at h
  rcases phys with _ | ⟨ph, phys⟩
  · rcases X with _ | ⟨b, X⟩ <;> simp [OnBonds] at h
  rcases X with _ | ⟨b, X⟩
  · obtain ⟨h1, h2⟩ := h
    rcases phys with _ | ⟨ph', phys⟩
    · rcases ts with _ | ⟨t', ts⟩
      · refine ⟨t, rfl, by simpa using h1, fun isF e => e t (by simp), ?_⟩
        intro x ps y hps
        cases hps with
        | cons hp h => cases h; simp [ampl]
      · simp [OnBonds] at h2
    · rcases ts with _ | ⟨t', ts⟩ <;> simp [OnBonds] at h2
  · obtain ⟨h1, h2⟩ := h
    obtain ⟨T, t1, t2, t3, t4⟩ := merge_go (l := l) (r := r) (X := X) (c := b) (P := ph) h1 h2 hw
    refine ⟨T, by simp [t1], by simpa using t2, fun isF e => t3 isF (e t (by simp)) fun t' ht => e t' (by simp [ht]), ?_⟩
    intro x ps y hps
    cases hps with
    | cons hp hps =>
      rw [ampl_cons, List.flatten_cons, t4 x _ _ y hp hps]

/-! ### Windows of one site -/

theorem effMps_one (lid t rid : SpT Q K) :
    Mpe.effMps lid [t] rid = (SpT.tensordotN lid t 0).bind fun t' => (SpT.tensordotN t' rid 0).map fun z => ⟨[z], 0⟩ := rfl

theorem effMpo_one (isF : Q → Bool) (L w R : OpT Q K) (c : K) : Mpe.effMpo isF L [w] R c = (L.hdot isF w).bind fun w' => some ⟨[w', R], c⟩ := rfl

theorem opAmpl_pair (isF : Q → Bool) (W R : OpT Q K) (m : BondInfo Q) (a b p q : List (Q × Nat)) :
    opAmpl isF [W, R] [m] false (0, 0) [a, b] [p, q] (0, 0) =
      ((legBasis m).map fun z => opEntry W false ((0, 0) :: a ++ p ++ [z]) * opEntry R (xor false (fermParity isF (p.map Prod.fst))) (z :: b ++ q ++ [(0, 0)])).sum := by
  rw [opAmpl_cons]
  simp [opAmpl]

/-- A window of one site. -/
theorem window_one {isF : Q → Bool} (h0 : isF 0 = false) {qb qk : Q} {dq : Option Q} {ids : Mpe.Idents Q K} (hI : IdentsFor isF qb qk dq ids)
    {A C : List (NSite Q K)} {σ : NSite Q K} (h : NOk isF [(0, 1)] [(0, 1)] [(0, 1)] (A ++ σ :: C))
    (hr : rightEdge qb qk (A ++ σ :: C)) (hf : ∀ σ ∈ A ++ C, σ.full) (hg : ∀ τ ∈ A ++ σ :: C, τ.good) (c : K) :
    ∃ L R B ws T ph0 ph1 m, leftOver isF ids.lMpo A = some L ∧ rightOver isF ids.rMpo C = some R ∧
      Mpe.effMps ids.lKet [σ.T] ids.rKet = some ⟨[T], 0⟩ ∧ Mpe.effMps ids.lBra [σ.B] ids.rBra = some ⟨[B], 0⟩ ∧
      Mpe.effMpo isF L [σ.W] R c = some ⟨ws, c⟩ ∧ LocalProblem isF ph0 ph1 m B ws T ∧
      sandwichOne isF ph0 ph1 m B ws T =
        paritySign K (isF (dq.getD 0) && isF qk) * net isF (edge (qb, 0) (0, 0) (qk, 0)) (A ++ σ :: C) false (0, 0) (0, 0) (0, 0) ∧
      ((∀ τ ∈ A, τ.rb = τ.rk) → σ.ups = σ.downs → σ.rb = σ.rk → ph0.1 = ph0.2 ∧ ph1.1 = ph1.2) ∧
      ph0.2 ++ ph1.2 = ([(0, 1)] :: A.map (·.rk)).getLastD [] :: σ.downs ++ [σ.rk] ∧
      ph0.1 ++ ph1.1 = ([(0, 1)] :: A.map (·.rb)).getLastD [] :: σ.ups ++ [σ.rb] := by
  have hgA : ∀ σ ∈ A, σ.good := fun σ hσ => hg σ (by simp [hσ])
  have hg0 : σ.good := hg σ (by simp)
  have g1 : GoodBond ([(0, 1)] : BondInfo Q) := goodBond_one 0
  obtain ⟨L, lb, lm, lk, eL, sL, nL, ⟨bL, kL, jL⟩, cL⟩ := leftOver_spec isF (0, 0) hI.lSite h fun σ hσ => hf σ (by simp [hσ])
  have gl : GoodBond lb ∧ GoodBond lm ∧ GoodBond lk := by
    rcases bL with ⟨rfl, rfl, rfl⟩ | ⟨σ, hσ, rfl, rfl, rfl⟩
    · exact ⟨g1, g1, g1⟩
    · exact ⟨(hgA σ hσ).2.1, (hgA σ hσ).2.2.1, (hgA σ hσ).2.2.2.1⟩
  have hC : NOk isF σ.rb σ.rm σ.rk C := h.after
  have hx : ∀ (f : NSite Q K → BondInfo Q), ([(0, 1)] :: (A ++ σ :: C).map f).getLastD [] = (f σ :: C.map f).getLastD [] := by
    intro f
    rw [List.map_append, List.map_cons, getLastD_append_cons]
  obtain ⟨r1, r2, r3⟩ := hr
  rw [hx] at r1 r2 r3
  obtain ⟨R, eR, sR, cR⟩ := rightOver_spec isF (0, 0) hI.rSite hC r1 r2 r3 fun σ hσ => hf σ (by simp [hσ])
  obtain ⟨τ, b0, t0, w0, u0, d0, x0, y0, z0, n0, c0⟩ := first_site h0 sL nL
  obtain ⟨⟨-, -, -, hB, hW, hT, eB, eT, hlen, -⟩, -⟩ := n0
  obtain ⟨B, b1, b2, b3, b4⟩ := outer_right h0 hB eB
  obtain ⟨T, t1, t2, t3, t4⟩ := outer_right h0 hT eT
  rw [x0] at b2
  rw [z0] at t2
  rw [y0] at hW
  refine ⟨L, R, B, [τ.W, R], T, (τ.ups, τ.downs), ([σ.rb], [σ.rk]), σ.rm, eL, eR, ?_, ?_, ?_, ?_, ?_, ?_, ?_⟩
  · rw [effMps_one, hI.lKet, hI.rKet, t0, Option.bind_some, t1]; rfl
  · rw [effMps_one, hI.lBra, hI.rBra, b0, Option.bind_some, b1]; rfl
  · rw [effMpo_one, w0]; rfl
  · refine { op := ⟨hW, sR, trivial⟩, ket := by simpa using t2, ketEven := t3, bond := hg0.2.2.1, legs := ?_, bra := by simpa using b2, braEven := b3 }
    intro ph hph
    simp only [List.mem_cons, List.not_mem_nil, or_false] at hph
    rcases hph with rfl | rfl
    · refine ⟨by rw [u0]; simp, hlen, ?_⟩
      intro c hc
      simp only [u0, d0, List.mem_append, List.mem_cons] at hc
      rcases hc with (rfl | hc) | (rfl | hc)
      · exact gl.1
      · exact hg0.2.2.2.2 c (by simp [hc])
      · exact gl.2.2
      · exact hg0.2.2.2.2 c (by simp [hc])
    · refine ⟨by simp, rfl, ?_⟩
      intro c hc
      simp only [List.cons_append, List.nil_append, List.mem_cons, List.not_mem_nil, or_false] at hc
      rcases hc with rfl | rfl
      · exact hg0.2.1
      · exact hg0.2.2.2.1
  · have e1 : sandwichOne isF (τ.ups, τ.downs) ([σ.rb], [σ.rk]) σ.rm B [τ.W, R] T =
        net isF (fun s b m k => opEntry R s [m, b, k, (0, 0)]) [τ] false (0, 0) (0, 0) (0, 0) := by
      unfold sandwichOne appliedOne
      rw [net_cons]
      refine sum_map_congr' _ _ _ fun a ha => ?_
      have la := legIndices_length ha
      rw [legIndices_one_sum, x0]
      refine sum_map_congr' _ _ _ fun b _ => ?_
      rw [← sum_map_mul_left']
      refine sum_map_congr' _ _ _ fun p hp => ?_
      have lp := legIndices_length hp
      rw [legIndices_one_sum, ← sum_map_mul_left', z0]
      refine sum_map_congr' _ _ _ fun k _ => ?_
      rw [b4 ((0, 0) :: (a ++ [b])) (by simp [la]), t4 ((0, 0) :: (p ++ [k])) (by simp [lp]), opAmpl_pair, y0]
      rfl
    have hcc : net isF (fun s b m k => opEntry ids.rMpo s [m, b, k, (0, 0)]) ([τ] ++ C) false (0, 0) (0, 0) (0, 0) =
      closeLeft isF (fun s b m k => opEntry ids.rMpo s [m, b, k, (0, 0)]) lb lm lk L (0, 0) (σ :: C) := c0 _
    rw [e1, ← net_right_ident h0 hI h, ← closeLeft_ident h0 hI _ (A ++ σ :: C), cL, ← hcc, net_append]
    exact net_congr isF _ (fun s b m k => cR s b m k) _ _ _ _
  · intro hA hw h1
    have hlb : lb = lk := by
      rcases bL with ⟨rfl, -, rfl⟩ | ⟨σ, hσ, rfl, -, rfl⟩
      · rfl
      · exact hA σ hσ
    exact ⟨by simp only [u0, d0, hlb, hw], by simp only [h1]⟩
  · constructor
    · show τ.downs ++ [σ.rk] = _
      rw [d0, kL]
    · show τ.ups ++ [σ.rb] = _
      rw [u0, jL]

/-! ### Windows of two sites -/

theorem cart_two_sum {α : Type} (l l' : List α) (f : List α → K) : ((cart [l, l']).map f).sum = (l.map fun a => (l'.map fun b => f [a, b]).sum).sum := by
  rw [cart_cons_sum]
  refine sum_map_congr' _ _ _ fun a _ => ?_
  rw [cart_cons_sum]
  refine sum_map_congr' _ _ _ fun b _ => ?_
  simp [cart]

/-- A network of two sites as a local problem. -/
theorem local_of_two {isF : Q → Bool} {Y X Z : List (BondInfo Q)} {phys : List (List (BondInfo Q) × List (BondInfo Q))} {bra ket : Mps Q K} {ws : List (OpT Q K)}
    (h : Network isF 0 0 Y X Z phys bra.tensors ws ket.tensors) (h2 : ws.length = 2) :
    ∃ B T ph0 ph1 m, bra.merge = some ⟨[B], bra.const⟩ ∧ ket.merge = some ⟨[T], ket.const⟩ ∧ LocalProblem isF ph0 ph1 m B ws T ∧
      sandwichOne isF ph0 ph1 m B ws T = sandwich isF phys Y X Z bra.tensors ws ket.tensors false (0, 0) (0, 0) (0, 0) (0, 0) (0, 0) (0, 0) ∧
      ((∀ ph ∈ phys, ph.1 = ph.2) → ph0.1 = ph0.2 ∧ ph1.1 = ph1.2) ∧ ph0.2 ++ ph1.2 = (phys.map Prod.snd).flatten ∧
      ph0.1 ++ ph1.1 = (phys.map Prod.fst).flatten := by
  obtain ⟨l1, l2⟩ := OpOnBonds.lengths (l := [(0, 1)]) (bonds := X ++ [[(0, 1)]]) h.op
  simp only [List.length_append, List.length_cons, List.length_nil] at l1 l2
  obtain ⟨m, rfl⟩ := List.length_eq_one_iff.1 (show X.length = 1 by omega)
  obtain ⟨ph0, ph1, rfl⟩ := List.length_eq_two.1 (show phys.length = 2 by simp at l1 l2; omega)
  obtain ⟨B, b1, b2, b3, b4⟩ := merge_spec h.bra fun c hc => (h.bonds c (by simp [hc])).1
  obtain ⟨T, t1, t2, t3, t4⟩ := merge_spec h.ket fun c hc => (h.bonds c (by simp [hc])).1
  refine ⟨B, T, ph0, ph1, m, b1, t1, ⟨⟨h.op, by simpa using t2, t3 isF h.ketEven, h.bonds m (by simp), h.legs⟩, by simpa using b2, b3 isF h.braEven⟩, ?_,
    fun hp => ⟨hp ph0 (by simp), hp ph1 (by simp)⟩, by simp, by simp⟩
  unfold sandwichOne appliedOne sandwich
  simp only [List.map_cons, List.map_nil, cart_two_sum]
  refine sum_map_congr' _ _ _ fun a ha => sum_map_congr' _ _ _ fun b hb => ?_
  rw [← sum_map_mul_left']
  refine sum_map_congr' _ _ _ fun p hp => ?_
  rw [← sum_map_mul_left']
  refine sum_map_congr' _ _ _ fun q hq => ?_
  have e1 := b4 (0, 0) [a, b] (0, 0) (.cons (legIndices_length ha) (.cons (legIndices_length hb) .nil))
  have e2 := t4 (0, 0) [p, q] (0, 0) (.cons (legIndices_length hp) (.cons (legIndices_length hq) .nil))
  simp only [List.flatten_cons, List.flatten_nil, List.append_nil] at e1 e2
  rw [e1, e2, mul_assoc]

end
end Verif
