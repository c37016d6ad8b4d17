import Verif.Proof.WindowOverlap
import Verif.Proof.LocalWindow

/-! The merged tensor of a window: its components are the amplitudes of the tensors in the window. -/

set_option linter.unusedSectionVars false

namespace Verif
section
variable {Q K : Type} [DecidableEq Q] [AddCommGroup Q] [CommRing K] [StarRing K]

theorem forall₂_split {α β : Type} {R : α → β → Prop} (b : List β) : ∀ {a : List α} {c : List β}, List.Forall₂ R a (b ++ c) →
    ∃ u v, a = u ++ v ∧ List.Forall₂ R u b ∧ List.Forall₂ R v c := by
  induction b with
  | nil => intro a c h; exact ⟨[], a, rfl, .nil, h⟩
  | cons x b ih =>
    intro a c h
    cases h with
    | cons h1 h2 =>
      obtain ⟨u, v, rfl, h3, h4⟩ := ih h2
      exact ⟨_ :: u, v, rfl, .cons h1 h3, h4⟩

theorem snoc_edge {isF : Q → Bool} (h0 : isF 0 = false) {r : BondInfo Q} {w : SpT Q K} (hw : EvenBlocks isF w) (mid : List (SpT Q K)) :
    ∀ {l : BondInfo Q} {X : List (BondInfo Q)} {phys : List (List (BondInfo Q))}, OnBonds (l :: X ++ [r]) phys (mid ++ [w]) →
      ∃ w' phys0 ph, SpT.tensordotN w (oneBlock [0]) 0 = some w' ∧ phys = phys0 ++ [ph] ∧ phys0.length = mid.length ∧
        OnBonds (l :: X ++ [[(0, 1)]]) (phys0 ++ [ph ++ [r]]) (mid ++ [w']) ∧
        ∀ x ps p z, ps.length = mid.length → p.length = ph.length → ampl (mid ++ [w']) X x (ps ++ [p ++ [z]]) (0, 0) = ampl (mid ++ [w]) X x (ps ++ [p]) z := by
  induction mid with
  | nil =>
    intro l X phys h
    have hl := h.lengths
    obtain rfl : X = [] := List.length_eq_zero_iff.1 (by simpa using hl.1.symm)
    obtain ⟨ph, rfl⟩ := List.length_eq_one_iff.1 hl.2
    obtain ⟨R, r1, r2, -, r4⟩ := outer_right h0 h.1 hw
    refine ⟨R, [], ph, r1, rfl, rfl, ⟨by simpa using r2, trivial⟩, ?_⟩
    intro x ps p z hps hp
    obtain rfl := List.length_eq_zero_iff.1 hps
    simp only [List.nil_append, ampl]
    have := r4 (x :: p ++ [z]) (by simp [hp])
    simpa using this
  | cons t mid ih =>
    intro l X phys h
    have hl := h.lengths
    rcases X with _ | ⟨b, X⟩
    · simp at hl
    rcases phys with _ | ⟨ph0, phys⟩
    · simp at hl
    obtain ⟨w', phys0, ph, e1, rfl, e3, e4, e5⟩ := ih h.2
    refine ⟨w', ph0 :: phys0, ph, e1, rfl, by simp [e3], ⟨h.1, e4⟩, ?_⟩
    intro x ps p z hps hp
    rcases ps with _ | ⟨p0, ps⟩
    · simp at hps
    simp only [List.cons_append, ampl_cons]
    refine sum_map_congr' _ _ _ fun z' _ => ?_
    rw [e5 z' ps p z (by simpa using hps) hp]

/-- The state of a window as one tensor. -/
theorem effMps_merge {isF : Q → Bool} (h0 : isF 0 = false) {l r : BondInfo Q} {X : List (BondInfo Q)} {phys : List (List (BondInfo Q))} {ts : List (SpT Q K)}
    (h : OnBonds (l :: X ++ [r]) phys ts) (hX : ∀ b ∈ X, Dict.WF b) (he : ∀ t ∈ ts, EvenBlocks isF t) :
    ∃ m T, Mpe.effMps (oneBlock [0]) ts (oneBlock [0]) = some m ∧ m.merge = some ⟨[T], 0⟩ ∧ Conforms ([(0, 1)] :: (l :: phys.flatten ++ [r]) ++ [[(0, 1)]]) T ∧
      ∀ x ps y, List.Forall₂ (fun (p : List (Q × Nat)) ph => p.length = ph.length) ps phys →
        entry T ((0, 0) :: (x :: ps.flatten ++ [y]) ++ [(0, 0)]) = ampl ts X x ps y := by
  have hl := h.lengths
  rcases ts with _ | ⟨t, ts⟩
  · simp at hl
  rcases List.eq_nil_or_concat ts with rfl | ⟨mid, w, rfl⟩
  · obtain rfl : X = [] := List.length_eq_zero_iff.1 (by simpa using hl.1.symm)
    obtain ⟨ph, rfl⟩ := List.length_eq_one_iff.1 hl.2
    obtain ⟨t', a1, a2, a3, a4⟩ := outer_left h0 h.1 (he t (by simp))
    obtain ⟨T, b1, b2, b3, b4⟩ := outer_right h0 a2 a3
    refine ⟨⟨[T], 0⟩, T, ?_, rfl, by simpa using b2, ?_⟩
    · rw [effMps_one, a1, Option.bind_some, b1]; rfl
    · intro x ps y hps
      cases hps with
      | cons hp hps =>
        cases hps
        rename_i p
        simp only [ampl, List.flatten_cons, List.flatten_nil, List.append_nil]
        rw [b4 ((0, 0) :: (x :: p ++ [y])) (by simp [hp]), a4 _ (by simp [hp])]
  · rcases X with _ | ⟨b, X⟩
    · simp at hl
    rcases phys with _ | ⟨ph0, phys⟩
    · simp at hl
    simp only [List.concat_eq_append] at *
    obtain ⟨t', a1, a2, a3, a4⟩ := outer_left h0 h.1 (he t (by simp))
    obtain ⟨w', phys0, ph, e1, rfl, e3, e4, e5⟩ := snoc_edge h0 (he w (by simp)) mid h.2
    have hon : OnBonds ([(0, 1)] :: (b :: X) ++ [[(0, 1)]]) ((l :: ph0) :: (phys0 ++ [ph ++ [r]])) (Mps.mk (t' :: (mid ++ [w'])) (0 : K)).tensors :=
      ⟨by simpa using a2, e4⟩
    obtain ⟨T, m1, m2, -, m4⟩ := merge_spec hon hX
    refine ⟨_, T, ?_, m1, by simpa using m2, ?_⟩
    · rw [← List.cons_append, effMps_two, a1, Option.bind_some, e1]; rfl
    · intro x ps y hps
      cases hps with
      | @cons p _ ps _ hp hps =>
        obtain ⟨q, q1, rfl, s1, s2⟩ := forall₂_split _ hps
        cases s2 with
        | cons hp1 s2 =>
          cases s2
          rename_i p1
          have := m4 (0, 0) ((x :: p) :: (q ++ [p1 ++ [y]])) (0, 0) (by
            refine List.Forall₂.cons (by simp [hp]) (List.rel_append s1 (List.Forall₂.cons (by simp [hp1]) .nil)))
          rw [show (0, 0) :: (x :: (p :: (q ++ [p1])).flatten ++ [y]) ++ [(0, 0)] = (0, 0) :: ((x :: p) :: (q ++ [p1 ++ [y]])).flatten ++ [((0 : Q), 0)] by simp, this]
          rw [ampl_cons, ampl_cons]
          refine sum_map_congr' _ _ _ fun z _ => ?_
          rw [e5 z q p1 y (by rw [s1.length_eq, e3]) hp1]
          congr 1
          have := a4 (x :: p ++ [z]) (by simp [hp])
          simpa using this

theorem legIndices_flatten_sum (phys : List (List (BondInfo Q))) : ∀ (f : List (Q × Nat) → K),
    ((legIndices phys.flatten).map f).sum = ((cart (phys.map legIndices)).map fun ps => f ps.flatten).sum := by
  induction phys with
  | nil => intro f; simp [legIndices, cart]
  | cons ph phys ih =>
    intro f
    rw [List.flatten_cons, legIndices_append_sum, List.map_cons, cart_cons_sum]
    refine sum_map_congr' _ _ _ fun a _ => ?_
    rw [ih]
    rfl

/-- The inner product of two tensors of a window. -/
theorem dot_window [DecidableEq K] {l r : BondInfo Q} {phys : List (List (BondInfo Q))} {A A' : Q × Nat → List (List (Q × Nat)) → Q × Nat → K} {T T' : SpT Q K}
    (hl : Dict.WF l) (hr : Dict.WF r) (hp : ∀ ph ∈ phys, ∀ c ∈ ph, Dict.WF c)
    (hT : Conforms ([(0, 1)] :: (l :: phys.flatten ++ [r]) ++ [[(0, 1)]]) T) (hT' : Conforms ([(0, 1)] :: (l :: phys.flatten ++ [r]) ++ [[(0, 1)]]) T')
    (hA : ∀ x ps y, List.Forall₂ (fun (p : List (Q × Nat)) ph => p.length = ph.length) ps phys → entry T ((0, 0) :: (x :: ps.flatten ++ [y]) ++ [(0, 0)]) = A x ps y)
    (hA' : ∀ x ps y, List.Forall₂ (fun (p : List (Q × Nat)) ph => p.length = ph.length) ps phys → entry T' ((0, 0) :: (x :: ps.flatten ++ [y]) ++ [(0, 0)]) = A' x ps y) :
    ((legIndices (l :: phys.flatten ++ [r])).map fun p => star (entry T ((0, 0) :: p ++ [(0, 0)])) * entry T' ((0, 0) :: p ++ [(0, 0)])).sum = innerProduct l r phys A A' ∧
    Mps.dot (Mps.conj ⟨[T], 0⟩) ⟨[T'], 0⟩ = some (innerProduct l r phys A A') := by
  have e : ((legIndices (l :: phys.flatten ++ [r])).map fun p => star (entry T ((0, 0) :: p ++ [(0, 0)])) * entry T' ((0, 0) :: p ++ [(0, 0)])).sum =
      innerProduct l r phys A A' := by
    unfold innerProduct
    rw [List.cons_append, legIndices_cons_sum]
    refine sum_map_congr' _ _ _ fun x _ => ?_
    rw [legIndices_snoc_sum, legIndices_flatten_sum]
    refine sum_map_congr' _ _ _ fun ps hps => sum_map_congr' _ _ _ fun y _ => ?_
    have := cart_legs hps
    rw [← hA x ps y this, ← hA' x ps y this]
    simp
  refine ⟨e, ?_⟩
  have h1 : OnBonds ([(0, 1)] :: [] ++ [[(0, 1)]]) [l :: phys.flatten ++ [r]] (Mps.conj ⟨[T], 0⟩).tensors := onBonds_conj (ts := [T]) ⟨hT, trivial⟩
  have h2 : OnBonds ([(0, 1)] :: [] ++ [[(0, 1)]]) [l :: phys.flatten ++ [r]] (Mps.mk [T'] (0 : K)).tensors := ⟨hT', trivial⟩
  rw [dot_any h1 h2 (by simp) (by simp) (by
    intro ph hph c hc
    rw [List.mem_singleton.1 hph] at hc
    simp only [List.cons_append, List.mem_cons, List.mem_append, List.not_mem_nil, or_false, List.mem_flatten] at hc
    rcases hc with rfl | ⟨ph', h3, h4⟩ | rfl
    · exact hl
    · exact hp ph' h3 c h4
    · exact hr) (by simp), ← e]
  congr 1
  rw [List.map_singleton, cart_cons_sum]
  refine sum_map_congr' _ _ _ fun p _ => ?_
  have e2 : ampl (Mps.conj (⟨[T], 0⟩ : Mps Q K)).tensors [] (0, 0) [p] (0, 0) = _ := (C19_conj (⟨[T], 0⟩ : Mps Q K)).2 [] (0, 0) [p] (0, 0)
  rw [cart, List.map_singleton, List.sum_singleton, e2]
  rfl

end
end Verif
