import Verif.Spec.FockMps
import Verif.Thm.MpsDot
import Verif.Thm.MpoMul
import Verif.Thm.ConvMpo
import Verif.Proof.ApplyEven

/-!
Property C55: products and expectation values computed with matrix product states and operators are those of occupation-number space.
-/

set_option linter.unusedSectionVars false

namespace Verif
namespace Hamiltonian
open Fock ConvMpo
variable {K : Type} [Field K] [DecidableEq K]

theorem sum_states {M : Type} [AddCommMonoid M] (k : Nat) (F : (Fin (k + 1) → Bool × Bool) → M) : ∑ d, F d = ∑ x : Bool × Bool, ∑ d : Fin k → Bool × Bool, F (Fin.cons x d) := by
  rw [← (Fin.consEquiv (fun _ => Bool × Bool)).sum_comp, Fintype.sum_prod_type]
  rfl

theorem legsOf_cons (g : Nat) (gs : List Nat) (x : Bool × Bool) (d : Fin gs.length → Bool × Bool) :
    legsOf (n := gs.length + 1) (g :: gs) (Fin.cons x d) = [(occ g x.1 x.2, 0)] :: legsOf gs d := by
  unfold legsOf
  rw [List.ofFn_succ]
  simp

theorem leg_site (g : Nat) : legIndices [siteBasis g] = [[(occ g false false, 0)], [(occ g true false, 0)], [(occ g false true, 0)], [(occ g true true, 0)]] := by
  simp [legIndices, legBasis, siteBasis, cart, occ]

/-- A sum over the basis vectors of the physical legs is a sum over the occupation-number states. -/
theorem sum_legs {M : Type} [AddCommMonoid M] (orbSym : List Nat) (F : List (List (SZ × Nat)) → M) :
    ((cart (orbSym.map fun g => legIndices [siteBasis g])).map F).sum = ∑ d : Fin orbSym.length → Bool × Bool, F (legsOf orbSym d) := by
  induction orbSym generalizing F with
  | nil => simp [cart, legsOf]
  | cons g gs ih =>
    rw [List.map_cons, cart, leg_site]
    have e : ∑ d : Fin (g :: gs).length → Bool × Bool, F (legsOf (g :: gs) d) = ∑ x : Bool × Bool, ∑ d : Fin gs.length → Bool × Bool, F ([(occ g x.1 x.2, 0)] :: legsOf gs d) := by
      rw [show (∑ d : Fin (g :: gs).length → Bool × Bool, F (legsOf (g :: gs) d)) = ∑ d : Fin (gs.length + 1) → Bool × Bool, F (legsOf (g :: gs) d) from rfl, sum_states]
      simp only [legsOf_cons]
    rw [e, Fintype.sum_prod_type]
    have ih' := fun x => ih fun l => F (x :: l)
    simp only [Fintype.sum_bool, List.flatMap_cons, List.flatMap_nil, List.append_nil, List.map_append, List.sum_append, List.map_map, Function.comp_def, ih']
    abel

theorem element_sum {n : Nat} (H : FockOp K) (u d : Fin n → Bool × Bool) : matrixElement H (modes u) (modes d) = (H.map fun t => t.1 • fockMat n t.2).sum u d := by
  rw [Hamiltonian.sum_apply]
  rfl

theorem compose_mat {n : Nat} (H H' : FockOp K) (u d : Fin n → Bool × Bool) :
    matrixElement (compose H H') (modes u) (modes d) = ∑ m : Fin n → Bool × Bool, matrixElement H (modes u) (modes m) * matrixElement H' (modes m) (modes d) := by
  have e : ((compose H H').map fun t => t.1 • fockMat (K := K) n t.2).sum = (H.map fun t => t.1 • fockMat (K := K) n t.2).sum * (H'.map fun t => t.1 • fockMat (K := K) n t.2).sum := by
    unfold compose
    induction H with
    | nil => simp
    | cons t H ih =>
      rw [List.flatMap_cons, List.map_append, List.sum_append, ih, List.map_cons, List.sum_cons, add_mul]
      congr 1
      rw [← List.sum_map_mul_left, List.map_map]
      refine congrArg List.sum (List.map_congr_left fun t' _ => ?_)
      simp only [Function.comp_apply]
      rw [fockMat_prod, List.map_append, List.prod_append, ← fockMat_prod, ← fockMat_prod, smul_mul_smul_comm]
  rw [element_sum, e, Matrix.mul_apply]
  simp only [element_sum]

theorem shifted_mat {n : Nat} (H : FockOp K) (e : K) (u d : Fin n → Bool × Bool) :
    matrixElement (shifted H e) (modes u) (modes d) = matrixElement H (modes u) (modes d) + if u = d then e else 0 := by
  have h : (element [] (modes u) (modes d) : K) = if u = d then 1 else 0 := by
    have := congrFun (congrFun (fockMat_nil (K := K) (n := n)) u) d
    rwa [Matrix.one_apply] at this
  unfold matrixElement shifted
  rw [List.map_append, List.sum_append]
  simp [h]

theorem good_site (g : Nat) : GoodBond (siteBasis g) := by
  refine ⟨wf_siteBasis g, ?_⟩
  simp [siteBasis]

theorem good_one (q : SZ) : GoodBond [(q, 1)] := ⟨by simp [Dict.WF], by simp⟩

theorem legs_good (orbSym : List Nat) : ∀ ph ∈ orbSym.map fun g => ([siteBasis g], [siteBasis g]), ph.1 ≠ [] ∧ ph.2 ≠ [] ∧ ∀ c ∈ ph.1 ++ ph.2, GoodBond c := by
  intro ph hp
  obtain ⟨g, _, rfl⟩ := List.mem_map.1 hp
  refine ⟨by simp, by simp, fun c hc => ?_⟩
  simp at hc
  rw [hc]
  exact good_site g

theorem length_rep {orbSym : List Nat} {H : FockOp K} {ws : List (OpT SZ K)} {X : List (BondInfo SZ)} (h : ActsAs orbSym H ws X) : ws.length = orbSym.length ∧ X.length + 1 = orbSym.length := by
  obtain ⟨l1, l2⟩ := OpOnBonds.lengths (l := [(0, 1)]) (bonds := X ++ [[(0, 1)]]) h.bonds
  simp only [List.length_append, List.length_cons, List.length_nil, List.length_map] at l1 l2
  omega

theorem Represents.actsAs {orbSym : List Nat} {H : FockOp K} {ws : List (OpT SZ K)} {X : List (BondInfo SZ)} (h : Represents orbSym H ws X) : ActsAs orbSym H ws X where
  bonds := h.bonds
  good := h.good
  even := .of_even fun T hT => by
    obtain ⟨W, hW, rfl⟩ := List.mem_map.1 hT
    exact h.even W hW
  elements := h.elements

theorem applied_eq {orbSym : List Nat} {H : FockOp K} {ws : List (OpT SZ K)} {X Y : List (BondInfo SZ)} (h : ActsAs orbSym H ws X) (q : SZ) (bs : List (SpT SZ K)) (u : Fin orbSym.length → Bool × Bool) :
    applied SZ.isFermion X Y (orbSym.map fun g => ([siteBasis g], [siteBasis g])) ws bs (0, 0) (0, 0) (legsOf orbSym u) (0, 0) (q, 0) = actOn H (amplitude orbSym q bs Y) u := by
  unfold applied
  rw [List.map_map]
  have := sum_legs orbSym fun ds => opAmpl SZ.isFermion ws X (SZ.isFermion 0) (0, 0) (legsOf orbSym u) ds (0, 0) * ampl bs Y (0, 0) ds (q, 0)
  refine (this).trans (Finset.sum_congr rfl fun d _ => ?_)
  have e : SZ.isFermion 0 = false := rfl
  rw [e, h.elements]
  rfl

theorem applicable {orbSym : List Nat} {H : FockOp K} {ws : List (OpT SZ K)} {X Y : List (BondInfo SZ)} (h : ActsAs orbSym H ws X) {q : SZ} {b : Mps SZ K} (hb : StateOn orbSym q b Y) :
    Applicable SZ.isFermion [(0, 1)] [(0, 1)] [(0, 1)] [(q, 1)] X Y (orbSym.map fun g => ([siteBasis g], [siteBasis g])) ws b.tensors where
  op := h.bonds
  state := by
    have := hb.bonds
    rw [List.map_map]
    exact this
  good := by
    intro c hc
    simp only [List.cons_append, List.mem_cons, List.mem_append] at hc
    rcases hc with rfl | rfl | rfl | rfl | hc | hc
    · exact good_one 0
    · exact good_one 0
    · exact good_one 0
    · exact good_one q
    · exact h.good c hc
    · exact hb.good c hc
  legs := legs_good orbSym
  parity := hb.even

theorem legsOf_length (orbSym : List Nat) (u : Fin orbSym.length → Bool × Bool) : (legsOf orbSym u).length = orbSym.length := by
  simp [legsOf]

/-- C55: a matrix product operator that stands for `H`, with the constant `e`, applied to a matrix product state gives a matrix product state with the same particles and
the amplitudes of `(H + e) ψ`; or the number 0, and then `H ψ` vanishes.  `H` may change the number of particles; with a constant it has to be bosonic. -/
theorem C55_apply (le : SZ → SZ → Bool) {orbSym : List Nat} (hn : 2 ≤ orbSym.length) {H : FockOp K} {ws : List (OpT SZ K)} {X Y : List (BondInfo SZ)} (hH : ActsAs orbSym H ws X) (e : K)
    (he : e ≠ 0 → ∀ W ∈ ws, EvenBlocks SZ.isFermion W.both)
    {q : SZ} {b : Mps SZ K} (hb : StateOn orbSym q b Y) :
    (Mps.apply SZ.isFermion le ⟨ws, e⟩ b = some none ∧ ∀ u, actOn H (amplitude orbSym q b.tensors Y) u = 0) ∨
    ∃ c N, Mps.apply SZ.isFermion le ⟨ws, e⟩ b = some (some c) ∧ StateOn orbSym q c N ∧
      ∀ u, amplitude orbSym q c.tensors N u = actOn (shifted H e) (amplitude orbSym q b.tensors Y) u := by
  obtain ⟨l1, l2⟩ := length_rep hH
  have hX : X ≠ [] := by
    rintro rfl
    simp at l2
    omega
  have hrow : ∀ ph ∈ orbSym.map fun g => ([siteBasis g], [siteBasis g]), ph.1 = ph.2 := by
    intro ph hp
    obtain ⟨g, _, rfl⟩ := List.mem_map.1 hp
    rfl
  rcases C20_apply SZ.isFermion le ⟨ws, e⟩ b (applicable hH hb) hX hrow hb.const with ⟨h1, h2⟩ | ⟨c, N, h1, h2, h3, h4, h5⟩
  · refine Or.inl ⟨h1, fun u => ?_⟩
    rw [← applied_eq hH q b.tensors u]
    exact h2 _ _ _ (by rw [legsOf_length, l1])
  · refine Or.inr ⟨c, N, h1, ⟨?_, h3, ?_, h4⟩, fun u => ?_⟩
    · rw [List.map_map] at h2
      exact h2
    · have ha := applicable hH hb
      have l3 : Y.length = X.length := by
        have := (OnBonds.lengths (l := [(0, 1)]) (r := [(q, 1)]) (X := Y) hb.bonds).2
        have := (OnBonds.lengths (l := [(0, 1)]) (r := [(q, 1)]) (X := Y) hb.bonds).1
        simp at *
        omega
      have hst : OnBonds ([(0, 1)] :: (Y ++ [[(q, 1)]])) ((orbSym.map fun g => ([siteBasis g], [siteBasis g])).map Prod.snd) b.tensors := ha.state
      have hop : OpOnBonds SZ.isFermion ([(0, 1)] :: (X ++ [[(0, 1)]])) (orbSym.map fun g => ([siteBasis g], [siteBasis g])) ws := ha.op
      have hon := applyOn_of (wl := [(0, 1)]) (X := X ++ [[(0, 1)]]) (l := [(0, 1)]) (Y := Y ++ [[(q, 1)]]) hop hst (by simp [l3]) ha.legs ha.parity.all
      have lb := (OnBonds.lengths (l := [(0, 1)]) (r := [(q, 1)]) (X := Y) hb.bonds).1
      have lc := (OnBonds.lengths (l := [(0, 1)]) (r := [(q, 1)]) (X := N) h2).1
      have lb' := (OnBonds.lengths (l := [(0, 1)]) (r := [(q, 1)]) (X := Y) hb.bonds).2
      have lc' := (OnBonds.lengths (l := [(0, 1)]) (r := [(q, 1)]) (X := N) h2).2
      simp only [List.length_map] at lb lc lb' lc'
      exact apply_evenInside SZ.isFermion isFermion_add le ⟨ws, e⟩ b hon hb.even hH.even he h1 (by show ws.length = _; omega) (by omega)
    · have := h5 0 0 (legsOf orbSym u) (by omega) (by omega) (by rw [legsOf_length, l1])
      rw [applied_eq hH q b.tensors u] at this
      refine this.trans ?_
      unfold actOn
      simp only [shifted_mat, add_mul, Finset.sum_add_distrib, ite_mul, zero_mul, Finset.sum_ite_eq, Finset.mem_univ, if_true]
      rfl

theorem ampl_nil (ts : List (SpT SZ K)) (X : List (BondInfo SZ)) (x : SZ × Nat) (ps : List (List (SZ × Nat))) (y : SZ × Nat) (h : [] ∈ ts) : ampl ts X x ps y = 0 := by
  induction ts generalizing X x ps with
  | nil => simp at h
  | cons T ts ih =>
    rcases List.mem_cons.1 h with h | h
    · subst h
      rcases ts with _ | ⟨T', ts⟩ <;> rcases X with _ | ⟨b, X⟩ <;> rcases ps with _ | ⟨p, _ | ⟨p', ps⟩⟩ <;> simp [ampl, entry]
    · rcases ts with _ | ⟨T', ts⟩
      · simp at h
      · rcases X with _ | ⟨b, X⟩ <;> rcases ps with _ | ⟨p, ps⟩ <;> simp only [ampl]
        refine List.sum_eq_zero fun z hz => ?_
        obtain ⟨w, _, rfl⟩ := List.mem_map.1 hz
        rw [ih _ _ _ h, mul_zero]

/-- C55: the overlap of two matrix product states is the sum of the products of their amplitudes over all occupation-number states. -/
theorem C55_overlap {orbSym : List Nat} {q : SZ} {a b : Mps SZ K} {X Y : List (BondInfo SZ)}
    (hA : OnBonds ([(0, 1)] :: X ++ [[(q, 1)]]) (orbSym.map fun g => [siteBasis g]) a.tensors) (hB : OnBonds ([(0, 1)] :: Y ++ [[(q, 1)]]) (orbSym.map fun g => [siteBasis g]) b.tensors)
    (gA : ∀ c ∈ X, GoodBond c) (gB : ∀ c ∈ Y, GoodBond c) (hc : a.const * b.const = 0) :
    Mps.dot a b = some (∑ u, amplitude orbSym q a.tensors X u * amplitude orbSym q b.tensors Y u) := by
  have hw : ∀ c ∈ [((0 : SZ), 1)] :: [(q, 1)] :: X ++ Y, Dict.WF c := by
    intro c hc
    simp only [List.cons_append, List.mem_cons, List.mem_append] at hc
    rcases hc with rfl | rfl | hc | hc
    · exact (good_one 0).1
    · exact (good_one q).1
    · exact (gA c hc).1
    · exact (gB c hc).1
  have hp : ∀ ph ∈ orbSym.map fun g => [siteBasis g], ∀ c ∈ ph, Dict.WF c := by
    intro ph hp c hc
    obtain ⟨g, _, rfl⟩ := List.mem_map.1 hp
    simp at hc
    rw [hc]
    exact wf_siteBasis g
  by_cases hn : [] ∈ a.tensors ∨ [] ∈ b.tensors
  · rw [C20_dot_const_lost _ _ X Y _ a b hA hB hw hp hn]
    congr 1
    refine (Finset.sum_eq_zero fun u _ => ?_).symm
    unfold amplitude
    rcases hn with h | h
    · rw [ampl_nil _ _ _ _ _ h, zero_mul]
    · rw [ampl_nil (ts := b.tensors) _ _ _ _ h, mul_zero]
  · have nA : ∀ T ∈ a.tensors, T ≠ [] := fun T hT h0 => hn (Or.inl (h0 ▸ hT))
    have nB : ∀ T ∈ b.tensors, T ≠ [] := fun T hT h0 => hn (Or.inr (h0 ▸ hT))
    rw [C20_dot _ _ X Y _ a b hA hB hw hp nA nB, hc, add_zero]
    congr 1
    have e1 : ∀ q : SZ, legBasis [(q, 1)] = [(q, 0)] := fun q => by simp [legBasis]
    simp only [e1, List.map_cons, List.map_nil, List.sum_cons, List.sum_nil, add_zero, List.map_map, Function.comp_def]
    exact sum_legs orbSym _

/-- C55: the expectation value `⟨φ|(H + e)|ψ⟩` as the code computes it, by applying the operator and taking the overlap. -/
theorem C55_expect (le : SZ → SZ → Bool) {orbSym : List Nat} (hn : 2 ≤ orbSym.length) {H : FockOp K} {ws : List (OpT SZ K)} {X Y Z : List (BondInfo SZ)} (hH : ActsAs orbSym H ws X) (e : K)
    (he : e ≠ 0 → ∀ W ∈ ws, EvenBlocks SZ.isFermion W.both)
    {q : SZ} {a b : Mps SZ K} (ha : StateOn orbSym q a Z) (hb : StateOn orbSym q b Y) :
    (Mps.apply SZ.isFermion le ⟨ws, e⟩ b = some none ∧ ∀ u, actOn H (amplitude orbSym q b.tensors Y) u = 0) ∨
    ∃ c, Mps.apply SZ.isFermion le ⟨ws, e⟩ b = some (some c) ∧
      Mps.dot a c = some (∑ u, ∑ d, amplitude orbSym q a.tensors Z u * matrixElement (shifted H e) (modes u) (modes d) * amplitude orbSym q b.tensors Y d) := by
  rcases C55_apply le hn hH e he hb with h | ⟨c, N, h1, h2, h5⟩
  · exact Or.inl h
  · refine Or.inr ⟨c, h1, ?_⟩
    rw [C55_overlap ha.bonds h2.bonds ha.good h2.good (by rw [h2.const, mul_zero])]
    congr 1
    refine Finset.sum_congr rfl fun u _ => ?_
    rw [h5, actOn, Finset.mul_sum]
    exact Finset.sum_congr rfl fun d _ => by rw [mul_assoc]

/-- C55: applying the operator again and again gives the powers of `H + e` on the amplitudes. -/
theorem C55_powers (le : SZ → SZ → Bool) {orbSym : List Nat} (hn : 2 ≤ orbSym.length) {H : FockOp K} {ws : List (OpT SZ K)} {X Y : List (BondInfo SZ)} (hH : ActsAs orbSym H ws X) (e : K)
    (he : e ≠ 0 → ∀ W ∈ ws, EvenBlocks SZ.isFermion W.both)
    {q : SZ} (b : Nat → Mps SZ K) (hb : StateOn orbSym q (b 0) Y) (k : Nat) (hk : ∀ i < k, Mps.apply SZ.isFermion le ⟨ws, e⟩ (b i) = some (some (b (i + 1)))) :
    ∃ N, StateOn orbSym q (b k) N ∧ amplitude orbSym q (b k).tensors N = (actOn (shifted H e))^[k] (amplitude orbSym q (b 0).tensors Y) := by
  induction k with
  | zero => exact ⟨Y, hb, rfl⟩
  | succ k ih =>
    obtain ⟨N, h1, h2⟩ := ih fun i hi => hk i (by omega)
    have h3 := hk k (by omega)
    rcases C55_apply le hn hH e he h1 with ⟨h, _⟩ | ⟨c, M, c1, c2, c3⟩
    · rw [h] at h3
      simp at h3
    · rw [c1] at h3
      have ec : c = b (k + 1) := by simpa using h3
      refine ⟨M, ec ▸ c2, ?_⟩
      rw [Function.iterate_succ_apply', ← h2, ← ec]
      exact funext c3

theorem sized_legs (orbSym : List Nat) (u d : Fin orbSym.length → Bool × Bool) :
    Sized (orbSym.map fun g => ([siteBasis g], [siteBasis g])) (legsOf orbSym u) (legsOf orbSym d) := by
  induction orbSym with
  | nil => simp [legsOf]; exact .nil
  | cons g gs ih =>
    have e : ∀ v : Fin (g :: gs).length → Bool × Bool, legsOf (g :: gs) v = [(occ g (v 0).1 (v 0).2, 0)] :: legsOf gs fun i => v i.succ := by
      intro v
      have := legsOf_cons g gs (v 0) fun i => v i.succ
      rw [← this]
      congr 1
      exact (Fin.cons_self_tail v).symm
    rw [e u, e d]
    exact .cons rfl rfl (ih _ _)

/-- C55: the product of two matrix product operators that stand for `H` and `H'`, with the constants `e` and `e'`, stands for the operator product `(H + e) (H' + e')` (its
constant is `e e'`); or the product is the number 0, and then `H H'` vanishes. -/
theorem C55_mul (le : SZ → SZ → Bool) {orbSym : List Nat} (hn : 2 ≤ orbSym.length) {H H' : FockOp K} {ws ws' : List (OpT SZ K)} {X X' : List (BondInfo SZ)} (hH : ActsAs orbSym H ws X)
    (hH' : ActsAs orbSym H' ws' X') (e e' : K) :
    (Mpo.mul SZ.isFermion le ⟨ws, e⟩ ⟨ws', e'⟩ = some none ∧ ∀ u d : Fin orbSym.length → Bool × Bool, matrixElement (compose H H') (modes u) (modes d) = 0) ∨
    ∃ c N, Mpo.mul SZ.isFermion le ⟨ws, e⟩ ⟨ws', e'⟩ = some (some c) ∧ OpOn ([(0, 1)] :: N ++ [[(0, 1)]]) (orbSym.map fun g => ([siteBasis g], [siteBasis g])) c.tensors ∧
      (∀ d ∈ N, GoodBond d) ∧ ∀ u d : Fin orbSym.length → Bool × Bool,
        opAmpl SZ.isFermion c.tensors N false (0, 0) (legsOf orbSym u) (legsOf orbSym d) (0, 0) + (if u = d then c.const else 0) =
          matrixElement (compose (shifted H e) (shifted H' e')) (modes u) (modes d) := by
  obtain ⟨l1, l2⟩ := length_rep hH
  have hX : X ≠ [] := by
    rintro rfl
    simp at l2
    omega
  have hm : Multipliable SZ.isFermion [(0, 1)] [(0, 1)] [(0, 1)] [(0, 1)] X X' (orbSym.map fun g => ([siteBasis g], [siteBasis g], [siteBasis g])) ws ws' := by
    refine ⟨?_, ?_, ?_, ?_, hH'.even⟩
    · rw [List.map_map]
      exact hH.bonds
    · rw [List.map_map]
      exact hH'.bonds
    · intro c hc
      simp only [List.cons_append, List.mem_cons, List.mem_append] at hc
      rcases hc with rfl | rfl | rfl | rfl | hc | hc
      · exact good_one 0
      · exact good_one 0
      · exact good_one 0
      · exact good_one 0
      · exact hH.good c hc
      · exact hH'.good c hc
    · intro ph hp
      obtain ⟨g, _, rfl⟩ := List.mem_map.1 hp
      refine ⟨by simp, rfl, rfl, fun c hc => ?_⟩
      simp at hc
      rw [hc]
      exact good_site g
  have hprod : ∀ u d : Fin orbSym.length → Bool × Bool,
      multiplied SZ.isFermion X X' (orbSym.map fun g => ([siteBasis g], [siteBasis g], [siteBasis g])) ws ws' false (0, 0) (0, 0) (legsOf orbSym u) (legsOf orbSym d) (0, 0) (0, 0) =
        matrixElement (compose H H') (modes u) (modes d) := by
    intro u d
    unfold multiplied
    rw [List.map_map, compose_mat]
    refine (sum_legs orbSym fun ms => opAmpl SZ.isFermion ws X (xor false (SZ.isFermion 0)) (0, 0) (legsOf orbSym u) ms (0, 0) *
      opAmpl SZ.isFermion ws' X' false (0, 0) ms (legsOf orbSym d) (0, 0)).trans (Finset.sum_congr rfl fun m _ => ?_)
    have e0 : xor false (SZ.isFermion 0) = false := rfl
    rw [e0, hH.elements, hH'.elements]
  have hs : ∀ u d : Fin orbSym.length → Bool × Bool, Sized ((orbSym.map fun g => ([siteBasis g], [siteBasis g], [siteBasis g])).map fun ph => (ph.1, ph.2.2)) (legsOf orbSym u) (legsOf orbSym d) := by
    intro u d
    rw [List.map_map]
    exact sized_legs orbSym u d
  rcases C20_mul SZ.isFermion le ⟨ws, e⟩ ⟨ws', e'⟩ hm hX (by
    intro ph hp
    obtain ⟨g, _, rfl⟩ := List.mem_map.1 hp
    exact ⟨rfl, rfl⟩) with ⟨h1, h2⟩ | ⟨c, N, h1, h2, h3, h4, h5⟩
  · exact Or.inl ⟨h1, fun u d => (hprod u d).symm.trans (h2 false _ _ (hs u d))⟩
  · refine Or.inr ⟨c, N, h1, ?_, h3, fun u d => ?_⟩
    · rw [List.map_map] at h2
      exact h2
    · rw [h5 false _ _ (hs u d), h4, hprod, compose_mat, compose_mat]
      simp only [shifted_mat, hH.elements, hH'.elements]
      simp only [add_mul, mul_add, Finset.sum_add_distrib, ite_mul, mul_ite, zero_mul, mul_zero, Finset.sum_ite_eq, Finset.sum_ite_eq', Finset.mem_univ, if_true]
      by_cases hud : u = d
      · simp [hud]
        ring
      · simp [hud]
        ring

/-- C55: from the integrals to the energy.  The operator of `build_qc_mpo` with the constant `e`, applied to `ψ` and multiplied with `φ`, gives
`⟨φ| Σ t_s,ij c†_is c_js + 1/2 Σ v_st,ijkl c†_is c†_kt c_lt c_js + e |ψ⟩`. -/
theorem C55_energy [CharZero K] (le : SZ → SZ → Bool) (tiny : K → Bool) (htiny : ∀ x, tiny x = true ↔ x = 0) (x : Fcidump.Integrals K) (e : K) (orbSym : List Nat)
    (hn : 2 ≤ orbSym.length) (sym : Bool) (hx : SpinAllowed orbSym x.t x.v) (ht : ∀ s i j, x.t s i j = x.t s j i) (hv : SpinSymmetric x.v) :
    ∃ ws, buildQcMpo tiny x orbSym sym = some ws ∧ ∀ (q : SZ) (a b : Mps SZ K) (Z Y : List (BondInfo SZ)), StateOn orbSym q a Z → StateOn orbSym q b Y →
      (Mps.apply SZ.isFermion le ⟨ws, e⟩ b = some none ∧ ∀ u, actOn (spinOp orbSym.length x.t x.v) (amplitude orbSym q b.tensors Y) u = 0) ∨
      ∃ c, Mps.apply SZ.isFermion le ⟨ws, e⟩ b = some (some c) ∧
        Mps.dot a c = some (∑ u, ∑ d, amplitude orbSym q a.tensors Z u * matrixElement (shifted (spinOp orbSym.length x.t x.v) e) (modes u) (modes d) *
          amplitude orbSym q b.tensors Y d) := by
  obtain ⟨ws, X, h1, h2⟩ := C54_symmetric tiny htiny x orbSym hn sym hx ht hv
  exact ⟨ws, h1, fun q a b Z Y ha hb => C55_expect le hn h2.actsAs e (fun _ => h2.even) ha hb⟩

/-! ### A concrete case -/

def ratBlock (q : List SZ) (v : Rat) : List SZ × Arr Rat := (q, ⟨q.map fun _ => 1, fun _ => v⟩)

/-- One electron with spin up on three orbitals: amplitude 2 on the first and 3 on the second. -/
def exState : Mps SZ Rat :=
  ⟨[[ratBlock [0, ⟨1, 1, 0⟩, ⟨1, 1, 0⟩] 2, ratBlock [0, 0, 0] 3], [ratBlock [⟨1, 1, 0⟩, 0, ⟨1, 1, 0⟩] 1, ratBlock [0, ⟨1, 1, 0⟩, ⟨1, 1, 0⟩] 1],
    [ratBlock [⟨1, 1, 0⟩, 0, ⟨1, 1, 0⟩] 1]], 0⟩

def exBonds : List (BondInfo SZ) := [[(0, 1), (⟨1, 1, 0⟩, 1)], [(⟨1, 1, 0⟩, 1)]]

theorem ex_state : StateOn exSym ⟨1, 1, 0⟩ exState exBonds where
  bonds := ⟨by decide, by decide, by decide, trivial⟩
  good := by unfold GoodBond; decide
  even := .of_even (by unfold EvenBlocks; decide)
  const := rfl

/-- Hopping with 3 takes the electron from the second orbital to the first; the constant 10 adds ten times the state. -/
example : ∃ ws c N, buildQcMpo (fun x => decide (x = 0)) exInts exSym true = some ws ∧ Mps.apply SZ.isFermion (fun a b => !SZ.lt b a) ⟨ws, 10⟩ exState = some (some c) ∧
    StateOn exSym ⟨1, 1, 0⟩ c N ∧ amplitude exSym ⟨1, 1, 0⟩ c.tensors N ![(true, false), (false, false), (false, false)] = 3 * 3 + 10 * 2 := by
  obtain ⟨ws, X, h1, h2⟩ := C54_symmetric (K := Rat) (fun x => decide (x = 0)) (by simp) exInts exSym (by decide) true ex_ints_allowed (by
    intro s i j
    cases s <;> simp [exInts, Fcidump.Integrals.t] <;> congr 1 <;> simp only [eq_iff_iff] <;> omega) ex_ints_symmetric
  rcases C55_apply (fun a b => !SZ.lt b a) (by decide) h2.actsAs 10 (fun _ => h2.even) ex_state with ⟨_, h⟩ | ⟨c, N, c1, c2, c3⟩
  · exact absurd (h ![(true, false), (false, false), (false, false)]) (by decide +kernel)
  · exact ⟨ws, c, N, h1, c1, c2, (c3 _).trans (by decide +kernel)⟩

end Hamiltonian
end Verif
