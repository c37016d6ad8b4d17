import Verif.Proof.SiteMpo
import Verif.Thm.FockMps

/-!
Property C56: the matrix product operators of the identity and of single site operators, and density matrices computed with them.
-/

set_option linter.unusedSectionVars false

namespace Verif
namespace SiteMpo
open Hamiltonian Fock ConvMpo Symbolic
variable {K : Type} [Field K] [DecidableEq K] (tiny : K → Bool) (t : Bool → Nat → Nat → K) (v : Bool → Bool → Nat → Nat → Nat → Nat → K)

/-! ### The tensors -/

theorem isF_zero : SZ.isFermion 0 = false := rfl

def siteMat (orbSym : List Nat) (op : Sym K) (k : Int) (m : Nat) : CellMat K where
  dq := if m = 0 then 0 else op.label
  lq := [if m = 0 then 0 else if (m : Int) ≤ k then op.label else 0]
  rq := [if m ≠ 0 ∧ m + 1 = orbSym.length then 0 else if (m : Int) ≥ k then op.label else 0]
  cells := ((cell tiny t v orbSym m ⟨0, 0, some (if (m : Int) = k then op else iSymbol)⟩).getD none).toList

theorem siteTensor_eq (orbSym : List Nat) (op : Sym K) (k : Int) (m : Nat) (hc : (cell tiny t v orbSym m ⟨0, 0, some (if (m : Int) = k then op else iSymbol)⟩).isSome) :
    siteTensor tiny t v orbSym op k m = (siteMat tiny t v orbSym op k m).sparse := by
  obtain ⟨c, hc⟩ := Option.isSome_iff_exists.1 hc
  unfold siteTensor siteMat CellMat.sparse
  dsimp only
  rw [hc, Option.bind_some, Option.getD_some]
  congr 1
  · split_ifs <;> rfl
  · split_ifs <;> rfl

theorem site_single (orbSym : List Nat) (op : Sym K) (k : Int) (ops : List Op) (hop : ∀ i < orbSym.length, (i : Int) = k → StandsFor orbSym i op ops) (m : Nat)
    (hm : m < orbSym.length) :
    siteTensor tiny t v orbSym op k m = (siteMat tiny t v orbSym op k m).sparse ∧
      Single orbSym.length orbSym m (siteMat tiny t v orbSym op k m) (if m = 0 then 0 else op.label) (if m = 0 then 0 else if (m : Int) ≤ k then op.label else 0)
        (if m ≠ 0 ∧ m + 1 = orbSym.length then 0 else if (m : Int) ≥ k then op.label else 0) (if (m : Int) = k then op.label else 0)
        (if (m : Int) = k then op.factor • fockMat orbSym.length ops else 1) := by
  have hloc : ∃ c, cell tiny t v orbSym m ⟨0, 0, some (if (m : Int) = k then op else iSymbol)⟩ = some c ∧
      (∀ x ∈ c.toList, x.row = 0 ∧ x.col = 0 ∧ SiteOp (orbSym.getD m 0) (if (m : Int) = k then op.label else 0) x.op) ∧
      (c.toList.map fun x => x.factor • siteVal orbSym.length orbSym m x.op).sum = if (m : Int) = k then op.factor • fockMat orbSym.length ops else 1 := by
    by_cases h : (m : Int) = k
    · simp only [if_pos h]
      exact cell_spec tiny t v orbSym (loc_sym tiny t v orbSym hm (hop m hm h))
    · simp only [if_neg h]
      obtain ⟨c, c1, c2, c3⟩ := cell_spec tiny t v orbSym (e := iSymbol) (loc_i tiny t v orbSym m hm)
      exact ⟨c, c1, c2, c3.trans (one_smul ..)⟩
  obtain ⟨c, c1, c2, c3⟩ := hloc
  refine ⟨siteTensor_eq tiny t v orbSym op k m (by rw [c1]; rfl), ⟨rfl, rfl, rfl, ?_, ?_⟩⟩
  · unfold siteMat
    dsimp only
    rw [c1]
    exact c2
  · unfold siteMat
    dsimp only
    rw [c1]
    exact c3

theorem site_mpo (orbSym : List Nat) (h0 : orbSym.length ≠ 0) (op : Sym K) (k : Int) (ops : List Op)
    (hop : ∀ i < orbSym.length, (i : Int) = k → StandsFor orbSym i op ops) :
    ∃ ws X, (List.range orbSym.length).mapM (siteTensor tiny t v orbSym op k) = some ws ∧
      OpOnBonds SZ.isFermion ([(0, 1)] :: X ++ [[(if 2 ≤ orbSym.length then 0 else if 0 ≥ k then op.label else 0, 1)]]) (orbSym.map fun g => ([siteBasis g], [siteBasis g])) ws ∧
      (∀ b ∈ X, GoodBond b) ∧
      (0 ≤ k ∧ k < orbSym.length → ∀ m W, ws[m]? = some W → m < orbSym.length ∧ ∀ b ∈ W.both, fermParity SZ.isFermion b.1 =
        (decide (m ≠ 0 ∧ m + 1 = orbSym.length) && SZ.isFermion op.label)) ∧
      ((orbSym.length : Int) ≤ k → ∀ W ∈ ws, EvenBlocks SZ.isFermion W.both) ∧
      ∀ u d : Fin orbSym.length → Bool × Bool,
        opAmpl SZ.isFermion ws X false (0, 0) (legsOf orbSym u) (legsOf orbSym d) (if 2 ≤ orbSym.length then 0 else if 0 ≥ k then op.label else 0, 0) =
          (if 0 ≤ k ∧ k < orbSym.length then op.factor • fockMat orbSym.length ops else 1 : FockRing orbSym.length K) u d := by
  have hs := site_single tiny t v orbSym op k ops hop
  obtain ⟨ws, X, h1, h2, h3, h4, h5⟩ := single_mpo orbSym rfl h0 (siteMat tiny t v orbSym op k) _ _ _ _ _ (fun m hm => (hs m hm).2) (if_pos rfl) (if_pos rfl) (by
    intro m hm
    rw [if_neg (by omega : ¬ (m ≠ 0 ∧ m + 1 = orbSym.length)), if_neg (by omega : ¬ m + 1 = 0), if_neg (by omega : ¬ m + 1 = 0)]
    by_cases h : (m : Int) ≥ k
    · rw [if_pos h, if_neg (by push_cast; omega), sub_zero]
    · rw [if_neg h, if_pos (by push_cast; omega), sub_self])
  have er : (if orbSym.length - 1 ≠ 0 ∧ orbSym.length - 1 + 1 = orbSym.length then 0 else if ((orbSym.length - 1 : Nat) : Int) ≥ k then op.label else 0) =
      if 2 ≤ orbSym.length then 0 else if 0 ≥ k then op.label else 0 := by
    by_cases h : 2 ≤ orbSym.length
    · rw [if_pos h, if_pos (by omega)]
    · rw [if_neg h, if_neg (by omega), show orbSym.length - 1 = 0 by omega]
      rfl
  rw [er] at h2
  simp only [er] at h5
  refine ⟨ws, X, ?_, h2, h3, ?_, ?_, ?_⟩
  · rw [← h1, List.mapM_map]
    exact mapM_congr' _ _ _ fun m hm => (hs m (List.mem_range.1 hm)).1
  · rintro ⟨k1, k2⟩ m W hW
    obtain ⟨hm, hb⟩ := h4 m W hW
    refine ⟨hm, fun b h => (hb b h).trans ?_⟩
    by_cases hz : m = 0
    · subst hz
      simp only [ne_eq, not_true_eq_false, false_and, if_false, if_true, decide_false, Bool.false_and]
      by_cases h : (0 : Int) = k
      · subst h
        simp
      · rw [if_neg (by simpa using h), if_neg (by simpa using by omega)]
        simp
    · simp only [hz, ne_eq, not_false_eq_true, true_and, if_false]
      by_cases hl : m + 1 = orbSym.length
      · simp only [hl, if_true, decide_true, Bool.true_and]
        by_cases h : (m : Int) = k
        · rw [if_pos h, if_pos (by omega)]
          simp [isF_zero]
        · rw [if_neg h, if_neg (by omega)]
          simp [isFermion_neg, isF_zero]
      · simp only [hl, if_false, decide_false, Bool.false_and]
        rcases lt_trichotomy (m : Int) k with h | h | h
        · rw [if_neg (by omega), if_pos (by omega), if_neg (by omega)]
          simp
        · rw [if_pos h, if_pos (by omega), if_pos (by omega)]
          simp
        · rw [if_neg (by omega), if_neg (by omega), if_pos (by omega)]
          simp
  · intro hk W hW b hb
    obtain ⟨m, hm, rfl⟩ := List.mem_iff_getElem.1 hW
    obtain ⟨hm', hp⟩ := h4 m _ (List.getElem?_eq_getElem hm)
    rw [hp b hb]
    rw [if_neg (by omega), if_neg (by omega : ¬ (m : Int) ≥ k), if_pos (by omega : (m : Int) ≤ k)]
    by_cases hz : m = 0 <;> simp [hz]
  · intro u d
    rw [h5 u d, List.range_eq_range', prod_one_at]
    simp

theorem one_element {n : Nat} (f : K) (ops : List Op) (u d : Fin n → Bool × Bool) : (f • fockMat n ops) u d = matrixElement [(f, ops)] (modes u) (modes d) := by
  rw [element_sum]
  simp

theorem identity_element {n : Nat} (u d : Fin n → Bool × Bool) : (1 : FockRing n K) u d = matrixElement [(1, [])] (modes u) (modes d) := by
  rw [← one_element, fockMat_nil, one_smul]

/-- C56: `build_site_mpo` of a symbol of orbital `i` makes a matrix product operator with the matrix elements of the fermionic operators that the symbol stands for.  The site is
given by `k`, or by the first index of the symbol if `k = -1`.  If the operator keeps the fermion parity, all blocks are bosonic. -/
theorem C56_site (orbSym : List Nat) (hn : 2 ≤ orbSym.length) (i : Nat) (hi : i < orbSym.length) (op : Sym K) (ops : List Op) (hop : StandsFor orbSym i op ops) (k : Int)
    (hk : k = i ∨ (k = -1 ∧ op.site.head? = some (i : Int))) :
    ∃ ws X, buildSiteMpo tiny t v orbSym op k = some ws ∧ ActsAs orbSym [(op.factor, ops)] ws X ∧
      (SZ.isFermion op.label = false → ∀ W ∈ ws, EvenBlocks SZ.isFermion W.both) := by
  have hs : siteOf op k = some (i : Int) := by
    rcases hk with rfl | ⟨rfl, h⟩
    · exact if_neg (by omega)
    · exact (if_pos rfl).trans h
  obtain ⟨ws, X, h1, h2, h3, h4, -, h5⟩ := site_mpo tiny t v orbSym (by omega) op i ops fun j _ hj => by
    rw [show j = i by omega]
    exact hop
  rw [if_pos hn] at h2
  simp only [if_pos hn] at h5
  have h4 := h4 ⟨by omega, by omega⟩
  have hlen : ws.length = orbSym.length := by
    have := mapM_len h1
    simpa using this
  refine ⟨ws, X, by rw [buildSiteMpo, hs]; exact h1, ⟨h2, h3, ⟨?_, ?_⟩, ?_⟩, ?_⟩
  · intro T hT b hb
    rw [← List.map_dropLast] at hT
    obtain ⟨W, hW, rfl⟩ := List.mem_map.1 hT
    obtain ⟨m, hm, rfl⟩ := List.mem_iff_getElem.1 hW
    rw [List.length_dropLast] at hm
    rw [List.getElem_dropLast] at hb
    rw [(h4 m _ (List.getElem?_eq_getElem (by omega))).2 b hb, decide_eq_false (by omega)]
    rfl
  · intro T hT
    obtain ⟨W, hW, rfl⟩ := List.mem_map.1 hT
    obtain ⟨m, hm, rfl⟩ := List.mem_iff_getElem.1 hW
    exact ⟨_, (h4 m _ (List.getElem?_eq_getElem hm)).2⟩
  · intro u d
    rw [h5 u d, if_pos ⟨by omega, by omega⟩, one_element]
  · intro hq W hW b hb
    obtain ⟨m, hm, rfl⟩ := List.mem_iff_getElem.1 hW
    rw [(h4 m _ (List.getElem?_eq_getElem hm)).2 b hb, hq, Bool.and_false]

theorem identity_site (orbSym : List Nat) : identityTensor tiny t v orbSym = siteTensor tiny t v orbSym iSymbol orbSym.length := by
  funext m
  unfold identityTensor siteTensor
  simp only [ite_self]
  congr 1
  funext c
  congr 1
  show (0 : SZ) = if m = 0 then 0 else 0
  rw [ite_self]

/-- C56: `build_identity_mpo` makes a matrix product operator with the matrix elements of the identity. -/
theorem C56_identity (orbSym : List Nat) (h0 : orbSym ≠ []) : ∃ ws X, buildIdentityMpo tiny t v orbSym = some ws ∧ Represents orbSym [(1, [])] ws X := by
  obtain ⟨ws, X, h1, h2, h3, -, h4, h5⟩ := site_mpo tiny t v orbSym (by simpa using h0) iSymbol orbSym.length [] fun j hj h => by omega
  have el : (if 2 ≤ orbSym.length then (0 : SZ) else if (0 : Int) ≥ orbSym.length then (iSymbol : Sym K).label else 0) = 0 := by
    show (if 2 ≤ orbSym.length then (0 : SZ) else if (0 : Int) ≥ orbSym.length then 0 else 0) = 0
    simp
  rw [el] at h2
  simp only [el] at h5
  refine ⟨ws, X, by rw [buildIdentityMpo, identity_site]; exact h1, h2, h3, h4 le_rfl, fun u d => ?_⟩
  rw [h5 u d, if_neg (by omega), identity_element]

/-- C56: a site behind the last one is not refused: the result is the identity, whatever the operator. -/
theorem C56_behind (orbSym : List Nat) (hn : 2 ≤ orbSym.length) (op : Sym K) (k : Int) (hk : orbSym.length ≤ k) :
    ∃ ws X, buildSiteMpo tiny t v orbSym op k = some ws ∧ Represents orbSym [(1, [])] ws X := by
  obtain ⟨ws, X, h1, h2, h3, -, h4, h5⟩ := site_mpo tiny t v orbSym (by omega) op k [] fun j hj h => by omega
  rw [if_pos hn] at h2
  simp only [if_pos hn] at h5
  refine ⟨ws, X, by rw [buildSiteMpo, siteOf, if_neg (by omega)]; exact h1, h2, h3, h4 hk, fun u d => ?_⟩
  rw [h5 u d, if_neg (by omega), identity_element]

/-- C56: a negative site other than -1 is not counted from the end: the matrix elements are those of the identity, but the bonds carry the label of the operator. -/
theorem C56_negative (orbSym : List Nat) (hn : 2 ≤ orbSym.length) (op : Sym K) (k : Int) (hk : k < -1) :
    ∃ ws X, buildSiteMpo tiny t v orbSym op k = some ws ∧
      OpOnBonds SZ.isFermion ([(0, 1)] :: X ++ [[(0, 1)]]) (orbSym.map fun g => ([siteBasis g], [siteBasis g])) ws ∧ (∀ b ∈ X, GoodBond b) ∧
      ∀ u d : Fin orbSym.length → Bool × Bool,
        opAmpl SZ.isFermion ws X false (0, 0) (legsOf orbSym u) (legsOf orbSym d) (0, 0) = if u = d then 1 else 0 := by
  obtain ⟨ws, X, h1, h2, h3, -, -, h5⟩ := site_mpo tiny t v orbSym (by omega) op k [] fun j hj h => by omega
  rw [if_pos hn] at h2
  simp only [if_pos hn] at h5
  refine ⟨ws, X, by rw [buildSiteMpo, siteOf, if_neg (by omega)]; exact h1, h2, h3, fun u d => ?_⟩
  rw [h5 u d, if_neg (by omega), Matrix.one_apply]

/-- C56: with one orbital the right edge has the label of the operator, not the label of the vacuum as with two or more orbitals. -/
theorem C56_one_orbital (g : Nat) (op : Sym K) (ops : List Op) (hop : StandsFor [g] 0 op ops) :
    ∃ W, buildSiteMpo tiny t v [g] op 0 = some [W] ∧ OpSite SZ.isFermion [(0, 1)] [siteBasis g] [siteBasis g] [(op.label, 1)] W ∧
      ∀ u d : Fin 1 → Bool × Bool, opAmpl SZ.isFermion [W] [] false (0, 0) (legsOf [g] u) (legsOf [g] d) (op.label, 0) =
        matrixElement [(op.factor, ops)] (modes u) (modes d) := by
  obtain ⟨ws, X, h1, h2, -, -, -, h5⟩ := site_mpo tiny t v [g] (by simp) op 0 ops fun j hj h => by
    rw [show j = 0 by omega]
    exact hop
  have hlen : ws.length = 1 := by
    have := mapM_len h1
    simpa using this
  obtain ⟨W, rfl⟩ := List.length_eq_one_iff.1 hlen
  have el : (if 2 ≤ [g].length then (0 : SZ) else if (0 : Int) ≥ 0 then op.label else 0) = op.label := by simp
  rw [el] at h2
  simp only [el] at h5
  have hX : X = [] := by
    rcases X with _ | ⟨x, X⟩
    · rfl
    · rcases X with _ | ⟨y, X⟩ <;> simp [OpOnBonds] at h2
  subst hX
  refine ⟨W, h1, h2.1, fun u d => ?_⟩
  have := h5 u d
  rw [if_pos (by simp), one_element] at this
  exact this

/-! ### Adjoints and density matrices -/

theorem fockMat_flip (n : Nat) (b : Bool) (m : Nat) (u d : Fin n → Bool × Bool) : fockMat (K := K) n [(!b, m)] u d = fockMat n [(b, m)] d u := by
  have hlen : (modes u).length = (modes d).length := by rw [length_modes, length_modes]
  unfold fockMat
  congr 1
  generalize modes u = x at *
  generalize modes d = y at *
  unfold element
  simp only [actAll]
  by_cases hx : x[m]? = some (!b)
  · rw [act_some (o := (b, m)) hx]
    by_cases hy : y[m]? = some b
    · rw [act_some (o := (!b, m)) (by simpa using hy)]
      simp only [one_mul]
      by_cases h : x = y.set m (!b)
      · have h' : y = x.set m b := by
          rw [h, List.set_set]
          refine List.ext_getElem? fun i => ?_
          by_cases hi : i = m
          · subst hi
            rw [hy, List.getElem?_set_self (List.getElem?_eq_some_iff.1 hy).1]
          · rw [List.getElem?_set_ne (Ne.symm hi)]
        rw [if_pos h.symm, if_pos h'.symm]
        rw [h, List.take_set_of_le le_rfl]
      · rw [if_neg fun e => h e.symm, if_neg]
        intro h'
        refine h ?_
        rw [← h', List.set_set]
        refine List.ext_getElem? fun i => ?_
        by_cases hi : i = m
        · subst hi
          rw [hx, List.getElem?_set_self (List.getElem?_eq_some_iff.1 hx).1]
        · rw [List.getElem?_set_ne (Ne.symm hi)]
    · rw [act_none (o := (!b, m)) (by simpa using hy)]
      simp only [one_mul]
      rw [if_neg]
      intro h
      apply hy
      rw [← h, List.getElem?_set_self (List.getElem?_eq_some_iff.1 hx).1]
  · rw [act_none (o := (b, m)) hx]
    by_cases hy : y[m]? = some b
    · rw [act_some (o := (!b, m)) (by simpa using hy)]
      simp only [one_mul]
      rw [if_neg]
      intro h
      apply hx
      rw [← h, List.getElem?_set_self (List.getElem?_eq_some_iff.1 hy).1]
    · rw [act_none (o := (!b, m)) (by simpa using hy)]

theorem fockMat_append (n : Nat) (w w' : List Op) : fockMat (K := K) n (w ++ w') = fockMat n w * fockMat n w' := by
  induction w with
  | nil => rw [List.nil_append, fockMat_nil, one_mul]
  | cons o w ih => rw [List.cons_append, fockMat_cons, ih, fockMat_cons o w, mul_assoc]

theorem fockMat_adjoint (n : Nat) (w : List Op) : fockMat (K := K) n (w.reverse.map fun o => (!o.1, o.2)) = (fockMat n w).transpose := by
  induction w with
  | nil => rw [List.reverse_nil, List.map_nil, fockMat_nil, Matrix.transpose_one]
  | cons o w ih =>
    rw [List.reverse_cons, List.map_append, fockMat_append, ih, fockMat_cons o w, Matrix.transpose_mul]
    congr 1
    funext u d
    exact fockMat_flip n o.1 o.2 u d

/-- The matrix of the adjoint is the transposed matrix. -/
theorem element_adjoint {n : Nat} (H : FockOp K) (u d : Fin n → Bool × Bool) : matrixElement (adjoint H) (modes u) (modes d) = matrixElement H (modes d) (modes u) := by
  unfold matrixElement adjoint
  rw [List.map_map]
  refine sum_map_congr' _ _ _ fun t _ => ?_
  have := congrFun (congrFun (fockMat_adjoint (K := K) n t.2) u) d
  exact congrArg (t.1 * ·) this

theorem sum_actOn {n : Nat} (H H' : FockOp K) (f f' : (Fin n → Bool × Bool) → K) :
    ∑ u, actOn H f u * actOn H' f' u = ∑ u, ∑ d, f u * matrixElement (Hamiltonian.compose (adjoint H) H') (modes u) (modes d) * f' d := by
  have e : ∀ u d : Fin n → Bool × Bool, f u * matrixElement (Hamiltonian.compose (adjoint H) H') (modes u) (modes d) * f' d =
      ∑ m : Fin n → Bool × Bool, matrixElement H (modes m) (modes u) * f u * (matrixElement H' (modes m) (modes d) * f' d) := by
    intro u d
    rw [compose_mat, Finset.mul_sum, Finset.sum_mul]
    refine Finset.sum_congr rfl fun m _ => ?_
    rw [element_adjoint]
    ring
  simp only [e]
  calc ∑ m, actOn H f m * actOn H' f' m = ∑ m, ∑ u, ∑ d, matrixElement H (modes m) (modes u) * f u * (matrixElement H' (modes m) (modes d) * f' d) := by
        refine Finset.sum_congr rfl fun m _ => ?_
        rw [actOn, actOn, Finset.sum_mul]
        refine Finset.sum_congr rfl fun u _ => ?_
        rw [Finset.mul_sum]
    _ = ∑ u, ∑ m, ∑ d, matrixElement H (modes m) (modes u) * f u * (matrixElement H' (modes m) (modes d) * f' d) := Finset.sum_comm
    _ = _ := by
        refine Finset.sum_congr rfl fun u _ => ?_
        exact Finset.sum_comm

theorem shifted_zero {n : Nat} (H : FockOp K) (f : (Fin n → Bool × Bool) → K) (u : Fin n → Bool × Bool) : actOn (shifted H 0) f u = actOn H f u := by
  unfold actOn
  refine Finset.sum_congr rfl fun d _ => ?_
  congr 1
  simp [shifted, matrixElement]

/-- C56: the inner product of `A ψ` and `B ψ'`, both computed with matrix product operators, is `Σ ψ(u) ⟨u|A† B|d⟩ ψ'(d)`.  If a product is the number 0 then so is this sum. -/
theorem C56_inner (le : SZ → SZ → Bool) {orbSym : List Nat} (hn : 2 ≤ orbSym.length) {A B : FockOp K} {as bs : List (OpT SZ K)} {X X' Y Y' : List (BondInfo SZ)}
    (hA : ActsAs orbSym A as X) (hB : ActsAs orbSym B bs X') {q : SZ} {ψ ψ' : Mps SZ K} (hψ : StateOn orbSym q ψ Y) (hψ' : StateOn orbSym q ψ' Y') :
    ((Mps.apply SZ.isFermion le ⟨as, 0⟩ ψ = some none ∨ Mps.apply SZ.isFermion le ⟨bs, 0⟩ ψ' = some none) ∧
      ∑ u, ∑ d, amplitude orbSym q ψ.tensors Y u * matrixElement (Hamiltonian.compose (adjoint A) B) (modes u) (modes d) * amplitude orbSym q ψ'.tensors Y' d = 0) ∨
    ∃ c c', Mps.apply SZ.isFermion le ⟨as, 0⟩ ψ = some (some c) ∧ Mps.apply SZ.isFermion le ⟨bs, 0⟩ ψ' = some (some c') ∧
      Mps.dot c c' = some (∑ u, ∑ d, amplitude orbSym q ψ.tensors Y u * matrixElement (Hamiltonian.compose (adjoint A) B) (modes u) (modes d) * amplitude orbSym q ψ'.tensors Y' d) := by
  rw [← sum_actOn]
  rcases C55_apply le hn hA 0 (fun h => absurd rfl h) hψ with ⟨h1, h2⟩ | ⟨c, N, h1, h2, h3⟩
  · exact Or.inl ⟨Or.inl h1, Finset.sum_eq_zero fun u _ => by rw [h2, zero_mul]⟩
  · rcases C55_apply le hn hB 0 (fun h => absurd rfl h) hψ' with ⟨h1', h2'⟩ | ⟨c', N', h1', h2', h3'⟩
    · exact Or.inl ⟨Or.inr h1', Finset.sum_eq_zero fun u _ => by rw [h2', mul_zero]⟩
    · refine Or.inr ⟨c, c', h1, h1', ?_⟩
      rw [C55_overlap h2.bonds h2'.bonds h2.good h2'.good (by rw [h2.const, zero_mul])]
      congr 1
      refine Finset.sum_congr rfl fun u _ => ?_
      rw [h3, h3', shifted_zero, shifted_zero]

theorem annihilator_stands (orbSym : List Nat) (i : Nat) (s : Bool) : StandsFor orbSym i (annihilator orbSym i s : Sym K) [(false, 2 * i + s.toNat)] where
  product := by cases s <;> simp [symbolOps, annihilator, nameI]
  label := by
    simp only [List.map_cons, List.map_nil, List.sum_cons, List.sum_nil, add_zero, charge_an]
    cases s <;> simp [annihilator, qb, sz]

/-- C56: the one-particle density matrix as computed with site operators.  For the matrix product operators `d_i`, `d_j` that annihilate an electron with spin `s` on the
orbitals `i` and `j`, the inner product of `d_i ψ` and `d_j ψ` is the expectation value of `c†_is c_js`. -/
theorem C56_density (le : SZ → SZ → Bool) (orbSym : List Nat) (hn : 2 ≤ orbSym.length) (i j : Nat) (hi : i < orbSym.length) (hj : j < orbSym.length) (s : Bool) :
    ∃ di dj, buildSiteMpo tiny t v orbSym (annihilator orbSym i s) (-1) = some di ∧ buildSiteMpo tiny t v orbSym (annihilator orbSym j s) (-1) = some dj ∧
      ∀ (q : SZ) (ψ : Mps SZ K) (Y : List (BondInfo SZ)), StateOn orbSym q ψ Y →
        ((Mps.apply SZ.isFermion le ⟨di, 0⟩ ψ = some none ∨ Mps.apply SZ.isFermion le ⟨dj, 0⟩ ψ = some none) ∧
          expectation [(1, [(true, 2 * i + s.toNat), (false, 2 * j + s.toNat)])] (amplitude orbSym q ψ.tensors Y) = 0) ∨
        ∃ a b, Mps.apply SZ.isFermion le ⟨di, 0⟩ ψ = some (some a) ∧ Mps.apply SZ.isFermion le ⟨dj, 0⟩ ψ = some (some b) ∧
          Mps.dot a b = some (expectation [(1, [(true, 2 * i + s.toNat), (false, 2 * j + s.toNat)])] (amplitude orbSym q ψ.tensors Y)) := by
  obtain ⟨di, X, h1, h2, -⟩ := C56_site tiny t v orbSym hn i hi (annihilator orbSym i s) _ (annihilator_stands orbSym i s) (-1) (Or.inr ⟨rfl, rfl⟩)
  obtain ⟨dj, X', h1', h2', -⟩ := C56_site tiny t v orbSym hn j hj (annihilator orbSym j s) _ (annihilator_stands orbSym j s) (-1) (Or.inr ⟨rfl, rfl⟩)
  refine ⟨di, dj, h1, h1', fun q ψ Y hψ => ?_⟩
  have := C56_inner le hn h2 h2' hψ hψ
  have e : Hamiltonian.compose (adjoint [((annihilator orbSym i s : Sym K).factor, [(false, 2 * i + s.toNat)])]) [((annihilator orbSym j s : Sym K).factor, [(false, 2 * j + s.toNat)])] =
      [(1, [(true, 2 * i + s.toNat), (false, 2 * j + s.toNat)])] := by
    simp [Hamiltonian.compose, adjoint, annihilator]
  rw [e] at this
  exact this

/-! ### Concrete cases -/

theorem ex_symbol : StandsFor exSym 1 (annihilator exSym 1 true : Sym Rat) [(false, 3)] := annihilator_stands exSym 1 true

/-- Annihilation of an electron with spin down on the second orbital passes the electron on the first. -/
example : ∃ ws X, buildSiteMpo (K := Rat) (fun x => decide (x = 0)) (fun _ _ _ => 0) (fun _ _ _ _ _ _ => 0) exSym (annihilator exSym 1 true) (-1) = some ws ∧
    ActsAs exSym [(1, [(false, 3)])] ws X ∧
    opAmpl SZ.isFermion ws X false (0, 0) (legsOf exSym ![(true, false), (false, false), (false, false)]) (legsOf exSym ![(true, false), (false, true), (false, false)]) (0, 0) = -1 := by
  obtain ⟨ws, X, h1, h2, -⟩ := C56_site (K := Rat) (fun x => decide (x = 0)) (fun _ _ _ => 0) (fun _ _ _ _ _ _ => 0) exSym (by decide) 1 (by decide) _ _ ex_symbol (-1) (Or.inr ⟨rfl, rfl⟩)
  exact ⟨ws, X, h1, h2, (h2.elements ![(true, false), (false, false), (false, false)] ![(true, false), (false, true), (false, false)]).trans (by decide +kernel)⟩

/-- The site of a symbol may also be given: `c†↑ c↓` on the third orbital. -/
example : ∃ ws X, buildSiteMpo (K := Rat) (fun x => decide (x = 0)) (fun _ _ _ => 0) (fun _ _ _ _ _ _ => 0) exSym ⟨nameB, [0, 0, 0, 1], 5, ⟨0, 2, 0⟩⟩ 2 = some ws ∧
    ActsAs exSym [(5, [(true, 4), (false, 5)])] ws X ∧ ∀ W ∈ ws, EvenBlocks SZ.isFermion W.both := by
  obtain ⟨ws, X, h1, h2, h3⟩ := C56_site (K := Rat) (fun x => decide (x = 0)) (fun _ _ _ => 0) (fun _ _ _ _ _ _ => 0) exSym (by decide) 2 (by decide)
    ⟨nameB, [0, 0, 0, 1], 5, ⟨0, 2, 0⟩⟩ [(true, 4), (false, 5)] ⟨rfl, by decide⟩ 2 (Or.inl rfl)
  exact ⟨ws, X, h1, h2, h3 rfl⟩

/-- One electron with amplitude 2 on the first orbital and 3 on the second. -/
example : ∃ di dj a b, buildSiteMpo (K := Rat) (fun x => decide (x = 0)) (fun _ _ _ => 0) (fun _ _ _ _ _ _ => 0) exSym (annihilator exSym 0 false) (-1) = some di ∧
    buildSiteMpo (K := Rat) (fun x => decide (x = 0)) (fun _ _ _ => 0) (fun _ _ _ _ _ _ => 0) exSym (annihilator exSym 1 false) (-1) = some dj ∧
    Mps.apply SZ.isFermion (fun a b => !SZ.lt b a) ⟨di, 0⟩ exState = some (some a) ∧ Mps.apply SZ.isFermion (fun a b => !SZ.lt b a) ⟨dj, 0⟩ exState = some (some b) ∧
    Mps.dot a b = some (2 * 3) := by
  obtain ⟨di, dj, h1, h2, h3⟩ := C56_density (K := Rat) (fun x => decide (x = 0)) (fun _ _ _ => 0) (fun _ _ _ _ _ _ => 0) (fun a b => !SZ.lt b a) exSym (by decide) 0 1 (by decide) (by decide) false
  have e : expectation [(1, [(true, 0), (false, 2)])] (amplitude exSym ⟨1, 1, 0⟩ exState.tensors exBonds) = 2 * 3 := by decide +kernel
  rcases h3 _ _ _ ex_state with ⟨_, h⟩ | ⟨a, b, h4, h5, h6⟩
  · rw [show expectation [(1, [(true, 2 * 0 + Bool.toNat false), (false, 2 * 1 + Bool.toNat false)])] (amplitude exSym ⟨1, 1, 0⟩ exState.tensors exBonds) = 2 * 3 from e] at h
    exact absurd h (by norm_num)
  · exact ⟨di, dj, a, b, h1, h2, h4, h5, h6.trans (congrArg some e)⟩

end SiteMpo
end Verif
