import Verif.Proof.QcMpoChain

/-!
Lemmas for chains of symbolic tensors whose symbols have been replaced by matrices: the block tensors have the matrix elements of the product of the symbolic matrices.
-/

set_option linter.unusedSectionVars false

namespace Verif

namespace Symbolic
variable {Q : Type} [DecidableEq Q] [AddCommGroup Q]

theorem leg_eq_dq (dq : Q) (lq : List Q) : leftLeg dq lq = rightLeg (lq.map fun q => dq - q) := by
  unfold leftLeg rightLeg
  rw [sectors_map (fun q => dq - q) (sub_right_injective)]

theorem slot_sub (dq : Q) {lq : List Q} {k : Nat} {a : Q × Nat} (h : Slot lq k a) : Slot (lq.map fun q => dq - q) k (dq - a.1, a.2) := by
  obtain ⟨h1, h2⟩ := h
  refine ⟨by simp [h1], ?_⟩
  rw [← List.map_take, List.count_map_of_injective _ _ sub_right_injective]
  exact h2

end Symbolic

namespace Hamiltonian
open Fock Symbolic
variable {K : Type} [Field K] {n : Nat}

/-- A symbolic tensor with matrices for its symbols. -/
structure CellMat (K : Type) where
  dq : SZ
  lq : List SZ
  rq : List SZ
  cells : List (Cell SZ K)

/-- Its block tensor. -/
def CellMat.sparse (m : CellMat K) : Option (OpT SZ K) := toSparse m.dq m.lq m.rq m.cells

/-- Every matrix is an operator of the site with some charge, at a place of the tables. -/
def CellMat.OnSite (ipg : Nat) (m : CellMat K) : Prop :=
  ∀ e ∈ m.cells, ∃ l r q, m.lq[e.row]? = some l ∧ m.rq[e.col]? = some r ∧ SiteOp ipg q e.op

/-- The charge is the difference of the labels of the bonds. -/
def CellMat.Neutral (ipg : Nat) (m : CellMat K) : Prop :=
  ∀ e ∈ m.cells, ∃ l r, m.lq[e.row]? = some l ∧ m.rq[e.col]? = some r ∧ SiteOp ipg (l + r - m.dq) e.op

theorem isFermion_sub (a b : SZ) : SZ.isFermion (a - b) = xor (SZ.isFermion a) (SZ.isFermion b) := by
  rw [sub_eq_add_neg, isFermion_add, isFermion_neg]

/-- The number of fermionic labels of every block has the parity `p`. -/
def CellMat.Par (ipg : Nat) (p : Bool) (m : CellMat K) : Prop :=
  ∀ e ∈ m.cells, ∃ l r q, m.lq[e.row]? = some l ∧ m.rq[e.col]? = some r ∧ SiteOp ipg q e.op ∧
    xor (SZ.isFermion q) (SZ.isFermion (l + r - m.dq)) = p

theorem CellMat.Neutral.par {ipg : Nat} {m : CellMat K} (h : m.Neutral ipg) : m.Par ipg false := by
  intro e he
  obtain ⟨l, r, h1, h2, h3⟩ := h e he
  exact ⟨l, r, _, h1, h2, h3, by simp⟩

theorem sparse_site (ipg : Nat) (m : CellMat K) (h : m.OnSite ipg) :
    ∃ W, m.sparse = some W ∧ OpSite SZ.isFermion (leftLeg m.dq m.lq) [siteBasis ipg] [siteBasis ipg] (rightLeg m.rq) W ∧
      (∀ p, m.Par ipg p → ∀ b ∈ W.both, fermParity SZ.isFermion b.1 = p) ∧
      ∀ (j k : Nat) (a b : SZ × Nat), Slot m.lq j a → Slot m.rq k b → ∀ (s : Bool) (x y : Bool × Bool),
        opEntry W s [(m.dq - a.1, a.2), (occ ipg x.1 x.2, 0), (occ ipg y.1 y.2, 0), b] =
          ((m.cells.filter fun e => e.row = j ∧ e.col = k).map fun e =>
            e.factor * (partMat ipg e.op.even x y + paritySign K s * partMat ipg e.op.odd x y)).sum := by
  obtain ⟨dq, lq, rq, cells⟩ := m
  simp only [CellMat.OnSite, CellMat.Par, CellMat.sparse] at h ⊢
  have hcells : ∀ e ∈ cells, e.row < lq.length ∧ e.col < rq.length := by
    intro e he
    obtain ⟨l, r, q, h1, h2, _⟩ := h e he
    exact ⟨(List.getElem?_eq_some_iff.1 h1).1, (List.getElem?_eq_some_iff.1 h2).1⟩
  obtain ⟨W, h1, h2, h3, h4, h5, h6⟩ := C45_to_sparse dq lq rq [siteBasis ipg, siteBasis ipg] cells hcells (by
    intro e he
    obtain ⟨l, r, q, _, _, h⟩ := h e he
    exact ⟨h.on.1, h.on.2.1⟩)
  have hW := h1
  rw [toSparse, toSparse_eq dq lq rq cells hcells ⟨[], []⟩] at hW
  injection hW with hW
  have blk : ∀ (part : OpT SZ K → SpT SZ K), ∀ b ∈ (cells.flatMap (cellBlocks dq lq rq part)).foldl (fun m b => SpT.accumulate m b.1 b.2) [],
      ∃ e ∈ cells, ∃ l r, lq[e.row]? = some l ∧ rq[e.col]? = some r ∧ ∃ b' ∈ part e.op, b.1 = (dq - l) :: b'.1 ++ [r] := by
    intro part b hb
    rcases mem_accumulate_labels _ _ _ hb with hb | hb
    · simp at hb
    · obtain ⟨b', hb', e'⟩ := List.mem_map.1 hb
      obtain ⟨e, he, hb'⟩ := List.mem_flatMap.1 hb'
      obtain ⟨l, r, q, g1, g2, _⟩ := h e he
      refine ⟨e, he, l, r, g1, g2, ?_⟩
      rw [cellBlocks, g1, g2] at hb'
      obtain ⟨c, hc, rfl⟩ := List.mem_map.1 hb'
      exact ⟨c, hc, e'.symm⟩
  have phys : ∀ (x y l r : SZ), physLabels ((dq - l) :: [x, y] ++ [r]) = [x, y] := fun _ _ _ _ => rfl
  have odd' : ∀ b ∈ W.odd, fermParity SZ.isFermion (physLabels b.1) = true := by
    intro b hb
    rw [← hW] at hb
    obtain ⟨e, he, l, r, g1, g2, b', hb', e'⟩ := blk OpT.odd b hb
    obtain ⟨l', r', q, g1', g2', g3⟩ := h e he
    obtain ⟨x, y, hxy⟩ := two_labels g3.on.1 hb'
    have c := g3.odd b' hb'
    have f := g3.oddF (List.ne_nil_of_mem hb')
    rw [hxy, signed_pair] at c
    rw [← c, isFermion_add, isFermion_neg] at f
    rw [e', hxy, phys, parity_pair, f]
  have even' : ∀ b ∈ W.even, fermParity SZ.isFermion (physLabels b.1) = false := by
    intro b hb
    rw [← hW] at hb
    obtain ⟨e, he, l, r, g1, g2, b', hb', e'⟩ := blk OpT.even b hb
    obtain ⟨l', r', q, g1', g2', g3⟩ := h e he
    obtain ⟨x, y, hxy⟩ := two_labels g3.on.2.1 hb'
    have c := g3.even b' hb'
    have f := g3.evenF (List.ne_nil_of_mem hb')
    rw [hxy, signed_pair] at c
    rw [← c, isFermion_add, isFermion_neg] at f
    rw [e', hxy, phys, parity_pair, f]
  refine ⟨W, h1, ⟨h2, h3, h4, h5, odd', even'⟩, ?_, ?_⟩
  · intro p hN
    have key : ∀ (part : OpT SZ K → SpT SZ K) (l r q : SZ) (e : Cell SZ K), (∀ b ∈ part e.op, signedSum [true, false] b.1 = q) → xor (SZ.isFermion q) (SZ.isFermion (l + r - dq)) = p → Conforms [siteBasis ipg, siteBasis ipg] (part e.op) →
        ∀ b' ∈ part e.op, fermParity SZ.isFermion ((dq - l) :: b'.1 ++ [r]) = p := by
      intro part l r q e hc hq hf b' hb'
      obtain ⟨x, y, hxy⟩ := two_labels hf hb'
      have c := hc b' hb'
      rw [hxy, signed_pair] at c
      have c' := congrArg SZ.isFermion c
      rw [isFermion_add, isFermion_neg] at c'
      rw [← c', isFermion_sub, isFermion_add] at hq
      rw [hxy]
      show fermParity SZ.isFermion [dq - l, x, y, r] = p
      rw [fermParity_cons, fermParity_cons, parity_pair, isFermion_sub]
      revert hq
      cases p <;> cases SZ.isFermion x <;> cases SZ.isFermion y <;> cases SZ.isFermion l <;> cases SZ.isFermion r <;> cases SZ.isFermion dq <;> simp
    intro b hb
    rcases List.mem_append.1 hb with hb | hb
    · rw [← hW] at hb
      obtain ⟨e, he, l, r, g1, g2, b', hb', e'⟩ := blk OpT.odd b hb
      obtain ⟨l', r', q', g1', g2', g3, g4⟩ := hN e he
      rw [g1] at g1'
      rw [g2] at g2'
      injection g1' with g1'
      injection g2' with g2'
      subst g1' g2'
      rw [e']
      exact key OpT.odd l r q' e g3.odd g4 g3.on.1 b' hb'
    · rw [← hW] at hb
      obtain ⟨e, he, l, r, g1, g2, b', hb', e'⟩ := blk OpT.even b hb
      obtain ⟨l', r', q', g1', g2', g3, g4⟩ := hN e he
      rw [g1] at g1'
      rw [g2] at g2'
      injection g1' with g1'
      injection g2' with g2'
      subst g1' g2'
      rw [e']
      exact key OpT.even l r q' e g3.even g4 g3.on.2.1 b' hb'
  · intro j k a b ha hb s x y
    obtain ⟨e1, e2⟩ := h6 j k a b ha hb [(occ ipg x.1 x.2, 0), (occ ipg y.1 y.2, 0)]
    simp only [List.cons_append, List.nil_append] at e1 e2
    rw [opEntry, e1, e2, ← sum_map_mul_left', ← sum_map_add']
    refine sum_map_congr' _ _ _ fun e _ => ?_
    simp only [partMat]
    ring

/-! ### The chain -/

/-- The operator on all sites that a tensor of site `i` stands for. -/
def siteVal (n : Nat) (g : List Nat) (i : Nat) (T : OpT SZ K) : Matrix (Fin n → Bool × Bool) (Fin n → Bool × Bool) K :=
  if h : i < n then embT (g.getD i 0) ⟨i, h⟩ T else 0

/-- Row `j` of the product of the matrices of the sites `i`, `i + 1`, ...; the last matrix has one column. -/
def chainVal (n : Nat) (g : List Nat) : List (CellMat K) → Nat → Nat → Matrix (Fin n → Bool × Bool) (Fin n → Bool × Bool) K
  | [], _, _ => 0
  | [m], i, j => ((m.cells.filter fun e => e.row = j).map fun e => e.factor • siteVal n g i e.op).sum
  | m :: m' :: ms, i, j => ((m.cells.filter fun e => e.row = j).map fun e => e.factor • siteVal n g i e.op * chainVal n g (m' :: ms) (i + 1) e.col).sum

/-- The bonds fit. -/
def Linked : List (CellMat K) → Prop
  | m :: m' :: ms => m.rq = m'.lq.map (fun q => m'.dq - q) ∧ Linked (m' :: ms)
  | _ => True

/-- The inner bonds. -/
def innerBonds (ms : List (CellMat K)) : List (BondInfo SZ) := (ms.dropLast).map fun m => rightLeg m.rq

theorem cell_chain (g : List Nat) (hn : g.length = n) (r0 : SZ) (m : CellMat K) (ms : List (CellMat K)) (i : Nat) (hi : i + ms.length + 1 = n)
    (hms : ∀ (k : Nat) (m' : CellMat K), (m :: ms)[k]? = some m' → m'.OnSite (g.getD (i + k) 0)) (hb : Linked (m :: ms)) (hr : ((m :: ms).getLast (by simp)).rq = [r0]) :
    ∃ ws, (m :: ms).mapM CellMat.sparse = some ws ∧
      OpOnBonds SZ.isFermion (leftLeg m.dq m.lq :: innerBonds (m :: ms) ++ [rightLeg [r0]]) ((g.drop i).map fun g => ([siteBasis g], [siteBasis g])) ws ∧
      ((∀ (k : Nat) (m' : CellMat K), (m :: ms)[k]? = some m' → m'.Neutral (g.getD (i + k) 0)) → ∀ W ∈ ws, EvenBlocks SZ.isFermion W.both) ∧
      ∀ (j : Nat) (a : SZ × Nat), Slot m.lq j a → ∀ u d : Fin n → Bool × Bool,
        chainVal n g (m :: ms) i j u d = if (∀ l : Fin n, l.1 < i → u l = d l) then
          opAmpl SZ.isFermion ws (innerBonds (m :: ms)) (parBelow d i) (m.dq - a.1, a.2) ((legsOf g u).drop i) ((legsOf g d).drop i) (r0, 0) else 0 := by
  induction ms generalizing i m with
  | nil =>
    simp only [List.length_nil, add_zero] at hi
    have hin : i < n := by omega
    have hm := hms 0 m rfl
    rw [add_zero] at hm
    obtain ⟨W, w1, w2, w3, w5⟩ := sparse_site _ m hm
    simp only [List.getLast_singleton] at hr
    have hdrop : g.drop i = [g.getD i 0] := by
      rw [List.drop_eq_getElem_cons (by omega), List.drop_eq_nil_of_le (by omega), List.getD_eq_getElem _ _ (by omega)]
    refine ⟨[W], ?_, ?_, ?_, ?_⟩
    · simp [List.mapM_cons, w1]
    · rw [hdrop]
      rw [hr] at w2
      exact ⟨w2, trivial⟩
    · intro h W' hW'
      rw [List.mem_singleton.1 hW']
      exact w3 false (CellMat.Neutral.par (by simpa using h 0 m rfl))
    · intro j a ha u d
      have hu := legsOf_drop g u ⟨i, hin⟩
      have hd := legsOf_drop g d ⟨i, hin⟩
      have hnil : ∀ u : Fin n → Bool × Bool, (legsOf g u).drop (i + 1) = [] := fun u => List.drop_eq_nil_of_le (by simp [legsOf]; omega)
      dsimp only at hu hd
      rw [hnil] at hu hd
      rw [hu, hd]
      show (chainVal n g [m] i j) u d = if _ then opEntry W _ _ else 0
      simp only [List.cons_append, List.nil_append]
      rw [w5 j 0 a (r0, 0) ha ⟨by rw [hr]; rfl, by rw [hr]; rfl⟩, chainVal, sum_apply]
      have hcol : ∀ e ∈ m.cells, e.col = 0 := by
        intro e he
        obtain ⟨_, _, _, _, h, _⟩ := hm e he
        rw [hr] at h
        have := (List.getElem?_eq_some_iff.1 h).1
        simpa using this
      have hf : (m.cells.filter fun e => decide (e.row = j ∧ e.col = 0)) = m.cells.filter fun e => decide (e.row = j) := by
        refine List.filter_congr fun e he => ?_
        simp [hcol e he]
      rw [hf]
      have : ∀ e ∈ m.cells.filter fun e => decide (e.row = j), (e.factor • siteVal n g i e.op) u d =
          if (∀ l : Fin n, l.1 < i → u l = d l) then e.factor * (partMat (g.getD i 0) e.op.even (u ⟨i, hin⟩) (d ⟨i, hin⟩) +
            paritySign K (parBelow d i) * partMat (g.getD i 0) e.op.odd (u ⟨i, hin⟩) (d ⟨i, hin⟩)) else 0 := by
        intro e he
        rw [siteVal, dif_pos hin, Matrix.smul_apply, embT, emb_last _ (by simpa using hi)]
        simp only [smul_eq_mul, mul_ite, mul_zero]
      rw [sum_map_congr' _ _ _ this]
      split_ifs
      · rfl
      · exact sum_map_zero' _ _ fun _ _ => rfl
  | cons m' ms ih =>
    simp only [List.length_cons] at hi
    have hin : i < n := by omega
    obtain ⟨hb1, hb2⟩ := hb
    obtain ⟨ws, i1, i2, i3, i4⟩ := ih m' (i + 1) (by omega) (fun k m'' hk => by
      have := hms (k + 1) m'' (by simpa using hk)
      rwa [show i + (k + 1) = i + 1 + k by omega] at this) hb2 (by simpa using hr)
    have hm := hms 0 m rfl
    rw [add_zero] at hm
    obtain ⟨W, w1, w2, w3, w5⟩ := sparse_site _ m hm
    have hdrop : g.drop i = g.getD i 0 :: g.drop (i + 1) := by
      rw [List.drop_eq_getElem_cons (by omega), List.getD_eq_getElem _ _ (by omega)]
    have hleg : leftLeg m'.dq m'.lq = rightLeg m.rq := by rw [leg_eq_dq, hb1]
    have hib : innerBonds (m :: m' :: ms) = rightLeg m.rq :: innerBonds (m' :: ms) := by simp [innerBonds]
    refine ⟨W :: ws, ?_, ?_, ?_, ?_⟩
    · rw [List.mapM_cons, w1, i1]
      rfl
    · rw [hdrop, hib]
      rw [hleg] at i2
      exact ⟨w2, i2⟩
    · intro h W' hW'
      rcases List.mem_cons.1 hW' with rfl | hW'
      · exact w3 false (CellMat.Neutral.par (by simpa using h 0 m rfl))
      · refine i3 (fun k m'' hk => ?_) W' hW'
        have := h (k + 1) m'' (by simpa using hk)
        rwa [show i + (k + 1) = i + 1 + k by omega] at this
    · intro j a ha u d
      rw [legsOf_drop g u ⟨i, hin⟩, legsOf_drop g d ⟨i, hin⟩]
      dsimp only
      have hlen : m.rq.length = m'.lq.length := by rw [hb1, List.length_map]
      -- the value of a slot of the bond
      have hk : ∀ k, k < m.rq.length → ∀ x : Fin n → Bool × Bool, chainVal n g (m' :: ms) (i + 1) k x d =
          if (∀ l : Fin n, l.1 < i + 1 → x l = d l) then
            opAmpl SZ.isFermion ws (innerBonds (m' :: ms)) (parBelow d (i + 1)) (slotAt m.rq k) ((legsOf g x).drop (i + 1)) ((legsOf g d).drop (i + 1)) (r0, 0) else 0 := by
        intro k hk x
        have h1 := slotAt_slot m'.lq k (by omega)
        have h2 := slot_sub m'.dq h1
        rw [← hb1] at h2
        rw [slot_unique (slotAt_slot m.rq k hk) h2]
        exact i4 k _ h1 x d
      have hcols : ∀ e ∈ m.cells, e.col < m.rq.length := by
        intro e he
        obtain ⟨_, _, _, _, g2, _⟩ := hm e he
        exact (List.getElem?_eq_some_iff.1 g2).1
      let E : Cell SZ K → K := fun e => e.factor * (partMat (g.getD i 0) e.op.even (u ⟨i, hin⟩) (d ⟨i, hin⟩) +
        paritySign K (parBelow d i) * partMat (g.getD i 0) e.op.odd (u ⟨i, hin⟩) (d ⟨i, hin⟩))
      let F : Nat → K := fun k => opAmpl SZ.isFermion ws (innerBonds (m' :: ms)) (parBelow d (i + 1)) (slotAt m.rq k) ((legsOf g u).drop (i + 1)) ((legsOf g d).drop (i + 1)) (r0, 0)
      have hp : ∀ e ∈ m.cells, (e.factor • siteVal n g i e.op * chainVal n g (m' :: ms) (i + 1) e.col) u d =
          if (∀ l : Fin n, l.1 < i → u l = d l) then E e * F e.col else 0 := by
        intro e he
        rw [siteVal, dif_pos hin, Matrix.smul_mul, Matrix.smul_apply, embT, emb_mul_apply ⟨i, hin⟩ _ _ _ u d _ (hk e.col (hcols e he))]
        have hup := legsOf_update g u ⟨i, hin⟩ (d ⟨i, hin⟩)
        dsimp only at hup ⊢
        rw [hup]
        simp only [smul_eq_mul, mul_ite, mul_zero]
        split_ifs
        · simp only [E, F]
          ring
        · rfl
      rw [chainVal, sum_apply, sum_map_congr' _ _ _ fun e h => hp e (List.mem_filter.1 h).1]
      split_ifs with hg
      · rw [hib, opAmpl_step, rightLeg]
        rw [((legBasis_perm m.rq).map _).sum_eq, List.map_map]
        rw [sum_map_congr' _ (g := fun k => ((m.cells.filter fun e => e.row = j).map fun e => if e.col = k then E e * F k else 0).sum)]
        · rw [sum_comm']
          refine sum_map_congr' _ _ _ fun e he => ?_
          have hc := hcols e (List.mem_filter.1 he).1
          have := sum_map_ite_eq' (List.range m.rq.length) List.nodup_range e.col fun k => E e * F k
          rw [if_pos (List.mem_range.2 hc)] at this
          rw [← this]
          refine sum_map_congr' _ _ _ fun k _ => ?_
          simp only [eq_comm]
        · intro k hk
          have hk := List.mem_range.1 hk
          simp only [Function.comp_def, List.cons_append, List.nil_append]
          rw [w5 j k a _ ha (slotAt_slot _ k hk), ← parBelow_step g d ⟨i, hin⟩]
          show (((m.cells.filter fun e => e.row = j ∧ e.col = k).map E).sum) * F k = _
          rw [← sum_map_mul_right', sum_filter', sum_filter']
          refine sum_map_congr' _ _ _ fun e _ => ?_
          by_cases h1 : e.row = j <;> by_cases h2 : e.col = k <;> simp [h1, h2]
      · exact sum_map_zero' _ _ fun _ _ => rfl

end Hamiltonian
end Verif
