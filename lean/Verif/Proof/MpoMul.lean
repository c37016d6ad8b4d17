import Verif.Proof.Apply

/-! One site of the product of two operators, and the chain of the products. -/

set_option linter.unusedSectionVars false

namespace Verif
section
variable {Q K : Type} [DecidableEq Q] [AddCommGroup Q] [CommRing K]

theorem both_ne_nil {W : OpT Q K} : W.both ≠ [] ↔ W.noBlocks = false := by
  unfold OpT.both OpT.noBlocks
  rcases W.odd with _ | _ <;> rcases W.even with _ | _ <;> simp

theorem OpBlocks.both {legs : List (BondInfo Q)} {W : OpT Q K} (h : OpBlocks legs W) : Conforms legs W.both := Conforms.append.2 ⟨h.odd, h.even⟩

/-- core.py:1875 the order of the legs of the site product. -/
def opAxes (n : Nat) : List Nat := [0, n + 2] ++ List.range' 1 n ++ List.range' (n + 3) n ++ [n + 1, n + n + 3]

theorem opAxes_perm (n : Nat) : (opAxes n).Perm (List.range (n + n + 4)) := by
  have e : List.range (n + n + 4) = [0] ++ (List.range' 1 n ++ ([n + 1] ++ ([n + 2] ++ (List.range' (n + 3) n ++ [n + n + 3])))) := by
    have h0 : List.range (n + n + 4) = List.range' 0 (1 + (n + (1 + (1 + (n + 1))))) := by rw [List.range_eq_range']; congr 1; omega
    have a : ∀ s k m, List.range' s (k + m) = List.range' s k ++ List.range' (s + k) m := fun s k m => by rw [← List.range'_append_1]
    rw [h0, a, a, a, a, a]
    simp [List.range', Nat.add_comm, Nat.add_left_comm, Nat.add_assoc]
  rw [e]
  unfold opAxes
  simp only [List.append_assoc]
  show ([0] ++ ([n + 2] ++ (List.range' 1 n ++ (List.range' (n + 3) n ++ ([n + 1] ++ [n + n + 3]))))).Perm _
  refine List.Perm.append_left _ ?_
  refine (List.perm_append_comm_assoc _ _ _).trans ?_
  refine List.Perm.append_left _ ?_
  refine (List.Perm.append_left _ (List.perm_append_comm_assoc _ _ _)).trans ?_
  exact List.perm_append_comm_assoc [n + 2] [n + 1] _

theorem pick_opAxes {α : Type} [Zero α] (w : α) (u : List α) (w' x : α) (d : List α) (x' : α) (h : d.length = u.length) :
    pick (opAxes u.length) ((w :: u ++ [w']) ++ (x :: d ++ [x'])) = [w, x] ++ u ++ d ++ [w', x'] := by
  unfold opAxes
  rw [pick_append_idx, pick_append_idx, pick_append_idx]
  have e1 : pick (List.range' 1 u.length) ((w :: u ++ [w']) ++ (x :: d ++ [x'])) = u := by
    have := pick_range' [w] u ([w'] ++ (x :: d ++ [x']))
    simpa using this
  have e2 : pick (List.range' (u.length + 3) u.length) ((w :: u ++ [w']) ++ (x :: d ++ [x'])) = d := by
    have := pick_range' (w :: u ++ [w', x]) d [x']
    have hl : (w :: u ++ [w', x]).length = u.length + 3 := by simp
    rw [hl, h] at this
    simpa using this
  rw [e1, e2]
  have g : ∀ k, ((w :: u ++ [w']) ++ (x :: d ++ [x'])).getD (u.length + 1 + k) 0 = (w' :: x :: d ++ [x']).getD k 0 := by
    intro k
    have : (w :: u ++ [w']) ++ (x :: d ++ [x']) = (w :: u) ++ (w' :: x :: d ++ [x']) := by simp
    rw [this, List.getD_eq_getElem?_getD, List.getElem?_append_right (by simp)]
    simp [List.getD_eq_getElem?_getD]
  have g0 := g 0
  have g1 := g 1
  have g2 := g (d.length + 2)
  have g3 : (w' :: x :: d ++ [x']).getD (d.length + 2) 0 = x' := by
    have : w' :: x :: d ++ [x'] = (w' :: x :: d) ++ [x'] := rfl
    rw [this, List.getD_eq_getElem?_getD, List.getElem?_append_right (by simp)]
    simp
  unfold pick
  simp only [List.map_cons, List.map_nil]
  rw [show u.length + u.length + 3 = u.length + 1 + (d.length + 2) by omega, show u.length + 1 = u.length + 1 + 0 from rfl,
    show u.length + 2 = u.length + 1 + 1 from rfl, g0, g1]
  rw [show u.length + 1 + 0 + (d.length + 2) = u.length + 1 + (d.length + 2) from rfl, g2, g3]
  rfl

/-- One site of the product of two operators. -/
theorem pdot_spec (isF : Q → Bool) {wl wr l r : BondInfo Q} {ups mids downs : List (BondInfo Q)} {A B : OpT Q K} (hA : OpSite isF wl ups mids wr A)
    (hB : OpSite isF l mids downs r B) (hp : SameParity isF B.both) (hneA : A.noBlocks = false) (hneB : B.noBlocks = false)
    (hm : mids ≠ []) (hu : ups.length = mids.length) (hd : downs.length = mids.length) (hw : ∀ b ∈ mids, Dict.WF b) :
    ∃ R, A.pdot isF B = some R ∧ OpBlocks ([wl, l] ++ (ups ++ downs) ++ [wr, r]) R ∧
      ∀ s w x u d w' x', u.length = ups.length → d.length = downs.length → opEntry R s ([w, x] ++ (u ++ d) ++ [w', x']) =
        ((legIndices mids).map fun m => opEntry A (xor s (isF x.1)) (w :: u ++ m ++ [w']) * opEntry B s (x :: m ++ d ++ [x'])).sum := by
  set n := mids.length with hn
  have hn0 : 0 < n := List.length_pos_iff.2 hm
  have nA : A.ndim = n + n + 2 := by
    rw [OpT.ndim_of hA.odd hA.even hneA]; simp; omega
  have nB : B.ndim = n + n + 2 := by
    rw [OpT.ndim_of hB.odd hB.even hneB]; simp; omega
  have cB : ∀ T : SpT Q K, Conforms (l :: mids ++ downs ++ [r]) T → Conforms ([l] ++ mids ++ (downs ++ [r])) T := fun T h => by simpa using h
  obtain ⟨pB, hp⟩ := hp
  have hpo : ∀ b ∈ B.odd, fermParity isF b.1 = pB := fun b hb => hp b (List.mem_append_left _ hb)
  have hpe : ∀ b ∈ B.even, fermParity isF b.1 = pB := fun b hb => hp b (List.mem_append_right _ hb)
  obtain ⟨Roe, a1, a2, a3, a4, a5⟩ := sp_contract (wl :: ups) mids [wr] [l] (downs ++ [r]) hw A.odd B.even hA.odd (cB _ hB.even)
  obtain ⟨Reo, b1, b2, b3, b4, b5⟩ := sp_contract (wl :: ups) mids [wr] [l] (downs ++ [r]) hw A.even B.odd hA.even (cB _ hB.odd)
  obtain ⟨Roo, c1, c2, c3, c4, c5⟩ := sp_contract (wl :: ups) mids [wr] [l] (downs ++ [r]) hw A.odd B.odd hA.odd (cB _ hB.odd)
  obtain ⟨Ree, d1, d2, d3, d4, d5⟩ := sp_contract (wl :: ups) mids [wr] [l] (downs ++ [r]) hw A.even B.even hA.even (cB _ hB.even)
  have eA : (wl :: ups).length = n + 1 := by simp [hu]
  have eB : ([l] : List (BondInfo Q)).length = 1 := rfl
  rw [eA, eB, ← hn] at a1 b1 c1 d1
  have par : ∀ (p : Bool) (T S : SpT Q K), (∀ b ∈ T, fermParity isF (physLabels b.1) = p) → (∀ b ∈ S, fermParity isF b.1 = pB) → ∀ R : SpT Q K,
      (∀ c ∈ R, ∃ u v m u' v' : List Q, u.length = (wl :: ups).length ∧ v.length = [wr].length ∧ m.length = mids.length ∧ u'.length = [l].length ∧
        v'.length = (downs ++ [r]).length ∧ (∃ a ∈ T, a.1 = u ++ m ++ v) ∧ (∃ b ∈ S, b.1 = u' ++ m ++ v') ∧ c.1 = (u ++ v) ++ (u' ++ v')) →
      ∀ c ∈ R, xor (fermParity isF (physLabels (c.1.take (n + 2)))) (fermParity isF (c.1.drop (n + 2))) = xor p pB := by
    intro p T S hT hS R hR c hc
    obtain ⟨u, v, m, u', v', h1, h2, h3, h4, h5, ⟨a, ha, hq⟩, ⟨b, hb, hq'⟩, h6⟩ := hR c hc
    rcases u with _ | ⟨w, u⟩
    · simp at h1
    obtain ⟨w', rfl⟩ := List.length_eq_one_iff.1 (h2.trans (by rfl))
    have hl : (w :: u ++ [w']).length = n + 2 := by simp at h1 ⊢; omega
    rw [h6, ← hl, List.take_left, List.drop_left, physLabels_mid]
    have k1 := hT a ha
    rw [hq] at k1
    have : w :: u ++ m ++ [w'] = w :: (u ++ m) ++ [w'] := by simp
    rw [this, physLabels_mid, fermParity_append] at k1
    have k2 := hS b hb
    rw [hq', fermParity_append, fermParity_append] at k2
    rw [fermParity_append, ← k1]
    exact xor_even _ _ _ _ _ k2
  let tag : List Q → Bool := fun q => xor (fermParity isF (physLabels (q.take (n + 2)))) (fermParity isF (q.drop (n + 2)))
  have huO : UniqueLabels (Roe ++ Reo) := unique_append_par a3 b3 tag pB (par true _ _ hA.oddParity hpe Roe a5) (par false _ _ hA.evenParity hpo Reo b5)
  have huE : UniqueLabels (Roo ++ Ree) := unique_append_par c3 d3 tag pB (par true _ _ hA.oddParity hpo Roo c5) (par false _ _ hA.evenParity hpe Ree d5)
  set f := OpT.factor isF [n + 2] with hf
  have hL : ((wl :: ups ++ [wr]) ++ ([l] ++ (downs ++ [r]))) = (wl :: ups ++ [wr]) ++ (l :: downs ++ [r]) := by simp
  have hCO := conforms_addAliased huO a2 b2 f (fun _ => false)
  have hCE := conforms_addAliased huE c2 d2 f (fun _ => false)
  rw [hL] at hCO hCE
  have hlen : ((wl :: ups ++ [wr]) ++ (l :: downs ++ [r])).length = n + n + 4 := by simp; omega
  have hperm : (opAxes n).Perm (List.range ((wl :: ups ++ [wr]) ++ (l :: downs ++ [r])).length) := by
    rw [hlen]; exact opAxes_perm _
  have hlegs : (opAxes n).map (fun i => ((wl :: ups ++ [wr]) ++ (l :: downs ++ [r])).getD i []) = [wl, l] ++ (ups ++ downs) ++ [wr, r] := by
    let _ : Zero (BondInfo Q) := ⟨[]⟩
    have := pick_opAxes wl ups wr l downs r (by omega)
    rw [hu] at this
    exact this.trans (by simp)
  refine ⟨⟨(OpT.addAliased Roe Reo f fun _ => false).transpose (some (opAxes n)), (OpT.addAliased Roo Ree f fun _ => false).transpose (some (opAxes n))⟩,
    ?_, ⟨?_, ?_, ?_, ?_⟩, ?_⟩
  · unfold OpT.pdot
    rw [if_neg (by omega)]
    have hdim : A.ndim / 2 - 1 = n := by omega
    simp only [hdim]
    unfold OpT.tensordot
    have m1 : ((List.range' (n + 1) n).map Int.ofNat).map (SpT.normAxis A.ndim) = List.range' (n + 1) n := normAxes_ofNat _ _
    have m2 : ((List.range' 1 n).map Int.ofNat).map (SpT.normAxis B.ndim) = List.range' 1 n := normAxes_ofNat _ _
    unfold axesAt at a1 b1 c1 d1
    have n1 : ¬ (List.range' (n + 1) n = [] ∧ List.range' 1 n = []) := by
      rintro ⟨h, -⟩
      have := congrArg List.length h
      simp at this
      omega
    have n2 : ¬ (List.range' (n + 1) n = [A.ndim - 1] ∧ List.range' 1 n = [0]) := by
      rintro ⟨-, h⟩
      have : (0 : Nat) ∈ List.range' 1 n := by rw [h]; simp
      simp at this
    have m3 : A.ndim - (List.range' (n + 1) n).length = n + 2 := by
      simp; omega
    simp only [m1, m2, a1, b1, c1, d1, Option.bind_some, if_neg n1, if_neg n2, Option.map_some, min_range' 1 n hn0, m3]
    rfl
  · have := C14_conforms _ _ hCO _ hperm
    rwa [hlegs] at this
  · have := C14_conforms _ _ hCE _ hperm
    rwa [hlegs] at this
  · exact transpose_unique hCO (addAliased_unique _ _ huO _ _) hperm
  · exact transpose_unique hCE (addAliased_unique _ _ huE _ _) hperm
  · intro s w x u d w' x' hul hdl
    have hx : ((w :: u ++ [w']) ++ (x :: d ++ [x'])).length = ((wl :: ups ++ [wr]) ++ (l :: downs ++ [r])).length := by simp [hul, hdl]
    have hO := C14_entry _ _ hCO _ hperm ((w :: u ++ [w']) ++ (x :: d ++ [x'])) hx
    have hE := C14_entry _ _ hCE _ hperm ((w :: u ++ [w']) ++ (x :: d ++ [x'])) hx
    have hpk := pick_opAxes w u w' x d x' (by omega)
    rw [hul, hu] at hpk
    unfold pick at hpk
    rw [hpk] at hO hE
    have hs : [w, x] ++ u ++ d ++ [w', x'] = [w, x] ++ (u ++ d) ++ [w', x'] := by simp
    rw [hs] at hO hE
    unfold opEntry
    rw [hO, hE, entry_addAliased _ _ huO, entry_addAliased _ _ huE]
    have s2 : f (((w :: u ++ [w']) ++ (x :: d ++ [x'])).map Prod.fst) = isF x.1 := by
      rw [hf, factor_eq]
      have : pick [n + 2] (((w :: u ++ [w']) ++ (x :: d ++ [x'])).map Prod.fst) = [x.1] := by
        unfold pick
        rw [← hu, ← hul]
        simp only [List.map_cons, List.map_nil, List.map_append]
        congr 1
        rw [List.getD_eq_getElem?_getD, List.getElem?_append_right (by simp)]
        simp
      rw [this, fermParity_cons]
      simp [fermParity]
    have s1 : (w :: u ++ [w']) ++ (x :: d ++ [x']) = (w :: u ++ [w']) ++ ([x] ++ (d ++ [x'])) := by simp
    rw [s2, s1, a4 (w :: u) [w'] [x] (d ++ [x']) (by simp [hul]) rfl rfl (by simp [hdl]), b4 (w :: u) [w'] [x] (d ++ [x']) (by simp [hul]) rfl rfl (by simp [hdl]),
      c4 (w :: u) [w'] [x] (d ++ [x']) (by simp [hul]) rfl rfl (by simp [hdl]), d4 (w :: u) [w'] [x] (d ++ [x']) (by simp [hul]) rfl rfl (by simp [hdl])]
    simp only [← sum_map_mul_left', ← sum_map_add']
    refine sum_map_congr' _ _ _ fun m _ => ?_
    simp only [List.singleton_append, paritySign_xor, List.cons_append, List.nil_append, List.append_assoc]
    have h1 : paritySign K false = 1 := rfl
    have h2 : paritySign K s * paritySign K s = 1 := by cases s <;> simp [paritySign]
    rw [h1]
    linear_combination (-(paritySign K (isF x.1)) * entry A.odd (w :: (u ++ (m ++ [w']))) * entry B.odd (x :: (m ++ (d ++ [x'])))) * h2

theorem getD_zip_union {I J : List (BondInfo Q)} (h : I.length = J.length) {k : Nat} (hk : k < I.length) :
    ((I.zip J).map fun x => BondInfo.union x.1 x.2).getD k [] = BondInfo.union (I.getD k []) (J.getD k []) := by
  have hk' : k < J.length := h ▸ hk
  have hz : (I.zip J)[k]? = some (I[k], J[k]) := List.getElem?_zip_eq_some.2 ⟨List.getElem?_eq_getElem hk, List.getElem?_eq_getElem hk'⟩
  simp only [List.getD_eq_getElem?_getD, List.getElem?_map, hz, List.getElem?_eq_getElem hk, List.getElem?_eq_getElem hk', Option.map_some, Option.getD_some]

/-- The bonds found on an operator tensor are those of all its blocks. -/
theorem opInfoSpec {legs : List (BondInfo Q)} {W : OpT Q K} (h : OpBlocks legs W) (hne : W.noBlocks = false) (hg : ∀ l ∈ legs, GoodBond l) (hl : 0 < legs.length) :
    ∃ I, W.infos = some I ∧ InfoSpec legs W.both I := by
  unfold OpT.infos
  by_cases ho : W.odd = []
  · have he : W.even ≠ [] := by
      intro he
      unfold OpT.noBlocks at hne
      simp [ho, he] at hne
    obtain ⟨I, i1, i2⟩ := infoSpec_site h.even he hg
    refine ⟨I, ?_, ?_⟩
    · rw [if_pos (by rw [ho]; rfl), i1]
    · unfold OpT.both; rw [ho]; exact i2
  · have no : W.odd.ndim ≠ 0 := by rw [ndim_of_conforms h.odd ho]; omega
    rw [if_neg no]
    obtain ⟨I, i1, i2⟩ := infoSpec_site h.odd ho hg
    by_cases he : W.even = []
    · refine ⟨I, ?_, ?_⟩
      · rw [if_pos (by rw [he]; rfl), i1]
      · unfold OpT.both; rw [he, List.append_nil]; exact i2
    · have ne : W.even.ndim ≠ 0 := by rw [ndim_of_conforms h.even he]; omega
      obtain ⟨J, j1, j2⟩ := infoSpec_site h.even he hg
      rw [if_neg ne, i1, j1]
      refine ⟨_, rfl, ?_, ?_, ?_⟩
      · rw [List.length_map, List.length_zip, i2.length, j2.length, Nat.min_self]
      · intro k hk
        rw [getD_zip_union (by rw [i2.length, j2.length]) (by rw [i2.length]; exact hk)]
        exact good_union _ _
      · intro k hk q s
        rw [getD_zip_union (by rw [i2.length, j2.length]) (by rw [i2.length]; exact hk)]
        unfold OpT.both
        rw [union_get (i2.good k hk) (j2.good k hk) (i2.get k hk) (j2.get k hk), occursOn_append]

/-- Site functions of an operator chain on pairs of bonds. -/
def opPairFun (R : OpT Q K) (s : Bool) (x : (Q × Nat) × (Q × Nat)) (u d : List (Q × Nat)) (y : (Q × Nat) × (Q × Nat)) : K :=
  opEntry R s ([x.1, x.2] ++ (u ++ d) ++ [y.1, y.2])

/-- Two operators on the same sites; `phys` has the row, middle and column legs of each site. -/
def MulOn (isF : Q → Bool) : List (BondInfo Q × BondInfo Q) → List (List (BondInfo Q) × List (BondInfo Q) × List (BondInfo Q)) → List (OpT Q K) →
    List (OpT Q K) → Prop
  | [_], [], [], [] => True
  | l :: r :: bonds, ph :: phys, A :: as, B :: bs => OpSite isF l.1 ph.1 ph.2.1 r.1 A ∧ OpSite isF l.2 ph.2.1 ph.2.2 r.2 B ∧ SameParity isF B.both ∧
      (ph.2.1 ≠ [] ∧ ph.1.length = ph.2.1.length ∧ ph.2.2.length = ph.2.1.length) ∧ (∀ b ∈ ph.2.1, Dict.WF b) ∧ MulOn isF (r :: bonds) phys as bs
  | _, _, _, _ => False

theorem MulOn.cons_inv {isF : Q → Bool} {l r : BondInfo Q × BondInfo Q} {bonds : List (BondInfo Q × BondInfo Q)}
    {phys : List (List (BondInfo Q) × List (BondInfo Q) × List (BondInfo Q))} {as bs : List (OpT Q K)} (h : MulOn isF (l :: r :: bonds) phys as bs) :
    ∃ ph phys' A as' B bs', phys = ph :: phys' ∧ as = A :: as' ∧ bs = B :: bs' ∧ OpSite isF l.1 ph.1 ph.2.1 r.1 A ∧ OpSite isF l.2 ph.2.1 ph.2.2 r.2 B ∧
      SameParity isF B.both ∧ (ph.2.1 ≠ [] ∧ ph.1.length = ph.2.1.length ∧ ph.2.2.length = ph.2.1.length) ∧ (∀ b ∈ ph.2.1, Dict.WF b) ∧
      MulOn isF (r :: bonds) phys' as' bs' := by
  rcases phys with _ | ⟨ph, phys⟩
  · exact h.elim
  rcases as with _ | ⟨W, ws⟩
  · exact h.elim
  rcases bs with _ | ⟨B, bs⟩
  · exact h.elim
  exact ⟨ph, phys, W, ws, B, bs, rfl, rfl, rfl, h⟩

theorem MulOn.one_inv {isF : Q → Bool} {l : BondInfo Q × BondInfo Q} {phys : List (List (BondInfo Q) × List (BondInfo Q) × List (BondInfo Q))}
    {as bs : List (OpT Q K)} (h : MulOn isF [l] phys as bs) : phys = [] ∧ as = [] ∧ bs = [] := by
  rcases phys with _ | ⟨ph, phys⟩ <;> rcases as with _ | ⟨W, ws⟩ <;> rcases bs with _ | ⟨B, bs⟩ <;> simp_all [MulOn]

/-- The site functions of the product. -/
def mulFuns (isF : Q → Bool) (phys : List (List (BondInfo Q) × List (BondInfo Q) × List (BondInfo Q))) (as bs : List (OpT Q K)) :
    List (Bool → (Q × Nat) × (Q × Nat) → List (Q × Nat) → List (Q × Nat) → (Q × Nat) × (Q × Nat) → K) :=
  prodSites (fun x : Q × Nat => isF x.1) (phys.map fun ph => legIndices ph.2.1) (as.map opFun) (bs.map opFun)

theorem mulFun_eq (isF : Q → Bool) (t : List (List (Q × Nat))) (A B : OpT Q K) (s : Bool) (x : (Q × Nat) × (Q × Nat)) (u d : List (Q × Nat))
    (y : (Q × Nat) × (Q × Nat)) : prodSite (fun x : Q × Nat => isF x.1) t (opFun A) (opFun B) s x u d y =
      (t.map fun m => opEntry A (xor s (isF x.2.1)) (x.1 :: u ++ m ++ [y.1]) * opEntry B s (x.2 :: m ++ d ++ [y.2])).sum := rfl

/-- The legs of both parts of the sites of a chain with pairs of bonds. -/
def OpOnPairs : List (BondInfo Q × BondInfo Q) → List (List (BondInfo Q) × List (BondInfo Q)) → List (OpT Q K) → Prop
  | [_], [], [] => True
  | l :: r :: bonds, ph :: phys, R :: rs => OpBlocks ([l.1, l.2] ++ (ph.1 ++ ph.2) ++ [r.1, r.2]) R ∧ OpOnPairs (r :: bonds) phys rs
  | _, _, _ => False

/-- Site functions that agree at the given rows and columns. -/
inductive AgreeAt {I U D : Type} : List (Bool → I → U → D → I → K) → List (Bool → I → U → D → I → K) → List U → List D → Prop
  | nil : AgreeAt [] [] [] []
  | cons {f fs g gs u us d ds} : (∀ s x y, f s x u d y = g s x u d y) → AgreeAt fs gs us ds → AgreeAt (f :: fs) (g :: gs) (u :: us) (d :: ds)

theorem sch_agree {I U D : Type} (par : D → Bool) {fs gs : List (Bool → I → U → D → I → K)} {us : List U} {ds : List D} (h : AgreeAt fs gs us ds)
    (bs : List (List I)) (s : Bool) (x y : I) : sch par fs bs s x us ds y = sch par gs bs s x us ds y := by
  induction h generalizing bs s x with
  | nil => rfl
  | cons hf h2 ih =>
    rcases bs with _ | ⟨b, bs⟩
    · cases h2 with
      | nil => rw [sch_one, sch_one, hf]
      | cons _ _ => simp [sch]
    · rw [sch_cons, sch_cons]
      refine sum_map_congr' _ _ _ fun z _ => ?_
      rw [hf, ih]

theorem sch_first_zero {I U D : Type} (par : D → Bool) {f : Bool → I → U → D → I → K} (fs : List (Bool → I → U → D → I → K)) (u : U) (us : List U) (d : D)
    (ds : List D) (h : ∀ s x y, f s x u d y = 0) (bs : List (List I)) (s : Bool) (x y : I) : sch par (f :: fs) bs s x (u :: us) (d :: ds) y = 0 := by
  rcases bs with _ | ⟨b, bs⟩
  · rcases fs with _ | ⟨f', fs⟩ <;> rcases us with _ | ⟨u', us⟩ <;> rcases ds with _ | ⟨d', ds⟩ <;> first | (rw [sch_one, h]) | simp [sch]
  · rw [sch_cons]
    exact sum_map_zero' _ _ fun z _ => by rw [h, zero_mul]

theorem sch_rest_zero {I U D : Type} (par : D → Bool) {f : Bool → I → U → D → I → K} {fs : List (Bool → I → U → D → I → K)} (u : U) {us : List U} (d : D)
    {ds : List D} (hne : fs ≠ []) (h : ∀ bs s x y, sch par fs bs s x us ds y = 0) (bs : List (List I)) (s : Bool) (x y : I) :
    sch par (f :: fs) bs s x (u :: us) (d :: ds) y = 0 := by
  rcases bs with _ | ⟨b, bs⟩
  · rcases fs with _ | ⟨f', fs⟩
    · exact absurd rfl hne
    · simp [sch]
  · rw [sch_cons]
    exact sum_map_zero' _ _ fun z _ => by rw [h, mul_zero]

def outer (phys : List (List (BondInfo Q) × List (BondInfo Q) × List (BondInfo Q))) : List (List (BondInfo Q) × List (BondInfo Q)) :=
  phys.map fun ph => (ph.1, ph.2.2)

theorem mulSites_spec (isF : Q → Bool) {l : BondInfo Q × BondInfo Q} {bonds : List (BondInfo Q × BondInfo Q)}
    {phys : List (List (BondInfo Q) × List (BondInfo Q) × List (BondInfo Q))} {as bs : List (OpT Q K)} (h : MulOn isF (l :: bonds) phys as bs) :
    (Mpo.mulSites isF as bs = some none ∧ mulFuns isF phys as bs ≠ [] ∧ ∀ us ds, Sized (outer phys) us ds → ∀ cs s x y,
        sch (basisPar isF) (mulFuns isF phys as bs) cs s x us ds y = 0) ∨
    ∃ rs, Mpo.mulSites isF as bs = some (some rs) ∧ OpOnPairs (l :: bonds) (outer phys) rs ∧ (∀ r ∈ rs, r.noBlocks = false) ∧
      ∀ us ds, Sized (outer phys) us ds → AgreeAt (rs.map opPairFun) (mulFuns isF phys as bs) us ds := by
  induction bonds generalizing l phys as bs with
  | nil =>
    obtain ⟨rfl, rfl, rfl⟩ := h.one_inv
    refine Or.inr ⟨[], rfl, trivial, by simp, ?_⟩
    intro us ds hs
    cases hs
    exact .nil
  | cons r bonds ih =>
    obtain ⟨ph, phys, A, as, B, bs, rfl, rfl, rfl, hA, hB, hp, ⟨hn1, hn2, hn3⟩, hwf, hrest⟩ := h.cons_inv
    have hfun : mulFuns isF (ph :: phys) (A :: as) (B :: bs) =
        prodSite (fun x : Q × Nat => isF x.1) (legIndices ph.2.1) (opFun A) (opFun B) :: mulFuns isF phys as bs := rfl
    rw [hfun]
    by_cases hAe : A.noBlocks = true
    · refine Or.inl ⟨?_, by simp, ?_⟩
      · rw [Mpo.mulSites, hAe]; rfl
      · intro us ds hs
        cases hs with
        | cons _ _ _ =>
          refine sch_first_zero _ _ _ _ _ _ fun s x y => ?_
          rw [mulFun_eq]
          exact sum_map_zero' _ _ fun m _ => by rw [opEntry_noBlocks hAe, zero_mul]
    by_cases hBe : B.noBlocks = true
    · refine Or.inl ⟨?_, by simp, ?_⟩
      · rw [Mpo.mulSites, hBe]; simp
      · intro us ds hs
        cases hs with
        | cons _ _ _ =>
          refine sch_first_zero _ _ _ _ _ _ fun s x y => ?_
          rw [mulFun_eq]
          exact sum_map_zero' _ _ fun m _ => by rw [opEntry_noBlocks hBe, mul_zero]
    have hAe' : A.noBlocks = false := by simpa using hAe
    have hBe' : B.noBlocks = false := by simpa using hBe
    obtain ⟨R, h1, h2, h3⟩ := pdot_spec isF hA hB hp hAe' hBe' hn1 hn2 hn3 hwf
    have hc : (A.noBlocks || B.noBlocks) = false := by rw [hAe', hBe']; rfl
    have hR : ∀ u d, u.length = ph.1.length → d.length = ph.2.2.length → ∀ s x y,
        opPairFun R s x u d y = prodSite (fun x : Q × Nat => isF x.1) (legIndices ph.2.1) (opFun A) (opFun B) s x u d y :=
      fun u d hu hd s x y => h3 s x.1 x.2 u d y.1 y.2 hu hd
    by_cases hRe : R.noBlocks = true
    · refine Or.inl ⟨?_, by simp, ?_⟩
      · rw [Mpo.mulSites, hc, h1]; simp [hRe]
      · intro us ds hs
        cases hs with
        | cons hu hd _ =>
          refine sch_first_zero _ _ _ _ _ _ fun s x y => ?_
          rw [← hR _ _ hu hd]
          exact opEntry_noBlocks hRe _ _
    rcases ih hrest with ⟨i1, i0, i2⟩ | ⟨rs, i1, i2, i3, i4⟩
    · refine Or.inl ⟨?_, by simp, ?_⟩
      · rw [Mpo.mulSites, hc, h1]
        simp [hRe, i1]
      · intro us ds hs
        cases hs with
        | cons _ _ hs => exact sch_rest_zero _ _ _ i0 (i2 _ _ hs)
    · refine Or.inr ⟨R :: rs, ?_, ⟨h2, i2⟩, ?_, ?_⟩
      · rw [Mpo.mulSites, hc, h1]
        simp [hRe, i1]
      · intro r hr
        rcases List.mem_cons.1 hr with rfl | hr
        · simpa using hRe
        · exact i3 r hr
      · intro us ds hs
        cases hs with
        | cons hu hd hs => exact .cons (hR _ _ hu hd) (i4 _ _ hs)

theorem OpOnPairs.cons_inv {l r : BondInfo Q × BondInfo Q} {bonds : List (BondInfo Q × BondInfo Q)} {phys : List (List (BondInfo Q) × List (BondInfo Q))}
    {ts : List (OpT Q K)} (h : OpOnPairs (l :: r :: bonds) phys ts) : ∃ ph phys' T ts', phys = ph :: phys' ∧ ts = T :: ts' ∧
      OpBlocks ([l.1, l.2] ++ (ph.1 ++ ph.2) ++ [r.1, r.2]) T ∧ OpOnPairs (r :: bonds) phys' ts' := by
  rcases phys with _ | ⟨ph, phys⟩
  · exact h.elim
  rcases ts with _ | ⟨T, ts⟩
  · exact h.elim
  exact ⟨ph, phys, T, ts, rfl, rfl, h⟩

theorem OpOnPairs.one_inv {l : BondInfo Q × BondInfo Q} {phys : List (List (BondInfo Q) × List (BondInfo Q))} {ts : List (OpT Q K)}
    (h : OpOnPairs [l] phys ts) : phys = [] ∧ ts = [] := by
  rcases phys with _ | ⟨ph, phys⟩ <;> rcases ts with _ | ⟨T, ts⟩ <;> simp_all [OpOnPairs]

/-- Row and column legs together. -/
def joinPhys (phys : List (List (BondInfo Q) × List (BondInfo Q))) : List (List (BondInfo Q)) := phys.map fun ph => ph.1 ++ ph.2

theorem OpOnPairs.both {l : BondInfo Q × BondInfo Q} {bonds : List (BondInfo Q × BondInfo Q)} {phys : List (List (BondInfo Q) × List (BondInfo Q))}
    {ts : List (OpT Q K)} (h : OpOnPairs (l :: bonds) phys ts) : OnPairs (l :: bonds) (joinPhys phys) (ts.map OpT.both) := by
  induction bonds generalizing l phys ts with
  | nil => obtain ⟨rfl, rfl⟩ := h.one_inv; trivial
  | cons r bonds ih =>
    obtain ⟨ph, phys, T, ts, rfl, rfl, h1, h2⟩ := h.cons_inv
    exact ⟨h1.both, ih h2⟩

/-- The sites keep their distinct labels on other bonds. -/
theorem OpOnPairs.rehome {l l' : BondInfo Q × BondInfo Q} {bonds bonds' : List (BondInfo Q × BondInfo Q)} {phys : List (List (BondInfo Q) × List (BondInfo Q))}
    {ts : List (OpT Q K)} (h : OpOnPairs (l :: bonds) phys ts) (h' : OnPairs (l' :: bonds') (joinPhys phys) (ts.map OpT.both))
    (hl : bonds'.length = bonds.length) : OpOnPairs (l' :: bonds') phys ts := by
  induction bonds generalizing l l' bonds' phys ts with
  | nil =>
    obtain rfl : bonds' = [] := List.length_eq_zero_iff.1 hl
    obtain ⟨rfl, rfl⟩ := h.one_inv
    trivial
  | cons r bonds ih =>
    rcases bonds' with _ | ⟨r', bonds'⟩
    · simp at hl
    obtain ⟨ph, phys, T, ts, rfl, rfl, h1, h2⟩ := h.cons_inv
    have c : Conforms ([l'.1, l'.2] ++ (ph.1 ++ ph.2) ++ [r'.1, r'.2]) T.both := h'.1
    have := Conforms.append.1 c
    exact ⟨⟨this.1, this.2, h1.oddUnique, h1.evenUnique⟩, ih h2 h'.2 (by simpa using hl)⟩

theorem opInfoSpecs_of {l : BondInfo Q × BondInfo Q} {bonds : List (BondInfo Q × BondInfo Q)} {phys : List (List (BondInfo Q) × List (BondInfo Q))}
    {ts : List (OpT Q K)} (h : OpOnPairs (l :: bonds) phys ts) (hg : ∀ b ∈ l :: bonds, GoodBond b.1 ∧ GoodBond b.2)
    (hp : ∀ ph ∈ phys, ∀ b ∈ ph.1 ++ ph.2, GoodBond b) (hne : ∀ T ∈ ts, T.noBlocks = false) :
    ∃ is, ts.mapM OpT.infos = some is ∧ InfoSpecs (l :: bonds) (joinPhys phys) (ts.map OpT.both) is := by
  induction bonds generalizing l phys ts with
  | nil =>
    obtain ⟨rfl, rfl⟩ := h.one_inv
    exact ⟨[], rfl, trivial⟩
  | cons r bonds ih =>
    obtain ⟨ph, phys, T, ts, rfl, rfl, h1, h2⟩ := h.cons_inv
    obtain ⟨is, i1, i2⟩ := ih h2 (fun b hb => hg b (List.mem_cons_of_mem _ hb)) (fun p h => hp p (List.mem_cons_of_mem _ h))
      fun T hT => hne T (List.mem_cons_of_mem _ hT)
    obtain ⟨I, j1, j2⟩ := opInfoSpec h1 (hne T (List.mem_cons_self ..)) (by
      intro b hb
      simp only [List.mem_append, List.mem_cons, List.not_mem_nil, or_false] at hb
      rcases hb with ((rfl | rfl) | hb) | (rfl | rfl)
      · exact (hg l (by simp)).1
      · exact (hg l (by simp)).2
      · exact hp ph (by simp) b (List.mem_append.2 hb)
      · exact (hg r (by simp)).1
      · exact (hg r (by simp)).2) (by simp)
    refine ⟨I :: is, ?_, j2, i2⟩
    rw [List.mapM_cons, j1, i1]
    rfl

theorem opMergeSites_spec {fi : BondFusingInfo Q} {fis : List (BondFusingInfo Q)} {l : BondInfo Q × BondInfo Q} {bonds : List (BondInfo Q × BondInfo Q)}
    {phys : List (List (BondInfo Q) × List (BondInfo Q))} {rs : List (OpT Q K)} (ht : Tables (fi :: fis) (l :: bonds)) (h : OpOnPairs (l :: bonds) phys rs)
    (hne : ∀ r ∈ rs, r.noBlocks = false) :
    ∃ ts, Mpo.mergeSites rs (fi :: fis) = some ts ∧ OpOn ((fi :: fis).map fun f => f.quanta) phys ts ∧
      MergedFuns (fi :: fis) (l :: bonds) (ts.map opFun) (rs.map opPairFun) ∧ ∀ t ∈ ts, t.noBlocks = false := by
  induction bonds generalizing fi fis l phys rs with
  | nil =>
    obtain ⟨rfl, rfl⟩ := h.one_inv
    cases ht with
    | cons t1 t2 =>
      cases t2
      exact ⟨[], rfl, trivial, .nil, by simp⟩
  | cons r bonds ih =>
    obtain ⟨ph, phys, T, rs, rfl, rfl, h1, h2⟩ := h.cons_inv
    cases ht with
    | cons t1 t2 =>
      cases t2 with
      | @cons fr _ fis _ t2 t3 =>
        obtain ⟨ts, i1, i2, i3, i4⟩ := ih (.cons t2 t3) h2 fun r hr => hne r (List.mem_cons_of_mem _ hr)
        have hneT := hne T (List.mem_cons_self ..)
        obtain ⟨a1, a2, m1, m2, m3, m3n, m4, m5⟩ := mergeSite_spec t1 t2 (ph.1 ++ ph.2) T.odd h1.odd h1.oddUnique
        obtain ⟨b1, b2, n1, n2, n3, n3n, n4, n5⟩ := mergeSite_spec t1 t2 (ph.1 ++ ph.2) T.even h1.even h1.evenUnique
        have nd : T.ndim = (ph.1 ++ ph.2).length + 4 := by rw [OpT.ndim_of h1.odd h1.even hneT]; simp only [List.length_append, List.length_cons, List.length_nil]; omega
        have ea : ∀ (l r : BondInfo Q) (W : SpT Q K), Conforms (l :: (ph.1 ++ ph.2) ++ [r]) W → Conforms (l :: ph.1 ++ ph.2 ++ [r]) W :=
          fun l r W h => by simpa using h
        refine ⟨⟨a2, b2⟩ :: ts, ?_, ⟨⟨ea _ _ _ m4, ea _ _ _ n4, m3, n3⟩, i2⟩, .cons ?_ i3, ?_⟩
        · rw [Mpo.mergeSites, nd]
          show (T.fuse [(ph.1 ++ ph.2).length + 2, (ph.1 ++ ph.2).length + 3] fr).bind _ = _
          unfold OpT.fuse
          rw [m1, n1, Option.bind_some, Option.map_some, Option.bind_some]
          simp only [m2, n2, Option.bind_some, Option.map_some, i1]
        · intro s z hz u d y hy
          unfold opFun opPairFun opEntry
          have k1 := m5 z hz (u ++ d) y hy
          have k2 := n5 z hz (u ++ d) y hy
          simp only [List.cons_append, List.append_assoc] at k1 k2 ⊢
          rw [k1, k2]
        · intro t ht
          rcases List.mem_cons.1 ht with rfl | ht
          · unfold OpT.noBlocks at hneT ⊢
            simp only [Bool.and_eq_false_iff, List.isEmpty_eq_false_iff] at hneT ⊢
            rcases hneT with h | h
            · exact Or.inl (m3n h)
            · exact Or.inr (n3n h)
          · exact i4 t ht

theorem opPairFun_support {l r : BondInfo Q × BondInfo Q} {ph : List (BondInfo Q) × List (BondInfo Q)} {T : OpT Q K}
    (h : OpBlocks ([l.1, l.2] ++ (ph.1 ++ ph.2) ++ [r.1, r.2]) T)
    (hr : Dict.WF r.1 ∧ Dict.WF r.2) {s : Bool} {x : (Q × Nat) × (Q × Nat)} {u d : List (Q × Nat)} {z : (Q × Nat) × (Q × Nat)}
    (h0 : opPairFun T s x u d z ≠ 0) : z ∈ pairs (legBasis r.1) (legBasis r.2) := by
  unfold opPairFun opEntry at h0
  by_cases he : entry T.even ([x.1, x.2] ++ (u ++ d) ++ [z.1, z.2]) = 0
  · by_cases ho : entry T.odd ([x.1, x.2] ++ (u ++ d) ++ [z.1, z.2]) = 0
    · rw [he, ho] at h0; simp at h0
    · exact pairFun_support h.odd hr (s := false) (u := u ++ d) (d := ()) ho
  · exact pairFun_support h.even hr (s := false) (u := u ++ d) (d := ()) he

theorem opSuppFuns_of {l r F E : BondInfo Q × BondInfo Q} {X Y : List (BondInfo Q × BondInfo Q)} {phys : List (List (BondInfo Q) × List (BondInfo Q))}
    {rs : List (OpT Q K)} (h : OpOnPairs (l :: X ++ [r]) phys rs) (h' : OpOnPairs (F :: Y ++ [E]) phys rs) (hl : Y.length = X.length)
    (hX : ∀ b ∈ X, Dict.WF b.1 ∧ Dict.WF b.2) (hY : ∀ b ∈ Y, Dict.WF b.1 ∧ Dict.WF b.2) :
    SuppFuns (rs.map opPairFun) (X.map fun b => pairs (legBasis b.1) (legBasis b.2)) (Y.map fun b => pairs (legBasis b.1) (legBasis b.2)) := by
  induction X generalizing l F Y phys rs with
  | nil =>
    obtain rfl : Y = [] := List.length_eq_zero_iff.1 hl
    obtain ⟨ph, phys, T, ts, rfl, rfl, h1, h2⟩ := OpOnPairs.cons_inv h
    obtain ⟨rfl, rfl⟩ := h2.one_inv
    exact .one
  | cons b X ih =>
    rcases Y with _ | ⟨c, Y⟩
    · simp at hl
    obtain ⟨ph, phys, T, ts, rfl, rfl, h1, h2⟩ := OpOnPairs.cons_inv h
    have hb := hX b (List.mem_cons_self ..)
    have hc := hY c (List.mem_cons_self ..)
    exact .cons (nodup_pairs (legBasis_nodup hb.1) (legBasis_nodup hb.2)) (nodup_pairs (legBasis_nodup hc.1) (legBasis_nodup hc.2))
      (fun s x u d z h0 => ⟨opPairFun_support h1 hb h0, opPairFun_support h'.1 hc h0⟩)
      (ih h2 h'.2 (by simpa using hl) (fun c hc => hX c (List.mem_cons_of_mem _ hc)) (fun c hc => hY c (List.mem_cons_of_mem _ hc)))

/-- The product of two operators with at least two sites. -/
theorem mulTensors_spec (isF : Q → Bool) (le : Q → Q → Bool) {l r : BondInfo Q × BondInfo Q} {X : List (BondInfo Q × BondInfo Q)}
    {phys : List (List (BondInfo Q) × List (BondInfo Q) × List (BondInfo Q))} (a b : Mpo Q K) (h : MulOn isF (l :: X ++ [r]) phys a.tensors b.tensors)
    (hX : X ≠ []) (hg : ∀ b ∈ l :: X ++ [r], GoodBond b.1 ∧ GoodBond b.2) (hp : ∀ ph ∈ outer phys, ∀ b ∈ ph.1 ++ ph.2, GoodBond b)
    (hlen : a.tensors.length = X.length + 1 ∧ b.tensors.length = X.length + 1) :
    (Mpo.mulTensors isF le a b = some none ∧ ∀ us ds, Sized (outer phys) us ds → ∀ cs s x y,
        sch (basisPar isF) (mulFuns isF phys a.tensors b.tensors) cs s x us ds y = 0) ∨
    ∃ (ts : List (OpT Q K)) (fl : BondFusingInfo Q) (fm : List (BondFusingInfo Q)) (fr : BondFusingInfo Q) (F E : BondInfo Q × BondInfo Q)
      (T0 T1 : SpT Q K), Mpo.mulTensors isF le a b = some (some ⟨ts, 0⟩) ∧ PairTable fl F.1 F.2 ∧ PairTable fr E.1 E.2 ∧
      OpOn (fl.quanta :: (fm.map fun f => f.quanta) ++ [fr.quanta]) (outer phys) ts ∧ (∀ f ∈ fm, GoodBond f.quanta) ∧ (∀ t ∈ ts, t.noBlocks = false) ∧
      fm.length = X.length ∧ T0 ≠ [] ∧ T1 ≠ [] ∧
      (∃ c : BondInfo Q × BondInfo Q, Conforms ([l.1, l.2] ++ (joinPhys (outer phys)).headD [] ++ [c.1, c.2]) T0) ∧
      (∃ c : BondInfo Q × BondInfo Q, Conforms ([c.1, c.2] ++ (joinPhys (outer phys)).getLastD [] ++ [r.1, r.2]) T1) ∧
      (∀ q s, Dict.get? F.1 q = some s ↔ Dict.get? l.1 q = some s ∧ OccursOn T0 0 q) ∧
      (∀ q s, Dict.get? F.2 q = some s ↔ Dict.get? l.2 q = some s ∧ OccursOn T0 1 q) ∧
      (∀ q s, Dict.get? E.1 q = some s ↔ Dict.get? r.1 q = some s ∧ OccursOn T1 (((joinPhys (outer phys)).getLastD []).length + 2) q) ∧
      (∀ q s, Dict.get? E.2 q = some s ↔ Dict.get? r.2 q = some s ∧ OccursOn T1 (((joinPhys (outer phys)).getLastD []).length + 3) q) ∧
      ∀ s, ∀ z ∈ pairs (legBasis F.1) (legBasis F.2), ∀ us ds, Sized (outer phys) us ds → ∀ y ∈ pairs (legBasis E.1) (legBasis E.2),
        opAmpl isF ts (fm.map fun f => f.quanta) s (pairIndex fl F.2 z) us ds (pairIndex fr E.2 y) =
          sch (basisPar isF) (mulFuns isF phys a.tensors b.tensors) (X.map fun b => pairs (legBasis b.1) (legBasis b.2)) s z us ds y := by
  have hX0 : 0 < X.length := List.length_pos_iff.2 hX
  have hcond : ¬ (a.tensors.length ≠ b.tensors.length ∨ b.tensors.length ≤ 1) := by omega
  unfold Mpo.mulTensors
  rw [if_neg hcond]
  rcases mulSites_spec isF (bonds := X ++ [r]) h with ⟨h1, -, h2⟩ | ⟨rs, h1, h2, h3, h4⟩
  · rw [h1]
    exact Or.inl ⟨rfl, h2⟩
  right
  rw [h1]
  have hb2 := h2.both
  have hne : ∀ T ∈ rs.map OpT.both, T ≠ [] := by
    intro T hT
    obtain ⟨R, hR, rfl⟩ := List.mem_map.1 hT
    exact both_ne_nil.2 (h3 R hR)
  obtain ⟨is, i1, i2⟩ := opInfoSpecs_of h2 hg hp h3
  obtain ⟨fl, fm, fr, F, Y, E, p1, p2, p3, p4, p5, p6, p7, p8, p9, p10⟩ := prodBonds_spec le (X := X) (r := r) hb2 i2 hne
  have ht : Tables (fl :: (fm ++ [fr])) (F :: (Y ++ [E])) := .cons p2 (p3.append (.cons p4 .nil))
  have h2' : OpOnPairs (F :: (Y ++ [E])) (outer phys) rs := h2.rehome p6 (by simp [p5])
  obtain ⟨ts, m1, m2, m3, m4⟩ := opMergeSites_spec ht h2' h3
  obtain ⟨c0, T0, I0, e1, e2, e3, e4, e5⟩ := OnPairs.first (X := X) (r := r) hb2 i2
  obtain ⟨c1, T1, I1, e1', e2', e3', e4', e5'⟩ := OnPairs.last (X := X) (r := r) hb2 i2
  rw [e1] at p7 p8
  rw [e1'] at p9 p10
  refine ⟨ts, fl, fm, fr, F, E, T0, T1, ?_, p2, p4, ?_, p3.good.2.1, m4, p3.good.2.2.trans p5, hne T0 e2, hne T1 e2', ⟨c0, e4⟩, ⟨c1, e4'⟩, p7, p8, p9, p10, ?_⟩
  · show ((rs.mapM OpT.infos).bind fun infos => (prodBonds le infos).bind fun pb => (Mpo.mergeSites rs pb).map fun ts => some (⟨ts, 0⟩ : Mpo Q K)) = _
    rw [i1, Option.bind_some, p1, Option.bind_some, List.cons_append, m1]
    rfl
  · simpa using m2
  · intro s z hz us ds hs y hy
    rw [opAmpl_eq_sch, List.map_map]
    have hre := reindexed_of_merged p3 m3
    have := sch_reindex (basisPar isF) hre s z hz us ds y hy
    have e : (legBasis ∘ fun f : BondFusingInfo Q => f.quanta) = fun f => legBasis f.quanta := rfl
    rw [e, this]
    rw [← sch_support (basisPar isF) (opSuppFuns_of (l := l) (r := r) (X := X) h2 h2' p5
      (fun b hb => ⟨(hg b (by simp [hb])).1.1, (hg b (by simp [hb])).2.1⟩) p3.good.1)]
    exact sch_agree _ (h4 us ds hs) _ _ _ _

end
end Verif
