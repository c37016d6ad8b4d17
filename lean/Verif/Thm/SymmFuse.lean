import Verif.Proof.SymmMps

/-! C74: change to a lower symmetry. -/

set_option linter.unusedSectionVars false

namespace Verif
section
variable {H L K : Type} [DecidableEq H] [DecidableEq L] [Zero H] [Zero L]

/-- C74: the new bond has for each new label as many basis vectors as the old labels that become it have together, and its windows make the basis vectors of the two bonds correspond. -/
theorem C74_bond (le : H → H → Bool) (f : H → L) (b : BondInfo H) (hb : Dict.WF b) :
    (∃ φ, Relabels f b (symmetryFusingInfo le b f).1 φ) ∧
      ∀ q, Counter.count (symmetryFusingInfo le b f).1 q = ((List.filter (fun p => f p.1 = q) b).map Prod.snd).sum :=
  ⟨⟨_, symm_relabels le f hb⟩, (symm_facts le f b).2.2⟩

/-- C74: there is one correspondence of the basis vectors, which depends on the bonds only, such that every tensor on any legs can be changed, and the result is the same tensor. -/
theorem C74_tensor [AddCommMonoid K] (le : H → H → Bool) (f : H → L) :
    ∃ ψ : BondInfo H → H × Nat → L × Nat, (∀ b, Dict.WF b → Relabels f b (symmetryFusingInfo le b f).1 (ψ b)) ∧
      ∀ (legs : List (BondInfo H)) (T : SpT H K), (∀ b ∈ legs, Dict.WF b) → Conforms legs T →
        ∃ R, SpT.symmetryFuse T (legs.map fun b => symmetryFusingInfo le b f) f = some R ∧ SameTensor ψ (fun b => (symmetryFusingInfo le b f).1) legs T R := by
  refine ⟨symmPlace le f, fun b hb => symm_relabels le f hb, fun legs T hw hT => ?_⟩
  obtain ⟨R, h1, h2, _⟩ := symmetryFuse_spec le f hw T hT
  exact ⟨R, h1, h2⟩

/-- C74: the numbers in the dense tensor are the same up to their order.  So are all sums of a function of the entries, for instance the norm. -/
theorem C74_entries [AddCommMonoid K] (le : H → H → Bool) (f : H → L) (legs : List (BondInfo H)) (hw : ∀ b ∈ legs, Dict.WF b) (T : SpT H K) (hT : Conforms legs T)
    (R : SpT L K) (hR : SpT.symmetryFuse T (legs.map fun b => symmetryFusingInfo le b f) f = some R) :
    ((legIndices (legs.map fun b => (symmetryFusingInfo le b f).1)).map (entry R)).Perm ((legIndices legs).map (entry T)) := by
  obtain ⟨R', h1, h2, _⟩ := symmetryFuse_spec le f hw T hT
  rw [hR, Option.some.injEq] at h1
  subst h1
  have h := (relabel_perm (fun b hb => symm_relabels le f hb) hw).map (entry R)
  rw [List.map_map] at h
  refine h.symm.trans (List.Perm.of_eq (List.map_congr_left fun x hx => h2.2.2 x hx))

/-- C74: a map that respects the sums of labels keeps the conservation of charge. -/
theorem C74_charge {H L : Type} [DecidableEq H] [DecidableEq L] [AddCommGroup H] [AddCommGroup L] [AddCommMonoid K] (le : H → H → Bool) (f : H →+ L)
    (legs : List (BondInfo H)) (hw : ∀ b ∈ legs, Dict.WF b) (T : SpT H K) (hT : Conforms legs T)
    (R : SpT L K) (hR : SpT.symmetryFuse T (legs.map fun b => symmetryFusingInfo le b f) f = some R) (pattern : List Bool) (dq : H) (hc : Conserves pattern dq T) :
    Conserves pattern (f dq) R := by
  obtain ⟨R', h1, _, h3⟩ := symmetryFuse_spec le f hw T hT
  rw [hR, Option.some.injEq] at h1
  subst h1
  intro c hcR
  obtain ⟨b, hb, e⟩ := h3 c hcR
  rw [e, ← hc b hb]
  generalize b.1 = qs
  clear hc hR hT
  unfold signedSum
  induction pattern generalizing qs with
  | nil => simp
  | cons s p ih =>
    rcases qs with _ | ⟨q, qs⟩
    · simp
    · have := ih qs
      cases s <;> simp_all

/-- C74: it does not matter whether two tensors are contracted before or after the change. -/
theorem C74_contract [CommSemiring K] (le : H → H → Bool) (f : H → L) (A B : SpT H K) (axesA axesB : List Int) (legsA legsB legs : List (BondInfo H)) (idxa idxb : List Nat)
    (hA : Conforms legsA A) (hB : Conforms legsB B)
    (ha : List.Forall₂ (NamesAxis legsA.length) axesA idxa) (hb : List.Forall₂ (NamesAxis legsB.length) axesB idxb) (hnda : idxa.Nodup) (hndb : idxb.Nodup)
    (hla : idxa.map (fun i => legsA.getD i []) = legs) (hlb : idxb.map (fun i => legsB.getD i []) = legs)
    (hwA : ∀ b ∈ legsA, Dict.WF b) (hwB : ∀ b ∈ legsB, Dict.WF b) :
    ∃ R A' B' R' R'', SpT.tensordot A B axesA axesB = some R ∧
      SpT.symmetryFuse A (legsA.map fun b => symmetryFusingInfo le b f) f = some A' ∧ SpT.symmetryFuse B (legsB.map fun b => symmetryFusingInfo le b f) f = some B' ∧
      SpT.tensordot A' B' axesA axesB = some R' ∧
      SpT.symmetryFuse R (((freeAxes legsA.length idxa).map (fun i => legsA.getD i []) ++ (freeAxes legsB.length idxb).map (fun i => legsB.getD i [])).map
        fun b => symmetryFusingInfo le b f) f = some R'' ∧
      ∀ y, entry R' y = entry R'' y := by
  have hψ : ∀ b, Dict.WF b → Relabels f b (symmetryFusingInfo le b f).1 (symmPlace le f b) := fun b hb => symm_relabels le f hb
  obtain ⟨A', a1, a2, _⟩ := symmetryFuse_spec le f hwA A hA
  obtain ⟨B', b1, b2, _⟩ := symmetryFuse_spec le f hwB B hB
  have mem : ∀ (l : List (BondInfo H)), (∀ b ∈ l, Dict.WF b) → ∀ i, Dict.WF (l.getD i []) := by
    intro l hl i
    rw [List.getD_eq_getElem?_getD]
    rcases h : l[i]? with _ | b
    · exact Dict.WF.nil
    · exact hl b (List.mem_of_getElem? h)
  have hwl : ∀ b ∈ legs, Dict.WF b := by
    intro b h
    rw [← hla] at h
    obtain ⟨i, _, rfl⟩ := List.mem_map.1 h
    exact mem _ hwA i
  obtain ⟨R, r1, r2, _⟩ := C12_tensordot A B axesA axesB legsA legsB legs idxa idxb hA hB ha hb hnda hndb hla hlb hwl
  have hR' : ∃ R', SpT.tensordot A' B' axesA axesB = some R' := by
    have : axesA.length = axesB.length := by
      have h1 := congrArg List.length hla
      have h2 := congrArg List.length hlb
      simp only [List.length_map] at h1 h2
      rw [ha.length_eq, hb.length_eq, h1, h2]
    unfold SpT.tensordot
    simp only [List.length_map, this, if_true]
    exact ⟨_, rfl⟩
  obtain ⟨R', r1'⟩ := hR'
  have hwf : ∀ b ∈ (freeAxes legsA.length idxa).map (fun i => legsA.getD i []) ++ (freeAxes legsB.length idxb).map (fun i => legsB.getD i []), Dict.WF b := by
    intro b h
    rcases List.mem_append.1 h with h | h
    · obtain ⟨i, _, rfl⟩ := List.mem_map.1 h
      exact mem _ hwA i
    · obtain ⟨i, _, rfl⟩ := List.mem_map.1 h
      exact mem _ hwB i
  obtain ⟨R'', q1, q2, _⟩ := symmetryFuse_spec le f hwf R r2
  refine ⟨R, A', B', R', R'', r1, a1, b1, r1', q1, fun y => ?_⟩
  have hs := contract_same hψ hA hB ha hb hnda hndb hla hlb hwA hwB a2 b2 r1 r1'
  by_cases hy : y ∈ legIndices (((freeAxes legsA.length idxa).map (fun i => legsA.getD i []) ++ (freeAxes legsB.length idxb).map (fun i => legsB.getD i [])).map
      fun b => (symmetryFusingInfo le b f).1)
  · obtain ⟨x, hx, rfl⟩ := (relabel_mem hψ hwf).1 hy
    rw [hs.2.2 x hx, q2.2.2 x hx]
  · rw [sameTensor_outside hψ hwf hs.1 hy, sameTensor_outside hψ hwf q2.1 hy]

/-- C74: a matrix product state or operator keeps its constant and all its amplitudes.  `F`, `E` and `phys'` are the sectors of the outer and of the physical legs that are carried over:
all that the tensors use, and all of the physical legs if their bases are given. -/
theorem C74_state [Semiring K] (le : H → H → Bool) (f : H → L) :
    ∃ ψ : BondInfo H → H × Nat → L × Nat, (∀ b, Dict.WF b → Relabels f b (symmetryFusingInfo le b f).1 (ψ b)) ∧
      ∀ (l r : BondInfo H) (X : List (BondInfo H)) (phys : List (List (BondInfo H))) (a : Mps H K) (info : Option (List (BondInfo H))),
        OnBonds (l :: X ++ [r]) phys a.tensors → (∀ b ∈ X, GoodBond b) → (∀ ph ∈ phys, ∀ b ∈ ph, Dict.WF b) → (∀ T ∈ a.tensors, T ≠ []) →
        (∀ basis, info = some basis → BasisOf basis phys) →
        ∃ (R : Mps L K) (F E : BondInfo H) (X' : List (BondInfo H)) (phys' : List (List (BondInfo H))),
          a.symmetryFuse le f info = some R ∧ R.const = a.const ∧
          SubBond F l ∧ SubBond E r ∧ List.Forall₂ (List.Forall₂ SubBond) phys' phys ∧ (info ≠ none → phys' = phys) ∧
          OnBonds (F :: X' ++ [E]) phys' a.tensors ∧
          OnBonds ((F :: X' ++ [E]).map fun b => (symmetryFusingInfo le b f).1) (phys'.map fun ph => ph.map fun b => (symmetryFusingInfo le b f).1) R.tensors ∧
          ∀ x ∈ legBasis F, ∀ y ∈ legBasis E, ∀ ps ∈ cart (phys'.map legIndices),
            ampl R.tensors (X'.map fun b => (symmetryFusingInfo le b f).1) (ψ F x) (List.zipWith (relabelAll ψ) phys' ps) (ψ E y) = ampl a.tensors X x ps y := by
  refine ⟨symmPlace le f, fun b hb => symm_relabels le f hb, fun l r X phys a info h hX hph hne hinfo => ?_⟩
  obtain ⟨n1, n2⟩ := h.lengths
  obtain ⟨ts, const⟩ := a
  simp only at h hne n1 ⊢
  have hall : ∀ T ∈ ts, ∃ l ph r, Conforms (l :: ph ++ [r]) T := by
    clear hX hph hinfo n1 n2 hne
    induction X generalizing l phys ts with
    | nil =>
      rcases phys with _ | ⟨ph, phys⟩
      · exact h.elim
      rcases ts with _ | ⟨T, ts⟩
      · exact h.elim
      have hts : phys = [] ∧ ts = [] := by
        have h2 := h.2
        rcases phys with _ | ⟨ph, phys⟩ <;> rcases ts with _ | ⟨T, ts⟩ <;> simp_all [OnBonds]
      obtain ⟨rfl, rfl⟩ := hts
      intro T' hT'
      rw [List.mem_singleton] at hT'
      subst hT'
      exact ⟨_, _, _, h.1⟩
    | cons b X ih =>
      rcases phys with _ | ⟨ph, phys⟩
      · exact h.elim
      rcases ts with _ | ⟨T, ts⟩
      · exact h.elim
      intro T' hT'
      rcases List.mem_cons.1 hT' with rfl | hT'
      · exact ⟨_, _, _, h.1⟩
      · exact ih _ _ _ h.2 T' hT'
  have hm : ts.mapM SpT.infos = some (ts.map siteInfos) := mapM_some' _ _ _ fun T hT => by
    obtain ⟨l, ph, r, hc⟩ := hall T hT
    exact infos_site hc (hne T hT)
  have hte : ts ≠ [] := by intro e; rw [e] at n1; simp at n1
  -- the first and the last bond
  obtain ⟨T0, ts0, e0⟩ : ∃ T ts', ts = T :: ts' := by
    rcases ts with _ | ⟨T, ts⟩
    · exact absurd rfl hte
    · exact ⟨_, _, rfl⟩
  have hF : ∃ F, ((ts.map siteInfos).headD []).headD [] = F ∧ SubBond F l ∧ ∀ q s, OccursOn (ts.headD []) 0 q → Dict.get? l q = some s → Dict.get? F q = some s := by
    subst e0
    have hc : ∃ ph r, Conforms (l :: ph ++ [r]) T0 := by
      rcases phys with _ | ⟨ph, phys⟩
      · simp at n2
      rcases X with _ | ⟨b, X⟩
      · exact ⟨_, _, h.1⟩
      · exact ⟨_, _, h.1⟩
    obtain ⟨ph, r', hc⟩ := hc
    have h0 : 0 < (l :: ph ++ [r']).length := by simp
    obtain ⟨o1, o2⟩ := occ_spec h0 hc
    refine ⟨occ 0 T0, (siteInfos_first hc (hne T0 (by simp))).2, ⟨o1, fun q s hq => ((o2 q s).1 hq).1⟩, fun q s ho hq => (o2 q s).2 ⟨hq, ho⟩⟩
  have hE : ∃ E, ((ts.map siteInfos).getLastD []).getLastD [] = E ∧ SubBond E r ∧
      ∀ q s, OccursOn (ts.getLastD []) ((phys.getLastD []).length + 1) q → Dict.get? r q = some s → Dict.get? E q = some s := by
    have hc : ∃ l', Conforms (l' :: (phys.getLastD []) ++ [r]) (ts.getLastD []) := by
      clear hF e0 hm hall hX hph hinfo hte hne n1 n2
      induction X generalizing l phys ts with
      | nil =>
        rcases phys with _ | ⟨ph, phys⟩
        · exact h.elim
        rcases ts with _ | ⟨T, ts⟩
        · exact h.elim
        have hts : phys = [] ∧ ts = [] := by
          have h2 := h.2
          rcases phys with _ | ⟨ph, phys⟩ <;> rcases ts with _ | ⟨T, ts⟩ <;> simp_all [OnBonds]
        obtain ⟨rfl, rfl⟩ := hts
        exact ⟨_, h.1⟩
      | cons b X ih =>
        rcases phys with _ | ⟨ph, phys⟩
        · exact h.elim
        rcases ts with _ | ⟨T, ts⟩
        · exact h.elim
        have h2 : OnBonds (b :: X ++ [r]) phys ts := h.2
        obtain ⟨m1, m2⟩ := h2.lengths
        obtain ⟨l', hl'⟩ := ih _ _ _ h2
        refine ⟨l', ?_⟩
        rcases phys with _ | ⟨ph', phys⟩
        · simp at m2
        rcases ts with _ | ⟨T', ts⟩
        · simp at m1
        simpa using hl'
    obtain ⟨l', hc⟩ := hc
    have hlast : ts.getLastD [] ∈ ts := by
      rw [List.getLastD_eq_getLast?, List.getLast?_eq_getLast_of_ne_nil hte]
      exact List.getLast_mem hte
    have hk : (phys.getLastD []).length + 1 < (l' :: phys.getLastD [] ++ [r]).length := by simp
    obtain ⟨o1, o2⟩ := occ_spec hk hc
    rw [getD_mid] at o2
    have e : (ts.map siteInfos).getLastD [] = siteInfos (ts.getLastD []) := by
      rw [List.getLastD_eq_getLast?, List.getLastD_eq_getLast?, List.getLast?_map, List.getLast?_eq_getLast_of_ne_nil hte]
      rfl
    refine ⟨occ ((phys.getLastD []).length + 1) (ts.getLastD []), ?_, ⟨o1, fun q s hq => ((o2 q s).1 hq).1⟩, fun q s ho hq => (o2 q s).2 ⟨hq, ho⟩⟩
    rw [e, siteInfos_last hc (hne _ hlast)]
  obtain ⟨F, f1, f2, f3⟩ := hF
  obtain ⟨E, e1, e2, e3⟩ := hE
  obtain ⟨g1, g2, g3⟩ := rehome h hX hne f3 e3
  have hphys : ∃ phys', OnBonds (F :: Mps.innerBonds (ts.map siteInfos) ++ [E]) phys' ts ∧ PhysOk info ts.length 0 0 phys' ts ∧
      List.Forall₂ (List.Forall₂ SubBond) phys' phys ∧ (info ≠ none → phys' = phys) ∧ ∀ ph ∈ phys', ∀ b ∈ ph, Dict.WF b := by
    rcases info with _ | basis
    · obtain ⟨phys', p1, p2, p3⟩ := physOk_none g1 hne ts.length 0 0
      refine ⟨phys', p1, p2, p3, fun hn => absurd rfl hn, ?_⟩
      intro ph hp b hb
      obtain ⟨i, hi, rfl⟩ := List.getElem_of_mem hp
      obtain ⟨j, hj, rfl⟩ := List.getElem_of_mem hb
      have q := (List.forall₂_iff_get.1 p3).2 i hi (p3.length_eq ▸ hi)
      exact ((List.forall₂_iff_get.1 q).2 j hj (q.length_eq ▸ hj)).1
    · refine ⟨phys, g1, ?_, ?_, fun _ => rfl, hph⟩
      · have hl : phys.length = ts.length := by omega
        rcases hinfo basis rfl with ⟨b1, b2⟩ | ⟨b1, b2⟩
        · exact physOk_site g1 hne basis _ 0 0 (b1.trans hl) (by simpa using b2)
        · exact physOk_leg g1 hne basis _ 0 0 (by rw [← hl]; exact b1) (by simpa using b2)
      · rw [List.forall₂_iff_get]
        refine ⟨rfl, fun i hi _ => ?_⟩
        rw [List.forall₂_iff_get]
        refine ⟨rfl, fun j hj _ => ⟨hph _ (List.getElem_mem hi) _ (List.getElem_mem hj), fun q s hq => hq⟩⟩
  obtain ⟨phys', p1, p2, p3, p4, p5⟩ := hphys
  obtain ⟨Rs, r1, r2, r3⟩ := symmSites_spec le f info ts.length p1 p2 f2.1 e2.1 (fun b hb => (g3 b hb).1) p5
  refine ⟨⟨Rs, const⟩, F, E, Mps.innerBonds (ts.map siteInfos), phys', ?_, rfl, f2, e2, p3, p4, p1, r2, ?_⟩
  · unfold Mps.symmetryFuse
    simp only [hm, Option.bind_some]
    rw [if_neg]
    · unfold Mps.symmBonds
      rw [f1, e1]
      have : [F] ++ Mps.innerBonds (ts.map siteInfos) ++ [E] = F :: Mps.innerBonds (ts.map siteInfos) ++ [E] := rfl
      rw [this, r1]; rfl
    · rintro (hc | hc)
      · simp [e0] at hc
      · rw [List.any_eq_true] at hc
        obtain ⟨I, hI, hemp⟩ := hc
        obtain ⟨T, hT, rfl⟩ := List.mem_map.1 hI
        obtain ⟨l', ph, r', hc⟩ := hall T hT
        have := (siteInfos_mid hc (hne T hT)).2
        have hn := ndim_of_conforms hc (hne T hT)
        simp [siteInfos, hn] at hemp
  · intro x hx y hy ps hps
    rw [r3 x hx y hy ps hps]
    exact ampl_bonds g1 h (fun b hb => (g3 b hb).1) (fun b hb => (hX b hb).1) x y ps

end

/-! A tensor with labels (particle number, spin): two labels become the particle number one. -/

/-- A site with four states. -/
def sfBond : BondInfo (Int × Int) := [((0, 0), 1), ((1, 1), 2), ((1, -1), 1), ((2, 0), 1)]

/-- A tensor with two blocks that come together in one block. -/
def sfT : SpT (Int × Int) Int :=
  [([(1, 1), (1, 1)], ⟨[2, 2], fun ix => 1 + 2 * ix.getD 0 0 + ix.getD 1 0⟩), ([(1, -1), (1, -1)], ⟨[1, 1], fun _ => 7⟩), ([(2, 0), (2, 0)], ⟨[1, 1], fun _ => 9⟩)]

/-- The order of the labels. -/
def sfLe (a b : Int × Int) : Bool := decide (a.1 < b.1 ∨ (a.1 = b.1 ∧ a.2 ≤ b.2))

example : Dict.WF sfBond ∧ Conforms [sfBond, sfBond] sfT ∧ Conserves [true, false] 0 sfT := by decide

example : ((SpT.symmetryFuse sfT ([sfBond, sfBond].map fun b => symmetryFusingInfo sfLe b Prod.fst) Prod.fst).map fun R =>
    R.map fun b => (b.1, b.2.shape, (box b.2.shape).map b.2.get)) =
    some [([1, 1], [3, 3], [7, 0, 0, 0, 1, 2, 0, 3, 4]), ([2, 2], [1, 1], [9])] := by decide +kernel

/-- A label that is not on the bond: the change fails. -/
example : (SpT.symmetryFuse sfT ([sfBond, sfBond.take 2].map fun b => symmetryFusingInfo sfLe b Prod.fst) Prod.fst).isNone = true := by decide +kernel

/-- Contraction of the tensor with itself: the hypotheses of `C74_contract` hold. -/
example : List.Forall₂ (NamesAxis 2) [-1] [1] ∧ List.Forall₂ (NamesAxis 2) [0] [0] ∧ [1].map (fun i => [sfBond, sfBond].getD i []) = [sfBond] ∧
    [0].map (fun i => [sfBond, sfBond].getD i []) = [sfBond] := by
  refine ⟨.cons ⟨by decide, Or.inr rfl⟩ .nil, .cons ⟨by decide, Or.inl rfl⟩ .nil, rfl, rfl⟩

/-- A state of two sites with an inner bond on which two labels come together. -/
def sfMps : Mps (Int × Int) Int := ⟨[
  [([(0, 0), (1, 1), (1, 1)], ⟨[1, 2, 1], fun ix => 1 + ix.getD 1 0⟩), ([(0, 0), (1, -1), (1, -1)], ⟨[1, 1, 1], fun _ => 5⟩)],
  [([(1, 1), (1, -1), (2, 0)], ⟨[1, 1, 1], fun _ => 3⟩), ([(1, -1), (1, 1), (2, 0)], ⟨[1, 2, 1], fun ix => 2 + ix.getD 1 0⟩)]], 11⟩

example : Conforms [[((0, 0), 1)], sfBond, [((1, 1), 1), ((1, -1), 1)]] (sfMps.tensors.getD 0 []) ∧
    Conforms [[((1, 1), 1), ((1, -1), 1)], sfBond, [((2, 0), 1)]] (sfMps.tensors.getD 1 []) := by decide

example : OnBonds ([((0, 0), 1)] :: [[((1, 1), 1), ((1, -1), 1)]] ++ [[((2, 0), 1)]]) [[sfBond], [sfBond]] sfMps.tensors :=
  ⟨by decide, by decide, trivial⟩

example : BasisOf [sfBond, sfBond] [[sfBond], [sfBond]] :=
  Or.inl ⟨rfl, .cons (by simp) (.cons (by simp) .nil)⟩

example : ((sfMps.symmetryFuse sfLe Prod.fst (some [sfBond, sfBond])).map fun R => R.tensors.flatten.map fun b => (b.1, b.2.shape, (box b.2.shape).map b.2.get)) =
    some [([0, 1, 1], [1, 3, 2], [5, 0, 0, 1, 0, 2]), ([1, 1, 2], [2, 3, 1], [0, 2, 3, 3, 0, 0])] := by decide +kernel

/-- Without bases the physical legs only get the sectors that occur. -/
example : ((sfMps.symmetryFuse sfLe Prod.fst none).map fun R => R.tensors.map fun T => T.map fun b => (b.1, b.2.shape)) =
    some [[([0, 1, 1], [1, 3, 2])], [([1, 1, 2], [2, 3, 1])]] := by decide +kernel

end Verif
