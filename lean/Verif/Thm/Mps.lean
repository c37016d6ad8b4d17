import Verif.Proof.MpsInfos
import Mathlib.Data.Int.Order.Basic

/-!
C18, C19: sums and multiples of matrix product states.
-/

set_option linter.unusedSectionVars false

namespace Verif
open Mps
section
variable {Q K : Type} [DecidableEq Q] [Zero Q] [Semiring K]

/-- A site without blocks makes every amplitude zero. -/
theorem ampl_empty {ts : List (SpT Q K)} (h : [] ∈ ts) (X : List (BondInfo Q)) (x : Q × Nat) (ps : List (List (Q × Nat))) (y : Q × Nat) :
    ampl ts X x ps y = 0 := by
  induction ts generalizing X x ps with
  | nil => simp at h
  | cons T ts ih =>
    rcases ps with _ | ⟨p, ps⟩
    · exact ampl_noSites _ _ _ _
    rcases X with _ | ⟨b, X⟩
    · unfold ampl
      split
      · rename_i h1 _ h3
        obtain ⟨rfl, rfl⟩ := List.cons.inj h1
        have : T = [] := (List.mem_singleton.1 h).symm
        rw [this]; rfl
      · simp_all
      · rfl
    · rw [ampl_cons]
      refine sum_map_zero' _ _ fun z _ => ?_
      rcases List.mem_cons.1 h with rfl | h
      · rw [entry_nil, zero_mul]
      · rw [ih h, mul_zero]

theorem any_isEmpty {ts : List (SpT Q K)} : ts.any List.isEmpty = true ↔ [] ∈ ts := by
  rw [List.any_eq_true]
  constructor
  · rintro ⟨T, hT, h⟩
    rw [List.isEmpty_iff.1 h] at hT
    exact hT
  · intro h
    exact ⟨[], h, rfl⟩

theorem mapM_infos {bonds : List (BondInfo Q)} {phys : List (List (BondInfo Q))} {ts : List (SpT Q K)} (h : OnBonds bonds phys ts)
    (hne : ∀ T ∈ ts, T ≠ []) : ts.mapM SpT.infos = some (ts.map siteInfos) := by
  refine mapM_some' _ _ _ fun T hT => ?_
  have : ∃ legs, Conforms legs T := by
    induction ts generalizing bonds phys with
    | nil => simp at hT
    | cons S ts ih =>
      rcases bonds with _ | ⟨l, _ | ⟨r, bonds⟩⟩
      · rcases phys with _ | ⟨ph, phys⟩ <;> exact h.elim
      · rcases phys with _ | ⟨ph, phys⟩ <;> exact h.elim
      rcases phys with _ | ⟨ph, phys⟩
      · exact h.elim
      rcases List.mem_cons.1 hT with rfl | hT
      · exact ⟨_, h.1⟩
      · exact ih h.2 (fun S hS => hne S (List.mem_cons_of_mem _ hS)) hT
  obtain ⟨legs, hl⟩ := this
  exact infos_site hl (hne T hT)

theorem OnBonds.last {l r : BondInfo Q} {X : List (BondInfo Q)} {phys : List (List (BondInfo Q))} {ts : List (SpT Q K)}
    (h : OnBonds (l :: X ++ [r]) phys ts) : ∃ m, Conforms (m :: phys.getLastD [] ++ [r]) (ts.getLastD []) := by
  induction X generalizing l phys ts with
  | nil =>
    rcases phys with _ | ⟨ph, phys⟩
    · exact h.elim
    rcases ts with _ | ⟨T, ts⟩
    · exact h.elim
    have h2 := h.2
    rcases phys with _ | ⟨ph', phys⟩ <;> rcases ts with _ | ⟨T', ts⟩
    · exact ⟨l, h.1⟩
    all_goals exact h2.elim
  | cons b X ih =>
    rcases phys with _ | ⟨ph, _ | ⟨ph', phys⟩⟩
    · exact h.elim
    · rcases ts with _ | ⟨T, _ | ⟨T', ts⟩⟩ <;> rcases X with _ | ⟨c, X⟩ <;> exact absurd h (by simp [OnBonds])
    rcases ts with _ | ⟨T, _ | ⟨T', ts⟩⟩
    · exact h.elim
    · rcases X with _ | ⟨c, X⟩ <;> exact absurd h (by simp [OnBonds])
    obtain ⟨m, hm⟩ := ih h.2
    exact ⟨m, by simpa using hm⟩

theorem OnBonds.first {l r : BondInfo Q} {X : List (BondInfo Q)} {phys : List (List (BondInfo Q))} {ts : List (SpT Q K)}
    (h : OnBonds (l :: X ++ [r]) phys ts) : ∃ m, Conforms (l :: phys.headD [] ++ [m]) (ts.headD []) := by
  rcases phys with _ | ⟨ph, phys⟩
  · rcases X with _ | ⟨c, X⟩ <;> exact h.elim
  rcases ts with _ | ⟨T, ts⟩
  · rcases X with _ | ⟨c, X⟩ <;> exact h.elim
  rcases X with _ | ⟨c, X⟩
  · exact ⟨r, h.1⟩
  · exact ⟨c, h.1⟩

theorem addTensors_long (a b : Mps Q K) (h : a.tensors.length = b.tensors.length) (h2 : 2 ≤ a.tensors.length) :
    addTensors a b =
      if a.tensors.any List.isEmpty then some ⟨b.tensors, a.const + b.const⟩
      else if b.tensors.any List.isEmpty then some ⟨a.tensors, a.const + b.const⟩
      else
        (a.tensors.mapM SpT.infos).bind fun ainfos => (b.tensors.mapM SpT.infos).map fun binfos =>
          ⟨kronAddSites a.tensors b.tensors ([(ainfos.headD []).headD []] ++
            ((innerBonds ainfos).zip (innerBonds binfos)).map (fun x => BondInfo.addCounts x.1 x.2) ++ [(ainfos.getLastD []).getLastD []]),
            a.const + b.const⟩ := by
  obtain ⟨ats, ac⟩ := a
  obtain ⟨bts, bc⟩ := b
  rcases ats with _ | ⟨T, _ | ⟨T', ats⟩⟩
  · simp at h2
  · simp at h2
  rcases bts with _ | ⟨S, _ | ⟨S', bts⟩⟩
  · simp at h
  · simp at h
  unfold addTensors
  rw [if_neg (fun hn => hn h)]

/-- The general branch of `_add`. -/
theorem addTensors_general (l r : BondInfo Q) (X Y : List (BondInfo Q)) (phys : List (List (BondInfo Q))) (a b : Mps Q K)
    (h : Addable l r X Y phys a.tensors b.tensors) (hX : X ≠ []) (hna : [] ∉ a.tensors) (hnb : [] ∉ b.tensors) :
    ∃ c N, addTensors a b = some c ∧ c.const = a.const + b.const ∧ OnBonds (l :: N ++ [r]) phys c.tensors ∧ (∀ n ∈ N, GoodBond n) ∧
      N.length = X.length ∧
      (∀ x ps y, ampl c.tensors N x ps y = ampl a.tensors X x ps y + ampl b.tensors Y x ps y) ∧
      ∀ k, k < X.length → ∀ q, Counter.count (N.getD k []) q =
        usedDim (X.getD k []) (a.tensors.getD k []) (a.tensors.getD (k + 1) []) ((phys.getD k []).length + 1) q +
        usedDim (Y.getD k []) (b.tensors.getD k []) (b.tensors.getD (k + 1) []) ((phys.getD k []).length + 1) q := by
  obtain ⟨hA, hB, hg, hl, hr⟩ := h
  have hgl := hg l (by simp)
  have hgr := hg r (by simp)
  have hgX : ∀ c ∈ X, GoodBond c := fun c hc => hg c (by simp [hc])
  have hgY : ∀ c ∈ Y, GoodBond c := fun c hc => hg c (by simp [hc])
  obtain ⟨lA1, lA2⟩ := hA.lengths
  obtain ⟨lB1, lB2⟩ := hB.lengths
  have hXY : X.length = Y.length := by omega
  have neA : ∀ T ∈ a.tensors, T ≠ [] := fun T hT h0 => hna (h0 ▸ hT)
  have neB : ∀ T ∈ b.tensors, T ≠ [] := fun T hT h0 => hnb (h0 ▸ hT)
  obtain ⟨ml, hcl⟩ := hA.first
  obtain ⟨mr, hcr⟩ := hA.last
  have hX1 : 0 < X.length := List.length_pos_iff.2 hX
  have hhead : a.tensors.headD [] ∈ a.tensors := by
    rcases ha : a.tensors with _ | ⟨T, ts⟩
    · rw [ha] at lA1; simp at lA1
    · simp
  have hlast : a.tensors.getLastD [] ∈ a.tensors := by
    rcases ha : a.tensors with _ | ⟨T, ts⟩
    · rw [ha] at lA1; simp at lA1
    · rw [List.getLastD_cons]
      exact List.getLastD_mem_cons
  set F := occ 0 (a.tensors.headD []) with hF
  set E := occ ((phys.getLastD []).length + 1) (a.tensors.getLastD []) with hE
  obtain ⟨wF, sF⟩ := occ_spec (k := 0) (by simp) hcl
  obtain ⟨wE, sE⟩ := occ_spec (k := (phys.getLastD []).length + 1) (by simp) hcr
  rw [← hF] at wF sF
  rw [← hE, getD_mid] at sE
  rw [← hE] at wE
  have sF' : ∀ q s, Dict.get? F q = some s ↔ Dict.get? l q = some s ∧ OccursOn (a.tensors.headD []) 0 q := sF
  have pF : ∀ x ∈ F, 0 < x.2 := fun x hx => hgl.2 _ (Dict.mem_of_get? ((sF' _ _).1 (Dict.get?_of_mem wF hx)).1)
  have pE : ∀ x ∈ E, 0 < x.2 := fun x hx => hgr.2 _ (Dict.mem_of_get? ((sE _ _).1 (Dict.get?_of_mem wE hx)).1)
  obtain ⟨a1, a2, a3⟩ := rehome hA hgX neA (F := F) (E := E) (fun q s ho hq => (sF' q s).2 ⟨hq, ho⟩) (fun q s ho hq => (sE q s).2 ⟨hq, ho⟩)
  obtain ⟨b1, b2, b3⟩ := rehome hB hgY neB (F := F) (E := E) (fun q s ho hq => (sF' q s).2 ⟨hq, hl q ho⟩)
    (fun q s ho hq => (sE q s).2 ⟨hq, hr q ho⟩)
  set X' := innerBonds (a.tensors.map siteInfos) with hX'
  set Y' := innerBonds (b.tensors.map siteInfos) with hY'
  have hlen : X'.length = Y'.length := by omega
  set N := (X'.zip Y').map fun x => BondInfo.addCounts x.1 x.2 with hN
  obtain ⟨c1, c2⟩ := kronAddSites_spec a1 b1 hlen a3 b3 pE (Fits.self pF) N hN
  have hadd : addTensors a b = some ⟨kronAddSites a.tensors b.tensors (F :: N ++ [E]), a.const + b.const⟩ := by
    have hfirst : ((a.tensors.map siteInfos).headD []).headD [] = F := by
      rw [hF, ← (siteInfos_first hcl (neA _ hhead)).2]
      rcases ha : a.tensors with _ | ⟨T, ts⟩
      · rw [ha] at lA1; simp at lA1
      · rfl
    have hlst : ((a.tensors.map siteInfos).getLastD []).getLastD [] = E := by
      rw [hE, ← siteInfos_last hcr (neA _ hlast)]
      congr 1
      rcases ha : a.tensors with _ | ⟨T, ts⟩
      · rw [ha] at lA1; simp at lA1
      · rw [List.getLastD_cons, List.map_cons, List.getLastD_cons, List.getLastD_map]
    have hma := mapM_infos a1 neA
    have hmb := mapM_infos b1 neB
    rw [addTensors_long a b (by omega) (by omega), if_neg (fun h => hna (any_isEmpty.1 h)), if_neg (fun h => hnb (any_isEmpty.1 h)), hma, hmb,
      Option.bind_some, Option.map_some, hfirst, hlst]
    rfl
  refine ⟨_, N, hadd, rfl, ?_, ?_, ?_, ?_, ?_⟩
  · exact c1.widen (fun q s hq => ((sF' q s).1 hq).1) (fun q s hq => ((sE q s).1 hq).1)
  · intro n hn
    obtain ⟨p, -, rfl⟩ := List.mem_map.1 hn
    exact good_add _ _
  · rw [hN, List.length_map, List.length_zip]; omega
  · intro x ps y
    rw [c2, ampl_bonds a1 hA (fun b hb => (a3 b hb).1) (fun b hb => (hgX b hb).1)]
    simp only [Nat.sub_self, Nat.zero_le, if_true, Nat.sub_zero]
    rw [ampl_bonds b1 hB (fun b hb => (b3 b hb).1) (fun b hb => (hgY b hb).1)]
  · intro k hk q
    rw [← innerBonds_count hA neA k hk, ← innerBonds_count hB neB k (hXY ▸ hk), ← hX', ← hY']
    have hkX : k < X'.length := by omega
    have hkY : k < Y'.length := by omega
    have e : N.getD k [] = BondInfo.addCounts (X'.getD k []) (Y'.getD k []) := by
      rw [hN]
      simp [List.getD_eq_getElem?_getD, hkX, hkY]
    have gX : GoodBond (X'.getD k []) := a3 _ (by
      rw [List.getD_eq_getElem?_getD, List.getElem?_eq_getElem hkX]; exact List.getElem_mem _)
    have gY : GoodBond (Y'.getD k []) := b3 _ (by
      rw [List.getD_eq_getElem?_getD, List.getElem?_eq_getElem hkY]; exact List.getElem_mem _)
    rw [e, C06_add _ _ gX.1 gY.1]

/-- C18: on every configuration the amplitude of the sum is the sum of the amplitudes; the constants add.  The sum lives on the same outer
bonds and physical legs. -/
theorem C18_amplitudes (l r : BondInfo Q) (X Y : List (BondInfo Q)) (phys : List (List (BondInfo Q))) (a b : Mps Q K)
    (h : Addable l r X Y phys a.tensors b.tensors) (hu : ∀ T ∈ a.tensors, UniqueLabels T) :
    ∃ c N, Mps.add a b = some c ∧ OnBonds (l :: N ++ [r]) phys c.tensors ∧ (∀ n ∈ N, GoodBond n) ∧ c.const = a.const + b.const ∧
      ∀ x ps y, ampl c.tensors N x ps y = ampl a.tensors X x ps y + ampl b.tensors Y x ps y := by
  have hgX : ∀ c ∈ X, GoodBond c := fun c hc => h.good c (by simp [hc])
  have hgY : ∀ c ∈ Y, GoodBond c := fun c hc => h.good c (by simp [hc])
  have hla := h.onA.lengths
  have hlb := h.onB.lengths
  rcases X with _ | ⟨d, X⟩
  · obtain rfl : Y = [] := List.length_eq_zero_iff.1 (by simp at hla; omega)
    obtain ⟨ats, ac⟩ := a
    obtain ⟨bts, bc⟩ := b
    obtain ⟨ta, rfl⟩ := List.length_eq_one_iff.1 hla.1
    obtain ⟨tb, rfl⟩ := List.length_eq_one_iff.1 hlb.1
    obtain ⟨ph, rfl⟩ := List.length_eq_one_iff.1 hla.2
    obtain ⟨s1, s2, s3⟩ := C11_add _ ta tb h.onA.1 h.onB.1 (hu ta (by simp))
    refine ⟨⟨[ta.add tb], ac + bc⟩, [], rfl, ⟨s1, trivial⟩, by simp, rfl, fun x ps y => ?_⟩
    rcases ps with _ | ⟨p, _ | ⟨p', ps⟩⟩
    · simp only [ampl_noSites, add_zero]
    · have ha : ∀ (T : SpT Q K) z, ampl [T] [] z [p] y = entry T (z :: p ++ [y]) := fun T z => by rw [ampl]
      rw [ha, ha, ha, s3]
    · have ha : ∀ (T : SpT Q K) z, ampl [T] [] z (p :: p' :: ps) y = 0 := fun T z => by
        rw [ampl]
        all_goals simp
      simp only [ha, add_zero]
  · have hlong := addTensors_long a b (by omega) (by simp at hla; omega)
    by_cases hna : [] ∈ a.tensors
    · rw [if_pos (any_isEmpty.2 hna)] at hlong
      refine ⟨⟨b.tensors, a.const + b.const⟩, Y, by rw [Mps.add, hlong]; rfl, h.onB, hgY, rfl, fun x ps y => ?_⟩
      rw [ampl_empty hna, zero_add]
    rw [if_neg (fun h => hna (any_isEmpty.1 h))] at hlong
    by_cases hnb : [] ∈ b.tensors
    · rw [if_pos (any_isEmpty.2 hnb)] at hlong
      refine ⟨⟨a.tensors, a.const + b.const⟩, d :: X, by rw [Mps.add, hlong]; rfl, h.onA, hgX, rfl, fun x ps y => ?_⟩
      rw [ampl_empty hnb, add_zero]
    obtain ⟨c, N, h1, h2, h3, h4, -, h5, -⟩ := addTensors_general l r (d :: X) Y phys a b h (by simp) hna hnb
    exact ⟨⟨c.tensors, a.const + b.const⟩, N, by rw [Mps.add, h1]; rfl, h3, h4, rfl, h5⟩

/-- C18: when every site tensor has a block, each interior bond of the sum has for every label the sum of the two dimensions in use. -/
theorem C18_bonds (l r : BondInfo Q) (X Y : List (BondInfo Q)) (phys : List (List (BondInfo Q))) (a b : Mps Q K)
    (h : Addable l r X Y phys a.tensors b.tensors) (hX : X ≠ []) (hna : [] ∉ a.tensors) (hnb : [] ∉ b.tensors) :
    ∃ c N, Mps.add a b = some c ∧ OnBonds (l :: N ++ [r]) phys c.tensors ∧ N.length = X.length ∧
      ∀ k, k < X.length → ∀ q, Counter.count (N.getD k []) q =
        usedDim (X.getD k []) (a.tensors.getD k []) (a.tensors.getD (k + 1) []) ((phys.getD k []).length + 1) q +
        usedDim (Y.getD k []) (b.tensors.getD k []) (b.tensors.getD (k + 1) []) ((phys.getD k []).length + 1) q := by
  obtain ⟨c, N, h1, -, h3, -, h5, -, h6⟩ := addTensors_general l r X Y phys a b h hX hna hnb
  exact ⟨⟨c.tensors, a.const + b.const⟩, N, by rw [Mps.add, h1]; rfl, h3, h5, h6⟩

/-- C18: the amplitude is a property of the site tensors: it does not depend on the bonds on which they are read. -/
theorem C18_well_defined {l l' E E' : BondInfo Q} {X X' : List (BondInfo Q)} {phys phys' : List (List (BondInfo Q))} {ts : List (SpT Q K)}
    (h : OnBonds (l :: X ++ [E]) phys ts) (h' : OnBonds (l' :: X' ++ [E']) phys' ts) (hX : ∀ b ∈ X, Dict.WF b) (hX' : ∀ b ∈ X', Dict.WF b)
    (x y : Q × Nat) (ps : List (List (Q × Nat))) : ampl ts X x ps y = ampl ts X' x ps y := ampl_bonds h h' hX hX' x y ps

end

section
variable {Q K : Type} [DecidableEq Q] [Zero Q]

/-- Changing the first tensor by a factor changes the amplitudes by the factor. -/
theorem ampl_first [Semiring K] (f : K → K) (hf : ∀ x y, f (x * y) = f x * y) (hs : ∀ l : List K, f l.sum = (l.map f).sum) (T S : SpT Q K)
    (h : ∀ x, entry S x = f (entry T x)) (ts : List (SpT Q K)) (X : List (BondInfo Q)) (x y : Q × Nat) (ps : List (List (Q × Nat))) :
    ampl (S :: ts) X x ps y = f (ampl (T :: ts) X x ps y) := by
  have h0 : f 0 = 0 := by simpa using hs []
  rcases ps with _ | ⟨p, ps⟩
  · rw [ampl_noSites, ampl_noSites, h0]
  rcases X with _ | ⟨b, X⟩
  · rcases ts with _ | ⟨T', ts⟩
    · rcases ps with _ | ⟨p', ps⟩
      · rw [ampl, ampl, h]
      · have ha : ∀ (T : SpT Q K) z, ampl [T] [] z (p :: p' :: ps) y = 0 := fun T z => by
          rw [ampl]
          all_goals simp
        rw [ha, ha, h0]
    · have ha : ∀ (T : SpT Q K) z, ampl (T :: T' :: ts) [] z (p :: ps) y = 0 := fun T z => by
        rw [ampl]
        all_goals simp
      rw [ha, ha, h0]
  · rw [ampl_cons, ampl_cons, hs, List.map_map]
    refine sum_map_congr' _ _ _ fun z _ => ?_
    rw [h]
    exact (hf _ _).symm

theorem OnBonds.replaceFirst {bonds : List (BondInfo Q)} {phys : List (List (BondInfo Q))} {T S : SpT Q K} {ts : List (SpT Q K)}
    (h : OnBonds bonds phys (T :: ts)) (hS : ∀ legs, Conforms legs T → Conforms legs S) : OnBonds bonds phys (S :: ts) := by
  rcases bonds with _ | ⟨l, _ | ⟨r, bonds⟩⟩
  · rcases phys with _ | ⟨ph, phys⟩ <;> exact h.elim
  · rcases phys with _ | ⟨ph, phys⟩ <;> exact h.elim
  rcases phys with _ | ⟨ph, phys⟩
  · exact h.elim
  exact ⟨hS _ h.1, h.2⟩

theorem conforms_mapShape {legs : List (BondInfo Q)} {T : SpT Q K} (f : List Q × Arr K → List Q × Arr K)
    (h1 : ∀ b, (f b).1 = b.1) (h2 : ∀ b, (f b).2.shape = b.2.shape) (h : Conforms legs T) : Conforms legs (T.map f) := by
  intro b hb
  obtain ⟨c, hc, rfl⟩ := List.mem_map.1 hb
  rw [h1, h2]
  exact h c hc

/-- C19: a multiple of a state has that multiple of every amplitude and of the constant, on the same legs. -/
theorem C19_scale [CommSemiring K] (c : K) (a : Mps Q K) (hn : a.tensors ≠ []) :
    (Mps.smul c a).const = c * a.const ∧
    (∀ bonds phys, OnBonds bonds phys a.tensors → OnBonds bonds phys (Mps.smul c a).tensors) ∧
    ∀ X x ps y, ampl (Mps.smul c a).tensors X x ps y = c * ampl a.tensors X x ps y := by
  obtain ⟨ts, ac⟩ := a
  rcases ts with _ | ⟨T, ts⟩
  · exact absurd rfl hn
  refine ⟨rfl, fun bonds phys h => h.replaceFirst fun legs hT => conforms_mapShape _ (fun _ => rfl) (fun _ => rfl) hT, fun X x ps y => ?_⟩
  exact ampl_first (c * ·) (fun x y => (mul_assoc c x y).symm) (fun l => by simpa using (sum_map_mul_left' l c id).symm)
    T (T.smul c) (fun x => C11_smul c T x) ts X x y ps

/-- C19: dividing by a number divides every amplitude and the constant. -/
theorem C19_divide [Field K] (c : K) (a : Mps Q K) (hn : a.tensors ≠ []) :
    (Mps.divNumber a c).const = a.const / c ∧
    (∀ bonds phys, OnBonds bonds phys a.tensors → OnBonds bonds phys (Mps.divNumber a c).tensors) ∧
    ∀ X x ps y, ampl (Mps.divNumber a c).tensors X x ps y = ampl a.tensors X x ps y / c := by
  have e : ∀ t : SpT Q K, t.map (fun b => (b.1, b.2.mapK (· / c))) = t.smul c⁻¹ := fun t => by
    unfold SpT.smul
    refine List.map_congr_left fun b _ => ?_
    have : (fun x : K => x / c) = (c⁻¹ * ·) := funext fun x => by rw [div_eq_mul_inv, mul_comm]
    rw [this]
  have h : Mps.divNumber a c = Mps.smul c⁻¹ a := by
    unfold Mps.divNumber Mps.smul
    rw [div_eq_mul_inv, mul_comm]
    obtain ⟨_ | ⟨T, ts⟩, ac⟩ := a
    · rfl
    · simp only [e]
  obtain ⟨h1, h2, h3⟩ := C19_scale c⁻¹ a hn
  rw [h]
  refine ⟨by rw [h1, div_eq_mul_inv, mul_comm], h2, fun X x ps y => by rw [h3, div_eq_mul_inv, mul_comm]⟩

/-- C19: it does not matter which site absorbs the factor. -/
theorem C19_any_site [CommSemiring K] (c : K) (ts : List (SpT Q K)) (k : Nat) (hk : k < ts.length) (X : List (BondInfo Q)) (x y : Q × Nat)
    (ps : List (List (Q × Nat))) : ampl (ts.modify k (SpT.smul c)) X x ps y = c * ampl ts X x ps y := by
  induction ts generalizing k X x ps with
  | nil => simp at hk
  | cons T ts ih =>
    cases k with
    | zero => exact (C19_scale c ⟨T :: ts, 0⟩ (by simp)).2.2 X x ps y
    | succ k =>
      have hk' : k < ts.length := by simpa using hk
      rw [List.modify_succ_cons]
      rcases ps with _ | ⟨p, ps⟩
      · rw [ampl_noSites, ampl_noSites, mul_zero]
      rcases X with _ | ⟨b, X⟩
      · rcases ts with _ | ⟨T', ts⟩
        · simp at hk'
        · have ha : ∀ (S : List (SpT Q K)) z, S ≠ [] → ampl (T :: S) [] z (p :: ps) y = 0 := fun S z hS => by
            rcases S with _ | ⟨T', S⟩
            · exact absurd rfl hS
            rw [ampl]
            all_goals simp
          rw [ha _ _ (by simp), ha, mul_zero]
          intro h0
          have := congrArg List.length h0
          simp at this
      · rw [ampl_cons, ampl_cons, ← sum_map_mul_left']
        refine sum_map_congr' _ _ _ fun z _ => ?_
        rw [ih k hk', mul_left_comm]

/-- C19: negation. -/
theorem C19_neg [CommRing K] (a : Mps Q K) (hn : a.tensors ≠ []) :
    a.neg.const = -a.const ∧ (∀ bonds phys, OnBonds bonds phys a.tensors → OnBonds bonds phys a.neg.tensors) ∧
    ∀ X x ps y, ampl a.neg.tensors X x ps y = -ampl a.tensors X x ps y := by
  obtain ⟨ts, ac⟩ := a
  rcases ts with _ | ⟨T, ts⟩
  · exact absurd rfl hn
  refine ⟨rfl, fun bonds phys h => h.replaceFirst fun legs hT => conforms_mapShape _ (fun _ => rfl) (fun _ => rfl) hT, fun X x ps y => ?_⟩
  refine ampl_first (fun x => -x) (fun x y => (neg_mul x y).symm) (fun l => ?_) T T.neg (fun x => C11_neg T x) ts X x y ps
  induction l with
  | nil => simp
  | cons a l ih => simp only [List.sum_cons, List.map_cons, neg_add, ih]

theorem addable_neg [CommRing K] {l r : BondInfo Q} {X Y : List (BondInfo Q)} {phys : List (List (BondInfo Q))} {a b : Mps Q K}
    (h : Addable l r X Y phys a.tensors b.tensors) : Addable l r X Y phys a.tensors b.neg.tensors := by
  have hn : b.tensors ≠ [] := by
    intro h0
    have := h.onB.lengths.1
    rw [h0] at this
    simp at this
  have ho : ∀ (T : SpT Q K) k q, OccursOn T.neg k q → OccursOn T k q := by
    rintro T k q ⟨c, hc, hq⟩
    obtain ⟨d, hd, rfl⟩ := List.mem_map.1 hc
    exact ⟨d, hd, hq⟩
  refine ⟨h.onA, (C19_neg b hn).2.1 _ _ h.onB, h.good, fun q hq => h.left q ?_, fun q hq => h.right q ?_⟩
  · obtain ⟨_ | ⟨T, ts⟩, c⟩ := b
    · exact absurd rfl hn
    · exact ho T _ _ hq
  · obtain ⟨_ | ⟨T, _ | ⟨T', ts⟩⟩, c⟩ := b
    · exact absurd rfl hn
    · exact ho T _ _ hq
    · exact hq

/-- C19: the difference of two states. -/
theorem C19_sub [CommRing K] (l r : BondInfo Q) (X Y : List (BondInfo Q)) (phys : List (List (BondInfo Q))) (a b : Mps Q K)
    (h : Addable l r X Y phys a.tensors b.tensors) (hu : ∀ T ∈ a.tensors, UniqueLabels T) :
    ∃ c N, Mps.sub a b = some c ∧ OnBonds (l :: N ++ [r]) phys c.tensors ∧ (∀ n ∈ N, GoodBond n) ∧ c.const = a.const - b.const ∧
      ∀ x ps y, ampl c.tensors N x ps y = ampl a.tensors X x ps y - ampl b.tensors Y x ps y := by
  have hn : b.tensors ≠ [] := by
    intro h0
    have := h.onB.lengths.1
    rw [h0] at this
    simp at this
  obtain ⟨c, N, h1, h2, h3, h4, h5⟩ := C18_amplitudes l r X Y phys a b.neg (addable_neg h) hu
  obtain ⟨n1, -, n3⟩ := C19_neg b hn
  exact ⟨c, N, h1, h2, h3, by rw [h4, n1, sub_eq_add_neg], fun x ps y => by rw [h5, n3, sub_eq_add_neg]⟩

/-- C19: adding or subtracting a number moves only the constant. -/
theorem C19_number [CommRing K] (a : Mps Q K) (c : K) :
    (a.addNumber c).tensors = a.tensors ∧ (a.addNumber c).const = a.const + c ∧
    (a.subNumber c).tensors = a.tensors ∧ (a.subNumber c).const = a.const - c := ⟨rfl, rfl, rfl, (sub_eq_add_neg _ _).symm⟩

/-- C19: a number minus an object. -/
theorem C19_number_sub [CommRing K] (a : Mps Q K) (c : K) (hn : a.tensors ≠ []) :
    (Mps.numberSub c a).const = c - a.const ∧
    ∀ X x ps y, ampl (Mps.numberSub c a).tensors X x ps y = -ampl a.tensors X x ps y := by
  obtain ⟨n1, -, n3⟩ := C19_neg a hn
  exact ⟨by rw [Mps.numberSub]; show c + a.neg.const = _; rw [n1, sub_eq_add_neg], n3⟩

/-- C19: complex conjugation conjugates every amplitude and the constant. -/
theorem C19_conj [CommSemiring K] [StarRing K] (a : Mps Q K) :
    a.conj.const = star a.const ∧ ∀ X x ps y, ampl a.conj.tensors X x ps y = star (ampl a.tensors X x ps y) := by
  refine ⟨rfl, ?_⟩
  have he : ∀ (T : SpT Q K) x, entry (T.map fun b => (b.1, b.2.mapK star)) x = star (entry T x) := by
    intro T x
    induction T with
    | nil => simp [entry_nil]
    | cons b T ih =>
      rw [List.map_cons, entry_cons, entry_cons, ih, star_add]
      congr 1
      unfold blockEntry Arr.mapK
      simp only
      split_ifs <;> simp
  have hsum : ∀ {α : Type} (l : List α) (f : α → K), star (l.map f).sum = (l.map fun z => star (f z)).sum := by
    intro α l f
    induction l with
    | nil => simp
    | cons z l ih => simp [ih]
  obtain ⟨ts, ac⟩ := a
  show ∀ X x ps y, ampl (ts.map _) X x ps y = star (ampl ts X x ps y)
  induction ts with
  | nil =>
    intro X x ps y
    have : ∀ X x ps, ampl ([] : List (SpT Q K)) X x ps y = 0 := fun X x ps => by
      rw [ampl] <;> simp
    rw [List.map_nil, this, star_zero]
  | cons T ts ih =>
    intro X x ps y
    rcases ps with _ | ⟨p, ps⟩
    · rw [ampl_noSites, ampl_noSites, star_zero]
    rcases X with _ | ⟨b, X⟩
    · rcases ts with _ | ⟨T', ts⟩
      · rcases ps with _ | ⟨p', ps⟩
        · rw [List.map_cons, List.map_nil, ampl, ampl, he]
        · have ha : ∀ (T : SpT Q K) z, ampl [T] [] z (p :: p' :: ps) y = 0 := fun T z => by
            rw [ampl]
            all_goals simp
          rw [List.map_cons, List.map_nil, ha, ha, star_zero]
      · have ha : ∀ (T T' : SpT Q K) ts z, ampl (T :: T' :: ts) [] z (p :: ps) y = 0 := fun T T' ts z => by
          rw [ampl]
          all_goals simp
        rw [List.map_cons, List.map_cons, ha, ha, star_zero]
    · rw [List.map_cons, ampl_cons, ampl_cons, hsum]
      refine sum_map_congr' _ _ _ fun z _ => ?_
      rw [he, ih, star_mul']

end

/-! ### Concrete cases -/

section
/-- A site with one physical leg and one-dimensional sectors: blocks (left label, physical label, right label) with their value. -/
def mpsSite (l : List (List Int × Int)) : SpT Int Int := l.map fun b => unitBlock b.1 b.2

/-- Two sites, charge 0 or 1 per site, total charge 1. -/
def mpsA : Mps Int Int := ⟨[mpsSite [([0, 0, 0], 2), ([0, 1, 1], 3)], mpsSite [([0, 1, 1], 5), ([1, 0, 1], 7)]], 4⟩
def mpsB : Mps Int Int := ⟨[mpsSite [([0, 1, 1], 11)], mpsSite [([1, 0, 1], 13)]], 6⟩
def mpsPhys : List (List (BondInfo Int)) := [[[(0, 1), (1, 1)]], [[(0, 1), (1, 1)]]]

/-- The hypotheses of `C18_amplitudes` and `C18_bonds` are met, and the sum has the sum of the amplitudes. -/
example : Addable [(0, 1)] [(1, 1)] [[(0, 1), (1, 1)]] [[(1, 1)]] mpsPhys mpsA.tensors mpsB.tensors := by
  refine ⟨⟨by decide, by decide, trivial⟩, ⟨by decide, by decide, trivial⟩, ?_, ?_, ?_⟩
  · unfold GoodBond; decide
  · rintro q ⟨b, hb, rfl⟩
    simp only [mpsB, mpsSite, List.headD_cons, List.map_cons, List.map_nil, List.mem_singleton] at hb
    subst hb
    exact ⟨unitBlock [0, 0, 0] 2, by simp [mpsA, mpsSite], rfl⟩
  · rintro q ⟨b, hb, rfl⟩
    simp only [mpsB, mpsSite, List.getLastD_cons, List.getLastD_nil, List.map_cons, List.map_nil, List.mem_singleton] at hb
    subst hb
    exact ⟨unitBlock [0, 1, 1] 5, by simp [mpsA, mpsSite], rfl⟩

example : (Mps.add mpsA mpsB).map (fun c => (c.const, ampl c.tensors [[(0, 1), (1, 2)]] (0, 0) [[(1, 0)], [(0, 0)]] (1, 0))) =
    some (10, 3 * 7 + 11 * 13) := by decide +kernel

/-- A state of total charge 2. -/
def mpsC : Mps Int Int := ⟨[mpsSite [([0, 1, 1], 1)], mpsSite [([1, 1, 2], 1)]], 0⟩

theorem ampl_last_zero {K : Type} [Semiring K] {l r : BondInfo Int} {ph : List (BondInfo Int)} {T S : SpT Int K} (hS : Conforms (l :: ph ++ [r]) S)
    {y : Int × Nat} (hy : Counter.count r y.1 = 0) (N : List (BondInfo Int)) (x : Int × Nat) (ps : List (List (Int × Nat))) :
    ampl [T, S] N x ps y = 0 := by
  rcases ps with _ | ⟨p, ps⟩
  · exact ampl_noSites _ _ _ _
  rcases N with _ | ⟨b, N⟩
  · rw [ampl]
    all_goals simp
  rw [ampl_cons]
  refine sum_map_zero' _ _ fun z _ => ?_
  have : ampl [S] N z ps y = 0 := by
    rcases ps with _ | ⟨p', ps⟩
    · exact ampl_noSites _ _ _ _
    rcases N with _ | ⟨b', N⟩
    · rcases ps with _ | ⟨p'', ps⟩
      · rw [ampl]
        by_contra hne
        have := (entry_ends_ne_zero hS hne).2
        omega
      · rw [ampl]
        all_goals simp
    · rw [ampl_cons]
      refine sum_map_zero' _ _ fun w _ => ?_
      rw [ampl]
      · rw [mul_zero]
      all_goals simp
  rw [this, mul_zero]

/-- C18: a second state whose outer bond carries another label (another total charge) is lost without an error: in the sum of a state of
charge 1 and a state of charge 2 all amplitudes of the second one are 0.  In the other order the first state is lost. -/
theorem C18_edge_dropped :
    ampl mpsC.tensors [[(1, 1)]] (0, 0) [[(1, 0)], [(1, 0)]] (2, 0) = 1 ∧
    ampl mpsA.tensors [[(0, 1), (1, 1)]] (0, 0) [[(1, 0)], [(0, 0)]] (1, 0) = 21 ∧
    (∃ c, Mps.add mpsA mpsC = some c ∧ ∀ N x ps, ampl c.tensors N x ps (2, 0) = 0) ∧
    ∃ c, Mps.add mpsC mpsA = some c ∧ ∀ N x ps, ampl c.tensors N x ps (1, 0) = 0 := by
  refine ⟨by decide +kernel, by decide +kernel, ⟨_, rfl, fun N x ps => ?_⟩, ⟨_, rfl, fun N x ps => ?_⟩⟩
  · exact ampl_last_zero (l := [(0, 1), (1, 2)]) (ph := [[(0, 1), (1, 1)]]) (r := [(1, 1), (2, 0)]) (by decide +kernel) (by decide) N x ps
  · exact ampl_last_zero (l := [(0, 1), (1, 2)]) (ph := [[(0, 1), (1, 1)]]) (r := [(2, 1), (1, 0)]) (by decide +kernel) (by decide) N x ps

/-- A multiple, a difference and a conjugate of the states above. -/
example : ampl (Mps.smul 5 mpsA).tensors [[(0, 1), (1, 1)]] (0, 0) [[(1, 0)], [(0, 0)]] (1, 0) = 5 * 21 ∧ (Mps.smul 5 mpsA).const = 20 := by
  decide +kernel
example : (Mps.sub mpsA mpsB).map (fun c => (c.const, ampl c.tensors [[(0, 1), (1, 2)]] (0, 0) [[(1, 0)], [(0, 0)]] (1, 0))) =
    some (-2, 3 * 7 - 11 * 13) := by decide +kernel
example : ampl (mpsA.tensors.modify 1 (SpT.smul 5)) [[(0, 1), (1, 1)]] (0, 0) [[(1, 0)], [(0, 0)]] (1, 0) = 5 * 21 := by decide +kernel
example : (Mps.numberSub 10 mpsA).const = 6 ∧ (Mps.addNumber mpsA 10).const = 14 := by decide +kernel
end
end Verif
