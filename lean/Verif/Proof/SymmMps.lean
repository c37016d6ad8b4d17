import Verif.Proof.SymmDot
import Verif.Proof.MpsInfos

/-! Change of the symmetry of a matrix product state. -/

set_option linter.unusedSectionVars false

namespace Verif
section
variable {H L K : Type} [DecidableEq H] [DecidableEq L] [Zero H] [Zero L]

theorem comb_of_getD {legs : List (BondInfo H)} {qs : List H} {sh : List Nat} (h1 : legs.length = qs.length) (h2 : legs.length = sh.length)
    (h : ∀ k, k < legs.length → Dict.get? (legs.getD k []) (qs.getD k 0) = some (sh.getD k 0)) : IsCombination legs qs sh := by
  induction legs generalizing qs sh with
  | nil =>
    obtain rfl := List.length_eq_zero_iff.1 h1.symm
    obtain rfl := List.length_eq_zero_iff.1 h2.symm
    exact .nil
  | cons b bs ih =>
    rcases qs with _ | ⟨q, qs⟩
    · simp at h1
    rcases sh with _ | ⟨s, sh⟩
    · simp at h2
    refine .cons (by simpa using h 0 (by simp)) (ih (by simpa using h1) (by simpa using h2) fun k hk => ?_)
    simpa using h (k + 1) (by simpa using hk)

/-- The middle legs read off the blocks. -/
def midLegs (n : Nat) (T : SpT H K) : List (BondInfo H) := (List.range n).map fun k => occ (k + 1) T

theorem conforms_mid {l r : BondInfo H} {ph : List (BondInfo H)} {T : SpT H K} (hT : Conforms (l :: ph ++ [r]) T) : Conforms (l :: midLegs ph.length T ++ [r]) T := by
  intro b hb
  have hc := hT b hb
  obtain ⟨e1, e2⟩ := hc.lengths
  have hl : (l :: midLegs ph.length T ++ [r]).length = (l :: ph ++ [r]).length := by simp [midLegs]
  refine comb_of_getD (hl.trans e1.symm) (hl.trans e2.symm) fun k hk => ?_
  rw [hl] at hk
  have hg := hc.getD hk
  rcases k with _ | k
  · exact hg
  · by_cases hk' : k < ph.length
    · have : (l :: midLegs ph.length T ++ [r]).getD (k + 1) [] = occ (k + 1) T := by
        simp [midLegs, List.getElem?_append, hk']
      rw [this]
      exact ((occ_spec hk hT).2 _ _).2 ⟨hg, b, hb, rfl⟩
    · have hk2 : k = ph.length := by simp at hk; omega
      subst hk2
      have h3 := getD_mid l (midLegs ph.length T) r ([] : BondInfo H)
      rw [show (midLegs ph.length T).length = ph.length by simp [midLegs]] at h3
      rw [h3]
      rwa [getD_mid] at hg

theorem midLegs_sub {l r : BondInfo H} {ph : List (BondInfo H)} {T : SpT H K} (hT : Conforms (l :: ph ++ [r]) T) : List.Forall₂ SubBond (midLegs ph.length T) ph := by
  rw [List.forall₂_iff_get]
  refine ⟨by simp [midLegs], fun i hi hi' => ?_⟩
  have hk : i + 1 < (l :: ph ++ [r]).length := by simp; omega
  obtain ⟨h1, h2⟩ := occ_spec hk hT
  have e : (l :: ph ++ [r]).getD (i + 1) [] = ph[i] := by
    simp [List.getD_eq_getElem?_getD, List.getElem?_append_left hi', List.getElem?_eq_getElem hi']
  simp only [midLegs, List.get_eq_getElem, List.getElem_map, List.getElem_range]
  exact ⟨h1, fun q s hq => by have := ((h2 q s).1 hq).1; rwa [e] at this⟩

theorem siteInfos_mid {l r : BondInfo H} {ph : List (BondInfo H)} {T : SpT H K} (hT : Conforms (l :: ph ++ [r]) T) (hne : T ≠ []) :
    ((siteInfos T).take ((siteInfos T).length - 1)).drop 1 = midLegs ph.length T ∧ (siteInfos T).length - 2 = ph.length := by
  have hn := ndim_of_conforms hT hne
  rw [length_ends] at hn
  unfold siteInfos midLegs
  rw [hn]
  constructor
  · apply List.ext_getElem
    · simp
    · intro i h1 h2
      simp only [List.getElem_drop, List.getElem_take, List.getElem_map, List.getElem_range]
      rw [Nat.add_comm]
  · simp

/-- The physical legs used by the loop. -/
def PhysOk (info : Option (List (BondInfo H))) (n : Nat) : Nat → Nat → List (List (BondInfo H)) → List (SpT H K) → Prop
  | i, k, ph :: phys, T :: ts => Mps.symmPhys info n i k (siteInfos T) = ph ∧ PhysOk info n (i + 1) (k + ((siteInfos T).length - 2)) phys ts
  | _, _, [], [] => True
  | _, _, _, _ => False

theorem symmSites_spec [Semiring K] (le : H → H → Bool) (f : H → L) (info : Option (List (BondInfo H))) (n : Nat) {F E : BondInfo H} {X : List (BondInfo H)}
    {phys : List (List (BondInfo H))} {ts : List (SpT H K)} {i k : Nat} (h : OnBonds (F :: X ++ [E]) phys ts) (hp : PhysOk info n i k phys ts)
    (hF : Dict.WF F) (hE : Dict.WF E) (hX : ∀ b ∈ X, Dict.WF b) (hph : ∀ ph ∈ phys, ∀ b ∈ ph, Dict.WF b) :
    ∃ Rs, Mps.symmSites le f info n i k ts (ts.map siteInfos) (F :: X ++ [E]) = some Rs ∧
      OnBonds ((F :: X ++ [E]).map fun b => (symmetryFusingInfo le b f).1) (phys.map fun ph => ph.map fun b => (symmetryFusingInfo le b f).1) Rs ∧
      ∀ x ∈ legBasis F, ∀ y ∈ legBasis E, ∀ ps ∈ cart (phys.map legIndices),
        ampl Rs (X.map fun b => (symmetryFusingInfo le b f).1) (symmPlace le f F x) (List.zipWith (relabelAll (symmPlace le f)) phys ps) (symmPlace le f E y) = ampl ts X x ps y := by
  induction X generalizing F phys ts i k with
  | nil =>
    rcases phys with _ | ⟨ph, phys⟩
    · exact h.elim
    rcases ts with _ | ⟨T, ts⟩
    · exact h.elim
    have hts : phys = [] ∧ ts = [] := by
      have h2 := h.2
      rcases phys with _ | ⟨ph, phys⟩ <;> rcases ts with _ | ⟨T, ts⟩ <;> simp_all [OnBonds]
    obtain ⟨rfl, rfl⟩ := hts
    have hw : ∀ b ∈ F :: ph ++ [E], Dict.WF b := by
      intro b hb
      simp only [List.cons_append, List.mem_cons, List.mem_append, List.not_mem_nil, or_false] at hb
      rcases hb with rfl | hb | rfl
      · exact hF
      · exact hph ph (by simp) b hb
      · exact hE
    obtain ⟨R, r1, r2, _⟩ := symmetryFuse_spec le f hw T h.1
    refine ⟨[R], ?_, ⟨by simpa using r2.1, trivial⟩, ?_⟩
    · show (SpT.symmetryFuse T ((F :: Mps.symmPhys info n i k (siteInfos T) ++ [E]).map fun b => symmetryFusingInfo le b f) f).bind _ = _
      rw [hp.1, r1]; rfl
    · intro x hx y hy ps hps
      obtain ⟨p, hp', rfl⟩ : ∃ p, p ∈ legIndices ph ∧ ps = [p] := by
        simpa [cart, eq_comm] using hps
      show entry R (symmPlace le f F x :: relabelAll (symmPlace le f) ph p ++ [symmPlace le f E y]) = entry T (x :: p ++ [y])
      have hm : x :: p ++ [y] ∈ legIndices (F :: ph ++ [E]) := by
        unfold legIndices at hp' ⊢
        rw [List.map_append, List.map_cons, mem_cart]
        exact List.rel_append (.cons hx ((mem_cart _ _).1 hp')) (.cons hy .nil)
      rw [← r2.2.2 _ hm, relabelAll_append _ _ _ _ (by simp [legIndices_length hp'])]
      rfl
  | cons b X ih =>
    rcases phys with _ | ⟨ph, phys⟩
    · exact h.elim
    rcases ts with _ | ⟨T, ts⟩
    · exact h.elim
    have hb := hX b List.mem_cons_self
    have hw : ∀ c ∈ F :: ph ++ [b], Dict.WF c := by
      intro c hc
      simp only [List.cons_append, List.mem_cons, List.mem_append, List.not_mem_nil, or_false] at hc
      rcases hc with rfl | hc | rfl
      · exact hF
      · exact hph ph (by simp) c hc
      · exact hb
    obtain ⟨R, r1, r2, _⟩ := symmetryFuse_spec le f hw T h.1
    obtain ⟨Rs, s1, s2, s3⟩ := ih (F := b) (phys := phys) (ts := ts) h.2 hp.2 hb (fun c hc => hX c (List.mem_cons_of_mem _ hc)) (fun c hc => hph c (List.mem_cons_of_mem _ hc))
    refine ⟨R :: Rs, ?_, ⟨by simpa using r2.1, s2⟩, ?_⟩
    · show (SpT.symmetryFuse T ((F :: Mps.symmPhys info n i k (siteInfos T) ++ [b]).map fun b => symmetryFusingInfo le b f) f).bind (fun R =>
        (Mps.symmSites le f info n (i + 1) (k + ((siteInfos T).length - 2)) ts (ts.map siteInfos) (b :: X ++ [E])).map fun Rs => R :: Rs) = _
      rw [hp.1, r1, s1]; rfl
    · intro x hx y hy ps hps
      rw [List.map_cons, cart, List.mem_flatMap] at hps
      obtain ⟨p, hp', hps⟩ := hps
      obtain ⟨ps, hps', rfl⟩ := List.mem_map.1 hps
      rw [List.map_cons, List.zipWith_cons_cons, ampl_cons, ampl_cons]
      rw [← (((symm_relabels le f hb).perm hb).map (fun z => entry R (symmPlace le f F x :: relabelAll (symmPlace le f) ph p ++ [z]) *
        ampl Rs (X.map fun b => (symmetryFusingInfo le b f).1) z (List.zipWith (relabelAll (symmPlace le f)) phys ps) (symmPlace le f E y))).sum_eq, List.map_map]
      congr 1
      refine List.map_congr_left fun z hz => ?_
      simp only [Function.comp]
      rw [s3 z hz y hy ps hps']
      congr 1
      have hm : x :: p ++ [z] ∈ legIndices (F :: ph ++ [b]) := by
        unfold legIndices at hp' ⊢
        rw [List.map_append, List.map_cons, mem_cart]
        exact List.rel_append (.cons hx ((mem_cart _ _).1 hp')) (.cons hz .nil)
      rw [← r2.2.2 _ hm, relabelAll_append _ _ _ _ (by simp [legIndices_length hp'])]
      rfl

theorem physOk_none {F E : BondInfo H} {X : List (BondInfo H)} {phys : List (List (BondInfo H))} {ts : List (SpT H K)} (h : OnBonds (F :: X ++ [E]) phys ts)
    (hne : ∀ T ∈ ts, T ≠ []) (n i k : Nat) :
    ∃ phys', OnBonds (F :: X ++ [E]) phys' ts ∧ PhysOk none n i k phys' ts ∧ List.Forall₂ (List.Forall₂ SubBond) phys' phys := by
  induction X generalizing F phys ts i k with
  | nil =>
    rcases phys with _ | ⟨ph, phys⟩
    · exact h.elim
    rcases ts with _ | ⟨T, ts⟩
    · exact h.elim
    have hts : phys = [] ∧ ts = [] := by
      have h2 := h.2
      rcases phys with _ | ⟨ph, phys⟩ <;> rcases ts with _ | ⟨T, ts⟩ <;> simp_all [OnBonds]
    obtain ⟨rfl, rfl⟩ := hts
    exact ⟨[midLegs ph.length T], ⟨conforms_mid h.1, trivial⟩, ⟨(siteInfos_mid h.1 (hne T (by simp))).1, trivial⟩, .cons (midLegs_sub h.1) .nil⟩
  | cons b X ih =>
    rcases phys with _ | ⟨ph, phys⟩
    · exact h.elim
    rcases ts with _ | ⟨T, ts⟩
    · exact h.elim
    obtain ⟨phys', h1, h2, h3⟩ := ih (F := b) (phys := phys) (ts := ts) h.2 (fun c hc => hne c (List.mem_cons_of_mem _ hc)) (i + 1) (k + ((siteInfos T).length - 2))
    exact ⟨midLegs ph.length T :: phys', ⟨conforms_mid h.1, h1⟩, ⟨(siteInfos_mid h.1 (hne T (by simp))).1, h2⟩, .cons (midLegs_sub h.1) h3⟩

theorem physOk_site {F E : BondInfo H} {X : List (BondInfo H)} {phys : List (List (BondInfo H))} {ts : List (SpT H K)} (h : OnBonds (F :: X ++ [E]) phys ts)
    (hne : ∀ T ∈ ts, T ≠ []) (basis : List (BondInfo H)) (n i k : Nat) (hn : basis.length = n)
    (hb : List.Forall₂ (fun b ph => ∀ c ∈ ph, c = b) (basis.drop i) phys) : PhysOk (some basis) n i k phys ts := by
  induction X generalizing F phys ts i k with
  | nil =>
    rcases phys with _ | ⟨ph, phys⟩
    · exact h.elim
    rcases ts with _ | ⟨T, ts⟩
    · exact h.elim
    have hts : phys = [] ∧ ts = [] := by
      have h2 := h.2
      rcases phys with _ | ⟨ph, phys⟩ <;> rcases ts with _ | ⟨T, ts⟩ <;> simp_all [OnBonds]
    obtain ⟨rfl, rfl⟩ := hts
    refine ⟨?_, trivial⟩
    rcases hd : basis.drop i with _ | ⟨b, bs⟩
    · rw [hd] at hb; cases hb
    rw [hd] at hb
    cases hb with
    | cons h1 h2 =>
      have hi : basis.getD i [] = b := by
        have := congrArg (fun l => l.getD 0 []) hd
        simpa [List.getD_eq_getElem?_getD] using this
      unfold Mps.symmPhys
      simp only [hn, if_true, (siteInfos_mid h.1 (hne T (by simp))).2, hi]
      exact (List.eq_replicate_iff.2 ⟨rfl, h1⟩).symm
  | cons c X ih =>
    rcases phys with _ | ⟨ph, phys⟩
    · exact h.elim
    rcases ts with _ | ⟨T, ts⟩
    · exact h.elim
    rcases hd : basis.drop i with _ | ⟨b, bs⟩
    · rw [hd] at hb; cases hb
    rw [hd] at hb
    cases hb with
    | cons h1 h2 =>
      have hi : basis.getD i [] = b := by
        have := congrArg (fun l => l.getD 0 []) hd
        simpa [List.getD_eq_getElem?_getD] using this
      have hd' : basis.drop (i + 1) = bs := by
        have := congrArg List.tail hd
        simpa using this
      refine ⟨?_, ih h.2 (fun c hc => hne c (List.mem_cons_of_mem _ hc)) _ _ (hd' ▸ h2)⟩
      unfold Mps.symmPhys
      simp only [hn, if_true, (siteInfos_mid h.1 (hne T (by simp))).2, hi]
      exact (List.eq_replicate_iff.2 ⟨rfl, h1⟩).symm

theorem physOk_leg {F E : BondInfo H} {X : List (BondInfo H)} {phys : List (List (BondInfo H))} {ts : List (SpT H K)} (h : OnBonds (F :: X ++ [E]) phys ts)
    (hne : ∀ T ∈ ts, T ≠ []) (basis : List (BondInfo H)) (n i k : Nat) (hn : basis.length ≠ n) (hb : basis.drop k = phys.flatten) : PhysOk (some basis) n i k phys ts := by
  induction X generalizing F phys ts i k with
  | nil =>
    rcases phys with _ | ⟨ph, phys⟩
    · exact h.elim
    rcases ts with _ | ⟨T, ts⟩
    · exact h.elim
    have hts : phys = [] ∧ ts = [] := by
      have h2 := h.2
      rcases phys with _ | ⟨ph, phys⟩ <;> rcases ts with _ | ⟨T, ts⟩ <;> simp_all [OnBonds]
    obtain ⟨rfl, rfl⟩ := hts
    refine ⟨?_, trivial⟩
    unfold Mps.symmPhys
    simp only [hn, if_false, (siteInfos_mid h.1 (hne T (by simp))).2, hb]
    simp
  | cons c X ih =>
    rcases phys with _ | ⟨ph, phys⟩
    · exact h.elim
    rcases ts with _ | ⟨T, ts⟩
    · exact h.elim
    have hm := (siteInfos_mid h.1 (hne T (by simp))).2
    refine ⟨?_, ih h.2 (fun c hc => hne c (List.mem_cons_of_mem _ hc)) _ _ ?_⟩
    · unfold Mps.symmPhys
      simp only [hn, if_false, hm, hb]
      simp
    · rw [hm, ← List.drop_drop, hb]
      simp

end
end Verif
