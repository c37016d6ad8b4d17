import Verif.Spec.MpeCanon
import Verif.Proof.MpeGauge
import Verif.Thm.Mpe

/-! Sites that have been canonicalised stay isometries as long as their environments are kept. -/

set_option linter.unusedSectionVars false

namespace Verif
section
variable {Q K : Type} [DecidableEq Q] [AddCommGroup Q] [CommRing K] [StarRing K]

theorem FitsOn.lengths {e f : BondInfo Q} {phys : List (List (BondInfo Q))} {n : Nat} {Z : List (BondInfo Q)} {ket : Nat → SpT Q K} (h : FitsOn e f phys n Z ket) :
    Z.length + 1 = n ∧ phys.length = n := by
  have := h.on.lengths
  simp at this
  omega

theorem getD_set_ne {α : Type} {Z : List α} {i j : Nat} {m d : α} (h : j ≠ i) : (Z.set i m).getD j d = Z.getD j d := by
  simp [List.getD_eq_getElem?_getD, List.getElem?_set, Ne.symm h]

theorem getD_cons_set {e : BondInfo Q} {Z : List (BondInfo Q)} {i j : Nat} {m : BondInfo Q} (h : j ≠ i + 1) : (e :: Z.set i m).getD j [] = (e :: Z).getD j [] := by
  cases j with
  | zero => rfl
  | succ j => rw [List.getD_cons_succ, List.getD_cons_succ, getD_set_ne (by omega)]

theorem getD_append_set {f : BondInfo Q} {Z : List (BondInfo Q)} {i j : Nat} {m : BondInfo Q} (hi : i < Z.length) :
    (Z.set i m ++ [f]).getD j [] = if j = i then m else (Z ++ [f]).getD j [] := by
  rw [← List.set_append_left _ _ hi]
  split
  · rename_i h
    subst h
    rw [List.getD_eq_getElem?_getD, List.getElem?_set_self (by simp; omega)]
    rfl
  · rename_i h
    exact getD_set_ne h

/-- One canonicalisation, the centre moving right from site `i`. -/
theorem FitsOn.left {isF : Q → Bool} {qr : Arr K → Arr K × Arr K} (hqr : Factorises qr) (ho : OrthonormalColumns qr) {canon same : Bool} {mpo : List (OpT Q K)}
    {ids : Mpe.Idents Q K} {e f : BondInfo Q} (ge : GoodBond e) {phys : List (List (BondInfo Q))} (gp : ∀ ph ∈ phys, ∀ c ∈ ph, GoodBond c)
    {Z : List (BondInfo Q)} {ket : Nat → SpT Q K} (h : FitsOn e f phys mpo.length Z ket) {i : Nat} (hi : i + 1 < mpo.length) :
    ∃ m, FitsOn e f phys mpo.length (Z.set i m) (Mpe.canonLeftAt (Mpe.sweepCfg isF qr canon same mpo ids) i ket) ∧
      SameState isF e f phys Z ((List.range mpo.length).map ket) (Z.set i m)
        ((List.range mpo.length).map (Mpe.canonLeftAt (Mpe.sweepCfg isF qr canon same mpo ids) i ket)) ∧
      LeftIsometric ((e :: Z).getD i [] :: phys.getD i []) m (Mpe.canonLeftAt (Mpe.sweepCfg isF qr canon same mpo ids) i ket i) := by
  obtain ⟨m, h2, h3, h4⟩ := set_left (isF := isF) hqr i ge gp h.good h.on (by simpa using hi)
  rw [getD_range_map ket (Nat.lt_of_succ_lt hi), getD_range_map ket hi] at *
  have ei : Mpe.canonLeftAt (Mpe.sweepCfg isF qr canon same mpo ids) i ket i = (SpT.leftCanonicalize qr (ket i)).1 := by
    rw [Mpe.canonLeftAt, Function.update_of_ne (by omega), Function.update_self]; rfl
  have ei1 : Mpe.canonLeftAt (Mpe.sweepCfg isF qr canon same mpo ids) i ket (i + 1) =
      (SpT.tensordotN (SpT.leftCanonicalize qr (ket i)).2 (ket (i + 1)) 1).getD [] := by
    rw [Mpe.canonLeftAt, Function.update_self]; rfl
  have ej : ∀ j, j ≠ i → j ≠ i + 1 → Mpe.canonLeftAt (Mpe.sweepCfg isF qr canon same mpo ids) i ket j = ket j := by
    intro j h1 h2
    rw [Mpe.canonLeftAt, Function.update_of_ne h2, Function.update_of_ne h1]
  have hs : SameState isF e f phys Z ((List.range mpo.length).map ket) (Z.set i m)
        ((List.range mpo.length).map (Mpe.canonLeftAt (Mpe.sweepCfg isF qr canon same mpo ids) i ket)) := by
    convert h2 using 1
    refine range_map_set _ _ _ _ _ _ hi fun j => ?_
    by_cases h1 : j = i
    · subst h1; rw [ei, if_pos rfl]
    · rw [if_neg h1]
      by_cases h2 : j = i + 1
      · subst h2; rw [ei1, if_pos rfl]
      · rw [ej j h1 h2, if_neg h2]
  refine ⟨m, ⟨hs.on, hs.good, ?_, ?_⟩, hs, ?_⟩
  · intro j hj
    by_cases h1 : j = i
    · subst h1; rw [ei]; exact h3.unique (h.unique j hj)
    · by_cases h2 : j = i + 1
      · subst h2; rw [ei1]; exact h4.unique
      · rw [ej j h1 h2]; exact h.unique j hj
  · intro j hj
    by_cases h1 : j = i
    · subst h1; rw [ei]; exact h3.charge (h.charge j hj)
    · by_cases h2 : j = i + 1
      · subst h2; rw [ei1]; exact h4.charge (h.charge _ hj)
      · rw [ej j h1 h2]; exact h.charge j hj
  · rw [ei]
    exact h3.iso ho (h.unique i (by omega)) (h.charge i (by omega))

/-- One canonicalisation, the centre moving left from site `i + 1`. -/
theorem FitsOn.right {isF : Q → Bool} {qr : Arr K → Arr K × Arr K} (hqr : Factorises qr) (ho : OrthonormalColumns qr) {canon same : Bool} {mpo : List (OpT Q K)}
    {ids : Mpe.Idents Q K} {e f : BondInfo Q} (gf : GoodBond f) {phys : List (List (BondInfo Q))} (gp : ∀ ph ∈ phys, ∀ c ∈ ph, GoodBond c)
    {Z : List (BondInfo Q)} {ket : Nat → SpT Q K} (h : FitsOn e f phys mpo.length Z ket) {i : Nat} (hi : i + 1 < mpo.length) :
    ∃ m, FitsOn e f phys mpo.length (Z.set i m) (Mpe.canonRightAt (Mpe.sweepCfg isF qr canon same mpo ids) (i + 1) ket) ∧
      SameState isF e f phys Z ((List.range mpo.length).map ket) (Z.set i m)
        ((List.range mpo.length).map (Mpe.canonRightAt (Mpe.sweepCfg isF qr canon same mpo ids) (i + 1) ket)) ∧
      RightIsometric m (phys.getD (i + 1) [] ++ [(Z ++ [f]).getD (i + 1) []]) (Mpe.canonRightAt (Mpe.sweepCfg isF qr canon same mpo ids) (i + 1) ket (i + 1)) := by
  obtain ⟨m, h2, h3, h4⟩ := set_right (isF := isF) hqr gf i gp h.good h.on (by simpa using hi)
  rw [getD_range_map ket (Nat.lt_of_succ_lt hi), getD_range_map ket hi] at *
  have ei : Mpe.canonRightAt (Mpe.sweepCfg isF qr canon same mpo ids) (i + 1) ket (i + 1) = (SpT.rightCanonicalize qr (ket (i + 1))).2 := by
    rw [Mpe.canonRightAt, Function.update_of_ne (by omega), Function.update_self]; rfl
  have ei1 : Mpe.canonRightAt (Mpe.sweepCfg isF qr canon same mpo ids) (i + 1) ket i =
      (SpT.tensordotN (ket i) (SpT.rightCanonicalize qr (ket (i + 1))).1 1).getD [] := by
    rw [Mpe.canonRightAt, Nat.add_sub_cancel, Function.update_self]; rfl
  have ej : ∀ j, j ≠ i → j ≠ i + 1 → Mpe.canonRightAt (Mpe.sweepCfg isF qr canon same mpo ids) (i + 1) ket j = ket j := by
    intro j h1 h2
    rw [Mpe.canonRightAt, Nat.add_sub_cancel, Function.update_of_ne h1, Function.update_of_ne h2]
  have hs : SameState isF e f phys Z ((List.range mpo.length).map ket) (Z.set i m)
        ((List.range mpo.length).map (Mpe.canonRightAt (Mpe.sweepCfg isF qr canon same mpo ids) (i + 1) ket)) := by
    convert h2 using 1
    refine range_map_set _ _ _ _ _ _ hi fun j => ?_
    by_cases h1 : j = i
    · subst h1; rw [ei1, if_pos rfl]
    · rw [if_neg h1]
      by_cases h2 : j = i + 1
      · subst h2; rw [ei, if_pos rfl]
      · rw [ej j h1 h2, if_neg h2]
  refine ⟨m, ⟨hs.on, hs.good, ?_, ?_⟩, hs, ?_⟩
  · intro j hj
    by_cases h1 : j = i
    · subst h1; rw [ei1]; exact h4.unique
    · by_cases h2 : j = i + 1
      · subst h2; rw [ei]; exact h3.unique (h.unique _ hj)
      · rw [ej j h1 h2]; exact h.unique j hj
  · intro j hj
    by_cases h1 : j = i
    · subst h1; rw [ei1]; exact h4.charge (h.charge _ hj)
    · by_cases h2 : j = i + 1
      · subst h2; rw [ei]; exact h3.charge (h.charge _ hj)
      · rw [ej j h1 h2]; exact h.charge j hj
  · rw [ei]
    exact h3.iso ho (h.unique _ hi) (h.charge _ hi)

/-- The sites whose environments are kept are isometries: sites before `lo` and sites from `hi` on. -/
structure Mixed {W V : Type} (c : Mpe.Cfg (SpT Q K) W V) (e f : BondInfo Q) (phys : List (List (BondInfo Q))) (Z : List (BondInfo Q)) (lo hi : Nat)
    (s : Mpe.Sys (SpT Q K) V) : Prop where
  fits : FitsOn e f phys c.n Z s.ket
  left : ∀ k < lo, (s.left (k + 1)).isSome → LeftIsometric ((e :: Z).getD k [] :: phys.getD k []) ((Z ++ [f]).getD k []) (s.ket k)
  right : ∀ i, hi ≤ i → i < c.n → (s.right i).isSome → RightIsometric ((e :: Z).getD i []) (phys.getD i [] ++ [(Z ++ [f]).getD i []]) (s.ket i)

theorem Mixed.mono {W V : Type} {c : Mpe.Cfg (SpT Q K) W V} {e f : BondInfo Q} {phys : List (List (BondInfo Q))} {Z : List (BondInfo Q)} {lo hi lo' hi' : Nat}
    {s : Mpe.Sys (SpT Q K) V} (h : Mixed c e f phys Z lo hi s) (h1 : lo' ≤ lo) (h2 : hi ≤ hi') : Mixed c e f phys Z lo' hi' s :=
  ⟨h.fits, fun k hk => h.left k (by omega), fun i hi => h.right i (by omega)⟩

/-- With the environments of the window all sites outside are isometries. -/
theorem Mixed.outside {W V : Type} {c : Mpe.Cfg (SpT Q K) W V} {e f : BondInfo Q} {phys : List (List (BondInfo Q))} {Z : List (BondInfo Q)} {l r : Nat}
    {s : Mpe.Sys (SpT Q K) V} (h : Mixed c e f phys Z l r s) (hi : Mpe.Inv c l r s) (hr : r ≤ c.n) (hL : (s.left l).isSome) (hR : (s.right r).isSome) :
    IsometricOutside e f phys c.n Z l r s.ket :=
  ⟨fun i hl => h.left i hl (Mpe.gapL_trans hi.gapL (by omega) hL), fun i h1 h2 => h.right i h1 h2 (Mpe.gapR_trans hi.gapR h1 (by omega) hR)⟩

section
variable {isF : Q → Bool} {qr : Arr K → Arr K × Arr K} (hqr : Factorises qr) (ho : OrthonormalColumns qr) {same : Bool} {mpo : List (OpT Q K)}
  {ids : Mpe.Idents Q K} {e f : BondInfo Q} (ge : GoodBond e) (gf : GoodBond f) {phys : List (List (BondInfo Q))} (gp : ∀ ph ∈ phys, ∀ c ∈ ph, GoodBond c)
include hqr ho gp

theorem Mixed.buildLeft1 (ge : GoodBond e) {l r : Nat} (hlr : l < r) (hr : r ≤ mpo.length) {k : Nat} (hk : k ≤ l) {Z : List (BondInfo Q)} {s s' : Mpe.Sys (SpT Q K) (Option (OpT Q K))}
    (hi : Mpe.Inv (Mpe.sweepCfg isF qr true same mpo ids) l r s) (h : Mixed (Mpe.sweepCfg isF qr true same mpo ids) e f phys Z l r s)
    (hs : Mpe.buildLeft1 (Mpe.sweepCfg isF qr true same mpo ids) k s = some s') :
    ∃ Z', Mixed (Mpe.sweepCfg isF qr true same mpo ids) e f phys Z' l r s' ∧
      SameState isF e f phys Z ((List.range mpo.length).map s.ket) Z' ((List.range mpo.length).map s'.ket) := by
  unfold Mpe.buildLeft1 at hs
  rcases hk0 : s.left k with _ | v
  swap
  · rw [hk0] at hs
    obtain rfl := Option.some.inj hs
    exact ⟨Z, h, .refl h.fits.on h.fits.good⟩
  rw [hk0] at hs
  rcases k with _ | i
  · obtain rfl := Option.some.inj hs
    exact ⟨Z, ⟨h.fits, fun k hk hs => h.left k hk (by simpa using hs), h.right⟩, .refl h.fits.on h.fits.good⟩
  · obtain ⟨prev, -, rfl⟩ := Option.map_eq_some_iff.1 hs
    have hin : i + 1 < mpo.length := by omega
    obtain ⟨m, f1, f2, f3⟩ := FitsOn.left (isF := isF) (canon := true) (same := same) (ids := ids) hqr ho ge gp h.fits hin
    have hz := h.fits.lengths.1
    have hz : i < Z.length := by
      have : (Mpe.sweepCfg isF qr true same mpo ids).n = mpo.length := rfl
      omega
    have ek : (Mpe.prepLeft (Mpe.sweepCfg isF qr true same mpo ids) i s).ket = Mpe.canonLeftAt (Mpe.sweepCfg isF qr true same mpo ids) i s.ket := by
      rw [Mpe.prepLeft_ket]; rfl
    have ej : ∀ j, j ≠ i → j ≠ i + 1 → Mpe.canonLeftAt (Mpe.sweepCfg isF qr true same mpo ids) i s.ket j = s.ket j := by
      intro j h1 h2
      rw [Mpe.canonLeftAt, Function.update_of_ne h2, Function.update_of_ne h1]
    refine ⟨Z.set i m, ⟨?_, ?_, ?_⟩, ?_⟩
    · dsimp only; rw [ek]; exact f1
    · intro j hj hsj
      dsimp only at hsj ⊢
      rw [ek, getD_append_set hz]
      rw [Mpe.prepLeft_envs.1] at hsj
      by_cases h1 : j = i
      · subst h1
        rw [if_pos rfl, getD_cons_set (by omega)]
        exact f3
      · rw [Function.update_of_ne (by omega)] at hsj
        have hji : j < i := by
          by_contra hc
          have := Mpe.gapL_trans hi.gapL (show i + 1 ≤ j + 1 by omega) hsj
          rw [hk0] at this
          simp at this
        rw [if_neg h1, getD_cons_set (by omega), ej j h1 (by omega)]
        exact h.left j hj hsj
    · intro j hj hjn hsj
      dsimp only at hsj ⊢
      rw [Mpe.prepLeft_envs.2] at hsj
      rw [ek, getD_append_set hz, if_neg (by omega), getD_cons_set (by omega), ej j (by omega) (by omega)]
      exact h.right j hj hjn hsj
    · dsimp only; rw [ek]; exact f2

theorem Mixed.buildRight1 (gf : GoodBond f) {l r : Nat} (hlr : l < r) {i : Nat} (hri : r ≤ i) (hin : i ≤ mpo.length) {Z : List (BondInfo Q)} {s s' : Mpe.Sys (SpT Q K) (Option (OpT Q K))}
    (hi : Mpe.Inv (Mpe.sweepCfg isF qr true same mpo ids) l r s) (h : Mixed (Mpe.sweepCfg isF qr true same mpo ids) e f phys Z l r s)
    (hs : Mpe.buildRight1 (Mpe.sweepCfg isF qr true same mpo ids) i s = some s') :
    ∃ Z', Mixed (Mpe.sweepCfg isF qr true same mpo ids) e f phys Z' l r s' ∧
      SameState isF e f phys Z ((List.range mpo.length).map s.ket) Z' ((List.range mpo.length).map s'.ket) := by
  have hn : (Mpe.sweepCfg isF qr true same mpo ids).n = mpo.length := rfl
  unfold Mpe.buildRight1 at hs
  rcases hk0 : s.right i with _ | v
  swap
  · rw [hk0] at hs
    obtain rfl := Option.some.inj hs
    exact ⟨Z, h, .refl h.fits.on h.fits.good⟩
  rw [hk0] at hs
  dsimp only at hs
  by_cases hie : i = (Mpe.sweepCfg isF qr true same mpo ids).n
  · rw [if_pos hie] at hs
    obtain rfl := Option.some.inj hs
    refine ⟨Z, ⟨h.fits, h.left, fun j hj hjn hs => h.right j hj hjn ?_⟩, .refl h.fits.on h.fits.good⟩
    dsimp only at hs
    rwa [Function.update_of_ne (by omega)] at hs
  · rw [if_neg hie] at hs
    obtain ⟨prev, -, rfl⟩ := Option.map_eq_some_iff.1 hs
    obtain ⟨i, rfl⟩ : ∃ j, i = j + 1 := ⟨i - 1, by omega⟩
    have hin : i + 1 < mpo.length := by omega
    obtain ⟨m, f1, f2, f3⟩ := FitsOn.right (isF := isF) (canon := true) (same := same) (ids := ids) hqr ho gf gp h.fits hin
    have hz := h.fits.lengths.1
    have hz : i < Z.length := by omega
    have ek : (Mpe.prepRight (Mpe.sweepCfg isF qr true same mpo ids) (i + 1) s).ket = Mpe.canonRightAt (Mpe.sweepCfg isF qr true same mpo ids) (i + 1) s.ket := by
      rw [Mpe.prepRight_ket]; rfl
    have ej : ∀ j, j ≠ i → j ≠ i + 1 → Mpe.canonRightAt (Mpe.sweepCfg isF qr true same mpo ids) (i + 1) s.ket j = s.ket j := by
      intro j h1 h2
      rw [Mpe.canonRightAt, Nat.add_sub_cancel, Function.update_of_ne h1, Function.update_of_ne h2]
    refine ⟨Z.set i m, ⟨?_, ?_, ?_⟩, ?_⟩
    · dsimp only; rw [ek]; exact f1
    · intro j hj hsj
      dsimp only at hsj ⊢
      rw [Mpe.prepRight_envs.1] at hsj
      rw [ek, getD_append_set hz, if_neg (by omega), getD_cons_set (by omega), ej j (by omega) (by omega)]
      exact h.left j hj hsj
    · intro j hj hjn hsj
      dsimp only at hsj ⊢
      rw [Mpe.prepRight_envs.2] at hsj
      rw [ek, getD_append_set hz]
      by_cases h1 : j = i + 1
      · subst h1
        rw [if_neg (by omega), List.getD_cons_succ]
        have : (Z.set i m).getD i [] = m := by simp [List.getD_eq_getElem?_getD, hz]
        rw [this]
        exact f3
      · rw [Function.update_of_ne h1] at hsj
        have hji : i + 1 < j := by
          by_contra hc
          have := Mpe.gapR_trans hi.gapR (show j ≤ i + 1 by omega) (by omega) hsj
          rw [hk0] at this
          simp at this
        rw [if_neg (by omega), getD_cons_set (by omega), ej j (by omega) (by omega)]
        exact h.right j hj hjn hsj
    · dsimp only; rw [ek]; exact f2

end
end
end Verif
