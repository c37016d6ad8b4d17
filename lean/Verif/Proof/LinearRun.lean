import Verif.Proof.MpeCanonRun
import Verif.Spec.Linear

/-! Histories of a sweep with two states: what holds for the ket holds for the bra. -/

set_option linter.unusedSectionVars false

namespace Verif
namespace Mpe
section
variable {T W V : Type}

/-- `t` has the roles of bra and ket exchanged, and environments at the same places. -/
structure Shadow (s t : Sys T V) : Prop where
  ket : t.ket = s.bra
  bra : t.bra = s.ket
  left : ∀ k, (t.left k).isSome = (s.left k).isSome
  right : ∀ i, (t.right i).isSome = (s.right i).isSome

theorem isSome_update {f g : Nat → Option V} (h : ∀ k, (g k).isSome = (f k).isSome) (i : Nat) (v w : V) (k : Nat) :
    (Function.update g i (some w) k).isSome = (Function.update f i (some v) k).isSome := by
  by_cases hk : k = i
  · subst hk; simp
  · rw [Function.update_of_ne hk, Function.update_of_ne hk, h]

theorem isSome_none {a b : Option V} (h : b.isSome = a.isSome) (ha : a = none) : b = none := by
  subst ha
  simpa using h

theorem Shadow.prepLeft {c : Cfg T W V} (hc : c.same = false) (i : Nat) {s t : Sys T V} (h : Shadow s t) : Shadow (prepLeft c i s) (prepLeft c i t) := by
  unfold Mpe.prepLeft
  cases c.canon
  · exact h
  · refine ⟨?_, ?_, h.left, h.right⟩ <;> simp [hc, h.ket, h.bra]

theorem Shadow.prepRight {c : Cfg T W V} (hc : c.same = false) (i : Nat) {s t : Sys T V} (h : Shadow s t) : Shadow (prepRight c i s) (prepRight c i t) := by
  unfold Mpe.prepRight
  cases c.canon
  · exact h
  · refine ⟨?_, ?_, h.left, h.right⟩ <;> simp [hc, h.ket, h.bra]

theorem Shadow.buildLeft1 {c : Cfg T W V} (hc : c.same = false) (k : Nat) {s t s' : Sys T V} (h : Shadow s t) (hs : buildLeft1 c k s = some s') :
    ∃ t', buildLeft1 c k t = some t' ∧ Shadow s' t' := by
  unfold Mpe.buildLeft1 at hs ⊢
  cases hk : s.left k with
  | some v =>
    obtain ⟨w, hw⟩ := Option.isSome_iff_exists.1 (show (t.left k).isSome = true by rw [h.left, hk]; rfl)
    rw [hk] at hs
    obtain rfl := Option.some.inj hs
    exact ⟨t, by rw [hw], h⟩
  | none =>
    rw [hk] at hs
    rw [isSome_none (h.left k) hk]
    cases k with
    | zero =>
      obtain rfl := Option.some.inj hs
      exact ⟨_, rfl, h.ket, h.bra, fun k => isSome_update h.left 0 _ _ k, h.right⟩
    | succ i =>
      dsimp only at hs ⊢
      obtain ⟨v, hv, rfl⟩ := Option.map_eq_some_iff.1 hs
      obtain ⟨w, hw⟩ := Option.isSome_iff_exists.1 (show (t.left i).isSome = true by rw [h.left, hv]; rfl)
      have hp := h.prepLeft hc i
      rw [hw]
      exact ⟨_, rfl, hp.ket, hp.bra, fun k => isSome_update hp.left _ _ _ k, hp.right⟩

theorem Shadow.buildRight1 {c : Cfg T W V} (hc : c.same = false) (i : Nat) {s t s' : Sys T V} (h : Shadow s t) (hs : buildRight1 c i s = some s') :
    ∃ t', buildRight1 c i t = some t' ∧ Shadow s' t' := by
  unfold Mpe.buildRight1 at hs ⊢
  cases hk : s.right i with
  | some v =>
    obtain ⟨w, hw⟩ := Option.isSome_iff_exists.1 (show (t.right i).isSome = true by rw [h.right, hk]; rfl)
    rw [hk] at hs
    obtain rfl := Option.some.inj hs
    exact ⟨t, by rw [hw], h⟩
  | none =>
    rw [hk] at hs
    rw [isSome_none (h.right i) hk]
    dsimp only at hs ⊢
    by_cases hi : i = c.n
    · rw [if_pos hi] at hs ⊢
      obtain rfl := Option.some.inj hs
      exact ⟨_, rfl, h.ket, h.bra, h.left, fun k => isSome_update h.right _ _ _ k⟩
    · rw [if_neg hi] at hs ⊢
      obtain ⟨v, hv, rfl⟩ := Option.map_eq_some_iff.1 hs
      obtain ⟨w, hw⟩ := Option.isSome_iff_exists.1 (show (t.right (i + 1)).isSome = true by rw [h.right, hv]; rfl)
      have hp := h.prepRight hc i
      rw [hw]
      exact ⟨_, rfl, hp.ket, hp.bra, hp.left, fun k => isSome_update hp.right _ _ _ k⟩

theorem foldlM_shadow {α : Type} {f : Sys T V → α → Option (Sys T V)} (hf : ∀ (a : α) (s t s' : Sys T V), Shadow s t → f s a = some s' → ∃ t', f t a = some t' ∧ Shadow s' t') :
    ∀ (L : List α) {s t s' : Sys T V}, Shadow s t → L.foldlM f s = some s' → ∃ t', L.foldlM f t = some t' ∧ Shadow s' t' := by
  intro L
  induction L with
  | nil =>
    intro s t s' h hs
    obtain rfl := Option.some.inj hs
    exact ⟨t, rfl, h⟩
  | cons a L ih =>
    intro s t s' h hs
    rw [List.foldlM_cons] at hs
    obtain ⟨s1, h1, h2⟩ := Option.bind_eq_some_iff.1 hs
    obtain ⟨t1, g1, g2⟩ := hf a s t s1 h h1
    obtain ⟨t2, k1, k2⟩ := ih g2 h2
    exact ⟨t2, by rw [List.foldlM_cons, g1]; exact k1, k2⟩

theorem Shadow.buildEnvs {c : Cfg T W V} (hc : c.same = false) (l r : Nat) {s t s' : Sys T V} (h : Shadow s t) (hs : buildEnvs c l r s = some s') :
    ∃ t', buildEnvs c l r t = some t' ∧ Shadow s' t' := by
  unfold Mpe.buildEnvs at hs ⊢
  obtain ⟨s1, h1, h2⟩ := Option.bind_eq_some_iff.1 hs
  obtain ⟨t1, g1, g2⟩ := foldlM_shadow (fun a s t s' h hs => h.buildLeft1 hc a hs) _ h h1
  obtain ⟨t2, k1, k2⟩ := foldlM_shadow (fun a s t s' h hs => h.buildRight1 hc a hs) _ g2 h2
  exact ⟨t2, by rw [g1]; exact k1, k2⟩

theorem Shadow.builds {c : Cfg T W V} (hc : c.same = false) (l r m : Nat) {s t s' : Sys T V} (h : Shadow s t)
    (hs : (List.replicate m ()).foldlM (fun s _ => Mpe.buildEnvs c l r s) s = some s') :
    ∃ t', (List.replicate m ()).foldlM (fun s _ => Mpe.buildEnvs c l r s) t = some t' ∧ Shadow s' t' :=
  foldlM_shadow (fun _ _ _ _ h hs => h.buildEnvs hc l r hs) _ h hs

theorem Shadow.embed {c : Cfg T W V} (hc : c.same = false) (l r : Nat) (kets bras : List T) {s t : Sys T V} (h : Shadow s t) :
    Shadow (embed c l r kets (some bras) s) (embed c l r bras (some kets) t) := by
  refine ⟨?_, ?_, fun k => ?_, fun i => ?_⟩
  · simp [Mpe.embed, hc, h.ket]
  · simp [Mpe.embed, hc, h.bra]
  · simp only [Mpe.embed]
    split
    · rfl
    · exact h.left k
  · simp only [Mpe.embed]
    split
    · rfl
    · exact h.right i

end
end Mpe

section
variable {Q K : Type} [DecidableEq Q] [AddCommGroup Q] [CommRing K] [StarRing K]

theorem TwoRun.ket {W V : Type} {c : Mpe.Cfg (SpT Q K) W V} (hc : c.same = false) {e fb fk : BondInfo Q} {pb pk : List (List (BondInfo Q))} {s : Mpe.Sys (SpT Q K) V}
    (h : TwoRun c e fb fk pb pk s) : SweepRun c e fk pk s := by
  induction h with
  | new _ hk => exact .new _ hk
  | round l r builds kets bras _ hlr hr h1 h2 hk _ hs ih => exact .round l r builds kets (some bras) ih hlr hr h1 h2 (fun h => by rw [hc] at h; cases h) hk hs

theorem TwoRun.bra {W V : Type} {c : Mpe.Cfg (SpT Q K) W V} (hc : c.same = false) {e fb fk : BondInfo Q} {pb pk : List (List (BondInfo Q))} {s : Mpe.Sys (SpT Q K) V}
    (h : TwoRun c e fb fk pb pk s) : ∃ t, Mpe.Shadow s t ∧ SweepRun c e fb pb t := by
  induction h with
  | @new Y Z bra ket hb _ => exact ⟨Mpe.new bra ket, ⟨rfl, rfl, fun _ => rfl, fun _ => rfl⟩, .new _ hb⟩
  | @round s s1 t s2 l r builds kets bras _ hlr hr h1 h2 _ hb hs ih =>
    obtain ⟨u, hu, hrun⟩ := ih
    obtain ⟨u1, g1, g2⟩ := hu.builds hc l r builds h1
    obtain ⟨u2, k1, k2⟩ := g2.buildEnvs hc l r h2
    rw [Mpe.setWindow, h2] at hs
    obtain rfl := Option.some.inj hs
    refine ⟨Mpe.embed c l r bras (some kets) u2, k2.embed hc l r kets bras, ?_⟩
    refine .round l r builds bras (some kets) hrun hlr hr g1 k1 (fun h => by rw [hc] at h; cases h) ?_ (by rw [Mpe.setWindow, k1]; rfl)
    rw [k2.ket]
    exact hb

/-- The window of an object with two states. -/
theorem SweepRun.window2 {isF : Q → Bool} {qr : Arr K → Arr K × Arr K} (hqr : Factorises qr) (ho : OrthonormalColumns qr) {mpo : List (OpT Q K)}
    {ids : Mpe.Idents Q K} {e f : BondInfo Q} (ge : GoodBond e) (gf : GoodBond f) {phys : List (List (BondInfo Q))} (gp : ∀ ph ∈ phys, ∀ c ∈ ph, GoodBond c)
    {s s' : Mpe.Sys (SpT Q K) (Option (OpT Q K))} (h : SweepRun (Mpe.sweepCfg isF qr true false mpo ids) e f phys s) {l r builds : Nat} (hlr : l < r)
    (hr : r ≤ mpo.length) (hs' : (List.replicate builds ()).foldlM (fun s _ => Mpe.buildEnvs (Mpe.sweepCfg isF qr true false mpo ids) l r s) s = some s') :
    ∃ (t : Mpe.Sys (SpT Q K) (Option (OpT Q K))) (Z0 Z : List (BondInfo Q)), Mpe.buildEnvs (Mpe.sweepCfg isF qr true false mpo ids) l r s' = some t ∧
      Mpe.getWindow (Mpe.sweepCfg isF qr true false mpo ids) l r s' =
        some (Mpe.leftEnv (Mpe.sweepCfg isF qr true false mpo ids) t.ket t.bra l, Mpe.rightEnv (Mpe.sweepCfg isF qr true false mpo ids) t.ket t.bra r,
          (List.range' l (r - l)).map t.ket, (List.range' l (r - l)).map t.bra) ∧
      FitsOn e f phys mpo.length Z0 s.ket ∧ FitsOn e f phys mpo.length Z t.ket ∧ IsometricOutside e f phys mpo.length Z l r t.ket ∧
      SameState isF e f phys Z0 ((List.range mpo.length).map s.ket) Z ((List.range mpo.length).map t.ket) := by
  obtain ⟨hg, Z0, hm⟩ := h.mixed hqr ho ge gf gp
  obtain ⟨Z1, i1, m1, v1, e1⟩ := (hm.mono (show l ≤ mpo.length by omega) (Nat.zero_le r)).builds hqr ho ge gf gp hlr hr builds
    (hg.inv (show l ≤ (Mpe.sweepCfg isF qr true false mpo ids).n from by show l ≤ mpo.length; omega)) hs'
  obtain ⟨t, Z2, k1, k2, k3, k4, k5, k6, k7⟩ := m1.build hqr ho ge gf gp hlr hr i1
  obtain ⟨a, ha⟩ := Option.isSome_iff_exists.1 k4
  obtain ⟨b, hb⟩ := Option.isSome_iff_exists.1 k5
  refine ⟨t, Z0, Z2, k1, ?_, hm.fits, k3.fits, k3.outside k2 hr k4 k5, e1.trans k7⟩
  have k1' : Mpe.buildEnvs { Mpe.sweepCfg isF qr true false mpo ids with same := false } l r
      { s' with bra := Mpe.braOf (Mpe.sweepCfg isF qr true false mpo ids) s' } = some t := k1
  rw [Mpe.getWindow, k1']
  simp only [Option.bind_some, ha, hb, Option.map_some]
  have e1 : a = Mpe.leftEnv (Mpe.sweepCfg isF qr true false mpo ids) t.ket t.bra l := k2.left l (Nat.le_refl _) a ha
  have e2 : b = Mpe.rightEnv (Mpe.sweepCfg isF qr true false mpo ids) t.ket t.bra r := k2.right r hr (Nat.le_refl _) b hb
  rw [e1, e2]

/-- The same for both states. -/
theorem TwoRun.window {isF : Q → Bool} {qr : Arr K → Arr K × Arr K} (hqr : Factorises qr) (ho : OrthonormalColumns qr) {mpo : List (OpT Q K)}
    {ids : Mpe.Idents Q K} {e fb fk : BondInfo Q} (ge : GoodBond e) (gb : GoodBond fb) (gk : GoodBond fk) {pb pk : List (List (BondInfo Q))}
    (gpb : ∀ ph ∈ pb, ∀ c ∈ ph, GoodBond c) (gpk : ∀ ph ∈ pk, ∀ c ∈ ph, GoodBond c)
    {s s' : Mpe.Sys (SpT Q K) (Option (OpT Q K))} (h : TwoRun (Mpe.sweepCfg isF qr true false mpo ids) e fb fk pb pk s) {l r builds : Nat} (hlr : l < r)
    (hr : r ≤ mpo.length) (hs' : (List.replicate builds ()).foldlM (fun s _ => Mpe.buildEnvs (Mpe.sweepCfg isF qr true false mpo ids) l r s) s = some s') :
    ∃ (t : Mpe.Sys (SpT Q K) (Option (OpT Q K))) (Z0 Z Y0 Y : List (BondInfo Q)), Mpe.buildEnvs (Mpe.sweepCfg isF qr true false mpo ids) l r s' = some t ∧
      Mpe.getWindow (Mpe.sweepCfg isF qr true false mpo ids) l r s' =
        some (Mpe.leftEnv (Mpe.sweepCfg isF qr true false mpo ids) t.ket t.bra l, Mpe.rightEnv (Mpe.sweepCfg isF qr true false mpo ids) t.ket t.bra r,
          (List.range' l (r - l)).map t.ket, (List.range' l (r - l)).map t.bra) ∧
      FitsOn e fk pk mpo.length Z0 s.ket ∧ FitsOn e fk pk mpo.length Z t.ket ∧
      SameState isF e fk pk Z0 ((List.range mpo.length).map s.ket) Z ((List.range mpo.length).map t.ket) ∧
      FitsOn e fb pb mpo.length Y0 s.bra ∧ FitsOn e fb pb mpo.length Y t.bra ∧ IsometricOutside e fb pb mpo.length Y l r t.bra ∧
      SameState isF e fb pb Y0 ((List.range mpo.length).map s.bra) Y ((List.range mpo.length).map t.bra) := by
  obtain ⟨t, Z0, Z, a1, a2, a3, a4, -, a6⟩ := (h.ket rfl).window2 hqr ho ge gk gpk hlr hr hs'
  obtain ⟨u, hu, hrun⟩ := h.bra rfl
  obtain ⟨u1, g1, g2⟩ := hu.builds rfl l r builds hs'
  obtain ⟨u2, Y0, Y, b1, -, b3, b4, b5, b6⟩ := hrun.window2 hqr ho ge gb gpb hlr hr g1
  obtain ⟨u3, k1, k2⟩ := g2.buildEnvs rfl l r a1
  rw [b1] at k1
  obtain rfl := Option.some.inj k1
  rw [hu.ket] at b3 b6
  rw [k2.ket] at b4 b5 b6
  exact ⟨t, Z0, Z, Y0, Y, a1, a2, a3, a4, a6, b3, b4, b5, b6⟩

end
end Verif
