import Verif.Proof.MpeCanon

/-! Histories of a sweep with canonicalisation. -/

set_option linter.unusedSectionVars false

namespace Verif
section
variable {Q K : Type} [DecidableEq Q] [AddCommGroup Q] [CommRing K] [StarRing K]

/-- `build_envs` for the window `l`, `r`. -/
theorem Mixed.build {isF : Q → Bool} {qr : Arr K → Arr K × Arr K} (hqr : Factorises qr) (ho : OrthonormalColumns qr) {same : Bool} {mpo : List (OpT Q K)}
    {ids : Mpe.Idents Q K} {e f : BondInfo Q} (ge : GoodBond e) (gf : GoodBond f) {phys : List (List (BondInfo Q))} (gp : ∀ ph ∈ phys, ∀ c ∈ ph, GoodBond c)
    {l r : Nat} (hlr : l < r) (hr : r ≤ mpo.length) {Z : List (BondInfo Q)} {s : Mpe.Sys (SpT Q K) (Option (OpT Q K))}
    (hi : Mpe.Inv (Mpe.sweepCfg isF qr true same mpo ids) l r s) (h : Mixed (Mpe.sweepCfg isF qr true same mpo ids) e f phys Z l r s) :
    ∃ s' Z', Mpe.buildEnvs (Mpe.sweepCfg isF qr true same mpo ids) l r s = some s' ∧ Mpe.Inv (Mpe.sweepCfg isF qr true same mpo ids) l r s' ∧
      Mixed (Mpe.sweepCfg isF qr true same mpo ids) e f phys Z' l r s' ∧ (s'.left l).isSome ∧ (s'.right r).isSome ∧
      Mpe.SameVal (Mpe.sweepCfg isF qr true same mpo ids) l r s s' ∧
      SameState isF e f phys Z ((List.range mpo.length).map s.ket) Z' ((List.range mpo.length).map s'.ket) := by
  have hn : (Mpe.sweepCfg isF qr true same mpo ids).n = mpo.length := rfl
  have hL : ∀ k ≤ l + 1, ∃ s' Z', (List.range k).foldlM (fun s k => Mpe.buildLeft1 (Mpe.sweepCfg isF qr true same mpo ids) k s) s = some s' ∧
      Mpe.Inv (Mpe.sweepCfg isF qr true same mpo ids) l r s' ∧ (∀ j < k, (s'.left j).isSome) ∧ Mpe.SameVal (Mpe.sweepCfg isF qr true same mpo ids) l r s s' ∧
      Mixed (Mpe.sweepCfg isF qr true same mpo ids) e f phys Z' l r s' ∧
      SameState isF e f phys Z ((List.range mpo.length).map s.ket) Z' ((List.range mpo.length).map s'.ket) := by
    intro k hk
    induction k with
    | zero => exact ⟨s, Z, rfl, hi, by simp, .refl, h, .refl h.fits.on h.fits.good⟩
    | succ k ih =>
      obtain ⟨s1, Z1, h1, h2, h3, h4, h5, h6⟩ := ih (by omega)
      obtain ⟨s2, g1, g2, g3, g4⟩ := Mpe.Inv.buildLeft1 (fun _ => hlr) (by omega) hr (by omega : k ≤ l) h2 h3
      obtain ⟨Z2, k1, k2⟩ := h5.buildLeft1 hqr ho gp ge hlr hr (by omega) h2 g1
      refine ⟨s2, Z2, ?_, g2, fun j hj => g3 j (by omega), h4.trans g4, k1, h6.trans k2⟩
      rw [List.range_succ, List.foldlM_append, h1]
      simp [g1]
  obtain ⟨s1, Z1, h1, h2, h3, h4, h5, h6⟩ := hL (l + 1) (Nat.le_refl _)
  have hR : ∀ m, m ≤ mpo.length + 1 - r → ∃ s' Z', (List.range' (mpo.length + 1 - m) m).reverse.foldlM
        (fun s i => Mpe.buildRight1 (Mpe.sweepCfg isF qr true same mpo ids) i s) s1 = some s' ∧
      Mpe.Inv (Mpe.sweepCfg isF qr true same mpo ids) l r s' ∧ (∀ j ≤ mpo.length, mpo.length + 1 - m ≤ j → (s'.right j).isSome) ∧
      Mpe.SameVal (Mpe.sweepCfg isF qr true same mpo ids) l r s s' ∧ s'.left = s1.left ∧
      Mixed (Mpe.sweepCfg isF qr true same mpo ids) e f phys Z' l r s' ∧
      SameState isF e f phys Z ((List.range mpo.length).map s.ket) Z' ((List.range mpo.length).map s'.ket) := by
    intro m hm
    induction m with
    | zero => exact ⟨s1, Z1, rfl, h2, fun j hj hj' => by omega, h4, rfl, h5, h6⟩
    | succ m ih =>
      obtain ⟨t1, Z2, k1, k2, k3, k4, k5, k6, k7⟩ := ih (by omega)
      obtain ⟨t2, g1, g2, g3, g4, g5⟩ := Mpe.Inv.buildRight1 (fun _ => hlr) (i := mpo.length - m) (by omega) (by omega) (by omega) k2
        fun j hj hj' => k3 j hj (by omega)
      obtain ⟨Z3, q1, q2⟩ := k6.buildRight1 hqr ho gp gf hlr (by omega) (by omega) k2 g1
      refine ⟨t2, Z3, ?_, g2, fun j hj hj' => g3 j hj (by omega), k4.trans g4, g5.trans k5, q1, k7.trans q2⟩
      rw [show mpo.length + 1 - (m + 1) = mpo.length - m by omega, List.range'_succ, List.reverse_cons, List.foldlM_append,
        show mpo.length - m + 1 = mpo.length + 1 - m by omega, k1]
      simp [g1]
  obtain ⟨t, Z2, k1, k2, k3, k4, k5, k6, k7⟩ := hR (mpo.length + 1 - r) (Nat.le_refl _)
  refine ⟨t, Z2, ?_, k2, k6, ?_, k3 r hr (by omega), k4, k7⟩
  · rw [Mpe.buildEnvs, h1, Option.bind_some]
    rw [show mpo.length + 1 - (mpo.length + 1 - r) = r by omega] at k1
    exact k1
  · rw [k5]; exact h3 l (Nat.lt_succ_self l)

/-- Any number of calls of `build_envs`. -/
theorem Mixed.builds {isF : Q → Bool} {qr : Arr K → Arr K × Arr K} (hqr : Factorises qr) (ho : OrthonormalColumns qr) {same : Bool} {mpo : List (OpT Q K)}
    {ids : Mpe.Idents Q K} {e f : BondInfo Q} (ge : GoodBond e) (gf : GoodBond f) {phys : List (List (BondInfo Q))} (gp : ∀ ph ∈ phys, ∀ c ∈ ph, GoodBond c)
    {l r : Nat} (hlr : l < r) (hr : r ≤ mpo.length) (m : Nat) : ∀ {Z : List (BondInfo Q)} {s s' : Mpe.Sys (SpT Q K) (Option (OpT Q K))},
    Mpe.Inv (Mpe.sweepCfg isF qr true same mpo ids) l r s → Mixed (Mpe.sweepCfg isF qr true same mpo ids) e f phys Z l r s →
    (List.replicate m ()).foldlM (fun s _ => Mpe.buildEnvs (Mpe.sweepCfg isF qr true same mpo ids) l r s) s = some s' →
    ∃ Z', Mpe.Inv (Mpe.sweepCfg isF qr true same mpo ids) l r s' ∧ Mixed (Mpe.sweepCfg isF qr true same mpo ids) e f phys Z' l r s' ∧
      Mpe.SameVal (Mpe.sweepCfg isF qr true same mpo ids) l r s s' ∧
      SameState isF e f phys Z ((List.range mpo.length).map s.ket) Z' ((List.range mpo.length).map s'.ket) := by
  induction m with
  | zero =>
    intro Z s s' hi h hs
    obtain rfl := Option.some.inj hs
    exact ⟨Z, hi, h, .refl, .refl h.fits.on h.fits.good⟩
  | succ m ih =>
    intro Z s s' hi h hs
    obtain ⟨t, Z1, k1, k2, k3, -, -, k6, k7⟩ := h.build hqr ho ge gf gp hlr hr hi
    rw [List.replicate_succ, List.foldlM_cons, k1] at hs
    obtain ⟨Z2, q1, q2, q3, q4⟩ := ih k2 k3 hs
    exact ⟨Z2, q1, q2, k6.trans q3, k7.trans q4⟩

theorem setRange_twice {α : Type} (ket : Nat → α) (l r : Nat) (kets : List α) :
    Mpe.setRange (Mpe.setRange ket l r kets) l r ((List.range' l (r - l)).map (Mpe.setRange ket l r kets)) = Mpe.setRange ket l r kets := by
  funext i
  rw [Mpe.setRange]
  split
  · rename_i h
    have : i - l < r - l := by omega
    simp [List.getD_eq_getElem?_getD, this, show l + (i - l) = i by omega]
  · rfl

theorem embed_ket {W V T : Type} {c : Mpe.Cfg T W V} {l r : Nat} {kets : List T} {bras : Option (List T)} {s : Mpe.Sys T V} (h : c.same = true → bras = none) :
    (Mpe.embed c l r kets bras s).ket = Mpe.setRange s.ket l r kets := by
  unfold Mpe.embed
  dsimp only
  split
  · rename_i hs
    rw [h hs]
    exact setRange_twice _ _ _ _
  · rfl

theorem getD_outside {l r n : Nat} {e f : BondInfo Q} {Z Z' : List (BondInfo Q)} (hz : Z.length + 1 = n) (hz' : Z'.length + 1 = n) (h : SameOutside l r Z Z')
    (hr : r ≤ n) : (∀ i ≤ l, (e :: Z').getD i [] = (e :: Z).getD i []) ∧ (∀ i, r ≤ i → (e :: Z').getD i [] = (e :: Z).getD i []) ∧
      (∀ i, i < l ∨ r ≤ i + 1 → (Z' ++ [f]).getD i [] = (Z ++ [f]).getD i []) := by
  refine ⟨?_, ?_, ?_⟩
  · intro i hi
    cases i with
    | zero => rfl
    | succ i => exact h i (Or.inl (by omega))
  · intro i hi
    cases i with
    | zero => rfl
    | succ i => exact h i (Or.inr (by omega))
  · intro i hi
    by_cases hc : i < Z.length
    · rw [List.getD_append _ _ _ _ hc, List.getD_append _ _ _ _ (by omega)]
      exact h i hi
    · rw [List.getD_append_right _ _ _ _ (by omega), List.getD_append_right _ _ _ _ (by omega), show Z.length = Z'.length by omega]

/-- Replacing the tensors of a window by others on the same outer bonds. -/
theorem Mixed.embed {W V : Type} {c : Mpe.Cfg (SpT Q K) W V} {e f : BondInfo Q} {phys : List (List (BondInfo Q))} {Z Z' : List (BondInfo Q)} {l r : Nat}
    {s : Mpe.Sys (SpT Q K) V} (h : IsometricOutside e f phys c.n Z l r s.ket) (hF : FitsOn e f phys c.n Z s.ket) (hlr : l < r) (hr : r ≤ c.n)
    {kets : List (SpT Q K)} {bras : Option (List (SpT Q K))} (hb : c.same = true → bras = none) (hZ : SameOutside l r Z Z')
    (hF' : FitsOn e f phys c.n Z' (Mpe.setRange s.ket l r kets)) : Mixed c e f phys Z' c.n 0 (Mpe.embed c l r kets bras s) := by
  obtain ⟨o1, o2, o3⟩ := getD_outside (e := e) (f := f) hF.lengths.1 hF'.lengths.1 hZ hr
  have ho : ∀ i, i < l ∨ r ≤ i → Mpe.setRange s.ket l r kets i = s.ket i := by
    intro i hi
    rw [Mpe.setRange, if_neg (by omega)]
  refine ⟨by rw [embed_ket hb]; exact hF', ?_, ?_⟩
  · intro k hk hs
    rw [embed_ket hb]
    have hkl : k < l := by
      by_contra hc
      rw [show (Mpe.embed c l r kets bras s).left (k + 1) = if l < k + 1 ∧ k + 1 ≤ c.n + 1 then none else s.left (k + 1) from rfl, if_pos (by omega)] at hs
      simp at hs
    rw [o1 k (by omega), o3 k (Or.inl hkl), ho k (Or.inl hkl)]
    exact h.left k hkl
  · intro i _ hin hs
    rw [embed_ket hb]
    have hri : r ≤ i := by
      by_contra hc
      rw [show (Mpe.embed c l r kets bras s).right i = if i < r then none else s.right i from rfl, if_pos (by omega)] at hs
      simp at hs
    rw [o2 i hri, o3 i (Or.inr (by omega)), ho i (Or.inr hri)]
    exact h.right i hri hin

/-- The invariant of a sweep with canonicalisation. -/
theorem SweepRun.mixed {isF : Q → Bool} {qr : Arr K → Arr K × Arr K} (hqr : Factorises qr) (ho : OrthonormalColumns qr) {same : Bool} {mpo : List (OpT Q K)}
    {ids : Mpe.Idents Q K} {e f : BondInfo Q} (ge : GoodBond e) (gf : GoodBond f) {phys : List (List (BondInfo Q))} (gp : ∀ ph ∈ phys, ∀ c ∈ ph, GoodBond c)
    {s : Mpe.Sys (SpT Q K) (Option (OpT Q K))} (h : SweepRun (Mpe.sweepCfg isF qr true same mpo ids) e f phys s) :
    Mpe.Good (Mpe.sweepCfg isF qr true same mpo ids) s ∧ ∃ Z, Mixed (Mpe.sweepCfg isF qr true same mpo ids) e f phys Z mpo.length 0 s := by
  induction h with
  | @new Z ket bra hF =>
    refine ⟨⟨⟨?_, ?_⟩, ?_, ?_, ?_⟩, Z, ⟨hF, ?_, ?_⟩⟩ <;> simp [Mpe.new]
  | @round s s1 t s2 l r builds kets bras _ hlr hr hs1 ht hb hk hs2 ih =>
    obtain ⟨hg, Z, hm⟩ := ih
    have hr' : r ≤ mpo.length := hr
    obtain ⟨Z1, i1, m1, -, -⟩ := (hm.mono (show l ≤ mpo.length by omega) (Nat.zero_le r)).builds hqr ho ge gf gp hlr hr builds
      (hg.inv (show l ≤ (Mpe.sweepCfg isF qr true same mpo ids).n by omega)) hs1
    obtain ⟨t', Z2, k1, k2, k3, k4, k5, -, -⟩ := m1.build hqr ho ge gf gp hlr hr i1
    rw [k1] at ht
    obtain rfl := Option.some.inj ht
    have hout := k3.outside k2 hr k4 k5
    obtain ⟨Z3, z1, z2⟩ := hk Z2 k3.fits hout
    rw [Mpe.setWindow, k1] at hs2
    obtain rfl := Option.some.inj hs2
    exact ⟨k2.embed hlr hr _ _, Z3, Mixed.embed hout k3.fits hlr hr hb z1 z2⟩

theorem foldlM_twin {α σ : Type} (P : σ → Prop) (g : σ → α → Option σ) (hg : ∀ s a s', P s → g s a = some s' → P s') (xs : List α) {s s' : σ} (h : P s)
    (hs : xs.foldlM g s = some s') : P s' := by
  induction xs generalizing s with
  | nil => obtain rfl := Option.some.inj hs; exact h
  | cons x xs ih =>
    rw [List.foldlM_cons] at hs
    obtain ⟨t, h1, h2⟩ := Option.bind_eq_some_iff.1 hs
    exact ih (hg _ _ _ h h1) h2

/-- Bra and ket are treated alike. -/
theorem build_twin {W V T : Type} {c : Mpe.Cfg T W V} (hc : c.same = false) {l r : Nat} {s s' : Mpe.Sys T V} (h : s.bra = s.ket)
    (hs : Mpe.buildEnvs c l r s = some s') : s'.bra = s'.ket := by
  unfold Mpe.buildEnvs at hs
  obtain ⟨t, h1, h2⟩ := Option.bind_eq_some_iff.1 hs
  have hL : t.bra = t.ket := by
    refine foldlM_twin (fun s : Mpe.Sys T V => s.bra = s.ket) _ ?_ _ h h1
    intro s k s' hs hb
    unfold Mpe.buildLeft1 at hb
    split at hb
    · obtain rfl := Option.some.inj hb; exact hs
    · split at hb
      · obtain rfl := Option.some.inj hb; exact hs
      · obtain ⟨prev, -, rfl⟩ := Option.map_eq_some_iff.1 hb
        dsimp only
        unfold Mpe.prepLeft
        split
        · dsimp only; rw [hc, hs]; rfl
        · exact hs
  refine foldlM_twin (fun s : Mpe.Sys T V => s.bra = s.ket) _ ?_ _ hL h2
  intro s k s' hs hb
  unfold Mpe.buildRight1 at hb
  split at hb
  · obtain rfl := Option.some.inj hb; exact hs
  · split at hb
    · obtain rfl := Option.some.inj hb; exact hs
    · obtain ⟨prev, -, rfl⟩ := Option.map_eq_some_iff.1 hb
      dsimp only
      unfold Mpe.prepRight
      split
      · dsimp only; rw [hc, hs]; rfl
      · exact hs

namespace Mpe
variable {T W V : Type}

/-- The copy that `mpe[l:r]` works on, when bra and ket are the same object. -/
def copyOf (s : Sys T V) : Sys T V := { s with bra := s.ket }

theorem buildLeft1_copy {c : Cfg T W V} (hc : c.same = true) (k : Nat) (s : Sys T V) :
    buildLeft1 { c with same := false } k (copyOf s) = (buildLeft1 c k s).map copyOf := by
  unfold buildLeft1
  cases h : s.left k with
  | some v => simp [copyOf, h]
  | none =>
    have h' : (copyOf s).left k = none := h
    rw [h']
    cases k with
    | zero => rfl
    | succ i =>
      dsimp only
      rw [show (copyOf s).left i = s.left i from rfl, Option.map_map]
      congr 1
      funext v
      dsimp only [Function.comp_def]
      cases hcn : c.canon <;> simp [prepLeft, copyOf, braOf, hc, hcn, canonLeftAt]

theorem buildRight1_copy {c : Cfg T W V} (hc : c.same = true) (i : Nat) (s : Sys T V) :
    buildRight1 { c with same := false } i (copyOf s) = (buildRight1 c i s).map copyOf := by
  unfold buildRight1
  cases h : s.right i with
  | some v => simp [copyOf, h]
  | none =>
    have h' : (copyOf s).right i = none := h
    rw [h']
    dsimp only
    by_cases hi : i = c.n
    · rw [if_pos hi, if_pos hi]; rfl
    · rw [if_neg hi, if_neg hi, show (copyOf s).right (i + 1) = s.right (i + 1) from rfl, Option.map_map]
      congr 1
      funext v
      dsimp only [Function.comp_def]
      cases hcn : c.canon <;> simp [prepRight, copyOf, braOf, hc, hcn, canonRightAt]

theorem foldlM_copy {α : Type} {f g : Sys T V → α → Option (Sys T V)} (h : ∀ s a, g (copyOf s) a = (f s a).map copyOf) :
    ∀ (L : List α) (s : Sys T V), L.foldlM g (copyOf s) = (L.foldlM f s).map copyOf := by
  intro L
  induction L with
  | nil => intro s; rfl
  | cons a L ih =>
    intro s
    rw [List.foldlM_cons, List.foldlM_cons, h]
    cases hf : f s a with
    | none => rfl
    | some s1 => exact ih s1

theorem buildEnvs_copy {c : Cfg T W V} (hc : c.same = true) (l r : Nat) (s : Sys T V) :
    buildEnvs { c with same := false } l r (copyOf s) = (buildEnvs c l r s).map copyOf := by
  unfold buildEnvs
  rw [foldlM_copy (f := fun s k => buildLeft1 c k s) fun s k => buildLeft1_copy hc k s]
  cases hf : (List.range (l + 1)).foldlM (fun s k => buildLeft1 c k s) s with
  | none => rfl
  | some s1 =>
    rw [Option.map_some, Option.bind_some, Option.bind_some]
    exact foldlM_copy (f := fun s i => buildRight1 c i s) (fun s i => buildRight1_copy hc i s) _ _

end Mpe

/-- What `mpe[l:r]` hands out in a sweep with canonicalisation.  If bra and ket are one object, `k` is also the ket of the object itself after
`build_envs`. -/
theorem SweepRun.window {isF : Q → Bool} {qr : Arr K → Arr K × Arr K} (hqr : Factorises qr) (ho : OrthonormalColumns qr) {same : Bool} {mpo : List (OpT Q K)}
    {ids : Mpe.Idents Q K} {e f : BondInfo Q} (ge : GoodBond e) (gf : GoodBond f) {phys : List (List (BondInfo Q))} (gp : ∀ ph ∈ phys, ∀ c ∈ ph, GoodBond c)
    {s s' : Mpe.Sys (SpT Q K) (Option (OpT Q K))} (h : SweepRun (Mpe.sweepCfg isF qr true same mpo ids) e f phys s) {l r builds : Nat} (hlr : l < r)
    (hr : r ≤ mpo.length) (hs' : (List.replicate builds ()).foldlM (fun s _ => Mpe.buildEnvs (Mpe.sweepCfg isF qr true same mpo ids) l r s) s = some s') :
    ∃ (k b : Nat → SpT Q K) (Z0 Z : List (BondInfo Q)), Mpe.getWindow (Mpe.sweepCfg isF qr true same mpo ids) l r s' =
        some (Mpe.leftEnv (Mpe.sweepCfg isF qr true same mpo ids) k b l, Mpe.rightEnv (Mpe.sweepCfg isF qr true same mpo ids) k b r,
          (List.range' l (r - l)).map k, (List.range' l (r - l)).map b) ∧
      Mpe.Regauged (Mpe.sweepCfg isF qr true same mpo ids) l r s.ket k ∧
      Mpe.Regauged (Mpe.sweepCfg isF qr true same mpo ids) l r (Mpe.braOf (Mpe.sweepCfg isF qr true same mpo ids) s) b ∧ (same = true → b = k) ∧
      FitsOn e f phys mpo.length Z0 s.ket ∧ FitsOn e f phys mpo.length Z k ∧ IsometricOutside e f phys mpo.length Z l r k ∧
      SameState isF e f phys Z0 ((List.range mpo.length).map s.ket) Z ((List.range mpo.length).map k) ∧
      (same = true → ∃ t, Mpe.buildEnvs (Mpe.sweepCfg isF qr true same mpo ids) l r s' = some t ∧ t.ket = k) := by
  obtain ⟨hg, Z0, hm⟩ := h.mixed hqr ho ge gf gp
  obtain ⟨Z1, i1, m1, v1, e1⟩ := (hm.mono (show l ≤ mpo.length by omega) (Nat.zero_le r)).builds hqr ho ge gf gp hlr hr builds
    (hg.inv (show l ≤ (Mpe.sweepCfg isF qr true same mpo ids).n from by show l ≤ mpo.length; omega)) hs'
  have hi' : Mpe.Inv (Mpe.sweepCfg isF qr true false mpo ids) l r { s' with bra := Mpe.braOf (Mpe.sweepCfg isF qr true same mpo ids) s' } :=
    ⟨fun k hk v hv => (i1.left k hk v hv).trans (Mpe.leftEnv_same k).symm,
      fun i hin hir v hv => (i1.right i hin hir v hv).trans (Mpe.rightEnv_same i).symm, i1.far, i1.gapL, i1.gapR⟩
  have hm' : Mixed (Mpe.sweepCfg isF qr true false mpo ids) e f phys Z1 l r { s' with bra := Mpe.braOf (Mpe.sweepCfg isF qr true same mpo ids) s' } :=
    ⟨m1.fits, m1.left, m1.right⟩
  obtain ⟨t, Z2, k1, k2, k3, k4, k5, k6, k7⟩ := hm'.build hqr ho ge gf gp hlr hr hi'
  obtain ⟨a, ha⟩ := Option.isSome_iff_exists.1 k4
  obtain ⟨b, hb⟩ := Option.isSome_iff_exists.1 k5
  refine ⟨t.ket, t.bra, Z0, Z2, ?_, v1.1.trans k6.1.same, v1.2.trans k6.2.same, ?_, hm.fits, k3.fits, k3.outside k2 hr k4 k5, e1.trans k7, ?_⟩
  · have k1' : Mpe.buildEnvs { Mpe.sweepCfg isF qr true same mpo ids with same := false } l r
        { s' with bra := Mpe.braOf (Mpe.sweepCfg isF qr true same mpo ids) s' } = some t := k1
    rw [Mpe.getWindow, k1']
    simp only [Option.bind_some, ha, hb, Option.map_some]
    have e1 : a = Mpe.leftEnv (Mpe.sweepCfg isF qr true same mpo ids) t.ket t.bra l :=
      (k2.left l (Nat.le_refl _) a ha).trans (Mpe.leftEnv_same (c := Mpe.sweepCfg isF qr true same mpo ids) (b := false) l)
    have e2 : b = Mpe.rightEnv (Mpe.sweepCfg isF qr true same mpo ids) t.ket t.bra r :=
      (k2.right r hr (Nat.le_refl _) b hb).trans (Mpe.rightEnv_same (c := Mpe.sweepCfg isF qr true same mpo ids) (b := false) r)
    rw [e1, e2]
  · intro hsame
    subst hsame
    exact build_twin (c := Mpe.sweepCfg isF qr true false mpo ids) rfl rfl k1
  · intro hsame
    subst hsame
    have k1' : Mpe.buildEnvs { Mpe.sweepCfg isF qr true true mpo ids with same := false } l r (Mpe.copyOf s') = some t := k1
    rw [Mpe.buildEnvs_copy rfl] at k1'
    obtain ⟨t0, h1, h2⟩ := Option.map_eq_some_iff.1 k1'
    exact ⟨t0, h1, by rw [← h2]; rfl⟩

end
end Verif
