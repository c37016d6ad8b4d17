import Verif.Proof.LinearStep

/-!
C66: the sweeps of the linear solver (`/repo/pyblock3/algorithms/linear.py` with `multiply` of `/repo/pyblock3/algebra/mpe.py`): a step makes the bra the
best approximation of `operator |ket⟩` among the states that differ from the present bra in the window only.
-/

set_option linter.unusedSectionVars false

namespace Verif
section
variable {Q 𝕜 : Type} [DecidableEq Q] [AddCommGroup Q] [RCLike 𝕜] [DecidableEq 𝕜]

/-- Pythagoras for lists of numbers. -/
theorem list_pythagoras {α : Type} (L : List α) (u d : α → 𝕜) (h : (L.map fun x => star (d x) * u x).sum = 0) :
    (L.map fun x => ‖u x + d x‖ ^ 2).sum = (L.map fun x => ‖u x‖ ^ 2).sum + (L.map fun x => ‖d x‖ ^ 2).sum := by
  have e : ∀ x, ‖u x + d x‖ ^ 2 = ‖u x‖ ^ 2 + ‖d x‖ ^ 2 + 2 * RCLike.re (star (d x) * u x) := by
    intro x
    have := @norm_add_sq 𝕜 𝕜 _ _ _ (d x) (u x)
    rw [add_comm, this, RCLike.inner_apply, mul_comm (u x)]
    have h2 : (starRingEnd 𝕜) (d x) = star (d x) := rfl
    rw [h2]
    ring
  have hs : ∀ (f g k : α → ℝ), (L.map fun x => f x + g x + 2 * k x).sum = (L.map f).sum + (L.map g).sum + 2 * (L.map k).sum := by
    intro f g k
    clear h
    induction L with
    | nil => simp
    | cons a L ih =>
      simp only [List.map_cons, List.sum_cons, ih]
      ring
  have hre : (L.map fun x => RCLike.re (star (d x) * u x)).sum = RCLike.re ((L.map fun x => star (d x) * u x).sum) := by
    clear h hs
    induction L with
    | nil => simp
    | cons a L ih => simp only [List.map_cons, List.sum_cons, ih, map_add]
  simp only [e]
  rw [hs, hre, h]
  simp

theorem list_sum_sub {α : Type} (L : List α) (f g : α → 𝕜) : (L.map fun x => f x - g x).sum = (L.map f).sum - (L.map g).sum := by
  induction L with
  | nil => simp
  | cons a L ih =>
    simp only [List.map_cons, List.sum_cons, ih]
    ring

theorem sum_star_self {α : Type} (L : List α) (A : α → 𝕜) : (L.map fun x => star (A x) * A x).sum = (((L.map fun x => ‖A x‖ ^ 2).sum : ℝ) : 𝕜) := by
  induction L with
  | nil => simp
  | cons a L ih =>
    simp only [List.map_cons, List.sum_cons, ih, RCLike.ofReal_add]
    congr 1
    rw [RCLike.ofReal_pow, ← RCLike.conj_mul]
    rfl

theorem sandwich_opOnState {isF : Q → Bool} {phys : List (List (BondInfo Q) × List (BondInfo Q))} {qb qk : Q} {X Y Z : List (BondInfo Q)} {ws : List (OpT Q 𝕜)}
    {bs ks : List (SpT Q 𝕜)} (σ : 𝕜) : σ * sandwich isF phys Y X Z bs ws ks false (0, 0) (0, 0) (0, 0) (qb, 0) (0, 0) (qk, 0) =
      ((cart (phys.map fun ph => legIndices ph.1)).map fun us => star (braState qb Y bs us) * (σ * opOnState isF phys qk X Z ws ks us)).sum := by
  unfold sandwich
  rw [← sum_map_mul_left']
  refine sum_map_congr' _ _ _ fun us _ => ?_
  unfold opOnState braState
  rw [← sum_map_mul_left', ← sum_map_mul_left', ← sum_map_mul_left']
  exact sum_map_congr' _ _ _ fun ds _ => by ring

theorem innerProduct_braState {phys : List (List (BondInfo Q) × List (BondInfo Q))} {qb : Q} {Y Y' : List (BondInfo Q)} {bs bs' : List (SpT Q 𝕜)} :
    innerProduct [(0, 1)] [(qb, 1)] (phys.map Prod.fst) (ampl bs Y) (ampl bs' Y') =
      ((cart (phys.map fun ph => legIndices ph.1)).map fun us => star (braState qb Y bs us) * braState qb Y' bs' us).sum := by
  rw [innerProduct_edges, List.map_map]
  rfl

theorem opOnState_congr {isF : Q → Bool} {phys : List (List (BondInfo Q) × List (BondInfo Q))} {qk : Q} {X Z Z' : List (BondInfo Q)} {ws : List (OpT Q 𝕜)}
    {ks ks' : List (SpT Q 𝕜)} (h : ∀ ds ∈ cart (phys.map fun ph => legIndices ph.2), ampl ks' Z' (0, 0) ds (qk, 0) = ampl ks Z (0, 0) ds (qk, 0)) :
    opOnState isF phys qk X Z' ws ks' = opOnState isF phys qk X Z ws ks := by
  funext us
  unfold opOnState
  exact sum_map_congr' _ _ _ fun ds hd => by rw [h ds hd]

theorem lengthSq_congr {phys : List (List (BondInfo Q) × List (BondInfo Q))} {f g : List (List (Q × Nat)) → 𝕜}
    (h : ∀ us ∈ cart (phys.map fun ph => legIndices ph.1), f us = g us) : lengthSq phys f = lengthSq phys g := by
  unfold lengthSq
  exact congrArg List.sum (List.map_congr_left fun us hu => by rw [h us hu])

theorem lengthSq_nonneg (phys : List (List (BondInfo Q) × List (BondInfo Q))) (f : List (List (Q × Nat)) → 𝕜) : 0 ≤ lengthSq phys f := by
  unfold lengthSq
  refine List.sum_nonneg fun x hx => ?_
  obtain ⟨us, -, rfl⟩ := List.mem_map.1 hx
  positivity

theorem linear_core {isF : Q → Bool} {le : Q → Q → Bool} {ids : Mpe.Idents Q 𝕜} {qb qk : Q} {dq : Option Q} (hI : IdentsFor isF qb qk dq ids) {mpo : Mpo Q 𝕜}
    {X Y Z : List (BondInfo Q)} {phys : List (List (BondInfo Q) × List (BondInfo Q))} {l r : Nat} {b k : Nat → SpT Q 𝕜} {o : Mpo Q 𝕜} {T : SpT Q 𝕜}
    (hP : PairProblem isF le phys qb qk dq X Z mpo l r b k Y o T) {τ : List (List (Q × Nat)) → 𝕜}
    (hτ : τ = fun us => paritySign 𝕜 (isF (dq.getD 0) && isF qk) * opOnState isF phys qk X Z mpo.tensors ((List.range mpo.tensors.length).map k) us)
    {w : ℝ} {V : SpT Q 𝕜} (hm : Mpe.multiply isF le o ⟨[T], 0⟩ = some (w, ⟨[V], 0⟩)) {b' : Nat → SpT Q 𝕜} {Y' : List (BondInfo Q)}
    (hb : WindowBra isF phys qb mpo.tensors.length l r b Y b' Y') (hV : MergesTo ids l r b' V) :
    0 ≤ w ∧ w ^ 2 = lengthSq phys (braState qb Y' ((List.range mpo.tensors.length).map b')) ∧
      lengthSq phys τ = w ^ 2 + lengthSq phys (τ - braState qb Y' ((List.range mpo.tensors.length).map b')) ∧
      ∀ (b'' : Nat → SpT Q 𝕜) (Y'' : List (BondInfo Q)), WindowBra isF phys qb mpo.tensors.length l r b Y b'' Y'' →
        lengthSq phys (τ - braState qb Y'' ((List.range mpo.tensors.length).map b'')) =
          lengthSq phys (τ - braState qb Y' ((List.range mpo.tensors.length).map b')) +
          lengthSq phys (braState qb Y' ((List.range mpo.tensors.length).map b') - braState qb Y'' ((List.range mpo.tensors.length).map b'')) := by
  subst hτ
  unfold Mpe.multiply at hm
  obtain ⟨v, h1, h2⟩ := Option.bind_eq_some_iff.1 hm
  obtain ⟨d, h3, h4⟩ := Option.map_eq_some_iff.1 h2
  obtain ⟨rfl, rfl⟩ : Real.sqrt (RCLike.re d) = w ∧ v = ⟨[V], 0⟩ := by simpa using h4
  obtain ⟨g1, g2, g3, g4⟩ := hb
  obtain ⟨m', B, c1, c2, -, c4⟩ := hP.all g1 g2 g3 g4
  obtain ⟨e1, e2⟩ := c4 V h1
  obtain ⟨e3, e4⟩ := e2 (hV m' B (by rw [hI.lBra, hI.rBra]; exact c1) c2)
  have e5 := e4 g1 g2 g3 g4
  rw [h3, e1] at e3
  have e6 : d = ((lengthSq phys (braState qb Y' ((List.range mpo.tensors.length).map b')) : ℝ) : 𝕜) := by
    rw [Option.some.inj e3, e5, innerProduct_braState, sum_star_self]
    rfl
  have n0 := lengthSq_nonneg phys (braState qb Y' ((List.range mpo.tensors.length).map b'))
  have hw : Real.sqrt (RCLike.re d) ^ 2 = lengthSq phys (braState qb Y' ((List.range mpo.tensors.length).map b')) := by
    rw [e6, RCLike.ofReal_re, Real.sq_sqrt n0]
  have orth : ∀ {b'' : Nat → SpT Q 𝕜} {Y'' : List (BondInfo Q)}, WindowBra isF phys qb mpo.tensors.length l r b Y b'' Y'' →
      ((cart (phys.map fun ph => legIndices ph.1)).map fun us => star (braState qb Y'' ((List.range mpo.tensors.length).map b'') us) *
        (paritySign 𝕜 (isF (dq.getD 0) && isF qk) * opOnState isF phys qk X Z mpo.tensors ((List.range mpo.tensors.length).map k) us -
          braState qb Y' ((List.range mpo.tensors.length).map b') us)).sum = 0 := by
    intro b'' Y'' hb2
    have := e4 hb2.1 hb2.2.1 hb2.2.2.1 hb2.2.2.2
    rw [sandwich_opOnState, innerProduct_braState] at this
    simp only [mul_sub]
    rw [list_sum_sub, this, sub_self]
  refine ⟨Real.sqrt_nonneg _, hw, ?_, ?_⟩
  · rw [hw]
    have := list_pythagoras _ _ _ (orth ⟨g1, g2, g3, g4⟩)
    simp only [sub_add_cancel] at this
    rw [add_comm]
    exact this
  · intro b'' Y'' hb2
    have := list_pythagoras (cart (phys.map fun ph => legIndices ph.1)) (fun us => paritySign 𝕜 (isF (dq.getD 0) && isF qk) *
        opOnState isF phys qk X Z mpo.tensors ((List.range mpo.tensors.length).map k) us - braState qb Y' ((List.range mpo.tensors.length).map b') us)
      (fun us => braState qb Y' ((List.range mpo.tensors.length).map b') us - braState qb Y'' ((List.range mpo.tensors.length).map b'') us) (by
        simp only [star_sub, sub_mul]
        rw [list_sum_sub, orth ⟨g1, g2, g3, g4⟩, orth hb2, sub_self])
    simp only [sub_add_sub_cancel] at this
    exact this

/-- **C66**: one step.  An object for a bra and a different ket, an operator without constant, canonicalisation switched on.  Whatever windows of one or two
sites have been treated since, if the present bra and ket are not zero, `mpe[l:r]` gives a local problem, the ket merges to one tensor, and for `τ`, the
vector `operator |ket⟩` (with a sign that is `-1` only if the operator changes the fermion parity and the ket has an odd number of fermions):

* if `multiply` reports the norm `w` and a bra, then every bra `b'` that agrees with the present one outside the window (`t.bra`, the tensors after
  `build_envs`) and merges to that tensor has length `w` and is the best approximation of `τ` among all bras that agree with the present one outside the
  window: the squared distance of any other from `τ` is that of `b'` plus the squared distance from `b'`.  So the distance from `τ` is not larger than
  before, and `w ^ 2` plus the squared distance is the squared length of `τ`;
* the tensors `t.bra` stand for the same state as those of the present bra;
* if `multiply` raises, `τ` is orthogonal to all bras that agree with the present one outside the window. -/
theorem C66_step {isF : Q → Bool} (h0 : isF 0 = false) (le : Q → Q → Bool) {qr : Arr 𝕜 → Arr 𝕜 × Arr 𝕜} (hqr : Factorises qr) (ho : OrthonormalColumns qr)
    {qb qk : Q} {dq : Option Q} {bra0 ket0 : Nat → SpT Q 𝕜} {mpo : Mpo Q 𝕜} {X Y0 Z0 : List (BondInfo Q)} {phys : List (List (BondInfo Q) × List (BondInfo Q))}
    (hop : OpOnBonds isF ([(0, 1)] :: X ++ [[(0, 1)]]) phys mpo.tensors) (gX : ∀ b ∈ X, GoodBond b)
    (gp : ∀ ph ∈ phys, ph.1 ≠ [] ∧ ph.1.length = ph.2.length ∧ ∀ c ∈ ph.1 ++ ph.2, GoodBond c)
    (hB0 : FitsOn [(0, 1)] [(qb, 1)] (phys.map Prod.fst) mpo.tensors.length Y0 bra0) (hF0 : FitsOn [(0, 1)] [(qk, 1)] (phys.map Prod.snd) mpo.tensors.length Z0 ket0)
    (eb0 : ∀ i < mpo.tensors.length, EvenBlocks isF (bra0 i) ∧ bra0 i ≠ []) (ek0 : ∀ i < mpo.tensors.length, EvenBlocks isF (ket0 i) ∧ ket0 i ≠ [])
    (hd : qb - qk = dq.getD 0) (hp : isF (dq.getD 0) = xor (isF qb) (isF qk)) (hc : mpo.const = 0) :
    ∃ ids, Mpe.initIdents isF le ((List.range mpo.tensors.length).map bra0) mpo.tensors ((List.range mpo.tensors.length).map ket0) dq = some ids ∧
      ∀ (s s' : Mpe.Sys (SpT Q 𝕜) (Option (OpT Q 𝕜))) (l r builds : Nat) (Y Z : List (BondInfo Q)) (τ : List (List (Q × Nat)) → 𝕜),
        TwoRun (Mpe.sweepCfg isF qr true false mpo.tensors ids) [(0, 1)] [(qb, 1)] [(qk, 1)] (phys.map Prod.fst) (phys.map Prod.snd) s →
        l < r → r ≤ l + 2 → r ≤ mpo.tensors.length → (∀ i < mpo.tensors.length, EvenBlocks isF (s.bra i) ∧ EvenBlocks isF (s.ket i)) →
        (List.replicate builds ()).foldlM (fun s _ => Mpe.buildEnvs (Mpe.sweepCfg isF qr true false mpo.tensors ids) l r s) s = some s' →
        FitsOn [(0, 1)] [(qb, 1)] (phys.map Prod.fst) mpo.tensors.length Y s.bra → FitsOn [(0, 1)] [(qk, 1)] (phys.map Prod.snd) mpo.tensors.length Z s.ket →
        NonZero (phys.map Prod.fst) Y ((List.range mpo.tensors.length).map s.bra) (0, 0) (qb, 0) →
        NonZero (phys.map Prod.snd) Z ((List.range mpo.tensors.length).map s.ket) (0, 0) (qk, 0) →
        (τ = fun us => paritySign 𝕜 (isF (dq.getD 0) && isF qk) * opOnState isF phys qk X Z mpo.tensors ((List.range mpo.tensors.length).map s.ket) us) →
        ∃ t bra o ket T, Mpe.buildEnvs (Mpe.sweepCfg isF qr true false mpo.tensors ids) l r s' = some t ∧
          Mpe.effective isF qr true false mpo ids l r s' = some (bra, o, ket) ∧ ket.merge = some ⟨[T], 0⟩ ∧
          (∃ Yk, FitsOn [(0, 1)] [(qb, 1)] (phys.map Prod.fst) mpo.tensors.length Yk t.bra ∧
            IsometricOutside [(0, 1)] [(qb, 1)] (phys.map Prod.fst) mpo.tensors.length Yk l r t.bra) ∧
          ∀ Yk, FitsOn [(0, 1)] [(qb, 1)] (phys.map Prod.fst) mpo.tensors.length Yk t.bra →
            IsometricOutside [(0, 1)] [(qb, 1)] (phys.map Prod.fst) mpo.tensors.length Yk l r t.bra →
            (∀ us ∈ cart (phys.map fun ph => legIndices ph.1), braState qb Yk ((List.range mpo.tensors.length).map t.bra) us =
              braState qb Y ((List.range mpo.tensors.length).map s.bra) us) ∧
            (Mpe.multiply isF le o ⟨[T], 0⟩ = none → ∀ b' Y', WindowBra isF phys qb mpo.tensors.length l r t.bra Yk b' Y' →
              lengthSq phys (τ - braState qb Y' ((List.range mpo.tensors.length).map b')) =
                lengthSq phys τ + lengthSq phys (braState qb Y' ((List.range mpo.tensors.length).map b'))) ∧
            ∀ w R, Mpe.multiply isF le o ⟨[T], 0⟩ = some (w, R) → ∃ V, R = ⟨[V], 0⟩ ∧ UniqueLabels V ∧
              Conforms ([(0, 1)] :: windowLegs [(0, 1)] [(qb, 1)] Yk (phys.map Prod.fst) l r ++ [[(0, 1)]]) V ∧
              ∀ b' Y', WindowBra isF phys qb mpo.tensors.length l r t.bra Yk b' Y' → MergesTo ids l r b' V →
                0 ≤ w ∧ w ^ 2 = lengthSq phys (braState qb Y' ((List.range mpo.tensors.length).map b')) ∧
                lengthSq phys τ = w ^ 2 + lengthSq phys (τ - braState qb Y' ((List.range mpo.tensors.length).map b')) ∧
                (∀ b'' Y'', WindowBra isF phys qb mpo.tensors.length l r t.bra Yk b'' Y'' →
                  lengthSq phys (τ - braState qb Y'' ((List.range mpo.tensors.length).map b'')) =
                    lengthSq phys (τ - braState qb Y' ((List.range mpo.tensors.length).map b')) +
                    lengthSq phys (braState qb Y' ((List.range mpo.tensors.length).map b') - braState qb Y'' ((List.range mpo.tensors.length).map b''))) ∧
                lengthSq phys (τ - braState qb Y' ((List.range mpo.tensors.length).map b')) ≤
                  lengthSq phys (τ - braState qb Y ((List.range mpo.tensors.length).map s.bra)) := by
  have net0 := FitsOn.networkPair hop gX gp hB0 hF0 (fun i hi => (eb0 i hi).1) fun i hi => (ek0 i hi).1
  have hne : ∀ T ∈ (List.range mpo.tensors.length).map bra0 ++ (List.range mpo.tensors.length).map ket0, T ≠ [] := by
    intro T hT
    rcases List.mem_append.1 hT with hT | hT
    · obtain ⟨i, hi, rfl⟩ := List.mem_map.1 hT
      exact (eb0 i (List.mem_range.1 hi)).2
    · obtain ⟨i, hi, rfl⟩ := List.mem_map.1 hT
      exact (ek0 i (List.mem_range.1 hi)).2
  obtain ⟨ids, hids, hI⟩ := idents_network h0 le net0 hne hd hp
  refine ⟨ids, hids, ?_⟩
  intro s s' l r builds Y Z τ hrun hlr hr2 hr hes hs' hY hZ nb nk hτ
  have gpb : ∀ ph ∈ phys.map Prod.fst, ∀ c ∈ ph, GoodBond c := by
    intro ph hph c hc
    obtain ⟨p, hp, rfl⟩ := List.mem_map.1 hph
    exact (gp p hp).2.2 c (by simp [hc])
  have gpk : ∀ ph ∈ phys.map Prod.snd, ∀ c ∈ ph, GoodBond c := by
    intro ph hph c hc
    obtain ⟨p, hp, rfl⟩ := List.mem_map.1 hph
    exact (gp p hp).2.2 c (by simp [hc])
  obtain ⟨t, Z1, Zk, Y1, Yk, a1, a2, a3, a4, a5, a6, a7, a8, a9⟩ := hrun.window hqr ho (goodBond_one 0) (goodBond_one qb) (goodBond_one qk) gpb gpk hlr hr hs'
  have eZ := normValue_bonds hZ a3
  have eY := normValue_bonds hY a6
  have ev : ∀ {f : Nat → SpT Q 𝕜}, (∀ i < mpo.tensors.length, EvenBlocks isF (f i)) → ∀ T ∈ (List.range mpo.tensors.length).map f, EvenBlocks isF T := by
    intro f hf T hT
    obtain ⟨i, hi, rfl⟩ := List.mem_map.1 hT
    exact hf i (List.mem_range.1 hi)
  have ebt : ∀ i < mpo.tensors.length, EvenBlocks isF (t.bra i) := fun i hi =>
    a9.even (ev fun i hi => (hes i hi).1) _ (List.mem_map_of_mem (List.mem_range.2 hi))
  have ekt : ∀ i < mpo.tensors.length, EvenBlocks isF (t.ket i) := fun i hi =>
    a5.even (ev fun i hi => (hes i hi).2) _ (List.mem_map_of_mem (List.mem_range.2 hi))
  have nz : ∀ {p : List (List (BondInfo Q))} {q : Q} {A A' : List (BondInfo Q)} {ts : List (SpT Q 𝕜)}, ampl ts A = ampl ts A' → NonZero p A ts (0, 0) (q, 0) →
      NonZero p A' ts (0, 0) (q, 0) := by
    rintro p q A A' ts e ⟨us, hu, h⟩
    exact ⟨us, hu, by rw [← e]; exact h⟩
  have hfull : ∀ i < mpo.tensors.length, t.bra i ≠ [] ∧ t.ket i ≠ [] := fun i hi =>
    ⟨a9.full (nz eY nb) _ (List.mem_map_of_mem (List.mem_range.2 hi)), a5.full (nz eZ nk) _ (List.mem_map_of_mem (List.mem_range.2 hi))⟩
  obtain ⟨bra, o, ket, T, c1, c2, c3⟩ := pair_problem h0 le hI hop gX gp hc a7 a8 a4 ebt ekt hlr hr2 hr hfull a2
  have hτ' : τ = fun us => paritySign 𝕜 (isF (dq.getD 0) && isF qk) * opOnState isF phys qk X Zk mpo.tensors ((List.range mpo.tensors.length).map t.ket) us := by
    rw [hτ]
    have : opOnState isF phys qk X Zk mpo.tensors ((List.range mpo.tensors.length).map t.ket) =
        opOnState isF phys qk X Z mpo.tensors ((List.range mpo.tensors.length).map s.ket) := opOnState_congr fun ds hd => by
      rw [eZ]
      refine a5.ampl _ _ _ (cart_lengths ?_)
      rw [List.map_map]
      exact hd
    rw [this]
  refine ⟨t, bra, o, ket, T, a1, c1, c2, ⟨Yk, a7, a8⟩, ?_⟩
  intro Yj gj gi
  have hP := c3 Yj gj gi
  have e1 : ∀ us ∈ cart (phys.map fun ph => legIndices ph.1), braState qb Yj ((List.range mpo.tensors.length).map t.bra) us =
      braState qb Y ((List.range mpo.tensors.length).map s.bra) us := by
    intro us hu
    unfold braState
    rw [normValue_bonds gj a7, eY]
    refine a9.ampl _ _ _ (cart_lengths ?_)
    rw [List.map_map]
    exact hu
  refine ⟨e1, ?_, ?_⟩
  · intro hn b' Y' hb
    have hn' : Mps.applyOne isF le o ⟨[T], 0⟩ = none := by
      rcases hP.form with h | ⟨V, h1, h2, -⟩
      · exact h
      · obtain ⟨d, hd⟩ := Option.isSome_iff_exists.1 h2
        unfold Mpe.multiply at hn
        rw [h1, Option.bind_some, hd] at hn
        cases hn
    obtain ⟨m', B, -, -, hz, -⟩ := hP.all hb.1 hb.2.1 hb.2.2.1 hb.2.2.2
    have h2 := hz hn'
    rw [sandwich_opOnState] at h2
    have := list_pythagoras (cart (phys.map fun ph => legIndices ph.1)) τ (fun us => -braState qb Y' ((List.range mpo.tensors.length).map b') us) (by
      rw [hτ']
      simp only [star_neg, neg_mul]
      have hneg := list_sum_sub (cart (phys.map fun ph => legIndices ph.1)) (fun _ => (0 : 𝕜)) (fun us => star (braState qb Y' ((List.range mpo.tensors.length).map b') us) *
        (paritySign 𝕜 (isF (dq.getD 0) && isF qk) * opOnState isF phys qk X Zk mpo.tensors ((List.range mpo.tensors.length).map t.ket) us))
      simp only [zero_sub] at hneg
      rw [hneg, h2]
      simp)
    simp only [norm_neg, ← sub_eq_add_neg] at this
    exact this
  · intro w R hm
    obtain ⟨V, rfl, u1, u2⟩ : ∃ V, R = ⟨[V], 0⟩ ∧ UniqueLabels V ∧
        Conforms ([(0, 1)] :: windowLegs [(0, 1)] [(qb, 1)] Yj (phys.map Prod.fst) l r ++ [[(0, 1)]]) V := by
      unfold Mpe.multiply at hm
      obtain ⟨v, h1, h2⟩ := Option.bind_eq_some_iff.1 hm
      obtain ⟨d, -, h4⟩ := Option.map_eq_some_iff.1 h2
      rcases hP.form with h | ⟨V, h, -, u1, u2⟩
      · rw [h] at h1; cases h1
      · rw [h] at h1
        obtain rfl := Option.some.inj h1
        exact ⟨V, (Prod.ext_iff.1 h4).2.symm, u1, u2⟩
    refine ⟨V, rfl, u1, u2, ?_⟩
    intro b' Y' hb hV
    obtain ⟨q1, q2, q3, q4⟩ := linear_core hI hP hτ' hm hb hV
    refine ⟨q1, q2, q3, q4, ?_⟩
    have h5 := q4 t.bra Yj ⟨fun _ _ => rfl, fun _ _ => rfl, gj, ebt⟩
    have h6 : lengthSq phys (τ - braState qb Y ((List.range mpo.tensors.length).map s.bra)) =
        lengthSq phys (τ - braState qb Yj ((List.range mpo.tensors.length).map t.bra)) := lengthSq_congr fun us hu => by
      simp only [Pi.sub_apply, e1 us hu]
    rw [h6, h5]
    linarith [lengthSq_nonneg phys (braState qb Y' ((List.range mpo.tensors.length).map b') - braState qb Yj ((List.range mpo.tensors.length).map t.bra))]

theorem nonZero_of_length {phys : List (List (BondInfo Q) × List (BondInfo Q))} {qb : Q} {Y : List (BondInfo Q)} {bs : List (SpT Q 𝕜)}
    (h : lengthSq phys (braState qb Y bs) ≠ 0) : NonZero (phys.map Prod.fst) Y bs (0, 0) (qb, 0) := by
  by_contra hn
  refine h ?_
  unfold lengthSq
  refine List.sum_eq_zero fun x hx => ?_
  obtain ⟨us, hu, rfl⟩ := List.mem_map.1 hx
  have : braState qb Y bs us = 0 := by
    by_contra h'
    refine hn ⟨us, ?_, h'⟩
    refine cart_lengths ?_
    rw [List.map_map]
    exact hu
  rw [this]
  simp

/-- What stays true during a sweep. -/
theorem linear_inv {isF : Q → Bool} (h0 : isF 0 = false) (le : Q → Q → Bool) {qr : Arr 𝕜 → Arr 𝕜 × Arr 𝕜} (hqr : Factorises qr) (ho : OrthonormalColumns qr)
    {qb qk : Q} {dq : Option Q} {bra0 ket0 : Nat → SpT Q 𝕜} {mpo : Mpo Q 𝕜} {X Y0 Z0 : List (BondInfo Q)} {phys : List (List (BondInfo Q) × List (BondInfo Q))}
    (hop : OpOnBonds isF ([(0, 1)] :: X ++ [[(0, 1)]]) phys mpo.tensors) (gX : ∀ b ∈ X, GoodBond b)
    (gp : ∀ ph ∈ phys, ph.1 ≠ [] ∧ ph.1.length = ph.2.length ∧ ∀ c ∈ ph.1 ++ ph.2, GoodBond c)
    (hB0 : FitsOn [(0, 1)] [(qb, 1)] (phys.map Prod.fst) mpo.tensors.length Y0 bra0) (hF0 : FitsOn [(0, 1)] [(qk, 1)] (phys.map Prod.snd) mpo.tensors.length Z0 ket0)
    (eb0 : ∀ i < mpo.tensors.length, EvenBlocks isF (bra0 i) ∧ bra0 i ≠ []) (ek0 : ∀ i < mpo.tensors.length, EvenBlocks isF (ket0 i) ∧ ket0 i ≠ [])
    (hd : qb - qk = dq.getD 0) (hp : isF (dq.getD 0) = xor (isF qb) (isF qk)) (hc : mpo.const = 0)
    (nb0 : NonZero (phys.map Prod.fst) Y0 ((List.range mpo.tensors.length).map bra0) (0, 0) (qb, 0))
    (nk0 : NonZero (phys.map Prod.snd) Z0 ((List.range mpo.tensors.length).map ket0) (0, 0) (qk, 0)) {τ : List (List (Q × Nat)) → 𝕜}
    (hτ : τ = fun us => paritySign 𝕜 (isF (dq.getD 0) && isF qk) * opOnState isF phys qk X Z0 mpo.tensors ((List.range mpo.tensors.length).map ket0) us) :
    ∃ ids, Mpe.initIdents isF le ((List.range mpo.tensors.length).map bra0) mpo.tensors ((List.range mpo.tensors.length).map ket0) dq = some ids ∧
      ∀ (s : Mpe.Sys (SpT Q 𝕜) (Option (OpT Q 𝕜))) (ws : List ℝ), LinearRun isF le qr mpo ids qb qk phys bra0 ket0 s ws →
        TwoRun (Mpe.sweepCfg isF qr true false mpo.tensors ids) [(0, 1)] [(qb, 1)] [(qk, 1)] (phys.map Prod.fst) (phys.map Prod.snd) s ∧
        (∀ i < mpo.tensors.length, EvenBlocks isF (s.bra i) ∧ EvenBlocks isF (s.ket i)) ∧
        (∃ Z, FitsOn [(0, 1)] [(qk, 1)] (phys.map Prod.snd) mpo.tensors.length Z s.ket ∧
          NonZero (phys.map Prod.snd) Z ((List.range mpo.tensors.length).map s.ket) (0, 0) (qk, 0) ∧
          τ = fun us => paritySign 𝕜 (isF (dq.getD 0) && isF qk) * opOnState isF phys qk X Z mpo.tensors ((List.range mpo.tensors.length).map s.ket) us) ∧
        ws.Pairwise (· ≥ ·) ∧ (∀ w ∈ ws, 0 < w ∧ w ^ 2 ≤ lengthSq phys τ ∧ w ≤ ws.headD 0) ∧
        ∃ Y, FitsOn [(0, 1)] [(qb, 1)] (phys.map Prod.fst) mpo.tensors.length Y s.bra ∧
          NonZero (phys.map Prod.fst) Y ((List.range mpo.tensors.length).map s.bra) (0, 0) (qb, 0) ∧
          lengthSq phys (τ - braState qb Y ((List.range mpo.tensors.length).map s.bra)) ≤
            lengthSq phys (τ - braState qb Y0 ((List.range mpo.tensors.length).map bra0)) ∧
          (ws ≠ [] → lengthSq phys (braState qb Y ((List.range mpo.tensors.length).map s.bra)) = (ws.headD 0) ^ 2 ∧
            lengthSq phys τ = (ws.headD 0) ^ 2 + lengthSq phys (τ - braState qb Y ((List.range mpo.tensors.length).map s.bra))) := by
  obtain ⟨ids, hids, hall⟩ := C66_step h0 le hqr ho hop gX gp hB0 hF0 eb0 ek0 hd hp hc
  refine ⟨ids, hids, ?_⟩
  intro s ws hrun
  induction hrun with
  | new =>
    exact ⟨.new hB0 hF0, fun i hi => ⟨(eb0 i hi).1, (ek0 i hi).1⟩, ⟨Z0, hF0, nk0, hτ⟩, .nil, by simp, Y0, hB0, nb0, le_refl _, fun h => absurd rfl h⟩
  | @step s s1 s2 t ws w l r builds o bra ket T V kets bras hrun hlr hr2 hr hs1 ht heff hmerge hmul hw0 hkets hbras hmerges hset ih =>
    obtain ⟨i1, i2, ⟨Z, z1, z2, z3⟩, i4, i5, Y, y1, y2, y3, y4⟩ := ih
    obtain ⟨t', bra', o', ket', T', a1, a2, a3, ⟨Yk, k1, k2⟩, a4⟩ := hall s s1 l r builds Y Z τ i1 hlr hr2 hr i2 hs1 y1 z1 y2 z2 z3
    rw [ht] at a1
    obtain rfl := Option.some.inj a1
    rw [heff] at a2
    obtain ⟨rfl, rfl, rfl⟩ : bra = bra' ∧ o = o' ∧ ket = ket' := by simpa using a2
    rw [hmerge] at a3
    obtain rfl : T = T' := by simpa using a3
    obtain ⟨V', e, -, -, b1⟩ := (a4 Yk k1 k2).2.2 w _ hmul
    obtain rfl : V = V' := by simpa using e
    obtain ⟨Y', hY'⟩ := hbras Yk k1 k2
    obtain ⟨c1, c2, c3, -, c5⟩ := b1 _ Y' hY' hmerges
    have gpb : ∀ ph ∈ phys.map Prod.fst, ∀ c ∈ ph, GoodBond c := by
      intro ph hph c hc
      obtain ⟨p, hp, rfl⟩ := List.mem_map.1 hph
      exact (gp p hp).2.2 c (by simp [hc])
    have gpk : ∀ ph ∈ phys.map Prod.snd, ∀ c ∈ ph, GoodBond c := by
      intro ph hph c hc
      obtain ⟨p, hp, rfl⟩ := List.mem_map.1 hph
      exact (gp p hp).2.2 c (by simp [hc])
    obtain ⟨t', Z1, Zk, Y1, Yk', d1, -, d3, d4, d5, -⟩ := i1.window hqr ho (goodBond_one 0) (goodBond_one qb) (goodBond_one qk) gpb gpk hlr hr hs1
    rw [ht] at d1
    obtain rfl := Option.some.inj d1
    have hs2 : s2.ket = t.ket ∧ s2.bra = Mpe.setRange t.bra l r bras := by
      unfold Mpe.setWindow at hset
      rw [ht] at hset
      obtain rfl := Option.some.inj hset
      exact ⟨hkets, rfl⟩
    have eZ := normValue_bonds z1 d3
    have ev : ∀ i < mpo.tensors.length, EvenBlocks isF (t.ket i) := fun i hi => d5.even (by
      intro T hT
      obtain ⟨i, hi, rfl⟩ := List.mem_map.1 hT
      exact (i2 i (List.mem_range.1 hi)).2) _ (List.mem_map_of_mem (List.mem_range.2 hi))
    have hpos : 0 < w := lt_of_le_of_ne c1 hw0.symm
    have hmono : ws ≠ [] → ws.headD 0 ≤ w := by
      intro hne
      obtain ⟨-, e2⟩ := y4 hne
      have hh : 0 < ws.headD 0 := by
        rcases ws with _ | ⟨x, xs⟩
        · exact absurd rfl hne
        · exact (i5 x (by simp)).1
      refine le_of_sq_le_sq ?_ hpos.le
      linarith
    refine ⟨.round l r builds kets bras i1 hlr hr hs1 ht ?_ ?_ hset, ?_, ⟨Zk, ?_, ?_, ?_⟩, ?_, ?_, Y', ?_, ?_, ?_, ?_⟩
    · intro Z' hZ' _
      exact ⟨Z', fun _ _ => rfl, by rw [hkets]; exact hZ'⟩
    · intro Y1 f1 f2
      obtain ⟨Y2, g⟩ := hbras Y1 f1 f2
      exact ⟨Y2, g.2.1, g.2.2.1⟩
    · intro i hi
      rw [hs2.1, hs2.2]
      exact ⟨hY'.2.2.2 i hi, ev i hi⟩
    · rw [hs2.1]; exact d4
    · obtain ⟨us, hu, hne⟩ := z2
      refine ⟨us, hu, ?_⟩
      rw [hs2.1, d5.ampl _ _ _ hu, ← eZ]
      exact hne
    · rw [z3, hs2.1]
      have : opOnState isF phys qk X Zk mpo.tensors ((List.range mpo.tensors.length).map t.ket) =
          opOnState isF phys qk X Z mpo.tensors ((List.range mpo.tensors.length).map s.ket) := opOnState_congr fun ds hd => by
        rw [eZ]
        refine d5.ampl _ _ _ (cart_lengths ?_)
        rw [List.map_map]
        exact hd
      rw [this]
    · refine List.pairwise_cons.2 ⟨fun x hx => ?_, i4⟩
      exact (i5 x hx).2.2.trans (hmono (List.ne_nil_of_mem hx))
    · intro x hx
      rcases List.mem_cons.1 hx with rfl | hx
      · refine ⟨hpos, ?_, le_refl _⟩
        rw [c3]
        linarith [lengthSq_nonneg phys (τ - braState qb Y' ((List.range mpo.tensors.length).map (Mpe.setRange t.bra l r bras)))]
      · exact ⟨(i5 x hx).1, (i5 x hx).2.1, (i5 x hx).2.2.trans (hmono (List.ne_nil_of_mem hx))⟩
    · rw [hs2.2]; exact hY'.2.2.1
    · rw [hs2.2]
      refine nonZero_of_length ?_
      rw [← c2]
      positivity
    · rw [hs2.2]; exact c5.trans y3
    · intro _
      rw [hs2.2]
      exact ⟨c2.symm, c3⟩

/-- **C66**: a whole sweep.  The norms reported never go down from one step to the next, none exceeds the length of `τ`, the vector `operator |ket⟩` (up to
a sign), and the bra that is left has as length the norm reported last, is not further from `τ` than the initial bra, and the squares of its length and of
its distance from `τ` add up to the squared length of `τ`. -/
theorem C66_sweep {isF : Q → Bool} (h0 : isF 0 = false) (le : Q → Q → Bool) {qr : Arr 𝕜 → Arr 𝕜 × Arr 𝕜} (hqr : Factorises qr) (ho : OrthonormalColumns qr)
    {qb qk : Q} {dq : Option Q} {bra0 ket0 : Nat → SpT Q 𝕜} {mpo : Mpo Q 𝕜} {X Y0 Z0 : List (BondInfo Q)} {phys : List (List (BondInfo Q) × List (BondInfo Q))}
    (hop : OpOnBonds isF ([(0, 1)] :: X ++ [[(0, 1)]]) phys mpo.tensors) (gX : ∀ b ∈ X, GoodBond b)
    (gp : ∀ ph ∈ phys, ph.1 ≠ [] ∧ ph.1.length = ph.2.length ∧ ∀ c ∈ ph.1 ++ ph.2, GoodBond c)
    (hB0 : FitsOn [(0, 1)] [(qb, 1)] (phys.map Prod.fst) mpo.tensors.length Y0 bra0) (hF0 : FitsOn [(0, 1)] [(qk, 1)] (phys.map Prod.snd) mpo.tensors.length Z0 ket0)
    (eb0 : ∀ i < mpo.tensors.length, EvenBlocks isF (bra0 i) ∧ bra0 i ≠ []) (ek0 : ∀ i < mpo.tensors.length, EvenBlocks isF (ket0 i) ∧ ket0 i ≠ [])
    (hd : qb - qk = dq.getD 0) (hp : isF (dq.getD 0) = xor (isF qb) (isF qk)) (hc : mpo.const = 0)
    (nb0 : NonZero (phys.map Prod.fst) Y0 ((List.range mpo.tensors.length).map bra0) (0, 0) (qb, 0))
    (nk0 : NonZero (phys.map Prod.snd) Z0 ((List.range mpo.tensors.length).map ket0) (0, 0) (qk, 0)) {τ : List (List (Q × Nat)) → 𝕜}
    (hτ : τ = fun us => paritySign 𝕜 (isF (dq.getD 0) && isF qk) * opOnState isF phys qk X Z0 mpo.tensors ((List.range mpo.tensors.length).map ket0) us) :
    ∃ ids, Mpe.initIdents isF le ((List.range mpo.tensors.length).map bra0) mpo.tensors ((List.range mpo.tensors.length).map ket0) dq = some ids ∧
      ∀ (s : Mpe.Sys (SpT Q 𝕜) (Option (OpT Q 𝕜))) (ws : List ℝ), LinearRun isF le qr mpo ids qb qk phys bra0 ket0 s ws →
        ws.Pairwise (· ≥ ·) ∧ (∀ w ∈ ws, 0 < w ∧ w ^ 2 ≤ lengthSq phys τ) ∧
        ∃ Y, FitsOn [(0, 1)] [(qb, 1)] (phys.map Prod.fst) mpo.tensors.length Y s.bra ∧
          lengthSq phys (τ - braState qb Y ((List.range mpo.tensors.length).map s.bra)) ≤
            lengthSq phys (τ - braState qb Y0 ((List.range mpo.tensors.length).map bra0)) ∧
          ∀ w ws', ws = w :: ws' → lengthSq phys (braState qb Y ((List.range mpo.tensors.length).map s.bra)) = w ^ 2 ∧
            lengthSq phys τ = w ^ 2 + lengthSq phys (τ - braState qb Y ((List.range mpo.tensors.length).map s.bra)) := by
  obtain ⟨ids, hids, hall⟩ := linear_inv h0 le hqr ho hop gX gp hB0 hF0 eb0 ek0 hd hp hc nb0 nk0 hτ
  refine ⟨ids, hids, fun s ws hrun => ?_⟩
  obtain ⟨-, -, -, h1, h2, Y, h3, -, h4, h5⟩ := hall s ws hrun
  refine ⟨h1, fun w hw => ⟨(h2 w hw).1, (h2 w hw).2.1⟩, Y, h3, h4, ?_⟩
  rintro w ws' rfl
  exact h5 (by simp)

end
end Verif
