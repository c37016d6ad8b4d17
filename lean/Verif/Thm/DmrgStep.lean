import Verif.Proof.DmrgStep

/-!
C63: DMRG is variational (`/repo/pyblock3/algorithms/dmrg.py` with `/repo/pyblock3/algebra/mpe.py` and `/repo/pyblock3/algebra/linalg.py`): the energy that
a step reports is not above the energy of the state it started from, it is the energy of the state it leaves behind, and it is never below the lowest
eigenvalue.
-/

set_option linter.unusedSectionVars false

namespace Verif
section
variable {Q 𝕜 : Type} [DecidableEq Q] [AddCommGroup Q] [RCLike 𝕜] [DecidableEq 𝕜]

theorem normValue_bonds {e : BondInfo Q} {q : Q} {phys : List (List (BondInfo Q))} {n : Nat} {Z Z' : List (BondInfo Q)} {k : Nat → SpT Q 𝕜}
    (h : FitsOn e [(q, 1)] phys n Z k) (h' : FitsOn e [(q, 1)] phys n Z' k) : ampl ((List.range n).map k) Z = ampl ((List.range n).map k) Z' := by
  funext x ps y
  exact ampl_bonds h.on h'.on (fun b hb => (h.good b hb).1) (fun b hb => (h'.good b hb).1) x y ps

theorem same_values {isF : Q → Bool} {q : Q} {phys : List (List (BondInfo Q))} {X Z Z' : List (BondInfo Q)} {ws : List (OpT Q 𝕜)} {ts ts' : List (SpT Q 𝕜)}
    (h : ∀ us ∈ cart (phys.map legIndices), ampl ts' Z' (0, 0) us (q, 0) = ampl ts Z (0, 0) us (q, 0)) :
    normValue phys q Z' ts' = normValue phys q Z ts ∧ expectValue isF phys q X Z' ws ts' = expectValue isF phys q X Z ws ts := by
  constructor
  · unfold normValue
    rw [innerProduct_edges, innerProduct_edges]
    exact sum_map_congr' _ _ _ fun us hu => by rw [h us hu]
  · unfold expectValue sandwich
    simp only [List.map_map, Function.comp_def]
    exact sum_map_congr' _ _ _ fun us hu => sum_map_congr' _ _ _ fun ds hd => by rw [h us hu, h ds hd]

theorem cart_lengths {phys : List (List (BondInfo Q))} {us : List (List (Q × Nat))} (h : us ∈ cart (phys.map legIndices)) :
    List.Forall₂ (fun (p : List (Q × Nat)) ph => p.length = ph.length) us phys := by
  have := (mem_cart _ _).1 h
  induction phys generalizing us with
  | nil => cases this; exact .nil
  | cons ph phys ih =>
    rw [List.map_cons] at this h
    rcases us with _ | ⟨u, us⟩
    · cases this
    · obtain ⟨h1, h2⟩ := List.forall₂_cons.1 this
      exact .cons (legIndices_length h1) (ih ((mem_cart _ _).2 h2) h2)

/-- Everything about the local problem, with its legs under any name. -/
theorem window_step {isF : Q → Bool} (h0 : isF 0 = false) (le : Q → Q → Bool) {phys : List (List (BondInfo Q))} (gp : ∀ ph ∈ phys, ∀ c ∈ ph, GoodBond c) {q : Q}
    {X : List (BondInfo Q)} {mpo : Mpo Q 𝕜} {l r : Nat} (hlr : l < r) (hr2 : r ≤ l + 2) (hr : r ≤ mpo.tensors.length) {k : Nat → SpT Q 𝕜} {Zk : List (BondInfo Q)}
    {o : Mpo Q 𝕜} {ph0 ph1 : List (BondInfo Q)} {m : BondInfo Q} (hP : WindowProblem isF phys q X mpo l r k Zk o ph0 ph1 m)
    (hH : HermitianOp isF phys X mpo.tensors) (hc : star mpo.const = mpo.const) {legs : List (BondInfo Q)} (hl : ph0 ++ ph1 = legs) :
    (∃ a, LocalMap isF le o legs a) ∧ ∀ a, LocalMap isF le o legs a → a.IsSymmetric ∧
      (∀ b, LocalMap isF le o legs b → b = a) ∧
      (∀ μ : ℝ, BoundedBelow isF phys X mpo.tensors mpo.const μ → ∀ v, μ * ‖v‖ ^ 2 ≤ RCLike.re (inner 𝕜 v (a v))) ∧
      ∀ (k' : Nat → SpT Q 𝕜) (Z' : List (BondInfo Q)), (∀ i, i < l ∨ r ≤ i → k' i = k i) → SameOutside l r Zk Z' →
        FitsOn [(0, 1)] [(q, 1)] phys mpo.tensors.length Z' k' → (∀ i < mpo.tensors.length, EvenBlocks isF (k' i)) →
        ∃ m' T', Mpe.effMps (oneBlock [0]) ((List.range' l (r - l)).map k') (oneBlock [0]) = some m' ∧ m'.merge = some ⟨[T'], 0⟩ ∧
          inner 𝕜 (components isF legs T') (components isF legs T') = normValue phys q Z' ((List.range mpo.tensors.length).map k') ∧
          inner 𝕜 (components isF legs T') (a (components isF legs T')) = expectValue isF phys q X Z' mpo.tensors ((List.range mpo.tensors.length).map k') +
            mpo.const * normValue phys q Z' ((List.range mpo.tensors.length).map k') := by
  subst hl
  have hw : ∀ b ∈ ph0 ++ ph1, Dict.WF b := by
    intro b hb
    rcases List.mem_append.1 hb with hb | hb
    · exact ((hP.legs (ph0, ph0) (by simp)).2.2 b (by simp [hb])).1
    · exact ((hP.legs (ph1, ph1) (by simp)).2.2 b (by simp [hb])).1
  refine ⟨⟨_, (hP.map h0 le gp hlr hr2 hr _).2 rfl⟩, fun a ha => ?_⟩
  obtain rfl := (hP.map h0 le gp hlr hr2 hr a).1 ha
  refine ⟨hP.symmetric h0 gp hlr hr2 hr hH hc, fun b hb => (hP.map h0 le gp hlr hr2 hr b).1 hb, fun μ hμ v => hP.lower h0 gp hlr hr2 hr hμ v, ?_⟩
  intro k' Z' hag hz hF he
  obtain ⟨bra', ket', B, T, d1, d1', d2, d2', d3, d4, d5, d6, -, -, d7, d8⟩ := hP.all (k' := k') (k'' := k') (fun i hi => ⟨hag i hi, hag i hi⟩) hz hz hF hF
    fun i hi => ⟨he i hi, he i hi⟩
  rw [d1] at d1'
  obtain rfl := Option.some.inj d1'
  rw [d2] at d2'
  obtain rfl : B = T := by simpa using d2'
  rw [← hP.eq] at d3
  have e1 : inner 𝕜 (components isF (ph0 ++ ph1) B) (components isF (ph0 ++ ph1) B) = normValue phys q Z' ((List.range mpo.tensors.length).map k') := by
    rw [dot_components h0 hw d3 d3 d4] at d7
    exact Option.some.inj d7
  refine ⟨bra', B, d1, d2, e1, ?_⟩
  rw [sandwichOne_inner h0 hw d4 d4, e1, d8, hP.const]
  rfl

theorem nonZero_of_norm {q : Q} {phys : List (List (BondInfo Q))} {Z : List (BondInfo Q)} {ts : List (SpT Q 𝕜)} (h : normValue phys q Z ts ≠ 0) :
    NonZero phys Z ts (0, 0) (q, 0) := by
  by_contra hn
  refine h ?_
  unfold normValue
  rw [innerProduct_edges]
  refine sum_map_zero' _ _ fun us hu => ?_
  have : ampl ts Z (0, 0) us (q, 0) = 0 := by
    by_contra h'
    exact hn ⟨us, by first | exact hu | exact cart_lengths hu, h'⟩
  rw [this, mul_zero]

/-- **C63**: one step.  An object for one ket and a Hermitian operator with a real constant, canonicalisation switched on.  Whatever windows of one or two
sites have been treated since, if the present state is not zero, `mpe[l:r]` gives a bra, an operator and a ket; the ket merges to one tensor; `operator @
state` is one symmetric map of vectors; and whenever Davidson's method for this map, started from the merged ket, reports an energy and a vector, then

* the energy is not above that of the present state, `⟨ψ|H|ψ⟩ / ⟨ψ|ψ⟩`;
* it is not below any lower bound of `H`;
* every ket that agrees with the present one outside the window (`t.ket`, the tensors after `build_envs`) and merges to that vector has norm 1 and
  exactly the reported energy. -/
theorem C63_step {isF : Q → Bool} (h0 : isF 0 = false) (le : Q → Q → Bool) {qr : Arr 𝕜 → Arr 𝕜 × Arr 𝕜} (hqr : Factorises qr)
    (ho : OrthonormalColumns qr) {q : Q} {dq : Option Q} {ket0 : Nat → SpT Q 𝕜} {mpo : Mpo Q 𝕜} {X Z0 : List (BondInfo Q)} {phys : List (List (BondInfo Q))}
    (hop : OpOnBonds isF ([(0, 1)] :: X ++ [[(0, 1)]]) (phys.map fun ph => (ph, ph)) mpo.tensors) (gX : ∀ b ∈ X, GoodBond b)
    (gp : ∀ ph ∈ phys, ph ≠ [] ∧ ∀ c ∈ ph, GoodBond c) (hF0 : FitsOn [(0, 1)] [(q, 1)] phys mpo.tensors.length Z0 ket0)
    (he0 : ∀ i < mpo.tensors.length, EvenBlocks isF (ket0 i) ∧ ket0 i ≠ []) (hd : dq.getD 0 = 0)
    (hH : HermitianOp isF phys X mpo.tensors) (hc : star mpo.const = mpo.const) :
    ∃ ids, Mpe.initIdents isF le ((List.range mpo.tensors.length).map ket0) mpo.tensors ((List.range mpo.tensors.length).map ket0) dq = some ids ∧
      ∀ (s s' : Mpe.Sys (SpT Q 𝕜) (Option (OpT Q 𝕜))) (l r builds : Nat) (Z : List (BondInfo Q)),
        SweepRun (Mpe.sweepCfg isF qr true true mpo.tensors ids) [(0, 1)] [(q, 1)] phys s →
        l < r → r ≤ l + 2 → r ≤ mpo.tensors.length → (∀ i < mpo.tensors.length, EvenBlocks isF (s.ket i)) →
        (List.replicate builds ()).foldlM (fun s _ => Mpe.buildEnvs (Mpe.sweepCfg isF qr true true mpo.tensors ids) l r s) s = some s' →
        FitsOn [(0, 1)] [(q, 1)] phys mpo.tensors.length Z s.ket → normValue phys q Z ((List.range mpo.tensors.length).map s.ket) ≠ 0 →
        ∃ t o ket T, Mpe.buildEnvs (Mpe.sweepCfg isF qr true true mpo.tensors ids) l r s' = some t ∧
          Mpe.effective isF qr true true mpo ids l r s' = some (ket, o, ket) ∧ ket.merge = some ⟨[T], 0⟩ ∧
          (∃ Zk, FitsOn [(0, 1)] [(q, 1)] phys mpo.tensors.length Zk t.ket ∧ IsometricOutside [(0, 1)] [(q, 1)] phys mpo.tensors.length Zk l r t.ket) ∧
          ∀ Zk, FitsOn [(0, 1)] [(q, 1)] phys mpo.tensors.length Zk t.ket → IsometricOutside [(0, 1)] [(q, 1)] phys mpo.tensors.length Zk l r t.ket →
          (∃ a, LocalMap isF le o (windowLegs [(0, 1)] [(q, 1)] Zk phys l r) a) ∧
          ∀ a, LocalMap isF le o (windowLegs [(0, 1)] [(q, 1)] Zk phys l r) a → a.IsSymmetric ∧
            (∀ b, LocalMap isF le o (windowLegs [(0, 1)] [(q, 1)] Zk phys l r) b → b = a) ∧
            ∀ eigh pre small maxIter minSize maxSize ld vs it w, EighWorks eigh →
              davidson a (davidsonIn eigh pre small) [components isF (windowLegs [(0, 1)] [(q, 1)] Zk phys l r) T] 1 maxIter minSize maxSize = some (ld, vs, it, w) →
              ∃ (E : ℝ) (v : WindowSpace 𝕜 isF (windowLegs [(0, 1)] [(q, 1)] Zk phys l r)), ld = [(E : 𝕜)] ∧ vs = [v] ∧
                E * RCLike.re (normValue phys q Z ((List.range mpo.tensors.length).map s.ket)) ≤
                  RCLike.re (expectValue isF phys q X Z mpo.tensors ((List.range mpo.tensors.length).map s.ket) +
                    mpo.const * normValue phys q Z ((List.range mpo.tensors.length).map s.ket)) ∧
                (∀ μ : ℝ, BoundedBelow isF phys X mpo.tensors mpo.const μ → μ ≤ E) ∧
                ∀ (k' : Nat → SpT Q 𝕜) (Z' : List (BondInfo Q)), (∀ i, i < l ∨ r ≤ i → k' i = t.ket i) → SameOutside l r Zk Z' →
                  FitsOn [(0, 1)] [(q, 1)] phys mpo.tensors.length Z' k' → (∀ i < mpo.tensors.length, EvenBlocks isF (k' i)) →
                  (∀ m' T', Mpe.effMps ids.lKet ((List.range' l (r - l)).map k') ids.rKet = some m' → m'.merge = some ⟨[T'], 0⟩ →
                    components isF (windowLegs [(0, 1)] [(q, 1)] Zk phys l r) T' = v) →
                  normValue phys q Z' ((List.range mpo.tensors.length).map k') = 1 ∧
                  expectValue isF phys q X Z' mpo.tensors ((List.range mpo.tensors.length).map k') + mpo.const = (E : 𝕜) := by
  obtain ⟨ids, hids, i1, i2, hall⟩ := window_problem h0 le hqr ho hop gX gp hF0 he0 hd
  refine ⟨ids, hids, ?_⟩
  intro s s' l r builds Z hrun hlr hr2 hr hes hs' hF hN
  have gp' : ∀ ph ∈ phys, ∀ c ∈ ph, GoodBond c := fun ph hph => (gp ph hph).2
  obtain ⟨Z1, f1, hall⟩ := hall s s' l r builds hrun hlr hr2 hr hes hs'
  have eZ := normValue_bonds hF f1
  obtain ⟨v1, v2⟩ := same_values (isF := isF) (q := q) (phys := phys) (X := X) (ws := mpo.tensors) (ts := (List.range mpo.tensors.length).map s.ket)
    (ts' := (List.range mpo.tensors.length).map s.ket) (Z := Z1) (Z' := Z) fun us _ => by rw [eZ]
  rw [v1] at hN ⊢
  rw [v2]
  obtain ⟨k, bra, o, ket, ⟨t, ht, hk⟩, heff, hb, hm, ⟨Zi, hZi, hiso⟩, hall⟩ := hall (nonZero_of_norm hN)
  subst hb hk
  rw [i1, i2] at hm ⊢
  have hT : ∃ T, bra.merge = some ⟨[T], 0⟩ := by
    obtain ⟨hS, ph0, ph1, m, hP⟩ := hall Zi hZi hiso
    obtain ⟨⟨a, ha⟩, x2⟩ := window_step h0 le gp' hlr hr2 hr hP hH hc hP.eq
    obtain ⟨m1, T, y1, y2, -, -⟩ := (x2 a ha).2.2.2 t.ket Zi (fun _ _ => rfl) (fun _ _ => rfl) hP.fits hP.even
    rw [hm] at y1
    obtain rfl := Option.some.inj y1
    exact ⟨T, y2⟩
  obtain ⟨T, y2⟩ := hT
  refine ⟨t, o, bra, T, ht, heff, y2, ⟨Zi, hZi, hiso⟩, ?_⟩
  intro Zk hZk hisok
  obtain ⟨hS, ph0, ph1, m, hP⟩ := hall Zk hZk hisok
  obtain ⟨w1, w2⟩ := same_values (isF := isF) (q := q) (phys := phys) (X := X) (ws := mpo.tensors) (ts := (List.range mpo.tensors.length).map s.ket)
    (ts' := (List.range mpo.tensors.length).map t.ket) (Z := Z1) (Z' := Zk) fun us hu => hS.ampl _ _ _ (cart_lengths hu)
  obtain ⟨x1, x2⟩ := window_step h0 le gp' hlr hr2 hr hP hH hc hP.eq
  refine ⟨x1, ?_⟩
  intro a ha
  obtain ⟨z1, z2, z3, z4⟩ := x2 a ha
  refine ⟨z1, z2, ?_⟩
  intro eigh pre small maxIter minSize maxSize ld vs it w he hdav
  obtain ⟨E, v, e1, e2, e3, e4, e5, e6⟩ := C60_ground a z1 he _ maxIter minSize maxSize ld vs it w hdav
  refine ⟨E, v, e1, e2, ?_, fun μ hμ => e6 μ (z3 μ hμ), ?_⟩
  · obtain ⟨m2, T2, y3, y4, y5, y6⟩ := z4 t.ket Zk (fun _ _ => rfl) (fun _ _ => rfl) hP.fits hP.even
    rw [hm] at y3
    obtain rfl := Option.some.inj y3
    rw [y2] at y4
    obtain rfl : T = T2 := by simpa using y4
    rw [y6, w1, w2] at e5
    have hn : RCLike.re (normValue phys q Z1 ((List.range mpo.tensors.length).map s.ket)) = ‖components isF (windowLegs [(0, 1)] [(q, 1)] Zk phys l r) T‖ ^ 2 := by
      rw [← w1, ← y5, inner_self_eq_norm_sq_to_K, ← RCLike.ofReal_pow, RCLike.ofReal_re]
    rw [hn]
    exact e5
  · intro k' Z' hag hz hF' he' hv
    obtain ⟨m2, T2, y3, y4, y5, y6⟩ := z4 k' Z' hag hz hF' he'
    have hv2 := hv m2 T2 y3 y4
    rw [hv2] at y5 y6
    have n1 : normValue phys q Z' ((List.range mpo.tensors.length).map k') = 1 := by
      rw [← y5, inner_self_eq_norm_sq_to_K, e3]
      simp
    refine ⟨n1, ?_⟩
    rw [n1, mul_one, e4] at y6
    exact y6.symm

theorem run_inv {isF : Q → Bool} (h0 : isF 0 = false) (le : Q → Q → Bool) {qr : Arr 𝕜 → Arr 𝕜 × Arr 𝕜} (hqr : Factorises qr)
    (ho : OrthonormalColumns qr) {q : Q} {dq : Option Q} {ket0 : Nat → SpT Q 𝕜} {mpo : Mpo Q 𝕜} {X Z0 : List (BondInfo Q)} {phys : List (List (BondInfo Q))}
    (hop : OpOnBonds isF ([(0, 1)] :: X ++ [[(0, 1)]]) (phys.map fun ph => (ph, ph)) mpo.tensors) (gX : ∀ b ∈ X, GoodBond b)
    (gp : ∀ ph ∈ phys, ph ≠ [] ∧ ∀ c ∈ ph, GoodBond c) (hF0 : FitsOn [(0, 1)] [(q, 1)] phys mpo.tensors.length Z0 ket0)
    (he0 : ∀ i < mpo.tensors.length, EvenBlocks isF (ket0 i) ∧ ket0 i ≠ []) (hd : dq.getD 0 = 0)
    (hH : HermitianOp isF phys X mpo.tensors) (hc : star mpo.const = mpo.const) :
    ∃ ids, Mpe.initIdents isF le ((List.range mpo.tensors.length).map ket0) mpo.tensors ((List.range mpo.tensors.length).map ket0) dq = some ids ∧
      ∀ eigh, EighWorks eigh → ∀ (s : Mpe.Sys (SpT Q 𝕜) (Option (OpT Q 𝕜))) (es : List ℝ), DmrgRun isF le qr mpo ids q phys X eigh s es →
        SweepRun (Mpe.sweepCfg isF qr true true mpo.tensors ids) [(0, 1)] [(q, 1)] phys s ∧ (∀ i < mpo.tensors.length, EvenBlocks isF (s.ket i)) ∧
      es ≠ [] ∧ (∀ e ∈ es, es.headD 0 ≤ e) ∧ es.Pairwise (· ≤ ·) ∧ (∀ μ : ℝ, BoundedBelow isF phys X mpo.tensors mpo.const μ → ∀ e ∈ es, μ ≤ e) ∧
        ∃ Z, FitsOn [(0, 1)] [(q, 1)] phys mpo.tensors.length Z s.ket ∧ normValue phys q Z ((List.range mpo.tensors.length).map s.ket) ≠ 0 ∧
          expectValue isF phys q X Z mpo.tensors ((List.range mpo.tensors.length).map s.ket) + mpo.const * normValue phys q Z ((List.range mpo.tensors.length).map s.ket) =
            (es.headD 0 : ℝ) * normValue phys q Z ((List.range mpo.tensors.length).map s.ket) := by
  obtain ⟨ids, hids, hall⟩ := C63_step h0 le hqr ho hop gX gp hF0 he0 hd hH hc
  refine ⟨ids, hids, ?_⟩
  intro eigh he s es hrun
  have hnorm : ∀ Z (k : Nat → SpT Q 𝕜), ∃ N : ℝ, 0 ≤ N ∧ normValue phys q Z ((List.range mpo.tensors.length).map k) = (N : 𝕜) := by
    intro Z k
    unfold normValue
    rw [innerProduct_edges]
    generalize cart (phys.map legIndices) = L
    induction L with
    | nil => exact ⟨0, le_refl _, by simp⟩
    | cons u L ih =>
      obtain ⟨N, n1, n2⟩ := ih
      refine ⟨‖ampl ((List.range mpo.tensors.length).map k) Z (0, 0) u (q, 0)‖ ^ 2 + N, by positivity, ?_⟩
      rw [List.map_cons, List.sum_cons, n2, RCLike.ofReal_add, RCLike.ofReal_pow, ← RCLike.conj_mul]
      rfl
  induction hrun with
  | @new Z ket bra e hF hev hN hE =>
    refine ⟨.new bra hF, hev, by simp, by simp, by simp, ?_, Z, hF, hN, hE⟩
    intro μ hμ e' he'
    obtain rfl : e' = e := by simpa using he'
    have h := hμ fun us => ampl ((List.range mpo.tensors.length).map ket) Z (0, 0) us (q, 0)
    obtain ⟨N, n1, n2⟩ := hnorm Z ket
    have hNpos : 0 < N := by
      rcases n1.lt_or_eq with h | h
      · exact h
      · exact absurd (by rw [n2, ← h]; simp) hN
    have e1 : ((cart (phys.map legIndices)).map fun us => star (ampl ((List.range mpo.tensors.length).map ket) Z (0, 0) us (q, 0)) *
        ampl ((List.range mpo.tensors.length).map ket) Z (0, 0) us (q, 0)).sum = normValue phys q Z ((List.range mpo.tensors.length).map ket) := by
      unfold normValue
      rw [innerProduct_edges]
    have e2 : ((cart (phys.map legIndices)).map fun us => ((cart (phys.map legIndices)).map fun ds =>
        star (ampl ((List.range mpo.tensors.length).map ket) Z (0, 0) us (q, 0)) * opAmpl isF mpo.tensors X false (0, 0) us ds (0, 0) *
        ampl ((List.range mpo.tensors.length).map ket) Z (0, 0) ds (q, 0)).sum).sum = expectValue isF phys q X Z mpo.tensors ((List.range mpo.tensors.length).map ket) := by
      unfold expectValue sandwich
      simp only [List.map_map, Function.comp_def]
    have e3 : ((cart (phys.map legIndices)).map fun us => ‖ampl ((List.range mpo.tensors.length).map ket) Z (0, 0) us (q, 0)‖ ^ 2).sum = N := by
      rw [← RCLike.ofReal_inj (K := 𝕜), ← n2, ← e1]
      generalize cart (phys.map legIndices) = L
      induction L with
      | nil => simp
      | cons u L ih =>
        rw [List.map_cons, List.sum_cons, List.map_cons, List.sum_cons, RCLike.ofReal_add, ih, RCLike.ofReal_pow, ← RCLike.conj_mul]
        rfl
    rw [e1, e2, e3, hE, n2, ← RCLike.ofReal_mul, RCLike.ofReal_re] at h
    exact le_of_mul_le_mul_right h hNpos
  | @step s s1 s2 t es e l r builds maxIter minSize maxSize o ket T kets hrun hlr hr2 hr hs1 ht heff hmerge hv hfit hev hset ih =>
    obtain ⟨i1, i2, i3, i4, i5, i6, Z, i7, i8, i9⟩ := ih
    obtain ⟨t', o', ket', T', a1, a4, a5, -, a6⟩ := hall s s1 l r builds Z i1 hlr hr2 hr i2 hs1 i7 i8
    rw [ht] at a1
    obtain rfl := Option.some.inj a1
    rw [heff] at a4
    obtain ⟨rfl, rfl, -⟩ : ket = ket' ∧ o = o' ∧ ket = ket' := by simpa using a4
    rw [hmerge] at a5
    obtain rfl : T = T' := by simpa using a5
    obtain ⟨Zk, a, v, pre, small, it, w, Z', a2, a3, b1, b2, b3, b4, b5⟩ := hv
    obtain ⟨-, -, a7⟩ := (a6 Zk a2 a3).2 a b1
    obtain ⟨E, v', c1, c2, c3, c4, c5⟩ := a7 eigh pre small maxIter minSize maxSize _ _ it w he b2
    obtain rfl : e = E := by simpa using c1
    obtain rfl : v = v' := by simpa using c2
    obtain ⟨d1, d2⟩ := c5 (Mpe.setRange t.ket l r kets) Z' (fun i hi => Mpe.setRange_other hi) b3 b4 hev b5
    have hket : s2.ket = Mpe.setRange t.ket l r kets := by
      unfold Mpe.setWindow at hset
      rw [ht] at hset
      obtain rfl := Option.some.inj hset
      exact embed_ket fun _ => rfl
    have hle : e ≤ es.headD 0 := by
      obtain ⟨N, n1, n2⟩ := hnorm Z s.ket
      have hNpos : 0 < N := by
        rcases n1.lt_or_eq with h | h
        · exact h
        · exact absurd (by rw [n2, ← h]; simp) i8
      rw [i9, n2, ← RCLike.ofReal_mul, RCLike.ofReal_re, RCLike.ofReal_re] at c3
      exact le_of_mul_le_mul_right c3 hNpos
    refine ⟨.round l r builds kets none i1 hlr hr hs1 ht (fun _ => rfl) hfit hset, by rw [hket]; exact hev, by simp, ?_, ?_, ?_, Z', by rw [hket]; exact b4, ?_, ?_⟩
    · intro x hx
      rcases List.mem_cons.1 hx with rfl | hx
      · exact le_refl _
      · exact hle.trans (i4 x hx)
    · exact List.pairwise_cons.2 ⟨fun x hx => hle.trans (i4 x hx), i5⟩
    · intro μ hμ x hx
      rcases List.mem_cons.1 hx with rfl | hx
      · exact c4 μ hμ
      · exact i6 μ hμ x hx
    · rw [hket, d1]; exact one_ne_zero
    · rw [hket, d1, mul_one, mul_one, d2]; rfl

/-- **C63**: a whole calculation.  The energies reported never go up, starting from the energy of the initial state; none is below a lower bound of `H`;
and the state that is left has the energy reported last. -/
theorem C63_run {isF : Q → Bool} (h0 : isF 0 = false) (le : Q → Q → Bool) {qr : Arr 𝕜 → Arr 𝕜 × Arr 𝕜} (hqr : Factorises qr)
    (ho : OrthonormalColumns qr) {q : Q} {dq : Option Q} {ket0 : Nat → SpT Q 𝕜} {mpo : Mpo Q 𝕜} {X Z0 : List (BondInfo Q)} {phys : List (List (BondInfo Q))}
    (hop : OpOnBonds isF ([(0, 1)] :: X ++ [[(0, 1)]]) (phys.map fun ph => (ph, ph)) mpo.tensors) (gX : ∀ b ∈ X, GoodBond b)
    (gp : ∀ ph ∈ phys, ph ≠ [] ∧ ∀ c ∈ ph, GoodBond c) (hF0 : FitsOn [(0, 1)] [(q, 1)] phys mpo.tensors.length Z0 ket0)
    (he0 : ∀ i < mpo.tensors.length, EvenBlocks isF (ket0 i) ∧ ket0 i ≠ []) (hd : dq.getD 0 = 0)
    (hH : HermitianOp isF phys X mpo.tensors) (hc : star mpo.const = mpo.const) :
    ∃ ids, Mpe.initIdents isF le ((List.range mpo.tensors.length).map ket0) mpo.tensors ((List.range mpo.tensors.length).map ket0) dq = some ids ∧
      ∀ eigh, EighWorks eigh → ∀ (s : Mpe.Sys (SpT Q 𝕜) (Option (OpT Q 𝕜))) (es : List ℝ), DmrgRun isF le qr mpo ids q phys X eigh s es →
        es.Pairwise (· ≤ ·) ∧ (∀ μ : ℝ, BoundedBelow isF phys X mpo.tensors mpo.const μ → ∀ e ∈ es, μ ≤ e) ∧
        ∃ Z, FitsOn [(0, 1)] [(q, 1)] phys mpo.tensors.length Z s.ket ∧ normValue phys q Z ((List.range mpo.tensors.length).map s.ket) ≠ 0 ∧
          expectValue isF phys q X Z mpo.tensors ((List.range mpo.tensors.length).map s.ket) + mpo.const * normValue phys q Z ((List.range mpo.tensors.length).map s.ket) =
            (es.headD 0 : ℝ) * normValue phys q Z ((List.range mpo.tensors.length).map s.ket) := by
  obtain ⟨ids, hids, hall⟩ := run_inv h0 le hqr ho hop gX gp hF0 he0 hd hH hc
  refine ⟨ids, hids, fun eigh he s es hrun => ?_⟩
  obtain ⟨-, -, -, -, h1, h2, h3⟩ := hall eigh he s es hrun
  exact ⟨h1, h2, h3⟩

theorem davidson_once {V : Type} [NormedAddCommGroup V] [InnerProductSpace 𝕜 V] (a : V →ₗ[𝕜] V) (eigh : Nat → (Nat → Nat → 𝕜) → (Nat → 𝕜) × (Nat → Nat → 𝕜)) {g : V}
    (hg : g ≠ 0) : ∃ c ld : 𝕜, davidson a (davidsonIn eigh none fun _ => true) [g] 1 1 1 1 = some ([ld], [c • g], 1, false) := by
  have h1 : (davidsonIn eigh none (fun _ => true) : DavidsonEnv 𝕜 V).normalize g = some (((‖g‖ : ℝ) : 𝕜)⁻¹ • g) := davidsonIn_normalize.2 ⟨hg, rfl⟩
  have h2 : davidsonInit (davidsonIn eigh none (fun _ => true) : DavidsonEnv 𝕜 V) [] [g] = some [((‖g‖ : ℝ) : 𝕜)⁻¹ • g] := by
    simp [davidsonInit, h1]
  have h3 : ∀ x, (davidsonIn eigh none (fun _ => true) : DavidsonEnv 𝕜 V).small x = true := fun _ => rfl
  unfold davidson
  rw [if_neg (by simp), h2]
  simp only [Option.bind_some, davidsonLoop, h3, if_true, davidsonRitz, davidsonCheck]
  refine ⟨((davidsonIn eigh none fun _ => true : DavidsonEnv 𝕜 V).eigh 1 (davidsonMatrix (davidsonIn eigh none fun _ => true) [((‖g‖ : ℝ) : 𝕜)⁻¹ • g]
    (davidsonSigma a [((‖g‖ : ℝ) : 𝕜)⁻¹ • g] [0] 0 1))).2 0 0 * ((‖g‖ : ℝ) : 𝕜)⁻¹, ((davidsonIn eigh none fun _ => true : DavidsonEnv 𝕜 V).eigh 1
    (davidsonMatrix (davidsonIn eigh none fun _ => true) [((‖g‖ : ℝ) : 𝕜)⁻¹ • g] (davidsonSigma a [((‖g‖ : ℝ) : 𝕜)⁻¹ • g] [0] 0 1))).1 0, ?_⟩
  simp [davidsonRotate, smul_smul]

/-- Scaling one site. -/
theorem FitsOn.scale {e f : BondInfo Q} {phys : List (List (BondInfo Q))} {n : Nat} {Z : List (BondInfo Q)} {k : Nat → SpT Q 𝕜} (h : FitsOn e f phys n Z k) (l : Nat) (c : 𝕜) :
    FitsOn e f phys n Z (Function.update k l ((k l).smul c)) := by
  obtain ⟨hz, hp⟩ := h.lengths
  have key : ∀ (P : Nat → SpT Q 𝕜 → Prop), (∀ i < n, P i (k i)) → (l < n → P l ((k l).smul c)) → ∀ i < n, P i (Function.update k l ((k l).smul c) i) := by
    intro P h1 h2 i hi
    by_cases hil : i = l
    · subst hil; rw [Function.update_self]; exact h2 hi
    · rw [Function.update_of_ne hil]; exact h1 i hi
  have labels : ((k l).smul c).map Prod.fst = (k l).map Prod.fst := by
    unfold SpT.smul
    rw [List.map_map]
    rfl
  refine fitsOn_of_sites (by omega) (by omega) (key _ (fun i hi => fitsOn_site h hi) fun hl => conforms_mapShape _ (fun _ => rfl) (fun _ => rfl) (fitsOn_site h hl)) h.good
    (key (fun _ T => UniqueLabels T) h.unique fun hl => ?_) (key (fun i T => HasCharge ((phys.getD i []).length + 2) T) h.charge fun hl => ?_)
  · have := h.unique l hl
    unfold UniqueLabels at this ⊢
    rwa [labels]
  · obtain ⟨pat, dq, h1, h2⟩ := h.charge l hl
    refine ⟨pat, dq, h1, fun b hb => ?_⟩
    obtain ⟨b', hb', rfl⟩ := List.mem_map.1 hb
    exact h2 b' hb'

/-- **C63**: there are such calculations, of any length: from every state reached, every window of one or two sites allows another step. -/
theorem C63_continue {isF : Q → Bool} (h0 : isF 0 = false) (le : Q → Q → Bool) {qr : Arr 𝕜 → Arr 𝕜 × Arr 𝕜} (hqr : Factorises qr)
    (ho : OrthonormalColumns qr) {q : Q} {dq : Option Q} {ket0 : Nat → SpT Q 𝕜} {mpo : Mpo Q 𝕜} {X Z0 : List (BondInfo Q)} {phys : List (List (BondInfo Q))}
    (hop : OpOnBonds isF ([(0, 1)] :: X ++ [[(0, 1)]]) (phys.map fun ph => (ph, ph)) mpo.tensors) (gX : ∀ b ∈ X, GoodBond b)
    (gp : ∀ ph ∈ phys, ph ≠ [] ∧ ∀ c ∈ ph, GoodBond c) (hF0 : FitsOn [(0, 1)] [(q, 1)] phys mpo.tensors.length Z0 ket0)
    (he0 : ∀ i < mpo.tensors.length, EvenBlocks isF (ket0 i) ∧ ket0 i ≠ []) (hd : dq.getD 0 = 0)
    (hH : HermitianOp isF phys X mpo.tensors) (hc : star mpo.const = mpo.const) :
    ∃ ids, Mpe.initIdents isF le ((List.range mpo.tensors.length).map ket0) mpo.tensors ((List.range mpo.tensors.length).map ket0) dq = some ids ∧
      ∀ eigh, EighWorks eigh → ∀ (s : Mpe.Sys (SpT Q 𝕜) (Option (OpT Q 𝕜))) (es : List ℝ), DmrgRun isF le qr mpo ids q phys X eigh s es →
        ∀ l r, l < r → r ≤ l + 2 → r ≤ mpo.tensors.length → ∃ s2 e, DmrgRun isF le qr mpo ids q phys X eigh s2 (e :: es) := by
  obtain ⟨ids, hids, hall⟩ := run_inv h0 le hqr ho hop gX gp hF0 he0 hd hH hc
  obtain ⟨ids', hids', hstep⟩ := C63_step h0 le hqr ho hop gX gp hF0 he0 hd hH hc
  obtain ⟨ids'', hids'', k1, k2, hwin⟩ := window_problem h0 le hqr ho hop gX gp hF0 he0 hd
  rw [hids] at hids' hids''
  obtain rfl := Option.some.inj hids'
  obtain rfl := Option.some.inj hids''
  refine ⟨ids, hids, ?_⟩
  intro eigh he s es hrun l r hlr hr2 hr
  obtain ⟨i1, i2, -, -, -, -, Z, i7, i8, -⟩ := hall eigh he s es hrun
  obtain ⟨t, o, ket, T, a1, a4, a5, ⟨Zk, a2, a3⟩, a6⟩ := hstep s s l r 0 Z i1 hlr hr2 hr i2 rfl i7 i8
  obtain ⟨Z1, f1, hw⟩ := hwin s s l r 0 i1 hlr hr2 hr i2 rfl
  obtain ⟨k, bra, o', ket', ⟨t', ht', hk⟩, heff, hb, hm, -, hP⟩ := hw (nonZero_of_norm (by
    have := (same_values (isF := isF) (q := q) (phys := phys) (X := X) (ws := mpo.tensors) (ts := (List.range mpo.tensors.length).map s.ket)
      (ts' := (List.range mpo.tensors.length).map s.ket) (Z := Z1) (Z' := Z) fun us _ => by rw [normValue_bonds i7 f1]).1
    rwa [this] at i8))
  rw [a1] at ht'
  obtain rfl := Option.some.inj ht'
  subst hk hb
  rw [a4] at heff
  obtain ⟨rfl, rfl, -⟩ : ket = bra ∧ o = o' ∧ ket = bra := by simpa using heff
  obtain ⟨hS, ph0, ph1, m, hP⟩ := hP Zk a2 a3
  have gp' : ∀ ph ∈ phys, ∀ c ∈ ph, GoodBond c := fun ph hph => (gp ph hph).2
  obtain ⟨⟨a, ha⟩, a7⟩ := a6 Zk a2 a3
  obtain ⟨x1, x2⟩ := window_step h0 le gp' hlr hr2 hr hP hH hc hP.eq
  obtain ⟨m1, T1, y1, y2, y3, -⟩ := (x2 a ha).2.2.2 t.ket Zk (fun _ _ => rfl) (fun _ _ => rfl) hP.fits hP.even
  rw [k1, k2] at hm
  rw [hm] at y1
  obtain rfl := Option.some.inj y1
  rw [a5] at y2
  obtain rfl : T = T1 := by simpa using y2
  have hg : components isF (windowLegs [(0, 1)] [(q, 1)] Zk phys l r) T ≠ 0 := by
    intro h
    rw [h, inner_zero_left] at y3
    have w1 := (same_values (isF := isF) (q := q) (phys := phys) (X := X) (ws := mpo.tensors) (ts := (List.range mpo.tensors.length).map s.ket)
      (ts' := (List.range mpo.tensors.length).map t.ket) (Z := Z1) (Z' := Zk) fun us hu => hS.ampl _ _ _ (cart_lengths hu)).1
    have w2 := (same_values (isF := isF) (q := q) (phys := phys) (X := X) (ws := mpo.tensors) (ts := (List.range mpo.tensors.length).map s.ket)
      (ts' := (List.range mpo.tensors.length).map s.ket) (Z := Z1) (Z' := Z) fun us _ => by rw [normValue_bonds i7 f1]).1
    exact i8 (by rw [w2, ← w1, ← y3])
  obtain ⟨c, ld, hdav⟩ := davidson_once a eigh hg
  obtain ⟨E, v, e1, e2, -⟩ := (a7 a ha).2.2 eigh none (fun _ => true) 1 1 1 _ _ 1 false he hdav
  obtain rfl : ld = (E : 𝕜) := by simpa using e1
  have hset : Mpe.setRange t.ket l r ((List.range' l (r - l)).map (Function.update t.ket l ((t.ket l).smul c))) = Function.update t.ket l ((t.ket l).smul c) := by
    funext i
    unfold Mpe.setRange
    split
    · rename_i hi
      rw [List.getD_eq_getElem _ _ (by simp; omega), List.getElem_map, List.getElem_range']
      congr 1
      omega
    · rename_i hi
      rw [Function.update_of_ne (by omega)]
  have hev : ∀ i < mpo.tensors.length, EvenBlocks isF (Function.update t.ket l ((t.ket l).smul c) i) := by
    intro i hi
    by_cases hil : i = l
    · subst hil
      rw [Function.update_self]
      intro b hb
      obtain ⟨b', hb', rfl⟩ := List.mem_map.1 hb
      exact hP.even i hi b' hb'
    · rw [Function.update_of_ne hil]; exact hP.even i hi
  refine ⟨Mpe.embed (Mpe.sweepCfg isF qr true true mpo.tensors ids) l r ((List.range' l (r - l)).map (Function.update t.ket l ((t.ket l).smul c))) none t, E,
    .step l r 0 1 1 1 ((List.range' l (r - l)).map (Function.update t.ket l ((t.ket l).smul c))) hrun hlr hr2 hr rfl a1 a4 a5 ⟨Zk, a, _, none, fun _ => true, 1, false, Zk,
      a2, a3, ha, hdav, fun _ _ => rfl, ?_, ?_⟩ ?_ ?_ ?_⟩
  · rw [hset]
    exact a2.scale l c
  · rw [hset]
    intro m' T' hm' hT'
    rw [k1, k2] at hm'
    obtain ⟨n1, U1, u1, u2, u3, u4⟩ := window_merge h0 (goodBond_one 0) (goodBond_one q) hlr hr a2 a3 (fun _ _ => rfl) (fun _ _ => rfl) a2 hP.even
    obtain ⟨n2, U2, w1, w2, w3, w4⟩ := window_merge h0 (goodBond_one 0) (goodBond_one q) hlr hr a2 a3 (k' := Function.update t.ket l ((t.ket l).smul c))
      (fun i hi => Function.update_of_ne (by omega) _ _) (fun _ _ => rfl) (a2.scale l c) hev
    rw [hm'] at w1
    obtain rfl := Option.some.inj w1
    rw [hT'] at w2
    obtain rfl : T' = U2 := by simpa using w2
    rw [hm] at u1
    obtain rfl := Option.some.inj u1
    rw [a5] at u2
    obtain rfl : T = U1 := by simpa using u2
    ext z
    obtain ⟨x, ps, y, hf, hz⟩ := mem_windowLegs (List.mem_filter.1 z.2).1
    rw [PiLp.smul_apply, components_apply, components_apply, hz, u4 x ps y hf, w4 x ps y hf, smul_eq_mul]
    have : (List.range' l (r - l)).map (Function.update t.ket l ((t.ket l).smul c)) = ((List.range' l (r - l)).map t.ket).modify 0 (SpT.smul c) := by
      obtain ⟨d, hd⟩ : ∃ d, r - l = d + 1 := ⟨r - l - 1, by omega⟩
      rw [hd, List.range'_succ, List.map_cons, List.map_cons, List.modify_zero_cons, Function.update_self]
      congr 1
      refine List.map_congr_left fun i hi => ?_
      have := List.mem_range'_1.1 hi
      exact Function.update_of_ne (by omega) _ _
    rw [this, C19_any_site c _ 0 (by simp; omega)]
  · rw [hset]
    intro Y y1 y2
    exact ⟨Y, fun _ _ => rfl, y1.scale l c⟩
  · rw [hset]; exact hev
  · unfold Mpe.setWindow
    rw [a1]; rfl

end
section

/-- Hopping between two sites in both directions, a number operator, and the constant 3. -/
noncomputable def dsH : Mpo Int ℝ :=
  ⟨[⟨realBlocks [([0, 1, 0, 1], 2), ([0, 0, 1, -1], 2)], realBlocks [([0, 1, 1, 0], 5)]⟩,
    ⟨realBlocks [([1, 0, 1, 0], 7), ([-1, 1, 0, 0], -7)], realBlocks [([0, 0, 0, 0], 1), ([0, 1, 1, 0], 1)]⟩], 3⟩

theorem dsH_bonds : OpOnBonds mpoIsF ([(0, 1)] :: [[(0, 1), (1, 1), (-1, 1)]] ++ [[(0, 1)]]) (cnPhys.map fun ph => (ph, ph)) dsH.tensors :=
  ⟨⟨by decide, by decide, by decide, by decide, by decide, by decide⟩, ⟨by decide, by decide, by decide, by decide, by decide, by decide⟩, trivial⟩

theorem dsH_hermitian : HermitianOp mpoIsF cnPhys [[(0, 1), (1, 1), (-1, 1)]] dsH.tensors := by
  intro us ds hu hd
  have e : cart (cnPhys.map legIndices) = [[[(0, 0)], [(0, 0)]], [[(0, 0)], [(1, 0)]], [[(1, 0)], [(0, 0)]], [[(1, 0)], [(1, 0)]]] := by decide
  rw [e] at hu hd
  simp only [List.mem_cons, List.not_mem_nil, or_false] at hu hd
  rcases hu with rfl | rfl | rfl | rfl <;> rcases hd with rfl | rfl | rfl | rfl <;>
    simp [opAmpl, opEntry, dsH, realBlocks, realBlock, entry, blockEntry, legBasis, mpoIsF, fermParity, inBox, paritySign]

/-- It is not diagonal. -/
example : opAmpl mpoIsF dsH.tensors [[(0, 1), (1, 1), (-1, 1)]] false (0, 0) [[(1, 0)], [(0, 0)]] [[(0, 0)], [(1, 0)]] (0, 0) = 14 := by
  simp [opAmpl, opEntry, dsH, realBlocks, realBlock, entry, blockEntry, legBasis, mpoIsF, fermParity, inBox, paritySign]
  norm_num

theorem cnKet_norm : normValue cnPhys 1 [[(0, 1), (1, 1)]] ((List.range 2).map cnKet) = 541 := by
  have e : cart (cnPhys.map legIndices) = [[[(0, 0)], [(0, 0)]], [[(0, 0)], [(1, 0)]], [[(1, 0)], [(0, 0)]], [[(1, 0)], [(1, 0)]]] := by decide
  unfold normValue
  rw [innerProduct_edges, e]
  simp [List.range_succ, ampl, legBasis, cnKet, realBlocks, realBlock, entry, blockEntry, inBox]
  norm_num

/-- All hypotheses of `C63_step`, `C63_run` and `C63_continue` are met by this operator and this state, and there are calculations of any length. -/
example : ∃ (qr : Arr ℝ → Arr ℝ × Arr ℝ) (eigh : Nat → (Nat → Nat → ℝ) → (Nat → ℝ) × (Nat → Nat → ℝ)) (ids : Mpe.Idents Int ℝ),
    ∀ n : Nat, ∃ s es, es.length = n + 1 ∧ DmrgRun mpoIsF (fun a b => decide (a ≤ b)) qr dsH ids 1 cnPhys [[(0, 1), (1, 1), (-1, 1)]] eigh s es := by
  obtain ⟨qr, h1, h2⟩ := C21_contract ℝ
  obtain ⟨eigh, h3⟩ := C60_contract ℝ
  have hev : ∀ i < 2, EvenBlocks mpoIsF (cnKet i) ∧ cnKet i ≠ [] := by
    intro i hi
    rcases (show i = 0 ∨ i = 1 by omega) with rfl | rfl
    · exact ⟨by unfold EvenBlocks; decide, by simp [cnKet, realBlocks]⟩
    · exact ⟨by unfold EvenBlocks; decide, by simp [cnKet, realBlocks]⟩
  obtain ⟨ids, -, hc⟩ := C63_continue (mpo := dsH) (phys := cnPhys) (ket0 := cnKet) (dq := none) (q := 1) rfl (fun a b => decide (a ≤ b)) h1 h2 dsH_bonds
    (by unfold GoodBond; decide) (by unfold GoodBond; decide) cnFits hev rfl dsH_hermitian (by simp)
  refine ⟨qr, eigh, ids, fun n => ?_⟩
  induction n with
  | zero =>
    refine ⟨_, [(expectValue mpoIsF cnPhys 1 [[(0, 1), (1, 1), (-1, 1)]] [[(0, 1), (1, 1)]] dsH.tensors ((List.range 2).map cnKet) + dsH.const * 541) / 541], rfl, .new cnKet _ cnFits (fun i hi => (hev i hi).1) ?_ ?_⟩
    · show normValue cnPhys 1 [[(0, 1), (1, 1)]] ((List.range 2).map cnKet) ≠ 0
      rw [cnKet_norm]; norm_num
    · show _ + _ * normValue cnPhys 1 [[(0, 1), (1, 1)]] ((List.range 2).map cnKet) = _ * normValue cnPhys 1 [[(0, 1), (1, 1)]] ((List.range 2).map cnKet)
      rw [cnKet_norm]
      simp [dsH]
  | succ n ih =>
    obtain ⟨s, es, hl, hrun⟩ := ih
    obtain ⟨s2, e, h⟩ := hc eigh h3 s es hrun (n % 2) (n % 2 + 1) (by omega) (by omega) (by show _ ≤ 2; omega)
    exact ⟨s2, e :: es, by simp [hl], h⟩

end
end Verif
