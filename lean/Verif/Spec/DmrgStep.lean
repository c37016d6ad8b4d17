import Verif.Spec.MpeCanon
import Verif.Spec.Davidson
import Verif.Model.MpeLocal
import Mathlib.Analysis.InnerProductSpace.PiL2
import Mathlib.Data.Fintype.Basic
import Mathlib.Data.Fintype.List

/-!
Property C63: the local problem of a DMRG sweep as a problem of vectors, the energy of a state, and Hermitian operators.
-/

namespace Verif
section
variable {Q K : Type} [DecidableEq Q]

/-- The legs of the merged tensors of the sites `l`, …, `r - 1`: left bond, physical legs, right bond. -/
def windowLegs (e f : BondInfo Q) (Z : List (BondInfo Q)) (phys : List (List (BondInfo Q))) (l r : Nat) : List (BondInfo Q) :=
  (e :: Z).getD l [] :: ((phys.drop l).take (r - l)).flatten ++ [(Z ++ [f]).getD (r - 1) []]

/-- The multi-indices with an even number of fermionic labels. -/
def evenIndices (isF : Q → Bool) (legs : List (BondInfo Q)) : List (List (Q × Nat)) :=
  (legIndices legs).filter fun x => !fermParity isF (x.map Prod.fst)

/-- Vectors with one component for each of these multi-indices, with the Euclidean inner product. -/
abbrev WindowSpace (𝕜 : Type) (isF : Q → Bool) (legs : List (BondInfo Q)) : Type := EuclideanSpace 𝕜 {x // x ∈ evenIndices isF legs}

/-- The components of a merged tensor (which has a further leg with the label 0 at each end). -/
noncomputable def components {𝕜 : Type} [RCLike 𝕜] [Zero Q] (isF : Q → Bool) (legs : List (BondInfo Q)) (T : SpT Q 𝕜) : WindowSpace 𝕜 isF legs :=
  WithLp.toLp 2 fun x => entry T ((0, 0) :: x.1 ++ [(0, 0)])

/-- The matrix of the operator is Hermitian. -/
def HermitianOp [AddCommGroup Q] [CommRing K] [StarRing K] (isF : Q → Bool) (phys : List (List (BondInfo Q))) (X : List (BondInfo Q)) (ws : List (OpT Q K)) : Prop :=
  ∀ us ds, us ∈ cart (phys.map legIndices) → ds ∈ cart (phys.map legIndices) →
    opAmpl isF ws X false (0, 0) us ds (0, 0) = star (opAmpl isF ws X false (0, 0) ds us (0, 0))

/-- `⟨ket|H|ket⟩` without the constant, for a state with right edge `q`. -/
def expectValue [AddCommGroup Q] [CommRing K] [StarRing K] (isF : Q → Bool) (phys : List (List (BondInfo Q))) (q : Q) (X Z : List (BondInfo Q)) (ws : List (OpT Q K))
    (ks : List (SpT Q K)) : K :=
  sandwich isF (phys.map fun ph => (ph, ph)) Z X Z ks ws ks false (0, 0) (0, 0) (0, 0) (q, 0) (0, 0) (q, 0)

/-- `⟨ket|ket⟩`. -/
def normValue [AddCommGroup Q] [CommRing K] [StarRing K] (phys : List (List (BondInfo Q))) (q : Q) (Z : List (BondInfo Q)) (ks : List (SpT Q K)) : K :=
  innerProduct [(0, 1)] [(q, 1)] phys (ampl ks Z) (ampl ks Z)

/-- `H + c ≥ μ` for all vectors of amplitudes. -/
def BoundedBelow {𝕜 : Type} [RCLike 𝕜] [AddCommGroup Q] (isF : Q → Bool) (phys : List (List (BondInfo Q))) (X : List (BondInfo Q)) (ws : List (OpT Q 𝕜)) (c : 𝕜) (μ : ℝ) : Prop :=
  ∀ ψ : List (List (Q × Nat)) → 𝕜, μ * ((cart (phys.map legIndices)).map fun us => ‖ψ us‖ ^ 2).sum ≤
    RCLike.re (((cart (phys.map legIndices)).map fun us => ((cart (phys.map legIndices)).map fun ds =>
      star (ψ us) * opAmpl isF ws X false (0, 0) us ds (0, 0) * ψ ds).sum).sum + c * ((cart (phys.map legIndices)).map fun us => star (ψ us) * ψ us).sum)

/-- The map of vectors that `operator @ state` is on the merged tensors of a window.  (Where the product raises because no pair of blocks matches, the
code stops; the map is then the constant, so that statements about all runs cover those that go on.) -/
def LocalMap {𝕜 : Type} [RCLike 𝕜] [DecidableEq 𝕜] [AddCommGroup Q] (isF : Q → Bool) (le : Q → Q → Bool) (o : Mpo Q 𝕜) (legs : List (BondInfo Q))
    (a : WindowSpace 𝕜 isF legs →ₗ[𝕜] WindowSpace 𝕜 isF legs) : Prop :=
  ∀ T : SpT Q 𝕜, Conforms ([(0, 1)] :: legs ++ [[(0, 1)]]) T → EvenBlocks isF T →
    (∀ R, Mps.applyOne isF le o ⟨[T], 0⟩ = some ⟨[R], 0⟩ → a (components isF legs T) = components isF legs R) ∧
    (Mps.applyOne isF le o ⟨[T], 0⟩ = none → a (components isF legs T) = o.const • components isF legs T)

/-- A DMRG calculation (`dmrg.py` 56-162) for one state, window after window: environments are built, `mpe[l:r]` gives the local problem, its tensors are
merged, Davidson's method starts from the merged tensor and reports the energy `e` and a vector `v`, and the tensors put back merge to `v` (nothing is cut
off).  The list has the energies reported, the latest first; the last one is the energy of the initial state.  `t` is the object after `build_envs`; `Zk`
describes the bonds of its ket, the vectors have one component for each multi-index of the legs of the window. -/
inductive DmrgRun {𝕜 : Type} [RCLike 𝕜] [DecidableEq 𝕜] [AddCommGroup Q] (isF : Q → Bool) (le : Q → Q → Bool) (qr : Arr 𝕜 → Arr 𝕜 × Arr 𝕜) (mpo : Mpo Q 𝕜)
    (ids : Mpe.Idents Q 𝕜) (q : Q) (phys : List (List (BondInfo Q))) (X : List (BondInfo Q)) (eigh : Nat → (Nat → Nat → 𝕜) → (Nat → 𝕜) × (Nat → Nat → 𝕜)) :
    Mpe.Sys (SpT Q 𝕜) (Option (OpT Q 𝕜)) → List ℝ → Prop where
  | new {Z : List (BondInfo Q)} {ket : Nat → SpT Q 𝕜} (bra : Nat → SpT Q 𝕜) (e : ℝ) :
      FitsOn [(0, 1)] [(q, 1)] phys mpo.tensors.length Z ket → (∀ i < mpo.tensors.length, EvenBlocks isF (ket i)) →
      normValue phys q Z ((List.range mpo.tensors.length).map ket) ≠ 0 →
      expectValue isF phys q X Z mpo.tensors ((List.range mpo.tensors.length).map ket) + mpo.const * normValue phys q Z ((List.range mpo.tensors.length).map ket) =
        e * normValue phys q Z ((List.range mpo.tensors.length).map ket) →
      DmrgRun isF le qr mpo ids q phys X eigh (Mpe.new ket bra) [e]
  | step {s s1 s2 t : Mpe.Sys (SpT Q 𝕜) (Option (OpT Q 𝕜))} {es : List ℝ} {e : ℝ} (l r builds maxIter minSize maxSize : Nat) {o : Mpo Q 𝕜} {ket : Mps Q 𝕜} {T : SpT Q 𝕜}
      (kets : List (SpT Q 𝕜)) :
      DmrgRun isF le qr mpo ids q phys X eigh s es → l < r → r ≤ l + 2 → r ≤ mpo.tensors.length →
      (List.replicate builds ()).foldlM (fun s _ => Mpe.buildEnvs (Mpe.sweepCfg isF qr true true mpo.tensors ids) l r s) s = some s1 →
      Mpe.buildEnvs (Mpe.sweepCfg isF qr true true mpo.tensors ids) l r s1 = some t →
      Mpe.effective isF qr true true mpo ids l r s1 = some (ket, o, ket) → ket.merge = some ⟨[T], 0⟩ →
      (∃ (Zk : List (BondInfo Q)) (a : WindowSpace 𝕜 isF (windowLegs [(0, 1)] [(q, 1)] Zk phys l r) →ₗ[𝕜] WindowSpace 𝕜 isF (windowLegs [(0, 1)] [(q, 1)] Zk phys l r))
        (v : WindowSpace 𝕜 isF (windowLegs [(0, 1)] [(q, 1)] Zk phys l r)) (pre : Option _) (small : 𝕜 → Bool) (it : Nat) (w : Bool) (Z' : List (BondInfo Q)),
        FitsOn [(0, 1)] [(q, 1)] phys mpo.tensors.length Zk t.ket ∧ IsometricOutside [(0, 1)] [(q, 1)] phys mpo.tensors.length Zk l r t.ket ∧
        LocalMap isF le o (windowLegs [(0, 1)] [(q, 1)] Zk phys l r) a ∧
        davidson a (davidsonIn eigh pre small) [components isF (windowLegs [(0, 1)] [(q, 1)] Zk phys l r) T] 1 maxIter minSize maxSize = some ([(e : 𝕜)], [v], it, w) ∧
        SameOutside l r Zk Z' ∧ FitsOn [(0, 1)] [(q, 1)] phys mpo.tensors.length Z' (Mpe.setRange t.ket l r kets) ∧
        ∀ m' T', Mpe.effMps ids.lKet ((List.range' l (r - l)).map (Mpe.setRange t.ket l r kets)) ids.rKet = some m' → m'.merge = some ⟨[T'], 0⟩ →
          components isF (windowLegs [(0, 1)] [(q, 1)] Zk phys l r) T' = v) →
      (∀ Z, FitsOn [(0, 1)] [(q, 1)] phys mpo.tensors.length Z t.ket → IsometricOutside [(0, 1)] [(q, 1)] phys mpo.tensors.length Z l r t.ket →
        ∃ Z', SameOutside l r Z Z' ∧ FitsOn [(0, 1)] [(q, 1)] phys mpo.tensors.length Z' (Mpe.setRange t.ket l r kets)) →
      (∀ i < mpo.tensors.length, EvenBlocks isF (Mpe.setRange t.ket l r kets i)) →
      Mpe.setWindow (Mpe.sweepCfg isF qr true true mpo.tensors ids) l r kets none s1 = some s2 →
      DmrgRun isF le qr mpo ids q phys X eigh s2 (e :: es)

end
end Verif
