import Verif.Spec.MpeCanon
import Verif.Model.Linear

/-!
Property C66: sweeps with a bra different from the ket, the state `operator |ket⟩` and distances of states from it.
-/

namespace Verif
section
variable {Q K : Type} [DecidableEq Q]

/-- What a sweep makes of an object with two states: window after window, environments are built any number of times, and the tensors of the window are
replaced in bra and ket by others on the same bonds at the ends of the window. -/
inductive TwoRun [AddCommGroup Q] [Zero K] [One K] [Add K] [Mul K] [Star K] {W V : Type} (c : Mpe.Cfg (SpT Q K) W V) (e fb fk : BondInfo Q)
    (pb pk : List (List (BondInfo Q))) : Mpe.Sys (SpT Q K) V → Prop where
  | new {Y Z : List (BondInfo Q)} {bra ket : Nat → SpT Q K} : FitsOn e fb pb c.n Y bra → FitsOn e fk pk c.n Z ket → TwoRun c e fb fk pb pk (Mpe.new ket bra)
  | round {s s1 t s2 : Mpe.Sys (SpT Q K) V} (l r builds : Nat) (kets bras : List (SpT Q K)) : TwoRun c e fb fk pb pk s → l < r → r ≤ c.n →
      (List.replicate builds ()).foldlM (fun s _ => Mpe.buildEnvs c l r s) s = some s1 → Mpe.buildEnvs c l r s1 = some t →
      (∀ Z, FitsOn e fk pk c.n Z t.ket → IsometricOutside e fk pk c.n Z l r t.ket →
        ∃ Z', SameOutside l r Z Z' ∧ FitsOn e fk pk c.n Z' (Mpe.setRange t.ket l r kets)) →
      (∀ Y, FitsOn e fb pb c.n Y t.bra → IsometricOutside e fb pb c.n Y l r t.bra →
        ∃ Y', SameOutside l r Y Y' ∧ FitsOn e fb pb c.n Y' (Mpe.setRange t.bra l r bras)) →
      Mpe.setWindow c l r kets (some bras) s1 = some s2 → TwoRun c e fb fk pb pk s2

end

section
variable {Q 𝕜 : Type} [DecidableEq Q] [AddCommGroup Q] [RCLike 𝕜]

/-- The amplitudes of `operator |ket⟩`. -/
def opOnState (isF : Q → Bool) (phys : List (List (BondInfo Q) × List (BondInfo Q))) (qk : Q) (X Z : List (BondInfo Q)) (ws : List (OpT Q 𝕜)) (ks : List (SpT Q 𝕜))
    (us : List (List (Q × Nat))) : 𝕜 :=
  ((cart (phys.map fun ph => legIndices ph.2)).map fun ds => opAmpl isF ws X false (0, 0) us ds (0, 0) * ampl ks Z (0, 0) ds (qk, 0)).sum

/-- The amplitudes of a bra. -/
def braState (qb : Q) (Y : List (BondInfo Q)) (bs : List (SpT Q 𝕜)) (us : List (List (Q × Nat))) : 𝕜 := ampl bs Y (0, 0) us (qb, 0)

/-- The squared length of a vector of amplitudes. -/
def lengthSq (phys : List (List (BondInfo Q) × List (BondInfo Q))) (ψ : List (List (Q × Nat)) → 𝕜) : ℝ :=
  ((cart (phys.map fun ph => legIndices ph.1)).map fun us => ‖ψ us‖ ^ 2).sum

/-- A bra that differs from `b` in the window only. -/
def WindowBra (isF : Q → Bool) (phys : List (List (BondInfo Q) × List (BondInfo Q))) (qb : Q) (n l r : Nat) (b : Nat → SpT Q 𝕜) (Y : List (BondInfo Q))
    (b' : Nat → SpT Q 𝕜) (Y' : List (BondInfo Q)) : Prop :=
  (∀ i, i < l ∨ r ≤ i → b' i = b i) ∧ SameOutside l r Y Y' ∧ FitsOn [(0, 1)] [(qb, 1)] (phys.map Prod.fst) n Y' b' ∧ ∀ i < n, EvenBlocks isF (b' i)

/-- The tensors of the window merge to a tensor with the components of `V`. -/
def MergesTo (ids : Mpe.Idents Q 𝕜) (l r : Nat) (b' : Nat → SpT Q 𝕜) (V : SpT Q 𝕜) : Prop :=
  ∀ m' B, Mpe.effMps ids.lBra ((List.range' l (r - l)).map b') ids.rBra = some m' → m'.merge = some ⟨[B], 0⟩ →
    ∀ x, entry B ((0, 0) :: x ++ [(0, 0)]) = entry V ((0, 0) :: x ++ [(0, 0)])

/-- A linear sweep (`linear.py` 46-100) for the bra `bra0` and the ket `ket0`, window after window: environments are built, `mpe[l:r]` gives the local
problem, the tensors of its ket are merged, `multiply` reports the norm `w` and a tensor `V`; the ket is put back as it was, and the tensors put back in
the bra merge to `V` (nothing is cut off).  The list has the norms reported, the latest first.  `t` is the object after `build_envs`. -/
inductive LinearRun [DecidableEq 𝕜] (isF : Q → Bool) (le : Q → Q → Bool) (qr : Arr 𝕜 → Arr 𝕜 × Arr 𝕜) (mpo : Mpo Q 𝕜) (ids : Mpe.Idents Q 𝕜) (qb qk : Q)
    (phys : List (List (BondInfo Q) × List (BondInfo Q))) (bra0 ket0 : Nat → SpT Q 𝕜) : Mpe.Sys (SpT Q 𝕜) (Option (OpT Q 𝕜)) → List ℝ → Prop where
  | new : LinearRun isF le qr mpo ids qb qk phys bra0 ket0 (Mpe.new ket0 bra0) []
  | step {s s1 s2 t : Mpe.Sys (SpT Q 𝕜) (Option (OpT Q 𝕜))} {ws : List ℝ} {w : ℝ} (l r builds : Nat) {o : Mpo Q 𝕜} {bra ket : Mps Q 𝕜} {T V : SpT Q 𝕜}
      (kets bras : List (SpT Q 𝕜)) :
      LinearRun isF le qr mpo ids qb qk phys bra0 ket0 s ws → l < r → r ≤ l + 2 → r ≤ mpo.tensors.length →
      (List.replicate builds ()).foldlM (fun s _ => Mpe.buildEnvs (Mpe.sweepCfg isF qr true false mpo.tensors ids) l r s) s = some s1 →
      Mpe.buildEnvs (Mpe.sweepCfg isF qr true false mpo.tensors ids) l r s1 = some t →
      Mpe.effective isF qr true false mpo ids l r s1 = some (bra, o, ket) → ket.merge = some ⟨[T], 0⟩ →
      Mpe.multiply isF le o ⟨[T], 0⟩ = some (w, ⟨[V], 0⟩) → w ≠ 0 →
      Mpe.setRange t.ket l r kets = t.ket →
      (∀ Y, FitsOn [(0, 1)] [(qb, 1)] (phys.map Prod.fst) mpo.tensors.length Y t.bra →
        IsometricOutside [(0, 1)] [(qb, 1)] (phys.map Prod.fst) mpo.tensors.length Y l r t.bra →
        ∃ Y', WindowBra isF phys qb mpo.tensors.length l r t.bra Y (Mpe.setRange t.bra l r bras) Y') →
      MergesTo ids l r (Mpe.setRange t.bra l r bras) V →
      Mpe.setWindow (Mpe.sweepCfg isF qr true false mpo.tensors ids) l r kets (some bras) s1 = some s2 →
      LinearRun isF le qr mpo ids qb qk phys bra0 ket0 s2 (w :: ws)

end
end Verif
