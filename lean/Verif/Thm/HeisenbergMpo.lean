import Verif.Proof.HeisenbergMpoChain
import Verif.Thm.BuildMpo
import Mathlib.Data.Fin.VecNotation
import Mathlib.Data.Rat.Defs

/-!
Property C70: the matrix product operator that `Heisenberg.build_mpo` makes has the matrix elements of the Heisenberg operator.
-/

set_option linter.unusedSectionVars false

namespace Verif
namespace Heisenberg
open BuildMpo Symbolic
open Hamiltonian (sum_apply)
variable {K : Type} [Field K] [DecidableEq K] {V : Type} {n t : Nat}

/-- The list of bonds as the code has it. -/
def topologyOf (bonds : List (Fin n × Fin n × K)) : List (Int × Int × K) := bonds.map fun b => ((b.1.1 : Int), (b.2.1.1 : Int), b.2.2)

theorem value_spin (sqrt : Int → K) (i : Fin n) {nm : Name} (h : nm ≠ .i) : value sqrt n t nm [(i.1 : Int)] = onSite i (spinMat sqrt nm) := by
  simp [value, if_neg h, i.2]

theorem coupling_eq (sqrt : Int → K) (i j : Fin n) : coupling K (value sqrt n t) i.1 j.1 = spinProduct sqrt i j := by
  unfold coupling spinProduct
  simp only [value_spin sqrt _ (show Name.sp ≠ .i by decide), value_spin sqrt _ (show Name.sm ≠ .i by decide), value_spin sqrt _ (show Name.sz ≠ .i by decide)]
  rfl

theorem sym_label {a : Name} {q : SZ} (m : Int) (h : spinLabel a = some q) : (sym a m : OpElement Name SZ K).label = q ∧ a ≠ .i ∧ a ≠ .x ∧
    labels a [m] = some q := by
  cases a <;> simp only [spinLabel, Option.some.injEq, reduceCtorEq] at h <;> subst h <;> exact ⟨rfl, by decide, by decide, rfl⟩

/-- C70: for every spin and every list of bonds between different sites, `build_mpo` makes a matrix product operator with the matrix elements of the sum over the
bonds of coupling constant times scalar product of the spins.  The singular values that are not kept are zero. -/
theorem C70_mpo (sqrt : Int → K) (small : K → Bool) (hsmall : ∀ x, small x = true ↔ x = 0) (c : V → K) (svd : Arr K → Arr K × Arr V × Arr K) (hsvd : IsSvd c svd)
    (big : V → Bool) (hbig : ∀ s, big s = false → c s = 0) (t n : Nat) (hn : 0 < n) (bonds : List (Fin n × Fin n × K)) (hb : ∀ b ∈ bonds, b.1 ≠ b.2.1) :
    ∃ ws X, buildMpo sqrt small c svd big t n (topologyOf bonds) = some ws ∧ Represents (t := t) (heisenberg sqrt bonds) ws X := by
  have hne : ∀ p ∈ topologyOf bonds, p.1 ≠ p.2.1 := by
    intro p hp
    obtain ⟨b, h, rfl⟩ := List.mem_map.1 hp
    intro e
    refine hb b h (Fin.ext ?_)
    simpa using e
  let v := value sqrt n t
  have hvcomm : ∀ (p q : Name) (i j : Fin n), i ≠ j → v p [(i.1 : Int)] * v q [(j.1 : Int)] = v q [(j.1 : Int)] * v p [(i.1 : Int)] := by
    intro p q i j hij
    by_cases hx : p = .i
    · subst hx; simp [v, value]
    · by_cases hy : q = .i
      · subst hy; simp [v, value]
      · simp only [v, value_spin sqrt _ hx, value_spin sqrt _ hy]
        exact onSite_comm hij _ _
  obtain ⟨m, e1, s, e2, e3, e4⟩ := terms_eval small (topologyOf bonds) v hne
  have hexpr : hExpr small (topologyOf bonds) = some (OpSum.sort false s) := by
    unfold hExpr
    rw [e1, Option.bind_some, e2, Option.map_some]
  have hstr : ∀ x ∈ s.filterMap id, ∃ (a b : Name) (i j : Fin n) (q : SZ), i ≠ j ∧ spinLabel a = some q ∧ spinLabel b = some (-q) ∧
      x.ops = [sym a i.1, sym b j.1] := by
    intro x hx
    obtain ⟨a, b, p, hp, h1, h2, h3⟩ := e3 x hx
    obtain ⟨b', h, rfl⟩ := List.mem_map.1 hp
    obtain ⟨q, hq⟩ := Option.isSome_iff_exists.1 h1
    exact ⟨a, b, b'.1, b'.2.1, q, hb b' h, hq, by rw [h2, hq]; rfl, h3⟩
  have hval : ((OpSum.sort false s).map (evalString v)).sum = heisenberg sqrt bonds := by
    have h1 : ((OpSum.sort false s).map (evalString v)).sum = (s.map (evalOpt v)).sum := by
      unfold OpSum.sort
      rw [List.map_map]
      have hs : ∀ x ∈ s.filterMap id, evalString v (x.sort false) = evalString v x := by
        intro x hx
        obtain ⟨a, b, i, j, q, hij, -, -, hx'⟩ := hstr x hx
        apply C27_boson
        intro y hy z hz hyz
        rw [hx'] at hy hz
        simp only [List.mem_cons, List.not_mem_nil, or_false] at hy hz
        have e : ∀ (p : Name) (k : Int), evalElem v (sym p k : OpElement Name SZ K) = v p [k] := by
          intro p k
          simp [evalElem, sym]
        rcases hy with rfl | rfl <;> rcases hz with rfl | rfl
        · exact absurd rfl hyz
        · rw [e, e]; exact hvcomm _ _ _ _ hij
        · rw [e, e]; exact hvcomm _ _ _ _ hij.symm
        · exact absurd rfl hyz
      rw [List.map_congr_left (f := evalString v ∘ OpString.sort false) (g := evalString v) (fun x hx => hs x hx)]
      clear e2 e3 e4 hs hexpr hstr
      induction s with
      | nil => rfl
      | cons a r ih =>
        cases a with
        | none => simpa [evalOpt] using ih
        | some a => simpa [evalOpt] using ih
    rw [h1, e4, topologyOf, List.map_map, heisenberg]
    congr 1
    refine List.map_congr_left fun b _ => ?_
    simp only [Function.comp_apply, v, coupling_eq]
  have hcol : ColOK Name.x labels iSymbol n (0 : Nat) True
      (⟨[hSymbol], [some hSymbol], [(key (hSymbol (K := K)), .sum ((OpSum.sort false s).map some))]⟩ : Column Name SZ K) := by
    refine ⟨rfl, ?_⟩
    intro j e hj
    cases j with
    | succ j => simp at hj
    | zero =>
      simp only [List.getElem?_cons_zero, Option.some.injEq] at hj
      subst hj
      refine ⟨hSymbol, _, .sum ((OpSum.sort false s).map some), rfl, by simp [Dict.get?], Or.inl ⟨rfl, rfl, by simp [AccOK], by simp⟩, ?_⟩
      intro y hy
      simp only [strs, OpSum.sort, List.filterMap_map, List.map_map] at hy
      have hy : y ∈ (s.filterMap id).map (OpString.sort false) := by simpa using hy
      obtain ⟨x, hx, rfl⟩ := List.mem_map.1 hy
      obtain ⟨a, b, i, j, q, hij, ha, hb', hx'⟩ := hstr x hx
      obtain ⟨h1, h2⟩ := C27_sorted false x
      obtain ⟨a1, a2, a3, a4⟩ := sym_label (K := K) i.1 ha
      obtain ⟨b1, b2, b3, b4⟩ := sym_label (K := K) j.1 hb'
      refine ⟨⟨h2, ?_⟩, ?_, ?_⟩
      · intro w hw
        have hw := h1.mem_iff.1 hw
        rw [hx'] at hw
        simp only [List.mem_cons, List.not_mem_nil, or_false] at hw
        rcases hw with rfl | rfl
        · exact ⟨⟨rfl, by rw [a1]; exact a4, a3⟩, Or.inr ⟨_, _, rfl, by simp, by exact_mod_cast i.2⟩⟩
        · exact ⟨⟨rfl, by rw [b1]; exact b4, b3⟩, Or.inr ⟨_, _, rfl, by simp, by exact_mod_cast j.2⟩⟩
      · have : charge (x.sort false).ops = charge x.ops := (h1.map _).sum_eq
        rw [this, hx', charge, List.map_cons, List.map_cons, List.map_nil, a1, b1]
        simp [hSymbol]
      · intro _ h0
        have := h1.length_eq
        rw [h0, hx'] at this
        simp at this
  have hid : IdentOK Name.x labels (iSymbol : OpElement Name SZ K) := ⟨⟨rfl, rfl, fun h => by simp [iSymbol] at h⟩, rfl, rfl⟩
  obtain ⟨ms, col, h1, h2, h3, h4, h5, h6, h7⟩ := split_chain (R := Matrix (Spins n t) (Spins n t) K) (Name.x, Name.xl, Name.xr) rfl hid hsmall hsvd hbig (n := n) (n - 1) 0 _ _ hcol
  have hlast : LastOk labels (iSymbol : OpElement Name SZ K) ((n : Int) - 1) True col := by
    refine ⟨h3.rows, ?_, ?_⟩
    · intro j e hj
      obtain ⟨a, w, val, g1, g2, g3, g4⟩ := h3.entries j e hj
      refine ⟨a, w, g1, g2, g3.plain, ?_⟩
      intro y hy
      obtain ⟨z, hz, e⟩ := g3.ops y hy
      obtain ⟨⟨_, g5⟩, g6, _⟩ := g4 z hz
      rw [e]
      refine ⟨fun b hb => ⟨(g5 b hb).1.1, (g5 b hb).1.2.1, ?_⟩, g6⟩
      rcases (g5 b hb).2 with h | ⟨s', t', h8, h9, h10⟩
      · exact Or.inl h
      · refine Or.inr ?_
        rw [h8]
        simp only [List.head?_cons, Option.some.injEq]
        omega
    · intro _ j e w hj hw y hy
      obtain ⟨a, w', val, g1, g2, g3, g4⟩ := h3.entries j e hj
      rw [hw] at g2
      injection g2 with g2
      subst g2
      obtain ⟨z, hz, e⟩ := g3.ops y hy
      rw [e]
      exact (g4 z hz).2.2 (Or.inr trivial)
  obtain ⟨ws, k1, k2, k3, k4⟩ := chain_ok (t := t) sqrt (n := n) trivial col hlast ms 0 (by omega) (fun k m hk => by simpa using h4 k m hk) h5
  have hl : headLabels ms col = [0] := by
    rw [headLabels, h6]
    rfl
  have trivial_leg : rightLeg ([0] : List SZ) = [(0, 1)] := by decide
  have trivial_left : leftLeg (0 : SZ) [0] = [(0, 1)] := by decide
  rw [hl, trivial_left, trivial_leg] at k2
  refine ⟨ws, Heisenberg.bonds ms, ?_, ⟨by simpa using k2, ?_, k3, ?_⟩⟩
  · rw [buildMpo, hexpr, Option.bind_some, List.range_eq_range', h1]
    exact k1
  · intro b hb
    obtain ⟨m, _, rfl⟩ := List.mem_map.1 hb
    exact leg_good _
  · intro u d
    have e := k4 0 (0, 0) (by rw [hl]; exact ⟨rfl, rfl⟩) u d
    rw [if_pos (fun l hl => absurd hl (by omega)), List.drop_zero, List.drop_zero] at e
    refine Eq.trans ?_ (e.symm.trans ?_)
    · simp
    · rw [h7 v (by simp [v, value, iSymbol]) 0 (by simp), ← hval]
      simp only [columnValue, List.getElem?_cons_zero, entryValue, hSymbol, Dict.get?, if_true, Option.getD_some, evalVal_sum, List.map_map]
      simp
      rfl

/-! ### The total spin -/

/-- The sum over the sites of a matrix of one site. -/
def total (n : Nat) (A : Matrix (Fin (t + 1)) (Fin (t + 1)) K) : Matrix (Spins n t) (Spins n t) K := ∑ i, onSite i A

theorem spin_algebra [CharZero K] (sqrt : Int → K) (hsqrt : ∀ m : Int, 0 ≤ m → sqrt m * sqrt m = (m : K)) (t : Nat) :
    (raising sqrt : Matrix (Fin (t + 1)) (Fin (t + 1)) K) * lowering sqrt - lowering sqrt * raising sqrt = 2 • magnetic ∧
    magnetic * (raising sqrt : Matrix (Fin (t + 1)) (Fin (t + 1)) K) - raising sqrt * magnetic = raising sqrt ∧
    magnetic * (lowering sqrt : Matrix (Fin (t + 1)) (Fin (t + 1)) K) - lowering sqrt * magnetic = - lowering sqrt := by
  obtain ⟨P, M, Z, h1, h2, h3, h4, h5, h6, -⟩ := C43_algebra (K := K) sqrt hsqrt t
  obtain ⟨P', p1, -, p3⟩ := spin_site (t := t) sqrt (nm := .sp) rfl ⟨.sp, [], 1, 0⟩ rfl
  obtain ⟨M', m1, -, m3⟩ := spin_site (t := t) sqrt (nm := .sm) rfl ⟨.sm, [], 1, 0⟩ rfl
  obtain ⟨Z', z1, -, z3⟩ := spin_site (t := t) sqrt (nm := .sz) rfl ⟨.sz, [], 1, 0⟩ rfl
  obtain rfl : P = P' := Option.some.inj (h1.symm.trans p1)
  obtain rfl : M = M' := Option.some.inj (h2.symm.trans m1)
  obtain rfl : Z = Z' := Option.some.inj (h3.symm.trans z1)
  rw [p3, m3] at h4
  rw [p3] at h5
  rw [m3] at h6
  rw [z3] at h4 h5 h6
  exact ⟨h4, h5, h6⟩

theorem onSite_sub (i : Fin n) (A B : Matrix (Fin (t + 1)) (Fin (t + 1)) K) : onSite i (A - B) = onSite i A - onSite i B := by
  ext u d
  simp only [onSite, Matrix.sub_apply]
  split_ifs <;> simp

/-- Two spins: their scalar product commutes with the sum of the raising, of the lowering, and of the magnetic operators. -/
theorem pair_commutes {R : Type} [Ring R] [Algebra K R] (h2 : (2 : K) ≠ 0) {P M Z p m z : R} (hPm : P * m = m * P) (hPp : P * p = p * P) (hPz : P * z = z * P) (hMm : M * m = m * M)
    (hMp : M * p = p * M) (hMz : M * z = z * M) (hZm : Z * m = m * Z) (hZp : Z * p = p * Z) (hZz : Z * z = z * Z)
    (A1 : P * M - M * P = 2 • Z) (A2 : Z * P - P * Z = P) (A3 : Z * M - M * Z = -M) (B1 : p * m - m * p = 2 • z) (B2 : z * p - p * z = p) (B3 : z * m - m * z = -m) :
    Commute ((1 / 2 : K) • (P * m + M * p) + Z * z) (P + p) ∧ Commute ((1 / 2 : K) • (P * m + M * p) + Z * z) (M + m) ∧
      Commute ((1 / 2 : K) • (P * m + M * p) + Z * z) (Z + z) := by
  have half : ∀ x : R, (1 / 2 : K) • (2 • x) = x := by
    intro x
    rw [← Nat.cast_smul_eq_nsmul K, smul_smul]
    norm_num [h2]
  have key : ∀ x : R, ((P * m + M * p) * x - x * (P * m + M * p)) + 2 • (Z * z * x - x * (Z * z)) = 0 → Commute ((1 / 2 : K) • (P * m + M * p) + Z * z) x := by
    intro x h
    have e := half (Z * z * x - x * (Z * z))
    rw [Commute, SemiconjBy, ← sub_eq_zero]
    have : ((1 / 2 : K) • (P * m + M * p) + Z * z) * x - x * ((1 / 2 : K) • (P * m + M * p) + Z * z) =
        (1 / 2 : K) • ((P * m + M * p) * x - x * (P * m + M * p)) + (Z * z * x - x * (Z * z)) := by
      rw [add_mul, mul_add, smul_mul_assoc, mul_smul_comm, smul_sub]
      abel
    rw [this, ← e, ← smul_add, h, smul_zero]
  refine ⟨key _ ?_, key _ ?_, key _ ?_⟩
  · have a : P * m * P = P * P * m := by rw [mul_assoc, ← hPm, mul_assoc]
    have b : M * p * P = M * P * p := by rw [mul_assoc, ← hPp, mul_assoc]
    have c : P * (M * p) = P * M * p := (mul_assoc ..).symm
    have d : p * (P * m) = P * (p * m) := by rw [← mul_assoc, ← hPp, mul_assoc]
    have e : p * (M * p) = M * p * p := by rw [← mul_assoc, ← hMp]
    have f : Z * z * P = Z * P * z := by rw [mul_assoc, ← hPz, mul_assoc]
    have g : p * (Z * z) = Z * (p * z) := by rw [← mul_assoc, ← hZp, mul_assoc]
    have s1 : P * (p * m - m * p) = 2 • (P * z) := by rw [B1, mul_smul_comm]
    have s2 : (P * M - M * P) * p = 2 • (Z * p) := by rw [A1, smul_mul_assoc]
    have s3 : (Z * P - P * Z) * z = P * z := by rw [A2]
    have s4 : Z * (z * p - p * z) = Z * p := by rw [B2]
    rw [mul_sub] at s1 s4
    rw [sub_mul] at s2 s3
    have t1 : (P * m + M * p) * (P + p) - (P + p) * (P * m + M * p) = -(P * (p * m) - P * (m * p)) - (P * M * p - M * P * p) := by
      rw [mul_add, add_mul, add_mul, add_mul, mul_add, mul_add, a, b, c, d, e, mul_assoc P m p, ← mul_assoc P P m]
      abel
    have t2 : Z * z * (P + p) - (P + p) * (Z * z) = (Z * P * z - P * Z * z) + (Z * (z * p) - Z * (p * z)) := by
      rw [mul_add, add_mul, f, g, mul_assoc Z z p, ← mul_assoc P Z z]
      abel
    rw [t1, t2, s1, s2, s3, s4]
    rw [smul_add]
    abel
  · have a : P * m * M = P * M * m := by rw [mul_assoc, ← hMm, mul_assoc]
    have b : M * p * M = M * M * p := by rw [mul_assoc, ← hMp, mul_assoc]
    have d : m * (P * m) = P * m * m := by rw [← mul_assoc, ← hPm]
    have e : m * (M * p) = M * (m * p) := by rw [← mul_assoc, ← hMm, mul_assoc]
    have f : Z * z * M = Z * M * z := by rw [mul_assoc, ← hMz, mul_assoc]
    have g : m * (Z * z) = Z * (m * z) := by rw [← mul_assoc, ← hZm, mul_assoc]
    have s1 : M * (p * m - m * p) = 2 • (M * z) := by rw [B1, mul_smul_comm]
    have s2 : (P * M - M * P) * m = 2 • (Z * m) := by rw [A1, smul_mul_assoc]
    have s3 : (Z * M - M * Z) * z = -(M * z) := by rw [A3, neg_mul]
    have s4 : Z * (z * m - m * z) = -(Z * m) := by rw [B3, mul_neg]
    rw [mul_sub] at s1 s4
    rw [sub_mul] at s2 s3
    have t1 : (P * m + M * p) * (M + m) - (M + m) * (P * m + M * p) = (P * M * m - M * P * m) + (M * (p * m) - M * (m * p)) := by
      rw [mul_add, add_mul, add_mul, add_mul, mul_add, mul_add, a, b, d, e, mul_assoc M p m, ← mul_assoc M P m, ← mul_assoc M M p]
      abel
    have t2 : Z * z * (M + m) - (M + m) * (Z * z) = (Z * M * z - M * Z * z) + (Z * (z * m) - Z * (m * z)) := by
      rw [mul_add, add_mul, f, g, mul_assoc Z z m, ← mul_assoc M Z z]
      abel
    rw [t1, t2, s1, s2, s3, s4]
    rw [smul_add, smul_neg, smul_neg]
    abel
  · have a : P * m * Z = P * Z * m := by rw [mul_assoc, ← hZm, mul_assoc]
    have b : M * p * Z = M * Z * p := by rw [mul_assoc, ← hZp, mul_assoc]
    have d : z * (P * m) = P * (z * m) := by rw [← mul_assoc, ← hPz, mul_assoc]
    have e : z * (M * p) = M * (z * p) := by rw [← mul_assoc, ← hMz, mul_assoc]
    have f : Z * z * Z = Z * Z * z := by rw [mul_assoc, ← hZz, mul_assoc]
    have g : z * (Z * z) = Z * z * z := by rw [← mul_assoc, ← hZz]
    have s1 : P * (z * m - m * z) = -(P * m) := by rw [B3, mul_neg]
    have s2 : (Z * P - P * Z) * m = P * m := by rw [A2]
    have s3 : (Z * M - M * Z) * p = -(M * p) := by rw [A3, neg_mul]
    have s4 : M * (z * p - p * z) = M * p := by rw [B2]
    rw [mul_sub] at s1 s4
    rw [sub_mul] at s2 s3
    have t1 : (P * m + M * p) * (Z + z) - (Z + z) * (P * m + M * p) =
        -(Z * P * m - P * Z * m) - (Z * M * p - M * Z * p) - (P * (z * m) - P * (m * z)) - (M * (z * p) - M * (p * z)) := by
      rw [mul_add, add_mul, add_mul, add_mul, mul_add, mul_add, a, b, d, e, mul_assoc P m z, mul_assoc M p z, ← mul_assoc Z P m, ← mul_assoc Z M p]
      abel
    have t2 : Z * z * (Z + z) - (Z + z) * (Z * z) = 0 := by
      rw [mul_add, add_mul, f, g, ← mul_assoc Z Z z]
      abel
    rw [t1, t2, s1, s2, s3, s4]
    abel

/-- C70: the operator conserves the total spin: it commutes with all three components of the sum of the spins. -/
theorem C70_total_spin [CharZero K] (sqrt : Int → K) (hsqrt : ∀ m : Int, 0 ≤ m → sqrt m * sqrt m = (m : K)) (t n : Nat) (bonds : List (Fin n × Fin n × K))
    (hb : ∀ b ∈ bonds, b.1 ≠ b.2.1) :
    Commute (heisenberg (t := t) sqrt bonds) (total n (raising sqrt)) ∧ Commute (heisenberg (t := t) sqrt bonds) (total n (lowering sqrt)) ∧
      Commute (heisenberg (t := t) sqrt bonds) (total n magnetic) := by
  obtain ⟨a1, a2, a3⟩ := spin_algebra (K := K) sqrt hsqrt t
  have alg : ∀ i : Fin n, onSite i (raising sqrt) * onSite i (lowering sqrt) - onSite i (lowering sqrt) * onSite i (raising sqrt) = 2 • onSite i (magnetic : Matrix (Fin (t + 1)) (Fin (t + 1)) K) ∧
      onSite i magnetic * onSite i (raising sqrt) - onSite i (raising sqrt) * onSite i (magnetic : Matrix (Fin (t + 1)) (Fin (t + 1)) K) = onSite i (raising sqrt) ∧
      onSite i magnetic * onSite i (lowering sqrt) - onSite i (lowering sqrt) * onSite i (magnetic : Matrix (Fin (t + 1)) (Fin (t + 1)) K) = - onSite i (lowering sqrt) := by
    intro i
    simp only [← onSite_mul, ← onSite_sub]
    refine ⟨?_, by rw [a2], ?_⟩
    · rw [a1, ← Nat.cast_smul_eq_nsmul K, onSite_smul, Nat.cast_smul_eq_nsmul]
    · rw [a3, ← neg_one_smul K, onSite_smul, neg_one_smul]
  have one : ∀ (A : Matrix (Fin (t + 1)) (Fin (t + 1)) K) (i j : Fin n), i ≠ j → Commute (spinProduct sqrt i j) (onSite i A + onSite j A) →
      Commute (spinProduct sqrt i j) (total n A) := by
    intro A i j hij h
    have : total n A = (onSite i A + onSite j A) + ∑ k ∈ Finset.univ.filter (fun k => k ≠ i ∧ k ≠ j), onSite k A := by
      rw [total, ← Finset.sum_filter_add_sum_filter_not Finset.univ (fun k => k ≠ i ∧ k ≠ j), add_comm]
      congr 1
      rw [← Finset.sum_pair (f := fun k => onSite k A) hij]
      congr 1
      ext k
      simp only [Finset.mem_filter, Finset.mem_univ, true_and, Finset.mem_insert, Finset.mem_singleton]
      tauto
    rw [this]
    refine h.add_right (Commute.sum_right _ _ _ fun k hk => ?_)
    obtain ⟨-, h1, h2⟩ := Finset.mem_filter.1 hk
    unfold spinProduct
    have c : ∀ B C, Commute (onSite i B * onSite j C) (onSite k A) := fun B C =>
      Commute.mul_left (onSite_comm h1.symm _ _) (onSite_comm h2.symm _ _)
    exact (((c _ _).add_left (c _ _)).smul_left _).add_left (c _ _)
  have all : ∀ A : Matrix (Fin (t + 1)) (Fin (t + 1)) K, (∀ i j : Fin n, i ≠ j → Commute (spinProduct sqrt i j) (onSite i A + onSite j A)) →
      Commute (heisenberg (t := t) sqrt bonds) (total n A) := by
    intro A h
    unfold heisenberg
    induction bonds with
    | nil => exact Commute.zero_left _
    | cons b l ih =>
      rw [List.map_cons, List.sum_cons]
      refine Commute.add_left (Commute.smul_left (one A _ _ (hb b (by simp)) (h _ _ (hb b (by simp)))) _) (ih fun b hb' => hb b (by simp [hb']))
  have h2 : (2 : K) ≠ 0 := by norm_num
  have pc := fun (i j : Fin n) (hij : i ≠ j) => pair_commutes (K := K) (R := Matrix (Spins n t) (Spins n t) K) h2
    (onSite_comm hij (raising sqrt) (lowering sqrt)) (onSite_comm hij (raising sqrt) (raising sqrt)) (onSite_comm hij (raising sqrt) magnetic)
    (onSite_comm hij (lowering sqrt) (lowering sqrt)) (onSite_comm hij (lowering sqrt) (raising sqrt)) (onSite_comm hij (lowering sqrt) magnetic)
    (onSite_comm hij magnetic (lowering sqrt)) (onSite_comm hij magnetic (raising sqrt)) (onSite_comm hij magnetic magnetic)
    (alg i).1 (alg i).2.1 (alg i).2.2 (alg j).1 (alg j).2.1 (alg j).2.2
  exact ⟨all _ fun i j hij => (pc i j hij).1, all _ fun i j hij => (pc i j hij).2.1, all _ fun i j hij => (pc i j hij).2.2⟩

/-! ### A concrete case -/

/-- Three sites of spin one half; a bond is also written from the later to the earlier site.  Exchange of two opposite spins has half of the coupling. -/
example : ∃ ws X, buildMpo (fun m => (m : ℚ)) (fun x => decide (x = 0)) (fun x : ℚ => x) plainSvd (fun x => decide (x ≠ 0)) 1 3 [(0, 1, 4), (2, 0, 3)] = some ws ∧
    OpOnBonds SZ.isFermion ([(0, 1)] :: X ++ [[(0, 1)]]) (List.replicate 3 ([basis 1], [basis 1])) ws ∧
    opAmpl SZ.isFermion ws X false (0, 0) (legsOf (n := 3) (t := 1) ![1, 0, 0]) (legsOf (n := 3) (t := 1) ![0, 1, 0]) (0, 0) = 2 ∧
    opAmpl SZ.isFermion ws X false (0, 0) (legsOf (n := 3) (t := 1) ![1, 0, 1]) (legsOf (n := 3) (t := 1) ![1, 0, 1]) (0, 0) = -1 / 4 := by
  obtain ⟨ws, X, h1, h2⟩ := C70_mpo (K := ℚ) (fun m => (m : ℚ)) (fun x => decide (x = 0)) (by simp) (fun x => x) plainSvd plainSvd_isSvd (fun x => decide (x ≠ 0)) (by simp)
    1 3 (by decide) [(0, 1, 4), (2, 0, 3)] (by decide)
  refine ⟨ws, X, h1, h2.bonds, (h2.elements _ _).trans ?_, (h2.elements _ _).trans ?_⟩
  · decide +kernel
  · decide +kernel

end Heisenberg
end Verif
