import Verif.Model.Symmetry
import Verif.Spec.Basic
import Mathlib.Data.List.Basic
import Mathlib.Tactic.Ring
import Mathlib.Tactic.Linarith
import Mathlib.Tactic.SplitIfs
import Mathlib.Algebra.Group.Prod
import Mathlib.Algebra.BigOperators.Group.List.Basic

/-!
Properties C01-C04: packed quantum labels.
-/

namespace Verif

/-! ### Specification -/

/-- A label that fits the packed format: 14 bits for `n` and `2 Sz`, 3 bits for the irrep. -/
def SZ.InRange (q : SZ) : Prop :=
  -8192 ≤ q.n ∧ q.n < 8192 ∧ -8192 ≤ q.twos ∧ q.twos < 8192 ∧ q.pg < 8

/-- Lexicographic order of labels. -/
def SZ.LexLt (a b : SZ) : Prop :=
  a.n < b.n ∨ (a.n = b.n ∧ (a.twos < b.twos ∨ (a.twos = b.twos ∧ a.pg < b.pg)))

/-! ### C01 -/

theorem SZ.ext' {a b : SZ} (h1 : a.n = b.n) (h2 : a.twos = b.twos) (h3 : a.pg = b.pg) : a = b := by
  cases a; cases b; simp_all

theorem and_131072 (x : Nat) : (x &&& 131072 ≠ 0) ↔ x / 131072 % 2 = 1 := by
  have h : x &&& 131072 = 2 ^ 17 * (x.testBit 17).toNat := by
    have := Nat.and_two_pow x 17
    simpa [Nat.mul_comm] using this
  rw [h]
  have : x.testBit 17 = decide (x / 131072 % 2 = 1) := by
    rw [Nat.testBit_eq_decide_div_mod_eq]
  rw [this]
  by_cases hx : x / 131072 % 2 = 1 <;> simp [hx]

/-- C01: packing then unpacking an in-range label is the identity. -/
theorem C01_roundtrip (q : SZ) (h : q.InRange) : SZ.fromFlat q.toFlat = q := by
  obtain ⟨h1, h2, h3, h4, h5⟩ := h
  apply SZ.ext' <;> simp only [SZ.fromFlat, SZ.toFlat] <;> omega

/-- C01: different in-range labels have different packed integers. -/
theorem C01_injective (a b : SZ) (ha : a.InRange) (hb : b.InRange) (h : a.toFlat = b.toFlat) :
    a = b := by
  rw [← C01_roundtrip a ha, ← C01_roundtrip b hb, h]

/-- C01: packed integers are in `[0, 2^31)`, so they fit an unsigned 32-bit word. -/
theorem C01_fits (q : SZ) (h : q.InRange) : 0 ≤ q.toFlat ∧ q.toFlat < 2 ^ 31 := by
  obtain ⟨h1, h2, h3, h4, h5⟩ := h
  simp only [SZ.toFlat]; omega

/-- C01: the other direction of the round trip, so packing is a bijection onto `[0, 2^31)`. -/
theorem C01_surjective (x : Int) (h0 : 0 ≤ x) (h1 : x < 2 ^ 31) :
    (SZ.fromFlat x).InRange ∧ (SZ.fromFlat x).toFlat = x := by
  refine ⟨⟨?_, ?_, ?_, ?_, ?_⟩, ?_⟩ <;> simp only [SZ.fromFlat, SZ.toFlat] <;> omega

/-- C01: comparing packed in-range labels is comparing the labels. -/
theorem C01_order (a b : SZ) (ha : a.InRange) (hb : b.InRange) :
    a.toFlat < b.toFlat ↔ SZ.lt a b = true := by
  obtain ⟨h1, h2, h3, h4, h5⟩ := ha
  obtain ⟨g1, g2, g3, g4, g5⟩ := hb
  unfold SZ.lt SZ.toFlat
  split_ifs with c1 c2 <;> simp only [decide_eq_true_eq, beq_iff_eq] at * <;> omega

/-- C01: the packed parity test answers "odd number of particles" for every label whose
packed form is nonnegative, in particular for in-range labels. -/
theorem C01_parity (q : SZ) (h : q.InRange) : SZ.isFlatFermion q.toFlat = true ↔ Odd q.n := by
  obtain ⟨h1, h2, h3, h4, h5⟩ := h
  unfold SZ.isFlatFermion
  rw [bne_iff_ne, and_131072, Int.odd_iff]
  simp only [SZ.toFlat]
  omega

/-- C01: the unpacked parity test is the same predicate. -/
theorem C01_parity_obj (q : SZ) : q.isFermion = true ↔ Odd q.n := by
  rw [Int.odd_iff]; simp [SZ.isFermion]

/-- C01: outside the range the packing is not injective and not invertible. -/
theorem C01_collision_out_of_range :
    ∃ a b : SZ, a ≠ b ∧ a.toFlat = b.toFlat ∧ a.InRange ∧ ¬ b.InRange := by
  refine ⟨⟨1, -8192, 0⟩, ⟨0, 8192, 0⟩, by decide, by decide, ?_, ?_⟩ <;>
    simp [SZ.InRange]

/-- the hypotheses of C01 are met by a label with negative and positive fields. -/
example : (⟨-3, 7, 5⟩ : SZ).InRange ∧ SZ.fromFlat (SZ.toFlat ⟨-3, 7, 5⟩) = ⟨-3, 7, 5⟩ ∧
    SZ.isFlatFermion (SZ.toFlat ⟨-3, 7, 5⟩) = true := by
  refine ⟨by simp [SZ.InRange], by decide, by decide⟩

/-! ### C02 -/

theorem C02_add_assoc (a b c : SZ) : (a.add b).add c = a.add (b.add c) := by
  apply SZ.ext' <;> simp [SZ.add, Int.add_assoc, Nat.xor_assoc]

theorem C02_add_comm (a b : SZ) : a.add b = b.add a := by
  apply SZ.ext' <;> simp [SZ.add, Int.add_comm, Nat.xor_comm]

theorem C02_zero_add (a : SZ) : SZ.zero.add a = a := by
  apply SZ.ext' <;> simp [SZ.add, SZ.zero]

theorem C02_neg_add (a : SZ) : a.neg.add a = SZ.zero := by
  apply SZ.ext' <;> simp [SZ.add, SZ.neg, SZ.zero]

theorem C02_sub_eq (a b : SZ) : a.sub b = a.add b.neg := by
  apply SZ.ext' <;> simp [SZ.add, SZ.neg, SZ.sub] <;> omega

theorem C02_add_sub_cancel (a b : SZ) : (a.add b).sub b = a := by
  apply SZ.ext' <;> simp [SZ.add, SZ.sub]

/-- C02: the library moves labels across equations, e.g. `a + b == c` as `a == c - b`. -/
theorem C02_transpose_law (a b c : SZ) : a.add b = c ↔ a = c.sub b := by
  constructor
  · rintro rfl; rw [C02_add_sub_cancel]
  · rintro rfl
    apply SZ.ext' <;> simp [SZ.add, SZ.sub]

theorem C02_parity_add (a b : SZ) : (a.add b).isFermion = xor a.isFermion b.isFermion := by
  have h1 := Int.emod_two_eq_zero_or_one a.n
  have h2 := Int.emod_two_eq_zero_or_one b.n
  have h3 : (a.n + b.n) % 2 = (a.n % 2 + b.n % 2) % 2 := Int.add_emod _ _ _
  simp only [SZ.isFermion, SZ.add, h3]
  rcases h1 with h1 | h1 <;> rcases h2 with h2 | h2 <;> simp [h1, h2]

/-- C02: the irrep stays within the point group (below 8) under all operations. -/
theorem C02_pg_closed (a b : SZ) (ha : a.pg < 8) (hb : b.pg < 8) :
    (a.add b).pg < 8 ∧ (a.sub b).pg < 8 ∧ a.neg.pg < 8 := by
  have : a.pg ^^^ b.pg < 2 ^ 3 := Nat.xor_lt_two_pow (by simpa using ha) (by simpa using hb)
  exact ⟨by simpa [SZ.add] using this, by simpa [SZ.sub] using this, by simpa [SZ.neg] using ha⟩

/-- C02: `==` is equality of all fields. -/
theorem C02_beq_iff (a b : SZ) : a.beq b = true ↔ a = b := by
  constructor
  · intro h
    simp [SZ.beq] at h
    exact SZ.ext' h.1.1 h.1.2 h.2
  · rintro rfl; simp [SZ.beq]

/-- C02: equal labels hash equally, whatever hash Python uses for tuples. -/
theorem C02_hash {H : Type} (f : Int × Int × Nat → H) (a b : SZ) (h : a.beq b = true) :
    SZ.hash f a = SZ.hash f b := by
  rw [(C02_beq_iff a b).1 h]

/-- C02: `<` on labels is the lexicographic order. -/
theorem C02_lt_iff (a b : SZ) : SZ.lt a b = true ↔ SZ.LexLt a b := by
  unfold SZ.lt SZ.LexLt
  split_ifs with h1 h2 <;> simp only [beq_iff_eq, decide_eq_true_eq] at * <;> omega

theorem C02_lt_irrefl (a : SZ) : SZ.lt a a = false := by simp [SZ.lt]

theorem C02_lt_trans (a b c : SZ) (h1 : SZ.lt a b = true) (h2 : SZ.lt b c = true) :
    SZ.lt a c = true := by
  rw [C02_lt_iff] at *
  unfold SZ.LexLt at *
  omega

theorem C02_lt_total (a b : SZ) : SZ.lt a b = true ∨ a = b ∨ SZ.lt b a = true := by
  rw [C02_lt_iff, C02_lt_iff]
  unfold SZ.LexLt
  by_cases h : a = b
  · exact Or.inr (Or.inl h)
  · have : ¬ (a.n = b.n ∧ a.twos = b.twos ∧ a.pg = b.pg) := fun ⟨x, y, z⟩ => h (SZ.ext' x y z)
    omega

example : SZ.lt ⟨1, -1, 3⟩ ⟨1, 1, 0⟩ = true ∧ (SZ.add ⟨1, -1, 3⟩ ⟨1, 1, 1⟩) = ⟨2, 0, 2⟩ := by decide

/-! ### C03 -/

/-- `U1` labels that can be packed. -/
def U1.InRange (q : U1) : Prop := -8192 ≤ q.n ∧ q.n < 8192
/-- `U1 x U1` labels that can be packed. -/
def U11.InRange (q : U11) : Prop := -8192 ≤ q.n ∧ q.n < 8192 ∧ -8192 ≤ q.sz ∧ q.sz < 8192

/-- C03 for `U1`: the packing of a single integer is lossless for every integer. -/
theorem C03_U1_roundtrip (q : U1) : U1.fromFlat q.toFlat = q := by
  cases q; simp [U1.fromFlat, U1.toFlat, U1.qpnToFlat, U1.flatToQpn]

theorem C03_U1_flip (q : U1) : U1.flipFlat q.toFlat = q.neg.toFlat := by
  simp [U1.flipFlat, U1.toFlat, U1.qpnToFlat, U1.neg]; omega

theorem C03_U1_parity (q : U1) : U1.flatToParity q.toFlat = q.parity := by
  simp only [U1.flatToParity, U1.toFlat, U1.qpnToFlat, U1.parity]; omega

/-- C03 for `U1`: packed labels of in-range labels are unsigned 32-bit words. -/
theorem C03_U1_fits (q : U1) (h : q.InRange) : 0 ≤ q.toFlat ∧ q.toFlat < 2 ^ 31 := by
  obtain ⟨h1, h2⟩ := h
  simp only [U1.toFlat, U1.qpnToFlat]; omega

/-- C03 for `Z2` and `Z4` (any positive even modulus): labels as constructed by the class. -/
theorem C03_Zm_roundtrip (m : Int) (k : Int) :
    (Zm.fromFlat (Zm.toFlat (Zm.mk' k : Zm m)) : Zm m) = Zm.mk' k := by
  simp [Zm.fromFlat, Zm.toFlat, Zm.qpnToFlat, Zm.flatToQpn, Zm.mk']

theorem C03_Zm_flip (m : Int) (k : Int) :
    Zm.flipFlat m (Zm.toFlat (Zm.mk' k : Zm m)) = Zm.toFlat (Zm.neg (Zm.mk' k : Zm m)) := by
  simp [Zm.flipFlat, Zm.toFlat, Zm.qpnToFlat, Zm.mk', Zm.neg]

theorem C03_Zm_parity (m : Int) (hm : 2 ∣ m) (k : Int) :
    Zm.flatToParity (Zm.toFlat (Zm.mk' k : Zm m)) = k % 2 ∧
    Zm.flatToParity (Zm.toFlat (Zm.mk' k : Zm m)) = Zm.parity (Zm.mk' k : Zm m) := by
  simp [Zm.flatToParity, Zm.toFlat, Zm.qpnToFlat, Zm.mk', Zm.parity, Int.emod_emod_of_dvd _ hm]

/-- C03 for `Z2`/`Z4`: the labels are integers modulo `m`: equal exactly when congruent. -/
theorem C03_Zm_eq_iff (m : Int) (j k : Int) :
    (Zm.mk' j : Zm m) = Zm.mk' k ↔ j % m = k % m := by
  simp [Zm.mk']

theorem C03_Zm_ops (m : Int) (j k : Int) :
    Zm.add (Zm.mk' j : Zm m) (Zm.mk' k) = Zm.mk' (j + k) ∧
    Zm.sub (Zm.mk' j : Zm m) (Zm.mk' k) = Zm.mk' (j - k) ∧
    Zm.neg (Zm.mk' j : Zm m) = Zm.mk' (-j) := by
  refine ⟨?_, ?_, ?_⟩ <;> simp only [Zm.add, Zm.sub, Zm.neg, Zm.mk', Zm.mk.injEq]
  · exact (Int.add_emod _ _ _).symm
  · exact (Int.sub_emod _ _ _).symm
  · rw [← Int.zero_sub, ← Int.zero_sub j, Int.sub_emod, Int.emod_emod, ← Int.sub_emod]

/-- C03 for `U1 x U1`. -/
theorem C03_U11_roundtrip (q : U11) (h : q.InRange) : U11.fromFlat q.toFlat = q := by
  obtain ⟨h1, h2, h3, h4⟩ := h
  cases q
  simp only [U11.fromFlat, U11.toFlat, U11.qpnToFlat, U11.flatToQpn, U11.mk.injEq] at *
  omega

theorem C03_U11_flip (q : U11) : U11.flipFlat q.toFlat = q.neg.toFlat := by
  simp only [U11.flipFlat, U11.toFlat, U11.qpnToFlat, U11.neg]; omega

theorem C03_U11_parity (q : U11) (h : q.InRange) : U11.flatToParity q.toFlat = q.parity := by
  obtain ⟨h1, h2, h3, h4⟩ := h
  simp only [U11.flatToParity, U11.toFlat, U11.qpnToFlat, U11.parity]; omega

/-- C03 for `U1 x U1`: packed labels of in-range labels are unsigned 32-bit words. -/
theorem C03_U11_fits (q : U11) (h : q.InRange) : 0 ≤ q.toFlat ∧ q.toFlat < 2 ^ 31 := by
  obtain ⟨h1, h2, h3, h4⟩ := h
  simp only [U11.toFlat, U11.qpnToFlat]; omega

/-- C03 for `Z2 x Z2`: labels as constructed by the class. -/
theorem C03_Z22_roundtrip (i j : Int) : Z22.fromFlat (Z22.mk' i j).toFlat = Z22.mk' i j := by
  simp only [Z22.fromFlat, Z22.toFlat, Z22.qpnToFlat, Z22.flatToQpn, Z22.mk', Z22.mk.injEq]
  omega

theorem C03_Z22_flip (i j : Int) : Z22.flipFlat (Z22.mk' i j).toFlat = (Z22.mk' i j).neg.toFlat := by
  simp only [Z22.flipFlat, Z22.toFlat, Z22.qpnToFlat, Z22.neg, Z22.mk']
  omega

theorem C03_Z22_parity (i j : Int) :
    Z22.flatToParity (Z22.mk' i j).toFlat = i % 2 ∧
    Z22.flatToParity (Z22.mk' i j).toFlat = (Z22.mk' i j).parity := by
  simp only [Z22.flatToParity, Z22.toFlat, Z22.qpnToFlat, Z22.parity, Z22.mk']
  omega

theorem C03_Z22_ops (i j k l : Int) :
    Z22.add (Z22.mk' i j) (Z22.mk' k l) = Z22.mk' (i + k) (j + l) ∧
    Z22.sub (Z22.mk' i j) (Z22.mk' k l) = Z22.mk' (i - k) (j - l) ∧
    Z22.neg (Z22.mk' i j) = Z22.mk' (-i) (-j) := by
  simp only [Z22.add, Z22.sub, Z22.neg, Z22.mk', Z22.mk.injEq]
  omega

example : (U11.mk (-4) 3).InRange ∧ U11.flipFlat (U11.toFlat ⟨-4, 3⟩) = U11.toFlat ⟨4, -3⟩ := by
  refine ⟨by simp [U11.InRange], by decide⟩

/-! ### C04 -/

/-- What the generic proof needs from a symmetry class; discharged for each class below. -/
structure SymClass.Lawful {C P : Type} [AddCommGroup P] (S : SymClass C P) (R : P → P → Prop)
    (valid : C → Prop) : Prop where
  equiv : Equivalence R
  r_add : ∀ {a b c d}, R a b → R c d → R (a + c) (b + d)
  r_neg : ∀ {a b}, R a b → R (-a) (-b)
  p_add : ∀ a b, S.pAdd a b = a + b
  p_neg : ∀ a, S.pNeg a = -a
  p_zero : S.pZero = 0
  c_zero : R (S.attrs S.zero) 0
  c_add : ∀ a b, R (S.attrs (S.add a b)) (S.attrs a + S.attrs b)
  c_sub : ∀ a b, R (S.attrs (S.sub a b)) (S.attrs a - S.attrs b)
  c_neg : ∀ a, R (S.attrs (S.neg a)) (-S.attrs a)
  flat_congr : ∀ {p q}, R p q → S.qpnToFlat p = S.qpnToFlat q
  to_flat : ∀ c, S.toFlat c = S.qpnToFlat (S.attrs c)
  unpack : ∀ c, valid c → R (S.flatToQpn (S.toFlat c)) (S.attrs c)
  from_to : ∀ c, valid c → R (S.attrs (S.fromFlat (S.toFlat c))) (S.attrs c)

namespace SymClass.Lawful
variable {C P : Type} [AddCommGroup P] {S : SymClass C P} {R : P → P → Prop} {valid : C → Prop}

theorem accum_eq (L : S.Lawful R valid) (pat : List Bool) (qs : List C) (out : C)
    (hl : pat.length = qs.length) :
    R (S.attrs (S.accum out (qs.zip pat))) (S.attrs out + signedSum pat (qs.map S.attrs)) := by
  induction qs generalizing pat out with
  | nil =>
    simp only [List.zip_nil_left, accum, signedSum, List.map_nil, List.zip_nil_right, List.sum_nil,
      add_zero]
    exact L.equiv.refl _
  | cons q qs ih =>
    cases pat with
    | nil => simp at hl
    | cons s pat =>
      have hl' : pat.length = qs.length := by simpa using hl
      cases s
      · have h1 := ih pat (S.sub out q) hl'
        have h2 := L.r_add (L.c_sub out q) (L.equiv.refl (signedSum pat (qs.map S.attrs)))
        have h3 := L.equiv.trans h1 h2
        simpa [accum, signedSum, sub_eq_add_neg, add_assoc] using h3
      · have h1 := ih pat (S.add out q) hl'
        have h2 := L.r_add (L.c_add out q) (L.equiv.refl (signedSum pat (qs.map S.attrs)))
        have h3 := L.equiv.trans h1 h2
        simpa [accum, signedSum, add_assoc] using h3

theorem signRow_foldl (L : S.Lawful R valid) (pat : List Bool) (xs : List P) (z : P)
    (hl : pat.length = xs.length) :
    (S.signRow pat xs).foldl S.pAdd z = z + signedSum pat xs := by
  induction xs generalizing pat z with
  | nil => cases pat <;> simp_all [signRow, signedSum]
  | cons x xs ih =>
    cases pat with
    | nil => simp at hl
    | cons s pat =>
      have hl' : pat.length = xs.length := by simpa using hl
      cases s <;>
        simp [signRow, ih pat _ hl', L.p_add, L.p_neg, signedSum, add_assoc]

theorem signedSum_congr (L : S.Lawful R valid) (pat : List Bool) (qs : List C)
    (hv : ∀ q ∈ qs, valid q) :
    R (signedSum pat (qs.map fun q => S.flatToQpn (S.toFlat q)))
      (signedSum pat (qs.map S.attrs)) := by
  induction qs generalizing pat with
  | nil => exact L.equiv.refl _
  | cons q qs ih =>
    cases pat with
    | nil => exact L.equiv.refl _
    | cons s pat =>
      have h1 := ih pat (fun x hx => hv x (List.mem_cons_of_mem _ hx))
      have h2 := L.unpack q (hv q List.mem_cons_self)
      cases s
      · simpa [signedSum] using L.r_add (L.r_neg h2) h1
      · simpa [signedSum] using L.r_add h2 h1

/-- How a packed or unpacked offset is given to the array path. -/
theorem compute (L : S.Lawful R valid) (pattern : List Bool) (qs : List C)
    (offset : Option (Bool × C)) (asFlat : Bool) (neg : Bool) (q : C)
    (hv : ∀ x ∈ qs, valid x)
    (ho : asFlat = true → ∀ p ∈ offset, valid p.2)
    (hq : S.computeObj pattern qs offset neg = some q) :
    S.computeFlat pattern (qs.map S.toFlat)
      (offset.map fun p => (p.1, if asFlat then .inr (S.toFlat p.2) else .inl p.2)) neg
      = S.toFlat q := by
  rw [L.to_flat q]
  have hl : pattern.length = qs.length := by
    by_contra h
    simp [computeObj, h] at hq
  simp only [computeObj, hl, if_true] at hq
  simp only [computeFlat, List.map_map]
  apply L.flat_congr
  rw [L.signRow_foldl _ _ _ (by simpa using hl), L.p_zero, zero_add, L.p_add, L.p_add, L.p_neg,
    L.p_neg]
  have key := L.signedSum_congr pattern qs hv
  cases offset with
  | none =>
    simp only [Option.some.injEq] at hq
    have h1 := L.accum_eq pattern qs S.zero hl
    have h1 := L.equiv.trans h1 (L.r_add L.c_zero (L.equiv.refl _))
    rw [zero_add] at h1
    cases neg
    · simp only [Bool.false_eq_true, if_false] at hq
      subst hq
      have h2 := L.r_add key L.c_zero
      rw [add_zero] at h2
      exact L.equiv.trans h2 (L.equiv.symm h1)
    · simp only [if_true] at hq
      subst hq
      have h2 := L.r_add (L.r_neg key) (L.r_neg L.c_zero)
      rw [neg_zero, add_zero] at h2
      exact L.equiv.trans h2 (L.equiv.symm (L.equiv.trans (L.c_neg _) (L.r_neg h1)))
  | some p =>
    obtain ⟨ix, dq⟩ := p
    simp only [Option.some.injEq] at hq
    have h1 := L.accum_eq (pattern ++ [ix]) (qs ++ [dq]) S.zero (by simpa using hl)
    have h1 := L.equiv.trans h1 (L.r_add L.c_zero (L.equiv.refl _))
    rw [zero_add] at h1
    have hs : signedSum (pattern ++ [ix]) ((qs ++ [dq]).map S.attrs) =
        signedSum pattern (qs.map S.attrs) + (if ix then S.attrs dq else -S.attrs dq) := by
      simp only [signedSum, List.map_append, List.map_cons, List.map_nil]
      rw [List.zip_append (by simpa using hl)]
      simp
    rw [hs] at h1
    have hoff : R (S.attrs (if ix then
          (match (if asFlat then Sum.inr (S.toFlat dq) else Sum.inl dq : C ⊕ Int) with
            | .inl d => d | .inr x => S.fromFlat x)
          else S.neg (match (if asFlat then Sum.inr (S.toFlat dq) else Sum.inl dq : C ⊕ Int) with
            | .inl d => d | .inr x => S.fromFlat x)))
        (if ix then S.attrs dq else -S.attrs dq) := by
      have h0 : R (S.attrs (match (if asFlat then Sum.inr (S.toFlat dq) else Sum.inl dq :
          C ⊕ Int) with | .inl d => d | .inr x => S.fromFlat x)) (S.attrs dq) := by
        cases asFlat
        · exact L.equiv.refl _
        · exact L.from_to dq (ho rfl (ix, dq) rfl)
      cases ix
      · exact L.equiv.trans (L.c_neg _) (L.r_neg h0)
      · exact h0
    simp only [Option.map_some]
    cases neg
    · simp only [Bool.false_eq_true, if_false] at hq ⊢
      subst hq
      exact L.equiv.trans (L.r_add key hoff) (L.equiv.symm h1)
    · simp only [if_true] at hq ⊢
      subst hq
      have h2 := L.r_add (L.r_neg key) (L.r_neg hoff)
      have h3 := L.r_neg h1
      rw [neg_add] at h3
      exact L.equiv.trans h2 (L.equiv.symm (L.equiv.trans (L.c_neg _) h3))

end SymClass.Lawful

theorem U1.lawful : U1.cls.Lawful (· = ·) (fun _ => True) where
  equiv := ⟨fun _ => rfl, Eq.symm, Eq.trans⟩
  r_add := by rintro a b c d rfl rfl; rfl
  r_neg := by rintro a b rfl; rfl
  p_add _ _ := rfl
  p_neg _ := rfl
  p_zero := rfl
  c_zero := rfl
  c_add _ _ := rfl
  c_sub _ _ := rfl
  c_neg _ := rfl
  flat_congr := by rintro p q rfl; rfl
  to_flat _ := rfl
  unpack := by intro c _; simp [U1.cls, U1.toFlat, U1.flatToQpn, U1.qpnToFlat]
  from_to := by intro c _; simp [U1.cls, U1.toFlat, U1.fromFlat, U1.flatToQpn, U1.qpnToFlat]

theorem Zm.lawful (m : Int) :
    (Zm.cls m).Lawful (fun a b => a % m = b % m) (fun _ => True) where
  equiv := ⟨fun _ => rfl, Eq.symm, Eq.trans⟩
  r_add := by
    intro a b c d h1 h2
    rw [Int.add_emod, h1, h2, ← Int.add_emod]
  r_neg := by
    intro a b h
    rw [← Int.zero_sub, ← Int.zero_sub b, Int.sub_emod, h, ← Int.sub_emod]
  p_add _ _ := rfl
  p_neg _ := rfl
  p_zero := rfl
  c_zero := by simp [Zm.cls, Zm.zero, Zm.mk']
  c_add _ _ := by simp [Zm.cls, Zm.add, Zm.mk']
  c_sub _ _ := by simp [Zm.cls, Zm.sub, Zm.mk']
  c_neg _ := by simp [Zm.cls, Zm.neg, Zm.mk']
  flat_congr := by intro p q h; simpa [Zm.cls, Zm.qpnToFlat] using h
  to_flat _ := rfl
  unpack := by intro c _; simp [Zm.cls, Zm.toFlat, Zm.flatToQpn, Zm.qpnToFlat]
  from_to := by intro c _; simp [Zm.cls, Zm.toFlat, Zm.fromFlat, Zm.flatToQpn, Zm.qpnToFlat, Zm.mk']

theorem U11.lawful : U11.cls.Lawful (· = ·) U11.InRange where
  equiv := ⟨fun _ => rfl, Eq.symm, Eq.trans⟩
  r_add := by rintro a b c d rfl rfl; rfl
  r_neg := by rintro a b rfl; rfl
  p_add _ _ := rfl
  p_neg _ := rfl
  p_zero := rfl
  c_zero := rfl
  c_add _ _ := rfl
  c_sub _ _ := rfl
  c_neg _ := rfl
  flat_congr := by rintro p q rfl; rfl
  to_flat _ := rfl
  unpack := by
    intro c h
    have := C03_U11_roundtrip c h
    simp only [U11.fromFlat] at this
    cases c
    simpa [U11.cls, Prod.ext_iff] using this
  from_to := by
    intro c h
    simp only [U11.cls, C03_U11_roundtrip c h]

/-- `Z2 x Z2` labels as constructed by the class: both components reduced. -/
def Z22.Reduced (c : Z22) : Prop := (c.n = 0 ∨ c.n = 1) ∧ (c.sz = 0 ∨ c.sz = 1)

theorem Z22.lawful : Z22.cls.Lawful (fun a b => a.1 % 2 = b.1 % 2 ∧ a.2 % 2 = b.2 % 2)
    Z22.Reduced where
  equiv := ⟨fun _ => ⟨rfl, rfl⟩, fun h => ⟨h.1.symm, h.2.symm⟩,
    fun h g => ⟨h.1.trans g.1, h.2.trans g.2⟩⟩
  r_add := by
    rintro a b c d ⟨h1, h2⟩ ⟨h3, h4⟩
    simp only [Prod.fst_add, Prod.snd_add]; omega
  r_neg := by
    rintro a b ⟨h1, h2⟩
    simp only [Prod.fst_neg, Prod.snd_neg]; omega
  p_add _ _ := rfl
  p_neg _ := rfl
  p_zero := rfl
  c_zero := by simp [Z22.cls, Z22.zero, Z22.mk']
  c_add _ _ := by simp [Z22.cls, Z22.add, Z22.mk']
  c_sub _ _ := by simp [Z22.cls, Z22.sub, Z22.mk']
  c_neg _ := by simp [Z22.cls, Z22.neg, Z22.mk']
  flat_congr := by
    rintro p q ⟨h1, h2⟩
    simp only [Z22.cls, Z22.qpnToFlat, h1, h2]
  to_flat _ := rfl
  unpack := by
    rintro c ⟨h1, h2⟩
    simp only [Z22.cls, Z22.flatToQpn, Z22.toFlat, Z22.qpnToFlat]; omega
  from_to := by
    rintro c ⟨h1, h2⟩
    simp only [Z22.cls, Z22.fromFlat, Z22.mk', Z22.flatToQpn, Z22.toFlat, Z22.qpnToFlat]; omega

/-- C04 for `U1`: the packed path of `_compute` gives the packing of the object path's result, for every
row length, sign pattern, offset (packed or not) and overall sign. -/
theorem C04_U1 (pattern : List Bool) (qs : List U1) (offset : Option (Bool × U1)) (asFlat neg : Bool)
    (q : U1) (hq : U1.cls.computeObj pattern qs offset neg = some q) :
    U1.cls.computeFlat pattern (qs.map U1.toFlat)
      (offset.map fun p => (p.1, if asFlat then .inr p.2.toFlat else .inl p.2)) neg = q.toFlat :=
  U1.lawful.compute pattern qs offset asFlat neg q (fun _ _ => trivial) (fun _ _ _ => trivial) hq

/-- C04 for `Z2` (`m = 2`) and `Z4` (`m = 4`). -/
theorem C04_Zm (m : Int) (pattern : List Bool) (qs : List (Zm m)) (offset : Option (Bool × Zm m))
    (asFlat neg : Bool) (q : Zm m)
    (hq : (Zm.cls m).computeObj pattern qs offset neg = some q) :
    (Zm.cls m).computeFlat pattern (qs.map Zm.toFlat)
      (offset.map fun p => (p.1, if asFlat then .inr p.2.toFlat else .inl p.2)) neg = q.toFlat :=
  (Zm.lawful m).compute pattern qs offset asFlat neg q (fun _ _ => trivial) (fun _ _ _ => trivial) hq

/-- C04 for `U1 x U1`: labels of the row (and a packed offset) must be packable. -/
theorem C04_U11 (pattern : List Bool) (qs : List U11) (offset : Option (Bool × U11))
    (asFlat neg : Bool) (q : U11) (hv : ∀ x ∈ qs, x.InRange)
    (ho : ∀ p ∈ offset, p.2.InRange)
    (hq : U11.cls.computeObj pattern qs offset neg = some q) :
    U11.cls.computeFlat pattern (qs.map U11.toFlat)
      (offset.map fun p => (p.1, if asFlat then .inr p.2.toFlat else .inl p.2)) neg = q.toFlat :=
  U11.lawful.compute pattern qs offset asFlat neg q hv (fun _ => ho) hq

/-- C04 for `Z2 x Z2`. -/
theorem C04_Z22 (pattern : List Bool) (qs : List Z22) (offset : Option (Bool × Z22))
    (asFlat neg : Bool) (q : Z22) (hv : ∀ x ∈ qs, x.Reduced)
    (ho : ∀ p ∈ offset, p.2.Reduced)
    (hq : Z22.cls.computeObj pattern qs offset neg = some q) :
    Z22.cls.computeFlat pattern (qs.map Z22.toFlat)
      (offset.map fun p => (p.1, if asFlat then .inr p.2.toFlat else .inl p.2)) neg = q.toFlat :=
  Z22.lawful.compute pattern qs offset asFlat neg q hv (fun _ => ho) hq

/-- C04: the object path computes the signed sum of the labels (here for `U1`; `neg` flips it),
so both paths agree with the specification. -/
theorem C04_U1_value (pattern : List Bool) (qs : List U1) (neg : Bool)
    (hl : pattern.length = qs.length) :
    U1.cls.computeObj pattern qs none neg =
      some ⟨if neg then -signedSum pattern (qs.map U1.n) else signedSum pattern (qs.map U1.n)⟩ := by
  have h := U1.lawful.accum_eq pattern qs U1.zero hl
  have h' : (U1.cls.accum U1.zero (qs.zip pattern)).n = signedSum pattern (qs.map U1.n) := by
    have := h
    simpa [U1.cls, U1.zero] using this
  simp only [SymClass.computeObj, hl, if_true, Option.some.injEq]
  cases neg
  · have : (U1.cls.accum U1.cls.zero (qs.zip pattern)).n = signedSum pattern (qs.map U1.n) := h'
    cases hx : U1.cls.accum U1.cls.zero (qs.zip pattern)
    simp [hx] at this ⊢
    exact this
  · have : (U1.cls.accum U1.cls.zero (qs.zip pattern)).n = signedSum pattern (qs.map U1.n) := h'
    simp only [if_true]
    simp only [U1.cls, U1.neg, U1.mk.injEq] at this ⊢
    rw [this]

example : U11.cls.computeObj [true, false, true] [⟨1, 1⟩, ⟨2, 0⟩, ⟨0, -1⟩] (some (false, ⟨1, 1⟩)) true
    = some ⟨2, 1⟩ ∧
    U11.cls.computeFlat [true, false, true] ([⟨1, 1⟩, ⟨2, 0⟩, ⟨0, -1⟩].map U11.toFlat)
      (some (false, .inr (U11.toFlat ⟨1, 1⟩))) true = U11.toFlat ⟨2, 1⟩ := by decide

end Verif
