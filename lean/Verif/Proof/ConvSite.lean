import Verif.Spec.ConvMpo
import Verif.Proof.CellChain
import Verif.Proof.ConvAlg
import Verif.Proof.ConvPos

/-!
The site operators of the conventional matrix product operator.
-/

set_option linter.unusedSectionVars false

namespace Verif
namespace ConvMpo
open Hamiltonian Fock ConvAlg
variable {K : Type} [Field K] {n : Nat}

abbrev FockRing (n : Nat) (K : Type) [Field K] := Matrix (Fin n → Bool × Bool) (Fin n → Bool × Bool) K

/-- Creation and annihilation operators. -/
def cr (K : Type) [Field K] (n i : Nat) (s : Bool) : FockRing n K := fockMat n [(true, 2 * i + s.toNat)]
def an (K : Type) [Field K] (n i : Nat) (s : Bool) : FockRing n K := fockMat n [(false, 2 * i + s.toNat)]

theorem fock_sq (b : Bool) (m : Nat) : fockMat (K := K) n [(b, m)] * fockMat n [(b, m)] = 0 := by
  rw [← fockMat_cons]
  funext u d
  have : actAll [(b, m), (b, m)] (modes d) = none := by
    simp only [actAll]
    by_cases h : (modes d)[m]? = some (!b)
    · rw [act_some (o := (b, m)) h]
      have : ((modes d).set m b)[m]? ≠ some (!b) := by
        have hm : m < (modes d).length := (List.getElem?_eq_some_iff.1 h).1
        rw [List.getElem?_set_self hm]
        simp
      simp [act_none (o := (b, m)) this]
    · rw [act_none (o := (b, m)) h]
  simp [fockMat, element, this]

theorem mode_inj {i j : Nat} {s t : Bool} (h : 2 * i + s.toNat = 2 * j + t.toNat) : i = j ∧ s = t := by
  cases s <;> cases t <;> simp at h ⊢ <;> omega

theorem car_fock : Car (cr K n) (an K n) := by
  have same : ∀ (b : Bool) (i : Nat) (s : Bool) (j : Nat) (t : Bool), fockMat (K := K) n [(b, 2 * i + s.toNat)] * fockMat n [(b, 2 * j + t.toNat)] =
      -(fockMat n [(b, 2 * j + t.toNat)] * fockMat n [(b, 2 * i + s.toNat)]) := by
    intro b i s j t
    by_cases h : 2 * i + s.toNat = 2 * j + t.toNat
    · rw [h, fock_sq, neg_zero]
    · exact fockMat_car h
  exact ⟨same true, same false, fun i s j t hij => fockMat_car fun h => hij (mode_inj h).1⟩

theorem xor_self' (a : Nat) : a ^^^ a = 0 := Nat.xor_self a

/-- An operator of site `m` with charge `q` that stands for `X`. -/
def Good (n : Nat) (g : List Nat) (m : Nat) (q : SZ) (X : FockRing n K) (o : Option (OpT SZ K)) : Prop :=
  ∃ T, o = some T ∧ SiteOp (g.getD m 0) q T ∧ siteVal n g m T = X

section
variable (g : List Nat) (m : Nat) (hm : m < n)
include hm

theorem good_c (s : Bool) : Good n g m (qa g m s) (cr K n m s) (cOp (g.getD m 0) s) := by
  obtain ⟨T, h1, h2, h3, h4⟩ := c_site (K := K) (g.getD m 0) s
  refine ⟨T, h1, h2, ?_⟩
  rw [siteVal, dif_pos hm, embT, h3, h4]
  exact (fockMat_one ⟨m, hm⟩ true s).symm

theorem good_d (s : Bool) : Good n g m (qb g m s) (an K n m s) (dOp (g.getD m 0) s) := by
  obtain ⟨T, h1, h2, h3, h4⟩ := d_site (K := K) (g.getD m 0) s
  refine ⟨T, h1, h2, ?_⟩
  rw [siteVal, dif_pos hm, embT, h3, h4]
  exact (fockMat_one ⟨m, hm⟩ false s).symm

theorem good_i : Good n g m 0 (1 : FockRing n K) (iOp (g.getD m 0)) := by
  obtain ⟨T, h1, h2, h3, h4⟩ := i_site (K := K) (g.getD m 0)
  refine ⟨T, h1, h2, ?_⟩
  rw [siteVal, dif_pos hm, embT, h3, h4, emb_one]

variable {g m}

theorem good_mm {q q' : SZ} {X Y : FockRing n K} {o o' : Option (OpT SZ K)} (h : Good n g m q X o) (h' : Good n g m q' Y o') : Good n g m (q + q') (X * Y) (mm o o') := by
  obtain ⟨A, rfl, hA, rfl⟩ := h
  obtain ⟨B, rfl, hB, rfl⟩ := h'
  obtain ⟨R, h1, h2, h3⟩ := embT_matmul ⟨m, hm⟩ hA hB
  refine ⟨R, h1, h2, ?_⟩
  simp only [siteVal, dif_pos hm]
  exact h3

theorem good_plus {q : SZ} {X Y : FockRing n K} {o o' : Option (OpT SZ K)} (h : Good n g m q X o) (h' : Good n g m q Y o') : Good n g m q (X + Y) (plus o o') := by
  obtain ⟨A, rfl, hA, rfl⟩ := h
  obtain ⟨B, rfl, hB, rfl⟩ := h'
  refine ⟨A.add B, rfl, (add_site hA hB).1, ?_⟩
  simp only [siteVal, dif_pos hm]
  exact embT_add ⟨m, hm⟩ hA hB

theorem good_times (f : K) {q : SZ} {X : FockRing n K} {o : Option (OpT SZ K)} (h : Good n g m q X o) : Good n g m q (f • X) (times f o) := by
  obtain ⟨A, rfl, hA, rfl⟩ := h
  obtain ⟨s1, s2, s3⟩ := smul_site f hA
  refine ⟨A.smul f, rfl, s1, ?_⟩
  simp only [siteVal, dif_pos hm]
  rw [embT, embT, s2, s3, emb_smul]

end

theorem good_congr {g : List Nat} {m : Nat} {q q' : SZ} {X Y : FockRing n K} {o : Option (OpT SZ K)} (h : Good n g m q X o) (e : q = q') (e' : X = Y) : Good n g m q' Y o :=
  e ▸ e' ▸ h

theorem emb_neg_free (i : Fin n) (c : K) (A : Matrix (Bool × Bool) (Bool × Bool) K) : emb i (c • A) 0 = c • emb i A 0 := by
  rw [← emb_smul, smul_zero]

theorem emb_add_even (i : Fin n) (A A' : Matrix (Bool × Bool) (Bool × Bool) K) : emb i (A + A') 0 = emb i A 0 + emb i A' 0 := by
  rw [← emb_add, add_zero]

theorem emb_odd_mul (i : Fin n) (A B : Matrix (Bool × Bool) (Bool × Bool) K) : emb i 0 A * emb i 0 B = emb i (A * B) 0 := by
  rw [emb_mul]
  simp

theorem emb_even_mul (i : Fin n) (A B : Matrix (Bool × Bool) (Bool × Bool) K) : emb i A 0 * emb i B 0 = emb i (A * B) 0 := by
  rw [emb_mul]
  simp

theorem good_h (g : List Nat) (m : Nat) (hm : m < n) (t : Bool → Nat → Nat → K) (v : Bool → Bool → Nat → Nat → Nat → Nat → K) :
    Good n g m 0 (hLoc t v (cr K n) (an K n) m) (hOp (g.getD m 0) (t false m m) (t true m m) (v false true m m m m) (v true false m m m m)) := by
  obtain ⟨T, h1, h2, h3, h4, h5⟩ := C30_onsite (K := K) (g.getD m 0) (t false m m) (t true m m) (v false true m m m m) (v true false m m m m)
  refine ⟨T, h1, ⟨h2, by rw [h3]; simp [Conserves], h4, fun h => absurd h3 h, fun _ => rfl⟩, ?_⟩
  have hc : ∀ s, cr K n m s = emb ⟨m, hm⟩ 0 (spinMat true s) := fun s => fockMat_one ⟨m, hm⟩ true s
  have hd : ∀ s, an K n m s = emb ⟨m, hm⟩ 0 (spinMat false s) := fun s => fockMat_one ⟨m, hm⟩ false s
  have hX : X v (cr K n) (an K n) m m m m = ∑ s, ∑ s', (1 / 2 * v s s' m m m m) • (emb ⟨m, hm⟩ ((spinMat true s * spinMat true s') * (spinMat false s' * spinMat false s)) 0 : FockRing n K) := by
    refine Finset.sum_congr rfl fun s _ => Finset.sum_congr rfl fun s' _ => ?_
    rw [hc, hc, hd, hd, mul_assoc, emb_odd_mul, emb_odd_mul, emb_even_mul]
  rw [siteVal, dif_pos hm, embT, h3, partMat_nil, hLoc, hX]
  simp only [hc, hd, emb_odd_mul, ← emb_neg_free, sumBool, ← emb_add_even]
  congr 1
  funext x y
  have e := h5 y.1 y.2 x.1 x.2
  rw [matEl, h3] at e
  simp only [entry_nil, zero_add] at e
  obtain ⟨a, b⟩ := x
  obtain ⟨a', b'⟩ := y
  refine Eq.trans e ?_
  cases a <;> cases b <;> cases a' <;> cases b' <;>
    simp [Matrix.mul_apply, Fintype.sum_prod_type, spinMat, occOf, spinSign, num] <;> ring

/-! ### Symbols -/

/-- What a symbol stands for on site `m`: the number 0, or an operator with charge `q`. -/
def Loc (n : Nat) (g : List Nat) (m : Nat) (q : SZ) (X : FockRing n K) (o : Option (Option (OpT SZ K))) : Prop :=
  (o = some none ∧ X = 0) ∨ ∃ T, o = some (some T) ∧ SiteOp (g.getD m 0) q T ∧ siteVal n g m T = X

theorem Good.loc {g : List Nat} {m : Nat} {q : SZ} {X : FockRing n K} {o : Option (OpT SZ K)} (h : Good n g m q X o) : Loc n g m q X (o.map some) := by
  obtain ⟨T, rfl, h1, h2⟩ := h
  exact Or.inr ⟨T, rfl, h1, h2⟩

theorem xor_zero {a b : Nat} : a ^^^ b = 0 ↔ a = b := Nat.xor_eq_zero_iff

theorem xor3 (a b : Nat) : a ^^^ b ^^^ a = b := by rw [Nat.xor_comm, ← Nat.xor_assoc, Nat.xor_self, Nat.zero_xor]

theorem qa_congr {g : List Nat} {i j : Nat} (h : g.getD i 0 = g.getD j 0) (s : Bool) : qa g i s = qa g j s := by rw [qa, qa, h]
theorem qb_congr {g : List Nat} {i j : Nat} (h : g.getD i 0 = g.getD j 0) (s : Bool) : qb g i s = qb g j s := by rw [qb, qb, h]

section
variable (tiny : K → Bool) (t : Bool → Nat → Nat → K) (v : Bool → Bool → Nat → Nat → Nat → Nat → K) (g : List Nat) (m : Nat)

/-- The value of a symbol on site `m`, without its factor. -/
def symVal (n : Nat) (e : Sym K) : FockRing n K :=
  if e.name = nameI then 1
  else if e.name = nameH then hLoc t v (cr K n) (an K n) m
  else match e.site with
    | [i, s] =>
      if e.name = 0 then cr K n m (decide (s = 1))
      else if e.name = 1 then an K n m (decide (s = 1))
      else if e.name = nameR then rLoc t v (cr K n) (an K n) m i.toNat (decide (s = 1))
      else rdLoc t v (cr K n) (an K n) m i.toNat (decide (s = 1))
    | [i, j, si, sj] =>
      if e.name = nameA then cr K n m (decide (si = 1)) * cr K n m (decide (sj = 1))
      else if e.name = nameAD then an K n m (decide (sj = 1)) * an K n m (decide (si = 1))
      else if e.name = nameB then cr K n m (decide (si = 1)) * an K n m (decide (sj = 1))
      else if e.name = nameP then pLoc v (an K n) m i.toNat j.toNat (decide (si = 1)) (decide (sj = 1))
      else if e.name = namePD then pdLoc v (cr K n) m i.toNat j.toNat (decide (si = 1)) (decide (sj = 1))
      else qLoc v (cr K n) (an K n) m i.toNat j.toNat (decide (si = 1)) (decide (sj = 1))
    | _ => 0

theorem spinOf_idx (s : Bool) : spinOf (idx s) = some s := by cases s <;> rfl
theorem dec_idx (s : Bool) : decide (idx s = 1) = s := by cases s <;> rfl

section vals
variable (i j : Nat) (s si sj : Bool)
theorem symVal_i : symVal t v m n (iSymbol : Sym K) = 1 := rfl
theorem symVal_h : symVal t v m n (hSymbol : Sym K) = hLoc t v (cr K n) (an K n) m := rfl
theorem symVal_c : symVal t v m n (cSym g i s) = cr K n m s := by simp [symVal, cSym, nameI, nameH, dec_idx]
theorem symVal_d : symVal t v m n (dSym g i s) = an K n m s := by simp [symVal, dSym, nameI, nameH, dec_idx]
theorem symVal_r : symVal t v m n (rSym g i s) = rLoc t v (cr K n) (an K n) m i s := by simp [symVal, rSym, nameI, nameH, nameR, dec_idx]
theorem symVal_rd : symVal t v m n (rdSym g i s) = rdLoc t v (cr K n) (an K n) m i s := by simp [symVal, rdSym, nameI, nameH, nameR, nameRD, dec_idx]
theorem symVal_a : symVal t v m n (aSym g i j si sj) = cr K n m si * cr K n m sj := by simp [symVal, aSym, nameI, nameH, nameA, dec_idx]
theorem symVal_ad : symVal t v m n (adSym g i j si sj) = an K n m sj * an K n m si := by simp [symVal, adSym, nameI, nameH, nameA, nameAD, dec_idx]
theorem symVal_b : symVal t v m n (bSym g i j si sj) = cr K n m si * an K n m sj := by simp [symVal, bSym, nameI, nameH, nameA, nameAD, nameB, dec_idx]
theorem symVal_p : symVal t v m n (pSym g i j si sj) = pLoc v (an K n) m i j si sj := by simp [symVal, pSym, nameI, nameH, nameA, nameAD, nameB, nameP, dec_idx]
theorem symVal_pd : symVal t v m n (pdSym g i j si sj) = pdLoc v (cr K n) m i j si sj := by
  simp [symVal, pdSym, nameI, nameH, nameA, nameAD, nameB, nameP, namePD, dec_idx]
theorem symVal_q : symVal t v m n (qSym g i j si sj) = qLoc v (cr K n) (an K n) m i j si sj := by
  simp [symVal, qSym, nameI, nameH, nameA, nameAD, nameB, nameP, namePD, nameQ, dec_idx]
end vals

variable (hm : m < n) (htiny : ∀ x, tiny x = true ↔ x = 0) (ha : SpinAllowed g t v)
include hm

theorem loc_i : Loc n g m 0 (1 : FockRing n K) (getOp tiny t v g m iSymbol) := (good_i g m hm).loc

theorem loc_h : Loc n g m 0 (hLoc t v (cr K n) (an K n) m) (getOp tiny t v g m hSymbol) := (good_h g m hm t v).loc

theorem loc_c (s : Bool) : Loc n g m (qa g m s) (cr K n m s) (getOp tiny t v g m (cSym g m s)) := by
  have : getOp tiny t v g m (cSym g m s) = (cOp (g.getD m 0) s).map some := by simp [getOp, cSym, nameI, nameH, spinOf_idx]
  rw [this]
  exact (good_c g m hm s).loc

theorem loc_d (s : Bool) : Loc n g m (qb g m s) (an K n m s) (getOp tiny t v g m (dSym g m s)) := by
  have : getOp tiny t v g m (dSym g m s) = (dOp (g.getD m 0) s).map some := by simp [getOp, dSym, nameI, nameH, spinOf_idx]
  rw [this]
  exact (good_d g m hm s).loc

theorem good_b (s s' : Bool) : Good n g m (qm g m m s s') (cr K n m s * an K n m s') (bOp (g.getD m 0) s s') :=
  good_congr (good_mm hm (good_c g m hm s) (good_d g m hm s')) (by simp [qa, qb, qm, SZ_add, sub_eq_add_neg]) rfl

theorem good_a (s s' : Bool) : Good n g m (qp g m m s s') (cr K n m s * cr K n m s') (aOp (g.getD m 0) s s') :=
  good_congr (good_mm hm (good_c g m hm s) (good_c g m hm s')) (by simp [qa, qp, SZ_add]) rfl

theorem good_ad (s s' : Bool) : Good n g m (-qp g m m s s') (an K n m s' * an K n m s) (adOp (g.getD m 0) s s') :=
  good_congr (good_mm hm (good_d g m hm s') (good_d g m hm s)) (by simp [qb, qp, SZ_add, SZ_neg]) rfl

theorem loc_a (s s' : Bool) : Loc n g m (qp g m m s s') (cr K n m s * cr K n m s') (getOp tiny t v g m (aSym g m m s s')) := by
  have : getOp tiny t v g m (aSym g m m s s') = (aOp (g.getD m 0) s s').map some := by simp [getOp, aSym, nameI, nameH, nameA, spinOf_idx]
  rw [this]
  exact (good_a g m hm s s').loc

theorem loc_ad (s s' : Bool) : Loc n g m (-qp g m m s s') (an K n m s' * an K n m s) (getOp tiny t v g m (adSym g m m s s')) := by
  have : getOp tiny t v g m (adSym g m m s s') = (adOp (g.getD m 0) s s').map some := by simp [getOp, adSym, nameI, nameH, nameA, nameAD, spinOf_idx]
  rw [this]
  exact (good_ad g m hm s s').loc

theorem loc_b (s s' : Bool) : Loc n g m (qm g m m s s') (cr K n m s * an K n m s') (getOp tiny t v g m (bSym g m m s s')) := by
  have : getOp tiny t v g m (bSym g m m s s') = (bOp (g.getD m 0) s s').map some := by simp [getOp, bSym, nameI, nameH, nameA, nameAD, nameB, spinOf_idx]
  rw [this]
  exact (good_b g m hm s s').loc

include htiny ha

theorem skip_zero {i : Nat} {s : Bool} (h : g.getD i 0 ≠ g.getD m 0 ∨ (tiny (t s i m) = true ∧ tiny (v s false i m m m) = true ∧ tiny (v s true i m m m) = true)) :
    t s i m = 0 ∧ ∀ s', v s s' i m m m = 0 := by
  rcases h with h | ⟨h1, h2, h3⟩
  · refine ⟨?_, fun s' => ?_⟩
    · by_contra h0
      exact h (xor_zero.1 (ha.one s i m h0))
    · by_contra h0
      have := ha.two s s' i m m m h0
      rw [Nat.xor_assoc (g.getD i 0), Nat.xor_self, Nat.xor_zero] at this
      exact h (xor_zero.1 this)
  · refine ⟨(htiny _).1 h1, fun s' => ?_⟩
    cases s'
    · exact (htiny _).1 h2
    · exact (htiny _).1 h3

theorem loc_r (i : Nat) (s : Bool) : Loc n g m (qb g i s) (rLoc t v (cr K n) (an K n) m i s) (getOp tiny t v g m (rSym g i s)) := by
  have : getOp tiny t v g m (rSym g i s) = rOp tiny t v g m i s := by simp [getOp, rSym, nameI, nameH, nameR, spinOf_idx]
  rw [this, rOp]
  split_ifs with h
  · obtain ⟨h1, h2⟩ := skip_zero tiny t v g m hm htiny ha h
    refine Or.inl ⟨rfl, ?_⟩
    simp [rLoc, h1, h2]
  · push Not at h
    refine (good_congr (good_plus hm (good_times hm _ (good_d g m hm s)) (good_congr (good_mm hm (good_plus hm (good_times hm _ (good_congr (good_b g m hm false false) ?_ rfl))
      (good_times hm _ (good_congr (good_b g m hm true true) ?_ rfl))) (good_d g m hm s)) (zero_add _) rfl)) (qb_congr h.1.symm s) ?_).loc
    · simp [qm, SZ_zero]
    · simp [qm, SZ_zero]
    · rw [rLoc, sumBool, add_mul, smul_mul_assoc, smul_mul_assoc]
      abel

theorem loc_rd (i : Nat) (s : Bool) : Loc n g m (qa g i s) (rdLoc t v (cr K n) (an K n) m i s) (getOp tiny t v g m (rdSym g i s)) := by
  have : getOp tiny t v g m (rdSym g i s) = rdOp tiny t v g m i s := by simp [getOp, rdSym, nameI, nameH, nameR, nameRD, spinOf_idx]
  rw [this, rdOp]
  split_ifs with h
  · obtain ⟨h1, h2⟩ := skip_zero tiny t v g m hm htiny ha h
    refine Or.inl ⟨rfl, ?_⟩
    simp [rdLoc, h1, h2]
  · push Not at h
    refine (good_congr (good_plus hm (good_times hm _ (good_c g m hm s)) (good_congr (good_mm hm (good_c g m hm s) (good_plus hm (good_times hm _ (good_congr (good_b g m hm false false) ?_ rfl))
      (good_times hm _ (good_congr (good_b g m hm true true) ?_ rfl)))) (add_zero _) rfl)) (qa_congr h.1.symm s) ?_).loc
    · simp [qm, SZ_zero]
    · simp [qm, SZ_zero]
    · rw [rdLoc, sumBool, mul_add, mul_smul_comm, mul_smul_comm]
      simp only [mul_assoc]
      abel

theorem loc_p (i k : Nat) (si sk : Bool) : Loc n g m (-qp g i k si sk) (pLoc v (an K n) m i k si sk) (getOp tiny t v g m (pSym g i k si sk)) := by
  have : getOp tiny t v g m (pSym g i k si sk) = pOp tiny v g m i k si sk := by simp [getOp, pSym, nameI, nameH, nameA, nameAD, nameB, nameP, spinOf_idx]
  rw [this, pOp]
  split_ifs with h
  · exact Or.inl ⟨rfl, by rw [pLoc, (htiny _).1 h, zero_smul]⟩
  · have hg := ha.two si sk i m k m fun h0 => h ((htiny _).2 h0)
    refine (good_congr (good_times hm _ (good_ad g m hm si sk)) ?_ rfl).loc
    rw [qp, qp, Nat.xor_self]
    rw [Nat.xor_assoc, Nat.xor_assoc, Nat.xor_comm (g.getD k 0), ← Nat.xor_assoc (g.getD m 0), Nat.xor_self, Nat.zero_xor] at hg
    rw [hg]

theorem loc_pd (i k : Nat) (si sk : Bool) : Loc n g m (qp g i k si sk) (pdLoc v (cr K n) m i k si sk) (getOp tiny t v g m (pdSym g i k si sk)) := by
  have : getOp tiny t v g m (pdSym g i k si sk) = pdOp tiny v g m i k si sk := by simp [getOp, pdSym, nameI, nameH, nameA, nameAD, nameB, nameP, namePD, spinOf_idx]
  rw [this, pdOp]
  split_ifs with h
  · exact Or.inl ⟨rfl, by rw [pdLoc, (htiny _).1 h, zero_smul]⟩
  · have hg := ha.two si sk i m k m fun h0 => h ((htiny _).2 h0)
    refine (good_congr (good_times hm _ (good_a g m hm si sk)) ?_ rfl).loc
    rw [qp, qp, Nat.xor_self]
    rw [Nat.xor_assoc, Nat.xor_assoc, Nat.xor_comm (g.getD k 0), ← Nat.xor_assoc (g.getD m 0), Nat.xor_self, Nat.zero_xor] at hg
    rw [hg]

theorem loc_q (i j : Nat) (si sj : Bool) : Loc n g m (-qm g i j si sj) (qLoc v (cr K n) (an K n) m i j si sj) (getOp tiny t v g m (qSym g i j si sj)) := by
  have : getOp tiny t v g m (qSym g i j si sj) = qOp tiny v g m i j si sj := by simp [getOp, qSym, nameI, nameH, nameA, nameAD, nameB, nameP, namePD, nameQ, spinOf_idx]
  have c1 : ∀ s s', v s s' i m m j ≠ 0 → g.getD i 0 ^^^ g.getD j 0 = 0 := by
    intro s s' h0
    have hg := ha.two s s' i m m j h0
    rwa [Nat.xor_assoc (g.getD i 0), Nat.xor_self, Nat.xor_zero] at hg
  have c2 : ∀ s s', v s s' i j m m ≠ 0 → g.getD i 0 ^^^ g.getD j 0 = 0 := by
    intro s s' h0
    have hg := ha.two s s' i j m m h0
    rwa [Nat.xor_assoc, Nat.xor_self, Nat.xor_zero] at hg
  rw [this, qOp]
  split_ifs with hs h h
  · refine Or.inl ⟨rfl, ?_⟩
    rw [qLoc, if_pos hs, sumBool, (htiny _).1 h.1, (htiny _).1 h.2.1, (htiny _).1 h.2.2]
    simp
  · have hg : g.getD i 0 ^^^ g.getD j 0 = 0 := by
      by_contra h0
      refine h ⟨(htiny _).2 ?_, (htiny _).2 ?_, (htiny _).2 ?_⟩
      · by_contra h1; exact h0 (c1 _ _ h1)
      · by_contra h1; exact h0 (c2 _ _ h1)
      · by_contra h1; exact h0 (c2 _ _ h1)
    subst hs
    refine (good_congr (good_plus hm (good_times hm _ (good_congr (good_b g m hm si si) ?_ rfl)) (good_plus hm (good_times hm _ (good_congr (good_b g m hm false false) ?_ rfl))
      (good_times hm _ (good_congr (good_b g m hm true true) ?_ rfl)))) (q := 0) ?_ ?_).loc
    · simp [qm, SZ_zero]
    · simp [qm, SZ_zero]
    · simp [qm, SZ_zero]
    · rw [qm, hg, sub_self]
      rfl
    · rw [qLoc, if_pos rfl, sumBool, neg_smul]
      abel
  · refine Or.inl ⟨rfl, ?_⟩
    rw [qLoc, if_neg hs, (htiny _).1 h]
    simp
  · have hg := c1 _ _ fun h0 => h ((htiny _).2 h0)
    refine (good_congr (good_times hm _ (good_b g m hm sj si)) ?_ ?_).loc
    · rw [qm, qm, Nat.xor_self, hg, SZ_neg, neg_sub]
      rfl
    · rw [qLoc, if_neg hs, add_zero, neg_smul]

end

end ConvMpo
end Verif
