import Verif.Model.SiteOps
import Verif.Thm.Hamiltonian
import Verif.Spec.Mpo
import Mathlib.Data.Matrix.Mul
import Mathlib.Data.Fintype.Prod

/-!
Lemmas for the matrices of the symbols of one site.
-/

set_option linter.unusedSectionVars false
set_option linter.unusedSimpArgs false

namespace Verif
namespace Hamiltonian
variable {K : Type} [Field K]

/-- An operator of a site with charge `q`; its blocks are in the odd part if the charge is fermionic, else in the even part. -/
structure SiteOp (ipg : Nat) (q : SZ) (T : OpT SZ K) : Prop where
  on : OnSite ipg T
  odd : Conserves [true, false] q T.odd
  even : Conserves [true, false] q T.even
  oddF : T.odd ≠ [] → SZ.isFermion q = true
  evenF : T.even ≠ [] → SZ.isFermion q = false

/-- A part of an operator as a matrix between the four states. -/
def partMat (ipg : Nat) (T : SpT SZ K) : Matrix (Bool × Bool) (Bool × Bool) K :=
  fun x y => entry T [(occ ipg x.1 x.2, 0), (occ ipg y.1 y.2, 0)]

theorem isFermion_add (a b : SZ) : SZ.isFermion (a + b) = xor (SZ.isFermion a) (SZ.isFermion b) := by
  simp only [SZ.isFermion, SZ_add]
  rcases Int.emod_two_eq_zero_or_one a.n with h | h <;> rcases Int.emod_two_eq_zero_or_one b.n with h' | h' <;>
    simp [h, h', Int.add_emod]

theorem isFermion_neg (a : SZ) : SZ.isFermion (-a) = SZ.isFermion a := by
  simp only [SZ.isFermion, SZ_neg]
  rcases Int.emod_two_eq_zero_or_one a.n with h | h
  · have : -a.n % 2 = 0 := by omega
    simp [h, this]
  · have : -a.n % 2 = 1 := by omega
    simp [h, this]

theorem tensordot_nil_left (B : SpT SZ K) (a b : List Int) (h : a.length = b.length) : SpT.tensordot [] B a b = some [] := by
  unfold SpT.tensordot
  simp [h, SpT.tensordotCore]

theorem tensordotCore_nil_right (A : SpT SZ K) (a b c d : List Nat) : SpT.tensordotCore A [] a b c d = [] := by
  unfold SpT.tensordotCore SpT.collectB
  simp only [List.foldl_nil, Dict.get?_nil]
  induction A with
  | nil => rfl
  | cons x t ih => simpa using ih

theorem tensordot_nil_right (A : SpT SZ K) (a b : List Int) (h : a.length = b.length) : SpT.tensordot A [] a b = some [] := by
  unfold SpT.tensordot
  simp [h, tensordotCore_nil_right]

theorem sum_basis (ipg : Nat) (f : SZ × Nat → K) :
    ((legBasis (siteBasis ipg)).map f).sum = ∑ z : Bool × Bool, f (occ ipg z.1 z.2, 0) := by
  rw [Fintype.sum_prod_type]
  simp [legBasis, siteBasis, occ]
  ring

theorem sp_matmul_mat (ipg : Nat) {qa qb : SZ} {A B : SpT SZ K} (hA : Conforms [siteBasis ipg, siteBasis ipg] A)
    (hB : Conforms [siteBasis ipg, siteBasis ipg] B) (cA : Conserves [true, false] qa A) (cB : Conserves [true, false] qb B) :
    ∃ R, SpT.tensordot A B [1] [0] = some R ∧ Conforms [siteBasis ipg, siteBasis ipg] R ∧ UniqueLabels R ∧ partMat ipg R = partMat ipg A * partMat ipg B ∧
      Conserves [true, false] (qa + qb) R ∧ (R ≠ [] → A ≠ [] ∧ B ≠ []) := by
  obtain ⟨R, h1, h2, h3, h4⟩ := sp_matmul ipg A B hA hB
  refine ⟨R, h1, h2, h3, ?_, ?_, ?_⟩
  · funext x y
    rw [Matrix.mul_apply, partMat, h4, sum_basis]
    rfl
  · have := C13_charge A B R [1] [0] 2 2 [1] [0] [true, false] [true, false] qa qb (fun b hb => by
      have := (hA b hb).lengths
      simpa using this) (fun b hb => by
      have := (hB b hb).lengths
      simpa using this) rfl rfl (.cons (by simp [NamesAxis]) .nil) (.cons (by simp [NamesAxis]) .nil) (by simp) (by simp)
      (.cons (by simp) .nil) cA cB h1
    simpa [freeAxes_2_0, freeAxes_2_1] using this
  · intro hR
    constructor
    · rintro rfl
      rw [tensordot_nil_left B [1] [0] rfl] at h1
      injection h1 with h1
      exact hR h1.symm
    · rintro rfl
      rw [tensordot_nil_right A [1] [0] rfl] at h1
      injection h1 with h1
      exact hR h1.symm

theorem add_ne_nil {A B : SpT SZ K} (h : A.add B ≠ []) : A ≠ [] ∨ B ≠ [] := by
  by_contra hn
  push Not at hn
  obtain ⟨rfl, rfl⟩ := hn
  exact h rfl

theorem add_conserves {q : SZ} {A B : SpT SZ K} (hA : Conserves [true, false] q A) (hB : Conserves [true, false] q B) (hu : UniqueLabels A) :
    Conserves [true, false] q (A.add B) := by
  intro b hb
  have e : A.foldl (fun m a => Dict.set m a.1 a.2) [] = A := by
    simpa using foldl_set_append (m := []) A hu
  unfold SpT.add at hb
  rw [e] at hb
  rcases mem_accumulate_labels _ _ _ hb with h | h
  · obtain ⟨a, ha, h⟩ := List.mem_map.1 h
    rw [← h]
    exact hA a ha
  · obtain ⟨a, ha, h⟩ := List.mem_map.1 h
    rw [← h]
    exact hB a ha

theorem partMat_add {ipg : Nat} {A B : SpT SZ K} (hA : Conforms [siteBasis ipg, siteBasis ipg] A) (hB : Conforms [siteBasis ipg, siteBasis ipg] B)
    (hu : UniqueLabels A) : partMat ipg (A.add B) = partMat ipg A + partMat ipg B := by
  funext x y
  exact (C11_add _ A B hA hB hu).2.2 _

theorem partMat_nil (ipg : Nat) : partMat ipg ([] : SpT SZ K) = 0 := rfl

theorem matmul_eq {ipg : Nat} {A B : OpT SZ K} (hA : OnSite ipg A) (hB : OnSite ipg B) {ao bo ae be : SpT SZ K}
    (ho1 : SpT.tensordot A.odd B.even [1] [0] = some ao) (hp1 : SpT.tensordot A.even B.odd [1] [0] = some bo)
    (he1 : SpT.tensordot A.odd B.odd [1] [0] = some ae) (hf1 : SpT.tensordot A.even B.even [1] [0] = some be) :
    OpT.matmul SZ.isFermion A B = some ⟨ao.add bo, ae.add be⟩ := by
  have f0 : OpT.factor SZ.isFermion [] = fun _ => false := rfl
  have n2 : ∀ n, SpT.normAxis n 0 = 0 := fun n => rfl
  by_cases nA : Nonzero A
  · have dA := ndim_two hA nA
    unfold OpT.matmul OpT.tensordot
    have n1 : SpT.normAxis 2 (-1) = 1 := by decide
    simp only [dA, List.map_cons, List.map_nil, n1, n2]
    simp only [Int.ofNat_eq_natCast, Nat.cast_one, Nat.cast_zero, ho1, hp1, he1, hf1, Option.bind_some]
    simp [show (fun q : List SZ => OpT.factor SZ.isFermion [] q) = fun _ => false from rfl]
    simp only [f0, addAliased_no, and_self]
  · unfold Nonzero at nA
    push Not at nA
    obtain ⟨Ao, Ae⟩ := A
    obtain ⟨rfl, rfl⟩ := nA
    have z : ∀ X : SpT SZ K, SpT.tensordot [] X [1] [0] = some [] := fun X => tensordot_nil_left X [1] [0] rfl
    have z' : ∀ (X : SpT SZ K) (a b : Nat), SpT.tensordot [] X [Int.ofNat a] [Int.ofNat b] = some [] := fun X a b => tensordot_nil_left X _ _ rfl
    simp only [z] at ho1 hp1 he1 hf1
    injection ho1 with ho1
    injection hp1 with hp1
    injection he1 with he1
    injection hf1 with hf1
    subst ho1 hp1 he1 hf1
    unfold OpT.matmul OpT.tensordot
    have d0 : OpT.ndim (⟨[], []⟩ : OpT SZ K) = 0 := by simp [OpT.ndim, SpT.ndim]
    have n1 : SpT.normAxis 0 (-1) = 0 := by decide
    simp only [d0, List.map_cons, List.map_nil, n1, n2]
    simp only [z', Option.bind_some]
    simp [f0]
    rfl

/-- The product of two operators of a site. -/
theorem matmul_site {ipg : Nat} {qa qb : SZ} {A B : OpT SZ K} (hA : SiteOp ipg qa A) (hB : SiteOp ipg qb B) :
    ∃ R, OpT.matmul SZ.isFermion A B = some R ∧ SiteOp ipg (qa + qb) R ∧
      partMat ipg R.odd = partMat ipg A.odd * partMat ipg B.even + partMat ipg A.even * partMat ipg B.odd ∧
      partMat ipg R.even = partMat ipg A.odd * partMat ipg B.odd + partMat ipg A.even * partMat ipg B.even := by
  obtain ⟨ao, ho1, ho2, ho3, ho4, ho5, ho6⟩ := sp_matmul_mat ipg hA.on.1 hB.on.2.1 hA.odd hB.even
  obtain ⟨bo, hp1, hp2, hp3, hp4, hp5, hp6⟩ := sp_matmul_mat ipg hA.on.2.1 hB.on.1 hA.even hB.odd
  obtain ⟨ae, he1, he2, he3, he4, he5, he6⟩ := sp_matmul_mat ipg hA.on.1 hB.on.1 hA.odd hB.odd
  obtain ⟨be, hf1, hf2, hf3, hf4, hf5, hf6⟩ := sp_matmul_mat ipg hA.on.2.1 hB.on.2.1 hA.even hB.even
  obtain ⟨c1, u1, _⟩ := C11_add _ ao bo ho2 hp2 ho3
  obtain ⟨c2, u2, _⟩ := C11_add _ ae be he2 hf2 he3
  refine ⟨_, matmul_eq hA.on hB.on ho1 hp1 he1 hf1, ⟨⟨c1, c2, u1, u2⟩, add_conserves ho5 hp5 ho3, add_conserves he5 hf5 he3, ?_, ?_⟩, ?_, ?_⟩
  · intro h
    rw [isFermion_add]
    rcases add_ne_nil h with h | h
    · rw [hA.oddF (ho6 h).1, hB.evenF (ho6 h).2]; rfl
    · rw [hA.evenF (hp6 h).1, hB.oddF (hp6 h).2]; rfl
  · intro h
    rw [isFermion_add]
    rcases add_ne_nil h with h | h
    · rw [hA.oddF (he6 h).1, hB.oddF (he6 h).2]; rfl
    · rw [hA.evenF (hf6 h).1, hB.evenF (hf6 h).2]; rfl
  · rw [partMat_add ho2 hp2 ho3, ho4, hp4]
  · rw [partMat_add he2 hf2 he3, he4, hf4]

/-- The sum of two operators of a site. -/
theorem add_site {ipg : Nat} {q : SZ} {A B : OpT SZ K} (hA : SiteOp ipg q A) (hB : SiteOp ipg q B) :
    SiteOp ipg q (A.add B) ∧ partMat ipg (A.add B).odd = partMat ipg A.odd + partMat ipg B.odd ∧
      partMat ipg (A.add B).even = partMat ipg A.even + partMat ipg B.even := by
  obtain ⟨c1, u1, _⟩ := C11_add _ A.odd B.odd hA.on.1 hB.on.1 hA.on.2.2.1
  obtain ⟨c2, u2, _⟩ := C11_add _ A.even B.even hA.on.2.1 hB.on.2.1 hA.on.2.2.2
  refine ⟨⟨⟨c1, c2, u1, u2⟩, add_conserves hA.odd hB.odd hA.on.2.2.1, add_conserves hA.even hB.even hA.on.2.2.2, ?_, ?_⟩, ?_, ?_⟩
  · intro h
    rcases add_ne_nil h with h | h
    · exact hA.oddF h
    · exact hB.oddF h
  · intro h
    rcases add_ne_nil h with h | h
    · exact hA.evenF h
    · exact hB.evenF h
  · exact partMat_add hA.on.1 hB.on.1 hA.on.2.2.1
  · exact partMat_add hA.on.2.1 hB.on.2.1 hA.on.2.2.2

theorem smul_ne_nil {c : K} {A : SpT SZ K} (h : A.smul c ≠ []) : A ≠ [] := by
  rintro rfl
  exact h rfl

theorem smul_part {ipg : Nat} {q : SZ} (c : K) {A : SpT SZ K} (h : Conforms [siteBasis ipg, siteBasis ipg] A) (hu : UniqueLabels A) (hc : Conserves [true, false] q A) :
    Conforms [siteBasis ipg, siteBasis ipg] (A.smul c) ∧ UniqueLabels (A.smul c) ∧ Conserves [true, false] q (A.smul c) ∧
      partMat ipg (A.smul c) = c • partMat ipg A := by
  refine ⟨?_, ?_, ?_, ?_⟩
  · intro b hb
    obtain ⟨a, ha, rfl⟩ := List.mem_map.1 hb
    exact h a ha
  · unfold UniqueLabels SpT.smul at *
    rw [List.map_map]
    exact hu
  · intro b hb
    obtain ⟨a, ha, rfl⟩ := List.mem_map.1 hb
    exact hc a ha
  · funext x y
    exact C11_smul c A _

/-- A multiple of an operator of a site. -/
theorem smul_site {ipg : Nat} {q : SZ} (c : K) {A : OpT SZ K} (hA : SiteOp ipg q A) :
    SiteOp ipg q (A.smul c) ∧ partMat ipg (A.smul c).odd = c • partMat ipg A.odd ∧ partMat ipg (A.smul c).even = c • partMat ipg A.even := by
  obtain ⟨a1, a2, a3, a4⟩ := smul_part c hA.on.1 hA.on.2.2.1 hA.odd
  obtain ⟨b1, b2, b3, b4⟩ := smul_part c hA.on.2.1 hA.on.2.2.2 hA.even
  exact ⟨⟨⟨a1, b1, a2, b2⟩, a3, b3, fun h => hA.oddF (smul_ne_nil h), fun h => hA.evenF (smul_ne_nil h)⟩, a4, b4⟩

theorem zero_site (ipg : Nat) (q : SZ) : SiteOp ipg q (⟨[], []⟩ : OpT SZ K) :=
  ⟨⟨conforms_nil ipg, conforms_nil ipg, by simp [UniqueLabels], by simp [UniqueLabels]⟩, by simp [Conserves], by simp [Conserves], by simp, by simp⟩

/-- The matrix of the creation (`b`) or annihilation (`!b`) operator of spin `s` between the states of a site. -/
def spinMat (b s : Bool) : Matrix (Bool × Bool) (Bool × Bool) K := fun x y =>
  if occOf s y.1 y.2 = !b ∧ occOf s x.1 x.2 = b ∧ occOf (!s) y.1 y.2 = occOf (!s) x.1 x.2 then spinSign s y.1 else 0

theorem c_site (ipg : Nat) (s : Bool) : ∃ T : OpT SZ K, cOp ipg s = some T ∧ SiteOp ipg ⟨1, sz s, ipg⟩ T ∧
    partMat ipg T.odd = spinMat true s ∧ partMat ipg T.even = 0 := by
  obtain ⟨C, hC, oC, -, eC, qC, mC⟩ := C30_creation (K := K) ipg s
  refine ⟨C, hC, ⟨oC, qC, by rw [eC]; simp [Conserves], fun _ => rfl, fun h => absurd eC h⟩, ?_, by rw [eC]; rfl⟩
  funext x y
  have := mC y.1 y.2 x.1 x.2
  rw [matEl, eC, entry_nil, add_zero] at this
  exact this

theorem d_site (ipg : Nat) (s : Bool) : ∃ T : OpT SZ K, dOp ipg s = some T ∧ SiteOp ipg ⟨-1, -sz s, ipg⟩ T ∧
    partMat ipg T.odd = spinMat false s ∧ partMat ipg T.even = 0 := by
  obtain ⟨C, hC, oC, -, eC, qC, mC⟩ := C30_annihilation (K := K) ipg s
  refine ⟨C, hC, ⟨oC, qC, by rw [eC]; simp [Conserves], fun _ => rfl, fun h => absurd eC h⟩, ?_, by rw [eC]; rfl⟩
  funext x y
  have := mC y.1 y.2 x.1 x.2
  rw [matEl, eC, entry_nil, add_zero] at this
  exact this

theorem i_site (ipg : Nat) : ∃ T : OpT SZ K, iOp ipg = some T ∧ SiteOp ipg 0 T ∧ partMat ipg T.odd = 0 ∧ partMat ipg T.even = 1 := by
  obtain ⟨C, hC, oC, eC, qC, mC⟩ := C30_identity (K := K) ipg
  refine ⟨C, hC, ⟨oC, by rw [eC]; simp [Conserves], qC, fun h => absurd eC h, fun _ => rfl⟩, by rw [eC]; rfl, ?_⟩
  funext x y
  have := mC y.1 y.2 x.1 x.2
  rw [matEl, eC, entry_nil, zero_add] at this
  rw [Matrix.one_apply]
  refine this.trans ?_
  obtain ⟨a, b⟩ := x
  obtain ⟨c, d⟩ := y
  simp only [Prod.mk.injEq]
  congr 1
  simp only [eq_comm]

end Hamiltonian
end Verif
