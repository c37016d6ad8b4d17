import Verif.Model.Hamiltonian
import Verif.Thm.Sparse
import Verif.Thm.Fermion
import Verif.Thm.Expr
import Mathlib.Tactic.Ring
import Mathlib.Tactic.FieldSimp
import Mathlib.Tactic.LinearCombination

/-!
Properties C29 and C30: term codes and one-orbital operators of the quantum chemistry Hamiltonian.
-/

set_option linter.unusedSectionVars false
set_option linter.unusedSimpArgs false

namespace Verif.Hamiltonian
variable {K : Type} [Field K] 
theorem SZ_add (a b : SZ) : a + b = ⟨a.n+b.n, a.twos+b.twos, a.pg ^^^ b.pg⟩ := rfl
theorem SZ_neg (a : SZ) : -a = ⟨-a.n, -a.twos, a.pg⟩ := rfl
theorem SZ_zero : (0 : SZ) = ⟨0,0,0⟩ := rfl
theorem SZ_sub (a b : SZ) : a - b = ⟨a.n-b.n, a.twos-b.twos, a.pg ^^^ b.pg⟩ := rfl

def one1 (v : K) : Arr K := ⟨[1,1], fun ix => if ix = [0,0] then v else 0⟩

theorem sorted_basis (ipg : Nat) : sortBy (fun x y : SZ × Nat => szLe x.1 y.1) (siteBasis ipg) =
   [(⟨0, 0, 0⟩, 1), (⟨1, -1, ipg⟩, 1), (⟨1, 1, ipg⟩, 1), (⟨2, 0, 0⟩, 1)] := by
  simp [sortBy, insertBy, szLe, siteBasis, SZ.lt]

theorem zeros_val (ipg : Nat) (dq : SZ) : SpT.zeros szLe [siteBasis ipg, siteBasis ipg] none (some dq) =
    some ((cart [[(⟨0, 0, 0⟩ : SZ), ⟨1, -1, ipg⟩, ⟨1, 1, ipg⟩, ⟨2, 0, 0⟩], [⟨0, 0, 0⟩, ⟨1, -1, ipg⟩, ⟨1, 1, ipg⟩, ⟨2, 0, 0⟩]]).filterMap
      fun x => if x.getD 0 0 = dq + x.getD 1 0 then some (x, (⟨[1,1], fun _ => (0 : K)⟩ : Arr K)) else none) := by
  unfold SpT.zeros SpT.skeleton
  have : ([siteBasis ipg, siteBasis ipg].any List.isEmpty) = false := rfl
  simp only [this, Bool.false_eq_true, if_false, List.map_cons, List.map_nil, sorted_basis, Option.map_some, Option.some.injEq]
  have h1 : cart [[((⟨0, 0, 0⟩ : SZ), 1), (⟨1, -1, ipg⟩, 1), (⟨1, 1, ipg⟩, 1), (⟨2, 0, 0⟩, 1)],
      [(⟨0, 0, 0⟩, 1), (⟨1, -1, ipg⟩, 1), (⟨1, 1, ipg⟩, 1), (⟨2, 0, 0⟩, 1)]] =
      (cart [[(⟨0, 0, 0⟩ : SZ), ⟨1, -1, ipg⟩, ⟨1, 1, ipg⟩, ⟨2, 0, 0⟩], [⟨0, 0, 0⟩, ⟨1, -1, ipg⟩, ⟨1, 1, ipg⟩, ⟨2, 0, 0⟩]]).map
        (List.map fun q => (q, 1)) := by
    simp [cart]
  rw [h1, List.filterMap_map, List.map_filterMap]
  apply List.filterMap_congr
  intro x hx
  obtain ⟨a, b, rfl⟩ : ∃ a b, x = [a, b] := by
    simp only [cart, List.flatMap_cons, List.flatMap_nil, List.map_cons, List.map_nil, List.append_nil, List.cons_append, List.nil_append, List.mem_cons, List.not_mem_nil, or_false] at hx
    rcases hx with h | h | h | h | h | h | h | h | h | h | h | h | h | h | h | h <;> exact ⟨_, _, h⟩
  have : (a = dq - -b) ↔ (a = dq + b) := by rw [sub_neg_eq_add]
  simp only [Function.comp, List.map_cons, List.map_nil, BondFusingInfo.signedLabels, Arr.zeros]
  simp

theorem c_val (ipg : Nat) (s : Bool) : (cOp ipg s : Option (OpT SZ K)) =
   some ⟨[ ([⟨1, sz s, ipg⟩, ⟨0,0,0⟩], one1 1), ([⟨2,0,0⟩, ⟨1, -sz s, ipg⟩], one1 (if s then -1 else 1))], []⟩ := by
  unfold cOp siteZeros OpT.zeros
  rw [zeros_val]
  cases s <;>
  simp [cart, sz, SZ_sub, SZ_add, SZ_zero, setOdd, setItem, SZ.isFermion, inBox, List.filterMap_cons, one1]


theorem d_val (ipg : Nat) (s : Bool) : (dOp ipg s : Option (OpT SZ K)) =
   some ⟨[([⟨0,0,0⟩, ⟨1, sz s, ipg⟩], one1 1), ([⟨1, -sz s, ipg⟩, ⟨2,0,0⟩], one1 (if s then -1 else 1))], []⟩ := by
  unfold dOp siteZeros OpT.zeros
  rw [zeros_val]
  cases s <;>
  simp [cart, sz, SZ_sub, SZ_add, SZ_zero, setOdd, setItem, SZ.isFermion, inBox, List.filterMap_cons, one1]

theorem i_val (ipg : Nat) : (iOp ipg : Option (OpT SZ K)) =
   some ⟨[], [([⟨0,0,0⟩, ⟨0,0,0⟩], one1 1), ([⟨1, -1, ipg⟩, ⟨1, -1, ipg⟩], one1 1), ([⟨1, 1, ipg⟩, ⟨1, 1, ipg⟩], one1 1),
     ([⟨2,0,0⟩, ⟨2,0,0⟩], one1 1)]⟩ := by
  unfold iOp siteZeros OpT.zeros
  rw [zeros_val]
  simp [cart, sz, SZ_sub, SZ_add, SZ_zero, setEven, setItem, SZ.isFermion, inBox, List.filterMap_cons, one1]

theorem h_val (ipg : Nat) (t0 t1 v01 v10 : K) : hOp ipg t0 t1 v01 v10 =
   some ⟨[], [([⟨0,0,0⟩, ⟨0,0,0⟩], one1 0), ([⟨1, -1, ipg⟩, ⟨1, -1, ipg⟩], one1 t1), ([⟨1, 1, ipg⟩, ⟨1, 1, ipg⟩], one1 t0),
     ([⟨2,0,0⟩, ⟨2,0,0⟩], one1 (t0 + t1 + 1 / 2 * (v01 + v10)))]⟩ := by
  unfold hOp siteZeros OpT.zeros
  rw [zeros_val]
  simp [cart, sz, SZ_sub, SZ_add, SZ_zero, setEven, setItem, SZ.isFermion, inBox, List.filterMap_cons, one1]

/-! ### Specification -/

/-- The state of the orbital with `a` electrons of spin up and `b` of spin down. -/
def occ (ipg : Nat) (a b : Bool) : SZ :=
  ⟨(if a then 1 else 0) + (if b then 1 else 0), (if a then 1 else 0) - (if b then 1 else 0), if a != b then ipg else 0⟩

/-- Matrix element of an operator between two states of the orbital. -/
def matEl (T : OpT SZ K) (x y : SZ) : K := entry T.odd [(x, 0), (y, 0)] + entry T.even [(x, 0), (y, 0)]


/-! ### Products of one-orbital operators -/

theorem factor_nil (f : SZ → Bool) (q : List SZ) : OpT.factor f [] q = false := rfl

theorem addAliased_no (A B : SpT SZ K) : OpT.addAliased A B (fun _ => false) (fun _ => false) = A.add B := by
  unfold OpT.addAliased
  conv_rhs => rw [← List.map_id (A.add B)]
  apply List.map_congr_left
  intro b _
  simp

/-- The operator lives on the orbital. -/
def OnSite (ipg : Nat) (A : OpT SZ K) : Prop :=
  Conforms [siteBasis ipg, siteBasis ipg] A.odd ∧ Conforms [siteBasis ipg, siteBasis ipg] A.even ∧
    UniqueLabels A.odd ∧ UniqueLabels A.even

theorem wf_siteBasis (ipg : Nat) : Dict.WF (siteBasis ipg) := by
  simp [Dict.WF, siteBasis]

theorem freeAxes_2_1 : freeAxes 2 [1] = [0] := by decide
theorem freeAxes_2_0 : freeAxes 2 [0] = [1] := by decide

theorem sp_matmul (ipg : Nat) (A B : SpT SZ K) (hA : Conforms [siteBasis ipg, siteBasis ipg] A)
    (hB : Conforms [siteBasis ipg, siteBasis ipg] B) :
    ∃ R, SpT.tensordot A B [1] [0] = some R ∧ Conforms [siteBasis ipg, siteBasis ipg] R ∧ UniqueLabels R ∧
      ∀ x y, entry R [x, y] = ((legBasis (siteBasis ipg)).map fun c => entry A [x, c] * entry B [c, y]).sum := by
  obtain ⟨R, h1, h2, h3, h4⟩ := C12_tensordot A B [1] [0] _ _ [siteBasis ipg] [1] [0] hA hB
    (.cons (by simp [NamesAxis]) .nil) (.cons (by simp [NamesAxis]) .nil) (by simp) (by simp)
    (by simp) (by simp) (by simpa using wf_siteBasis ipg)
  refine ⟨R, h1, ?_, h3, ?_⟩
  · simpa [freeAxes_2_0, freeAxes_2_1] using h2
  · intro x y
    have := h4 [x] [y] (by simp [freeAxes_2_1]) (by simp [freeAxes_2_0]) (fun c => x :: c) (fun c => c ++ [y]) ?_ ?_
    · simp only [List.cons_append, List.nil_append] at this
      rw [this]
      simp [legIndices, cart, legBasis, siteBasis]
    · intro c hc
      have hl : c.length = 1 := by simpa using legIndices_length hc
      obtain ⟨c, rfl⟩ := List.length_eq_one_iff.1 hl
      exact ⟨rfl, rfl, by simp [freeAxes_2_1, pick]⟩
    · intro c hc
      have hl : c.length = 1 := by simpa using legIndices_length hc
      obtain ⟨c, rfl⟩ := List.length_eq_one_iff.1 hl
      exact ⟨rfl, rfl, by simp [freeAxes_2_0, pick]⟩


/-- The nonempty operators. -/
def Nonzero (A : OpT SZ K) : Prop := A.odd ≠ [] ∨ A.even ≠ []

theorem ndim_two {ipg : Nat} {A : OpT SZ K} (h : OnSite ipg A) (hn : Nonzero A) : A.ndim = 2 := by
  have e : ∀ T : SpT SZ K, Conforms [siteBasis ipg, siteBasis ipg] T → T = [] ∨ T.ndim = 2 := by
    intro T hT
    by_cases h0 : T = []
    · exact Or.inl h0
    · exact Or.inr (by simpa using ndim_eq hT h0)
  unfold OpT.ndim
  rcases e _ h.1 with h1 | h1 <;> rcases e _ h.2.1 with h2 | h2
  · rcases hn with hn | hn
    · exact absurd h1 hn
    · exact absurd h2 hn
  · rw [h1, h2]; simp [SpT.ndim]
  · rw [h1, h2]; simp [SpT.ndim]
  · rw [h1, h2]; rfl

/-- C30: the matrix of the product `A @ B` of one-orbital operators is the product of the matrices. -/
theorem C30_matmul (ipg : Nat) (A B : OpT SZ K) (hA : OnSite ipg A) (hB : OnSite ipg B) (nA : Nonzero A) (nB : Nonzero B) :
    ∃ R, OpT.matmul SZ.isFermion A B = some R ∧ OnSite ipg R ∧
      ∀ x y, matEl R x y = matEl A x (occ ipg false false) * matEl B (occ ipg false false) y +
        matEl A x (occ ipg true false) * matEl B (occ ipg true false) y +
        matEl A x (occ ipg false true) * matEl B (occ ipg false true) y +
        matEl A x (occ ipg true true) * matEl B (occ ipg true true) y := by
  obtain ⟨ao, ho1, ho2, ho3, ho4⟩ := sp_matmul ipg A.odd B.even hA.1 hB.2.1
  obtain ⟨bo, hp1, hp2, hp3, hp4⟩ := sp_matmul ipg A.even B.odd hA.2.1 hB.1
  obtain ⟨ae, he1, he2, he3, he4⟩ := sp_matmul ipg A.odd B.odd hA.1 hB.1
  obtain ⟨be, hf1, hf2, hf3, hf4⟩ := sp_matmul ipg A.even B.even hA.2.1 hB.2.1
  have dA := ndim_two hA nA
  have dB := ndim_two hB nB
  obtain ⟨c1, u1, e1⟩ := C11_add _ ao bo ho2 hp2 ho3
  obtain ⟨c2, u2, e2⟩ := C11_add _ ae be he2 hf2 he3
  refine ⟨⟨ao.add bo, ae.add be⟩, ?_, ⟨c1, c2, u1, u2⟩, ?_⟩
  · unfold OpT.matmul OpT.tensordot
    have n1 : SpT.normAxis 2 (-1) = 1 := by decide
    have n2 : SpT.normAxis 2 0 = 0 := by decide
    simp only [dA, dB, List.map_cons, List.map_nil, n1, n2]
    simp only [Int.ofNat_eq_natCast, Nat.cast_one, Nat.cast_zero, ho1, hp1, he1, hf1, Option.bind_some]
    simp [show (fun q : List SZ => OpT.factor SZ.isFermion [] q) = fun _ => false from rfl]
    have : OpT.factor SZ.isFermion [] = fun _ => false := rfl
    simp only [this, addAliased_no, and_self]
  · intro x y
    unfold matEl
    simp only [e1, e2, ho4, hp4, he4, hf4]
    simp [legBasis, siteBasis, occ]
    ring


/-! ### C30 -/

theorem entry_cons (q1 q2 : SZ) (v : K) (t : SpT SZ K) (x y : SZ) :
    entry (([q1, q2], one1 v) :: t) [(x, 0), (y, 0)] = (if q1 = x ∧ q2 = y then v else 0) + entry t [(x, 0), (y, 0)] := by
  simp [entry, blockEntry, one1, inBox]

theorem entry_nil (x : List (SZ × Nat)) : entry ([] : SpT SZ K) x = 0 := rfl

/-- Sign of the fermionic creation operator of spin `s` on a state with `a` spin-up electrons: spin-down operators pass the
spin-up electron. -/
def spinSign (s a : Bool) : K := if s && a then -1 else 1

/-- Occupation of spin `s` in the state with occupations `a` and `b`. -/
def occOf (s a b : Bool) : Bool := if s then b else a

/-- The label of one of the four states. -/
def IsState (ipg : Nat) (q : SZ) : Prop := Dict.get? (siteBasis ipg) q = some 1

theorem isState_zero (ipg : Nat) : IsState ipg ⟨0, 0, 0⟩ := by simp [IsState, siteBasis, Dict.get?]
theorem isState_two (ipg : Nat) : IsState ipg ⟨2, 0, 0⟩ := by simp [IsState, siteBasis, Dict.get?]
theorem isState_up (ipg : Nat) : IsState ipg ⟨1, 1, ipg⟩ := by simp [IsState, siteBasis, Dict.get?]
theorem isState_down (ipg : Nat) : IsState ipg ⟨1, -1, ipg⟩ := by simp [IsState, siteBasis, Dict.get?]
theorem isState_sz (ipg : Nat) (s : Bool) : IsState ipg ⟨1, sz s, ipg⟩ := by
  cases s
  · exact isState_up ipg
  · exact isState_down ipg
theorem isState_nsz (ipg : Nat) (s : Bool) : IsState ipg ⟨1, -sz s, ipg⟩ := by
  cases s
  · exact isState_down ipg
  · exact isState_up ipg

theorem conforms_nil (ipg : Nat) : Conforms [siteBasis ipg, siteBasis ipg] ([] : SpT SZ K) := by
  intro b hb; simp at hb

theorem conforms_cons {ipg : Nat} {q1 q2 : SZ} (v : K) {t : SpT SZ K} (h1 : IsState ipg q1) (h2 : IsState ipg q2)
    (ht : Conforms [siteBasis ipg, siteBasis ipg] t) :
    Conforms [siteBasis ipg, siteBasis ipg] (([q1, q2], one1 v) :: t) := by
  intro b hb
  rcases List.mem_cons.1 hb with rfl | hb
  · exact .cons h1 (.cons h2 .nil)
  · exact ht b hb

/-- C30: the creation operator fills an empty spin orbital, with the fermionic sign, and changes nothing else; it carries the
charge of the electron and is stored as an odd operator. -/
theorem C30_creation (ipg : Nat) (s : Bool) :
    ∃ C : OpT SZ K, cOp ipg s = some C ∧ OnSite ipg C ∧ Nonzero C ∧ C.even = [] ∧
      Conserves [true, false] ⟨1, sz s, ipg⟩ C.odd ∧
      ∀ a b a' b', matEl C (occ ipg a' b') (occ ipg a b) =
        if occOf s a b = false ∧ occOf s a' b' = true ∧ occOf (!s) a b = occOf (!s) a' b' then spinSign s a else 0 := by
  refine ⟨_, c_val ipg s, ⟨?_, conforms_nil ipg, ?_, by simp [UniqueLabels]⟩, by simp [Nonzero], rfl, ?_, ?_⟩
  · exact conforms_cons _ (isState_sz ipg s) (isState_zero ipg)
      (conforms_cons _ (isState_two ipg) (isState_nsz ipg s) (conforms_nil ipg))
  · simp [UniqueLabels]
  · intro b hb
    simp only [List.mem_cons, List.not_mem_nil, or_false] at hb
    rcases hb with rfl | rfl <;> simp [signedSum, SZ_neg, SZ_add, SZ_zero]
  · unfold matEl
    intro a b a' b'
    cases s <;> cases a <;> cases b <;> cases a' <;> cases b' <;> simp [entry_cons, entry_nil, occ, occOf, spinSign, sz]

/-- C30: the annihilation operator is the transpose of the creation operator and carries the opposite charge. -/
theorem C30_annihilation (ipg : Nat) (s : Bool) :
    ∃ D : OpT SZ K, dOp ipg s = some D ∧ OnSite ipg D ∧ Nonzero D ∧ D.even = [] ∧
      Conserves [true, false] ⟨-1, -sz s, ipg⟩ D.odd ∧
      ∀ a b a' b', matEl D (occ ipg a' b') (occ ipg a b) =
        if occOf s a b = true ∧ occOf s a' b' = false ∧ occOf (!s) a b = occOf (!s) a' b' then spinSign s a else 0 := by
  refine ⟨_, d_val ipg s, ⟨?_, conforms_nil ipg, ?_, by simp [UniqueLabels]⟩, by simp [Nonzero], rfl, ?_, ?_⟩
  · exact conforms_cons _ (isState_zero ipg) (isState_sz ipg s)
      (conforms_cons _ (isState_nsz ipg s) (isState_two ipg) (conforms_nil ipg))
  · simp [UniqueLabels]
  · intro b hb
    simp only [List.mem_cons, List.not_mem_nil, or_false] at hb
    rcases hb with rfl | rfl <;> simp [signedSum, SZ_neg, SZ_add, SZ_zero]
  · unfold matEl
    intro a b a' b'
    cases s <;> cases a <;> cases b <;> cases a' <;> cases b' <;> simp [entry_cons, entry_nil, occ, occOf, spinSign, sz]

/-- C30: the identity. -/
theorem C30_identity (ipg : Nat) :
    ∃ I : OpT SZ K, iOp ipg = some I ∧ OnSite ipg I ∧ I.odd = [] ∧ Conserves [true, false] 0 I.even ∧
      ∀ a b a' b', matEl I (occ ipg a' b') (occ ipg a b) = if a = a' ∧ b = b' then 1 else 0 := by
  refine ⟨_, i_val ipg, ⟨conforms_nil ipg, ?_, by simp [UniqueLabels], ?_⟩, rfl, ?_, ?_⟩
  · exact conforms_cons _ (isState_zero ipg) (isState_zero ipg) (conforms_cons _ (isState_down ipg) (isState_down ipg)
      (conforms_cons _ (isState_up ipg) (isState_up ipg) (conforms_cons _ (isState_two ipg) (isState_two ipg) (conforms_nil ipg))))
  · simp [UniqueLabels]
  · intro b hb
    simp only [List.mem_cons, List.not_mem_nil, or_false] at hb
    rcases hb with rfl | rfl | rfl | rfl <;> simp [signedSum, SZ_neg, SZ_add, SZ_zero]
  · unfold matEl
    intro a b a' b'
    cases a <;> cases b <;> cases a' <;> cases b' <;> simp [entry_cons, entry_nil, occ]

/-- Number of electrons of spin `s` as a number. -/
def num (x : Bool) : K := if x then 1 else 0

/-- C30: the on-site part of the Hamiltonian, `t0 n0 + t1 n1 + (v01 + v10) / 2 n0 n1`. -/
theorem C30_onsite (ipg : Nat) (t0 t1 v01 v10 : K) :
    ∃ H : OpT SZ K, hOp ipg t0 t1 v01 v10 = some H ∧ OnSite ipg H ∧ H.odd = [] ∧ Conserves [true, false] 0 H.even ∧
      ∀ a b a' b', matEl H (occ ipg a' b') (occ ipg a b) =
        if a = a' ∧ b = b' then t0 * num a + t1 * num b + 1 / 2 * (v01 + v10) * (num a * num b) else 0 := by
  refine ⟨_, h_val ipg t0 t1 v01 v10, ⟨conforms_nil ipg, ?_, by simp [UniqueLabels], ?_⟩, rfl, ?_, ?_⟩
  · exact conforms_cons _ (isState_zero ipg) (isState_zero ipg) (conforms_cons _ (isState_down ipg) (isState_down ipg)
      (conforms_cons _ (isState_up ipg) (isState_up ipg) (conforms_cons _ (isState_two ipg) (isState_two ipg) (conforms_nil ipg))))
  · simp [UniqueLabels]
  · intro b hb
    simp only [List.mem_cons, List.not_mem_nil, or_false] at hb
    rcases hb with rfl | rfl | rfl | rfl <;> simp [signedSum, SZ_neg, SZ_add, SZ_zero]
  · unfold matEl
    intro a b a' b'
    cases a <;> cases b <;> cases a' <;> cases b' <;> simp [entry_cons, entry_nil, occ, num]

theorem matEl_add (ipg : Nat) {A B : OpT SZ K} (hA : OnSite ipg A) (hB : OnSite ipg B) (x y : SZ) :
    matEl (A.add B) x y = matEl A x y + matEl B x y := by
  unfold matEl OpT.add
  rw [(C11_add _ _ _ hA.1 hB.1 hA.2.2.1).2.2, (C11_add _ _ _ hA.2.1 hB.2.1 hA.2.2.2).2.2]
  ring

/-- Matrix elements of a product of two products. -/
theorem anticommutator (ipg : Nat) {A B : OpT SZ K} (hA : OnSite ipg A) (hB : OnSite ipg B) (nA : Nonzero A) (nB : Nonzero B) :
    ∃ R, plus (mm (some A) (some B)) (mm (some B) (some A)) = some R ∧ ∀ x y, matEl R x y =
      (matEl A x (occ ipg false false) * matEl B (occ ipg false false) y +
        matEl A x (occ ipg true false) * matEl B (occ ipg true false) y +
        matEl A x (occ ipg false true) * matEl B (occ ipg false true) y +
        matEl A x (occ ipg true true) * matEl B (occ ipg true true) y) +
      (matEl B x (occ ipg false false) * matEl A (occ ipg false false) y +
        matEl B x (occ ipg true false) * matEl A (occ ipg true false) y +
        matEl B x (occ ipg false true) * matEl A (occ ipg false true) y +
        matEl B x (occ ipg true true) * matEl A (occ ipg true true) y) := by
  obtain ⟨R1, h1, o1, e1⟩ := C30_matmul ipg A B hA hB nA nB
  obtain ⟨R2, h2, o2, e2⟩ := C30_matmul ipg B A hB hA nB nA
  refine ⟨R1.add R2, ?_, ?_⟩
  · simp [plus, mm, h1, h2]
  · intro x y
    rw [matEl_add ipg o1 o2, e1, e2]

/-- C30: `c d + d c` is the identity for equal spins and zero for different spins, computed with the library's `@` and `+`. -/
theorem C30_anticommutator (ipg : Nat) (s s' : Bool) :
    ∃ R : OpT SZ K, plus (mm (cOp ipg s) (dOp ipg s')) (mm (dOp ipg s') (cOp ipg s)) = some R ∧
      ∀ a b a' b', matEl R (occ ipg a' b') (occ ipg a b) = if s = s' ∧ a = a' ∧ b = b' then 1 else 0 := by
  obtain ⟨C, hC, oC, nC, -, -, eC⟩ := C30_creation (K := K) ipg s
  obtain ⟨D, hD, oD, nD, -, -, eD⟩ := C30_annihilation (K := K) ipg s'
  obtain ⟨R, hR, eR⟩ := anticommutator ipg oC oD nC nD
  refine ⟨R, by rw [hC, hD]; exact hR, ?_⟩
  intro a b a' b'
  rw [eR]
  simp only [eC, eD]
  cases s <;> cases s' <;> cases a <;> cases b <;> cases a' <;> cases b' <;> simp [occOf, spinSign]

/-- C30: creation operators anticommute. -/
theorem C30_anticommutator_cc (ipg : Nat) (s s' : Bool) :
    ∃ R : OpT SZ K, plus (mm (cOp ipg s) (cOp ipg s')) (mm (cOp ipg s') (cOp ipg s)) = some R ∧
      ∀ a b a' b', matEl R (occ ipg a' b') (occ ipg a b) = 0 := by
  obtain ⟨C, hC, oC, nC, -, -, eC⟩ := C30_creation (K := K) ipg s
  obtain ⟨D, hD, oD, nD, -, -, eD⟩ := C30_creation (K := K) ipg s'
  obtain ⟨R, hR, eR⟩ := anticommutator ipg oC oD nC nD
  refine ⟨R, by rw [hC, hD]; exact hR, ?_⟩
  intro a b a' b'
  rw [eR]
  simp only [eC, eD]
  cases s <;> cases s' <;> cases a <;> cases b <;> cases a' <;> cases b' <;> simp [occOf, spinSign]

/-- C30: annihilation operators anticommute. -/
theorem C30_anticommutator_dd (ipg : Nat) (s s' : Bool) :
    ∃ R : OpT SZ K, plus (mm (dOp ipg s) (dOp ipg s')) (mm (dOp ipg s') (dOp ipg s)) = some R ∧
      ∀ a b a' b', matEl R (occ ipg a' b') (occ ipg a b) = 0 := by
  obtain ⟨C, hC, oC, nC, -, -, eC⟩ := C30_annihilation (K := K) ipg s
  obtain ⟨D, hD, oD, nD, -, -, eD⟩ := C30_annihilation (K := K) ipg s'
  obtain ⟨R, hR, eR⟩ := anticommutator ipg oC oD nC nD
  refine ⟨R, by rw [hC, hD]; exact hR, ?_⟩
  intro a b a' b'
  rw [eR]
  simp only [eC, eD]
  cases s <;> cases s' <;> cases a <;> cases b <;> cases a' <;> cases b' <;> simp [occOf, spinSign]

/-- C30: `b_operator(s, s)` counts the electrons of spin `s`. -/
theorem C30_number (ipg : Nat) (s : Bool) :
    ∃ R : OpT SZ K, bOp ipg s s = some R ∧
      ∀ a b a' b', matEl R (occ ipg a' b') (occ ipg a b) = if a = a' ∧ b = b' then num (occOf s a b) else 0 := by
  obtain ⟨C, hC, oC, nC, -, -, eC⟩ := C30_creation (K := K) ipg s
  obtain ⟨D, hD, oD, nD, -, -, eD⟩ := C30_annihilation (K := K) ipg s
  obtain ⟨R, hR, oR, eR⟩ := C30_matmul ipg C D oC oD nC nD
  refine ⟨R, by unfold bOp mm; rw [hC, hD]; exact hR, ?_⟩
  intro a b a' b'
  rw [eR]
  simp only [eC, eD]
  cases s <;> cases a <;> cases b <;> cases a' <;> cases b' <;> simp [occOf, spinSign, num]

/-- C30: `a_operator(s, s')` creates an electron of spin `s'` and then one of spin `s`: it takes the empty site to the doubly occupied one, with a plus sign
for `s` up and `s'` down, a minus sign for the other order, and vanishes for equal spins.  `ad_operator(s, s')` is its adjoint. -/
theorem C30_pairs (ipg : Nat) (s s' : Bool) :
    ∃ A D : OpT SZ K, aOp ipg s s' = some A ∧ adOp ipg s s' = some D ∧
      (∀ a b a' b', matEl A (occ ipg a' b') (occ ipg a b) =
        if (a, b) = (false, false) ∧ (a', b') = (true, true) ∧ s ≠ s' then (if s then -1 else 1) else 0) ∧
      ∀ a b a' b', matEl D (occ ipg a' b') (occ ipg a b) = matEl A (occ ipg a b) (occ ipg a' b') := by
  obtain ⟨C, hC, oC, nC, -, -, eC⟩ := C30_creation (K := K) ipg s
  obtain ⟨C', hC', oC', nC', -, -, eC'⟩ := C30_creation (K := K) ipg s'
  obtain ⟨D, hD, oD, nD, -, -, eD⟩ := C30_annihilation (K := K) ipg s
  obtain ⟨D', hD', oD', nD', -, -, eD'⟩ := C30_annihilation (K := K) ipg s'
  obtain ⟨R, hR, oR, eR⟩ := C30_matmul ipg C C' oC oC' nC nC'
  obtain ⟨T, hT, oT, eT⟩ := C30_matmul ipg D' D oD' oD nD' nD
  refine ⟨R, T, by unfold aOp mm; rw [hC, hC']; exact hR, by unfold adOp mm; rw [hD', hD]; exact hT, ?_, ?_⟩
  · intro a b a' b'
    rw [eR]
    simp only [eC, eC']
    cases s <;> cases s' <;> cases a <;> cases b <;> cases a' <;> cases b' <;> simp [occOf, spinSign]
  · intro a b a' b'
    rw [eR, eT]
    simp only [eC, eC', eD, eD']
    cases s <;> cases s' <;> cases a <;> cases b <;> cases a' <;> cases b' <;> simp [occOf, spinSign]

/-! ### C29 -/

/-- Specification: the creation (`d = false`) or annihilation (`d = true`) symbol of site `i` and spin `s`. -/
def elementary (orbSym : List Nat) (d : Bool) (i : Nat) (s : Bool) : OpElement Nat SZ K :=
  ⟨if d then 1 else 0, [(i : Int), if s then 1 else 0], 1,
    if d then ⟨-1, -sz s, orbSym.getD i 0⟩ else ⟨1, sz s, orbSym.getD i 0⟩⟩

/-- The code the library gives to that operator. -/
def codeOf (d : Bool) (i : Nat) (s : Bool) : Int := code (if d then OP_D else OP_C) i (if s then 1 else 0)

theorem decode_one (orbSym : List Nat) (d : Bool) (i : Nat) (s : Bool) (hi : i < orbSym.length) (hl : orbSym.length ≤ 8192) :
    opTable orbSym (codeOf d i s / OP) (codeOf d i s % OP / SITE) (codeOf d i s % SITE / SPIN) =
      some (elementary (K := K) orbSym d i s) := by
  have h1 : codeOf d i s / OP = if d then 1 else 0 := by
    cases d <;> cases s <;> simp [codeOf, code, OP_C, OP_D, OP, SITE, SPIN] <;> omega
  have h2 : codeOf d i s % OP / SITE = i := by
    cases d <;> cases s <;> simp [codeOf, code, OP_C, OP_D, OP, SITE, SPIN] <;> omega
  have h3 : codeOf d i s % SITE / SPIN = if s then 1 else 0 := by
    cases d <;> cases s <;> simp [codeOf, code, OP_C, OP_D, OP, SITE, SPIN] <;> omega
  rw [h1, h2, h3]
  unfold opTable
  have a1 : ¬ ((i : Int) < 0) := by omega
  have a2 : (i : Int) < orbSym.length := by exact_mod_cast hi
  cases d <;> cases s <;> simp [a1, hi, elementary, sz]

theorem codeOf_ne (d : Bool) (i : Nat) (s : Bool) : codeOf d i s ≠ -1 := by
  cases d <;> cases s <;> simp [codeOf, code, OP_C, OP_D, OP, SITE, SPIN] <;> omega

theorem mapM_some {α β : Type} (f : α → Option β) (g : α → β) (l : List α) (h : ∀ x ∈ l, f x = some (g x)) :
    l.mapM f = some (l.map g) := by
  induction l with
  | nil => rfl
  | cons a t ih =>
    rw [List.mapM_cons, h a (by simp), ih fun x hx => h x (by simp [hx])]
    rfl

/-- C29: a term given by the codes of elementary operators, followed by any number of the padding code -1, is decoded to the
product of those operators, for every number of sites up to 8192. -/
theorem C29_roundtrip (orbSym : List Nat) (hl : orbSym.length ≤ 8192) (x : K) (l : List (Bool × Nat × Bool))
    (h : ∀ p ∈ l, p.2.1 < orbSym.length) (pad : Nat) :
    decodeTerm orbSym x (l.map (fun p => codeOf p.1 p.2.1 p.2.2) ++ List.replicate pad (-1)) =
      some (OpString.mk' (l.map fun p => elementary orbSym p.1 p.2.1 p.2.2) x) := by
  unfold decodeTerm
  have e : (l.map (fun p : Bool × Nat × Bool => codeOf p.1 p.2.1 p.2.2) ++ List.replicate pad (-1)).filter (fun i => decide (i ≠ -1)) =
      l.map fun p => codeOf p.1 p.2.1 p.2.2 := by
    rw [List.filter_append]
    have : (List.replicate pad (-1 : Int)).filter (fun i => decide (i ≠ -1)) = [] := by simp
    rw [this, List.append_nil, List.filter_eq_self]
    intro c hc
    obtain ⟨p, _, rfl⟩ := List.mem_map.1 hc
    simp [codeOf_ne]
  rw [e, List.mapM_map]
  rw [mapM_some _ (fun p : Bool × Nat × Bool => elementary orbSym p.1 p.2.1 p.2.2) l]
  · rfl
  · intro p hp
    exact decode_one orbSym p.1 p.2.1 p.2.2 (h p hp) hl

/-- C29: different operators have different codes. -/
theorem C29_injective (d d' : Bool) (i i' : Nat) (s s' : Bool) (hi : i < 8192) (hi' : i' < 8192)
    (h : codeOf d i s = codeOf d' i' s') : d = d' ∧ i = i' ∧ s = s' := by
  cases d <;> cases s <;> cases d' <;> cases s' <;>
    simp [codeOf, code, OP_C, OP_D, OP, SITE, SPIN] at h ⊢ <;> omega

/-- C29: the limit is needed: creation on site 8192 and annihilation on site 0 have the same code. -/
theorem C29_collision_at_limit : codeOf false 8192 false = codeOf true 0 false := by decide

theorem code_eq_codeOf_C (i : Nat) (s : Bool) : code OP_C i (if s then 1 else 0) = codeOf false i s := rfl
theorem code_eq_codeOf_D (i : Nat) (s : Bool) : code OP_D i (if s then 1 else 0) = codeOf true i s := rfl

section
variable {R : Type} [Ring R] [Algebra K R]

theorem sum_map_flatMap {α β : Type} (l : List α) (f : α → List β) (g : β → R) :
    ((l.flatMap f).map g).sum = (l.map fun a => ((f a).map g).sum).sum := by
  induction l with
  | nil => simp
  | cons a t ih => simp [ih]

/-- The generated terms before encoding. -/
def plainTerms (n : Nat) (h1e : Nat → Nat → K) (g2e : Nat → Nat → Nat → Nat → K) (big : K → Bool) :
    List (K × List (Bool × Nat × Bool) × Nat) :=
  ((List.range n).flatMap fun i => (List.range n).flatMap fun j =>
    if big (h1e i j) then [false, true].map fun s => (h1e i j, [(false, i, s), (true, j, s)], 2) else []) ++
  ((List.range n).flatMap fun i => (List.range n).flatMap fun j => (List.range n).flatMap fun k => (List.range n).flatMap fun l =>
    if big (g2e i j k l) then [false, true].flatMap fun s => [false, true].map fun s' =>
        (1 / 2 * g2e i j k l, [(false, i, s), (false, k, s'), (true, l, s'), (true, j, s)], 0)
    else [])

theorem generate_eq (n : Nat) (h1e : Nat → Nat → K) (g2e : Nat → Nat → Nat → Nat → K) (big : K → Bool) :
    generateQcTerms n h1e g2e big = (plainTerms n h1e g2e big).map fun p =>
      (p.1, p.2.1.map (fun q => codeOf q.1 q.2.1 q.2.2) ++ List.replicate p.2.2 (-1)) := by
  unfold generateQcTerms plainTerms
  rw [List.map_append]
  simp only [List.map_flatMap]
  congr 1
  · congr 1; funext i; congr 1; funext j
    by_cases h : big (h1e i j) = true
    · simp [h, codeOf, List.replicate]
    · simp [h]
  · congr 1; funext i; congr 1; funext j; congr 1; funext k; congr 1; funext l
    by_cases h : big (g2e i j k l) = true
    · simp [h, codeOf]
    · simp [h]

theorem plain_sites (n : Nat) (h1e : Nat → Nat → K) (g2e : Nat → Nat → Nat → Nat → K) (big : K → Bool) :
    ∀ p ∈ plainTerms n h1e g2e big, ∀ q ∈ p.2.1, q.2.1 < n := by
  intro p hp q hq
  unfold plainTerms at hp
  rcases List.mem_append.1 hp with hp | hp
  · simp only [List.mem_flatMap, List.mem_range] at hp
    obtain ⟨i, hi, j, hj, hp⟩ := hp
    split_ifs at hp
    · simp only [List.map_cons, List.map_nil, List.mem_cons, List.not_mem_nil, or_false] at hp
      rcases hp with rfl | rfl <;>
      · simp only [List.mem_cons, List.not_mem_nil, or_false] at hq
        rcases hq with rfl | rfl <;> assumption
    · simp at hp
  · simp only [List.mem_flatMap, List.mem_range] at hp
    obtain ⟨i, hi, j, hj, k, hk, l, hl, hp⟩ := hp
    split_ifs at hp
    · simp only [List.map_cons, List.map_nil, List.flatMap_cons, List.flatMap_nil, List.append_nil, List.cons_append,
        List.nil_append, List.mem_cons, List.not_mem_nil, or_false] at hp
      rcases hp with rfl | rfl | rfl | rfl <;>
      · simp only [List.mem_cons, List.not_mem_nil, or_false] at hq
        rcases hq with rfl | rfl | rfl | rfl <;> assumption
    · simp at hp

/-- C29: the terms generated from the integrals, after decoding, stand for the second-quantised Hamiltonian
`sum t_ij c+_is c_js + 1/2 sum v_ijkl c+_is c+_ks' c_ls' c_js`, in every algebra and for every choice of the elementary
operators `C i s`, `D i s`, provided the integrals that are skipped are zero. -/
theorem C29_hamiltonian (orbSym : List Nat) (hl : orbSym.length ≤ 8192) (h1e : Nat → Nat → K)
    (g2e : Nat → Nat → Nat → Nat → K) (big : K → Bool) (hbig : ∀ x, big x = false → x = 0) (v : Nat → List Int → R)
    (C D : Nat → Bool → R) (hC : ∀ (i : Nat) s, v 0 [(i : Int), if s then 1 else 0] = C i s)
    (hD : ∀ (i : Nat) s, v 1 [(i : Int), if s then 1 else 0] = D i s) :
    ∃ terms, decodeTerms orbSym (generateQcTerms orbSym.length h1e g2e big) = some terms ∧
      let sites := List.range orbSym.length
      let spins := [false, true]
      (terms.map (evalString v)).sum =
        (sites.map fun i => (sites.map fun j => (spins.map fun s => h1e i j • (C i s * D j s)).sum).sum).sum +
        (1 / 2 : K) • (sites.map fun i => (sites.map fun j => (sites.map fun k => (sites.map fun l =>
          (spins.map fun s => (spins.map fun s' => g2e i j k l • (C i s * C k s' * D l s' * D j s)).sum).sum).sum).sum).sum).sum := by
  have hdec : decodeTerms orbSym (generateQcTerms orbSym.length h1e g2e big) =
      some ((plainTerms orbSym.length h1e g2e big).map fun p =>
        OpString.mk' (p.2.1.map fun q => elementary orbSym q.1 q.2.1 q.2.2) p.1) := by
    rw [generate_eq]
    unfold decodeTerms
    rw [List.mapM_map]
    apply mapM_some
    intro p hp
    exact C29_roundtrip orbSym hl p.1 p.2.1 (plain_sites _ _ _ _ p hp) p.2.2
  refine ⟨_, hdec, ?_⟩
  intro sites spins
  have eC : ∀ i s, evalElem v (elementary (K := K) orbSym false i s) = C i s := by
    intro i s; simp [evalElem, elementary, ← hC]
  have eD : ∀ i s, evalElem v (elementary (K := K) orbSym true i s) = D i s := by
    intro i s; simp [evalElem, elementary, ← hD]
  have key : ∀ (x : K) (l : List (Bool × Nat × Bool)),
      evalString v (OpString.mk' (l.map fun q => elementary orbSym q.1 q.2.1 q.2.2) x) =
        x • (l.map fun q => evalElem v (elementary (K := K) orbSym q.1 q.2.1 q.2.2)).prod := by
    intro x l
    rw [eval_mk', List.map_map, Algebra.smul_def]
    rfl
  rw [List.map_map]
  have key' : (evalString v ∘ fun p : K × List (Bool × Nat × Bool) × Nat =>
      OpString.mk' (p.2.1.map fun q => elementary orbSym q.1 q.2.1 q.2.2) p.1) =
      fun p => p.1 • (p.2.1.map fun q => evalElem v (elementary (K := K) orbSym q.1 q.2.1 q.2.2)).prod := by
    funext p; exact key p.1 p.2.1
  rw [key']
  unfold plainTerms
  rw [List.map_append, List.sum_append]
  simp only [sum_map_flatMap]
  congr 1
  · congr 1; apply List.map_congr_left; intro i _
    congr 1; apply List.map_congr_left; intro j _
    by_cases h : big (h1e i j) = true
    · simp [h, spins, eC, eD]
    · rw [if_neg h, hbig (h1e i j) (by simpa using h)]; simp [spins]
  · have hs : ∀ {α : Type} (l : List α) (f : α → R), (1 / 2 : K) • (l.map f).sum = (l.map fun a => (1 / 2 : K) • f a).sum := by
      intro α l f
      induction l with
      | nil => simp
      | cons a t ih => simp only [List.map_cons, List.sum_cons, smul_add, ih]
    simp only [hs]
    congr 1; apply List.map_congr_left; intro i _
    congr 1; apply List.map_congr_left; intro j _
    congr 1; apply List.map_congr_left; intro k _
    congr 1; apply List.map_congr_left; intro l _
    by_cases h : big (g2e i j k l) = true
    · simp [h, spins, eC, eD, smul_smul, mul_assoc, smul_add, add_assoc]
    · rw [if_neg h, hbig (g2e i j k l) (by simpa using h)]; simp [spins]

/-- Beside C29: two sites with hopping 3 between them and one two-electron integral: six terms. -/
example : ((generateQcTerms (K := ℚ) 2 (fun i j => if i ≠ j ∧ i < j then 3 else 0)
      (fun i j k l => if i = 0 ∧ j = 1 ∧ k = 1 ∧ l = 0 then 4 else 0) (fun x => x ≠ 0)).map Prod.snd) =
    [[0, 16386, -1, -1], [1, 16387, -1, -1], [0, 2, 16384, 16386], [0, 3, 16385, 16386], [1, 2, 16384, 16387],
      [1, 3, 16385, 16387]] := by decide

end

end Verif.Hamiltonian
