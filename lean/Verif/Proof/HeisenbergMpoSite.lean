import Verif.Model.HeisenbergMpo
import Verif.Spec.HeisenbergMpo
import Verif.Spec.BuildMpo
import Verif.Proof.SiteOps

/-!
Lemmas for the tensors of the Heisenberg matrix product operator: the value of the symbols of one site.
-/

set_option linter.unusedSectionVars false
set_option linter.unusedSimpArgs false

namespace Verif
namespace Heisenberg
open BuildMpo
open Hamiltonian (tensordot_nil_left tensordot_nil_right add_conserves entry_nil addAliased_no freeAxes_2_0 freeAxes_2_1 reduceMatmul matEl)
variable {K : Type} [Field K] {n t : Nat}

/-! ### Matrices of one site -/

theorem mat_apply {q : SZ} {T : OpT SZ K} (h : SiteOp t q T) (a b : Fin (t + 1)) : mat t T a b = entry T.even [(state t a, 0), (state t b, 0)] := by
  rw [mat, matEl, h.odd, entry_nil, zero_add]

theorem sum_basis (f : SZ × Nat → K) : ((legBasis (basis t)).map f).sum = ∑ z : Fin (t + 1), f (state t z, 0) := by
  have h2 : ∀ s : List SZ, (s.map fun q => (q, 1)).flatMap (fun p : SZ × Nat => (List.range p.2).map fun i => (p.1, i)) = s.map fun q => (q, 0) := by
    intro s
    induction s with
    | nil => rfl
    | cons a t ih => rw [List.map_cons, List.flatMap_cons, ih]; rfl
  have h3 : legBasis (basis t) = (states t).map fun q => (q, 0) := by rw [basis_eq]; exact h2 _
  rw [h3, states, List.map_map, List.map_map, list_sum_range, Finset.sum_range]
  rfl

theorem sp_matmul (A B : SpT SZ K) (hA : Conforms [basis t, basis t] A) (hB : Conforms [basis t, basis t] B) :
    ∃ R, SpT.tensordot A B [1] [0] = some R ∧ Conforms [basis t, basis t] R ∧ UniqueLabels R ∧
      ∀ x y, entry R [x, y] = ((legBasis (basis t)).map fun c => entry A [x, c] * entry B [c, y]).sum := by
  obtain ⟨R, h1, h2, h3, h4⟩ := C12_tensordot A B [1] [0] _ _ [basis t] [1] [0] hA hB
    (.cons (by simp [NamesAxis]) .nil) (.cons (by simp [NamesAxis]) .nil) (by simp) (by simp)
    (by simp) (by simp) (by simpa using basis_wf t)
  refine ⟨R, h1, ?_, h3, ?_⟩
  · simpa [freeAxes_2_0, freeAxes_2_1] using h2
  · intro x y
    have := h4 [x] [y] (by simp [freeAxes_2_1]) (by simp [freeAxes_2_0]) (fun c => x :: c) (fun c => c ++ [y]) ?_ ?_
    · simp only [List.cons_append, List.nil_append] at this
      rw [this]
      have e : legIndices [basis t] = (legBasis (basis t)).map fun x => [x] := by
        simp only [legIndices, List.map_cons, List.map_nil, cart]
        induction legBasis (basis t) with
        | nil => rfl
        | cons a s ih => rw [List.flatMap_cons, ih]; rfl
      rw [e, List.map_map]
      rfl
    · intro c hc
      have hl : c.length = 1 := by simpa using legIndices_length hc
      obtain ⟨c, rfl⟩ := List.length_eq_one_iff.1 hl
      exact ⟨rfl, rfl, by simp [freeAxes_2_1, pick]⟩
    · intro c hc
      have hl : c.length = 1 := by simpa using legIndices_length hc
      obtain ⟨c, rfl⟩ := List.length_eq_one_iff.1 hl
      exact ⟨rfl, rfl, by simp [freeAxes_2_0, pick]⟩

theorem matmul_eq {A B : OpT SZ K} {p q : SZ} (hA : SiteOp t p A) (hB : SiteOp t q B) {R : SpT SZ K} (h : SpT.tensordot A.even B.even [1] [0] = some R) :
    OpT.matmul SZ.isFermion A B = some ⟨[], SpT.add [] R⟩ := by
  obtain ⟨Ao, A⟩ := A
  obtain ⟨Bo, B⟩ := B
  obtain rfl : Ao = [] := hA.odd
  obtain rfl : Bo = [] := hB.odd
  have f0 : OpT.factor SZ.isFermion [] = fun _ => false := rfl
  have n2 : ∀ n, SpT.normAxis n 0 = 0 := fun n => rfl
  have z : ∀ X : SpT SZ K, ∀ a b : Nat, SpT.tensordot [] X [(a : Int)] [(b : Int)] = some [] := fun X a b => tensordot_nil_left X _ _ rfl
  have z' : ∀ X : SpT SZ K, ∀ a b : Nat, SpT.tensordot X [] [(a : Int)] [(b : Int)] = some [] := fun X a b => tensordot_nil_right X _ _ rfl
  have e0 : SpT.add ([] : SpT SZ K) [] = [] := rfl
  dsimp only at h
  by_cases nA : A = []
  · subst nA
    have := z B 1 0
    rw [show ((1 : Nat) : Int) = 1 from rfl, show ((0 : Nat) : Int) = 0 from rfl, h] at this
    injection this with this
    subst this
    unfold OpT.matmul OpT.tensordot
    have d0 : OpT.ndim (⟨[], []⟩ : OpT SZ K) = 0 := by simp [OpT.ndim, SpT.ndim]
    have n1 : SpT.normAxis 0 (-1) = 0 := by decide
    simp only [d0, List.map_cons, List.map_nil, n1, n2]
    simp only [Int.ofNat_eq_natCast, z, Option.bind_some]
    simp [f0]
    exact ⟨rfl, rfl⟩
  · have dA : OpT.ndim (⟨[], A⟩ : OpT SZ K) = 2 := by
      unfold OpT.ndim
      rw [ndim_eq hA.even nA]
      simp [SpT.ndim]
    unfold OpT.matmul OpT.tensordot
    have n1 : SpT.normAxis 2 (-1) = 1 := by decide
    simp only [dA, List.map_cons, List.map_nil, n1, n2]
    simp only [Int.ofNat_eq_natCast, z, z', Option.bind_some]
    simp only [Nat.cast_one, Nat.cast_zero, h, Option.bind_some]
    simp [show (fun q : List SZ => OpT.factor SZ.isFermion [] q) = fun _ => false from rfl]
    simp only [f0, addAliased_no, and_self, e0]

theorem matmul_site {qa qb : SZ} {A B : OpT SZ K} (hA : SiteOp t qa A) (hB : SiteOp t qb B) :
    ∃ R, OpT.matmul SZ.isFermion A B = some R ∧ SiteOp t (qa + qb) R ∧ mat t R = mat t A * mat t B := by
  obtain ⟨R, h1, h2, h3, h4⟩ := sp_matmul A.even B.even hA.even hB.even
  have hc : Conserves [true, false] (qa + qb) R := by
    have := C13_charge A.even B.even R [1] [0] 2 2 [1] [0] [true, false] [true, false] qa qb (fun b hb => by
      have := (hA.even b hb).lengths
      simpa using this) (fun b hb => by
      have := (hB.even b hb).lengths
      simpa using this) rfl rfl (.cons (by simp [NamesAxis]) .nil) (.cons (by simp [NamesAxis]) .nil) (by simp) (by simp)
      (.cons (by simp) .nil) hA.charge hB.charge h1
    simpa [freeAxes_2_0, freeAxes_2_1] using this
  obtain ⟨c1, u1, e1⟩ := C11_add [basis t, basis t] ([] : SpT SZ K) R (by intro b hb; simp at hb) h2 (by simp [UniqueLabels])
  have hR : SiteOp t (qa + qb) (⟨[], SpT.add [] R⟩ : OpT SZ K) := ⟨rfl, c1, u1, add_conserves (by simp [Conserves]) hc (by simp [UniqueLabels])⟩
  refine ⟨_, matmul_eq hA hB h1, hR, ?_⟩
  ext a b
  rw [mat_apply hR, Matrix.mul_apply, e1, entry_nil, zero_add, h4, sum_basis]
  exact Finset.sum_congr rfl fun z _ => by rw [mat_apply hA, mat_apply hB]

theorem add_site {q : SZ} {A B : OpT SZ K} (hA : SiteOp t q A) (hB : SiteOp t q B) : SiteOp t q (A.add B) ∧ mat t (A.add B) = mat t A + mat t B := by
  obtain ⟨c2, u2, e⟩ := C11_add _ A.even B.even hA.even hB.even hA.unique
  have h : SiteOp t q (A.add B) := ⟨by simp [OpT.add, hA.odd, hB.odd, SpT.add], c2, u2, add_conserves hA.charge hB.charge hA.unique⟩
  refine ⟨h, ?_⟩
  ext a b
  rw [mat_apply h, Matrix.add_apply, mat_apply hA, mat_apply hB]
  exact e _

theorem smul_site {q : SZ} (c : K) {A : OpT SZ K} (hA : SiteOp t q A) : SiteOp t q (A.smul c) ∧ mat t (A.smul c) = c • mat t A := by
  have h : SiteOp t q (A.smul c) := by
    refine ⟨by simp [OpT.smul, hA.odd, SpT.smul], ?_, ?_, ?_⟩
    · intro b hb
      obtain ⟨a, ha, rfl⟩ := List.mem_map.1 hb
      exact hA.even a ha
    · have := hA.unique
      unfold UniqueLabels OpT.smul SpT.smul at *
      rw [List.map_map]
      exact this
    · intro b hb
      obtain ⟨a, ha, rfl⟩ := List.mem_map.1 hb
      exact hA.charge a ha
  refine ⟨h, ?_⟩
  ext a b
  rw [mat_apply h, Matrix.smul_apply, mat_apply hA]
  exact C11_smul c A.even _

theorem zero_site (q : SZ) : SiteOp t q (⟨[], []⟩ : OpT SZ K) :=
  ⟨rfl, by intro b hb; simp at hb, by simp [UniqueLabels], by simp [Conserves]⟩

/-! ### Operators of one site on all sites -/

theorem onSite_one (i : Fin n) : onSite (K := K) (t := t) i 1 = 1 := by
  ext u d
  rw [onSite]
  by_cases h : u = d
  · subst h; simp
  · rw [Matrix.one_apply_ne h]
    split_ifs with h'
    · rw [Matrix.one_apply_ne]
      intro e
      refine h (funext fun j => ?_)
      by_cases hj : j = i
      · rw [hj, e]
      · exact h' j hj
    · rfl

theorem onSite_add (i : Fin n) (A B : Matrix (Fin (t + 1)) (Fin (t + 1)) K) : onSite i (A + B) = onSite i A + onSite i B := by
  ext u d
  simp only [onSite, Matrix.add_apply]
  split_ifs <;> simp

theorem onSite_smul (i : Fin n) (c : K) (A : Matrix (Fin (t + 1)) (Fin (t + 1)) K) : onSite i (c • A) = c • onSite i A := by
  ext u d
  simp only [onSite, Matrix.smul_apply]
  split_ifs <;> simp

theorem onSite_zero (i : Fin n) : onSite i (0 : Matrix (Fin (t + 1)) (Fin (t + 1)) K) = 0 := by
  ext u d
  simp [onSite]

/-- An operator of site `i` times any other: the state on the site is changed, the rest stays. -/
theorem onSite_mul_any (i : Fin n) (A : Matrix (Fin (t + 1)) (Fin (t + 1)) K) (N : Matrix (Spins n t) (Spins n t) K) (u d : Spins n t) :
    (onSite i A * N) u d = ∑ z, A (u i) z * N (Function.update u i z) d := by
  rw [Matrix.mul_apply]
  symm
  refine Finset.sum_of_injOn (fun z => Function.update u i z) ?_ (by simp) ?_ ?_
  · intro a _ b _ h
    have := congrFun h i
    simpa using this
  · intro m _ hm
    rw [onSite, if_neg, zero_mul]
    intro h
    refine hm ⟨m i, by simp, ?_⟩
    funext j
    by_cases hj : j = i
    · subst hj; simp
    · simp only [Function.update_of_ne hj]
      exact h j hj
  · intro z _
    rw [onSite, if_pos, Function.update_self]
    intro j hj
    rw [Function.update_of_ne hj]

theorem onSite_mul (i : Fin n) (A B : Matrix (Fin (t + 1)) (Fin (t + 1)) K) : onSite i (A * B) = onSite i A * onSite i B := by
  ext u d
  rw [onSite_mul_any, onSite]
  split_ifs with h
  · rw [Matrix.mul_apply]
    refine Finset.sum_congr rfl fun z _ => ?_
    rw [onSite, if_pos, Function.update_self]
    intro j hj
    rw [Function.update_of_ne hj, h j hj]
  · symm
    refine Finset.sum_eq_zero fun z _ => ?_
    rw [onSite, if_neg, mul_zero]
    intro h'
    refine h fun j hj => ?_
    rw [← h' j hj, Function.update_of_ne hj]

/-- Two operators on different sites. -/
theorem onSite_pair {i j : Fin n} (hij : i ≠ j) (A B : Matrix (Fin (t + 1)) (Fin (t + 1)) K) (u d : Spins n t) :
    (onSite i A * onSite j B) u d = if ∀ k, k ≠ i → k ≠ j → u k = d k then A (u i) (d i) * B (u j) (d j) else 0 := by
  rw [onSite_mul_any, Finset.sum_eq_single (d i)]
  · rw [onSite, Function.update_of_ne hij.symm]
    have : (∀ k, k ≠ j → Function.update u i (d i) k = d k) ↔ ∀ k, k ≠ i → k ≠ j → u k = d k := by
      constructor
      · intro h k h1 h2
        rw [← h k h2, Function.update_of_ne h1]
      · intro h k hk
        by_cases e : k = i
        · subst e; simp
        · rw [Function.update_of_ne e]
          exact h k e hk
    by_cases h : ∀ k, k ≠ i → k ≠ j → u k = d k
    · rw [if_pos h, if_pos (this.2 h)]
    · rw [if_neg h, if_neg fun e => h (this.1 e), mul_zero]
  · intro z _ hz
    rw [onSite, if_neg, mul_zero]
    intro h
    have := h i hij
    rw [Function.update_self] at this
    exact hz this
  · simp

theorem onSite_comm {i j : Fin n} (hij : i ≠ j) (A B : Matrix (Fin (t + 1)) (Fin (t + 1)) K) : onSite i A * onSite j B = onSite j B * onSite i A := by
  ext u d
  rw [onSite_pair hij, onSite_pair hij.symm]
  have : (∀ k, k ≠ i → k ≠ j → u k = d k) ↔ ∀ k, k ≠ j → k ≠ i → u k = d k := ⟨fun h k a b => h k b a, fun h k a b => h k b a⟩
  by_cases h : ∀ k, k ≠ i → k ≠ j → u k = d k
  · rw [if_pos h, if_pos (this.1 h), mul_comm]
  · rw [if_neg h, if_neg fun e => h (this.2 e)]

/-! ### The symbols of a site -/

/-- The labels of the symbols that the operator is made of. -/
def labels (nm : Name) (site : List Int) : Option SZ :=
  if nm = .i then if site = [] then some 0 else none
  else match site with
    | [_] => spinLabel nm
    | _ => none

/-- The matrix of a spin operator. -/
def spinMat (sqrt : Int → K) : Name → Matrix (Fin (t + 1)) (Fin (t + 1)) K
  | .sp => raising sqrt
  | .sm => lowering sqrt
  | .sz => magnetic
  | _ => 0

/-- What the symbols stand for. -/
def value (sqrt : Int → K) (n t : Nat) (nm : Name) (site : List Int) : Matrix (Spins n t) (Spins n t) K :=
  if nm = .i then 1
  else match site with
    | [i] => if h : i.toNat < n then onSite ⟨i.toNat, h⟩ (spinMat sqrt nm) else 0
    | _ => 0

theorem spin_site (sqrt : Int → K) {nm : Name} {q : SZ} (h : spinLabel nm = some q) :
    ∀ e : OpElement Name SZ K, e.name = nm → ∃ T, getOp sqrt t e = some T ∧ SiteOp t q T ∧ mat t T = spinMat sqrt nm := by
  intro e he
  have hle : ∀ a : Fin (t + 1), (a : Nat) ≤ t := fun a => Nat.lt_succ_iff.1 a.2
  cases nm <;> simp only [spinLabel, Option.some.injEq, reduceCtorEq] at h <;> subst h
  · obtain ⟨P, p1, p2, p3⟩ := C43_raising (K := K) sqrt t
    refine ⟨P, by rw [getOp, he]; exact p1, p2, ?_⟩
    ext a b
    exact p3 a b (hle a) (hle b)
  · obtain ⟨P, p1, p2, p3⟩ := C43_lowering (K := K) sqrt t
    refine ⟨P, by rw [getOp, he]; exact p1, p2, ?_⟩
    ext a b
    exact p3 a b (hle a) (hle b)
  · obtain ⟨P, p1, p2, p3⟩ := C43_magnetic (K := K) t
    refine ⟨P, by rw [getOp, he]; exact p1, p2, ?_⟩
    ext a b
    rw [mat, p3 a b (hle a) (hle b), spinMat, magnetic, Matrix.diagonal_apply]
    simp only [Fin.ext_iff]

theorem symbol_site (sqrt : Int → K) (i : Fin n) {e : OpElement Name SZ K} (h : SymbolOk labels iSymbol i e) :
    ∃ T, getOp sqrt t e = some T ∧ SiteOp t e.label T ∧ evalElem (value sqrt n t) e = onSite i (mat t T) := by
  obtain ⟨nm, site, f, lab⟩ := e
  obtain ⟨hf, hl, hs⟩ := h
  dsimp only at hf hl hs ⊢
  subst hf
  by_cases hI : nm = .i
  · subst hI
    simp only [labels, if_true] at hl
    split_ifs at hl with h0
    injection hl with hl
    subst hl
    obtain ⟨I, H, h1, -, h2, -, h3, -⟩ := C43_identity (K := K) t
    refine ⟨I, h1, h2, ?_⟩
    rw [h3, onSite_one]
    simp [evalElem, value]
  · have hh : site.head? = some (i.1 : Int) := by
      rcases hs with h | h
      · exact absurd (congrArg OpElement.name h) hI
      · exact h
    simp only [labels, if_neg hI] at hl
    split at hl
    · rename_i a
      simp only [List.head?_cons, Option.some.injEq] at hh
      subst hh
      obtain ⟨T, h1, h2, h3⟩ := spin_site (t := t) sqrt hl ⟨nm, [(i.1 : Int)], 1, lab⟩ rfl
      refine ⟨T, h1, h2, ?_⟩
      rw [h3]
      simp [evalElem, value, if_neg hI, i.2]
    · simp at hl

theorem reduce_site (sqrt : Int → K) (i : Fin n) (l : List (OpElement Name SZ K)) (h : ∀ e ∈ l, SymbolOk labels iSymbol i e)
    {q : SZ} {A : OpT SZ K} (hA : SiteOp t q A) :
    ∃ Ts R, l.mapM (getOp sqrt t) = some Ts ∧ Ts.foldlM (OpT.matmul SZ.isFermion) A = some R ∧ SiteOp t (q + charge l) R ∧
      onSite i (mat t R) = onSite i (mat t A) * (l.map (evalElem (value sqrt n t))).prod := by
  induction l generalizing q A with
  | nil => exact ⟨[], A, rfl, rfl, by simpa [charge] using hA, by simp⟩
  | cons e r ih =>
    obtain ⟨T, h1, h2, h3⟩ := symbol_site (t := t) sqrt i (h e (List.mem_cons_self ..))
    obtain ⟨B, g1, g2, g3⟩ := matmul_site hA h2
    obtain ⟨Ts, R, k1, k2, k3, k4⟩ := ih (fun e he => h e (List.mem_cons_of_mem _ he)) g2
    refine ⟨T :: Ts, R, ?_, ?_, ?_, ?_⟩
    · simp only [List.mapM_cons, h1, k1, Option.bind_eq_bind, Option.bind_some, Option.pure_def]
    · rw [List.foldlM_cons, g1]
      exact k2
    · simpa [charge, add_assoc] using k3
    · rw [k4, g3, onSite_mul, List.map_cons, List.prod_cons, h3, mul_assoc]

theorem string_site (sqrt : Int → K) (i : Fin n) {s : OpString Name SZ K} (hne : s.ops ≠ []) (h : ∀ e ∈ s.ops, SymbolOk labels iSymbol i e) :
    ∃ T, stringOp sqrt t s = some T ∧ SiteOp t (charge s.ops) T ∧ evalString (value sqrt n t) s = onSite i (mat t T) := by
  obtain ⟨ops, f⟩ := s
  dsimp only at hne h ⊢
  cases ops with
  | nil => exact absurd rfl hne
  | cons e r =>
    obtain ⟨T, h1, h2, h3⟩ := symbol_site (t := t) sqrt i (h e (List.mem_cons_self ..))
    obtain ⟨Ts, R, k1, k2, k3, k4⟩ := reduce_site sqrt i r (fun e he => h e (List.mem_cons_of_mem _ he)) h2
    obtain ⟨s1, s2⟩ := smul_site f k3
    refine ⟨R.smul f, ?_, ?_, ?_⟩
    · simp only [stringOp, List.mapM_cons, h1, k1, Option.bind_eq_bind, Option.bind_some, reduceMatmul, k2, Option.pure_def, Option.map_some]
    · simpa [charge] using s1
    · rw [evalString, List.map_cons, List.prod_cons, h3, ← k4, s2, onSite_smul, Algebra.smul_def]

theorem sum_site_aux (sqrt : Int → K) (i : Fin n) (q : SZ) (l : List (Option (OpString Name SZ K))) (hn : none ∉ l)
    (h : ∀ s ∈ l.filterMap id, s.ops ≠ [] ∧ (∀ e ∈ s.ops, SymbolOk labels iSymbol i e) ∧ charge s.ops = q) (A : OpT SZ K) (hA : SiteOp t q A) :
    ∃ T, l.foldlM (fun acc o => o.bind fun s => (stringOp sqrt t s).map acc.add) A = some T ∧ SiteOp t q T ∧
      onSite i (mat t T) = onSite i (mat t A) + (l.map (evalOpt (value sqrt n t))).sum := by
  induction l generalizing A with
  | nil => exact ⟨A, rfl, hA, by simp⟩
  | cons o r ih =>
    cases o with
    | none => exact absurd (List.mem_cons_self ..) hn
    | some s =>
      obtain ⟨h1, h2, h3⟩ := h s (by simp)
      obtain ⟨T, k1, k2, k3⟩ := string_site (t := t) sqrt i h1 h2
      rw [h3] at k2
      obtain ⟨R, g1, g2, g3⟩ := ih (fun h => hn (List.mem_cons_of_mem _ h)) (fun s hs => h s (by simp at hs ⊢; exact Or.inr hs)) (A.add T) (add_site hA k2).1
      refine ⟨R, ?_, g2, ?_⟩
      · rw [List.foldlM_cons]
        simp only [Option.bind_some, k1, Option.map_some, Option.bind_eq_bind]
        exact g1
      · rw [g3, (add_site hA k2).2, onSite_add, List.map_cons, List.sum_cons, ← k3, add_assoc]
        rfl

/-- What a symbol of a tensor stands for becomes a matrix with the value of the expression. -/
theorem value_site (sqrt : Int → K) (i : Fin n) {w : OpVal Name SZ K} {q : SZ} (hp : Plain w)
    (h : ∀ s ∈ strs w, s.ops ≠ [] ∧ (∀ e ∈ s.ops, SymbolOk labels iSymbol i e) ∧ charge s.ops = q) :
    ∃ T, valueOp sqrt t w = some T ∧ SiteOp t q T ∧ evalVal (value sqrt n t) w = onSite i (mat t T) := by
  cases w with
  | num c => exact absurd hp (by simp [Plain])
  | elem e =>
    obtain ⟨_, h2, h3⟩ := h (OpString.mk' [e]) (by simp [strs])
    have hf : e.factor = 1 := hp
    have hops : (OpString.mk' [e]).ops = [e] := by
      obtain ⟨a, b, c, d⟩ := e
      simp only at hf
      subst hf
      simp [OpString.mk', OpElement.abs]
    rw [hops] at h2 h3
    obtain ⟨T, k1, k2, k3⟩ := symbol_site (t := t) sqrt i (h2 e (by simp))
    refine ⟨T, k1, ?_, k3⟩
    rw [← h3]
    simpa [charge] using k2
  | str s =>
    obtain ⟨h1, h2, h3⟩ := h s (by simp [strs])
    obtain ⟨T, k1, k2, k3⟩ := string_site (t := t) sqrt i h1 h2
    exact ⟨T, k1, h3 ▸ k2, k3⟩
  | sum l =>
    obtain ⟨T, k1, k2, k3⟩ := sum_site_aux sqrt i q l hp h ⟨[], []⟩ (zero_site _)
    refine ⟨T, k1, k2, ?_⟩
    have : mat t (⟨[], []⟩ : OpT SZ K) = 0 := by
      ext a b
      rw [mat_apply (zero_site 0)]
      rfl
    rw [k3, this, onSite_zero, zero_add]
    rfl

end Heisenberg
end Verif
