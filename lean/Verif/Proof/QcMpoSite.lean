import Verif.Proof.Fock
import Verif.Spec.BuildMpo
import Verif.Thm.Symbolic
import Mathlib.Data.Matrix.Basic

/-!
Lemmas for the tensors of a built matrix product operator: the value of the symbols of one site.
-/

set_option linter.unusedSectionVars false

namespace Verif
namespace Hamiltonian
open Fock BuildMpo

/-- The labels of the symbols that a Hamiltonian is made of (hamiltonian.py:212-222). -/
def labels (orbSym : List Nat) (nm : Nat) (site : List Int) : Option SZ :=
  if nm = nameI then if site = [] then some 0 else none
  else match site with
    | [i, s] =>
      if s = 0 ∨ s = 1 then
        if nm = 0 then some ⟨1, sz (decide (s = 1)), orbSym.getD i.toNat 0⟩
        else if nm = 1 then some ⟨-1, -sz (decide (s = 1)), orbSym.getD i.toNat 0⟩
        else none
      else none
    | _ => none

variable {K : Type} [Field K] {n : Nat}

/-- What the symbols stand for: operators on the states of `n` sites. -/
def value (K : Type) [Field K] (n : Nat) (nm : Nat) (site : List Int) : Matrix (Fin n → Bool × Bool) (Fin n → Bool × Bool) K :=
  if nm = nameI then 1
  else match site with
    | [i, s] => fockMat n [(decide (nm = 0), 2 * i.toNat + s.toNat)]
    | _ => 0

/-- The operator of site `i` that a tensor stands for. -/
def embT (ipg : Nat) (i : Fin n) (T : OpT SZ K) : Matrix (Fin n → Bool × Bool) (Fin n → Bool × Bool) K :=
  emb i (partMat ipg T.even) (partMat ipg T.odd)

theorem symbol_site (orbSym : List Nat) (i : Fin n) {e : OpElement Nat SZ K} (h : SymbolOk (labels orbSym) iSymbol i e) :
    ∃ T, getOp (orbSym.getD i 0) e = some T ∧ SiteOp (orbSym.getD i 0) e.label T ∧ evalElem (value K n) e = embT (orbSym.getD i 0) i T := by
  obtain ⟨nm, site, f, lab⟩ := e
  obtain ⟨hf, hl, hs⟩ := h
  dsimp only at hf hl hs ⊢
  subst hf
  by_cases hI : nm = nameI
  · subst hI
    simp only [labels, if_true] at hl
    split_ifs at hl with h0
    injection hl with hl
    subst hl
    obtain ⟨T, h1, h2, h3, h4⟩ := i_site (K := K) (orbSym.getD i 0)
    refine ⟨T, by simp [getOp, h1, -List.getD_eq_getElem?_getD], h2, ?_⟩
    rw [embT, h3, h4, emb_one]
    simp [evalElem, value]
  · have hh : site.head? = some (i.1 : Int) := by
      rcases hs with h | h
      · exact absurd (congrArg OpElement.name h) hI
      · exact h
    simp only [labels, if_neg hI] at hl
    split at hl
    · rename_i a s
      simp only [List.head?_cons, Option.some.injEq] at hh
      subst hh
      split_ifs at hl with hs' h0 h1
      · injection hl with hl
        subst hl h0
        obtain ⟨T, h1, h2, h3, h4⟩ := c_site (K := K) (orbSym.getD i 0) (decide (s = 1))
        refine ⟨T, by simp [getOp, hs', h1, nameI, -List.getD_eq_getElem?_getD], ?_, ?_⟩
        · rw [Int.toNat_natCast]
          exact h2
        · have : s.toNat = (decide (s = 1)).toNat := by rcases hs' with rfl | rfl <;> simp
          rw [embT, h3, h4, ← fockMat_one]
          simp [evalElem, value, nameI, this]
      · injection hl with hl
        subst hl h1
        obtain ⟨T, h1, h2, h3, h4⟩ := d_site (K := K) (orbSym.getD i 0) (decide (s = 1))
        refine ⟨T, by simp [getOp, hs', h1, nameI, -List.getD_eq_getElem?_getD], ?_, ?_⟩
        · rw [Int.toNat_natCast]
          exact h2
        · have : s.toNat = (decide (s = 1)).toNat := by rcases hs' with rfl | rfl <;> simp
          rw [embT, h3, h4, ← fockMat_one]
          simp [evalElem, value, nameI, this]
    · simp at hl

theorem embT_matmul {ipg : Nat} (i : Fin n) {qa qb : SZ} {A B : OpT SZ K} (hA : SiteOp ipg qa A) (hB : SiteOp ipg qb B) :
    ∃ R, OpT.matmul SZ.isFermion A B = some R ∧ SiteOp ipg (qa + qb) R ∧ embT ipg i R = embT ipg i A * embT ipg i B := by
  obtain ⟨R, h1, h2, h3, h4⟩ := matmul_site hA hB
  refine ⟨R, h1, h2, ?_⟩
  rw [embT, embT, embT, emb_mul, h3, h4]

theorem reduce_site (orbSym : List Nat) (i : Fin n) (l : List (OpElement Nat SZ K)) (h : ∀ e ∈ l, SymbolOk (labels orbSym) iSymbol i e)
    {q : SZ} {A : OpT SZ K} (hA : SiteOp (orbSym.getD i 0) q A) :
    ∃ Ts R, l.mapM (getOp (orbSym.getD i 0)) = some Ts ∧ Ts.foldlM (OpT.matmul SZ.isFermion) A = some R ∧ SiteOp (orbSym.getD i 0) (q + charge l) R ∧
      embT (orbSym.getD i 0) i R = embT (orbSym.getD i 0) i A * (l.map (evalElem (value K n))).prod := by
  induction l generalizing q A with
  | nil => exact ⟨[], A, rfl, rfl, by simpa [charge] using hA, by simp⟩
  | cons e t ih =>
    obtain ⟨T, h1, h2, h3⟩ := symbol_site orbSym i (h e (List.mem_cons_self ..))
    obtain ⟨B, g1, g2, g3⟩ := embT_matmul i hA h2
    obtain ⟨Ts, R, k1, k2, k3, k4⟩ := ih (fun e he => h e (List.mem_cons_of_mem _ he)) g2
    refine ⟨T :: Ts, R, ?_, ?_, ?_, ?_⟩
    · simp only [List.mapM_cons, h1, k1, Option.bind_eq_bind, Option.bind_some, Option.pure_def]
    · rw [List.foldlM_cons, g1]
      exact k2
    · simpa [charge, add_assoc] using k3
    · rw [k4, g3, List.map_cons, List.prod_cons, h3, mul_assoc]

theorem string_site (orbSym : List Nat) (i : Fin n) {s : OpString Nat SZ K} (hne : s.ops ≠ [])
    (h : ∀ e ∈ s.ops, SymbolOk (labels orbSym) iSymbol i e) :
    ∃ T, stringOp (orbSym.getD i 0) s = some T ∧ SiteOp (orbSym.getD i 0) (charge s.ops) T ∧ evalString (value K n) s = embT (orbSym.getD i 0) i T := by
  obtain ⟨ops, f⟩ := s
  dsimp only at hne h ⊢
  cases ops with
  | nil => exact absurd rfl hne
  | cons e t =>
    obtain ⟨T, h1, h2, h3⟩ := symbol_site orbSym i (h e (List.mem_cons_self ..))
    obtain ⟨Ts, R, k1, k2, k3, k4⟩ := reduce_site orbSym i t (fun e he => h e (List.mem_cons_of_mem _ he)) h2
    obtain ⟨s1, s2, s3⟩ := smul_site f k3
    refine ⟨R.smul f, ?_, ?_, ?_⟩
    · simp only [stringOp, List.mapM_cons, h1, k1, Option.bind_eq_bind, Option.bind_some, reduceMatmul, k2, Option.pure_def, Option.map_some]
    · simpa [charge] using s1
    · rw [evalString, List.map_cons, List.prod_cons, h3, ← k4, embT, embT, s2, s3, emb_smul, Algebra.smul_def]

theorem embT_nil (ipg : Nat) (i : Fin n) : embT ipg i (⟨[], []⟩ : OpT SZ K) = 0 := emb_zero i

theorem embT_add {ipg : Nat} (i : Fin n) {q : SZ} {A B : OpT SZ K} (hA : SiteOp ipg q A) (hB : SiteOp ipg q B) :
    embT ipg i (A.add B) = embT ipg i A + embT ipg i B := by
  obtain ⟨_, h1, h2⟩ := add_site hA hB
  rw [embT, h1, h2, emb_add]
  rfl

theorem sum_site_aux (orbSym : List Nat) (i : Fin n) (q : SZ) (l : List (Option (OpString Nat SZ K))) (hn : none ∉ l)
    (h : ∀ s ∈ l.filterMap id, s.ops ≠ [] ∧ (∀ e ∈ s.ops, SymbolOk (labels orbSym) iSymbol i e) ∧ charge s.ops = q) (A : OpT SZ K)
    (hA : SiteOp (orbSym.getD i 0) q A) :
    ∃ T, l.foldlM (fun acc o => o.bind fun s => (stringOp (orbSym.getD i 0) s).map acc.add) A = some T ∧ SiteOp (orbSym.getD i 0) q T ∧
      embT (orbSym.getD i 0) i T = embT (orbSym.getD i 0) i A + (l.map (evalOpt (value K n))).sum := by
  induction l generalizing A with
  | nil => exact ⟨A, rfl, hA, by simp⟩
  | cons o t ih =>
    cases o with
    | none => exact absurd (List.mem_cons_self ..) hn
    | some s =>
      obtain ⟨h1, h2, h3⟩ := h s (by simp)
      obtain ⟨T, k1, k2, k3⟩ := string_site orbSym i h1 h2
      rw [h3] at k2
      obtain ⟨R, g1, g2, g3⟩ := ih (fun h => hn (List.mem_cons_of_mem _ h)) (fun s hs => h s (by simp at hs ⊢; exact Or.inr hs)) (A.add T) (add_site hA k2).1
      refine ⟨R, ?_, g2, ?_⟩
      · rw [List.foldlM_cons]
        simp only [Option.bind_some, k1, Option.map_some, Option.bind_eq_bind]
        exact g1
      · rw [g3, embT_add i hA k2, List.map_cons, List.sum_cons, ← k3, add_assoc]
        rfl

/-- What a symbol of a tensor stands for becomes a matrix with the value of the expression. -/
theorem value_site (orbSym : List Nat) (i : Fin n) {w : OpVal Nat SZ K} {q : SZ} (hp : Plain w)
    (h : ∀ s ∈ strs w, s.ops ≠ [] ∧ (∀ e ∈ s.ops, SymbolOk (labels orbSym) iSymbol i e) ∧ charge s.ops = q) :
    ∃ T, valueOp (orbSym.getD i 0) w = some T ∧ SiteOp (orbSym.getD i 0) q T ∧ evalVal (value K n) w = embT (orbSym.getD i 0) i T := by
  cases w with
  | num c => exact absurd hp (by simp [Plain])
  | elem e =>
    obtain ⟨_, h2, h3⟩ := h (OpString.mk' [e]) (by simp [strs])
    have hf : e.factor = 1 := hp
    have hops : (OpString.mk' [e]).ops = [e] := by
      obtain ⟨a, b, c, d⟩ := e
      simp only at hf
      subst hf
      simp [OpString.mk', OpElement.abs]
    rw [hops] at h2 h3
    obtain ⟨T, k1, k2, k3⟩ := symbol_site orbSym i (h2 e (by simp))
    refine ⟨T, k1, ?_, k3⟩
    rw [← h3]
    simpa [charge] using k2
  | str s =>
    obtain ⟨h1, h2, h3⟩ := h s (by simp [strs])
    obtain ⟨T, k1, k2, k3⟩ := string_site orbSym i h1 h2
    exact ⟨T, k1, h3 ▸ k2, k3⟩
  | sum l =>
    obtain ⟨T, k1, k2, k3⟩ := sum_site_aux orbSym i q l hp h ⟨[], []⟩ (zero_site _ _)
    refine ⟨T, k1, k2, ?_⟩
    rw [k3, embT_nil, zero_add]
    rfl

end Hamiltonian
end Verif
