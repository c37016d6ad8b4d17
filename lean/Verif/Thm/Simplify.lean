import Verif.Proof.SimplifyConv
import Verif.Thm.ConvMpo

/-!
Property C71: simplifying a symbolic matrix product operator does not change the operator, and leaves only bond states that are used on both sides.
-/

set_option linter.unusedSectionVars false

namespace Verif
namespace Symbolic
open Hamiltonian Fock
variable {O α : Type}

/-- C71: the simplification of a chain of symbolic matrices that fit together succeeds.  The product of the matrices stays the same, for all values of the entries in a ring, and so do
the outer bonds.  No bond gets larger, and the tensors still fit together. -/
theorem C71_product (L : O → O → Prop) (ts : List (Tensor O α)) (h : Good L ts) :
    ∃ ts', simplifyMpo ts = some ts' ∧ Good L ts' ∧ ts'.length = ts.length ∧
      (∀ (R : Type) [Semiring R] (w : Nat → α → R) (j : Nat), chain w 0 ts' j = chain w 0 ts j) ∧
      (∀ t t', ts[0]? = some t → ts'[0]? = some t' → t'.lop = t.lop) ∧
      (∀ (i : Nat) t t', i + 1 = ts.length → ts[i]? = some t → ts'[i]? = some t' → t'.rop = t.rop) ∧
      ∀ (i : Nat) t t', ts[i]? = some t → ts'[i]? = some t' → t'.rop.length ≤ t.rop.length := by
  obtain ⟨ts', h1, h2, h3, -, -⟩ := simplify_all h
  exact ⟨ts', h1, h2, h3.length, h3.chain, h3.first, h3.last, h3.size⟩

/-- C71: afterwards every state of an inner bond has an entry that is not 0 in the tensor to its left, and one in the tensor to its right. -/
theorem C71_used (L : O → O → Prop) (ts ts' : List (Tensor O α)) (h : Good L ts) (hs : simplifyMpo ts = some ts') (i : Nat) (a b : Tensor O α) (ha : ts'[i]? = some a)
    (hb : ts'[i + 1]? = some b) : a.rop.length = b.lop.length ∧ ∀ k < a.rop.length, (∃ c ∈ a.cells, c.2.1 = k) ∧ ∃ c ∈ b.cells, c.1 = k := by
  obtain ⟨us, h1, h2, h3, h4, h5⟩ := simplify_all h
  rw [hs, Option.some.injEq] at h1
  subst h1
  have hl := (h2.link i a b ha hb).length_eq
  have hi := (List.getElem?_eq_some_iff.1 hb).1
  rw [h3.length] at hi
  exact ⟨hl, fun k hk => ⟨h4 i a ha hi k hk, h5 (i + 1) b hb (by omega) k (by omega)⟩⟩

/-! ### Simplifying twice -/

theorem pick_range {β : Type} (l : List β) : pick (List.range l.length) l = some l := by
  obtain ⟨r, h1, h2, h3⟩ := pick_ok (List.range l.length) l (by simp)
  rw [h1, Option.some.injEq]
  refine List.ext_getElem? fun i => ?_
  by_cases hi : i < l.length
  · exact h3 i i (List.getElem?_range hi)
  · rw [List.getElem?_eq_none (by simpa [h2] using hi), List.getElem?_eq_none (by simpa using hi)]

theorem sorted_getRemap (t : Tensor O α) (left : Bool) : (t.getRemap left).Pairwise (· < ·) := by
  have hv : ∀ d : List (Option α), (d.zipIdx.filterMap fun p => if p.1.isSome then some p.2 else none).Pairwise (· < ·) := by
    intro d
    refine List.Pairwise.filterMap _ (R := fun a b => a.2 < b.2) ?_ ?_
    · intro a b hab x hx y hy
      by_cases e1 : a.1.isSome <;> by_cases e2 : b.1.isSome <;> simp [e1, e2] at hx hy
      subst hx hy
      exact hab
    · rw [← List.pairwise_map (f := Prod.snd), List.zipIdx_map_snd, ← List.range_eq_range']
      exact List.pairwise_lt_range
  cases hm : t.mat with
  | row d =>
    simp only [Tensor.getRemap, hm]
    exact hv d
  | col d =>
    simp only [Tensor.getRemap, hm]
    exact hv d
  | full nr nc es =>
    have hn := nodup_getRemap t left
    have hs : (t.getRemap left).Pairwise (· ≤ ·) := by
      simp only [Tensor.getRemap, hm]
      exact List.pairwise_insertionSort ..
    exact (hs.and hn).imp fun h => lt_of_le_of_ne h.1 h.2

theorem sorted_range {l : List Nat} {n : Nat} (h : l.Pairwise (· < ·)) (hm : ∀ k, k ∈ l ↔ k < n) : l = List.range n := by
  refine List.Perm.eq_of_pairwise (le := (· < ·)) (fun a b _ _ h1 h2 => absurd h1 (by omega)) h List.pairwise_lt_range ?_
  refine (List.perm_ext_iff_of_nodup (h.imp fun h => Nat.ne_of_lt h) List.nodup_range).2 fun k => ?_
  rw [hm, List.mem_range]

/-- Keeping everything changes nothing. -/
theorem simplify_range (t : Tensor O α) (hf : t.Fits) (left : Bool) (hrow : left = true → ¬t.IsRow) (hcol : left = false → ¬t.IsCol) :
    t.simplify (List.range (if left then t.lop else t.rop).length) left = some t := by
  obtain ⟨mat, lop, rop⟩ := t
  unfold Tensor.simplify
  rw [pick_range, Option.bind_some]
  cases mat with
  | row d =>
    cases left
    · have hd : d.length = rop.length := hf.1
      simp only [Bool.false_eq_true, if_false]
      rw [← hd, pick_range]
      rfl
    · exact absurd ⟨d, rfl⟩ (hrow rfl)
  | col d =>
    cases left
    · exact absurd ⟨d, rfl⟩ (hcol rfl)
    · have hd : d.length = lop.length := hf.1
      simp only [if_true]
      rw [← hd, pick_range]
      rfl
  | full nr nc es =>
    obtain ⟨f1, f2, f3⟩ := hf
    simp only at f1 f2 f3
    have hget : ∀ k n, k < n → Dict.get? (placeOf (List.range n)) k = some k := by
      intro k n hk
      rw [positions_get _ List.nodup_range, if_pos (List.mem_range.2 hk)]
      have := List.nodup_range.idxOf_getElem (xs := List.range n) k (by simpa using hk)
      rw [List.getElem_range] at this
      rw [this]
    cases left
    · have e : (es.filterMap fun e => if false = true then (Dict.get? (placeOf (List.range rop.length)) e.1.1).map fun i => ((i, e.1.2), e.2)
          else (Dict.get? (placeOf (List.range rop.length)) e.1.2).map fun i => ((e.1.1, i), e.2)) = es := by
        rw [List.filterMap_congr (g := some) fun e he => ?_, List.filterMap_some]
        rw [if_neg (by simp), hget _ _ (f2 ▸ (f3 e he).2)]
        rfl
      simp only [Bool.false_eq_true, if_false] at e ⊢
      rw [e, List.length_range, ← f2]
    · have e : (es.filterMap fun e => if true = true then (Dict.get? (placeOf (List.range lop.length)) e.1.1).map fun i => ((i, e.1.2), e.2)
          else (Dict.get? (placeOf (List.range lop.length)) e.1.2).map fun i => ((e.1.1, i), e.2)) = es := by
        rw [List.filterMap_congr (g := some) fun e he => ?_, List.filterMap_some]
        rw [if_pos rfl, hget _ _ (f1 ▸ (f3 e he).1)]
        rfl
      simp only [if_true] at e ⊢
      rw [e, List.length_range, ← f1]

theorem set_same {β : Type} {l : List β} {i : Nat} {x : β} (h : l[i]? = some x) : l.set i x = l := by
  obtain ⟨h1, h2⟩ := List.getElem?_eq_some_iff.1 h
  rw [← h2, List.set_getElem_self]

theorem foldlM_fix {β γ : Type} (f : β → γ → Option β) (l : List γ) (b : β) (h : ∀ x ∈ l, f b x = some b) : l.foldlM f b = some b := by
  induction l with
  | nil => rfl
  | cons x l ih =>
    rw [List.foldlM_cons, h x (List.mem_cons_self ..)]
    exact ih fun y hy => h y (List.mem_cons_of_mem _ hy)

/-- C71: a second simplification changes nothing. -/
theorem C71_again (L : O → O → Prop) (ts ts' : List (Tensor O α)) (h : Good L ts) (hs : simplifyMpo ts = some ts') : simplifyMpo ts' = some ts' := by
  obtain ⟨us, h1, h2, h3, h4, h5⟩ := simplify_all h
  rw [hs, Option.some.injEq] at h1
  subst h1
  have pair : ∀ i, i + 1 < ts'.length → ∃ a b, ts'[i]? = some a ∧ ts'[i + 1]? = some b ∧ a.getRemap false = List.range a.rop.length ∧ b.getRemap true = List.range b.lop.length ∧
      a.simplify (List.range a.rop.length) false = some a ∧ b.simplify (List.range b.lop.length) true = some b ∧ a.rop.length = b.lop.length := by
    intro i hi
    have ha := List.getElem?_eq_getElem (show i < ts'.length by omega)
    have hb := List.getElem?_eq_getElem hi
    have nc : ¬(ts'[i]).IsCol := fun hc => by have := h2.col i _ ha hc; omega
    have nr : ¬(ts'[i + 1]).IsRow := fun hc => by have := h2.row _ _ hb hc; omega
    have fa := h2.fits _ (List.mem_of_getElem? ha)
    have fb := h2.fits _ (List.mem_of_getElem? hb)
    refine ⟨_, _, ha, hb, sorted_range (sorted_getRemap _ _) fun k => ?_, sorted_range (sorted_getRemap _ _) fun k => ?_, simplify_range _ fa false (by simp) (fun _ => nc),
      simplify_range _ fb true (fun _ => nr) (by simp), (h2.link i _ _ ha hb).length_eq⟩
    · rw [mem_getRemap (by simp) (fun _ => nc)]
      constructor
      · rintro ⟨c, hc, rfl⟩
        exact (cells_lt fa hc).2
      · intro hk
        exact h4 i _ ha (by rw [← h3.length]; exact hi) k hk
    · rw [mem_getRemap (fun _ => nr) (by simp)]
      constructor
      · rintro ⟨c, hc, rfl⟩
        exact (cells_lt fb hc).1
      · intro hk
        exact h5 _ _ hb (by omega) k hk
  have hr : (List.range (ts'.length - 1)).foldlM stepRight ts' = some ts' := by
    refine foldlM_fix _ _ _ fun i hi => ?_
    obtain ⟨a, b, ha, hb, r1, -, s1, s2, hl⟩ := pair i (by have := List.mem_range.1 hi; omega)
    rw [stepRight, ha, hb]
    simp only [Option.bind_some, r1, s1]
    rw [hl, s2, Option.map_some, set_same ha, set_same hb]
  have hl : (List.range (ts'.length - 1)).reverse.foldlM stepLeft ts' = some ts' := by
    refine foldlM_fix _ _ _ fun i hi => ?_
    obtain ⟨a, b, ha, hb, -, r1, s1, s2, hl⟩ := pair i (by have := List.mem_range.1 (List.mem_reverse.1 hi); omega)
    rw [stepLeft, ha, hb]
    simp only [Option.bind_some, r1, s2]
    rw [← hl, s1, Option.map_some, set_same ha, set_same hb]
  rw [simplifyMpo, hr, Option.bind_some, hl]

/-! ### Operators on orbitals -/

/-- C71: a chain of symbolic tensors on orbitals and its simplification both have block tensors, and these have the same matrix elements between occupation-number states. -/
theorem C71_operator {K : Type} [Field K] (label : O → SZ) (g : List Nat) (hg : g ≠ []) (ts : List (Tensor O (K × OpT SZ K))) (h : Chained label g ts) :
    ∃ ts' ws X ws' X', simplifyMpo ts = some ts' ∧ ts.mapM (Tensor.sparse label) = some ws ∧ ts'.mapM (Tensor.sparse label) = some ws' ∧
      OpOnBonds SZ.isFermion ([(0, 1)] :: X ++ [[(0, 1)]]) (g.map fun g => ([siteBasis g], [siteBasis g])) ws ∧
      OpOnBonds SZ.isFermion ([(0, 1)] :: X' ++ [[(0, 1)]]) (g.map fun g => ([siteBasis g], [siteBasis g])) ws' ∧
      (∀ b ∈ X', GoodBond b) ∧ (∀ W ∈ ws', EvenBlocks SZ.isFermion W.both) ∧
      ∀ u d : Fin g.length → Bool × Bool, opAmpl SZ.isFermion ws' X' false (0, 0) (legsOf g u) (legsOf g d) (0, 0) =
        opAmpl SZ.isFermion ws X false (0, 0) (legsOf g u) (legsOf g d) (0, 0) := by
  obtain ⟨ts', h1, h2, h3⟩ := simplify_chained h
  obtain ⟨ws, X, a1, a2, a3, a4, a5⟩ := chained_sparse h hg
  obtain ⟨ws', X', b1, b2, b3, b4, b5⟩ := chained_sparse h2 hg
  refine ⟨ts', ws, X, ws', X', h1, a1, b1, a2, b2, b3, b4, fun u d => ?_⟩
  rw [a5, b5, h3.chain]

end Symbolic

namespace ConvMpo
open Hamiltonian Fock ConvAlg Symbolic
variable {K : Type} [Field K] [DecidableEq K] [CharZero K]

/-- C71: the conventional matrix product operator of quantum chemistry can be simplified, and afterwards still has the matrix elements of the Hamiltonian. -/
theorem C71_conventional (tiny : K → Bool) (htiny : ∀ x, tiny x = true ↔ x = 0) (x : Fcidump.Integrals K) (orbSym : List Nat) (hn : 2 ≤ orbSym.length) (sym : Bool)
    (ha : SpinAllowed orbSym x.t x.v) (hv : SpinSymmetric x.v) :
    ∃ ws X, buildSimplified tiny x orbSym sym = some ws ∧ Represents orbSym (spinOp orbSym.length (fun s i j => 1 / 2 * (x.t s i j + x.t s j i)) x.v) ws X := by
  have hv' : Sym2 x.v := ⟨hv.electrons, hv.orbitals⟩
  have hne : orbSym ≠ [] := by
    rintro rfl
    simp at hn
  obtain ⟨ts, h1, h2, h3⟩ := symbolic_chained (sym := sym) hn htiny ha
  obtain ⟨ts', k1, k2, k3⟩ := simplify_chained h2
  obtain ⟨ws, X, b1, b2, b3, b4, b5⟩ := chained_sparse k2 hne
  refine ⟨ws, X, ?_, b2, b3, b4, fun u d => ?_⟩
  · rw [buildSimplified, h1, Option.bind_some, k1, Option.bind_some, b1]
  · have hts : ts ≠ [] := by
      rintro rfl
      exact hne (List.length_eq_zero_iff.1 h2.length.symm)
    rw [b5, k3.chain, ← chainVal_chain _ _ (·.label) _ hts, h3, chain_all hn htiny ha hv', ← spinOp_mat, ← element_mat]

/-! ### A concrete case -/

/-- The example of C54 can be simplified. -/
example : ∃ ws X, buildSimplified (fun x => decide (x = 0)) exInts exSym true = some ws ∧
    opAmpl SZ.isFermion ws X false (0, 0) (legsOf (n := 3) exSym ![(false, true), (true, false), (false, false)])
      (legsOf (n := 3) exSym ![(false, false), (true, true), (false, false)]) (0, 0) = -5 := by
  obtain ⟨ws, X, h1, h2⟩ := C71_conventional (K := Rat) (fun x => decide (x = 0)) (by simp) exInts exSym (by decide) true ex_ints_allowed ex_ints_symmetric
  refine ⟨ws, X, h1, (h2.elements _ _).trans ?_⟩
  decide +kernel

/-- Two matrices with product 2: of the four states of the bond, the first meets a number 0 on the right, the last two a number 0 on the left. -/
def exTensors : List (Tensor Nat Nat) :=
  [⟨.row [some 5, some 2, none, none], [0], [1, 2, 3, 4]⟩, ⟨.col [none, some 1, some 7, none], [1, 2, 3, 4], [0]⟩]

/-- One state is left. -/
example : Symbolic.Good (fun a b => a = b) exTensors ∧ simplifyMpo exTensors = some [⟨.row [some 2], [0], [2]⟩, ⟨.col [some 1], [2], [0]⟩] := by
  refine ⟨⟨?_, ?_, ?_, ?_⟩, ?_⟩
  · simp [exTensors, Tensor.Fits]
  · intro i t ht h
    match i, ht with
    | 0, _ => rfl
    | 1, ht =>
      simp only [exTensors, List.getElem?_cons_succ, List.getElem?_cons_zero, Option.some.injEq] at ht
      subst ht
      obtain ⟨d, hd⟩ := h
      cases hd
  · intro i t ht h
    match i, ht with
    | 0, ht =>
      simp only [exTensors, List.getElem?_cons_zero, Option.some.injEq] at ht
      subst ht
      obtain ⟨d, hd⟩ := h
      cases hd
    | 1, _ => rfl
  · intro i a b ha hb
    match i, ha, hb with
    | 0, ha, hb =>
      simp only [exTensors, List.getElem?_cons_succ, List.getElem?_cons_zero, Option.some.injEq] at ha hb
      subst ha hb
      simp
  · rfl

end ConvMpo
end Verif
