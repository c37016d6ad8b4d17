import Verif.Proof.SimplifyChain
import Verif.Proof.ConvCells
import Verif.Thm.QcMpo

/-!
Lemmas for the simplification of symbolic matrix product operators on orbitals: matrix elements of the block tensors are entries of the product of the matrices.
-/

set_option linter.unusedSectionVars false

namespace Verif
namespace Symbolic
open Hamiltonian Fock
variable {O K : Type} [Field K]

/-- A chain of symbolic tensors on orbitals with the point-group labels `g`, with trivial outer bonds.  The two sides of a state of a bond have opposite labels, and the charge of an
entry is the sum of the labels of its row and column. -/
structure Chained (label : O → SZ) (g : List Nat) (ts : List (Tensor O (K × OpT SZ K))) : Prop where
  good : Good (fun x y => label x = -label y) ts
  length : ts.length = g.length
  first : ∀ t, ts[0]? = some t → t.lop.map label = [0]
  last : ∀ (i : Nat) t, i + 1 = ts.length → ts[i]? = some t → t.rop.map label = [0]
  entries : ∀ (i : Nat) t, ts[i]? = some t → ∀ c ∈ t.cells, ∃ l r, t.lop[c.1]? = some l ∧ t.rop[c.2.1]? = some r ∧ SiteOp (g.getD i 0) (label l + label r) c.2.2.2

/-- The tensor as a matrix of operators. -/
def Tensor.cellMat (label : O → SZ) (t : Tensor O (K × OpT SZ K)) : CellMat K :=
  ⟨0, match t.mat with | .row _ => [0] | _ => t.lop.map label, match t.mat with | .col _ => [0] | _ => t.rop.map label, t.cells.map fun c => ⟨c.1, c.2.1, c.2.2.1, c.2.2.2⟩⟩

theorem sparse_cellMat (label : O → SZ) (t : Tensor O (K × OpT SZ K)) : t.sparse label = (t.cellMat label).sparse := by
  unfold Tensor.sparse CellMat.sparse Tensor.cellMat
  cases t.mat <;> rfl

variable {label : O → SZ} {g : List Nat} {ts : List (Tensor O (K × OpT SZ K))}

theorem Chained.lq (h : Chained label g ts) {i : Nat} {t : Tensor O (K × OpT SZ K)} (ht : ts[i]? = some t) : (t.cellMat label).lq = t.lop.map label := by
  by_cases hr : t.IsRow
  · have h0 := h.good.row i t ht hr
    subst h0
    obtain ⟨d, hd⟩ := hr
    rw [h.first t ht]
    simp only [Tensor.cellMat, hd]
  · rw [Tensor.cellMat]
    cases hm : t.mat with
    | row d => exact absurd ⟨d, hm⟩ hr
    | col d => rfl
    | full a b c => rfl

theorem Chained.rq (h : Chained label g ts) {i : Nat} {t : Tensor O (K × OpT SZ K)} (ht : ts[i]? = some t) : (t.cellMat label).rq = t.rop.map label := by
  by_cases hr : t.IsCol
  · have h0 := h.good.col i t ht hr
    obtain ⟨d, hd⟩ := hr
    rw [h.last i t h0 ht]
    simp only [Tensor.cellMat, hd]
  · rw [Tensor.cellMat]
    cases hm : t.mat with
    | row d => rfl
    | col d => exact absurd ⟨d, hm⟩ hr
    | full a b c => rfl

theorem chainVal_chain (n : Nat) (g : List Nat) (label : O → SZ) (ts : List (Tensor O (K × OpT SZ K))) (hts : ts ≠ []) (i j : Nat) :
    chainVal n g (ts.map (Tensor.cellMat label)) i j = chain (fun i x => x.1 • siteVal n g i x.2) i ts j := by
  induction ts generalizing i j with
  | nil => exact absurd rfl hts
  | cons t ts ih =>
    have hcells : ∀ W : Nat → Matrix (Fin n → Bool × Bool) (Fin n → Bool × Bool) K,
        (((t.cellMat label).cells.filter fun e => e.row = j).map fun e => e.factor • siteVal n g i e.op * W e.col).sum =
          ((t.cells.filter fun c => c.1 = j).map fun c => c.2.2.1 • siteVal n g i c.2.2.2 * W c.2.1).sum := by
      intro W
      simp only [Tensor.cellMat, List.filter_map, List.map_map, Function.comp_def]
    cases ts with
    | nil =>
      have := hcells fun _ => 1
      simp only [mul_one] at this
      simp only [List.map_cons, List.map_nil, chainVal, chain, mul_one]
      exact this
    | cons t' ts =>
      simp only [List.map_cons, chainVal] at ih ⊢
      rw [hcells fun k => chainVal n g (t'.cellMat label :: ts.map (Tensor.cellMat label)) (i + 1) k]
      rw [chain]
      simp only [ih (by simp)]

theorem linked_of : ∀ (ms : List (CellMat K)), (∀ (i : Nat) a b, ms[i]? = some a → ms[i + 1]? = some b → a.rq = b.lq.map fun q => b.dq - q) → Linked ms
  | [], _ => trivial
  | [_], _ => trivial
  | a :: b :: ms, h => ⟨h 0 a b rfl rfl, linked_of (b :: ms) fun i x y hx hy => h (i + 1) x y hx hy⟩

theorem forall₂_map {β γ δ : Type} {f : β → δ} {f' : γ → δ} {l : List β} {r : List γ} (h : List.Forall₂ (fun x y => f x = f' y) l r) : l.map f = r.map f' := by
  induction h with
  | nil => rfl
  | cons h _ ih => rw [List.map_cons, List.map_cons, h, ih]

/-- The block tensors of a chain and their matrix elements. -/
theorem chained_sparse (h : Chained label g ts) (hg : g ≠ []) :
    ∃ ws X, ts.mapM (Tensor.sparse label) = some ws ∧ OpOnBonds SZ.isFermion ([(0, 1)] :: X ++ [[(0, 1)]]) (g.map fun g => ([siteBasis g], [siteBasis g])) ws ∧
      (∀ b ∈ X, GoodBond b) ∧ (∀ W ∈ ws, EvenBlocks SZ.isFermion W.both) ∧
      ∀ u d : Fin g.length → Bool × Bool, opAmpl SZ.isFermion ws X false (0, 0) (legsOf g u) (legsOf g d) (0, 0) =
        chain (fun i x => x.1 • siteVal g.length g i x.2) 0 ts 0 u d := by
  have hne : ts ≠ [] := by
    rintro rfl
    exact hg (List.length_eq_zero_iff.1 h.length.symm)
  have hget : ∀ (i : Nat) (m' : CellMat K), (ts.map (Tensor.cellMat label))[i]? = some m' → ∃ t, ts[i]? = some t ∧ m' = t.cellMat label := by
    intro i m' hm
    rw [List.getElem?_map] at hm
    obtain ⟨t, h1, h2⟩ := Option.map_eq_some_iff.1 hm
    exact ⟨t, h1, h2.symm⟩
  have hneutral : ∀ (i : Nat) (m' : CellMat K), (ts.map (Tensor.cellMat label))[i]? = some m' → m'.Neutral (g.getD i 0) := by
    intro i m' hm
    obtain ⟨t, h1, rfl⟩ := hget i m' hm
    intro e he
    obtain ⟨c, hc, rfl⟩ := List.mem_map.1 he
    obtain ⟨l, r, k1, k2, k3⟩ := h.entries i t h1 c hc
    refine ⟨label l, label r, ?_, ?_, ?_⟩
    · rw [h.lq h1, List.getElem?_map, k1]
      rfl
    · rw [h.rq h1, List.getElem?_map, k2]
      rfl
    · show SiteOp _ (label l + label r - 0) _
      rw [sub_zero]
      exact k3
  have hlink : Linked (ts.map (Tensor.cellMat label)) := by
    refine linked_of _ fun i a b ha hb => ?_
    obtain ⟨s, hs, rfl⟩ := hget i a ha
    obtain ⟨t, ht, rfl⟩ := hget _ b hb
    rw [h.rq hs, h.lq ht, List.map_map, forall₂_map (h.good.link i s t hs ht)]
    refine List.map_congr_left fun x _ => ?_
    show -label x = 0 - label x
    rw [zero_sub]
  obtain ⟨t, tl, rfl⟩ := List.exists_cons_of_ne_nil hne
  have hlast : ((t.cellMat label :: tl.map (Tensor.cellMat label)).getLast (by simp)).rq = [0] := by
    have e : t.cellMat label :: tl.map (Tensor.cellMat label) = (t :: tl).map (Tensor.cellMat label) := rfl
    have hl : ∃ s, (t :: tl)[tl.length]? = some s ∧ ((t :: tl).map (Tensor.cellMat label)).getLast (by simp) = s.cellMat label := by
      refine ⟨(t :: tl).getLast (by simp), ?_, List.getLast_map ..⟩
      rw [List.getLast_eq_getElem, List.getElem?_eq_getElem (by simp)]
      simp
    obtain ⟨s, s1, s2⟩ := hl
    simp only [e, s2]
    rw [h.rq s1]
    exact h.last _ s (by simp) s1
  have hlq : (t.cellMat label).lq = [0] := by
    rw [h.lq (i := 0) rfl]
    exact h.first t rfl
  obtain ⟨ws, h1, h2, h3, h4⟩ := cell_chain g rfl 0 (t.cellMat label) (tl.map (Tensor.cellMat label)) 0 (by have := h.length; simp at this ⊢; omega)
    (fun i m' hm => by
      rw [zero_add]
      intro e he
      obtain ⟨l, r, k1, k2, k3⟩ := hneutral i m' hm e he
      exact ⟨l, r, _, k1, k2, k3⟩) hlink hlast
  have hl : leftLeg (t.cellMat label).dq (t.cellMat label).lq = [(0, 1)] := by rw [hlq]; exact trivial_left
  rw [hl, trivial_leg, List.drop_zero] at h2
  refine ⟨ws, _, ?_, h2, ?_, ?_, ?_⟩
  · rw [← h1, ← List.map_cons, List.mapM_map]
    congr 1
    funext s
    exact sparse_cellMat label s
  · intro b hb
    obtain ⟨m, _, rfl⟩ := List.mem_map.1 hb
    exact leg_good _
  · refine h3 fun i m' hm => ?_
    rw [zero_add]
    exact hneutral i m' hm
  · intro u d
    have e := h4 0 (0, 0) (by rw [hlq]; exact ⟨rfl, rfl⟩) u d
    rw [if_pos (fun l hl => absurd hl (by omega)), List.drop_zero, List.drop_zero] at e
    rw [← chainVal_chain _ _ label _ hne, List.map_cons, e]
    simp [parBelow, Tensor.cellMat]

theorem simplify_chained (h : Chained label g ts) : ∃ ts', simplifyMpo ts = some ts' ∧ Chained label g ts' ∧ Same ts ts' := by
  obtain ⟨ts', h1, h2, h3, -, -⟩ := simplify_all h.good
  refine ⟨ts', h1, ⟨h2, h3.length.trans h.length, ?_, ?_, ?_⟩, h3⟩
  · intro t ht
    obtain ⟨s, hs⟩ := get_of_length h3.length.symm ht
    rw [h3.first s t hs ht]
    exact h.first s hs
  · intro i t hi ht
    rw [h3.length] at hi
    obtain ⟨s, hs⟩ := get_of_length h3.length.symm ht
    rw [h3.last i s t hi hs ht]
    exact h.last i s hi hs
  · refine h3.all (fun i a b c => ∃ l r, a = some l ∧ b = some r ∧ SiteOp (g.getD i 0) (label l + label r) c.2) ?_
    exact h.entries

end Symbolic
end Verif
