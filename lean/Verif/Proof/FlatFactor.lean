import Verif.Proof.FlatCanon
import Verif.Spec.Svd

/-! The matrices and the groups of the flat factorisations are those of the block factorisations. -/

set_option linter.unusedSectionVars false

namespace Verif

theorem SameBlocks.of_eq {Q K : Type} {S T T' : SpT Q K} (h : SameBlocks S T) (e : T' = T) : SameBlocks S T' := e ▸ h

namespace Flat
variable {C Q K : Type} [DecidableEq C] [Zero C] [DecidableEq Q] [Zero Q] [Zero K]
variable {l : List (List C × List Nat × List K)} {dec : C → Q}

theorem proper_trip (h : ProperBlocks (pack l)) {i : Nat} (hi : i < l.length) :
    (trip l i).1 ≠ [] ∧ (trip l i).2.1 ≠ [] ∧ ∀ d ∈ (trip l i).2.1, 0 < d := by
  have hm := trip_mem hi
  have h1 : (trip l i).1 ∈ (pack l).qs := List.mem_map.2 ⟨_, hm, rfl⟩
  have h2 : (trip l i).2.1 ∈ (pack l).shs := List.mem_map.2 ⟨_, hm, rfl⟩
  exact ⟨h.1 _ h1, h.2 _ h2⟩

theorem distinct_trip (h : DistinctCodes dec (pack l)) {i j : Nat} (hi : i < l.length) (hj : j < l.length) {c c' : C}
    (hc : c ∈ (trip l i).1) (hc' : c' ∈ (trip l j).1) (e : dec c = dec c') : c = c' :=
  h _ (List.mem_map.2 ⟨_, trip_mem hi, rfl⟩) _ (List.mem_map.2 ⟨_, trip_mem hj, rfl⟩) c hc c' hc' e

theorem getLastD_map_ne (f : C → Q) {q : List C} (h : q ≠ []) : (q.map f).getLastD 0 = f (q.getLastD 0) ∧ q.getLastD 0 ∈ q := by
  obtain ⟨a, x, rfl⟩ : ∃ a x, q = a ++ [x] := ⟨_, _, (List.dropLast_concat_getLast h).symm⟩
  simp [List.getLastD_eq_getLast?]

theorem getD0_map_ne (f : C → Q) {q : List C} (h : q ≠ []) : (q.map f).getD 0 0 = f (q.getD 0 0) ∧ q.getD 0 0 ∈ q := by
  cases q with
  | nil => exact absurd rfl h
  | cons a q => simp

theorem groups_last (hch : Chunked l) (h : ProperBlocks (pack l)) (hd : DistinctCodes dec (pack l)) :
    groupBy (fun b => b.1.getLastD 0) (toSparse dec (pack l)) =
      (collectLast (pack l).qs).map fun g => (dec g.1, g.2.map (blk dec l)) := by
  rw [toSparse_blk dec hch]
  have hlen : (pack l).qs.length = l.length := by simp [pack]
  unfold collectLast
  rw [hlen]
  refine groupBy_rename dec (blk dec l) _ _ _ ?_ ?_
  · intro i hi
    rw [pack_qs_getD]
    exact (getLastD_map_ne dec (proper_trip h (by simpa using hi)).1).1
  · intro i hi j hj e
    rw [pack_qs_getD, pack_qs_getD] at e ⊢
    exact distinct_trip hd (by simpa using hi) (by simpa using hj) (getLastD_map_ne dec (proper_trip h (by simpa using hi)).1).2
      (getLastD_map_ne dec (proper_trip h (by simpa using hj)).1).2 e

theorem groups_first (hch : Chunked l) (h : ProperBlocks (pack l)) (hd : DistinctCodes dec (pack l)) :
    groupBy (fun b => b.1.getD 0 0) (toSparse dec (pack l)) =
      (collectFirst (pack l).qs).map fun g => (dec g.1, g.2.map (blk dec l)) := by
  rw [toSparse_blk dec hch]
  have hlen : (pack l).qs.length = l.length := by simp [pack]
  unfold collectFirst
  rw [hlen]
  refine groupBy_rename dec (blk dec l) _ _ _ ?_ ?_
  · intro i hi
    rw [pack_qs_getD]
    exact (getD0_map_ne dec (proper_trip h (by simpa using hi)).1).1
  · intro i hi j hj e
    rw [pack_qs_getD, pack_qs_getD] at e ⊢
    exact distinct_trip hd (by simpa using hi) (by simpa using hj) (getD0_map_ne dec (proper_trip h (by simpa using hi)).1).2
      (getD0_map_ne dec (proper_trip h (by simpa using hj)).1).2 e

theorem collectLast_spec {g : C × List Nat} (hg : g ∈ collectLast (pack l).qs) : g.2 ≠ [] ∧ ∀ i ∈ g.2, i < l.length := by
  obtain ⟨h1, h2⟩ := mem_groupBy hg
  refine ⟨h2, fun i hi => ?_⟩
  rw [h1, List.mem_filter] at hi
  simpa [pack] using hi.1

theorem collectFirst_spec {g : C × List Nat} (hg : g ∈ collectFirst (pack l).qs) : g.2 ≠ [] ∧ ∀ i ∈ g.2, i < l.length := by
  obtain ⟨h1, h2⟩ := mem_groupBy hg
  refine ⟨h2, fun i hi => ?_⟩
  rw [h1, List.mem_filter] at hi
  simpa [pack] using hi.1

theorem collectLast_perm : ((collectLast (pack l).qs).flatMap Prod.snd).Perm (List.range l.length) := by
  unfold collectLast
  rw [show (pack l).qs.length = l.length by simp [pack]]
  exact groupBy_perm _ _

theorem collectFirst_perm : ((collectFirst (pack l).qs).flatMap Prod.snd).Perm (List.range l.length) := by
  unfold collectFirst
  rw [show (pack l).qs.length = l.length by simp [pack]]
  exact groupBy_perm _ _

section
variable {v : List Nat} (hch : Chunked l) (h : ProperBlocks (pack l)) (hv : ∀ i ∈ v, i < l.length)
include hch h hv

theorem matRows_eq : (pack l).matRows v = stackLeft (v.map fun i => (blk dec l i).2) := by
  unfold matRows stackLeft
  rw [List.map_map]
  congr 1
  apply List.map_congr_left
  intro i hi
  obtain ⟨-, h2, h3⟩ := proper_trip h (hv i hi)
  simp only [Function.comp, blk]
  rw [reshape_ofList h2 h3, pack_shs_getD, pack_block' hch (hv i hi), hch _ (trip_mem (hv i hi))]
  rfl

theorem matRowsT_eq : (pack l).matRowsT v = stackRightT (v.map fun i => (blk dec l i).2) := by
  unfold matRowsT stackRightT
  rw [List.map_map]
  congr 1
  apply List.map_congr_left
  intro i hi
  obtain ⟨-, h2, h3⟩ := proper_trip h (hv i hi)
  simp only [Function.comp, blk]
  rw [reshape_ofList h2 h3, pack_shs_getD, pack_block' hch (hv i hi), hch _ (trip_mem (hv i hi))]
  rfl

theorem matCols_eq : (pack l).matCols v = stackRight (v.map fun i => (blk dec l i).2) := by
  unfold matCols stackRight
  rw [List.map_map]
  congr 1
  apply List.map_congr_left
  intro i hi
  obtain ⟨-, h2, h3⟩ := proper_trip h (hv i hi)
  simp only [Function.comp, blk]
  rw [reshape_ofList h2 h3, pack_shs_getD, pack_block' hch (hv i hi), hch _ (trip_mem (hv i hi))]
  rfl

end

theorem prod_pos_of {s : List Nat} (h : ∀ d ∈ s, 0 < d) : 0 < s.prod := by
  induction s with
  | nil => simp
  | cons a s ih =>
    rw [List.prod_cons]
    exact Nat.mul_pos (h a List.mem_cons_self) (ih fun d hd => h d (List.mem_cons_of_mem _ hd))

theorem dropLast_quot {s : List Nat} (hne : s ≠ []) (h : ∀ d ∈ s, 0 < d) : 0 < s.dropLast.prod ∧ 0 < s.prod / s.dropLast.prod := by
  have h1 : 0 < s.dropLast.prod := prod_pos_of fun d hd => h d (List.dropLast_subset _ hd)
  refine ⟨h1, ?_⟩
  conv_rhs => enter [1]; rw [← List.dropLast_concat_getLast hne]
  rw [List.prod_append, List.prod_singleton, Nat.mul_div_cancel_left _ h1]
  exact h _ (List.getLast_mem hne)

theorem tail_quot {s : List Nat} (hne : s ≠ []) (h : ∀ d ∈ s, 0 < d) : 0 < s.tail.prod ∧ 0 < s.prod / s.tail.prod := by
  cases s with
  | nil => exact absurd rfl hne
  | cons a s =>
    have h1 : 0 < s.prod := prod_pos_of fun d hd => h d (List.mem_cons_of_mem _ hd)
    refine ⟨h1, ?_⟩
    rw [List.tail_cons, List.prod_cons, Nat.mul_div_cancel _ h1]
    exact h a List.mem_cons_self

theorem sum_pos_of {v : List Nat} (f : Nat → Nat) (hne : v ≠ []) (h : ∀ i ∈ v, 0 < f i) : 0 < (v.map f).sum := by
  cases v with
  | nil => exact absurd rfl hne
  | cons a v =>
    have := h a List.mem_cons_self
    simp; omega

section
variable {v : List Nat} (hch : Chunked l) (h : ProperBlocks (pack l)) (hne : v ≠ []) (hv : ∀ i ∈ v, i < l.length)
include hch h hne hv

theorem matRows_shape : ∃ c, 0 < c ∧ 0 < (v.map fun i => ((pack l).shs.getD i []).dropLast.prod).sum ∧
    ((pack l).matRows v).shape = [(v.map fun i => ((pack l).shs.getD i []).dropLast.prod).sum, c] := by
  cases v with
  | nil => exact absurd rfl hne
  | cons i v =>
    obtain ⟨-, h2, h3⟩ := proper_trip h (hv i List.mem_cons_self)
    refine ⟨_, (dropLast_quot h2 h3).2, ?_, ?_⟩
    · refine sum_pos_of _ (by simp) fun j hj => ?_
      obtain ⟨-, h2, h3⟩ := proper_trip h (hv j hj)
      rw [pack_shs_getD]
      exact (dropLast_quot h2 h3).1
    · unfold matRows Arr.concat
      simp only [List.map_cons, List.head?_cons, Option.map_some, Option.getD_some, List.map_map, Function.comp_def]
      rw [pack_block' hch (hv i List.mem_cons_self), hch _ (trip_mem (hv i List.mem_cons_self)), pack_shs_getD]
      rfl

theorem matRowsT_shape : ∃ c, 0 < c ∧ 0 < (v.map fun i => ((pack l).shs.getD i []).tail.prod).sum ∧
    ((pack l).matRowsT v).shape = [(v.map fun i => ((pack l).shs.getD i []).tail.prod).sum, c] := by
  cases v with
  | nil => exact absurd rfl hne
  | cons i v =>
    obtain ⟨-, h2, h3⟩ := proper_trip h (hv i List.mem_cons_self)
    refine ⟨_, (tail_quot h2 h3).2, ?_, ?_⟩
    · refine sum_pos_of _ (by simp) fun j hj => ?_
      obtain ⟨-, h2, h3⟩ := proper_trip h (hv j hj)
      rw [pack_shs_getD]
      exact (tail_quot h2 h3).1
    · unfold matRowsT Arr.concat
      simp only [List.map_cons, List.head?_cons, Option.map_some, Option.getD_some, List.map_map, Function.comp_def]
      rw [pack_block' hch (hv i List.mem_cons_self), hch _ (trip_mem (hv i List.mem_cons_self)), pack_shs_getD]
      rfl

theorem matCols_shape : ∃ c, 0 < c ∧ 0 < (v.map fun i => ((pack l).shs.getD i []).tail.prod).sum ∧
    ((pack l).matCols v).shape = [c, (v.map fun i => ((pack l).shs.getD i []).tail.prod).sum] := by
  cases v with
  | nil => exact absurd rfl hne
  | cons i v =>
    obtain ⟨-, h2, h3⟩ := proper_trip h (hv i List.mem_cons_self)
    refine ⟨_, (tail_quot h2 h3).2, ?_, ?_⟩
    · refine sum_pos_of _ (by simp) fun j hj => ?_
      obtain ⟨-, h2, h3⟩ := proper_trip h (hv j hj)
      rw [pack_shs_getD]
      exact (tail_quot h2 h3).1
    · unfold matCols Arr.concat
      simp only [List.map_cons, List.head?_cons, Option.map_some, Option.getD_some, List.map_map, Function.comp_def]
      rw [pack_block' hch (hv i List.mem_cons_self), hch _ (trip_mem (hv i List.mem_cons_self)), pack_shs_getD]
      rfl

end

theorem splitRows_shapes {v : List Nat} (hne : v ≠ []) (u : Arr K) (k : Nat)
    (hu : u.shape = [(v.map fun i => ((pack l).shs.getD i []).dropLast.prod).sum, k]) :
    ((pack l).splitRows v u).map Arr.shape = v.map fun i => [((pack l).shs.getD i []).dropLast.prod, k] := by
  unfold splitRows
  rw [split_shapes 0 u _ (by simpa using hne) 0 (by rw [hu]; simp), List.map_map, hu]
  rfl

theorem splitTail0_shapes {v : List Nat} (hne : v ≠ []) (u : Arr K) (k : Nat)
    (hu : u.shape = [(v.map fun i => ((pack l).shs.getD i []).tail.prod).sum, k]) :
    ((pack l).splitTail 0 v u).map Arr.shape = v.map fun i => [((pack l).shs.getD i []).tail.prod, k] := by
  unfold splitTail
  rw [split_shapes 0 u _ (by simpa using hne) 0 (by rw [hu]; simp), List.map_map, hu]
  rfl

theorem splitTail1_shapes {v : List Nat} (hne : v ≠ []) (u : Arr K) (k : Nat)
    (hu : u.shape = [k, (v.map fun i => ((pack l).shs.getD i []).tail.prod).sum]) :
    ((pack l).splitTail 1 v u).map Arr.shape = v.map fun i => [k, ((pack l).shs.getD i []).tail.prod] := by
  unfold splitTail
  rw [split_shapes 1 u _ (by simpa using hne) 0 (by rw [hu]; simp), List.map_map, hu]
  rfl

end Flat
end Verif
