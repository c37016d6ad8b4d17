import Verif.Proof.SimplifyCells

/-!
Lemmas for the simplification of the conventional matrix product operator of quantum chemistry: its symbolic tensors form a chain.
-/

set_option linter.unusedSectionVars false

namespace Verif
namespace Symbolic
variable {α : Type}

theorem vector_go (ps : List (Nat × Option α)) (k : Nat) (hk : ps.map (·.1) = List.range k) (N : Nat) (hN : k ≤ N) :
    ps.foldl (fun d p => d.set p.1 p.2) (List.replicate N none) = ps.map (·.2) ++ List.replicate (N - k) none := by
  induction ps using List.reverseRecOn generalizing k with
  | nil =>
    have : k = 0 := by simpa using hk.symm
    subst this
    simp
  | append_singleton ps p ih =>
    obtain ⟨k', rfl⟩ : ∃ k', k = k' + 1 := by
      cases k with
      | zero => simp at hk
      | succ k => exact ⟨k, rfl⟩
    rw [List.map_append, List.range_succ, List.map_cons, List.map_nil] at hk
    obtain ⟨h1, h2⟩ := List.append_inj' hk rfl
    have h2 : p.1 = k' := by simpa using h2
    have hlen : ps.length = k' := by simpa using congrArg List.length h1
    rw [List.foldl_append, ih k' h1 (by omega), List.foldl_cons, List.foldl_nil, h2, List.set_append_right k' p.2 (by simp [hlen])]
    rw [show N - k' = (N - (k' + 1)) + 1 by omega, List.replicate_succ]
    simp [hlen]

theorem vector_range (ps : List (Nat × Option α)) (N : Nat) (h : ps.map (·.1) = List.range N) : vector N ps = ps.map (·.2) := by
  rw [vector, vector_go ps N h N le_rfl]
  simp

theorem vec_cells {β : Type} (f : Nat → α → β) (ps : List (Nat × Option α)) (N : Nat) (h : ps.map (·.1) = List.range N) :
    (ps.map (·.2)).zipIdx.filterMap (fun p => p.1.map fun x => f p.2 x) = ps.filterMap fun p => p.2.map fun x => f p.1 x := by
  have hl : ps.length = N := by simpa using congrArg List.length h
  have e : (ps.map (·.2)).zipIdx = ps.map fun p => (p.2, p.1) := by
    rw [List.zipIdx_eq_zip_range', List.length_map, hl, ← List.range_eq_range', ← h, List.zip_map']
  rw [e, List.filterMap_map]
  rfl

end Symbolic

namespace ConvMpo
open Hamiltonian Fock ConvAlg Symbolic
variable {K : Type} [Field K] [DecidableEq K] {n : Nat}

theorem length_syms (n M : Nat) (h : M ≤ n) : (syms n M).length = 2 + 4 * n + 12 * M * M := by
  have e : (syms n M).length = 2 + 2 * M + 2 * M + 2 * (n - M) + 2 * (n - M) + 4 * (M * M) + 4 * (M * M) + 4 * (M * M) := by
    simp [syms, ones, lates, pairs, spins]
    omega
  rw [e]
  have : 12 * M * M = 12 * (M * M) := by ring
  omega

theorem first_x (g : List Nat) (n : Nat) : (firstEnts (K := K) g n).map (·.x) = syms n 1 := by
  simp [firstEnts, syms, map_lates, ones, pairs, spins]

theorem last_y (g : List Nat) (n m : Nat) (h : m + 1 = n) : (hEnts (K := K) g m).map (·.y) = syms n m := by
  subst h
  simp [hEnts, syms, map_ones, map_pairs, lates, spins]

section
variable {tiny : K → Bool} {t : Bool → Nat → Nat → K} {v : Bool → Bool → Nat → Nat → Nat → Nat → K} {g : List Nat} {sym : Bool}

theorem cell_place {m : Nat} {p : Put K} {c : Cell SZ K} (h : cell tiny t v g m p = some (some c)) : c.row = p.row ∧ c.col = p.col := by
  unfold cell at h
  cases hv : p.val with
  | none => simp [hv] at h
  | some e =>
    simp only [hv] at h
    obtain ⟨o, h1, h2⟩ := Option.map_eq_some_iff.1 h
    obtain ⟨T, h3, h4⟩ := Option.bind_eq_some_iff.1 h2
    split_ifs at h4
    cases h4
    exact ⟨rfl, rfl⟩

theorem put_cells {m : Nat} (ps : List (Put K)) {ocs : List (Option (Cell SZ K))} (h : ps.mapM (cell tiny t v g m) = some ocs) :
    ∃ es, (ps.mapM fun p => (cell tiny t v g m p).map fun c => ((p.row, p.col), c.map fun c => (c.factor, c.op))) = some es ∧
      es.map (·.1) = ps.map (fun p => (p.row, p.col)) ∧
      (es.filterMap fun e => e.2.map fun x => (e.1.1, e.1.2, x)) = (ocs.filterMap id).map fun c => (c.row, c.col, (c.factor, c.op)) := by
  induction ps generalizing ocs with
  | nil =>
    simp only [List.mapM_nil, Option.pure_def, Option.some.injEq] at h
    subst h
    exact ⟨[], rfl, rfl, rfl⟩
  | cons p ps ih =>
    rw [List.mapM_cons] at h
    cases hc : cell tiny t v g m p with
    | none => simp [hc] at h
    | some oc =>
      cases hr : ps.mapM (cell tiny t v g m) with
      | none => simp [hc, hr] at h
      | some rest =>
        simp only [hc, hr, Option.pure_def, Option.bind_eq_bind, Option.bind_some, Option.some.injEq] at h
        subst h
        obtain ⟨es, h1, h2, h3⟩ := ih hr
        refine ⟨((p.row, p.col), oc.map fun c => (c.factor, c.op)) :: es, ?_, by rw [List.map_cons, List.map_cons, h2], ?_⟩
        · rw [List.mapM_cons, hc, h1]
          rfl
        · cases oc with
          | none => simpa using h3
          | some c =>
            obtain ⟨k1, k2⟩ := cell_place hc
            simp only [Option.map_some, List.filterMap_cons, id, List.map_cons, h3, k1, k2]

variable (hn : 2 ≤ n) (htiny : ∀ x, tiny x = true ↔ x = 0) (ha : SpinAllowed g t v)
include hn htiny ha

/-- The symbolic tensor of a site. -/
theorem symbolic_at {m : Nat} (hm : m < n) : ∃ T, symbolicTensor tiny t v g sym n m = some T ∧ T.Fits ∧ T.lop = lop g n m ∧ T.rop = rop g n m ∧ (T.IsRow → m = 0) ∧ (T.IsCol → m + 1 = n) ∧
    T.cells = (matOf tiny t v g sym n m).cells.map fun c => (c.row, c.col, (c.factor, c.op)) := by
  obtain ⟨ocs, h1, -⟩ := cells_of (entsAt v g sym n m) fun e he => (ok_at (sym := sym) hn htiny ha hm e he).1
  rw [← puts_at v g sym hn hm] at h1
  have hcells : (matOf tiny t v g sym n m).cells = ocs.filterMap id := by
    rw [matOf, h1]
    rfl
  obtain ⟨es, h2, h3, h4⟩ := put_cells _ h1
  have hok := fun e (he : e ∈ entsAt v g sym n m) => ok_at (tiny := tiny) (t := t) (sym := sym) hn htiny ha hm e he
  have hpl : es.map (·.1) = (entsAt v g sym n m).map fun e => (pos n m e.y, pos n (m + 1) e.x) := by
    rw [h3, puts_at v g sym hn hm, List.map_map]
    rfl
  refine ⟨_, by rw [symbolicTensor, h2, Option.map_some], ?_⟩
  have hlop : m ≠ 0 → (lop (K := K) g n m).length = 2 + 4 * n + 12 * m * m := by
    intro h0
    have := congrArg List.length (lop_labels (K := K) g n m h0)
    rw [List.length_map, List.length_map, length_syms n m (by omega)] at this
    exact this
  have hrop : m + 1 ≠ n → (rop (K := K) g n m).length = 2 + 4 * n + 12 * (m + 1) * (m + 1) := by
    intro h0
    have := congrArg List.length (rop_labels (K := K) g n m h0)
    rw [List.length_map, List.length_map, length_syms n (m + 1) (by omega)] at this
    exact this
  have hlop0 : m = 0 → (lop (K := K) g n m).length = 1 := by
    rintro rfl
    rfl
  have hrop0 : m + 1 = n → (rop (K := K) g n m).length = 1 := fun h => by
    simp [rop, h]
  by_cases h0 : m = 0
  · have hr : m + 1 ≠ n := by omega
    have hrange : (es.map fun e => (e.1.2, e.2)).map (·.1) = List.range (2 + 4 * n + 12 * (m + 1) * (m + 1)) := by
      rw [← length_syms n (m + 1) (by omega), ← map_pos, List.map_map]
      have : es.map (fun e => e.1.2) = (es.map (·.1)).map (·.2) := by rw [List.map_map]; rfl
      have e2 : (entsAt v g sym n m) = firstEnts g n := by rw [entsAt, if_pos h0]
      show es.map (fun e => e.1.2) = _
      rw [this, hpl, List.map_map, e2]
      subst h0
      rw [zero_add, ← first_x (K := K) g n, List.map_map]
      rfl
    have hrow : ∀ e ∈ es, e.1.1 = 0 := by
      intro e he
      have : e.1 ∈ es.map (·.1) := List.mem_map_of_mem he
      rw [hpl] at this
      obtain ⟨x, hx, hx'⟩ := List.mem_map.1 this
      rw [← hx', (hok x hx).2.1 h0]
      rfl
    refine ⟨?_, rfl, rfl, fun _ => h0, ?_, ?_⟩
    · simp only [Tensor.Fits, if_pos h0]
      refine ⟨?_, hlop0 h0⟩
      rw [vector_range _ _ hrange, hrop hr]
      have := congrArg List.length hrange
      simpa using this
    · rintro ⟨d, hd⟩
      simp [h0] at hd
    · simp only [Tensor.cells, if_pos h0]
      rw [vector_range _ _ hrange, vec_cells (fun k x => (0, k, x)) _ _ hrange, List.filterMap_map, hcells, ← h4]
      refine List.filterMap_congr fun e he => ?_
      rw [hrow e he]
      rfl
  · by_cases h5 : m + 1 = n
    · have hrange : (es.map fun e => (e.1.1, e.2)).map (·.1) = List.range (2 + 4 * n + 12 * m * m) := by
        rw [← length_syms n m (by omega), ← map_pos, List.map_map]
        have : es.map (fun e => e.1.1) = (es.map (·.1)).map (·.1) := by rw [List.map_map]; rfl
        have e2 : (entsAt v g sym n m) = hEnts g m := by rw [entsAt, if_neg h0, if_pos h5]
        show es.map (fun e => e.1.1) = _
        rw [this, hpl, List.map_map, e2, ← last_y (K := K) g n m h5, List.map_map]
        rfl
      have hcol : ∀ e ∈ es, e.1.2 = 0 := by
        intro e he
        have : e.1 ∈ es.map (·.1) := List.mem_map_of_mem he
        rw [hpl] at this
        obtain ⟨x, hx, hx'⟩ := List.mem_map.1 this
        rw [← hx', (hok x hx).2.2 h5]
        rfl
      refine ⟨?_, rfl, rfl, ?_, fun _ => h5, ?_⟩
      · simp only [Tensor.Fits, if_neg h0, if_pos h5]
        refine ⟨?_, hrop0 h5⟩
        rw [vector_range _ _ hrange, hlop h0]
        have := congrArg List.length hrange
        simpa using this
      · rintro ⟨d, hd⟩
        simp [h0, h5] at hd
      · simp only [Tensor.cells, if_neg h0, if_pos h5]
        rw [vector_range _ _ hrange, vec_cells (fun k x => (k, 0, x)) _ _ hrange, List.filterMap_map, hcells, ← h4]
        refine List.filterMap_congr fun e he => ?_
        rw [hcol e he]
        rfl
    · refine ⟨?_, rfl, rfl, ?_, ?_, ?_⟩
      · simp only [Tensor.Fits, if_neg h0, if_neg h5]
        refine ⟨(hlop h0).symm, (hrop h5).symm, ?_⟩
        intro e he
        have he := (List.mem_filter.1 he).1
        have : e.1 ∈ es.map (·.1) := List.mem_map_of_mem he
        rw [hpl] at this
        obtain ⟨x, hx, hx'⟩ := List.mem_map.1 this
        rw [← hx', ← length_syms n m (by omega), ← length_syms n (m + 1) (by omega)]
        exact ⟨(List.getElem?_eq_some_iff.1 (get_pos (hok x hx).1.y)).1, (List.getElem?_eq_some_iff.1 (get_pos (hok x hx).1.x)).1⟩
      · rintro ⟨d, hd⟩
        simp [h0, h5] at hd
      · rintro ⟨d, hd⟩
        simp [h0, h5] at hd
      · simp only [Tensor.cells, if_neg h0, if_neg h5]
        rw [hcells, ← h4, List.filterMap_filter]
        refine List.filterMap_congr fun e he => ?_
        cases e.2 <;> rfl

end

section
variable {tiny : K → Bool} {t : Bool → Nat → Nat → K} {v : Bool → Bool → Nat → Nat → Nat → Nat → K} {g : List Nat} {sym : Bool}
variable (hn : 2 ≤ g.length) (htiny : ∀ x, tiny x = true ↔ x = 0) (ha : SpinAllowed g t v)
include hn htiny ha

theorem symbolic_chained : ∃ ts, (List.range g.length).mapM (symbolicTensor tiny t v g sym g.length) = some ts ∧ Chained (·.label) g ts ∧
    ts.map (Tensor.cellMat (·.label)) = (List.range g.length).map (matOf tiny t v g sym g.length) := by
  have hall : ∀ k, k ≤ g.length → ∃ ts, (List.range k).mapM (symbolicTensor tiny t v g sym g.length) = some ts ∧ ts.length = k ∧
      ∀ (i : Nat) T, ts[i]? = some T → symbolicTensor tiny t v g sym g.length i = some T := by
    intro k hk
    induction k with
    | zero => exact ⟨[], rfl, rfl, by simp⟩
    | succ k ih =>
      obtain ⟨ts, h1, h2, h3⟩ := ih (by omega)
      obtain ⟨T, h4, -⟩ := symbolic_at (sym := sym) hn htiny ha (m := k) (by omega)
      refine ⟨ts ++ [T], ?_, by simp [h2], ?_⟩
      · rw [List.range_succ, List.mapM_append, h1]
        simp [h4]
      · intro i T' hi
        by_cases hik : i < ts.length
        · rw [List.getElem?_append_left hik] at hi
          exact h3 i T' hi
        · rw [List.getElem?_append_right (by omega)] at hi
          have : i - ts.length = 0 := by
            by_contra hne
            rw [List.getElem?_eq_none (by simp; omega)] at hi
            cases hi
          have hik : i = k := by omega
          rw [this, List.getElem?_cons_zero, Option.some.injEq] at hi
          rw [hik, h4, hi]
  obtain ⟨ts, h1, h2, h3⟩ := hall g.length le_rfl
  have hat : ∀ (i : Nat) T, ts[i]? = some T → i < g.length ∧ T.Fits ∧ T.lop = lop g g.length i ∧ T.rop = rop g g.length i ∧ (T.IsRow → i = 0) ∧ (T.IsCol → i + 1 = g.length) ∧
      T.cells = (matOf tiny t v g sym g.length i).cells.map fun c => (c.row, c.col, (c.factor, c.op)) := by
    intro i T hT
    have hi : i < g.length := by rw [← h2]; exact (List.getElem?_eq_some_iff.1 hT).1
    obtain ⟨T', k1, k2⟩ := symbolic_at (sym := sym) hn htiny ha hi
    rw [h3 i T hT, Option.some.injEq] at k1
    subst k1
    exact ⟨hi, k2⟩
  have hch : Chained (·.label) g ts := by
    refine ⟨⟨?_, ?_, ?_, ?_⟩, h2, ?_, ?_, ?_⟩
    · intro T hT
      obtain ⟨i, hi⟩ := List.mem_iff_getElem?.1 hT
      exact (hat i T hi).2.1
    · intro i T hT
      exact (hat i T hT).2.2.2.2.1
    · intro i T hT h
      rw [h2]
      exact (hat i T hT).2.2.2.2.2.1 h
    · intro i a b hia hib
      obtain ⟨-, -, -, q1, -⟩ := hat i a hia
      obtain ⟨q0, -, q2, -⟩ := hat _ b hib
      rw [q1, q2]
      have e : (rop (K := K) g g.length i).map (·.label) = (lop (K := K) g g.length (i + 1)).map fun x => -x.label := by
        rw [rop_labels g g.length i (by omega), show (lop (K := K) g g.length (i + 1)).map (fun x => -x.label) = ((lop (K := K) g g.length (i + 1)).map (·.label)).map (fun q => -q) by
          rw [List.map_map]; rfl, lop_labels g g.length (i + 1) (by omega), List.map_map]
        refine List.map_congr_left fun x _ => ?_
        simp
      exact List.forall₂_map_left_iff.1 (List.forall₂_map_right_iff.1 (e ▸ List.forall₂_same.2 fun _ _ => rfl))
    · intro T hT
      obtain ⟨-, -, q2, -⟩ := hat 0 T hT
      rw [q2]
      exact lop_first g _
    · intro i T hi hT
      obtain ⟨-, -, -, q2, -⟩ := hat i T hT
      rw [q2]
      exact rop_last g _ (by omega)
    · intro i T hT c hc
      obtain ⟨hi, -, q1, q2, -, -, q3⟩ := hat i T hT
      rw [q3] at hc
      obtain ⟨d, hd, rfl⟩ := List.mem_map.1 hc
      obtain ⟨l, r, k1, k2, k3⟩ := neutral_at hn htiny ha hi d hd
      simp only [matOf, List.getElem?_map, Option.map_eq_some_iff] at k1 k2
      obtain ⟨x, k1, rfl⟩ := k1
      obtain ⟨y, k2, rfl⟩ := k2
      refine ⟨x, y, by rw [q1]; exact k1, by rw [q2]; exact k2, ?_⟩
      have : SiteOp (g.getD i 0) (x.label + y.label - 0) d.op := k3
      rwa [sub_zero] at this
  refine ⟨ts, h1, hch, ?_⟩
  refine List.ext_getElem? fun i => ?_
  rw [List.getElem?_map, List.getElem?_map]
  by_cases hi : i < g.length
  · rw [List.getElem?_range hi]
    obtain ⟨T, hT⟩ : ∃ T, ts[i]? = some T := ⟨_, List.getElem?_eq_getElem (by omega)⟩
    obtain ⟨-, -, q1, q2, -, -, q3⟩ := hat i T hT
    rw [hT, Option.map_some, Option.map_some]
    have e1 := hch.lq hT
    have e2 := hch.rq hT
    rw [q1] at e1
    rw [q2] at e2
    have e3 : (T.cellMat (·.label)).cells = (matOf tiny t v g sym g.length i).cells := by
      show T.cells.map _ = _
      rw [q3, List.map_map]
      exact List.map_id'' (fun _ => rfl) _
    congr 1
    show (⟨0, (T.cellMat (·.label)).lq, (T.cellMat (·.label)).rq, (T.cellMat (·.label)).cells⟩ : CellMat K) = _
    rw [e1, e2, e3]
    rfl
  · rw [List.getElem?_eq_none (by omega), List.getElem?_eq_none (by simpa using hi)]
    rfl

end
end ConvMpo
end Verif
