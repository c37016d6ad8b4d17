import Verif.Proof.ConvEnts

/-!
The conventional matrix product operator: the product of the symbolic matrices is the Hamiltonian.
-/

set_option linter.unusedSectionVars false

namespace Verif
namespace ConvMpo
open Hamiltonian Fock ConvAlg Symbolic
variable {K : Type} [Field K] [DecidableEq K] {n : Nat}

/-! ### The matrices of one site -/

section
variable {tiny : K → Bool} {t : Bool → Nat → Nat → K} {v : Bool → Bool → Nat → Nat → Nat → Nat → K} {g : List Nat} {m : Nat}

theorem siteVal_nil (i : Nat) {T : OpT SZ K} (h1 : T.odd = []) (h2 : T.even = []) : siteVal n g i T = 0 := by
  obtain ⟨o, e⟩ := T
  simp only at h1 h2
  subst h1 h2
  unfold siteVal
  split_ifs
  · exact embT_nil _ _
  · rfl

/-- What the matrices of a list of assignments say. -/
structure CellsOf (t : Bool → Nat → Nat → K) (v : Bool → Bool → Nat → Nat → Nat → Nat → K) (g : List Nat) (n m : Nat) (l : List (Ent K)) (cs : List (Cell SZ K)) : Prop where
  from_ : ∀ c ∈ cs, ∃ e ∈ l, c.row = pos n m e.y ∧ c.col = pos n (m + 1) e.x ∧ SiteOp (g.getD m 0) (lab g e.x - lab g e.y) c.op
  sum : ∀ (j : Nat) (W : Nat → FockRing n K), ((cs.filter fun c => c.row = j).map fun c => c.factor • siteVal n g m c.op * W c.col).sum =
    ((l.filter fun e => pos n m e.y = j).map fun e => entVal t v m n e * W (pos n (m + 1) e.x)).sum

theorem CellsOf.zero {l : List (Ent K)} {cs : List (Cell SZ K)} (h : CellsOf t v g n m l cs) {e : Ent K} (he : entVal t v m n e = 0) : CellsOf t v g n m (e :: l) cs := by
  refine ⟨fun c hc => ?_, fun j W => ?_⟩
  · obtain ⟨e', h', h''⟩ := h.from_ c hc
    exact ⟨e', List.mem_cons_of_mem _ h', h''⟩
  · rw [h.sum, List.filter_cons]
    split_ifs
    · simp [he]
    · rfl

theorem CellsOf.cons {l : List (Ent K)} {cs : List (Cell SZ K)} (h : CellsOf t v g n m l cs) {e : Ent K} {c : Cell SZ K} (h1 : c.row = pos n m e.y) (h2 : c.col = pos n (m + 1) e.x)
    (h3 : SiteOp (g.getD m 0) (lab g e.x - lab g e.y) c.op) (h4 : c.factor • siteVal n g m c.op = entVal t v m n e) : CellsOf t v g n m (e :: l) (c :: cs) := by
  refine ⟨fun c' hc => ?_, fun j W => ?_⟩
  · rcases List.mem_cons.1 hc with rfl | hc
    · exact ⟨e, List.mem_cons_self .., h1, h2, h3⟩
    · obtain ⟨e', h', h''⟩ := h.from_ c' hc
      exact ⟨e', List.mem_cons_of_mem _ h', h''⟩
  · have := h.sum j W
    rw [List.filter_cons, List.filter_cons, h1]
    by_cases hj : pos n m e.y = j
    · simp only [hj, decide_true, if_true, List.map_cons, List.sum_cons, this, h4, h2]
    · simp only [hj, decide_false, Bool.false_eq_true, if_false, this]

theorem cells_of (l : List (Ent K)) (h : ∀ e ∈ l, EntOk tiny t v g n m e) :
    ∃ ocs, (l.map (Ent.put n m)).mapM (cell tiny t v g m) = some ocs ∧ CellsOf t v g n m l (ocs.filterMap id) := by
  induction l with
  | nil => exact ⟨[], rfl, by simp, by simp⟩
  | cons e l ih =>
    obtain ⟨ocs, h1, h2⟩ := ih fun e' h' => h e' (List.mem_cons_of_mem _ h')
    have he := h e (List.mem_cons_self ..)
    have key : ∃ oc, cell tiny t v g m (Ent.put n m e) = some oc ∧ CellsOf t v g n m (e :: l) ((oc :: ocs).filterMap id) := by
      obtain ⟨y, x, val⟩ := e
      cases val with
      | none => exact ⟨none, rfl, h2.zero rfl⟩
      | some a =>
        rcases he.val a rfl with ⟨g1, g2⟩ | ⟨T, g1, g2, g3⟩
        · refine ⟨none, by simp [cell, Ent.put, g1], h2.zero ?_⟩
          show a.factor • symVal t v m n a = 0
          rw [g2, smul_zero]
        · by_cases hT : T.odd.isEmpty && T.even.isEmpty
          · refine ⟨none, by simp [cell, Ent.put, g1]; simpa using hT, h2.zero ?_⟩
            show a.factor • symVal t v m n a = 0
            rw [← g3, siteVal_nil, smul_zero] <;> simp_all
          · refine ⟨some ⟨pos n m y, pos n (m + 1) x, a.factor, T⟩, ?_, ?_⟩
            · simp only [cell, Ent.put, g1, Option.map_some, Option.bind_some]
              rw [if_neg hT]
            · refine h2.cons rfl rfl g2 ?_
              show a.factor • siteVal n g m T = a.factor • symVal t v m n a
              rw [g3]
    obtain ⟨oc, k1, k2⟩ := key
    refine ⟨oc :: ocs, ?_, k2⟩
    rw [List.map_cons, List.mapM_cons, k1, h1]
    rfl

end

/-! ### The chain -/

section
variable (tiny : K → Bool) (t : Bool → Nat → Nat → K) (v : Bool → Bool → Nat → Nat → Nat → Nat → K) (g : List Nat) (sym : Bool) (n : Nat)

/-- The symbolic tensor of a site. -/
def matOf (m : Nat) : CellMat K :=
  ⟨0, (lop (K := K) g n m).map (·.label), (rop (K := K) g n m).map (·.label), (((puts v g sym n m).mapM (cell tiny t v g m)).getD []).filterMap id⟩

theorem lop_first : (lop (K := K) g n 0).map (·.label) = [0] := rfl
theorem rop_last {m : Nat} (h : m + 1 = n) : (rop (K := K) g n m).map (·.label) = [0] := by
  simp [rop, h, hSymbol]

/-- The assignments of a site. -/
def entsAt (m : Nat) : List (Ent K) := if m = 0 then firstEnts g n else if m + 1 = n then hEnts g m else ents v g sym n m

variable {n}

theorem puts_at (hn : 2 ≤ n) {m : Nat} (hm : m < n) : puts v g sym n m = (entsAt v g sym n m).map (Ent.put n m) := by
  unfold entsAt
  split_ifs with h1 h2
  · subst h1
    exact first_puts v g sym n
  · exact last_puts v g sym n m h1 h2
  · exact mid_puts v g sym n m h1 (by omega)

variable {tiny t v g sym}
variable (hn : 2 ≤ n) (htiny : ∀ x, tiny x = true ↔ x = 0) (ha : SpinAllowed g t v)
include hn htiny ha

theorem ok_at {m : Nat} (hm : m < n) : ∀ e ∈ entsAt v g sym n m, EntOk tiny t v g n m e ∧ (m = 0 → e.y = .h) ∧ (m + 1 = n → e.x = .h) := by
  unfold entsAt
  intro e he
  split_ifs at he with h1 h2
  · subst h1
    have := first_ok (n := n) (by omega) htiny ha e he
    exact ⟨this.1, fun _ => this.2, by omega⟩
  · refine ⟨h_ok hm htiny ha e he, by omega, fun _ => ?_⟩
    simp only [hEnts, List.mem_append, List.mem_cons, List.not_mem_nil, or_false, mem_ones, mem_pairs, List.mem_map] at he
    rcases he with (((((((h | h) | h) | h) | h) | h) | h) | h)
    · rcases h with rfl | rfl <;> rfl
    · obtain ⟨s, j, hj, rfl⟩ := h; rfl
    · obtain ⟨s, j, hj, rfl⟩ := h; rfl
    · obtain ⟨s, _, rfl⟩ := h; rfl
    · obtain ⟨s, _, rfl⟩ := h; rfl
    · obtain ⟨_, _, _, _, _, _, rfl⟩ := h; rfl
    · obtain ⟨_, _, _, _, _, _, rfl⟩ := h; rfl
    · obtain ⟨_, _, _, _, _, _, rfl⟩ := h; rfl
  · exact ⟨mid_ok hm htiny ha sym e he, by omega, by omega⟩

theorem cells_at {m : Nat} (hm : m < n) : tensor tiny t v g m sym n = (matOf tiny t v g sym n m).sparse ∧
    CellsOf t v g n m (entsAt v g sym n m) (matOf tiny t v g sym n m).cells := by
  obtain ⟨ocs, h1, h2⟩ := cells_of (entsAt v g sym n m) fun e he => (ok_at (sym := sym) hn htiny ha hm e he).1
  unfold tensor matOf CellMat.sparse
  rw [puts_at v g sym hn hm, h1]
  exact ⟨rfl, h2⟩

theorem neutral_at {m : Nat} (hm : m < n) : (matOf tiny t v g sym n m).Neutral (g.getD m 0) := by
  intro c hc
  obtain ⟨e, he, h1, h2, h3⟩ := (cells_at hn htiny ha hm).2.from_ c hc
  obtain ⟨ok, hy, hx⟩ := ok_at hn htiny ha hm e he
  have hl : (matOf tiny t v g sym n m).lq[c.row]? = some (-lab g e.y) := by
    show ((lop (K := K) g n m).map (·.label))[c.row]? = _
    by_cases h0 : m = 0
    · rw [h1, hy h0, h0, lop_first]
      rfl
    · rw [lop_labels g n m h0, h1, List.getElem?_map, get_pos ok.y]
      rfl
  have hr : (matOf tiny t v g sym n m).rq[c.col]? = some (lab g e.x) := by
    show ((rop (K := K) g n m).map (·.label))[c.col]? = _
    by_cases h0 : m + 1 = n
    · rw [h2, hx h0, rop_last g n h0]
      rfl
    · rw [rop_labels g n m h0, h2, List.getElem?_map, get_pos ok.x]
      rfl
  refine ⟨_, _, hl, hr, ?_⟩
  rw [show -lab g e.y + lab g e.x - (matOf tiny t v g sym n m).dq = lab g e.x - lab g e.y by
    show -lab g e.y + lab g e.x - 0 = _
    rw [sub_zero, neg_add_eq_sub]]
  exact h3

theorem onsite_at {m : Nat} (hm : m < n) : (matOf tiny t v g sym n m).OnSite (g.getD m 0) := by
  intro c hc
  obtain ⟨l, r, h1, h2, h3⟩ := neutral_at hn htiny ha hm c hc
  exact ⟨l, r, _, h1, h2, h3⟩

/-- The symbolic tensors from a site on. -/
theorem linked_from (k m : Nat) (hk : m + k ≤ n) : Linked ((List.range' m k).map (matOf tiny t v g sym n)) := by
  induction k generalizing m with
  | zero => trivial
  | succ k ih =>
    cases k with
    | zero => trivial
    | succ k =>
      refine ⟨?_, ih (m + 1) (by omega)⟩
      show (rop (K := K) g n m).map (·.label) = ((lop (K := K) g n (m + 1)).map (·.label)).map fun q => 0 - q
      rw [rop_labels g n m (by omega), lop_labels g n (m + 1) (by omega), List.map_map]
      refine List.map_congr_left fun y _ => ?_
      simp

end

/-- A sum over the operators of a bond of the sums over their rows. -/
theorem row_sum {m : Nat} (l : List (Ent K)) (hl : ∀ e ∈ l, e.y ∈ syms n m) (w : S → FockRing n K) (f : Ent K → FockRing n K) :
    ((syms n m).map fun y => w y * ((l.filter fun e => pos n m e.y = pos n m y).map f).sum).sum = (l.map fun e => w e.y * f e).sum := by
  rw [sum_map_congr' _ _ (fun y => (l.map fun e => if y = e.y then w y * f e else 0).sum)]
  · rw [sum_comm']
    refine sum_map_congr' _ _ _ fun e he => ?_
    rw [sum_map_ite_eq' _ (nodup_syms n m), if_pos (hl e he)]
  · intro y hy
    rw [← sum_map_mul_left', sum_filter' l (fun e => decide (pos n m e.y = pos n m y))]
    refine sum_map_congr' _ _ _ fun e he => ?_
    have : pos n m e.y = pos n m y ↔ y = e.y := ⟨fun h => (pos_inj (hl e he) hy h).symm, fun h => by rw [h]⟩
    simp only [this, decide_eq_true_eq]

section
variable {tiny : K → Bool} {t : Bool → Nat → Nat → K} {v : Bool → Bool → Nat → Nat → Nat → Nat → K} {g : List Nat} {sym : Bool} [CharZero K]
variable (hn : 2 ≤ n) (htiny : ∀ x, tiny x = true ↔ x = 0) (ha : SpinAllowed g t v) (hv : Sym2 v)
include hn htiny ha hv

theorem chain_from (k m : Nat) (h0 : m ≠ 0) (hk : m + k + 1 = n) :
    ((syms n m).map fun y => opVal t v n m y * chainVal n g ((List.range' m (k + 1)).map (matOf tiny t v g sym n)) m (pos n m y)).sum =
      hSum t v (cr K n) (an K n) n := by
  have hm : m < n := by omega
  have hc := (cells_at (sym := sym) hn htiny ha hm).2
  have hy : ∀ e ∈ entsAt v g sym n m, e.y ∈ syms n m := fun e he => (ok_at hn htiny ha hm e he).1.y
  induction k generalizing m with
  | zero =>
    have hm1 : m + 1 = n := by omega
    simp only [zero_add, List.range'_one, List.map_cons, List.map_nil, chainVal]
    have h1 := fun j => hc.sum j fun _ => 1
    simp only [mul_one] at h1
    simp only [h1]
    rw [row_sum _ hy, entsAt, if_neg h0, if_pos hm1, h_sum g m hv, hm1]
  | succ k ih =>
    have hm1 : ¬m + 1 = n := by omega
    have i1 := ih (m + 1) (by omega) (by omega) (by omega) (cells_at (sym := sym) hn htiny ha (by omega)).2 fun e he => (ok_at hn htiny ha (by omega) e he).1.y
    rw [← i1, List.range'_succ, List.range'_succ]
    simp only [List.map_cons, chainVal, hc.sum]
    rw [row_sum _ hy, entsAt, if_neg h0, if_neg hm1]
    simp only [← mul_assoc]
    exact mid_sum g m hv sym fun x => chainVal n g (matOf tiny t v g sym n (m + 1) :: List.map (matOf tiny t v g sym n) (List.range' (m + 1 + 1) k)) (m + 1) (pos n (m + 1) x)

theorem chain_all : chainVal n g ((List.range n).map (matOf tiny t v g sym n)) 0 0 = hSum t v (cr K n) (an K n) n := by
  obtain ⟨k, rfl⟩ : ∃ k, n = k + 2 := ⟨n - 2, by omega⟩
  have hc := (cells_at (sym := sym) (m := 0) hn htiny ha (by omega)).2
  rw [← chain_from (sym := sym) hn htiny ha hv k 1 (by omega) (by omega), List.range_eq_range', List.range'_succ, List.range'_succ]
  simp only [List.map_cons, chainVal, hc.sum]
  rw [List.filter_eq_self.2 fun e he => by simp [(ok_at hn htiny ha (by omega) e he).2.1 rfl, pos]]
  exact first_sum g hv fun x => chainVal (k + 2) g (matOf tiny t v g sym (k + 2) 1 :: List.map (matOf tiny t v g sym (k + 2)) (List.range' 2 k)) 1 (pos (k + 2) 1 x)

end

end ConvMpo
end Verif
