import Verif.Proof.HeisenbergMpoSite
import Verif.Proof.QcMpoChain

/-!
Lemmas for the tensors of the Heisenberg matrix product operator: the chain of tensors has the matrix elements of the product of the symbolic matrices.
-/

set_option linter.unusedSectionVars false

namespace Verif
namespace Heisenberg
open BuildMpo Symbolic
open Hamiltonian (sum_apply opAmpl_step parity_pair parity_single signed_pair isFermion_add isFermion_neg)
variable {K : Type} [Field K] {n t : Nat}

/-! ### One tensor -/

theorem isFermion_state (k : Nat) : SZ.isFermion (state t k) = false := rfl

theorem two_labels {T : SpT SZ K} (h : Conforms [basis t, basis t] T) {b : List SZ × Arr K} (hb : b ∈ T) :
    ∃ x y, b.1 = [x, y] ∧ SZ.isFermion x = false ∧ SZ.isFermion y = false := by
  have := h b hb
  generalize b.1 = q at this
  generalize b.2.shape = s at this
  cases this with
  | cons h1 h2 => cases h2 with
    | cons h2 h3 => cases h3 with
      | nil => exact ⟨_, _, rfl, isFermion_states (mem_states_of_get? h1), isFermion_states (mem_states_of_get? h2)⟩

theorem toSparse_site (lq rq : List SZ) (cells : List (Cell SZ K))
    (h : ∀ e ∈ cells, ∃ l r, lq[e.row]? = some l ∧ rq[e.col]? = some r ∧ SiteOp t (l + r) e.op) :
    ∃ W, toSparse 0 lq rq cells = some W ∧ OpSite SZ.isFermion (leftLeg 0 lq) [basis t] [basis t] (rightLeg rq) W ∧
      EvenBlocks SZ.isFermion W.both ∧
      ∀ (j k : Nat) (a b : SZ × Nat), Slot lq j a → Slot rq k b → ∀ (s : Bool) (x y : Fin (t + 1)),
        opEntry W s [(0 - a.1, a.2), (state t x, 0), (state t y, 0), b] =
          ((cells.filter fun e => e.row = j ∧ e.col = k).map fun e => e.factor * mat t e.op x y).sum := by
  have hcells : ∀ e ∈ cells, e.row < lq.length ∧ e.col < rq.length := by
    intro e he
    obtain ⟨l, r, h1, h2, _⟩ := h e he
    exact ⟨(List.getElem?_eq_some_iff.1 h1).1, (List.getElem?_eq_some_iff.1 h2).1⟩
  obtain ⟨W, h1, h2, h3, h4, h5, h6⟩ := C45_to_sparse (0 : SZ) lq rq [basis t, basis t] cells hcells (by
    intro e he
    obtain ⟨l, r, _, _, h⟩ := h e he
    exact ⟨by rw [h.odd]; intro b hb; simp at hb, h.even⟩)
  have hW := h1
  rw [toSparse, toSparse_eq 0 lq rq cells hcells ⟨[], []⟩] at hW
  injection hW with hW
  have blk : ∀ (part : OpT SZ K → SpT SZ K), ∀ b ∈ (cells.flatMap (cellBlocks 0 lq rq part)).foldl (fun m b => SpT.accumulate m b.1 b.2) [],
      ∃ e ∈ cells, ∃ l r, lq[e.row]? = some l ∧ rq[e.col]? = some r ∧ ∃ b' ∈ part e.op, b.1 = (0 - l) :: b'.1 ++ [r] := by
    intro part b hb
    rcases mem_accumulate_labels _ _ _ hb with hb | hb
    · simp at hb
    · obtain ⟨b', hb', e'⟩ := List.mem_map.1 hb
      obtain ⟨e, he, hb'⟩ := List.mem_flatMap.1 hb'
      obtain ⟨l, r, g1, g2, _⟩ := h e he
      refine ⟨e, he, l, r, g1, g2, ?_⟩
      rw [cellBlocks, g1, g2] at hb'
      obtain ⟨c, hc, rfl⟩ := List.mem_map.1 hb'
      exact ⟨c, hc, e'.symm⟩
  have odd' : ∀ b, b ∉ W.odd := by
    intro b hb
    rw [← hW] at hb
    obtain ⟨e, he, l, r, g1, g2, b', hb', e'⟩ := blk OpT.odd b hb
    obtain ⟨_, _, _, _, g3⟩ := h e he
    rw [g3.odd] at hb'
    simp at hb'
  have even' : ∀ b ∈ W.even, fermParity SZ.isFermion (physLabels b.1) = false ∧ fermParity SZ.isFermion b.1 = false := by
    intro b hb
    rw [← hW] at hb
    obtain ⟨e, he, l, r, g1, g2, b', hb', e'⟩ := blk OpT.even b hb
    obtain ⟨l', r', g1', g2', g3⟩ := h e he
    rw [g1] at g1'
    rw [g2] at g2'
    injection g1' with g1'
    injection g2' with g2'
    subst g1' g2'
    obtain ⟨x, y, hxy, hx, hy⟩ := two_labels g3.even hb'
    have c := g3.charge b' hb'
    rw [hxy, signed_pair] at c
    have f := congrArg SZ.isFermion c
    rw [isFermion_add, isFermion_neg, isFermion_add, hx, hy] at f
    rw [e', hxy]
    refine ⟨?_, ?_⟩
    · show fermParity SZ.isFermion [x, y] = false
      rw [parity_pair, hx, hy]
      rfl
    · show fermParity SZ.isFermion [0 - l, x, y, r] = false
      rw [fermParity_cons, fermParity_cons, parity_pair, zero_sub, isFermion_neg, hx, hy]
      revert f
      cases SZ.isFermion l <;> cases SZ.isFermion r <;> simp
  refine ⟨W, h1, ⟨h2, h3, h4, h5, fun b hb => absurd hb (odd' b), fun b hb => (even' b hb).1⟩, ?_, ?_⟩
  · intro b hb
    rcases List.mem_append.1 hb with hb | hb
    · exact absurd hb (odd' b)
    · exact (even' b hb).2
  · intro j k a b ha hb s x y
    obtain ⟨_, e2⟩ := h6 j k a b ha hb [(state t x, 0), (state t y, 0)]
    simp only [List.cons_append, List.nil_append] at e2
    have e1 : W.odd = [] := List.eq_nil_iff_forall_not_mem.2 odd'
    rw [opEntry, e1, e2, Hamiltonian.entry_nil, mul_zero, add_zero]
    refine sum_map_congr' _ _ _ fun e he => ?_
    obtain ⟨_, _, _, _, g3⟩ := h e (List.mem_filter.1 he).1
    rw [mat_apply g3]

/-- The tensor of a site, from the entries of its symbolic matrix. -/
theorem tens_ok (sqrt : Int → K) (i : Fin n) (entries : List ((Nat × Nat) × OpElement Name SZ K)) (ops : Dict (Key Name) (OpVal Name SZ K)) (lq rq : List SZ)
    (h : ∀ p ∈ entries, ∃ (l r : SZ) (w : OpVal Name SZ K), lq[p.1.1]? = some l ∧ rq[p.1.2]? = some r ∧ Dict.get? ops (key p.2) = some w ∧ Plain w ∧
      ∀ s ∈ strs w, s.ops ≠ [] ∧ (∀ e ∈ s.ops, SymbolOk labels iSymbol i e) ∧ charge s.ops = l + r) :
    ∃ W, ((entries.mapM fun p => (lookup sqrt t ops p.2).map fun T => (⟨p.1.1, p.1.2, p.2.factor, T⟩ : Cell SZ K)).bind (toSparse 0 lq rq)) = some W ∧
      OpSite SZ.isFermion (leftLeg 0 lq) [basis t] [basis t] (rightLeg rq) W ∧ EvenBlocks SZ.isFermion W.both ∧
      ∃ A : OpElement Name SZ K → OpT SZ K, (∀ p ∈ entries, entryValue (value sqrt n t) ops p.2 = p.2.factor • onSite i (mat t (A p.2))) ∧
        ∀ (j k : Nat) (a b : SZ × Nat), Slot lq j a → Slot rq k b → ∀ (s : Bool) (x y : Fin (t + 1)),
          opEntry W s [(0 - a.1, a.2), (state t x, 0), (state t y, 0), b] =
            ((entries.filter fun p => p.1.1 = j ∧ p.1.2 = k).map fun p => p.2.factor * mat t (A p.2) x y).sum := by
  let A : OpElement Name SZ K → OpT SZ K := fun e => (lookup sqrt t ops e).getD ⟨[], []⟩
  have hA : ∀ p ∈ entries, ∃ (l r : SZ), lq[p.1.1]? = some l ∧ rq[p.1.2]? = some r ∧ lookup sqrt t ops p.2 = some (A p.2) ∧
      SiteOp t (l + r) (A p.2) ∧ entryValue (value sqrt n t) ops p.2 = p.2.factor • onSite i (mat t (A p.2)) := by
    intro p hp
    obtain ⟨l, r, w, h1, h2, h3, h4, h5⟩ := h p hp
    obtain ⟨T, k1, k2, k3⟩ := value_site (t := t) sqrt i h4 h5
    have e : lookup sqrt t ops p.2 = some T := by rw [lookup, h3]; exact k1
    have eA : A p.2 = T := by
      show (lookup sqrt t ops p.2).getD ⟨[], []⟩ = T
      rw [e]; rfl
    refine ⟨l, r, h1, h2, by rw [eA]; exact e, by rw [eA]; exact k2, ?_⟩
    rw [eA, entryValue, h3, Option.getD_some, k3, Algebra.smul_def]
  have hm := mapM_some' (fun p : (Nat × Nat) × OpElement Name SZ K => (lookup sqrt t ops p.2).map fun T => (⟨p.1.1, p.1.2, p.2.factor, T⟩ : Cell SZ K))
    (fun p => ⟨p.1.1, p.1.2, p.2.factor, A p.2⟩) entries (by
      intro p hp
      obtain ⟨_, _, _, _, h, _⟩ := hA p hp
      simp only [h, Option.map_some])
  obtain ⟨W, w1, w2, w3, w4⟩ := toSparse_site (t := t) lq rq (entries.map fun p => (⟨p.1.1, p.1.2, p.2.factor, A p.2⟩ : Cell SZ K)) (by
    intro e he
    obtain ⟨p, hp, rfl⟩ := List.mem_map.1 he
    obtain ⟨l, r, h1, h2, _, h3, _⟩ := hA p hp
    exact ⟨l, r, h1, h2, h3⟩)
  refine ⟨W, by rw [hm]; exact w1, w2, w3, A, ?_, ?_⟩
  · intro p hp
    obtain ⟨_, _, _, _, _, _, h⟩ := hA p hp
    exact h
  · intro j k a b ha hb s x y
    rw [w4 j k a b ha hb s x y, List.filter_map, List.map_map]
    rfl

/-! ### The chain -/

theorem legsOf_drop (u : Spins n t) (i : Fin n) : (legsOf u).drop i.1 = [(state t (u i), 0)] :: (legsOf u).drop (i.1 + 1) := by
  rw [List.drop_eq_getElem_cons (by simp [legsOf])]
  congr 1
  simp [legsOf]

theorem legsOf_update (u : Spins n t) (i : Fin n) (x : Fin (t + 1)) : (legsOf (Function.update u i x)).drop (i.1 + 1) = (legsOf u).drop (i.1 + 1) := by
  apply List.ext_getElem (by simp [legsOf])
  intro k h1 h2
  simp only [List.getElem_drop, legsOf, List.getElem_ofFn]
  rw [Function.update_of_ne]
  intro e
  have := congrArg Fin.val e
  simp at this
  omega

/-- An operator of site `i` times an operator of the later sites. -/
theorem onSite_mul_apply (i : Fin n) (A : Matrix (Fin (t + 1)) (Fin (t + 1)) K) (N : Matrix (Spins n t) (Spins n t) K)
    (u d : Spins n t) (F : Spins n t → K) (hN : ∀ m, N m d = if (∀ l : Fin n, l.1 < i.1 + 1 → m l = d l) then F m else 0) :
    (onSite i A * N) u d = if (∀ l : Fin n, l.1 < i.1 → u l = d l) then A (u i) (d i) * F (Function.update u i (d i)) else 0 := by
  rw [onSite_mul_any, Finset.sum_eq_single (d i)]
  · have c2 : (∀ l : Fin n, l.1 < i.1 + 1 → Function.update u i (d i) l = d l) ↔ ∀ l : Fin n, l.1 < i.1 → u l = d l := by
      constructor
      · intro h l hl
        have := h l (by omega)
        rwa [Function.update_of_ne (fun e => by rw [e] at hl; omega)] at this
      · intro h l hl
        by_cases e : l = i
        · subst e; simp
        · rw [Function.update_of_ne e]
          have : l.1 ≠ i.1 := fun h => e (Fin.ext h)
          exact h l (by omega)
    rw [hN]
    by_cases h : ∀ l : Fin n, l.1 < i.1 → u l = d l
    · rw [if_pos (c2.2 h), if_pos h]
    · rw [if_neg fun e => h (c2.1 e), if_neg h, mul_zero]
  · intro z _ hz
    rw [hN, if_neg, mul_zero]
    intro h
    have := h i (by omega)
    rw [Function.update_self] at this
    exact hz this
  · simp

theorem onSite_last (i : Fin n) (hi : i.1 + 1 = n) (A : Matrix (Fin (t + 1)) (Fin (t + 1)) K) (u d : Spins n t) :
    onSite i A u d = if (∀ l : Fin n, l.1 < i.1 → u l = d l) then A (u i) (d i) else 0 := by
  have : (∀ j, j ≠ i → u j = d j) ↔ ∀ l : Fin n, l.1 < i.1 → u l = d l := by
    constructor
    · intro h l hl
      exact h l fun e => by rw [e] at hl; omega
    · intro h j hj
      have : j.1 ≠ i.1 := fun h => hj (Fin.ext h)
      have := j.2
      exact h j (by omega)
  rw [onSite]
  by_cases h : ∀ l : Fin n, l.1 < i.1 → u l = d l
  · rw [if_pos h, if_pos (this.2 h)]
  · rw [if_neg h, if_neg fun e => h (this.1 e)]

/-- The entries of a column, as those of a matrix. -/
def colEntries (col : Column Name SZ K) : List ((Nat × Nat) × OpElement Name SZ K) :=
  (col.mat.zipIdx.filterMap fun p => p.1.map fun e => (p.2, e)).map fun p => ((p.1, 0), p.2)

theorem lastTensor_eq (sqrt : Int → K) (col : Column Name SZ K) :
    lastTensor sqrt t col = (((colEntries col).mapM fun p => (lookup sqrt t col.ops p.2).map fun T => (⟨p.1.1, p.1.2, p.2.factor, T⟩ : Cell SZ K)).bind
      (toSparse 0 (col.lop.map (·.label)) [0])) := by
  rw [lastTensor, colEntries, List.mapM_map]
  rfl

theorem mem_colEntries {col : Column Name SZ K} {p : (Nat × Nat) × OpElement Name SZ K} (h : p ∈ colEntries col) : p.1.2 = 0 ∧ col.mat[p.1.1]? = some (some p.2) := by
  unfold colEntries at h
  obtain ⟨q, hq, rfl⟩ := List.mem_map.1 h
  obtain ⟨⟨o, k⟩, ho, e⟩ := List.mem_filterMap.1 hq
  cases o with
  | none => simp at e
  | some o =>
    simp only [Option.map_some, Option.some.injEq] at e
    subst e
    exact ⟨rfl, List.mk_mem_zipIdx_iff_getElem?.1 ho⟩

theorem sum_colEntries {R : Type} [AddCommMonoid R] (mat : List (Option (OpElement Name SZ K))) (o j : Nat) (f : OpElement Name SZ K → R) :
    (((((mat.zipIdx o).filterMap fun p => p.1.map fun e => (p.2, e)).map fun p => ((p.1, 0), p.2)).filter fun p : (Nat × Nat) × OpElement Name SZ K =>
        p.1.1 = j ∧ p.1.2 = 0).map fun p => f p.2).sum = if o ≤ j then ((mat[j - o]?.join).map f).getD 0 else 0 := by
  induction mat generalizing o with
  | nil => simp
  | cons a t ih =>
    have ih := ih (o + 1)
    rw [List.zipIdx_cons, List.filterMap_cons]
    rcases Nat.lt_trichotomy o j with h | h | h
    · obtain ⟨k, hk⟩ : ∃ k, j - o = k + 1 := ⟨j - o - 1, by omega⟩
      have hk' : j - (o + 1) = k := by omega
      rw [if_pos (by omega), hk'] at ih
      rw [if_pos (by omega), hk, List.getElem?_cons_succ, ← ih]
      cases a with
      | none => rfl
      | some e => simp [h.ne]
    · subst h
      rw [if_neg (by omega)] at ih
      rw [if_pos le_rfl, Nat.sub_self, List.getElem?_cons_zero]
      cases a with
      | none => simpa using ih
      | some e =>
        simp only [Option.map_some, List.map_cons]
        rw [List.filter_cons_of_pos (by simp), List.map_cons, List.sum_cons, ih, add_zero]
        rfl
    · rw [if_neg (by omega)] at ih ⊢
      cases a with
      | none => exact ih
      | some e =>
        simp only [Option.map_some, List.map_cons]
        rw [List.filter_cons_of_neg (by simp; omega)]
        exact ih

theorem columnValue_apply (v : Name → List Int → Matrix (Spins n t) (Spins n t) K) (col : Column Name SZ K) (j : Nat) :
    columnValue v col j = (((colEntries col).filter fun p => p.1.1 = j ∧ p.1.2 = 0).map fun p => entryValue v col.ops p.2).sum := by
  have := sum_colEntries col.mat 0 j (entryValue v col.ops)
  rw [if_pos (Nat.zero_le _), Nat.sub_zero] at this
  refine Eq.trans ?_ this.symm
  unfold columnValue
  cases h : col.mat[j]? with
  | none => rfl
  | some o => cases o <;> rfl

/-- The labels of the rows of the first tensor. -/
def headLabels (ms : List (SiteMatrix Name SZ K)) (col : Column Name SZ K) : List SZ := ((ms.head?.map (·.lop)).getD col.lop).map (·.label)

/-- The bonds between the tensors. -/
def bonds (ms : List (SiteMatrix Name SZ K)) : List (BondInfo SZ) := ms.map fun m => rightLeg (m.rop.map (·.label))

theorem bonded_head {m : SiteMatrix Name SZ K} {ms : List (SiteMatrix Name SZ K)} {col : Column Name SZ K} (h : Bonded (m :: ms) col) :
    m.rop.map (·.label) = (headLabels ms col).map (fun q => -q) ∧ Bonded ms col := by
  cases ms with
  | nil =>
    refine ⟨?_, trivial⟩
    rw [show m.rop.map (·.label) = col.lop.map fun e => -e.label from h]
    simp [headLabels, Function.comp_def]
  | cons m' ms =>
    obtain ⟨h1, h2⟩ := h
    refine ⟨?_, h2⟩
    rw [h1]
    simp [headLabels, Function.comp_def]

theorem chain_ok (sqrt : Int → K) {ne : Prop} (hne : ne) (col : Column Name SZ K)
    (hcol : LastOk (labels) iSymbol ((n : Int) - 1) ne col) (ms : List (SiteMatrix Name SZ K)) (i : Nat) (hi : i + ms.length + 1 = n)
    (hms : ∀ (k : Nat) (m : SiteMatrix Name SZ K), ms[k]? = some m → SiteOk (labels) iSymbol ((i + k : Nat) : Int) m) (hb : Bonded ms col) :
    ∃ ws, tensorsFrom sqrt t ms col = some ws ∧
      OpOnBonds SZ.isFermion (leftLeg 0 (headLabels ms col) :: bonds ms ++ [rightLeg [0]]) (List.replicate (n - i) ([basis t], [basis t])) ws ∧
      (∀ W ∈ ws, EvenBlocks SZ.isFermion W.both) ∧
      ∀ (j : Nat) (a : SZ × Nat), Slot (headLabels ms col) j a → ∀ u d : Spins n t,
        chainValue (value sqrt n t) ms col j u d = if (∀ l : Fin n, l.1 < i → u l = d l) then
          opAmpl SZ.isFermion ws (bonds ms) false (0 - a.1, a.2) ((legsOf u).drop i) ((legsOf d).drop i) (0, 0) else 0 := by
  induction ms generalizing i with
  | nil =>
    simp only [List.length_nil, add_zero] at hi
    have hin : i < n := by omega
    obtain ⟨W, w1, w2, w3, A, w4, w5⟩ := tens_ok (n := n) (t := t) sqrt ⟨i, hin⟩ (colEntries col) col.ops (col.lop.map (·.label)) [0] (by
      intro p hp
      obtain ⟨e1, e2⟩ := mem_colEntries hp
      obtain ⟨a, w, g1, g2, g3, g4⟩ := hcol.entries _ _ e2
      refine ⟨a.label, 0, w, by simp [g1], by simp [e1], g2, g3, fun s hs => ⟨hcol.nonempty hne _ _ _ e2 g2 s hs, ?_, by rw [(g4 s hs).2, add_zero]⟩⟩
      have : ((⟨i, hin⟩ : Fin n).1 : Int) = (n : Int) - 1 := by simp only; omega
      rw [this]
      exact (g4 s hs).1)
    have hdrop : n - i = 1 := by omega
    refine ⟨[W], ?_, ?_, ?_, ?_⟩
    · rw [tensorsFrom, lastTensor_eq, w1]
      rfl
    · rw [hdrop]
      exact ⟨w2, trivial⟩
    · simpa using w3
    · intro j a ha u d
      have hu := legsOf_drop u ⟨i, hin⟩
      have hd := legsOf_drop d ⟨i, hin⟩
      have hnil : ∀ u : Spins n t, (legsOf u).drop (i + 1) = [] := fun u => List.drop_eq_nil_of_le (by simp [legsOf]; omega)
      dsimp only at hu hd
      rw [hnil] at hu hd
      rw [hu, hd]
      show (columnValue (value sqrt n t) col j) u d = if _ then opEntry W _ _ else 0
      simp only [List.cons_append, List.nil_append]
      rw [w5 j 0 a (0, 0) ha ⟨rfl, rfl⟩, columnValue_apply, sum_apply]
      have : ∀ p ∈ (colEntries col).filter fun p => p.1.1 = j ∧ p.1.2 = 0, entryValue (value sqrt n t) col.ops p.2 u d =
          if (∀ l : Fin n, l.1 < i → u l = d l) then p.2.factor * mat t (A p.2) (u ⟨i, hin⟩) (d ⟨i, hin⟩) else 0 := by
        intro p hp
        rw [w4 p (List.mem_filter.1 hp).1, Matrix.smul_apply, onSite_last _ (by simpa using hi)]
        simp only [smul_eq_mul, mul_ite, mul_zero]
      rw [sum_map_congr' _ _ _ this]
      split_ifs
      · rfl
      · exact sum_map_zero' _ _ fun _ _ => rfl
  | cons m ms ih =>
    simp only [List.length_cons] at hi
    have hin : i < n := by omega
    obtain ⟨hb1, hb2⟩ := bonded_head hb
    obtain ⟨ws, i1, i2, i3, i4⟩ := ih (i + 1) (by omega) (fun k m' hk => by
      have := hms (k + 1) m' (by simpa using hk)
      rwa [show i + (k + 1) = i + 1 + k by omega] at this) hb2
    have hm := hms 0 m rfl
    obtain ⟨W, w1, w2, w3, A, w4, w5⟩ := tens_ok (n := n) (t := t) sqrt ⟨i, hin⟩ m.entries m.ops (m.lop.map (·.label)) (m.rop.map (·.label)) (by
      intro p hp
      obtain ⟨a, b, w, g1, g2, g3, g4, g5⟩ := hm.entries p hp
      exact ⟨a.label, b.label, w, by simp [g1], by simp [g2], g3, g4, g5⟩)
    have hdrop : n - i = n - (i + 1) + 1 := by omega
    have hleg : leftLeg 0 (headLabels ms col) = rightLeg (m.rop.map (·.label)) := by rw [leg_eq, hb1]
    refine ⟨W :: ws, ?_, ?_, ?_, ?_⟩
    · rw [tensorsFrom, siteTensor, w1, i1]
      rfl
    · rw [hdrop]
      rw [hleg] at i2
      rw [List.replicate_succ]
      exact ⟨w2, i2⟩
    · intro W' hW'
      rcases List.mem_cons.1 hW' with rfl | hW'
      · exact w3
      · exact i3 W' hW'
    · intro j a ha u d
      rw [legsOf_drop u ⟨i, hin⟩, legsOf_drop d ⟨i, hin⟩]
      dsimp only
      have hlen : (m.rop.map (·.label)).length = (headLabels ms col).length := by rw [hb1, List.length_map]
      -- the value of a slot of the bond
      have hk : ∀ k, k < (m.rop.map (·.label)).length → ∀ m' : Spins n t, chainValue (value sqrt n t) ms col k m' d =
          if (∀ l : Fin n, l.1 < i + 1 → m' l = d l) then
            opAmpl SZ.isFermion ws (bonds ms) false (slotAt (m.rop.map (·.label)) k) ((legsOf m').drop (i + 1)) ((legsOf d).drop (i + 1)) (0, 0) else 0 := by
        intro k hk m'
        have h1 := slotAt_slot (headLabels ms col) k (by omega)
        have h2 := slot_neg h1
        rw [← hb1] at h2
        rw [slot_unique (slotAt_slot (m.rop.map (·.label)) k hk) h2]
        exact i4 k _ h1 m' d
      have hcols : ∀ p ∈ m.entries, p.1.2 < (m.rop.map (·.label)).length := by
        intro p hp
        obtain ⟨a, b, w, g1, g2, _⟩ := hm.entries p hp
        rw [List.length_map]
        exact (List.getElem?_eq_some_iff.1 g2).1
      let E : (Nat × Nat) × OpElement Name SZ K → K := fun p => p.2.factor * mat t (A p.2) (u ⟨i, hin⟩) (d ⟨i, hin⟩)
      let F : Nat → K := fun k => opAmpl SZ.isFermion ws (bonds ms) false (slotAt (m.rop.map (·.label)) k) ((legsOf u).drop (i + 1)) ((legsOf d).drop (i + 1)) (0, 0)
      have hp : ∀ p ∈ m.entries, (entryValue (value sqrt n t) m.ops p.2 * chainValue (value sqrt n t) ms col p.1.2) u d =
          if (∀ l : Fin n, l.1 < i → u l = d l) then E p * F p.1.2 else 0 := by
        intro p hp
        rw [w4 p hp, Matrix.smul_mul, Matrix.smul_apply, onSite_mul_apply ⟨i, hin⟩ _ _ u d _ (hk p.1.2 (hcols p hp))]
        have hup := legsOf_update u ⟨i, hin⟩ (d ⟨i, hin⟩)
        dsimp only at hup ⊢
        rw [hup]
        simp only [smul_eq_mul, mul_ite, mul_zero]
        split_ifs
        · simp only [E, F]
          ring
        · rfl
      rw [chainValue, sum_apply, sum_map_congr' _ _ _ fun p h => hp p (List.mem_filter.1 h).1]
      split_ifs with hg
      · rw [show bonds (m :: ms) = rightLeg (m.rop.map (·.label)) :: bonds ms from rfl, opAmpl_step, rightLeg]
        rw [((legBasis_perm (m.rop.map (·.label))).map _).sum_eq, List.map_map]
        rw [sum_map_congr' _ (g := fun k => ((m.entries.filter fun p => p.1.1 = j).map fun p => if p.1.2 = k then E p * F k else 0).sum)]
        · rw [sum_comm']
          refine sum_map_congr' _ _ _ fun p hp => ?_
          have hc := hcols p (List.mem_filter.1 hp).1
          have := sum_map_ite_eq' (List.range (m.rop.map (·.label)).length) List.nodup_range p.1.2 fun k => E p * F k
          rw [if_pos (List.mem_range.2 hc)] at this
          rw [← this]
          refine sum_map_congr' _ _ _ fun k _ => ?_
          simp only [eq_comm]
        · intro k hk
          have hk := List.mem_range.1 hk
          simp only [Function.comp_def, List.cons_append, List.nil_append]
          rw [w5 j k a _ ha (slotAt_slot _ k hk), List.map_singleton, parity_single, isFermion_state]
          show (((m.entries.filter fun p => p.1.1 = j ∧ p.1.2 = k).map E).sum) * F k = _
          rw [← sum_map_mul_right', sum_filter', sum_filter']
          refine sum_map_congr' _ _ _ fun p _ => ?_
          by_cases h1 : p.1.1 = j <;> by_cases h2 : p.1.2 = k <;> simp [h1, h2]
      · exact sum_map_zero' _ _ fun _ _ => rfl

end Heisenberg
end Verif
