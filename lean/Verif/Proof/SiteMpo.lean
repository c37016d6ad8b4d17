import Verif.Spec.SiteMpo
import Verif.Proof.ConvCells

/-!
Lemmas for the matrix product operators of single site operators.
-/

set_option linter.unusedSectionVars false

namespace Verif
namespace SiteMpo
open Hamiltonian Fock ConvMpo Symbolic
variable {K : Type} [Field K] {n : Nat}

theorem spin_cases {s : Int} (h : s = 0 ∨ s = 1) : ∃ b : Bool, spinOf s = some b ∧ s.toNat = b.toNat ∧ s = idx b := by
  rcases h with rfl | rfl
  · exact ⟨false, rfl, rfl, rfl⟩
  · exact ⟨true, rfl, rfl, rfl⟩

theorem charge_cr (g : List Nat) (i : Nat) (s : Bool) : chargeOf g (true, 2 * i + s.toNat) = qa g i s := by
  have : (2 * i + s.toNat) / 2 = i := by cases s <;> simp <;> omega
  simp only [chargeOf, qa, this]
  cases s <;> simp [sz] <;> omega

theorem charge_an (g : List Nat) (i : Nat) (s : Bool) : chargeOf g (false, 2 * i + s.toNat) = qb g i s := by
  have : (2 * i + s.toNat) / 2 = i := by cases s <;> simp <;> omega
  simp only [chargeOf, qb, this]
  cases s <;> simp [sz] <;> omega

theorem fockMat_two (a b : Op) : fockMat (K := K) n [a, b] = fockMat n [a] * fockMat n [b] := fockMat_cons a [b]

section
variable (tiny : K → Bool) (t : Bool → Nat → Nat → K) (v : Bool → Bool → Nat → Nat → Nat → Nat → K) (g : List Nat)

theorem loc_sym {i : Nat} (hi : i < n) {e : Sym K} {ops : List Op} (h : StandsFor g i e ops) : Loc n g i e.label (fockMat n ops) (getOp tiny t v g i e.abs) := by
  obtain ⟨h, hl⟩ := h
  obtain ⟨name, site, factor, label⟩ := e
  simp only [symbolOps] at h
  dsimp only at hl
  unfold ConvMpo.getOp OpElement.abs
  dsimp only
  by_cases h0 : name = nameI
  · rw [if_pos h0] at h ⊢
    injection h with h
    subst h
    rw [hl, fockMat_nil]
    exact (good_i g i hi).loc
  · rw [if_neg h0] at h ⊢
    rcases site with _ | ⟨a, _ | ⟨s, _ | ⟨s1, _ | ⟨s2, _ | ⟨_, _⟩⟩⟩⟩⟩
    · simp at h
    · simp at h
    · dsimp only at h ⊢
      by_cases hs : s = 0 ∨ s = 1
      · rw [if_pos hs] at h
        obtain ⟨b, b1, b2, _⟩ := spin_cases hs
        rw [b2] at h
        by_cases hC : name = 0
        · subst hC
          rw [if_pos rfl] at h
          injection h with h
          subst h
          rw [if_neg (by decide), b1, Option.bind_some, if_pos rfl, hl]
          simp only [List.map_cons, List.map_nil, List.sum_cons, List.sum_nil, add_zero, charge_cr]
          exact (good_c g i hi b).loc
        · rw [if_neg hC] at h
          by_cases hD : name = 1
          · subst hD
            rw [if_pos rfl] at h
            injection h with h
            subst h
            rw [if_neg (by decide), b1, Option.bind_some, if_neg (by decide), if_pos rfl, hl]
            simp only [List.map_cons, List.map_nil, List.sum_cons, List.sum_nil, add_zero, charge_an]
            exact (good_d g i hi b).loc
          · rw [if_neg hD] at h
            simp at h
      · rw [if_neg hs] at h
        simp at h
    · simp at h
    · dsimp only at h ⊢
      by_cases hs : (s1 = 0 ∨ s1 = 1) ∧ (s2 = 0 ∨ s2 = 1)
      · rw [if_pos hs] at h
        obtain ⟨b, b1, b2, _⟩ := spin_cases hs.1
        obtain ⟨c, c1, c2, _⟩ := spin_cases hs.2
        rw [b2, c2] at h
        by_cases hA : name = nameA
        · subst hA
          rw [if_pos rfl] at h
          injection h with h
          subst h
          rw [if_neg (by decide), b1, c1, Option.bind_some, Option.bind_some, if_pos rfl, hl, fockMat_two]
          simp only [List.map_cons, List.map_nil, List.sum_cons, List.sum_nil, add_zero, charge_cr]
          exact (good_congr (good_a g i hi b c) (by simp [qa, qp, SZ_add]) rfl).loc
        · rw [if_neg hA] at h
          by_cases hAD : name = nameAD
          · subst hAD
            rw [if_pos rfl] at h
            injection h with h
            subst h
            rw [if_neg (by decide), b1, c1, Option.bind_some, Option.bind_some, if_neg (by decide), if_pos rfl, hl, fockMat_two]
            simp only [List.map_cons, List.map_nil, List.sum_cons, List.sum_nil, add_zero, charge_an]
            exact (good_congr (good_ad g i hi b c) (by simp [qb, qp, SZ_add, SZ_neg]) rfl).loc
          · rw [if_neg hAD] at h
            by_cases hB : name = nameB
            · subst hB
              rw [if_pos rfl] at h
              injection h with h
              subst h
              rw [if_neg (by decide), b1, c1, Option.bind_some, Option.bind_some, if_neg (by decide), if_neg (by decide), if_pos rfl, hl, fockMat_two]
              simp only [List.map_cons, List.map_nil, List.sum_cons, List.sum_nil, add_zero, charge_cr, charge_an]
              exact (good_congr (good_b g i hi b c) (by simp [qa, qb, qm, SZ_add, sub_eq_add_neg]) rfl).loc
            · rw [if_neg hB] at h
              simp at h
      · rw [if_neg hs] at h
        simp at h
    · simp at h

/-- One assignment. -/
theorem cell_spec {m : Nat} {q : SZ} {X : FockRing n K} {e : Sym K} (h : Loc n g m q X (getOp tiny t v g m e.abs)) :
    ∃ c, cell tiny t v g m ⟨0, 0, some e⟩ = some c ∧ (∀ x ∈ c.toList, x.row = 0 ∧ x.col = 0 ∧ SiteOp (g.getD m 0) q x.op) ∧
      (c.toList.map fun x => x.factor • siteVal n g m x.op).sum = e.factor • X := by
  unfold cell
  dsimp only
  rcases h with ⟨h, rfl⟩ | ⟨T, h, h1, rfl⟩
  · exact ⟨none, by rw [h]; rfl, by simp, by simp⟩
  · rw [h]
    by_cases hT : (T.odd.isEmpty && T.even.isEmpty) = true
    · refine ⟨none, by simp only [Option.map_some, Option.bind_some]; rw [if_pos hT], by simp, ?_⟩
      simp only [Bool.and_eq_true, List.isEmpty_iff] at hT
      classical rw [siteVal_nil _ hT.1 hT.2]
      simp
    · refine ⟨some ⟨0, 0, e.factor, T⟩, by simp only [Option.map_some, Option.bind_some]; rw [if_neg hT], ?_, by simp⟩
      intro x hx
      simp at hx
      subst hx
      exact ⟨rfl, rfl, h1⟩

end

/-! ### Chains of matrices with one row and one column -/

theorem single_chain (g : List Nat) (f : Nat → CellMat K) (val : Nat → FockRing n K) (len i : Nat)
    (h : ∀ m ∈ List.range' i (len + 1), (∀ x ∈ (f m).cells, x.row = 0 ∧ x.col = 0) ∧ ((f m).cells.map fun x => x.factor • siteVal n g m x.op).sum = val m) :
    chainVal n g ((List.range' i (len + 1)).map f) i 0 = ((List.range' i (len + 1)).map val).prod := by
  induction len generalizing i with
  | zero =>
    obtain ⟨h1, h2⟩ := h i (by simp)
    simp only [List.range'_succ, List.range'_zero, List.map_cons, List.map_nil, chainVal, List.prod_cons, List.prod_nil, mul_one]
    rw [List.filter_eq_self.2 fun x hx => by simp [(h1 x hx).1], h2]
  | succ len ih =>
    obtain ⟨h1, h2⟩ := h i (by simp)
    have hr := ih (i + 1) fun m hm => h m (by simp at hm ⊢; omega)
    rw [List.range'_succ, List.map_cons, List.map_cons, List.prod_cons, ← hr]
    rw [List.range'_succ, List.map_cons] at hr ⊢
    rw [chainVal, List.filter_eq_self.2 fun x hx => by simp [(h1 x hx).1], ← h2, ← sum_map_mul_right']
    refine sum_map_congr' _ _ _ fun x hx => ?_
    rw [(h1 x hx).2]

theorem prod_one_at (X : FockRing n K) (k : Int) (len i : Nat) :
    ((List.range' i len).map fun m : Nat => if (m : Int) = k then X else 1).prod = if (i : Int) ≤ k ∧ k < i + len then X else 1 := by
  induction len generalizing i with
  | zero =>
    rw [if_neg (by rintro ⟨h1, h2⟩; simp at h2; omega)]
    simp
  | succ len ih =>
    rw [List.range'_succ, List.map_cons, List.prod_cons, ih]
    by_cases h : (i : Int) = k
    · rw [if_pos h, if_neg (by push_cast; omega), if_pos (by push_cast; omega), mul_one]
    · rw [if_neg h, one_mul]
      congr 1
      simp only [eq_iff_iff]
      push_cast
      omega

theorem one_leg (r : SZ) : rightLeg [r] = [(r, 1)] := by
  rfl

/-- A tensor with one row and one column. -/
structure Single (n : Nat) (g : List Nat) (m : Nat) (M : CellMat K) (d l r q : SZ) (X : FockRing n K) : Prop where
  dq : M.dq = d
  lq : M.lq = [l]
  rq : M.rq = [r]
  cells : ∀ x ∈ M.cells, x.row = 0 ∧ x.col = 0 ∧ SiteOp (g.getD m 0) q x.op
  val : (M.cells.map fun x => x.factor • siteVal n g m x.op).sum = X

theorem Single.onSite {g : List Nat} {m : Nat} {M : CellMat K} {d l r q : SZ} {X : FockRing n K} (h : Single n g m M d l r q X) : M.OnSite (g.getD m 0) := by
  intro x hx
  obtain ⟨h1, h2, h3⟩ := h.cells x hx
  exact ⟨l, r, q, by rw [h1, h.lq]; rfl, by rw [h2, h.rq]; rfl, h3⟩

theorem Single.par {g : List Nat} {m : Nat} {M : CellMat K} {d l r q : SZ} {X : FockRing n K} (h : Single n g m M d l r q X) :
    M.Par (g.getD m 0) (xor (SZ.isFermion q) (SZ.isFermion (l + r - d))) := by
  intro x hx
  obtain ⟨h1, h2, h3⟩ := h.cells x hx
  exact ⟨l, r, q, by rw [h1, h.lq]; rfl, by rw [h2, h.rq]; rfl, h3, by rw [h.dq]⟩

theorem linked_range (g : List Nat) (f : Nat → CellMat K) (d l r q : Nat → SZ) (val : Nat → FockRing n K) (len i : Nat)
    (h : ∀ m ∈ List.range' i len, Single n g m (f m) (d m) (l m) (r m) (q m) (val m)) (hl : ∀ m, m + 1 < i + len → r m = d (m + 1) - l (m + 1)) :
    Linked ((List.range' i len).map f) := by
  induction len generalizing i with
  | zero => simp [Linked]
  | succ len ih =>
    rcases len with _ | len
    · simp [Linked]
    · have := ih (i + 1) (fun m hm => h m (by simp at hm ⊢; omega)) (fun m hm => hl m (by omega))
      simp only [List.range'_succ, List.map_cons] at this ⊢
      refine ⟨?_, this⟩
      have h0 := h i (by simp)
      have h1 := h (i + 1) (by simp)
      rw [h0.rq, h1.lq, h1.dq, hl i (by omega)]
      rfl

theorem mem_of_get {α : Type} {f : Nat → α} {n i : Nat} {a : α} (h : ((List.range n).map f)[i]? = some a) : i < n ∧ a = f i := by
  rw [List.getElem?_map] at h
  obtain ⟨j, h1, h2⟩ := Option.map_eq_some_iff.1 h
  obtain ⟨h3, h4⟩ := List.getElem?_eq_some_iff.1 h1
  rw [List.getElem_range] at h4
  subst h4
  exact ⟨by simpa using h3, h2.symm⟩

theorem mapM_get {α β : Type} {f : α → Option β} {l : List α} {r : List β} (h : l.mapM f = some r) (i : Nat) (b : β) (hb : r[i]? = some b) :
    ∃ a, l[i]? = some a ∧ f a = some b := by
  induction l generalizing r i with
  | nil =>
    simp at h
    subst h
    simp at hb
  | cons a l ih =>
    rw [List.mapM_cons] at h
    cases hf : f a with
    | none => rw [hf] at h; simp at h
    | some y =>
      rw [hf] at h
      cases hr : l.mapM f with
      | none => rw [hr] at h; simp at h
      | some ys =>
        rw [hr] at h
        simp at h
        subst h
        rcases i with _ | i
        · simp at hb
          exact ⟨a, rfl, by rw [hf, hb]⟩
        · simpa using ih hr i (by simpa using hb)

theorem mapM_len {α β : Type} {f : α → Option β} {l : List α} {r : List β} (h : l.mapM f = some r) : r.length = l.length := by
  refine le_antisymm ?_ ?_
  · by_contra hlt
    push_neg at hlt
    obtain ⟨a, ha, -⟩ := mapM_get h l.length _ (List.getElem?_eq_getElem hlt)
    simp at ha
  · induction l generalizing r with
    | nil => simp
    | cons a l ih =>
      rw [List.mapM_cons] at h
      cases hf : f a with
      | none => rw [hf] at h; simp at h
      | some y =>
        rw [hf] at h
        cases hr : l.mapM f with
        | none => rw [hr] at h; simp at h
        | some ys =>
          rw [hr] at h
          simp at h
          subst h
          simpa using ih hr

theorem single_mpo (g : List Nat) (hn : g.length = n) (h0 : n ≠ 0) (f : Nat → CellMat K) (d l r q : Nat → SZ) (val : Nat → FockRing n K)
    (h : ∀ m < n, Single n g m (f m) (d m) (l m) (r m) (q m) (val m)) (hd : d 0 = 0) (hl0 : l 0 = 0) (hl : ∀ m, m + 1 < n → r m = d (m + 1) - l (m + 1)) :
    ∃ ws X, ((List.range n).map f).mapM CellMat.sparse = some ws ∧
      OpOnBonds SZ.isFermion ([(0, 1)] :: X ++ [[(r (n - 1), 1)]]) (g.map fun g => ([siteBasis g], [siteBasis g])) ws ∧
      (∀ b ∈ X, GoodBond b) ∧
      (∀ m W, ws[m]? = some W → m < n ∧ ∀ b ∈ W.both, fermParity SZ.isFermion b.1 = xor (SZ.isFermion (q m)) (SZ.isFermion (l m + r m - d m))) ∧
      ∀ u d' : Fin n → Bool × Bool, opAmpl SZ.isFermion ws X false (0, 0) (legsOf g u) (legsOf g d') (r (n - 1), 0) = ((List.range n).map val).prod u d' := by
  obtain ⟨k, rfl⟩ : ∃ k, n = k + 1 := ⟨n - 1, by omega⟩
  have hmats : (List.range (k + 1)).map f = f 0 :: (List.range' 1 k).map f := by rw [List.range_eq_range', List.range'_succ, List.map_cons]
  have hlast : ∀ hh, (((List.range (k + 1)).map f).getLast hh).rq = [r (k + 1 - 1)] := by
    intro hh
    rw [List.getLast_map, List.getLast_range]
    exact (h _ (by omega)).rq
  have hlink : Linked ((List.range (k + 1)).map f) := by
    rw [List.range_eq_range']
    exact linked_range g f d l r q val (k + 1) 0 (fun m hm => h m (by simpa using hm)) (by simpa using hl)
  obtain ⟨ws, h1, h2, -, h4⟩ := cell_chain g hn (r (k + 1 - 1)) (f 0) ((List.range' 1 k).map f) 0 (by simp)
    (fun i m' hi => by
      rw [← hmats] at hi
      obtain ⟨hi', rfl⟩ := mem_of_get hi
      rw [zero_add]
      exact (h i hi').onSite)
    (by rw [← hmats]; exact hlink) (by
      simp only [← hmats]
      exact hlast _)
  rw [← hmats] at h1 h2 h4
  have s0 := h 0 (by omega)
  have hleft : leftLeg (f 0).dq (f 0).lq = [(0, 1)] := by
    rw [s0.dq, s0.lq, hd, hl0]
    decide
  rw [hleft, one_leg, List.drop_zero] at h2
  refine ⟨ws, innerBonds ((List.range (k + 1)).map f), h1, h2, ?_, ?_, ?_⟩
  · intro b hb
    obtain ⟨m, _, rfl⟩ := List.mem_map.1 hb
    exact leg_good _
  · intro m W hW
    obtain ⟨M, hM, hs⟩ := mapM_get h1 m W hW
    obtain ⟨hm, rfl⟩ := mem_of_get hM
    have hs' := h m hm
    obtain ⟨W', w1, _, w3, _⟩ := sparse_site _ (f m) hs'.onSite
    rw [hs] at w1
    injection w1 with w1
    subst w1
    exact ⟨hm, w3 _ hs'.par⟩
  · intro u d'
    have e := h4 0 (0, 0) ⟨by rw [s0.lq, hl0]; rfl, by simp⟩ u d'
    rw [if_pos (fun l hl => absurd hl (by omega)), List.drop_zero, List.drop_zero] at e
    have hc := single_chain g f val k 0 fun m hm => ⟨fun x hx => ⟨((h m (by simpa using hm)).cells x hx).1, ((h m (by simpa using hm)).cells x hx).2.1⟩, (h m (by simpa using hm)).val⟩
    rw [← List.range_eq_range'] at hc
    rw [hc] at e
    rw [e]
    simp [parBelow, s0.dq, hd]

end SiteMpo
end Verif
