import Verif.Proof.QcMpoSite
import Verif.Proof.MpsInfos
import Verif.Proof.Pdot
import Verif.Spec.QcMpo
import Mathlib.Data.List.GetD

/-!
Lemmas for the tensors of a built matrix product operator: the chain of tensors has the matrix elements of the product of the symbolic matrices.
-/

set_option linter.unusedSectionVars false

namespace Verif

namespace Symbolic
section
variable {L : Type} [DecidableEq L]

/-! ### The two sides of a bond -/

theorem set_map_inj {α β : Type} [DecidableEq α] (f : α → α) (hf : Function.Injective f) (d : Dict α β) (k : α) (v : β) :
    (Dict.set d k v).map (fun p => (f p.1, p.2)) = Dict.set (d.map fun p => (f p.1, p.2)) (f k) v := by
  induction d with
  | nil => rfl
  | cons p t ih =>
    obtain ⟨a, b⟩ := p
    simp only [Dict.set, List.map_cons]
    by_cases h : a = k
    · rw [if_pos h, if_pos (by rw [h])]
      rfl
    · rw [if_neg h, if_neg (fun e => h (hf e)), List.map_cons, ih]

theorem sectors_map (f : L → L) (hf : Function.Injective f) (qs : List L) :
    (fromOpNames (qs.map f)).2 = (fromOpNames qs).2.map fun p => (f p.1, p.2) := by
  show (collect (qs.map f)).2 = (collect qs).2.map fun p => (f p.1, p.2)
  induction qs using List.reverseRecOn with
  | nil => rfl
  | append_singleton t a ih =>
    rw [List.map_append, List.map_singleton, collect_append, collect_append]
    simp only [Counter.incr, Counter.count] at *
    rw [ih, get?_map_inj f hf, set_map_inj f hf]

/-- The slot of operator `k`. -/
def slotAt [Inhabited L] (qs : List L) (k : Nat) : L × Nat := (qs.getD k default, (qs.take k).count (qs.getD k default))

theorem slotAt_slot [Inhabited L] (qs : List L) (k : Nat) (h : k < qs.length) : Slot qs k (slotAt qs k) := by
  refine ⟨?_, rfl⟩
  simp [slotAt, h]

theorem legBasis_perm [Inhabited L] (qs : List L) : (legBasis (fromOpNames qs).2).Perm ((List.range qs.length).map (slotAt qs)) := by
  have inj : ∀ i j, i < qs.length → j < qs.length → slotAt qs i = slotAt qs j → i = j := by
    intro i j hi hj h
    have h1 := table qs i _ (slotAt_slot qs i hi).1
    have h2 := table qs j _ (slotAt_slot qs j hj).1
    have e1 : ((slotAt qs i).1, (qs.take i).count (slotAt qs i).1) = slotAt qs i := rfl
    have e2 : ((slotAt qs j).1, (qs.take j).count (slotAt qs j).1) = slotAt qs j := rfl
    rw [e1] at h1
    rw [e2, ← h] at h2
    exact C45_injective qs i j _ h1 h2
  refine (List.perm_ext_iff_of_nodup (legBasis_nodup (C45_sectors qs).1) ?_).2 ?_
  · refine List.Nodup.map_on ?_ List.nodup_range
    intro i hi j hj h
    exact inj i j (List.mem_range.1 hi) (List.mem_range.1 hj) h
  · intro s
    rw [C45_surjective]
    constructor
    · rintro ⟨i, hi⟩
      have hil : i < qs.length := by
        rw [← table_length qs]; exact (List.getElem?_eq_some_iff.1 hi).1
      have h1 := table qs i _ (slotAt_slot qs i hil).1
      rw [hi] at h1
      refine List.mem_map.2 ⟨i, List.mem_range.2 hil, ?_⟩
      exact (Option.some.inj (Option.some.inj h1)).symm
    · intro hs
      obtain ⟨i, hi, rfl⟩ := List.mem_map.1 hs
      exact ⟨i, table qs i _ (slotAt_slot qs i (List.mem_range.1 hi)).1⟩

theorem slot_unique {qs : List L} {i : Nat} {s t : L × Nat} (h : Slot qs i s) (h' : Slot qs i t) : s = t := by
  obtain ⟨a, b⟩ := s
  obtain ⟨c, d⟩ := t
  obtain ⟨h1, h2⟩ := h
  obtain ⟨h3, h4⟩ := h'
  rw [h1] at h3
  injection h3 with h3
  dsimp only at h2 h3 h4
  subst h3
  rw [h2, h4]

end

section
variable {Q : Type} [DecidableEq Q] [AddCommGroup Q]

theorem leg_eq (lq : List Q) : leftLeg 0 lq = rightLeg (lq.map fun q => -q) := by
  unfold leftLeg rightLeg
  rw [sectors_map (fun q => -q) neg_injective]
  simp

theorem slot_neg {lq : List Q} {k : Nat} {a : Q × Nat} (h : Slot lq k a) : Slot (lq.map fun q => -q) k (0 - a.1, a.2) := by
  obtain ⟨h1, h2⟩ := h
  refine ⟨by simp [h1], ?_⟩
  rw [← List.map_take, zero_sub, List.count_map_of_injective _ _ neg_injective]
  exact h2

theorem leg_good (lq : List Q) : GoodBond (rightLeg lq) := by
  obtain ⟨h1, h2, h3⟩ := C45_sectors lq
  refine ⟨h1, ?_⟩
  intro x hx
  have e : Counter.count (fromOpNames lq).2 x.1 = x.2 := Counter.count_of_mem h1 hx
  rw [← e, h3]
  exact List.count_pos_iff.2 ((h2 _).1 (List.mem_map.2 ⟨x, hx, rfl⟩))

end
end Symbolic

namespace Hamiltonian
open Fock BuildMpo Symbolic
variable {K : Type} [Field K] {n : Nat}

/-! ### One tensor -/

instance : Inhabited SZ := ⟨0⟩

theorem parity_pair (a b : SZ) : fermParity SZ.isFermion [a, b] = xor (SZ.isFermion a) (SZ.isFermion b) := by
  rw [fermParity_cons, fermParity_cons]
  simp [fermParity]

theorem parity_single (a : SZ) : fermParity SZ.isFermion [a] = SZ.isFermion a := by
  rw [fermParity_cons]
  simp [fermParity]

theorem signed_pair (a b : SZ) : signedSum [true, false] [a, b] = a + -b := by
  simp [signedSum]

theorem two_labels {ipg : Nat} {T : SpT SZ K} (h : Conforms [siteBasis ipg, siteBasis ipg] T) {b : List SZ × Arr K} (hb : b ∈ T) : ∃ x y, b.1 = [x, y] := by
  have := (h b hb).lengths.1
  exact List.length_eq_two.1 (by simpa using this)

theorem toSparse_site (ipg : Nat) (lq rq : List SZ) (cells : List (Cell SZ K))
    (h : ∀ e ∈ cells, ∃ l r, lq[e.row]? = some l ∧ rq[e.col]? = some r ∧ SiteOp ipg (l + r) e.op) :
    ∃ W, toSparse 0 lq rq cells = some W ∧ OpSite SZ.isFermion (leftLeg 0 lq) [siteBasis ipg] [siteBasis ipg] (rightLeg rq) W ∧
      EvenBlocks SZ.isFermion W.both ∧
      ∀ (j k : Nat) (a b : SZ × Nat), Slot lq j a → Slot rq k b → ∀ (s : Bool) (x y : Bool × Bool),
        opEntry W s [(0 - a.1, a.2), (occ ipg x.1 x.2, 0), (occ ipg y.1 y.2, 0), b] =
          ((cells.filter fun e => e.row = j ∧ e.col = k).map fun e =>
            e.factor * (partMat ipg e.op.even x y + paritySign K s * partMat ipg e.op.odd x y)).sum := by
  have hcells : ∀ e ∈ cells, e.row < lq.length ∧ e.col < rq.length := by
    intro e he
    obtain ⟨l, r, h1, h2, _⟩ := h e he
    exact ⟨(List.getElem?_eq_some_iff.1 h1).1, (List.getElem?_eq_some_iff.1 h2).1⟩
  obtain ⟨W, h1, h2, h3, h4, h5, h6⟩ := C45_to_sparse (0 : SZ) lq rq [siteBasis ipg, siteBasis ipg] cells hcells (by
    intro e he
    obtain ⟨l, r, _, _, h⟩ := h e he
    exact ⟨h.on.1, h.on.2.1⟩)
  have hW := h1
  rw [toSparse, toSparse_eq 0 lq rq cells hcells ⟨[], []⟩] at hW
  injection hW with hW
  have blk : ∀ (part : OpT SZ K → SpT SZ K), ∀ b ∈ (cells.flatMap (cellBlocks 0 lq rq part)).foldl (fun m b => SpT.accumulate m b.1 b.2) [],
      ∃ e ∈ cells, ∃ l r, lq[e.row]? = some l ∧ rq[e.col]? = some r ∧ ∃ b' ∈ part e.op, b.1 = (0 - l) :: b'.1 ++ [r] := by
    intro part b hb
    rcases mem_accumulate_labels _ _ _ hb with hb | hb
    · simp at hb
    · obtain ⟨b', hb', e'⟩ := List.mem_map.1 hb
      obtain ⟨e, he, hb'⟩ := List.mem_flatMap.1 hb'
      obtain ⟨l, r, g1, g2, _⟩ := h e he
      refine ⟨e, he, l, r, g1, g2, ?_⟩
      rw [cellBlocks, g1, g2] at hb'
      obtain ⟨c, hc, rfl⟩ := List.mem_map.1 hb'
      exact ⟨c, hc, e'.symm⟩
  have odd' : ∀ b ∈ W.odd, fermParity SZ.isFermion (physLabels b.1) = true ∧ fermParity SZ.isFermion b.1 = false := by
    intro b hb
    rw [← hW] at hb
    obtain ⟨e, he, l, r, g1, g2, b', hb', e'⟩ := blk OpT.odd b hb
    obtain ⟨l', r', g1', g2', g3⟩ := h e he
    rw [g1] at g1'
    rw [g2] at g2'
    injection g1' with g1'
    injection g2' with g2'
    subst g1' g2'
    obtain ⟨x, y, hxy⟩ := two_labels g3.on.1 hb'
    have c := g3.odd b' hb'
    have f := g3.oddF (List.ne_nil_of_mem hb')
    rw [hxy, signed_pair] at c
    rw [← c, isFermion_add, isFermion_neg] at f
    have f' := f
    rw [← isFermion_neg y, ← isFermion_add, c, isFermion_add] at f'
    rw [e', hxy]
    refine ⟨?_, ?_⟩
    · show fermParity SZ.isFermion [x, y] = true
      rw [parity_pair, f]
    · show fermParity SZ.isFermion [0 - l, x, y, r] = false
      rw [fermParity_cons, fermParity_cons, parity_pair, zero_sub, isFermion_neg]
      revert f f'
      cases SZ.isFermion x <;> cases SZ.isFermion y <;> cases SZ.isFermion l <;> cases SZ.isFermion r <;> simp
  have even' : ∀ b ∈ W.even, fermParity SZ.isFermion (physLabels b.1) = false ∧ fermParity SZ.isFermion b.1 = false := by
    intro b hb
    rw [← hW] at hb
    obtain ⟨e, he, l, r, g1, g2, b', hb', e'⟩ := blk OpT.even b hb
    obtain ⟨l', r', g1', g2', g3⟩ := h e he
    rw [g1] at g1'
    rw [g2] at g2'
    injection g1' with g1'
    injection g2' with g2'
    subst g1' g2'
    obtain ⟨x, y, hxy⟩ := two_labels g3.on.2.1 hb'
    have c := g3.even b' hb'
    have f := g3.evenF (List.ne_nil_of_mem hb')
    rw [hxy, signed_pair] at c
    rw [← c, isFermion_add, isFermion_neg] at f
    have f' := f
    rw [← isFermion_neg y, ← isFermion_add, c, isFermion_add] at f'
    rw [e', hxy]
    refine ⟨?_, ?_⟩
    · show fermParity SZ.isFermion [x, y] = false
      rw [parity_pair, f]
    · show fermParity SZ.isFermion [0 - l, x, y, r] = false
      rw [fermParity_cons, fermParity_cons, parity_pair, zero_sub, isFermion_neg]
      revert f f'
      cases SZ.isFermion x <;> cases SZ.isFermion y <;> cases SZ.isFermion l <;> cases SZ.isFermion r <;> simp
  refine ⟨W, h1, ⟨h2, h3, h4, h5, fun b hb => (odd' b hb).1, fun b hb => (even' b hb).1⟩, ?_, ?_⟩
  · intro b hb
    rcases List.mem_append.1 hb with hb | hb
    · exact (odd' b hb).2
    · exact (even' b hb).2
  · intro j k a b ha hb s x y
    obtain ⟨e1, e2⟩ := h6 j k a b ha hb [(occ ipg x.1 x.2, 0), (occ ipg y.1 y.2, 0)]
    simp only [List.cons_append, List.nil_append] at e1 e2
    rw [opEntry, e1, e2, ← sum_map_mul_left', ← sum_map_add']
    refine sum_map_congr' _ _ _ fun e _ => ?_
    simp only [partMat]
    ring

/-- The tensor of a site, from the entries of its symbolic matrix. -/
theorem tens_ok (orbSym : List Nat) (i : Fin n) (entries : List ((Nat × Nat) × OpElement Nat SZ K)) (ops : Dict (Key Nat) (OpVal Nat SZ K)) (lq rq : List SZ)
    (h : ∀ p ∈ entries, ∃ (l r : SZ) (w : OpVal Nat SZ K), lq[p.1.1]? = some l ∧ rq[p.1.2]? = some r ∧ Dict.get? ops (key p.2) = some w ∧ Plain w ∧
      ∀ s ∈ strs w, s.ops ≠ [] ∧ (∀ e ∈ s.ops, SymbolOk (labels orbSym) iSymbol i e) ∧ charge s.ops = l + r) :
    ∃ W, ((entries.mapM fun p => (lookup (orbSym.getD i 0) ops p.2).map fun T => (⟨p.1.1, p.1.2, p.2.factor, T⟩ : Cell SZ K)).bind (toSparse 0 lq rq)) = some W ∧
      OpSite SZ.isFermion (leftLeg 0 lq) [siteBasis (orbSym.getD i 0)] [siteBasis (orbSym.getD i 0)] (rightLeg rq) W ∧ EvenBlocks SZ.isFermion W.both ∧
      ∃ A : OpElement Nat SZ K → OpT SZ K, (∀ p ∈ entries, entryValue (value K n) ops p.2 = p.2.factor • embT (orbSym.getD i 0) i (A p.2)) ∧
        ∀ (j k : Nat) (a b : SZ × Nat), Slot lq j a → Slot rq k b → ∀ (s : Bool) (x y : Bool × Bool),
          opEntry W s [(0 - a.1, a.2), (occ (orbSym.getD i 0) x.1 x.2, 0), (occ (orbSym.getD i 0) y.1 y.2, 0), b] =
            ((entries.filter fun p => p.1.1 = j ∧ p.1.2 = k).map fun p =>
              p.2.factor * (partMat (orbSym.getD i 0) (A p.2).even x y + paritySign K s * partMat (orbSym.getD i 0) (A p.2).odd x y)).sum := by
  let A : OpElement Nat SZ K → OpT SZ K := fun e => (lookup (orbSym.getD i 0) ops e).getD ⟨[], []⟩
  have hA : ∀ p ∈ entries, ∃ (l r : SZ), lq[p.1.1]? = some l ∧ rq[p.1.2]? = some r ∧ lookup (orbSym.getD i 0) ops p.2 = some (A p.2) ∧
      SiteOp (orbSym.getD i 0) (l + r) (A p.2) ∧ entryValue (value K n) ops p.2 = p.2.factor • embT (orbSym.getD i 0) i (A p.2) := by
    intro p hp
    obtain ⟨l, r, w, h1, h2, h3, h4, h5⟩ := h p hp
    obtain ⟨T, k1, k2, k3⟩ := value_site orbSym i h4 h5
    have e : lookup (orbSym.getD i 0) ops p.2 = some T := by rw [lookup, h3]; exact k1
    have eA : A p.2 = T := by
      show (lookup (orbSym.getD i 0) ops p.2).getD ⟨[], []⟩ = T
      rw [e]; rfl
    refine ⟨l, r, h1, h2, by rw [eA]; exact e, by rw [eA]; exact k2, ?_⟩
    rw [eA, entryValue, h3, Option.getD_some, k3, Algebra.smul_def]
  have hm := mapM_some' (fun p : (Nat × Nat) × OpElement Nat SZ K => (lookup (orbSym.getD i 0) ops p.2).map fun T => (⟨p.1.1, p.1.2, p.2.factor, T⟩ : Cell SZ K))
    (fun p => ⟨p.1.1, p.1.2, p.2.factor, A p.2⟩) entries (by
      intro p hp
      obtain ⟨_, _, _, _, h, _⟩ := hA p hp
      simp only [h, Option.map_some])
  obtain ⟨W, w1, w2, w3, w4⟩ := toSparse_site (orbSym.getD i 0) lq rq (entries.map fun p => (⟨p.1.1, p.1.2, p.2.factor, A p.2⟩ : Cell SZ K)) (by
    intro e he
    obtain ⟨p, hp, rfl⟩ := List.mem_map.1 he
    obtain ⟨l, r, h1, h2, _, h3, _⟩ := hA p hp
    exact ⟨l, r, h1, h2, h3⟩)
  refine ⟨W, by rw [hm]; exact w1, w2, w3, A, ?_, ?_⟩
  · intro p hp
    obtain ⟨_, _, _, _, _, _, h⟩ := hA p hp
    exact h
  · intro j k a b ha hb s x y
    rw [w4 j k a b ha hb s x y, List.filter_map, List.map_map]
    rfl

/-! ### The chain -/

theorem legsOf_drop (orbSym : List Nat) (u : Fin n → Bool × Bool) (i : Fin n) :
    (legsOf orbSym u).drop i.1 = [(occ (orbSym.getD i.1 0) (u i).1 (u i).2, 0)] :: (legsOf orbSym u).drop (i.1 + 1) := by
  rw [List.drop_eq_getElem_cons (by simp [legsOf])]
  congr 1
  simp [legsOf]

theorem legsOf_update (orbSym : List Nat) (u : Fin n → Bool × Bool) (i : Fin n) (x : Bool × Bool) :
    (legsOf orbSym (Function.update u i x)).drop (i.1 + 1) = (legsOf orbSym u).drop (i.1 + 1) := by
  apply List.ext_getElem (by simp [legsOf])
  intro k h1 h2
  simp only [List.getElem_drop, legsOf, List.getElem_ofFn]
  rw [Function.update_of_ne]
  intro e
  have := congrArg Fin.val e
  simp at this
  omega

theorem parBelow_step (orbSym : List Nat) (d : Fin n → Bool × Bool) (i : Fin n) :
    parBelow d (i.1 + 1) = xor (parBelow d i.1) (fermParity SZ.isFermion (([(occ (orbSym.getD i.1 0) (d i).1 (d i).2, 0)] : List (SZ × Nat)).map Prod.fst)) := by
  rw [parBelow, dif_pos i.2, List.map_singleton, parity_single]
  congr 1
  have : (⟨i.1, i.2⟩ : Fin n) = i := rfl
  rw [this]
  cases (d i).1 <;> cases (d i).2 <;> simp [occ, SZ.isFermion]

/-- An operator of site `i` times an operator of the later sites. -/
theorem emb_mul_apply (i : Fin n) (A B : Matrix (Bool × Bool) (Bool × Bool) K) (N : Matrix (Fin n → Bool × Bool) (Fin n → Bool × Bool) K)
    (u d : Fin n → Bool × Bool) (F : (Fin n → Bool × Bool) → K) (hN : ∀ m, N m d = if (∀ l : Fin n, l.1 < i.1 + 1 → m l = d l) then F m else 0) :
    (emb i A B * N) u d = if (∀ l : Fin n, l.1 < i.1 → u l = d l) then
      (A (u i) (d i) + paritySign K (parBelow d i) * B (u i) (d i)) * F (Function.update u i (d i)) else 0 := by
  rw [Matrix.mul_apply, Finset.sum_eq_single (Function.update u i (d i))]
  · have c1 : ∀ j, j ≠ i → u j = Function.update u i (d i) j := fun j hj => by rw [Function.update_of_ne hj]
    have c2 : (∀ l : Fin n, l.1 < i.1 + 1 → Function.update u i (d i) l = d l) ↔ ∀ l : Fin n, l.1 < i.1 → u l = d l := by
      constructor
      · intro h l hl
        have := h l (by omega)
        rwa [Function.update_of_ne (fun e => by rw [e] at hl; omega)] at this
      · intro h l hl
        by_cases e : l = i
        · subst e; simp
        · rw [Function.update_of_ne e]
          have : l.1 ≠ i.1 := fun h => e (Fin.ext h)
          exact h l (by omega)
    rw [hN, emb, if_pos c1]
    by_cases h : ∀ l : Fin n, l.1 < i.1 → u l = d l
    · rw [if_pos (c2.2 h), if_pos h]
      have : parBelow (Function.update u i (d i)) i = parBelow d i := parBelow_congr fun l hl => c2.2 h l (by omega)
      rw [this, Function.update_self, paritySign]
    · rw [if_neg fun e => h (c2.1 e), if_neg h, mul_zero]
  · intro m _ hm
    rw [hN, emb]
    by_cases h1 : ∀ j, j ≠ i → u j = m j
    · by_cases h2 : ∀ l : Fin n, l.1 < i.1 + 1 → m l = d l
      · refine absurd ?_ hm
        funext j
        by_cases e : j = i
        · subst e
          rw [Function.update_self]
          exact h2 j (by omega)
        · rw [Function.update_of_ne e]
          exact (h1 j e).symm
      · rw [if_neg h2, mul_zero]
    · rw [if_neg h1, zero_mul]
  · simp

theorem emb_last (i : Fin n) (hi : i.1 + 1 = n) (A B : Matrix (Bool × Bool) (Bool × Bool) K) (u d : Fin n → Bool × Bool) :
    emb i A B u d = if (∀ l : Fin n, l.1 < i.1 → u l = d l) then A (u i) (d i) + paritySign K (parBelow d i) * B (u i) (d i) else 0 := by
  have : (∀ j, j ≠ i → u j = d j) ↔ ∀ l : Fin n, l.1 < i.1 → u l = d l := by
    constructor
    · intro h l hl
      exact h l fun e => by rw [e] at hl; omega
    · intro h j hj
      have : j.1 ≠ i.1 := fun h => hj (Fin.ext h)
      have := j.2
      exact h j (by omega)
  rw [emb, paritySign]
  by_cases h : ∀ l : Fin n, l.1 < i.1 → u l = d l
  · rw [if_pos h, if_pos (this.2 h)]
  · rw [if_neg h, if_neg fun e => h (this.1 e)]

/-- The entries of a column, as those of a matrix. -/
def colEntries (col : Column Nat SZ K) : List ((Nat × Nat) × OpElement Nat SZ K) :=
  (col.mat.zipIdx.filterMap fun p => p.1.map fun e => (p.2, e)).map fun p => ((p.1, 0), p.2)

theorem lastTensor_eq (ipg : Nat) (col : Column Nat SZ K) :
    lastTensor ipg col = (((colEntries col).mapM fun p => (lookup ipg col.ops p.2).map fun T => (⟨p.1.1, p.1.2, p.2.factor, T⟩ : Cell SZ K)).bind
      (toSparse 0 (col.lop.map (·.label)) [0])) := by
  rw [lastTensor, colEntries, List.mapM_map]
  rfl

theorem mem_colEntries {col : Column Nat SZ K} {p : (Nat × Nat) × OpElement Nat SZ K} (h : p ∈ colEntries col) : p.1.2 = 0 ∧ col.mat[p.1.1]? = some (some p.2) := by
  unfold colEntries at h
  obtain ⟨q, hq, rfl⟩ := List.mem_map.1 h
  obtain ⟨⟨o, k⟩, ho, e⟩ := List.mem_filterMap.1 hq
  cases o with
  | none => simp at e
  | some o =>
    simp only [Option.map_some, Option.some.injEq] at e
    subst e
    exact ⟨rfl, List.mk_mem_zipIdx_iff_getElem?.1 ho⟩

theorem sum_colEntries {R : Type} [AddCommMonoid R] (mat : List (Option (OpElement Nat SZ K))) (o j : Nat) (f : OpElement Nat SZ K → R) :
    (((((mat.zipIdx o).filterMap fun p => p.1.map fun e => (p.2, e)).map fun p => ((p.1, 0), p.2)).filter fun p : (Nat × Nat) × OpElement Nat SZ K =>
        p.1.1 = j ∧ p.1.2 = 0).map fun p => f p.2).sum = if o ≤ j then ((mat[j - o]?.join).map f).getD 0 else 0 := by
  induction mat generalizing o with
  | nil => simp
  | cons a t ih =>
    have ih := ih (o + 1)
    rw [List.zipIdx_cons, List.filterMap_cons]
    rcases Nat.lt_trichotomy o j with h | h | h
    · obtain ⟨k, hk⟩ : ∃ k, j - o = k + 1 := ⟨j - o - 1, by omega⟩
      have hk' : j - (o + 1) = k := by omega
      rw [if_pos (by omega), hk'] at ih
      rw [if_pos (by omega), hk, List.getElem?_cons_succ, ← ih]
      cases a with
      | none => rfl
      | some e => simp [h.ne]
    · subst h
      rw [if_neg (by omega)] at ih
      rw [if_pos le_rfl, Nat.sub_self, List.getElem?_cons_zero]
      cases a with
      | none => simpa using ih
      | some e =>
        simp only [Option.map_some, List.map_cons]
        rw [List.filter_cons_of_pos (by simp), List.map_cons, List.sum_cons, ih, add_zero]
        rfl
    · rw [if_neg (by omega)] at ih ⊢
      cases a with
      | none => exact ih
      | some e =>
        simp only [Option.map_some, List.map_cons]
        rw [List.filter_cons_of_neg (by simp; omega)]
        exact ih

theorem columnValue_apply (v : Nat → List Int → Matrix (Fin n → Bool × Bool) (Fin n → Bool × Bool) K) (col : Column Nat SZ K) (j : Nat) :
    columnValue v col j = (((colEntries col).filter fun p => p.1.1 = j ∧ p.1.2 = 0).map fun p => entryValue v col.ops p.2).sum := by
  have := sum_colEntries col.mat 0 j (entryValue v col.ops)
  rw [if_pos (Nat.zero_le _), Nat.sub_zero] at this
  refine Eq.trans ?_ this.symm
  unfold columnValue
  cases h : col.mat[j]? with
  | none => rfl
  | some o => cases o <;> rfl

theorem sum_apply {ι κ : Type} {m : Type} (l : List ι) (f : ι → Matrix m κ K) (u : m) (d : κ) : (l.map f).sum u d = (l.map fun p => f p u d).sum := by
  induction l with
  | nil => rfl
  | cons a t ih =>
    rw [List.map_cons, List.sum_cons, Matrix.add_apply, ih, List.map_cons, List.sum_cons]

/-- The labels of the rows of the first tensor. -/
def headLabels (ms : List (SiteMatrix Nat SZ K)) (col : Column Nat SZ K) : List SZ := ((ms.head?.map (·.lop)).getD col.lop).map (·.label)

/-- The bonds between the tensors. -/
def bonds (ms : List (SiteMatrix Nat SZ K)) : List (BondInfo SZ) := ms.map fun m => rightLeg (m.rop.map (·.label))

theorem bonded_head {m : SiteMatrix Nat SZ K} {ms : List (SiteMatrix Nat SZ K)} {col : Column Nat SZ K} (h : Bonded (m :: ms) col) :
    m.rop.map (·.label) = (headLabels ms col).map (fun q => -q) ∧ Bonded ms col := by
  cases ms with
  | nil =>
    refine ⟨?_, trivial⟩
    rw [show m.rop.map (·.label) = col.lop.map fun e => -e.label from h]
    simp [headLabels, Function.comp_def]
  | cons m' ms =>
    obtain ⟨h1, h2⟩ := h
    refine ⟨?_, h2⟩
    rw [h1]
    simp [headLabels, Function.comp_def]

theorem opAmpl_step (isF : SZ → Bool) (W : OpT SZ K) (ws : List (OpT SZ K)) (b : BondInfo SZ) (bs : List (BondInfo SZ)) (s : Bool) (x : SZ × Nat)
    (u : List (SZ × Nat)) (us : List (List (SZ × Nat))) (d : List (SZ × Nat)) (ds : List (List (SZ × Nat))) (y : SZ × Nat) :
    opAmpl isF (W :: ws) (b :: bs) s x (u :: us) (d :: ds) y =
      ((legBasis b).map fun z => opEntry W s (x :: u ++ d ++ [z]) * opAmpl isF ws bs (xor s (fermParity isF (d.map Prod.fst))) z us ds y).sum := by
  cases ws <;> rfl

theorem chain_ok (orbSym : List Nat) (hn : orbSym.length = n) {ne : Prop} (hne : ne) (col : Column Nat SZ K)
    (hcol : LastOk (labels orbSym) iSymbol ((n : Int) - 1) ne col) (ms : List (SiteMatrix Nat SZ K)) (i : Nat) (hi : i + ms.length + 1 = n)
    (hms : ∀ (k : Nat) (m : SiteMatrix Nat SZ K), ms[k]? = some m → SiteOk (labels orbSym) iSymbol ((i + k : Nat) : Int) m) (hb : Bonded ms col) :
    ∃ ws, tensorsFrom orbSym i ms col = some ws ∧
      OpOnBonds SZ.isFermion (leftLeg 0 (headLabels ms col) :: bonds ms ++ [rightLeg [0]]) ((orbSym.drop i).map fun g => ([siteBasis g], [siteBasis g])) ws ∧
      (∀ W ∈ ws, EvenBlocks SZ.isFermion W.both) ∧
      ∀ (j : Nat) (a : SZ × Nat), Slot (headLabels ms col) j a → ∀ u d : Fin n → Bool × Bool,
        chainValue (value K n) ms col j u d = if (∀ l : Fin n, l.1 < i → u l = d l) then
          opAmpl SZ.isFermion ws (bonds ms) (parBelow d i) (0 - a.1, a.2) ((legsOf orbSym u).drop i) ((legsOf orbSym d).drop i) (0, 0) else 0 := by
  induction ms generalizing i with
  | nil =>
    simp only [List.length_nil, add_zero] at hi
    have hin : i < n := by omega
    obtain ⟨W, w1, w2, w3, A, w4, w5⟩ := tens_ok (n := n) orbSym ⟨i, hin⟩ (colEntries col) col.ops (col.lop.map (·.label)) [0] (by
      intro p hp
      obtain ⟨e1, e2⟩ := mem_colEntries hp
      obtain ⟨a, w, g1, g2, g3, g4⟩ := hcol.entries _ _ e2
      refine ⟨a.label, 0, w, by simp [g1], by simp [e1], g2, g3, fun s hs => ⟨hcol.nonempty hne _ _ _ e2 g2 s hs, ?_, by rw [(g4 s hs).2, add_zero]⟩⟩
      have : ((⟨i, hin⟩ : Fin n).1 : Int) = (n : Int) - 1 := by simp only; omega
      rw [this]
      exact (g4 s hs).1)
    dsimp only at w1 w2 w5
    have hdrop : orbSym.drop i = [orbSym.getD i 0] := by
      rw [List.drop_eq_getElem_cons (by omega), List.drop_eq_nil_of_le (by omega), List.getD_eq_getElem _ _ (by omega)]
    refine ⟨[W], ?_, ?_, ?_, ?_⟩
    · rw [tensorsFrom, lastTensor_eq, w1]
      rfl
    · rw [hdrop]
      exact ⟨w2, trivial⟩
    · simpa using w3
    · intro j a ha u d
      have hu := legsOf_drop orbSym u ⟨i, hin⟩
      have hd := legsOf_drop orbSym d ⟨i, hin⟩
      have hnil : ∀ u : Fin n → Bool × Bool, (legsOf orbSym u).drop (i + 1) = [] := fun u => List.drop_eq_nil_of_le (by simp [legsOf]; omega)
      dsimp only at hu hd
      rw [hnil] at hu hd
      rw [hu, hd]
      show (columnValue (value K n) col j) u d = if _ then opEntry W _ _ else 0
      simp only [List.cons_append, List.nil_append]
      rw [w5 j 0 a (0, 0) ha ⟨rfl, rfl⟩, columnValue_apply, sum_apply]
      have : ∀ p ∈ (colEntries col).filter fun p => p.1.1 = j ∧ p.1.2 = 0, entryValue (value K n) col.ops p.2 u d =
          if (∀ l : Fin n, l.1 < i → u l = d l) then p.2.factor * (partMat (orbSym.getD i 0) (A p.2).even (u ⟨i, hin⟩) (d ⟨i, hin⟩) +
            paritySign K (parBelow d i) * partMat (orbSym.getD i 0) (A p.2).odd (u ⟨i, hin⟩) (d ⟨i, hin⟩)) else 0 := by
        intro p hp
        rw [w4 p (List.mem_filter.1 hp).1, Matrix.smul_apply, embT, emb_last _ (by simpa using hi)]
        simp only [smul_eq_mul, mul_ite, mul_zero]
      rw [sum_map_congr' _ _ _ this]
      split_ifs
      · rfl
      · exact sum_map_zero' _ _ fun _ _ => rfl
  | cons m ms ih =>
    simp only [List.length_cons] at hi
    have hin : i < n := by omega
    obtain ⟨hb1, hb2⟩ := bonded_head hb
    obtain ⟨ws, i1, i2, i3, i4⟩ := ih (i + 1) (by omega) (fun k m' hk => by
      have := hms (k + 1) m' (by simpa using hk)
      rwa [show i + (k + 1) = i + 1 + k by omega] at this) hb2
    have hm := hms 0 m rfl
    obtain ⟨W, w1, w2, w3, A, w4, w5⟩ := tens_ok (n := n) orbSym ⟨i, hin⟩ m.entries m.ops (m.lop.map (·.label)) (m.rop.map (·.label)) (by
      intro p hp
      obtain ⟨a, b, w, g1, g2, g3, g4, g5⟩ := hm.entries p hp
      exact ⟨a.label, b.label, w, by simp [g1], by simp [g2], g3, g4, g5⟩)
    dsimp only at w1 w2 w5
    have hdrop : orbSym.drop i = orbSym.getD i 0 :: orbSym.drop (i + 1) := by
      rw [List.drop_eq_getElem_cons (by omega), List.getD_eq_getElem _ _ (by omega)]
    have hleg : leftLeg 0 (headLabels ms col) = rightLeg (m.rop.map (·.label)) := by rw [leg_eq, hb1]
    refine ⟨W :: ws, ?_, ?_, ?_, ?_⟩
    · rw [tensorsFrom, siteTensor, w1, i1]
      rfl
    · rw [hdrop]
      rw [hleg] at i2
      exact ⟨w2, i2⟩
    · intro W' hW'
      rcases List.mem_cons.1 hW' with rfl | hW'
      · exact w3
      · exact i3 W' hW'
    · intro j a ha u d
      rw [legsOf_drop orbSym u ⟨i, hin⟩, legsOf_drop orbSym d ⟨i, hin⟩]
      dsimp only
      have hlen : (m.rop.map (·.label)).length = (headLabels ms col).length := by rw [hb1, List.length_map]
      -- the value of a slot of the bond
      have hk : ∀ k, k < (m.rop.map (·.label)).length → ∀ m' : Fin n → Bool × Bool, chainValue (value K n) ms col k m' d =
          if (∀ l : Fin n, l.1 < i + 1 → m' l = d l) then
            opAmpl SZ.isFermion ws (bonds ms) (parBelow d (i + 1)) (slotAt (m.rop.map (·.label)) k) ((legsOf orbSym m').drop (i + 1)) ((legsOf orbSym d).drop (i + 1)) (0, 0) else 0 := by
        intro k hk m'
        have h1 := slotAt_slot (headLabels ms col) k (by omega)
        have h2 := slot_neg h1
        rw [← hb1] at h2
        rw [slot_unique (slotAt_slot (m.rop.map (·.label)) k hk) h2]
        exact i4 k _ h1 m' d
      have hcols : ∀ p ∈ m.entries, p.1.2 < (m.rop.map (·.label)).length := by
        intro p hp
        obtain ⟨a, b, w, g1, g2, _⟩ := hm.entries p hp
        rw [List.length_map]
        exact (List.getElem?_eq_some_iff.1 g2).1
      let E : (Nat × Nat) × OpElement Nat SZ K → K := fun p => p.2.factor * (partMat (orbSym.getD i 0) (A p.2).even (u ⟨i, hin⟩) (d ⟨i, hin⟩) +
        paritySign K (parBelow d i) * partMat (orbSym.getD i 0) (A p.2).odd (u ⟨i, hin⟩) (d ⟨i, hin⟩))
      let F : Nat → K := fun k => opAmpl SZ.isFermion ws (bonds ms) (parBelow d (i + 1)) (slotAt (m.rop.map (·.label)) k) ((legsOf orbSym u).drop (i + 1)) ((legsOf orbSym d).drop (i + 1)) (0, 0)
      have hp : ∀ p ∈ m.entries, (entryValue (value K n) m.ops p.2 * chainValue (value K n) ms col p.1.2) u d =
          if (∀ l : Fin n, l.1 < i → u l = d l) then E p * F p.1.2 else 0 := by
        intro p hp
        rw [w4 p hp, Matrix.smul_mul, Matrix.smul_apply, embT, emb_mul_apply ⟨i, hin⟩ _ _ _ u d _ (hk p.1.2 (hcols p hp))]
        have hup := legsOf_update orbSym u ⟨i, hin⟩ (d ⟨i, hin⟩)
        dsimp only at hup ⊢
        rw [hup]
        simp only [smul_eq_mul, mul_ite, mul_zero]
        split_ifs
        · simp only [E, F]
          ring
        · rfl
      rw [chainValue, sum_apply, sum_map_congr' _ _ _ fun p h => hp p (List.mem_filter.1 h).1]
      split_ifs with hg
      · rw [show bonds (m :: ms) = rightLeg (m.rop.map (·.label)) :: bonds ms from rfl, opAmpl_step, rightLeg]
        rw [((legBasis_perm (m.rop.map (·.label))).map _).sum_eq, List.map_map]
        rw [sum_map_congr' _ (g := fun k => ((m.entries.filter fun p => p.1.1 = j).map fun p => if p.1.2 = k then E p * F k else 0).sum)]
        · rw [sum_comm']
          refine sum_map_congr' _ _ _ fun p hp => ?_
          have hc := hcols p (List.mem_filter.1 hp).1
          have := sum_map_ite_eq' (List.range (m.rop.map (·.label)).length) List.nodup_range p.1.2 fun k => E p * F k
          rw [if_pos (List.mem_range.2 hc)] at this
          rw [← this]
          refine sum_map_congr' _ _ _ fun k _ => ?_
          simp only [eq_comm]
        · intro k hk
          have hk := List.mem_range.1 hk
          simp only [Function.comp_def, List.cons_append, List.nil_append]
          rw [w5 j k a _ ha (slotAt_slot _ k hk), ← parBelow_step orbSym d ⟨i, hin⟩]
          show (((m.entries.filter fun p => p.1.1 = j ∧ p.1.2 = k).map E).sum) * F k = _
          rw [← sum_map_mul_right', sum_filter', sum_filter']
          refine sum_map_congr' _ _ _ fun p _ => ?_
          by_cases h1 : p.1.1 = j <;> by_cases h2 : p.1.2 = k <;> simp [h1, h2]
      · exact sum_map_zero' _ _ fun _ _ => rfl

end Hamiltonian
end Verif
