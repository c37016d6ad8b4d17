import Verif.Proof.ConvSite

/-!
The chain of tensors of the conventional matrix product operator.
-/

set_option linter.unusedSectionVars false

namespace Verif
namespace ConvMpo
open Hamiltonian Fock ConvAlg Symbolic
variable {K : Type} [Field K] {n : Nat}

section lists
variable {M : Type} [AddCommMonoid M]

theorem lsum (m : Nat) (f : Nat → M) : ((List.range m).map f).sum = ∑ i ∈ Finset.range m, f i := by
  induction m with
  | zero => simp
  | succ m ih => rw [List.range_succ, List.map_append, List.sum_append, ih, Finset.sum_range_succ]; simp

theorem ssum (f : Bool → M) : (spins.map f).sum = ∑ s, f s := by
  rw [Fintype.sum_bool, add_comm]
  simp [spins]

theorem ones_sum {α : Type} (m : Nat) (f : Nat → Bool → α) (F : α → M) : ((ones m f).map F).sum = ∑ s, ∑ j ∈ Finset.range m, F (f j s) := by
  simp only [ones, sum_flatMap', List.map_map, Function.comp_def, lsum, ssum]

theorem pairs_sum {α : Type} (m : Nat) (f : Nat → Nat → Bool → Bool → α) (F : α → M) :
    ((pairs m f).map F).sum = ∑ sr, ∑ sl, ∑ j ∈ Finset.range m, ∑ k ∈ Finset.range m, F (f j k sl sr) := by
  simp only [pairs, sum_flatMap', List.map_map, Function.comp_def, lsum, ssum]

end lists

variable (tiny : K → Bool) (t : Bool → Nat → Nat → K) (v : Bool → Bool → Nat → Nat → Nat → Nat → K) (g : List Nat) (m : Nat)

/-- The value of an assignment. -/
def entVal (n : Nat) (e : Ent K) : FockRing n K := match e.val with
  | none => 0
  | some x => x.factor • symVal t v m n x

/-- What the operators of a bond stand for: sums over the sites to the left. -/
def opVal (n M : Nat) : S → FockRing n K
  | .h => hSum t v (cr K n) (an K n) M
  | .i => 1
  | .c j s => cr K n j s
  | .d j s => an K n j s
  | .rd j s => rdSum t v (cr K n) (an K n) M j s
  | .r j s => -rSum t v (cr K n) (an K n) M j s
  | .a j k sl sr => cr K n j sl * cr K n k sr
  | .ad j k sl sr => an K n k sr * an K n j sl
  | .b j k sl sr => cr K n j sl * an K n k sr

theorem symVal_factor (e : Sym K) (f : K) : symVal t v m n { e with factor := f } = symVal t v m n e := rfl

theorem entVal_scale [DecidableEq K] (y x : S) (f : K) (e : Sym K) (he : e.factor = 1) : entVal t v m n ⟨y, x, scale f e⟩ = f • symVal t v m n e := by
  unfold entVal scale
  by_cases h : f = 0
  · simp [h]
  · simp only [h, if_false, he, one_mul]
    rfl

theorem entVal_one (y x : S) (e : Sym K) (he : e.factor = 1) : entVal t v m n ⟨y, x, some e⟩ = symVal t v m n e := by
  simp [entVal, he]

theorem entVal_neg (y x : S) (e : Sym K) (he : e.factor = 1) : entVal t v m n ⟨y, x, some e.neg⟩ = -symVal t v m n e := by
  have : e.neg.factor = -1 := by rw [OpElement.neg, he]
  rw [entVal]
  simp only [this, neg_one_smul]
  rfl

variable {t v} [DecidableEq K] [CharZero K]

/-- The first column. -/
theorem h_sum (hv : Sym2 v) :
    ((hEnts g m).map fun e => opVal t v n m e.y * entVal t v m n e).sum = hSum t v (cr K n) (an K n) (m + 1) := by
  rw [h_step car_fock hv]
  simp only [hEnts, List.map_append, List.map_cons, List.map_nil, List.map_map, Function.comp_def, List.sum_append, List.sum_cons, List.sum_nil, ones_sum, pairs_sum, ssum, opVal,
    entVal_scale t v m _ _ _ (pSym g _ _ _ _) rfl, entVal_scale t v m _ _ _ (pdSym g _ _ _ _) rfl, entVal_one t v m _ _ iSymbol rfl, entVal_one t v m _ _ hSymbol rfl,
    entVal_one t v m _ _ (rSym g _ _) rfl, entVal_neg t v m _ _ (rdSym g _ _) rfl, entVal_one t v m _ _ (dSym g _ _) rfl, entVal_one t v m _ _ (cSym g _ _) rfl,
    entVal_one t v m _ _ (qSym g _ _ _ _) rfl, symVal_i, symVal_h, symVal_r, symVal_rd, symVal_c, symVal_d, symVal_p, symVal_pd, symVal_q, mul_one, one_mul, add_zero]

theorem rd_sum (hv : Sym2 v) (sym : Bool) (s : Bool) (i : Nat) :
    ((rdEnt v g sym m s i).map fun e => opVal t v n m e.y * entVal t v m n e).sum = rdSum t v (cr K n) (an K n) (m + 1) i s := by
  have hsym : (((if sym then
      spins.flatMap fun sp => (List.range m).flatMap fun j => (List.range m).flatMap fun l =>
        [(⟨.a j l s sp, .rd i s, scale (1 / 2 * v s sp i j m l) (dSym g m sp)⟩ : Ent K),
         ⟨.a j l sp s, .rd i s, scale (-(1 / 2) * v s sp i l m j) (dSym g m sp)⟩]
      else
        spins.flatMap fun sp => (List.range m).flatMap fun j => (List.range m).map fun l =>
          ⟨.a j l s sp, .rd i s, scale (v s sp i j m l) (dSym g m sp)⟩).map fun e => opVal t v n m e.y * entVal t v m n e).sum) =
      ∑ s', ∑ j ∈ Finset.range m, ∑ l ∈ Finset.range m, cr K n j s * cr K n l s' * (v s s' i j m l • an K n m s') := by
    cases sym
    · simp only [Bool.false_eq_true, if_false, sum_flatMap', List.map_map, Function.comp_def, lsum, ssum, entVal_scale t v m _ _ _ (dSym g _ _) rfl, symVal_d, opVal]
    · rw [← rd_a, rd_a_sym car_fock]
      simp only [if_true, sum_flatMap', List.map_cons, List.map_nil, List.sum_cons, List.sum_nil, add_zero, lsum, ssum, entVal_scale t v m _ _ _ (dSym g _ _) rfl, symVal_d, opVal]
  rw [rdEnt]
  simp only [List.map_append, List.sum_append, hsym]
  rw [rd_step car_fock hv]
  simp only [List.map_cons, List.map_nil, List.map_map, Function.comp_def, List.sum_cons, List.sum_nil, sum_flatMap', lsum, ssum, opVal,
    entVal_scale t v m _ _ _ (cSym g _ _) rfl, entVal_one t v m _ _ iSymbol rfl, entVal_one t v m _ _ (rdSym g _ _) rfl,
    entVal_one t v m _ _ (qSym g _ _ _ _) rfl, entVal_one t v m _ _ (pdSym g _ _ _ _) rfl, symVal_i, symVal_rd, symVal_c, symVal_pd, symVal_q, mul_one, one_mul, add_zero,
    Finset.sum_add_distrib]
  abel

theorem r_sum (sym : Bool) (s : Bool) (i : Nat) :
    ((rEnt v g sym m s i).map fun e => opVal t v n m e.y * entVal t v m n e).sum = -rSum t v (cr K n) (an K n) (m + 1) i s := by
  have hsym : (((if sym then
      spins.flatMap fun sp => (List.range m).flatMap fun j => (List.range m).flatMap fun l =>
        [(⟨.ad j l s sp, .r i s, scale (-(1 / 2) * v s sp i j m l) (cSym g m sp)⟩ : Ent K),
         ⟨.ad j l sp s, .r i s, scale (1 / 2 * v s sp i l m j) (cSym g m sp)⟩]
      else
        spins.flatMap fun sp => (List.range m).flatMap fun j => (List.range m).map fun l =>
          ⟨.ad j l s sp, .r i s, scale (-1 * v s sp i j m l) (cSym g m sp)⟩).map fun e => opVal t v n m e.y * entVal t v m n e).sum) =
      ∑ s', ∑ j ∈ Finset.range m, ∑ l ∈ Finset.range m, an K n l s' * an K n j s * ((-1 * v s s' i j m l) • cr K n m s') := by
    cases sym
    · simp only [Bool.false_eq_true, if_false, sum_flatMap', List.map_map, Function.comp_def, lsum, ssum, entVal_scale t v m _ _ _ (cSym g _ _) rfl, symVal_c, opVal]
    · rw [r_a_sym car_fock]
      simp only [if_true, sum_flatMap', List.map_cons, List.map_nil, List.sum_cons, List.sum_nil, add_zero, lsum, ssum, entVal_scale t v m _ _ _ (cSym g _ _) rfl, symVal_c, opVal]
  rw [rEnt]
  simp only [List.map_append, List.sum_append, hsym]
  rw [r_step car_fock]
  simp only [List.map_cons, List.map_nil, List.map_map, Function.comp_def, List.sum_cons, List.sum_nil, sum_flatMap', lsum, ssum, opVal,
    entVal_scale t v m _ _ _ (dSym g _ _) rfl, entVal_scale t v m _ _ _ (pSym g _ _ _ _) rfl, entVal_scale t v m _ _ _ (qSym g _ _ _ _) rfl, entVal_one t v m _ _ iSymbol rfl, entVal_neg t v m _ _ (rSym g _ _) rfl,
    symVal_i, symVal_r, symVal_d, symVal_p, symVal_q, mul_one, one_mul, add_zero, neg_one_smul,
    Finset.sum_add_distrib]
  abel

theorem sum_col {α : Type} (l : List α) (f : α → FockRing n K) (x : α → S) (c : S) (h : ∀ e ∈ l, x e = c) (w : S → FockRing n K) :
    (l.map fun e => f e * w (x e)).sum = (l.map f).sum * w c := by
  rw [← sum_map_mul_right']
  exact sum_map_congr' _ _ _ fun e he => by rw [h e he]

theorem h_col {e : Ent K} (h : e ∈ hEnts g m) : e.x = .h := by
  simp only [hEnts, List.mem_append, List.mem_cons, List.not_mem_nil, or_false, mem_ones, mem_pairs, List.mem_map] at h
  rcases h with (((((((h | h) | h) | h) | h) | h) | h) | h)
  · rcases h with rfl | rfl <;> rfl
  · obtain ⟨_, _, _, rfl⟩ := h; rfl
  · obtain ⟨_, _, _, rfl⟩ := h; rfl
  · obtain ⟨_, _, rfl⟩ := h; rfl
  · obtain ⟨_, _, rfl⟩ := h; rfl
  · obtain ⟨_, _, _, _, _, _, rfl⟩ := h; rfl
  · obtain ⟨_, _, _, _, _, _, rfl⟩ := h; rfl
  · obtain ⟨_, _, _, _, _, _, rfl⟩ := h; rfl

theorem rd_col {sym s : Bool} {i : Nat} {e : Ent K} (h : e ∈ rdEnt v g sym m s i) : e.x = .rd i s := by
  cases sym <;>
  simp only [rdEnt, List.mem_append, List.mem_cons, List.not_mem_nil, or_false, List.mem_flatMap, List.mem_map, if_true, Bool.false_eq_true, if_false] at h
  · rcases h with ((((h | h) | h) | h) | h)
    · rcases h with rfl | rfl <;> rfl
    · obtain ⟨_, _, _, _, h⟩ := h
      rcases h with rfl | rfl <;> rfl
    · obtain ⟨_, _, _, _, _, _, rfl⟩ := h; rfl
    · obtain ⟨_, _, _, _, _, _, rfl⟩ := h; rfl
    · obtain ⟨_, _, _, _, _, _, rfl⟩ := h; rfl
  · rcases h with ((((h | h) | h) | h) | h)
    · rcases h with rfl | rfl <;> rfl
    · obtain ⟨_, _, _, _, h⟩ := h
      rcases h with rfl | rfl <;> rfl
    · obtain ⟨_, _, _, _, _, _, h⟩ := h
      rcases h with rfl | rfl <;> rfl
    · obtain ⟨_, _, _, _, _, _, rfl⟩ := h; rfl
    · obtain ⟨_, _, _, _, _, _, rfl⟩ := h; rfl

theorem r_col {sym s : Bool} {i : Nat} {e : Ent K} (h : e ∈ rEnt v g sym m s i) : e.x = .r i s := by
  cases sym <;>
  simp only [rEnt, List.mem_append, List.mem_cons, List.not_mem_nil, or_false, List.mem_flatMap, List.mem_map, if_true, Bool.false_eq_true, if_false] at h
  · rcases h with ((((h | h) | h) | h) | h)
    · rcases h with rfl | rfl <;> rfl
    · obtain ⟨_, _, _, _, h⟩ := h
      rcases h with rfl | rfl <;> rfl
    · obtain ⟨_, _, _, _, _, _, rfl⟩ := h; rfl
    · obtain ⟨_, _, _, _, _, _, rfl⟩ := h; rfl
    · obtain ⟨_, _, _, _, _, _, rfl⟩ := h; rfl
  · rcases h with ((((h | h) | h) | h) | h)
    · rcases h with rfl | rfl <;> rfl
    · obtain ⟨_, _, _, _, h⟩ := h
      rcases h with rfl | rfl <;> rfl
    · obtain ⟨_, _, _, _, _, _, h⟩ := h
      rcases h with rfl | rfl <;> rfl
    · obtain ⟨_, _, _, _, _, _, rfl⟩ := h; rfl
    · obtain ⟨_, _, _, _, _, _, rfl⟩ := h; rfl

theorem pair_split (F : Nat → Nat → FockRing n K) :
    ∑ j ∈ Finset.range m, ∑ k ∈ Finset.range m, F j k + ∑ j ∈ Finset.range m, (F j m + F m j) + F m m =
      ∑ j ∈ Finset.range (m + 1), ∑ k ∈ Finset.range (m + 1), F j k := by
  rw [split2, Finset.sum_add_distrib]
  abel

theorem e_rd_sum (hv : Sym2 v) (sym : Bool) (w : S → FockRing n K) : ((rdEnts v g sym n m).map fun e => opVal t v n m e.y * entVal t v m n e * w e.x).sum =
    ((lates n (m + 1) S.rd).map fun x => opVal t v n (m + 1) x * w x).sum := by
  simp only [rdEnts, lates, sum_flatMap', List.map_map, Function.comp_def]
  refine sum_map_congr' _ _ _ fun s _ => sum_map_congr' _ _ _ fun i _ => ?_
  rw [sum_col (rdEnt v g sym m s i) (fun e => opVal t v n m e.y * entVal t v m n e) (·.x) (.rd i s) (fun e he => rd_col g m he) w, rd_sum g m hv]
  rfl

theorem e_r_sum (sym : Bool) (w : S → FockRing n K) : ((rEnts v g sym n m).map fun e => opVal t v n m e.y * entVal t v m n e * w e.x).sum =
    ((lates n (m + 1) S.r).map fun x => opVal t v n (m + 1) x * w x).sum := by
  simp only [rEnts, lates, sum_flatMap', List.map_map, Function.comp_def]
  refine sum_map_congr' _ _ _ fun s _ => sum_map_congr' _ _ _ fun i _ => ?_
  rw [sum_col (rEnt v g sym m s i) (fun e => opVal t v n m e.y * entVal t v m n e) (·.x) (.r i s) (fun e he => r_col g m he) w, r_sum g m]
  rfl

theorem e_c_sum (w : S → FockRing n K) : ((cEnts g m).map fun e => opVal t v n m e.y * entVal t v m n e * w e.x).sum = ((ones (m + 1) S.c).map fun x => opVal t v n (m + 1) x * w x).sum := by
  simp only [cEnts, ones_sum, sum_flatMap', List.map_append, List.sum_append, List.map_map, Function.comp_def, ssum, lsum, List.map_cons, List.map_nil, List.sum_cons, List.sum_nil, opVal,
    entVal_one t v m _ _ iSymbol rfl, entVal_one t v m _ _ (cSym g _ _) rfl, symVal_i, symVal_c, Finset.sum_range_succ, mul_one, one_mul, add_zero]

theorem e_d_sum (w : S → FockRing n K) : ((dEnts g m).map fun e => opVal t v n m e.y * entVal t v m n e * w e.x).sum = ((ones (m + 1) S.d).map fun x => opVal t v n (m + 1) x * w x).sum := by
  simp only [dEnts, ones_sum, sum_flatMap', List.map_append, List.sum_append, List.map_map, Function.comp_def, ssum, lsum, List.map_cons, List.map_nil, List.sum_cons, List.sum_nil, opVal,
    entVal_one t v m _ _ iSymbol rfl, entVal_one t v m _ _ (dSym g _ _) rfl, symVal_i, symVal_d, Finset.sum_range_succ, mul_one, one_mul, add_zero]

theorem e_a_sum (w : S → FockRing n K) : ((aEnts g m).map fun e => opVal t v n m e.y * entVal t v m n e * w e.x).sum = ((pairs (m + 1) S.a).map fun x => opVal t v n (m + 1) x * w x).sum := by
  have H := car_fock (K := K) (n := n)
  simp only [aEnts, pairs_sum, sum_flatMap', List.map_append, List.sum_append, List.map_map, Function.comp_def, ssum, lsum, List.map_cons, List.map_nil, List.sum_cons, List.sum_nil, opVal,
    entVal_one t v m _ _ iSymbol rfl, entVal_one t v m _ _ (cSym g _ _) rfl, entVal_neg t v m _ _ (cSym g _ _) rfl, entVal_one t v m _ _ (aSym g _ _ _ _) rfl, symVal_i, symVal_c, symVal_a,
    mul_one, one_mul, add_zero]
  refine Finset.sum_congr rfl fun sr _ => Finset.sum_congr rfl fun sl _ => ?_
  rw [← pair_split m fun j k => cr K n j sl * cr K n k sr * w (.a j k sl sr)]
  congr 2
  refine Finset.sum_congr rfl fun j _ => ?_
  rw [mul_neg, H.cc m sl j sr]

theorem e_ad_sum (w : S → FockRing n K) : ((adEnts g m).map fun e => opVal t v n m e.y * entVal t v m n e * w e.x).sum = ((pairs (m + 1) S.ad).map fun x => opVal t v n (m + 1) x * w x).sum := by
  have H := car_fock (K := K) (n := n)
  simp only [adEnts, pairs_sum, sum_flatMap', List.map_append, List.sum_append, List.map_map, Function.comp_def, ssum, lsum, List.map_cons, List.map_nil, List.sum_cons, List.sum_nil, opVal,
    entVal_one t v m _ _ iSymbol rfl, entVal_one t v m _ _ (dSym g _ _) rfl, entVal_neg t v m _ _ (dSym g _ _) rfl, entVal_one t v m _ _ (adSym g _ _ _ _) rfl, symVal_i, symVal_d, symVal_ad,
    mul_one, one_mul, add_zero]
  refine Finset.sum_congr rfl fun sr _ => Finset.sum_congr rfl fun sl _ => ?_
  rw [← pair_split m fun j k => an K n k sr * an K n j sl * w (.ad j k sl sr)]
  congr 2
  refine Finset.sum_congr rfl fun j _ => ?_
  rw [mul_neg, H.dd m sr j sl]

theorem e_b_sum (w : S → FockRing n K) : ((bEnts g m).map fun e => opVal t v n m e.y * entVal t v m n e * w e.x).sum = ((pairs (m + 1) S.b).map fun x => opVal t v n (m + 1) x * w x).sum := by
  have H := car_fock (K := K) (n := n)
  simp only [bEnts, pairs_sum, sum_flatMap', List.map_append, List.sum_append, List.map_map, Function.comp_def, ssum, lsum, List.map_cons, List.map_nil, List.sum_cons, List.sum_nil, opVal,
    entVal_one t v m _ _ iSymbol rfl, entVal_one t v m _ _ (dSym g _ _) rfl, entVal_neg t v m _ _ (cSym g _ _) rfl, entVal_one t v m _ _ (bSym g _ _ _ _) rfl, symVal_i, symVal_c, symVal_d, symVal_b,
    mul_one, one_mul, add_zero]
  refine Finset.sum_congr rfl fun sr _ => Finset.sum_congr rfl fun sl _ => ?_
  rw [← pair_split m fun j k => cr K n j sl * an K n k sr * w (.b j k sl sr)]
  congr 2
  refine Finset.sum_congr rfl fun j hj => ?_
  rw [mul_neg, H.cd m sl j sr (by simp at hj; omega)]

/-- One site: the products of the operators on the left and the entries of the matrix are the operators on the right. -/
theorem mid_sum (hv : Sym2 v) (sym : Bool) (w : S → FockRing n K) :
    ((ents v g sym n m).map fun e => opVal t v n m e.y * entVal t v m n e * w e.x).sum = ((syms n (m + 1)).map fun x => opVal t v n (m + 1) x * w x).sum := by
  have e_h := sum_col (hEnts g m) (fun e => opVal t v n m e.y * entVal t v m n e) (·.x) .h (fun e he => h_col g m he) w
  rw [ents, syms]
  simp only [List.map_append, List.sum_append, e_h, e_rd_sum g m hv, e_r_sum g m, e_c_sum g m, e_d_sum g m, e_a_sum g m, e_ad_sum g m, e_b_sum g m, h_sum g m hv]
  simp only [List.map_cons, List.map_nil, List.sum_cons, List.sum_nil, opVal, entVal_one t v m _ _ iSymbol rfl, symVal_i, mul_one, one_mul, add_zero]

/-- The first site. -/
theorem first_sum (hv : Sym2 v) (w : S → FockRing n K) :
    ((firstEnts g n).map fun e => entVal t v 0 n e * w e.x).sum = ((syms n 1).map fun x => opVal t v n 1 x * w x).sum := by
  have z1 := h_step (t := t) (car_fock (K := K) (n := n)) hv 0
  have z2 := fun i s => rd_step (t := t) (car_fock (K := K) (n := n)) hv 0 i s
  have z3 := fun i s => r_step (t := t) (v := v) (car_fock (K := K) (n := n)) 0 i s
  simp only [Finset.range_zero, Finset.sum_empty, Finset.sum_const_zero, add_zero, zero_add, hSum, rdSum, rd2, rSum, r2, zero_mul, neg_zero] at z1 z2 z3
  have y1 : hSum t v (cr K n) (an K n) 1 = hLoc t v (cr K n) (an K n) 0 := z1
  have y2 : ∀ i s, rdSum t v (cr K n) (an K n) 1 i s = rdLoc t v (cr K n) (an K n) 0 i s := z2
  have y3 : ∀ i s, -rSum t v (cr K n) (an K n) 1 i s = -rLoc t v (cr K n) (an K n) 0 i s := z3
  rw [firstEnts, syms]
  simp only [List.map_append, List.sum_append, ones_sum, pairs_sum, lates, sum_flatMap', List.map_map, Function.comp_def, ssum, List.map_cons, List.map_nil, List.sum_cons, List.sum_nil, opVal, y1, y2, y3,
    entVal_one t v 0 _ _ iSymbol rfl, entVal_one t v 0 _ _ hSymbol rfl, entVal_one t v 0 _ _ (dSym g _ _) rfl, entVal_one t v 0 _ _ (cSym g _ _) rfl, entVal_one t v 0 _ _ (bSym g _ _ _ _) rfl,
    entVal_one t v 0 _ _ (aSym g _ _ _ _) rfl, entVal_one t v 0 _ _ (adSym g _ _ _ _) rfl, entVal_one t v 0 _ _ (rdSym g _ _) rfl, entVal_neg t v 0 _ _ (rSym g _ _) rfl,
    symVal_i, symVal_h, symVal_c, symVal_d, symVal_a, symVal_ad, symVal_b, symVal_r, symVal_rd, add_zero, one_mul, Finset.range_one, Finset.sum_singleton, sumBool]
  abel

end ConvMpo
end Verif
