import Verif.Model.ConvMpo
import Verif.Thm.Hamiltonian
import Mathlib.Tactic.Ring
import Mathlib.Data.List.Range

/-!
Positions of the operators on the bonds of the conventional matrix product operator.
-/

set_option linter.unusedSectionVars false

namespace Verif
namespace ConvMpo
open Hamiltonian
variable {K : Type}

/-- What a position of a bond stands for. -/
inductive S
  | h | i
  | c (j : Nat) (s : Bool) | d (j : Nat) (s : Bool) | rd (j : Nat) (s : Bool) | r (j : Nat) (s : Bool)
  | a (j k : Nat) (sl sr : Bool) | ad (j k : Nat) (sl sr : Bool) | b (j k : Nat) (sl sr : Bool)
  deriving DecidableEq

/-- Where the operators with two indices start. -/
def base (n M : Nat) : Nat := 2 + 2 * M + 2 * M + 2 * (n - M) + 2 * (n - M)

/-- The position on the bond with `M` sites to its left. -/
def pos (n M : Nat) : S → Nat
  | .h => 0
  | .i => 1
  | .c j s => 2 + s.toNat * M + j
  | .d j s => 2 + 2 * M + s.toNat * M + j
  | .rd j s => 2 + 2 * M + 2 * M + s.toNat * (n - M) + (j - M)
  | .r j s => 2 + 2 * M + 2 * M + 2 * (n - M) + s.toNat * (n - M) + (j - M)
  | .a j k sl sr => base n M + (sr.toNat * 2 + sl.toNat) * (M * M) + j * M + k
  | .ad j k sl sr => base n M + 4 * (M * M) + (sr.toNat * 2 + sl.toNat) * (M * M) + j * M + k
  | .b j k sl sr => base n M + 4 * (M * M) + 4 * (M * M) + (sr.toNat * 2 + sl.toNat) * (M * M) + j * M + k

def ones {α : Type} (M : Nat) (f : Nat → Bool → α) : List α := spins.flatMap fun s => (List.range M).map fun j => f j s
def lates {α : Type} (n M : Nat) (f : Nat → Bool → α) : List α := spins.flatMap fun s => (List.range' M (n - M)).map fun j => f j s
def pairs {α : Type} (M : Nat) (f : Nat → Nat → Bool → Bool → α) : List α :=
  spins.flatMap fun sr => spins.flatMap fun sl => (List.range M).flatMap fun j => (List.range M).map fun k => f j k sl sr

theorem map_ones {α β : Type} (M : Nat) (f : Nat → Bool → α) (F : α → β) : (ones M f).map F = ones M fun j s => F (f j s) := by
  simp [ones, List.map_flatMap, Function.comp_def]

theorem map_lates {α β : Type} (n M : Nat) (f : Nat → Bool → α) (F : α → β) : (lates n M f).map F = lates n M fun j s => F (f j s) := by
  simp [lates, List.map_flatMap, Function.comp_def]

theorem map_pairs {α β : Type} (M : Nat) (f : Nat → Nat → Bool → Bool → α) (F : α → β) : (pairs M f).map F = pairs M fun j k sl sr => F (f j k sl sr) := by
  simp [pairs, List.map_flatMap, Function.comp_def]

theorem mem_spins (s : Bool) : s ∈ spins := by cases s <;> simp [spins]

theorem mem_ones {α : Type} {M : Nat} {f : Nat → Bool → α} {x : α} : x ∈ ones M f ↔ ∃ s, ∃ j < M, f j s = x := by
  simp [ones, mem_spins]

theorem mem_lates {α : Type} {n M : Nat} {f : Nat → Bool → α} {x : α} : x ∈ lates n M f ↔ ∃ s, ∃ j, (M ≤ j ∧ j < M + (n - M)) ∧ f j s = x := by
  simp [lates, mem_spins, List.mem_range'_1]

theorem mem_pairs {α : Type} {M : Nat} {f : Nat → Nat → Bool → Bool → α} {x : α} : x ∈ pairs M f ↔ ∃ sr sl, ∃ j < M, ∃ k < M, f j k sl sr = x := by
  simp [pairs, mem_spins]

/-- The operators on the bond with `M` sites to its left. -/
def syms (n M : Nat) : List S :=
  [.h, .i] ++ ones M .c ++ ones M .d ++ lates n M .rd ++ lates n M .r ++ pairs M .a ++ pairs M .ad ++ pairs M .b

theorem run (a k : Nat) : (List.range k).map (fun j => a + j) = List.range' a k := by
  rw [List.range'_eq_map_range]

theorem run' (a m k : Nat) : (List.range' m k).map (fun j => a + (j - m)) = List.range' a k := by
  rw [List.range'_eq_map_range, List.map_map, List.range'_eq_map_range]
  refine List.map_congr_left fun j _ => ?_
  simp

theorem runs (a M k : Nat) : ((List.range k).flatMap fun j => List.range' (a + j * M) M) = List.range' a (k * M) := by
  induction k with
  | zero => simp
  | succ k ih => rw [List.range_succ, List.flatMap_append, ih, Nat.succ_mul, ← List.range'_append_1]; simp

theorem ones_pos (a M : Nat) : ones M (fun j s => a + s.toNat * M + j) = List.range' a (2 * M) := by
  simp only [ones, spins, run, List.flatMap_cons, List.flatMap_nil, List.append_nil]
  rw [two_mul, ← List.range'_append_1]
  simp

theorem lates_pos (a n M : Nat) : lates n M (fun j s => a + s.toNat * (n - M) + (j - M)) = List.range' a (2 * (n - M)) := by
  simp only [lates, spins, run', List.flatMap_cons, List.flatMap_nil, List.append_nil]
  rw [two_mul, ← List.range'_append_1]
  simp

theorem pairs_pos (a M : Nat) : pairs M (fun j k sl sr => a + (sr.toNat * 2 + sl.toNat) * (M * M) + j * M + k) = List.range' a (4 * (M * M)) := by
  simp only [pairs, spins, run, runs, List.flatMap_cons, List.flatMap_nil, List.append_nil]
  have e : 4 * (M * M) = M * M + M * M + (M * M + M * M) := by ring
  rw [e, ← List.range'_append_1, ← List.range'_append_1, ← List.range'_append_1]
  simp only [Bool.toNat_false, Bool.toNat_true, Nat.zero_mul, Nat.zero_add, Nat.one_mul, Nat.add_zero]
  have e2 : a + 2 * (M * M) = a + (M * M + M * M) := by ring
  have e3 : a + (2 + 1) * (M * M) = a + (M * M + M * M) + M * M := by ring
  rw [e2, e3]

theorem map_pos (n M : Nat) : (syms n M).map (pos n M) = List.range (syms n M).length := by
  have e : (syms n M).map (pos n M) = List.range' 0 (2 + 2 * M + 2 * M + 2 * (n - M) + 2 * (n - M) + 4 * (M * M) + 4 * (M * M) + 4 * (M * M)) := by
    simp only [syms, List.map_append, map_ones, map_lates, map_pairs, pos, ones_pos, lates_pos, pairs_pos, base]
    simp only [← List.range'_append_1, Nat.zero_add]
    rfl
  have l := congrArg List.length e
  rw [List.length_map, List.length_range'] at l
  rw [e, ← l, List.range_eq_range']

theorem nodup_syms (n M : Nat) : (syms n M).Nodup := by
  have := map_pos n M
  exact List.Nodup.of_map (pos n M) (this ▸ List.nodup_range)

theorem get_pos {n M : Nat} {y : S} (h : y ∈ syms n M) : (syms n M)[pos n M y]? = some y := by
  obtain ⟨k, hk, rfl⟩ := List.mem_iff_getElem.1 h
  have e := congrArg (fun l => l[k]?) (map_pos n M)
  simp only [List.getElem?_map, List.getElem?_eq_getElem hk, Option.map_some, List.getElem?_range hk, Option.some.injEq] at e
  rw [e, List.getElem?_eq_getElem hk]

theorem pos_inj {n M : Nat} {y z : S} (h : y ∈ syms n M) (h' : z ∈ syms n M) (e : pos n M y = pos n M z) : y = z := by
  have h1 := get_pos h
  rw [e, get_pos h'] at h1
  injection h1 with h1
  exact h1.symm

/-- The quantum numbers of an operator. -/
def lab (g : List Nat) : S → SZ
  | .h => 0
  | .i => 0
  | .c j s => qa g j s
  | .d j s => qb g j s
  | .rd j s => qa g j s
  | .r j s => qb g j s
  | .a j k sl sr => qp g j k sl sr
  | .ad j k sl sr => -qp g j k sl sr
  | .b j k sl sr => qm g j k sl sr

variable [Field K] [DecidableEq K]

theorem rop_labels (g : List Nat) (n m : Nat) (h : m + 1 ≠ n) : (rop (K := K) g n m).map (·.label) = (syms n (m + 1)).map (lab g) := by
  rw [rop, if_neg h]
  have e : ∀ {α : Type} M (f : Nat → Bool → α), (spins.flatMap fun s => (List.range M).map fun j => f j s) = ones M f := fun _ _ => rfl
  have e2 : ∀ {α : Type} (f : Nat → Bool → α), (spins.flatMap fun s => (List.range' (m + 1) (n - (m + 1))).map fun j => f j s) = lates n (m + 1) f := fun _ => rfl
  have e3 : ∀ {α : Type} M (f : Nat → Nat → Bool → Bool → α), (spins.flatMap fun sr => spins.flatMap fun sl => (List.range M).flatMap fun j => (List.range M).map fun k => f j k sl sr) = pairs M f := fun _ _ => rfl
  simp only [e, e2, e3, syms, List.map_append, map_ones, map_lates, map_pairs]
  rfl

theorem qb_neg (g : List Nat) (m : Nat) (s : Bool) : qb g m s = -qa g m s := rfl

theorem lop_labels (g : List Nat) (n m : Nat) (h : m ≠ 0) : (lop (K := K) g n m).map (·.label) = (syms n m).map fun y => -lab g y := by
  rw [lop, if_neg h]
  have e : ∀ {α : Type} M (f : Nat → Bool → α), (spins.flatMap fun s => (List.range M).map fun j => f j s) = ones M f := fun _ _ => rfl
  have e2 : ∀ {α : Type} (f : Nat → Bool → α), (spins.flatMap fun s => (List.range' m (n - m)).map fun j => f j s) = lates n m f := fun _ => rfl
  have e3 : ∀ {α : Type} M (f : Nat → Nat → Bool → Bool → α), (spins.flatMap fun sr => spins.flatMap fun sl => (List.range M).flatMap fun j => (List.range M).map fun k => f j k sl sr) = pairs M f := fun _ _ => rfl
  simp only [e, e2, e3, syms, List.map_append, map_ones, map_lates, map_pairs, lab, qb_neg, neg_neg]
  rfl

/-! ### The assignments -/

/-- An assignment with the operators in place of positions. -/
structure Ent (K : Type) where
  y : S
  x : S
  val : Option (Sym K)

def Ent.put (n m : Nat) (e : Ent K) : Put K := ⟨pos n m e.y, pos n (m + 1) e.x, e.val⟩

variable (v : Bool → Bool → Nat → Nat → Nat → Nat → K) (g : List Nat) (sym : Bool) (n m : Nat)

def firstEnts : List (Ent K) :=
  [⟨.h, .h, some hSymbol⟩, ⟨.h, .i, some iSymbol⟩,
   ⟨.h, .c 0 false, some (cSym g 0 false)⟩, ⟨.h, .c 0 true, some (cSym g 0 true)⟩, ⟨.h, .d 0 false, some (dSym g 0 false)⟩, ⟨.h, .d 0 true, some (dSym g 0 true)⟩] ++
  lates n 1 (fun j s => ⟨.h, .rd j s, some (rdSym g j s)⟩) ++
  lates n 1 (fun j s => ⟨.h, .r j s, some (rSym g j s).neg⟩) ++
  (spins.flatMap fun sr => spins.map fun sl => ⟨.h, .a 0 0 sl sr, some (aSym g 0 0 sl sr)⟩) ++
  (spins.flatMap fun sr => spins.map fun sl => ⟨.h, .ad 0 0 sl sr, some (adSym g 0 0 sl sr)⟩) ++
  (spins.flatMap fun sr => spins.map fun sl => ⟨.h, .b 0 0 sl sr, some (bSym g 0 0 sl sr)⟩)

def hEnts : List (Ent K) :=
  [⟨.h, .h, some iSymbol⟩, ⟨.i, .h, some hSymbol⟩] ++
  ones m (fun j s => ⟨.c j s, .h, some (rSym g j s)⟩) ++
  ones m (fun j s => ⟨.d j s, .h, some (rdSym g j s).neg⟩) ++
  (spins.map fun s => ⟨.rd m s, .h, some (dSym g m s)⟩) ++
  (spins.map fun s => ⟨.r m s, .h, some (cSym g m s)⟩) ++
  pairs m (fun j k sl sr => ⟨.a j k sl sr, .h, scale (1 / 2) (pSym g j k sl sr)⟩) ++
  pairs m (fun j k sl sr => ⟨.ad j k sl sr, .h, scale (1 / 2) (pdSym g j k sl sr)⟩) ++
  pairs m (fun j k sl sr => ⟨.b j k sl sr, .h, some (qSym g j k sl sr)⟩)

def cEnts : List (Ent K) := spins.flatMap fun s =>
  ((List.range m).map fun j => ⟨.c j s, .c j s, some iSymbol⟩) ++ [⟨.i, .c m s, some (cSym g m s)⟩]

def dEnts : List (Ent K) := spins.flatMap fun s =>
  ((List.range m).map fun j => ⟨.d j s, .d j s, some iSymbol⟩) ++ [⟨.i, .d m s, some (dSym g m s)⟩]

def rdEnt (s : Bool) (i : Nat) : List (Ent K) :=
  [⟨.rd i s, .rd i s, some iSymbol⟩, ⟨.i, .rd i s, some (rdSym g i s)⟩] ++
  (spins.flatMap fun sp => (List.range m).flatMap fun k =>
    [⟨.d k sp, .rd i s, some (pdSym g i k s sp)⟩, ⟨.c k sp, .rd i s, some (qSym g k i sp s)⟩]) ++
  (if sym then
    spins.flatMap fun sp => (List.range m).flatMap fun j => (List.range m).flatMap fun l =>
      [⟨.a j l s sp, .rd i s, scale (1 / 2 * v s sp i j m l) (dSym g m sp)⟩,
       ⟨.a j l sp s, .rd i s, scale (-(1 / 2) * v s sp i l m j) (dSym g m sp)⟩]
  else
    spins.flatMap fun sp => (List.range m).flatMap fun j => (List.range m).map fun l =>
      ⟨.a j l s sp, .rd i s, scale (v s sp i j m l) (dSym g m sp)⟩) ++
  (spins.flatMap fun sp => (List.range m).flatMap fun k => (List.range m).map fun l =>
    ⟨.b l k sp sp, .rd i s, scale (v s sp i m k l) (cSym g m s)⟩) ++
  (spins.flatMap fun sp => (List.range m).flatMap fun j => (List.range m).map fun k =>
    ⟨.b j k s sp, .rd i s, scale (-1 * v s sp i j k m) (cSym g m sp)⟩)

def rdEnts : List (Ent K) := spins.flatMap fun s => (List.range' (m + 1) (n - (m + 1))).flatMap fun i => rdEnt v g sym m s i

def rEnt (s : Bool) (i : Nat) : List (Ent K) :=
  [⟨.r i s, .r i s, some iSymbol⟩, ⟨.i, .r i s, some (rSym g i s).neg⟩] ++
  (spins.flatMap fun sp => (List.range m).flatMap fun k =>
    [⟨.c k sp, .r i s, scale (-1) (pSym g i k s sp)⟩, ⟨.d k sp, .r i s, scale (-1) (qSym g i k s sp)⟩]) ++
  (if sym then
    spins.flatMap fun sp => (List.range m).flatMap fun j => (List.range m).flatMap fun l =>
      [⟨.ad j l s sp, .r i s, scale (-(1 / 2) * v s sp i j m l) (cSym g m sp)⟩,
       ⟨.ad j l sp s, .r i s, scale (1 / 2 * v s sp i l m j) (cSym g m sp)⟩]
  else
    spins.flatMap fun sp => (List.range m).flatMap fun j => (List.range m).map fun l =>
      ⟨.ad j l s sp, .r i s, scale (-1 * v s sp i j m l) (cSym g m sp)⟩) ++
  (spins.flatMap fun sp => (List.range m).flatMap fun k => (List.range m).map fun l =>
    ⟨.b k l sp sp, .r i s, scale (-1 * v s sp i m k l) (dSym g m s)⟩) ++
  (spins.flatMap fun sp => (List.range m).flatMap fun j => (List.range m).map fun k =>
    ⟨.b k j sp s, .r i s, scale (-1 * -1 * v s sp i j k m) (dSym g m sp)⟩)

def rEnts : List (Ent K) := spins.flatMap fun s => (List.range' (m + 1) (n - (m + 1))).flatMap fun i => rEnt v g sym m s i

def aEnts : List (Ent K) := spins.flatMap fun sr => spins.flatMap fun sl =>
  ((List.range m).flatMap fun i => (List.range m).map fun j => ⟨.a i j sl sr, .a i j sl sr, some iSymbol⟩) ++
  ((List.range m).flatMap fun i => [⟨.c i sl, .a i m sl sr, some (cSym g m sr)⟩, ⟨.c i sr, .a m i sl sr, some (cSym g m sl).neg⟩]) ++
  [⟨.i, .a m m sl sr, some (aSym g m m sl sr)⟩]

def adEnts : List (Ent K) := spins.flatMap fun sr => spins.flatMap fun sl =>
  ((List.range m).flatMap fun i => (List.range m).map fun j => ⟨.ad i j sl sr, .ad i j sl sr, some iSymbol⟩) ++
  ((List.range m).flatMap fun i => [⟨.d i sl, .ad i m sl sr, some (dSym g m sr).neg⟩, ⟨.d i sr, .ad m i sl sr, some (dSym g m sl)⟩]) ++
  [⟨.i, .ad m m sl sr, some (adSym g m m sl sr)⟩]

def bEnts : List (Ent K) := spins.flatMap fun sr => spins.flatMap fun sl =>
  ((List.range m).flatMap fun i => (List.range m).map fun j => ⟨.b i j sl sr, .b i j sl sr, some iSymbol⟩) ++
  ((List.range m).flatMap fun i => [⟨.c i sl, .b i m sl sr, some (dSym g m sr)⟩, ⟨.d i sr, .b m i sl sr, some (cSym g m sl).neg⟩]) ++
  [⟨.i, .b m m sl sr, some (bSym g m m sl sr)⟩]

def ents : List (Ent K) := hEnts g m ++ [⟨.i, .i, some iSymbol⟩] ++ cEnts g m ++ dEnts g m ++ rdEnts v g sym n m ++ rEnts v g sym n m ++ aEnts g m ++ adEnts g m ++ bEnts g m

theorem first_puts : puts v g sym n 0 = (firstEnts g n).map (Ent.put (K := K) n 0) := by
  rw [puts, if_pos rfl, firstRow, firstEnts]
  have hb : 6 + 4 * (n - 1) = base n 1 := by unfold base; omega
  simp only [List.map_append, List.map_cons, List.map_nil, List.map_flatMap, List.map_map, Function.comp_def, lates]
  congr 1; congr 1; congr 1; congr 1; congr 1
  · refine List.flatMap_congr fun s _ => List.map_congr_left fun j hj => ?_
    have := (List.mem_range'_1.1 hj).1
    simp only [Ent.put, pos, Nat.zero_add, Put.mk.injEq, true_and, and_true]
    omega
  · refine List.flatMap_congr fun s _ => List.map_congr_left fun j hj => ?_
    have := (List.mem_range'_1.1 hj).1
    simp only [Ent.put, pos, Nat.zero_add, Put.mk.injEq, true_and, and_true]
    omega
  all_goals
    refine List.flatMap_congr fun s _ => List.map_congr_left fun j hj => ?_
    simp only [Ent.put, pos, Nat.zero_add, hb, Put.mk.injEq, true_and, and_true]
    omega

theorem h_puts (hm : m < n) : firstColumn g n m = (hEnts g m).map (Ent.put (K := K) n m) := by
  rw [firstColumn, hEnts]
  simp only [List.map_append, List.map_cons, List.map_nil, map_ones, map_pairs, List.map_map, Function.comp_def]
  have hb : 2 + 4 * m + 4 * (n - m) = base n m := by unfold base; omega
  congr 1; congr 1; congr 1; congr 1; congr 1
  · refine List.map_congr_left fun s hj => ?_
    simp only [Ent.put, pos, Put.mk.injEq, true_and, and_true]
    omega
  · refine List.map_congr_left fun s hj => ?_
    simp only [Ent.put, pos, Put.mk.injEq, true_and, and_true]
    omega
  all_goals
    refine List.flatMap_congr fun sr _ => List.flatMap_congr fun sl _ => List.flatMap_congr fun j _ => List.map_congr_left fun k hj => ?_
    simp only [Ent.put, pos, hb, Put.mk.injEq, true_and, and_true]
    ring

theorem pC_pos (j : Nat) (s : Bool) : pC m s + j = pos n m (.c j s) := by cases s <;> simp [pC, pos]

theorem pD_pos (j : Nat) (s : Bool) : pD m s + j = pos n m (.d j s) := by cases s <;> simp [pD, pos] <;> ring

theorem pRD_pos (hm : m < n) {j : Nat} (hj : m ≤ j) (s : Bool) : pRD n m s + j = pos n m (.rd j s) := by cases s <;> simp [pRD, pos] <;> omega

theorem pR_pos (hm : m < n) {j : Nat} (hj : m ≤ j) (s : Bool) : pR n m s + j = pos n m (.r j s) := by cases s <;> simp [pR, pos] <;> omega

theorem base_eq (hm : m ≤ n) : base n m = 2 + n * 4 := by unfold base; omega

theorem pA_pos (hm : m ≤ n) (j k : Nat) (sl sr : Bool) : pA n m sl sr + j * m + k = pos n m (.a j k sl sr) := by
  rw [pos, base_eq n m hm, pA]
  cases sl <;> cases sr <;> simp <;> ring

theorem pAD_pos (hm : m ≤ n) (j k : Nat) (sl sr : Bool) : pAD n m sl sr + j * m + k = pos n m (.ad j k sl sr) := by
  rw [pos, base_eq n m hm, pAD]
  cases sl <;> cases sr <;> simp <;> ring

theorem pB_pos (hm : m ≤ n) (j k : Nat) (sl sr : Bool) : pB n m sl sr + j * m + k = pos n m (.b j k sl sr) := by
  rw [pos, base_eq n m hm, pB]
  cases sl <;> cases sr <;> simp <;> ring

theorem pPair_pos (j k : Nat) (sl sr : Bool) : pPair n m 0 sl sr + j * (m + 1) + k = pos n (m + 1) (.a j k sl sr) ∧
    pPair n m 4 sl sr + j * (m + 1) + k = pos n (m + 1) (.ad j k sl sr) ∧ pPair n m 8 sl sr + j * (m + 1) + k = pos n (m + 1) (.b j k sl sr) := by
  have hb : 2 + 4 * (m + 1) + 4 * (n - (m + 1)) = base n (m + 1) := by unfold base; omega
  simp only [pPair, hb, pos]
  refine ⟨?_, ?_, ?_⟩ <;> ring

theorem c_puts : cColumns g m = (cEnts g m).map (Ent.put (K := K) n m) := by
  simp only [cColumns, cEnts, List.map_append, List.map_cons, List.map_nil, List.map_flatMap, List.map_map, Function.comp_def, Ent.put, pC_pos n]
  rfl

theorem d_puts : dColumns g m = (dEnts g m).map (Ent.put (K := K) n m) := by
  simp only [dColumns, dEnts, List.map_append, List.map_cons, List.map_nil, List.map_flatMap, List.map_map, Function.comp_def, Ent.put, pD_pos n]
  rfl

theorem rd_puts (hm : m + 1 < n) : rdColumns v g sym n m = (rdEnts v g sym n m).map (Ent.put (K := K) n m) := by
  rw [rdColumns, rdEnts]
  simp only [List.map_flatMap]
  refine List.flatMap_congr fun s _ => List.flatMap_congr fun i hi => ?_
  have hi' := (List.mem_range'_1.1 hi).1
  have hc : 2 + 4 * (m + 1) + s.toNat * (n - (m + 1)) + i - (m + 1) = pos n (m + 1) (.rd i s) := by
    simp only [pos]
    omega
  rw [hc, rdColumn, rdEnt, pRD_pos n m (by omega) (by omega)]
  simp only [pC_pos n, pD_pos n, pA_pos n m (by omega), pB_pos n m (by omega)]
  cases sym <;> simp only [List.map_append, List.map_cons, List.map_nil, List.map_flatMap, List.map_map, Function.comp_def, Ent.put, if_true, Bool.false_eq_true, if_false] <;> rfl

theorem r_puts (hm : m + 1 < n) : rColumns v g sym n m = (rEnts v g sym n m).map (Ent.put (K := K) n m) := by
  rw [rColumns, rEnts]
  simp only [List.map_flatMap]
  refine List.flatMap_congr fun s _ => List.flatMap_congr fun i hi => ?_
  have hi' := (List.mem_range'_1.1 hi).1
  have hc : 2 + 4 * (m + 1) + 2 * (n - (m + 1)) + s.toNat * (n - (m + 1)) + i - (m + 1) = pos n (m + 1) (.r i s) := by
    simp only [pos]
    omega
  rw [hc, rColumn, rEnt, pR_pos n m (by omega) (by omega)]
  simp only [pC_pos n, pD_pos n, pAD_pos n m (by omega), pB_pos n m (by omega)]
  cases sym <;> simp only [List.map_append, List.map_cons, List.map_nil, List.map_flatMap, List.map_map, Function.comp_def, Ent.put, if_true, Bool.false_eq_true, if_false] <;> rfl

theorem a_puts (hm : m + 1 < n) : aColumns g n m = (aEnts g m).map (Ent.put (K := K) n m) := by
  simp only [aColumns, aEnts, List.map_append, List.map_cons, List.map_nil, List.map_flatMap, List.map_map, Function.comp_def, Ent.put, pC_pos n, pA_pos n m (by omega), (pPair_pos n m _ _ _ _).1]
  rfl

theorem ad_puts (hm : m + 1 < n) : adColumns g n m = (adEnts g m).map (Ent.put (K := K) n m) := by
  simp only [adColumns, adEnts, List.map_append, List.map_cons, List.map_nil, List.map_flatMap, List.map_map, Function.comp_def, Ent.put, pD_pos n, pAD_pos n m (by omega), (pPair_pos n m _ _ _ _).2.1]
  rfl

theorem b_puts (hm : m + 1 < n) : bColumns g n m = (bEnts g m).map (Ent.put (K := K) n m) := by
  simp only [bColumns, bEnts, List.map_append, List.map_cons, List.map_nil, List.map_flatMap, List.map_map, Function.comp_def, Ent.put, pC_pos n, pD_pos n, pB_pos n m (by omega), (pPair_pos n m _ _ _ _).2.2]
  rfl

theorem mid_puts (h0 : m ≠ 0) (hm : m + 1 < n) : puts v g sym n m = (ents v g sym n m).map (Ent.put (K := K) n m) := by
  rw [puts, if_neg h0, if_neg (by omega), ents]
  simp only [List.map_append, ← h_puts g n m (by omega : m < n), ← c_puts, ← d_puts, ← rd_puts v g sym n m hm, ← r_puts v g sym n m hm, ← a_puts g n m hm, ← ad_puts g n m hm, ← b_puts g n m hm]
  rfl

theorem last_puts (h0 : m ≠ 0) (hm : m + 1 = n) : puts v g sym n m = (hEnts g m).map (Ent.put (K := K) n m) := by
  rw [puts, if_neg h0, if_pos hm, h_puts g n m (by omega)]

end ConvMpo
end Verif
