import Verif.Proof.ConvChain

/-!
The entries of the conventional matrix product operator have the charges that the bonds say.
-/

set_option linter.unusedSectionVars false

namespace Verif
namespace ConvMpo
open Hamiltonian Fock ConvAlg Symbolic
variable {K : Type} [Field K] [DecidableEq K] {n : Nat}

section mem
variable {M : Nat}
theorem mem_h : S.h ∈ syms n M := by simp [syms]
theorem mem_i : S.i ∈ syms n M := by simp [syms]
theorem mem_c {j : Nat} (s : Bool) (h : j < M) : S.c j s ∈ syms n M := by simp [syms, mem_ones, mem_lates, mem_pairs, h]
theorem mem_d {j : Nat} (s : Bool) (h : j < M) : S.d j s ∈ syms n M := by simp [syms, mem_ones, mem_lates, mem_pairs, h]
theorem mem_rd {j : Nat} (s : Bool) (h : M ≤ j) (h' : j < n) : S.rd j s ∈ syms n M := by
  have : j < M + (n - M) := by omega
  simp [syms, mem_ones, mem_lates, mem_pairs, h, this]
theorem mem_r {j : Nat} (s : Bool) (h : M ≤ j) (h' : j < n) : S.r j s ∈ syms n M := by
  have : j < M + (n - M) := by omega
  simp [syms, mem_ones, mem_lates, mem_pairs, h, this]
theorem mem_a {j k : Nat} (sl sr : Bool) (h : j < M) (h' : k < M) : S.a j k sl sr ∈ syms n M := by simp [syms, mem_ones, mem_lates, mem_pairs, h, h']
theorem mem_ad {j k : Nat} (sl sr : Bool) (h : j < M) (h' : k < M) : S.ad j k sl sr ∈ syms n M := by simp [syms, mem_ones, mem_lates, mem_pairs, h, h']
theorem mem_b {j k : Nat} (sl sr : Bool) (h : j < M) (h' : k < M) : S.b j k sl sr ∈ syms n M := by simp [syms, mem_ones, mem_lates, mem_pairs, h, h']
end mem

section
variable (tiny : K → Bool) (t : Bool → Nat → Nat → K) (v : Bool → Bool → Nat → Nat → Nat → Nat → K) (g : List Nat) (n m : Nat)

/-- An entry is in its place, and stands for an operator with the charge that the labels of the bonds say. -/
structure EntOk (e : Ent K) : Prop where
  y : e.y ∈ syms n m
  x : e.x ∈ syms n (m + 1)
  val : ∀ a, e.val = some a → Loc n g m (lab g e.x - lab g e.y) (symVal t v m n a) (getOp tiny t v g m a.abs)

variable {tiny t v g n m}

theorem ok_some {y x : S} (hy : y ∈ syms n m) (hx : x ∈ syms n (m + 1)) {a : Sym K} {q : SZ} {X : FockRing n K} (h : Loc n g m q X (getOp tiny t v g m a.abs)) (hq : q = lab g x - lab g y)
    (hX : symVal t v m n a = X) : EntOk tiny t v g n m ⟨y, x, some a⟩ := by
  refine ⟨hy, hx, fun b hb => ?_⟩
  injection hb with hb
  subst hb
  subst hX
  rw [← hq]
  exact h

theorem ok_scale {y x : S} (hy : y ∈ syms n m) (hx : x ∈ syms n (m + 1)) {a : Sym K} {q : SZ} {X : FockRing n K} (f : K) (h : Loc n g m q X (getOp tiny t v g m a.abs))
    (hq : f ≠ 0 → q = lab g x - lab g y) (hX : symVal t v m n a = X) : EntOk tiny t v g n m ⟨y, x, scale f a⟩ := by
  unfold scale
  split_ifs with hf
  · exact ⟨hy, hx, fun b hb => by cases hb⟩
  · exact ok_some hy hx (a := { a with factor := a.factor * f }) h (hq hf) hX

variable (hm : m < n) (htiny : ∀ x, tiny x = true ↔ x = 0) (ha : SpinAllowed g t v)

theorem xor_cancel (a b : Nat) : a ^^^ (b ^^^ a) = b := by rw [Nat.xor_comm b, ← Nat.xor_assoc, Nat.xor_self, Nat.zero_xor]

theorem xor_swap {a b c d : Nat} (h : a ^^^ b ^^^ c ^^^ d = 0) : c = a ^^^ (b ^^^ d) := by
  have : a ^^^ (b ^^^ d) ^^^ c = 0 := by
    refine Eq.trans ?_ h
    ac_rfl
  exact (xor_zero.1 this).symm

theorem hq_ok (j k : Nat) (s s' : Bool) : qa g j s - qb g k s' = qp g j k s s' := by simp [qa, qb, qp, SZ_sub]
theorem hq_aa (j k : Nat) (s s' : Bool) : qa g j s - qa g k s' = -qm g k j s' s := by simp [qa, qm, SZ_sub, SZ_neg, Nat.xor_comm]
theorem hq_ba (j k : Nat) (s s' : Bool) : qb g j s - qa g k s' = -qp g j k s s' := by simp [qa, qb, qp, SZ_sub, SZ_neg]; ring
theorem hq_bb (j k : Nat) (s s' : Bool) : qb g j s - qb g k s' = -qm g j k s s' := by simp [qb, qm, SZ_sub, SZ_neg]; ring
theorem qp_comm (j k : Nat) (s s' : Bool) : qp g j k s s' = qp g k j s' s := by simp [qp, Nat.xor_comm, add_comm]
theorem qp_add (j k : Nat) (s s' : Bool) : qp g j k s s' = qa g j s + qa g k s' := by simp [qp, qa, SZ_add]
theorem qm_add (j k : Nat) (s s' : Bool) : qm g j k s s' = qa g j s - qa g k s' := by simp [qm, qa, SZ_sub]

include hm htiny ha

theorem h_ok : ∀ e ∈ hEnts g m, EntOk tiny t v g n m e := by
  intro e h
  simp only [hEnts, List.mem_append, List.mem_cons, List.not_mem_nil, or_false, mem_ones, mem_pairs, List.mem_map] at h
  rcases h with (((((((h | h) | h) | h) | h) | h) | h) | h)
  · rcases h with rfl | rfl
    · exact ok_some mem_h mem_h (loc_i tiny t v g m hm) (sub_self _).symm (symVal_i ..)
    · exact ok_some mem_i mem_h (loc_h tiny t v g m hm) (sub_self _).symm (symVal_h ..)
  · obtain ⟨s, j, hj, rfl⟩ := h
    exact ok_some (mem_c s hj) mem_h (loc_r tiny t v g m hm htiny ha j s) ((qb_neg g j s).trans (zero_sub _).symm) (symVal_r (g := g) ..)
  · obtain ⟨s, j, hj, rfl⟩ := h
    exact ok_some (mem_d s hj) mem_h (loc_rd tiny t v g m hm htiny ha j s) ((zero_sub _).trans (by simp [lab, qb_neg])).symm (symVal_rd (g := g) ..)
  · obtain ⟨s, _, rfl⟩ := h
    exact ok_some (mem_rd s le_rfl hm) mem_h (loc_d tiny t v g m hm s) ((qb_neg g m s).trans (zero_sub _).symm) (symVal_d (g := g) ..)
  · obtain ⟨s, _, rfl⟩ := h
    exact ok_some (mem_r s le_rfl hm) mem_h (loc_c tiny t v g m hm s) ((zero_sub _).trans (by simp [lab, qb_neg])).symm (symVal_c (g := g) ..)
  · obtain ⟨sr, sl, j, hj, k, hk, rfl⟩ := h
    exact ok_scale (mem_a sl sr hj hk) mem_h _ (loc_p tiny t v g m hm htiny ha j k sl sr) (fun _ => (zero_sub _).symm) (symVal_p ..)
  · obtain ⟨sr, sl, j, hj, k, hk, rfl⟩ := h
    exact ok_scale (mem_ad sl sr hj hk) mem_h _ (loc_pd tiny t v g m hm htiny ha j k sl sr) (fun _ => ((zero_sub _).trans (neg_neg _)).symm) (symVal_pd ..)
  · obtain ⟨sr, sl, j, hj, k, hk, rfl⟩ := h
    exact ok_some (mem_b sl sr hj hk) mem_h (loc_q tiny t v g m hm htiny ha j k sl sr) (zero_sub _).symm (symVal_q ..)

theorem c_ok : ∀ e ∈ cEnts g m, EntOk tiny t v g n m e := by
  intro e h
  simp only [cEnts, List.mem_flatMap, List.mem_append, List.mem_map, List.mem_range, List.mem_singleton] at h
  obtain ⟨s, _, h⟩ := h
  rcases h with ⟨j, hj, rfl⟩ | rfl
  · exact ok_some (mem_c s hj) (mem_c s (by omega)) (loc_i tiny t v g m hm) (sub_self _).symm (symVal_i ..)
  · exact ok_some mem_i (mem_c s (by omega)) (loc_c tiny t v g m hm s) (sub_zero _).symm (symVal_c (g := g) ..)

theorem d_ok : ∀ e ∈ dEnts g m, EntOk tiny t v g n m e := by
  intro e h
  simp only [dEnts, List.mem_flatMap, List.mem_append, List.mem_map, List.mem_range, List.mem_singleton] at h
  obtain ⟨s, _, h⟩ := h
  rcases h with ⟨j, hj, rfl⟩ | rfl
  · exact ok_some (mem_d s hj) (mem_d s (by omega)) (loc_i tiny t v g m hm) (sub_self _).symm (symVal_i ..)
  · exact ok_some mem_i (mem_d s (by omega)) (loc_d tiny t v g m hm s) (sub_zero _).symm (symVal_d (g := g) ..)

theorem rd_ok (sym : Bool) : ∀ e ∈ rdEnts v g sym n m, EntOk tiny t v g n m e := by
  intro e h
  rw [rdEnts] at h
  obtain ⟨s, _, h⟩ := List.mem_flatMap.1 h
  obtain ⟨i, hi, h⟩ := List.mem_flatMap.1 h
  have hi := List.mem_range'_1.1 hi
  have hrd : S.rd i s ∈ syms n (m + 1) := mem_rd s hi.1 (by omega)
  have ld := fun s => loc_d tiny t v g m hm s
  have lc := fun s => loc_c tiny t v g m hm s
  have c1 : ∀ j l sp, v s sp i j m l ≠ 0 → qb g m sp = qa g i s - qp g j l s sp := by
    intro j l sp h
    have := xor_swap (ha.two _ _ _ _ _ _ h)
    simp [qb, qa, qp, SZ_sub, -List.getD_eq_getElem?_getD, this]
  have c2 : ∀ k l sp, v s sp i m k l ≠ 0 → qa g m s = qa g i s - qm g l k sp sp := by
    intro k l sp h
    have h' := ha.two _ _ _ _ _ _ h
    have : g.getD m 0 = g.getD i 0 ^^^ (g.getD l 0 ^^^ g.getD k 0) := xor_swap (Eq.trans (by ac_rfl) h')
    simp [qa, qm, SZ_sub, -List.getD_eq_getElem?_getD, this]
  have c3 : ∀ j k sp, v s sp i j k m ≠ 0 → qa g m sp = qa g i s - qm g j k s sp := by
    intro j k sp h
    have h' := ha.two _ _ _ _ _ _ h
    have : g.getD m 0 = g.getD i 0 ^^^ (g.getD j 0 ^^^ g.getD k 0) := xor_swap (Eq.trans (by ac_rfl) h')
    simp [qa, qm, SZ_sub, -List.getD_eq_getElem?_getD, this]
  have p1 : ∀ e ∈ ([⟨.rd i s, .rd i s, some iSymbol⟩, ⟨.i, .rd i s, some (rdSym g i s)⟩] : List (Ent K)), EntOk tiny t v g n m e := by
    intro e h
    simp only [List.mem_cons, List.not_mem_nil, or_false] at h
    rcases h with rfl | rfl
    · exact ok_some (mem_rd s (by omega) (by omega)) hrd (loc_i tiny t v g m hm) (sub_self _).symm (symVal_i ..)
    · exact ok_some mem_i hrd (loc_rd tiny t v g m hm htiny ha i s) (sub_zero _).symm (symVal_rd (g := g) ..)
  have p2 : ∀ sp k, k < m → ∀ e ∈ ([⟨.d k sp, .rd i s, some (pdSym g i k s sp)⟩, ⟨.c k sp, .rd i s, some (qSym g k i sp s)⟩] : List (Ent K)), EntOk tiny t v g n m e := by
    intro sp k hk e h
    simp only [List.mem_cons, List.not_mem_nil, or_false] at h
    rcases h with rfl | rfl
    · exact ok_some (mem_d sp hk) hrd (loc_pd tiny t v g m hm htiny ha i k s sp) (hq_ok i k s sp).symm (symVal_pd ..)
    · exact ok_some (mem_c sp hk) hrd (loc_q tiny t v g m hm htiny ha k i sp s) (hq_aa i k s sp).symm (symVal_q ..)
  have p3 : ∀ f sp j l, j < m → l < m → (f ≠ 0 → v s sp i j m l ≠ 0) → EntOk tiny t v g n m ⟨.a j l s sp, .rd i s, scale f (dSym g m sp)⟩ := fun f sp j l hj hl h0 =>
    ok_scale (mem_a s sp hj hl) hrd _ (ld sp) (fun h => c1 j l sp (h0 h)) (symVal_d (g := g) ..)
  have p3' : ∀ f sp j l, j < m → l < m → (f ≠ 0 → v s sp i l m j ≠ 0) → EntOk tiny t v g n m ⟨.a j l sp s, .rd i s, scale f (dSym g m sp)⟩ := fun f sp j l hj hl h0 =>
    ok_scale (mem_a sp s hj hl) hrd _ (ld sp) (fun h => (c1 l j sp (h0 h)).trans (by rw [qp_comm]; rfl)) (symVal_d (g := g) ..)
  have p4 : ∀ f sp k l, k < m → l < m → (f ≠ 0 → v s sp i m k l ≠ 0) → EntOk tiny t v g n m ⟨.b l k sp sp, .rd i s, scale f (cSym g m s)⟩ := fun f sp j l hj hl h0 =>
    ok_scale (mem_b sp sp hl hj) hrd _ (lc s) (fun h => c2 _ _ _ (h0 h)) (symVal_c (g := g) ..)
  have p5 : ∀ f sp j k, j < m → k < m → (f ≠ 0 → v s sp i j k m ≠ 0) → EntOk tiny t v g n m ⟨.b j k s sp, .rd i s, scale f (cSym g m sp)⟩ := fun f sp j l hj hl h0 =>
    ok_scale (mem_b s sp hj hl) hrd _ (lc sp) (fun h => c3 _ _ _ (h0 h)) (symVal_c (g := g) ..)
  have nz : ∀ {a b : K}, a * b ≠ 0 → b ≠ 0 := fun h h0 => h (by rw [h0, mul_zero])
  rw [rdEnt] at h
  simp only [List.mem_append] at h
  rcases h with ((((h | h) | h) | h) | h)
  · exact p1 e h
  · simp only [List.mem_flatMap, List.mem_range] at h
    obtain ⟨sp, _, k, hk, h⟩ := h
    exact p2 sp k hk e h
  · cases sym
    · simp only [Bool.false_eq_true, if_false, List.mem_flatMap, List.mem_range, List.mem_map] at h
      obtain ⟨sp, _, j, hj, l, hl, rfl⟩ := h
      exact p3 _ sp j l hj hl id
    · simp only [if_true, List.mem_flatMap, List.mem_range, List.mem_cons, List.not_mem_nil, or_false] at h
      obtain ⟨sp, _, j, hj, l, hl, h⟩ := h
      rcases h with rfl | rfl
      · exact p3 _ sp j l hj hl nz
      · exact p3' _ sp j l hj hl nz
  · simp only [List.mem_flatMap, List.mem_range, List.mem_map] at h
    obtain ⟨sp, _, k, hk, l, hl, rfl⟩ := h
    exact p4 _ sp k l hk hl id
  · simp only [List.mem_flatMap, List.mem_range, List.mem_map] at h
    obtain ⟨sp, _, j, hj, k, hk, rfl⟩ := h
    exact p5 _ sp j k hj hk nz

theorem r_ok (sym : Bool) : ∀ e ∈ rEnts v g sym n m, EntOk tiny t v g n m e := by
  intro e h
  rw [rEnts] at h
  obtain ⟨s, _, h⟩ := List.mem_flatMap.1 h
  obtain ⟨i, hi, h⟩ := List.mem_flatMap.1 h
  have hi := List.mem_range'_1.1 hi
  have hrd : S.r i s ∈ syms n (m + 1) := mem_r s hi.1 (by omega)
  have ld := fun s => loc_d tiny t v g m hm s
  have lc := fun s => loc_c tiny t v g m hm s
  have c1 : ∀ j l sp, v s sp i j m l ≠ 0 → qa g m sp = qb g i s - -qp g j l s sp := by
    intro j l sp h
    have := xor_swap (ha.two _ _ _ _ _ _ h)
    simp [qb, qa, qp, SZ_add, -List.getD_eq_getElem?_getD, this]
  have c2 : ∀ k l sp, v s sp i m k l ≠ 0 → qb g m s = qb g i s - qm g k l sp sp := by
    intro k l sp h
    have h' := ha.two _ _ _ _ _ _ h
    have : g.getD m 0 = g.getD i 0 ^^^ (g.getD k 0 ^^^ g.getD l 0) := xor_swap (Eq.trans (by ac_rfl) h')
    simp [qb, qm, SZ_sub, -List.getD_eq_getElem?_getD, this]
  have c3 : ∀ j k sp, v s sp i j k m ≠ 0 → qb g m sp = qb g i s - qm g k j sp s := by
    intro j k sp h
    have h' := ha.two _ _ _ _ _ _ h
    have : g.getD m 0 = g.getD i 0 ^^^ (g.getD k 0 ^^^ g.getD j 0) := xor_swap (Eq.trans (by ac_rfl) h')
    simp [qb, qm, SZ_sub, -List.getD_eq_getElem?_getD, this]
    ring
  have nz : ∀ {a b : K}, a * b ≠ 0 → b ≠ 0 := fun h h0 => h (by rw [h0, mul_zero])
  have p1 : ∀ e ∈ ([⟨.r i s, .r i s, some iSymbol⟩, ⟨.i, .r i s, some (rSym g i s).neg⟩] : List (Ent K)), EntOk tiny t v g n m e := by
    intro e h
    simp only [List.mem_cons, List.not_mem_nil, or_false] at h
    rcases h with rfl | rfl
    · exact ok_some (mem_r s (by omega) (by omega)) hrd (loc_i tiny t v g m hm) (sub_self _).symm (symVal_i ..)
    · exact ok_some mem_i hrd (loc_r tiny t v g m hm htiny ha i s) (sub_zero _).symm (symVal_r (g := g) ..)
  have p2 : ∀ sp k, k < m → ∀ e ∈ ([⟨.c k sp, .r i s, scale (-1) (pSym g i k s sp)⟩, ⟨.d k sp, .r i s, scale (-1) (qSym g i k s sp)⟩] : List (Ent K)), EntOk tiny t v g n m e := by
    intro sp k hk e h
    simp only [List.mem_cons, List.not_mem_nil, or_false] at h
    rcases h with rfl | rfl
    · exact ok_scale (mem_c sp hk) hrd _ (loc_p tiny t v g m hm htiny ha i k s sp) (fun _ => (hq_ba i k s sp).symm) (symVal_p ..)
    · exact ok_scale (mem_d sp hk) hrd _ (loc_q tiny t v g m hm htiny ha i k s sp) (fun _ => (hq_bb i k s sp).symm) (symVal_q ..)
  have p3 : ∀ f sp j l, j < m → l < m → (f ≠ 0 → v s sp i j m l ≠ 0) → EntOk tiny t v g n m ⟨.ad j l s sp, .r i s, scale f (cSym g m sp)⟩ := fun f sp j l hj hl h0 =>
    ok_scale (mem_ad s sp hj hl) hrd _ (lc sp) (fun h => c1 j l sp (h0 h)) (symVal_c (g := g) ..)
  have p3' : ∀ f sp j l, j < m → l < m → (f ≠ 0 → v s sp i l m j ≠ 0) → EntOk tiny t v g n m ⟨.ad j l sp s, .r i s, scale f (cSym g m sp)⟩ := fun f sp j l hj hl h0 =>
    ok_scale (mem_ad sp s hj hl) hrd _ (lc sp) (fun h => (c1 l j sp (h0 h)).trans (by rw [qp_comm]; rfl)) (symVal_c (g := g) ..)
  have p4 : ∀ f sp k l, k < m → l < m → (f ≠ 0 → v s sp i m k l ≠ 0) → EntOk tiny t v g n m ⟨.b k l sp sp, .r i s, scale f (dSym g m s)⟩ := fun f sp j l hj hl h0 =>
    ok_scale (mem_b sp sp hj hl) hrd _ (ld s) (fun h => c2 _ _ _ (h0 h)) (symVal_d (g := g) ..)
  have p5 : ∀ f sp j k, j < m → k < m → (f ≠ 0 → v s sp i j k m ≠ 0) → EntOk tiny t v g n m ⟨.b k j sp s, .r i s, scale f (dSym g m sp)⟩ := fun f sp j l hj hl h0 =>
    ok_scale (mem_b sp s hl hj) hrd _ (ld sp) (fun h => c3 _ _ _ (h0 h)) (symVal_d (g := g) ..)
  rw [rEnt] at h
  simp only [List.mem_append] at h
  rcases h with ((((h | h) | h) | h) | h)
  · exact p1 e h
  · simp only [List.mem_flatMap, List.mem_range] at h
    obtain ⟨sp, _, k, hk, h⟩ := h
    exact p2 sp k hk e h
  · cases sym
    · simp only [Bool.false_eq_true, if_false, List.mem_flatMap, List.mem_range, List.mem_map] at h
      obtain ⟨sp, _, j, hj, l, hl, rfl⟩ := h
      exact p3 _ sp j l hj hl nz
    · simp only [if_true, List.mem_flatMap, List.mem_range, List.mem_cons, List.not_mem_nil, or_false] at h
      obtain ⟨sp, _, j, hj, l, hl, h⟩ := h
      rcases h with rfl | rfl
      · exact p3 _ sp j l hj hl nz
      · exact p3' _ sp j l hj hl nz
  · simp only [List.mem_flatMap, List.mem_range, List.mem_map] at h
    obtain ⟨sp, _, k, hk, l, hl, rfl⟩ := h
    exact p4 _ sp k l hk hl nz
  · simp only [List.mem_flatMap, List.mem_range, List.mem_map] at h
    obtain ⟨sp, _, j, hj, k, hk, rfl⟩ := h
    exact p5 _ sp j k hj hk nz

theorem a_ok : ∀ e ∈ aEnts g m, EntOk tiny t v g n m e := by
  intro e h
  simp only [aEnts, List.mem_flatMap, List.mem_append, List.mem_map, List.mem_range, List.mem_cons, List.not_mem_nil, or_false] at h
  obtain ⟨sr, _, sl, _, h⟩ := h
  rcases h with (⟨j, hj, k, hk, rfl⟩ | ⟨j, hj, h⟩) | rfl
  · exact ok_some (mem_a _ _ hj hk) (mem_a _ _ (by omega) (by omega)) (loc_i tiny t v g m hm) (sub_self _).symm (symVal_i ..)
  · rcases h with rfl | rfl
    · exact ok_some (mem_c _ hj) (mem_a _ _ (by omega) (by omega)) (loc_c tiny t v g m hm sr) (by simp only [lab, qp_add]; abel) (symVal_c (g := g) ..)
    · exact ok_some (mem_c _ hj) (mem_a _ _ (by omega) (by omega)) (loc_c tiny t v g m hm sl) (by simp only [lab, qp_add]; abel) (symVal_c (g := g) ..)
  · exact ok_some mem_i (mem_a _ _ (by omega) (by omega)) (loc_a tiny t v g m hm sl sr) (sub_zero _).symm (symVal_a ..)

theorem ad_ok : ∀ e ∈ adEnts g m, EntOk tiny t v g n m e := by
  intro e h
  simp only [adEnts, List.mem_flatMap, List.mem_append, List.mem_map, List.mem_range, List.mem_cons, List.not_mem_nil, or_false] at h
  obtain ⟨sr, _, sl, _, h⟩ := h
  rcases h with (⟨j, hj, k, hk, rfl⟩ | ⟨j, hj, h⟩) | rfl
  · exact ok_some (mem_ad _ _ hj hk) (mem_ad _ _ (by omega) (by omega)) (loc_i tiny t v g m hm) (sub_self _).symm (symVal_i ..)
  · rcases h with rfl | rfl
    · exact ok_some (mem_d _ hj) (mem_ad _ _ (by omega) (by omega)) (loc_d tiny t v g m hm sr) (by simp only [lab, qp_add, qb_neg]; abel) (symVal_d (g := g) ..)
    · exact ok_some (mem_d _ hj) (mem_ad _ _ (by omega) (by omega)) (loc_d tiny t v g m hm sl) (by simp only [lab, qp_add, qb_neg]; abel) (symVal_d (g := g) ..)
  · exact ok_some mem_i (mem_ad _ _ (by omega) (by omega)) (loc_ad tiny t v g m hm sl sr) (sub_zero _).symm (symVal_ad ..)

theorem b_ok : ∀ e ∈ bEnts g m, EntOk tiny t v g n m e := by
  intro e h
  simp only [bEnts, List.mem_flatMap, List.mem_append, List.mem_map, List.mem_range, List.mem_cons, List.not_mem_nil, or_false] at h
  obtain ⟨sr, _, sl, _, h⟩ := h
  rcases h with (⟨j, hj, k, hk, rfl⟩ | ⟨j, hj, h⟩) | rfl
  · exact ok_some (mem_b _ _ hj hk) (mem_b _ _ (by omega) (by omega)) (loc_i tiny t v g m hm) (sub_self _).symm (symVal_i ..)
  · rcases h with rfl | rfl
    · exact ok_some (mem_c _ hj) (mem_b _ _ (by omega) (by omega)) (loc_d tiny t v g m hm sr) (by simp only [lab, qm_add, qb_neg]; abel) (symVal_d (g := g) ..)
    · exact ok_some (mem_d _ hj) (mem_b _ _ (by omega) (by omega)) (loc_c tiny t v g m hm sl) (by simp only [lab, qm_add, qb_neg]; abel) (symVal_c (g := g) ..)
  · exact ok_some mem_i (mem_b _ _ (by omega) (by omega)) (loc_b tiny t v g m hm sl sr) (sub_zero _).symm (symVal_b ..)

theorem mid_ok (sym : Bool) : ∀ e ∈ ents v g sym n m, EntOk tiny t v g n m e := by
  intro e h
  simp only [ents, List.mem_append, List.mem_singleton] at h
  rcases h with (((((((h | h) | h) | h) | h) | h) | h) | h) | h
  · exact h_ok hm htiny ha e h
  · subst h
    exact ok_some mem_i mem_i (loc_i tiny t v g m hm) (sub_self _).symm (symVal_i ..)
  · exact c_ok hm htiny ha e h
  · exact d_ok hm htiny ha e h
  · exact rd_ok hm htiny ha sym e h
  · exact r_ok hm htiny ha sym e h
  · exact a_ok hm htiny ha e h
  · exact ad_ok hm htiny ha e h
  · exact b_ok hm htiny ha e h

end

theorem first_ok {tiny : K → Bool} {t : Bool → Nat → Nat → K} {v : Bool → Bool → Nat → Nat → Nat → Nat → K} {g : List Nat} (hn : 0 < n)
    (htiny : ∀ x, tiny x = true ↔ x = 0) (ha : SpinAllowed g t v) : ∀ e ∈ firstEnts g n, EntOk tiny t v g n 0 e ∧ e.y = .h := by
  intro e h
  simp only [firstEnts, List.mem_flatMap, List.mem_append, List.mem_map, mem_lates, List.mem_cons, List.not_mem_nil, or_false] at h
  rcases h with ((((h | h) | h) | h) | h) | h
  · rcases h with rfl | rfl | rfl | rfl | rfl | rfl
    · exact ⟨ok_some mem_h mem_h (loc_h tiny t v g 0 hn) (sub_self _).symm (symVal_h ..), rfl⟩
    · exact ⟨ok_some mem_h mem_i (loc_i tiny t v g 0 hn) (sub_self _).symm (symVal_i ..), rfl⟩
    · exact ⟨ok_some mem_h (mem_c _ Nat.one_pos) (loc_c tiny t v g 0 hn _) (sub_zero _).symm (symVal_c (g := g) ..), rfl⟩
    · exact ⟨ok_some mem_h (mem_c _ Nat.one_pos) (loc_c tiny t v g 0 hn _) (sub_zero _).symm (symVal_c (g := g) ..), rfl⟩
    · exact ⟨ok_some mem_h (mem_d _ Nat.one_pos) (loc_d tiny t v g 0 hn _) (sub_zero _).symm (symVal_d (g := g) ..), rfl⟩
    · exact ⟨ok_some mem_h (mem_d _ Nat.one_pos) (loc_d tiny t v g 0 hn _) (sub_zero _).symm (symVal_d (g := g) ..), rfl⟩
  · obtain ⟨s, j, hj, rfl⟩ := h
    exact ⟨ok_some mem_h (mem_rd _ hj.1 (by omega)) (loc_rd tiny t v g 0 hn htiny ha j s) (sub_zero _).symm (symVal_rd (g := g) ..), rfl⟩
  · obtain ⟨s, j, hj, rfl⟩ := h
    exact ⟨ok_some mem_h (mem_r _ hj.1 (by omega)) (loc_r tiny t v g 0 hn htiny ha j s) (sub_zero _).symm (symVal_r (g := g) ..), rfl⟩
  · obtain ⟨sr, _, sl, _, rfl⟩ := h
    exact ⟨ok_some mem_h (mem_a _ _ Nat.one_pos Nat.one_pos) (loc_a tiny t v g 0 hn sl sr) (sub_zero _).symm (symVal_a ..), rfl⟩
  · obtain ⟨sr, _, sl, _, rfl⟩ := h
    exact ⟨ok_some mem_h (mem_ad _ _ Nat.one_pos Nat.one_pos) (loc_ad tiny t v g 0 hn sl sr) (sub_zero _).symm (symVal_ad ..), rfl⟩
  · obtain ⟨sr, _, sl, _, rfl⟩ := h
    exact ⟨ok_some mem_h (mem_b _ _ Nat.one_pos Nat.one_pos) (loc_b tiny t v g 0 hn sl sr) (sub_zero _).symm (symVal_b ..), rfl⟩

end ConvMpo
end Verif
