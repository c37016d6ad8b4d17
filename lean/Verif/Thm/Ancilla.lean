import Verif.Model.Ancilla
import Verif.Spec.Ancilla
import Verif.Proof.MpoMul
import Verif.Proof.Compress
import Verif.Proof.FermTrace2
import Verif.Proof.SymmFuse
import Verif.Proof.MpsInfoState

set_option linter.unusedSectionVars false

/-!
C82: the operator on the doubled lattice.
-/

namespace Verif
open Ancilla
section
variable {Q K : Type} [DecidableEq Q] [AddCommGroup Q] [CommRing K]

/-- The blocks of `ones` on one leg. -/
theorem ones_leg (le : Q → Q → Bool) {b : BondInfo Q} (hne : b ≠ []) :
    SpT.ones (K := K) le [b] none none = some ((sortBy (fun x y => le x.1 y.1) b).map fun p => ([p.1], Arr.ones [p.2])) := by
  unfold SpT.ones SpT.skeleton
  rw [if_neg (by simp [hne])]
  rw [Option.map_some]
  congr 1
  simp only [List.map_cons, List.map_nil, cart]
  generalize sortBy (fun x y : Q × Nat => le x.1 y.1) b = l
  induction l with
  | nil => rfl
  | cons p t ih =>
    simp only [List.flatMap_cons, List.filterMap_append, List.map_append, List.map_cons, List.map_nil] at ih ⊢
    rw [ih]
    simp [BondFusingInfo.signedLabels]

theorem ones_leg_spec (le : Q → Q → Bool) {b : BondInfo Q} (hb : Dict.WF b) :
    Conforms [b] ((sortBy (fun x y => le x.1 y.1) b).map fun p => (([p.1], Arr.ones [p.2]) : List Q × Arr K)) ∧
    UniqueLabels ((sortBy (fun x y => le x.1 y.1) b).map fun p => (([p.1], Arr.ones [p.2]) : List Q × Arr K)) ∧
    ∀ z, entry ((sortBy (fun x y => le x.1 y.1) b).map fun p => (([p.1], Arr.ones [p.2]) : List Q × Arr K)) [z] =
      if z.2 < Counter.count b z.1 then 1 else 0 := by
  have hu : UniqueLabels ((sortBy (fun x y => le x.1 y.1) b).map fun p => (([p.1], Arr.ones [p.2]) : List Q × Arr K)) := by
    unfold UniqueLabels
    rw [List.map_map]
    have hp := ((sortBy_perm (fun x y : Q × Nat => le x.1 y.1) b).map Prod.fst).nodup_iff.2 hb
    have := hp.map (f := fun q : Q => [q]) (fun a c h => by simpa using h)
    rw [List.map_map] at this
    exact this
  refine ⟨?_, hu, ?_⟩
  · intro x hx
    obtain ⟨p, hp, rfl⟩ := List.mem_map.1 hx
    rw [mem_sortBy] at hp
    exact .cons (Dict.get?_of_mem hb hp) .nil
  · intro z
    unfold Counter.count
    cases hg : Dict.get? b z.1 with
    | none =>
      rw [if_neg (by simp)]
      apply entry_eq_zero_of
      intro x hx
      obtain ⟨p, hp, rfl⟩ := List.mem_map.1 hx
      rw [mem_sortBy] at hp
      intro h
      have : p.1 = z.1 := by simpa using h
      have h2 := Dict.get?_of_mem hb hp
      rw [this, hg] at h2
      cases h2
    | some s =>
      have hm : (z.1, s) ∈ b := Dict.mem_of_get? hg
      rw [entry_of_mem hu (b := ([z.1], Arr.ones [s])) (List.mem_map.2 ⟨(z.1, s), by rw [mem_sortBy]; exact hm, rfl⟩) rfl]
      simp [blockEntry, Arr.ones, inBox]

theorem tensordot_nil_left (B : SpT Q K) : SpT.tensordot ([] : SpT Q K) B [] [] = some [] := rfl

theorem tensordot_nil_right (A : SpT Q K) : SpT.tensordot A ([] : SpT Q K) [] [] = some [] := by
  have : ∀ (A : SpT Q K) (ia ib oa ob : List Nat), SpT.tensordotCore A [] ia ib oa ob = [] := by
    intro A ia ib oa ob
    unfold SpT.tensordotCore
    induction A with
    | nil => rfl
    | cons a t ih => simpa [SpT.collectB, Dict.get?] using ih
  unfold SpT.tensordot
  simp [this]

theorem addAliased_nil (E : SpT Q K) (hu : UniqueLabels E) (f : List Q → Bool) : OpT.addAliased [] E f (fun _ => false) = E := by
  unfold OpT.addAliased
  rw [add_eq_append [] E (by simpa using hu), List.nil_append]
  conv_rhs => rw [← List.map_id E]
  apply List.map_congr_left
  intro b _
  simp [Dict.has, Dict.get?]

/-- The identity tensor between two copies of a bond. -/
theorem ident_spec (isF : Q → Bool) (le : Q → Q → Bool) {info b : BondInfo Q} (hi : Dict.WF info) (hin : info ≠ []) (hb : Dict.WF b) (hbn : b ≠ []) :
    ∃ I : OpT Q K, identTensor isF le info b = some I ∧ OpBlocks [info, b, b, info] I ∧
      ∀ s z a a' z', opEntry I s [z, a, a', z'] =
        if (z = z' ∧ a = a') ∧ z.2 < Counter.count info z.1 ∧ a.2 < Counter.count b a.1 then 1 else 0 := by
  obtain ⟨a1, a2, a3⟩ := ones_leg_spec (K := K) le hi
  obtain ⟨b1, b2, b3⟩ := ones_leg_spec (K := K) le hb
  generalize hA : (sortBy (fun x y : Q × Nat => le x.1 y.1) info).map (fun p => (([p.1], Arr.ones [p.2]) : List Q × Arr K)) = A at a1 a2 a3
  generalize hB : (sortBy (fun x y : Q × Nat => le x.1 y.1) b).map (fun p => (([p.1], Arr.ones [p.2]) : List Q × Arr K)) = B at b1 b2 b3
  have cA := diagOf_conforms (RingHom.id K) a1
  have cB := diagOf_conforms (RingHom.id K) b1
  have eA := diagOf_entry (RingHom.id K) a1
  have eB := diagOf_entry (RingHom.id K) b1
  obtain ⟨R, r1, r2, r3, r4⟩ := C12_tensordot_int (SpT.diagOf (RingHom.id K) A) (SpT.diagOf (RingHom.id K) B) 0 [info, info] [b, b] []
    (by simpa using cA) (by simpa using cB) rfl (by simp)
  have r1' : SpT.tensordot (SpT.diagOf id A) (SpT.diagOf id B) [] [] = some R := r1
  have hAne : A ≠ [] := by
    rw [← hA]
    intro h
    rw [List.map_eq_nil_iff] at h
    have := (sortBy_perm (fun x y : Q × Nat => le x.1 y.1) info)
    rw [h] at this
    exact hin this.symm.eq_nil
  have hnd : SpT.ndim (SpT.diagOf id A : SpT Q K) = 2 := ndim_of_conforms cA (by
    intro h
    exact hAne (List.map_eq_nil_iff.1 h))
  have hperm : [0, 2, 3, 1].Perm (List.range [info, info, b, b].length) := by
    show [0, 2, 3, 1].Perm [0, 1, 2, 3]
    decide
  have hI : identTensor (K := K) isF le info b = some ⟨[], R.transpose (some [0, 2, 3, 1])⟩ := by
    unfold identTensor OpT.ones
    rw [ones_leg le hin, ones_leg le hbn, hA, hB]
    show (OpT.tensordot isF (OpT.diag ⟨[], A⟩) (OpT.diag ⟨[], B⟩) [] []).bind (fun r => some (r.transpose [0, 2, 3, 1])) = _
    have ho : (SpT.diagOf id ([] : SpT Q K) : SpT Q K) = [] := rfl
    unfold OpT.tensordot OpT.diag
    simp only [List.map_nil]
    rw [ho, tensordot_nil_left, tensordot_nil_right, tensordot_nil_left, r1']
    simp only [Option.bind_some]
    rw [if_pos (by simp)]
    have hn : OpT.ndim (⟨[], SpT.diagOf id A⟩ : OpT Q K) = 2 := by
      unfold OpT.ndim
      show 0 ||| SpT.ndim (SpT.diagOf id A : SpT Q K) = 2
      rw [hnd]
      rfl
    rw [hn, if_neg (by decide), addAliased_nil R r3]
    rfl
  have c4 := C14_conforms _ R r2 _ hperm
  refine ⟨_, hI, ⟨by intro x hx; simp at hx, c4, by simp [UniqueLabels], transpose_unique r2 r3 hperm⟩, ?_⟩
  intro s z a a' z'
  unfold opEntry
  have h0 : entry ([] : SpT Q K) [z, a, a', z'] = 0 := rfl
  dsimp only
  rw [h0, mul_zero, add_zero]
  have e := C14_entry _ R r2 _ hperm [z, z', a, a'] rfl
  have e' : ([0, 2, 3, 1].map fun i => [z, z', a, a'].getD i (0 : Q × Nat)) = [z, a, a', z'] := rfl
  rw [e'] at e
  rw [e]
  have := r4 [z, z'] [a, a'] rfl rfl
  rw [show [z, z', a, a'] = [z, z'] ++ [a, a'] from rfl, this]
  have hl : legIndices ([] : List (BondInfo Q)) = [[]] := rfl
  rw [hl]
  simp only [List.map_cons, List.map_nil, List.sum_cons, List.sum_nil, add_zero, List.append_nil, List.nil_append]
  rw [eA, eB, a3, b3]
  simp only [RingHom.id_apply]
  by_cases h1 : z = z'
  swap
  · rw [if_neg h1, zero_mul, if_neg (fun h => h1 h.1.1)]
  by_cases h2 : a = a'
  swap
  · rw [if_neg h2, mul_zero, if_neg (fun h => h2 h.1.2)]
  rw [if_pos h1, if_pos h2]
  by_cases h3 : z.2 < Counter.count info z.1
  swap
  · rw [if_neg h3, zero_mul, if_neg (fun h => h3 h.2.1)]
  by_cases h4 : a.2 < Counter.count b a.1
  swap
  · rw [if_neg h4, mul_zero, if_neg (fun h => h4 h.2.2)]
  rw [if_pos h3, if_pos h4, mul_one, if_pos ⟨⟨h1, h2⟩, h3, h4⟩]

/-- An element vanishes when the label of some leg does not occur there. -/
theorem opEntry_zero {W : OpT Q K} {k : Nat} {q : Q} (h : ¬ OccursOn W.both k q) (s : Bool) {x : List (Q × Nat)} (hx : (x.map Prod.fst).getD k 0 = q) :
    opEntry W s x = 0 := by
  unfold opEntry
  rw [entry_eq_zero_of, entry_eq_zero_of, mul_zero, add_zero]
  · intro b hb e
    exact h ⟨b, List.mem_append_left _ hb, by rw [e, hx]⟩
  · intro b hb e
    exact h ⟨b, List.mem_append_right _ hb, by rw [e, hx]⟩

/-- The labels found on a leg suffice. -/
theorem occurs_or {legs : List (BondInfo Q)} {W : OpT Q K} {I : List (BondInfo Q)} (hI : InfoSpec legs W.both I) {k : Nat} (hk : k < legs.length)
    (hw : Dict.WF (legs.getD k [])) {z : Q × Nat} (hz : z ∈ legBasis (legs.getD k [])) :
    z.2 < Counter.count (I.getD k []) z.1 ∨ ¬ OccursOn W.both k z.1 := by
  by_cases h : OccursOn W.both k z.1
  · left
    obtain ⟨s, h1, h2⟩ := get_of_basis hw hz
    have := (hI.get k hk z.1 s).2 ⟨h1, h⟩
    unfold Counter.count
    rw [this]
    exact h2
  · exact Or.inr h

theorem info_ne {legs : List (BondInfo Q)} {W : OpT Q K} {I : List (BondInfo Q)} (hW : OpBlocks legs W) (hne : W.noBlocks = false)
    (hI : InfoSpec legs W.both I) {k : Nat} (hk : k < legs.length) : I.getD k [] ≠ [] := by
  intro h
  have : ∃ b, b ∈ W.both := by
    unfold OpT.noBlocks at hne
    unfold OpT.both
    cases ho : W.odd with
    | cons b t => exact ⟨b, by simp⟩
    | nil =>
      cases he : W.even with
      | cons b t => exact ⟨b, by simp⟩
      | nil => simp [ho, he] at hne
  obtain ⟨b, hb⟩ := this
  have hc : IsCombination legs b.1 b.2.shape := by
    rcases List.mem_append.1 hb with hb | hb
    · exact hW.odd b hb
    · exact hW.even b hb
  have := (hI.get k hk _ _).2 ⟨hc.getD hk, b, hb, rfl⟩
  rw [h] at this
  simp at this

theorem fermParity_single (isF : Q → Bool) (q : Q) : fermParity isF [q] = isF q := by
  unfold fermParity
  cases h : isF q <;> simp [h]

theorem sum_pick {α : Type} [DecidableEq α] (l : List α) (hl : l.Nodup) {y : α} (hy : y ∈ l) (f : α → K) :
    (l.map fun z => if z = y then f z else 0).sum = f y := by
  induction l with
  | nil => simp at hy
  | cons a t ih =>
    rw [List.nodup_cons] at hl
    rw [List.map_cons, List.sum_cons]
    by_cases h : a = y
    · subst h
      rw [if_pos rfl, sum_map_zero', add_zero]
      intro z hz
      rw [if_neg]
      rintro rfl
      exact hl.1 hz
    · rw [if_neg h, zero_add]
      exact ih hl.2 ((List.mem_cons.1 hy).resolve_left fun e => h e.symm)

theorem getLast_info {I : List (BondInfo Q)} {n : Nat} (h : I.length = n + 1) : I.getLast? = some (I.getD n []) := by
  rw [List.getLast?_eq_getElem?, h, Nat.add_sub_cancel, List.getD_eq_getElem?_getD, List.getElem?_eq_getElem (by omega)]
  rfl

theorem head_info {I : List (BondInfo Q)} {n : Nat} (h : I.length = n + 1) : I.head? = some (I.getD 0 []) := by
  cases I with
  | nil => simp at h
  | cons a t => rfl

/-- The identity behind a site. -/
theorem ancilla_absorb_right {l r b : BondInfo Q} {pu pd : List (BondInfo Q)} {W I : OpT Q K} {info : List (BondInfo Q)}
    (hI : InfoSpec (l :: pu ++ pd ++ [r]) W.both info) (hr : Dict.WF r) (hb : Dict.WF b)
    (hId : ∀ s z a a' z', opEntry I s [z, a, a', z'] =
        if (z = z' ∧ a = a') ∧ z.2 < Counter.count (info.getD (pu.length + pd.length + 1) []) z.1 ∧ a.2 < Counter.count b a.1 then 1 else 0)
    {a a' x z z' : Q × Nat} (ha : a ∈ legBasis b) (hz : z ∈ legBasis r) {u d : List (Q × Nat)} (hu : u.length = pu.length) (hd : d.length = pd.length) (s s' : Bool) :
    opEntry W s (x :: u ++ d ++ [z]) * opEntry I s' [z, a, a', z'] = if z = z' ∧ a = a' then opEntry W s (x :: u ++ d ++ [z]) else 0 := by
  rw [hId]
  have hlast : (l :: pu ++ pd ++ [r]).getD (pu.length + pd.length + 1) [] = r := by
    simp [List.getD_eq_getElem?_getD]
  have hlen : pu.length + pd.length + 1 < (l :: pu ++ pd ++ [r]).length := by simp
  by_cases h : z = z' ∧ a = a'
  · rw [if_pos h]
    rcases occurs_or hI hlen (by rw [hlast]; exact hr) (z := z) (by rw [hlast]; exact hz) with h1 | h1
    · rw [if_pos ⟨h, h1, (mem_legBasis hb).1 ha⟩, mul_one]
    · rw [opEntry_zero h1 s, zero_mul]
      simp [List.getD_eq_getElem?_getD, hu, hd]
  · rw [if_neg h, if_neg (fun e => h e.1), mul_zero]

/-- The identity in front of a site. -/
theorem ancilla_absorb_left {l b : BondInfo Q} {rest : List (BondInfo Q)} {W I : OpT Q K} {info : List (BondInfo Q)}
    (hI : InfoSpec (l :: rest) W.both info) (hl : Dict.WF l) (hb : Dict.WF b)
    (hId : ∀ s z a a' z', opEntry I s [z, a, a', z'] =
        if (z = z' ∧ a = a') ∧ z.2 < Counter.count (info.getD 0 []) z.1 ∧ a.2 < Counter.count b a.1 then 1 else 0)
    {a a' z z' : Q × Nat} (ha : a ∈ legBasis b) (hz : z ∈ legBasis l) (t : List (Q × Nat)) (s s' : Bool) :
    opEntry I s' [z, a, a', z'] * opEntry W s (z' :: t) = if z' = z ∧ a = a' then opEntry W s (z' :: t) else 0 := by
  rw [hId]
  by_cases h : z = z' ∧ a = a'
  · rcases occurs_or hI (k := 0) (by simp) hl (z := z) hz with h1 | h1
    · rw [if_pos ⟨h, h1, (mem_legBasis hb).1 ha⟩, one_mul, if_pos ⟨h.1.symm, h.2⟩]
    · rw [opEntry_zero h1 s, mul_zero, if_pos ⟨h.1.symm, h.2⟩]
      simp [h.1]
  · rw [if_neg (fun e => h e.1), zero_mul, if_neg (fun e => h ⟨e.1.symm, e.2⟩)]

theorem Doublable.head {l c : BondInfo Q} {bonds : List (BondInfo Q)} {phys ws basis} (h : Doublable (K := K) (l :: c :: bonds) phys ws basis) :
    ∃ ph phys' W ws' b basis', phys = ph :: phys' ∧ ws = W :: ws' ∧ basis = b :: basis' ∧ OpBlocks (l :: ph.1 ++ ph.2 ++ [c]) W ∧
      Dict.WF l ∧ Dict.WF c ∧ Dict.WF b ∧ b ≠ [] ∧ W.noBlocks = false ∧ (∀ x ∈ l :: ph.1 ++ ph.2 ++ [c], GoodBond x) ∧
      Doublable (c :: bonds) phys' ws' basis' := by
  cases phys with
  | nil => exact (by have := h.on; simp [OpOn] at this)
  | cons ph phys' =>
    cases ws with
    | nil => exact (by have := h.on; simp [OpOn] at this)
    | cons W ws' =>
      cases basis with
      | nil => exact (by have := h.sites; simp at this)
      | cons b basis' =>
        refine ⟨ph, phys', W, ws', b, basis', rfl, rfl, rfl, h.on.1, (h.good l (by simp)).1, (h.good c (by simp)).1, (h.basisGood b (by simp)).1.1,
          (h.basisGood b (by simp)).2, h.blocks W (by simp), ?_, h.on.2, fun x hx => h.good x (List.mem_cons_of_mem _ hx),
          fun p hp => h.legs p (List.mem_cons_of_mem _ hp), fun w hw => h.blocks w (List.mem_cons_of_mem _ hw),
          fun x hx => h.basisGood x (List.mem_cons_of_mem _ hx), by have := h.sites; simpa using this⟩
        intro x hx
        simp only [List.cons_append, List.mem_cons, List.mem_append, List.not_mem_nil, or_false] at hx
        rcases hx with rfl | (hx | hx) | rfl
        · exact h.good _ (by simp)
        · exact h.legs ph (by simp) x (by simp [hx])
        · exact h.legs ph (by simp) x (by simp [hx])
        · exact h.good _ (by simp)

theorem Doublable.nil {l : BondInfo Q} {phys ws basis} (h : Doublable (K := K) [l] phys ws basis) : phys = [] ∧ ws = [] ∧ basis = [] := by
  cases phys with
  | cons ph t => exact (by have := h.on; simp [OpOn] at this)
  | nil =>
    cases ws with
    | cons W t => exact (by have := h.on; simp [OpOn] at this)
    | nil => exact ⟨rfl, rfl, List.length_eq_zero_iff.1 h.sites⟩

theorem opAmpl_site (isF : Q → Bool) (W : OpT Q K) (ws : List (OpT Q K)) (b : BondInfo Q) (bs : List (BondInfo Q)) (s : Bool) (x : Q × Nat) (u : List (Q × Nat))
    (us : List (List (Q × Nat))) (d : List (Q × Nat)) (ds : List (List (Q × Nat))) (y : Q × Nat) :
    opAmpl isF (W :: ws) (b :: bs) s x (u :: us) (d :: ds) y =
      ((legBasis b).map fun z => opEntry W s (x :: u ++ d ++ [z]) * opAmpl isF ws bs (xor s (fermParity isF (d.map Prod.fst))) z us ds y).sum := by
  cases ws <;> rfl

theorem opAmplPar_site (W : OpT Q K) (ws : List (OpT Q K)) (b : BondInfo Q) (bs : List (BondInfo Q)) (s : Bool) (par : List Bool) (x : Q × Nat) (u : List (Q × Nat))
    (us : List (List (Q × Nat))) (d : List (Q × Nat)) (ds : List (List (Q × Nat))) (y : Q × Nat) :
    opAmplPar (W :: ws) (b :: bs) (s :: par) x (u :: us) (d :: ds) y =
      ((legBasis b).map fun z => opEntry W s (x :: u ++ d ++ [z]) * opAmplPar ws bs par z us ds y).sum := by
  cases ws <;> rfl

theorem right_core (isF : Q → Bool) (le : Q → Q → Bool) (r : BondInfo Q) : ∀ (X : List (BondInfo Q)) (l : BondInfo Q) (phys : List (List (BondInfo Q) × List (BondInfo Q)))
    (ws : List (OpT Q K)) (basis : List (BondInfo Q)), Doublable (l :: X ++ [r]) phys ws basis →
    ∃ R, ancillaGo isF le false basis ws = some R ∧ ∀ s x y us ds as as', y ∈ legBasis r → Sized phys us ds → as ∈ legIndices basis →
      as'.length = basis.length →
      opAmpl isF R (bondsRight X r) s x (alternate us (as.map fun a => [a])) (alternate ds (as'.map fun a => [a])) y =
        if as = as' then opAmplPar ws X (seenRight isF s ds as) x us ds y else 0
  | [], l, phys, ws, basis, h => by
    obtain ⟨ph, phys', W, ws', b, basis', rfl, rfl, rfl, hW, hl, hr, hb, hbn, hne, hg, h'⟩ := h.head
    obtain ⟨rfl, rfl, rfl⟩ := h'.nil
    obtain ⟨info, i1, i2⟩ := opInfoSpec hW hne hg (by simp)
    have hlen : info.length = (ph.1.length + ph.2.length + 1) + 1 := by rw [i2.length]; simp; omega
    have hk : ph.1.length + ph.2.length + 1 < (l :: ph.1 ++ ph.2 ++ [r]).length := by simp
    obtain ⟨I, j1, -, j3⟩ := ident_spec (K := K) isF le (i2.good _ hk).1 (info_ne hW hne i2 hk) hb hbn
    refine ⟨[W, I], ?_, ?_⟩
    · unfold ancillaGo
      rw [i1]
      simp only [Option.bind_eq_bind, Option.bind_some, Bool.not_false, if_true]
      rw [getLast_info hlen]
      simp only [Option.bind_some, j1, ancillaGo]
    · intro s x y us ds as as' hy hsz has has'
      cases hsz with
      | @cons _ _ u us d ds hu hd hsz =>
      cases hsz
      rw [mem_legIndices_cons] at has
      obtain ⟨a, ha, t, ht, rfl⟩ := has
      obtain rfl : t = [] := List.length_eq_zero_iff.1 (legIndices_len ht)
      obtain ⟨a', rfl⟩ := List.length_eq_one_iff.1 has'
      show ((legBasis r).map fun z => opEntry W s (x :: u ++ d ++ [z]) * opEntry I _ [z, a, a', y]).sum = if [a] = [a'] then opEntry W s (x :: u ++ d ++ [y]) else 0
      rw [sum_map_congr' _ _ _ fun z hz => ancilla_absorb_right i2 hr hb j3 ha hz hu hd s _]
      by_cases e : a = a'
      · rw [if_pos (by rw [e])]
        rw [sum_map_congr' _ _ (fun z => if z = y then opEntry W s (x :: u ++ d ++ [z]) else 0) fun z _ => by simp [e]]
        exact sum_pick _ (legBasis_nodup hr) hy _
      · rw [if_neg (by simpa using e), sum_map_zero']
        intro z _
        rw [if_neg (fun h => e h.2)]
  | c :: X, l, phys, ws, basis, h => by
    obtain ⟨ph, phys', W, ws', b, basis', rfl, rfl, rfl, hW, hl, hr, hb, hbn, hne, hg, h'⟩ := Doublable.head (l := l) (c := c) (bonds := X ++ [r]) h
    obtain ⟨info, i1, i2⟩ := opInfoSpec hW hne hg (by simp)
    have hlen : info.length = (ph.1.length + ph.2.length + 1) + 1 := by rw [i2.length]; simp; omega
    have hk : ph.1.length + ph.2.length + 1 < (l :: ph.1 ++ ph.2 ++ [c]).length := by simp
    obtain ⟨I, j1, -, j3⟩ := ident_spec (K := K) isF le (i2.good _ hk).1 (info_ne hW hne i2 hk) hb hbn
    obtain ⟨R, r1, r2⟩ := right_core isF le r X c phys' ws' basis' h'
    refine ⟨W :: I :: R, ?_, ?_⟩
    · unfold ancillaGo
      rw [i1]
      simp only [Option.bind_eq_bind, Option.bind_some, Bool.not_false, if_true]
      rw [getLast_info hlen]
      simp only [Option.bind_some, j1, r1]
    · intro s x y us ds as as' hy hsz has has'
      cases hsz with
      | @cons _ _ u us d ds hu hd hsz =>
      rw [mem_legIndices_cons] at has
      obtain ⟨a, ha, t, ht, rfl⟩ := has
      cases as' with
      | nil => simp at has'
      | cons a' t' =>
      have ih := fun s x => r2 s x y us ds t t' hy hsz ht (by simpa using has')
      rw [show seenRight isF s (d :: ds) (a :: t) = s :: seenRight isF (xor (xor s (fermParity isF (d.map Prod.fst))) (isF a.1)) ds t from rfl, opAmplPar_site]
      show opAmpl isF (W :: I :: R) (c :: c :: bondsRight X r) s x (u :: [a] :: alternate us (t.map fun a => [a])) (d :: [a'] :: alternate ds (t'.map fun a => [a])) y = _
      rw [opAmpl_site]
      simp only [opAmpl_site]
      show ((legBasis c).map fun z => opEntry W s (x :: u ++ d ++ [z]) * ((legBasis c).map fun z' => opEntry I _ [z, a, a', z'] *
        opAmpl isF R (bondsRight X r) (xor (xor s (fermParity isF (d.map Prod.fst))) (fermParity isF [a'.1])) z' (alternate us (t.map fun a => [a]))
          (alternate ds (t'.map fun a => [a])) y).sum).sum = _
      rw [fermParity_single]
      simp only [ih]
      have step : ∀ z ∈ legBasis c, opEntry W s (x :: u ++ d ++ [z]) * ((legBasis c).map fun z' => opEntry I (xor s (fermParity isF (d.map Prod.fst))) [z, a, a', z'] *
          (if t = t' then opAmplPar ws' X (seenRight isF (xor (xor s (fermParity isF (d.map Prod.fst))) (isF a'.1)) ds t) z' us ds y else 0)).sum =
          if a :: t = a' :: t' then opEntry W s (x :: u ++ d ++ [z]) *
            opAmplPar ws' X (seenRight isF (xor (xor s (fermParity isF (d.map Prod.fst))) (isF a.1)) ds t) z us ds y else 0 := by
        intro z hz
        rw [← List.sum_map_mul_left]
        by_cases e : a = a'
        · subst e
          rw [sum_map_congr' _ _ (fun z' => if z' = z then opEntry W s (x :: u ++ d ++ [z]) *
              (if t = t' then opAmplPar ws' X (seenRight isF (xor (xor s (fermParity isF (d.map Prod.fst))) (isF a.1)) ds t) z' us ds y else 0) else 0)]
          · rw [sum_pick _ (legBasis_nodup hr) hz]
            by_cases e2 : t = t'
            · rw [if_pos e2, if_pos (by rw [e2])]
            · rw [if_neg e2, if_neg (by simpa using e2), mul_zero]
          · intro z' _
            rw [← mul_assoc, ancilla_absorb_right i2 hr hb j3 ha hz hu hd]
            by_cases e3 : z = z'
            · rw [if_pos ⟨e3, rfl⟩, if_pos e3.symm]
            · rw [if_neg (fun h => e3 h.1), zero_mul, if_neg (fun h => e3 h.symm)]
        · rw [if_neg (by simp [e]), sum_map_zero']
          intro z' _
          rw [← mul_assoc, ancilla_absorb_right i2 hr hb j3 ha hz hu hd, if_neg (fun h => e h.2), zero_mul]
      rw [sum_map_congr' _ _ _ step]
      split_ifs
      · rfl
      · simp

theorem left_core (isF : Q → Bool) (le : Q → Q → Bool) (r : BondInfo Q) : ∀ (X : List (BondInfo Q)) (l : BondInfo Q) (phys : List (List (BondInfo Q) × List (BondInfo Q)))
    (ws : List (OpT Q K)) (basis : List (BondInfo Q)), Doublable (l :: X ++ [r]) phys ws basis →
    ∃ R, ancillaGo isF le true basis ws = some R ∧ ∀ s x y us ds as as', x ∈ legBasis l → Sized phys us ds → as ∈ legIndices basis →
      as'.length = basis.length →
      opAmpl isF R (bondsLeft l X) s x (alternate (as.map fun a => [a]) us) (alternate (as'.map fun a => [a]) ds) y =
        if as = as' then opAmplPar ws X (seenLeft isF s ds as) x us ds y else 0
  | [], l, phys, ws, basis, h => by
    obtain ⟨ph, phys', W, ws', b, basis', rfl, rfl, rfl, hW, hl, hr, hb, hbn, hne, hg, h'⟩ := h.head
    obtain ⟨rfl, rfl, rfl⟩ := h'.nil
    obtain ⟨info, i1, i2⟩ := opInfoSpec hW hne hg (by simp)
    have hlen : info.length = (ph.1.length + ph.2.length + 1) + 1 := by rw [i2.length]; simp; omega
    have hk : 0 < (l :: ph.1 ++ ph.2 ++ [r]).length := by simp
    obtain ⟨I, j1, -, j3⟩ := ident_spec (K := K) isF le (i2.good _ hk).1 (info_ne hW hne i2 hk) hb hbn
    refine ⟨[I, W], ?_, ?_⟩
    · unfold ancillaGo
      rw [i1]
      simp only [Option.bind_eq_bind, Option.bind_some, Bool.not_true, Bool.false_eq_true, if_false]
      rw [head_info hlen]
      simp only [Option.bind_some, j1, ancillaGo]
    · intro s x y us ds as as' hx hsz has has'
      cases hsz with
      | @cons _ _ u us d ds hu hd hsz =>
      cases hsz
      rw [mem_legIndices_cons] at has
      obtain ⟨a, ha, t, ht, rfl⟩ := has
      obtain rfl : t = [] := List.length_eq_zero_iff.1 (legIndices_len ht)
      obtain ⟨a', rfl⟩ := List.length_eq_one_iff.1 has'
      show ((legBasis l).map fun z => opEntry I s [x, a, a', z] * opEntry W (xor s (fermParity isF [a'.1])) (z :: (u ++ d ++ [y]))).sum =
        if [a] = [a'] then opEntry W (xor s (isF a.1)) (x :: (u ++ d ++ [y])) else 0
      rw [fermParity_single]
      rw [sum_map_congr' _ _ _ fun z _ => ancilla_absorb_left (rest := ph.1 ++ ph.2 ++ [r]) i2 hl hb j3 ha hx _ _ s]
      by_cases e : a = a'
      · rw [if_pos (by rw [e])]
        rw [sum_map_congr' _ _ (fun z => if z = x then opEntry W (xor s (isF a.1)) (z :: (u ++ d ++ [y])) else 0) fun z _ => by simp [e]]
        exact sum_pick _ (legBasis_nodup hl) hx _
      · rw [if_neg (by simpa using e), sum_map_zero']
        intro z _
        rw [if_neg (fun h => e h.2)]
  | c :: X, l, phys, ws, basis, h => by
    obtain ⟨ph, phys', W, ws', b, basis', rfl, rfl, rfl, hW, hl, hr, hb, hbn, hne, hg, h'⟩ := Doublable.head (l := l) (c := c) (bonds := X ++ [r]) h
    obtain ⟨info, i1, i2⟩ := opInfoSpec hW hne hg (by simp)
    have hlen : info.length = (ph.1.length + ph.2.length + 1) + 1 := by rw [i2.length]; simp; omega
    have hk : 0 < (l :: ph.1 ++ ph.2 ++ [c]).length := by simp
    obtain ⟨I, j1, -, j3⟩ := ident_spec (K := K) isF le (i2.good _ hk).1 (info_ne hW hne i2 hk) hb hbn
    obtain ⟨R, r1, r2⟩ := left_core isF le r X c phys' ws' basis' h'
    refine ⟨I :: W :: R, ?_, ?_⟩
    · unfold ancillaGo
      rw [i1]
      simp only [Option.bind_eq_bind, Option.bind_some, Bool.not_true, Bool.false_eq_true, if_false]
      rw [head_info hlen]
      simp only [Option.bind_some, j1, r1]
    · intro s x y us ds as as' hx hsz has has'
      cases hsz with
      | @cons _ _ u us d ds hu hd hsz =>
      rw [mem_legIndices_cons] at has
      obtain ⟨a, ha, t, ht, rfl⟩ := has
      cases as' with
      | nil => simp at has'
      | cons a' t' =>
      have ih := fun s x hx => r2 s x y us ds t t' hx hsz ht (by simpa using has')
      rw [show seenLeft isF s (d :: ds) (a :: t) = xor s (isF a.1) :: seenLeft isF (xor (xor s (isF a.1)) (fermParity isF (d.map Prod.fst))) ds t from rfl, opAmplPar_site]
      show opAmpl isF (I :: W :: R) (l :: c :: bondsLeft c X) s x ([a] :: u :: alternate (t.map fun a => [a]) us) ([a'] :: d :: alternate (t'.map fun a => [a]) ds) y = _
      rw [opAmpl_site]
      simp only [opAmpl_site]
      show ((legBasis l).map fun z => opEntry I s [x, a, a', z] * ((legBasis c).map fun z' => opEntry W (xor s (fermParity isF [a'.1])) (z :: (u ++ d ++ [z'])) *
        opAmpl isF R (bondsLeft c X) (xor (xor s (fermParity isF [a'.1])) (fermParity isF (d.map Prod.fst))) z' (alternate (t.map fun a => [a]) us)
          (alternate (t'.map fun a => [a]) ds) y).sum).sum = _
      rw [fermParity_single]
      have step : ∀ z ∈ legBasis l, opEntry I s [x, a, a', z] * ((legBasis c).map fun z' => opEntry W (xor s (isF a'.1)) (z :: (u ++ d ++ [z'])) *
          opAmpl isF R (bondsLeft c X) (xor (xor s (isF a'.1)) (fermParity isF (d.map Prod.fst))) z' (alternate (t.map fun a => [a]) us)
            (alternate (t'.map fun a => [a]) ds) y).sum =
          if z = x then (if a :: t = a' :: t' then ((legBasis c).map fun z' => opEntry W (xor s (isF a.1)) (x :: (u ++ d ++ [z'])) *
            opAmplPar ws' X (seenLeft isF (xor (xor s (isF a.1)) (fermParity isF (d.map Prod.fst))) ds t) z' us ds y).sum else 0) else 0 := by
        intro z _
        rw [← List.sum_map_mul_left]
        rw [sum_map_congr' _ _ (fun z' => if z = x ∧ a = a' then opEntry W (xor s (isF a'.1)) (z :: (u ++ d ++ [z'])) *
          (if t = t' then opAmplPar ws' X (seenLeft isF (xor (xor s (isF a'.1)) (fermParity isF (d.map Prod.fst))) ds t) z' us ds y else 0) else 0)]
        · by_cases e : z = x ∧ a = a'
          · obtain ⟨rfl, rfl⟩ := e
            simp only [and_self, if_true]
            by_cases e2 : t = t'
            · simp only [e2, if_true]
            · rw [if_neg (by simpa using e2), sum_map_zero']
              intro z' _
              rw [if_neg e2, mul_zero]
          · rw [sum_map_zero' _ _ (fun z' _ => if_neg e)]
            by_cases e3 : z = x
            · rw [if_pos e3, if_neg]
              intro h
              exact e ⟨e3, (List.cons.inj h).1⟩
            · rw [if_neg e3]
        · intro z' hz'
          rw [← mul_assoc, ancilla_absorb_left (rest := ph.1 ++ ph.2 ++ [c]) i2 hl hb j3 ha hx _ _ s, ih _ _ hz']
          split_ifs <;> simp
      rw [sum_map_congr' _ _ _ step, sum_pick _ (legBasis_nodup hl) hx]
      rfl

/-- **C82, partners behind.** The operator on the doubled lattice (site, partner, site, partner, …) exists and keeps the constant.  Its matrix elements vanish unless the
partners do not change; otherwise they are those of the given operator, with the signs of the fermions on all sites of the doubled lattice to the left. -/
theorem C82_right (isF : Q → Bool) (le : Q → Q → Bool) {l r : BondInfo Q} {X : List (BondInfo Q)} {phys : List (List (BondInfo Q) × List (BondInfo Q))}
    {ws : List (OpT Q K)} {basis : List (BondInfo Q)} (h : Doublable (l :: X ++ [r]) phys ws basis) (const : K) :
    ∃ R, buildAncillaMpo isF le basis ⟨ws, const⟩ false = some ⟨R, const⟩ ∧ ∀ s x y us ds as as', y ∈ legBasis r → Sized phys us ds →
      as ∈ legIndices basis → as'.length = basis.length →
      opAmpl isF R (bondsRight X r) s x (alternate us (as.map fun a => [a])) (alternate ds (as'.map fun a => [a])) y =
        if as = as' then opAmplPar ws X (seenRight isF s ds as) x us ds y else 0 := by
  obtain ⟨R, r1, r2⟩ := right_core isF le r X l phys ws basis h
  refine ⟨R, ?_, r2⟩
  unfold buildAncillaMpo
  rw [r1]
  rfl

/-- **C82, partners in front.** The same for the order partner, site, partner, site, …. -/
theorem C82_left (isF : Q → Bool) (le : Q → Q → Bool) {l r : BondInfo Q} {X : List (BondInfo Q)} {phys : List (List (BondInfo Q) × List (BondInfo Q))}
    {ws : List (OpT Q K)} {basis : List (BondInfo Q)} (h : Doublable (l :: X ++ [r]) phys ws basis) (const : K) :
    ∃ R, buildAncillaMpo isF le basis ⟨ws, const⟩ true = some ⟨R, const⟩ ∧ ∀ s x y us ds as as', x ∈ legBasis l → Sized phys us ds →
      as ∈ legIndices basis → as'.length = basis.length →
      opAmpl isF R (bondsLeft l X) s x (alternate (as.map fun a => [a]) us) (alternate (as'.map fun a => [a]) ds) y =
        if as = as' then opAmplPar ws X (seenLeft isF s ds as) x us ds y else 0 := by
  obtain ⟨R, r1, r2⟩ := left_core isF le r X l phys ws basis h
  refine ⟨R, ?_, r2⟩
  unfold buildAncillaMpo
  rw [r1]
  rfl

/-- **C82, violation.** A site without blocks raises an error (there is no last bond). -/
theorem C82_site_without_blocks (isF : Q → Bool) (le : Q → Q → Bool) (b : BondInfo Q) (basis : List (BondInfo Q)) (W : OpT Q K) (ws : List (OpT Q K)) (const : K)
    (left : Bool) (h : W.noBlocks = true) : buildAncillaMpo isF le (b :: basis) ⟨W :: ws, const⟩ left = none := by
  have hi : W.infos = some [] := by
    unfold OpT.noBlocks at h
    rw [Bool.and_eq_true, List.isEmpty_iff, List.isEmpty_iff] at h
    unfold OpT.infos
    rw [h.1, h.2]
    rfl
  unfold buildAncillaMpo ancillaGo
  dsimp only
  rw [hi]
  cases left <;> rfl

/-- **C82, too few sites.** An operator with fewer sites than the basis raises an error. -/
theorem C82_too_few_sites (isF : Q → Bool) (le : Q → Q → Bool) (const : K) (left : Bool) (basis : List (BondInfo Q)) (ws : List (OpT Q K))
    (h : ws.length < basis.length) : buildAncillaMpo isF le basis ⟨ws, const⟩ left = none := by
  have key : ∀ (basis : List (BondInfo Q)) (ws : List (OpT Q K)), ws.length < basis.length → ancillaGo isF le left basis ws = none := by
    intro basis
    induction basis with
    | nil => intro ws h; simp at h
    | cons b bs ih =>
      intro ws h
      cases ws with
      | nil => rfl
      | cons W ws =>
        unfold ancillaGo
        rw [ih ws (by simpa using h)]
        cases left <;> simp
  unfold buildAncillaMpo
  dsimp only
  rw [key basis ws h]
  rfl

/-- **C82, partners without fermions.** Then the parities are those of the given chain, so the matrix elements are those of the given operator. -/
theorem C82_bosonic_partners (isF : Q → Bool) : ∀ (X : List (BondInfo Q)) (ws : List (OpT Q K)) (s : Bool) (x : Q × Nat) (us ds : List (List (Q × Nat)))
    (as : List (Q × Nat)) (y : Q × Nat), (∀ a ∈ as, isF a.1 = false) → ws.length = X.length + 1 → us.length = X.length + 1 → ds.length = X.length + 1 →
    as.length = X.length + 1 →
    opAmplPar ws X (seenRight isF s ds as) x us ds y = opAmpl isF ws X s x us ds y ∧
    opAmplPar ws X (seenLeft isF s ds as) x us ds y = opAmpl isF ws X s x us ds y
  | [], ws, s, x, us, ds, as, y, ha, h1, h2, h3, h4 => by
    obtain ⟨W, rfl⟩ := List.length_eq_one_iff.1 h1
    obtain ⟨u, rfl⟩ := List.length_eq_one_iff.1 h2
    obtain ⟨d, rfl⟩ := List.length_eq_one_iff.1 h3
    obtain ⟨a, rfl⟩ := List.length_eq_one_iff.1 h4
    have h0 : isF a.1 = false := ha a (by simp)
    simp only [seenRight, seenLeft, h0, Bool.xor_false]
    exact ⟨rfl, rfl⟩
  | c :: X, ws, s, x, us, ds, as, y, ha, h1, h2, h3, h4 => by
    obtain ⟨W, ws, rfl⟩ := List.exists_cons_of_length_eq_add_one h1
    obtain ⟨u, us, rfl⟩ := List.exists_cons_of_length_eq_add_one h2
    obtain ⟨d, ds, rfl⟩ := List.exists_cons_of_length_eq_add_one h3
    obtain ⟨a, as, rfl⟩ := List.exists_cons_of_length_eq_add_one h4
    have h0 : isF a.1 = false := ha a (by simp)
    have ih := fun s x => C82_bosonic_partners isF X ws s x us ds as y (fun b hb => ha b (by simp [hb])) (by simpa using h1) (by simpa using h2)
      (by simpa using h3) (by simpa using h4)
    unfold seenRight seenLeft
    rw [h0, Bool.xor_false, Bool.xor_false, opAmplPar_site, opAmplPar_site, opAmpl_site]
    simp only [(ih _ _).1, (ih _ _).2, and_self]

end

/-- One basis vector without and one with a fermion. -/
def anBasis : BondInfo Int := [(0, 1), (1, 1)]

/-- A hop: the first site gains a fermion, the second one loses one. -/
def anHop : List (OpT Int Int) := [⟨[([0, 1, 0, 1], Arr.ones [1, 1, 1, 1])], []⟩, ⟨[([1, 0, 1, 0], Arr.ones [1, 1, 1, 1])], []⟩]

def anOdd (q : Int) : Bool := decide (q % 2 ≠ 0)

/-- The hypotheses of `C82_right` and `C82_left` hold for it. -/
example : Doublable ([(0, 1)] :: [[(1, 1)]] ++ [[(0, 1)]]) [([anBasis], [anBasis]), ([anBasis], [anBasis])] anHop [anBasis, anBasis] := by
  have w : GoodBond anBasis := ⟨by decide, by decide⟩
  refine ⟨⟨⟨by decide, by decide, by decide, by decide⟩, ⟨by decide, by decide, by decide, by decide⟩, trivial⟩, ?_, ?_, by decide, ?_, rfl⟩
  · intro c hc
    simp only [List.cons_append, List.nil_append, List.mem_cons, List.not_mem_nil, or_false] at hc
    rcases hc with rfl | rfl | rfl <;> exact ⟨by decide, by decide⟩
  · intro ph hp c hc
    simp only [List.mem_cons, List.not_mem_nil, or_false] at hp
    rcases hp with rfl | rfl <;> · simp at hc; rw [hc]; exact w
  · intro b hb
    simp only [List.mem_cons, List.not_mem_nil, or_false] at hb
    rcases hb with rfl | rfl <;> exact ⟨w, by decide⟩

/-- A fermion on the partner between the two sites changes the sign of the hop, in both orders of the lattice. -/
example : opAmplPar anHop [[(1, 1)]] (seenRight anOdd false [[(0, 0)], [(1, 0)]] [(0, 0), (0, 0)]) (0, 0) [[(1, 0)], [(0, 0)]] [[(0, 0)], [(1, 0)]] (0, 0) = 1 ∧
    opAmplPar anHop [[(1, 1)]] (seenRight anOdd false [[(0, 0)], [(1, 0)]] [(1, 0), (0, 0)]) (0, 0) [[(1, 0)], [(0, 0)]] [[(0, 0)], [(1, 0)]] (0, 0) = -1 ∧
    opAmplPar anHop [[(1, 1)]] (seenLeft anOdd false [[(0, 0)], [(1, 0)]] [(1, 0), (0, 0)]) (0, 0) [[(1, 0)], [(0, 0)]] [[(0, 0)], [(1, 0)]] (0, 0) = 1 ∧
    opAmplPar anHop [[(1, 1)]] (seenLeft anOdd false [[(0, 0)], [(1, 0)]] [(0, 0), (1, 0)]) (0, 0) [[(1, 0)], [(0, 0)]] [[(0, 0)], [(1, 0)]] (0, 0) = -1 := by
  decide

end Verif
