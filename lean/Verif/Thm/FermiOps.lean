import Verif.Model.FermiOps
import Verif.Spec.FermiOps
import Verif.Thm.Fermion
import Mathlib.Tactic.Ring
import Mathlib.Tactic.FinCases

/-!
C40: the operators built by `fermion_ops.py` are the operators of second quantisation.
-/
set_option linter.unusedSectionVars false

namespace Verif
namespace FermiOps

/-! ### The five encodings -/

instance : Zero U1 := ⟨U1.zero⟩
instance {m : Int} : Zero (Zm m) := ⟨Zm.zero⟩
instance : Zero U11 := ⟨U11.zero⟩
instance : Zero Z22 := ⟨Z22.zero⟩

/-- The leg of one site in each symmetry: every label with its number of states. -/
def bondU11 : BondInfo U11 := [(⟨0, 0⟩, 1), (⟨1, 1⟩, 1), (⟨1, -1⟩, 1), (⟨2, 0⟩, 1)]
def bondU1 : BondInfo U1 := [(⟨0⟩, 1), (⟨1⟩, 2), (⟨2⟩, 1)]
def bondZ4 : BondInfo Z4 := [(⟨0⟩, 2), (⟨1⟩, 2)]
def bondZ2 : BondInfo Z2 := [(⟨0⟩, 2), (⟨1⟩, 2)]
def bondZ22 : BondInfo Z22 := [(⟨0, 0⟩, 1), (⟨1, 0⟩, 1), (⟨1, 1⟩, 1), (⟨0, 1⟩, 1)]

/-- C40: in each of the five symmetries the four states are the basis of the leg, and the parity of the label of a state is the
parity of its number of electrons. -/
theorem C40_encodings :
    Faithful (fun q => (U11.parity q).toNat) smU11 bondU11 ∧ Faithful (fun q => (U1.parity q).toNat) smU1 bondU1 ∧
    Faithful (fun q => (Zm.parity q).toNat) smZ4 bondZ4 ∧ Faithful (fun q => (Zm.parity q).toNat) smZ2 bondZ2 ∧
    Faithful (fun q => (Z22.parity q).toNat) smZ22 bondZ22 := by
  refine ⟨⟨?_, ?_, ?_, ?_⟩, ⟨?_, ?_, ?_, ?_⟩, ⟨?_, ?_, ?_, ?_⟩, ⟨?_, ?_, ?_, ?_⟩, ⟨?_, ?_, ?_, ?_⟩⟩ <;>
    first | (unfold Dict.WF; decide) | decide

/-! ### The builders -/

section
variable {Q K : Type} [DecidableEq Q]

theorem mem_states {s : Nat} : s ∈ states ↔ s < 4 := by
  simp only [states, List.mem_cons, List.not_mem_nil, or_false]; omega

theorem Faithful.inj {par : Q → Nat} {sm : StateMap Q} {bond : BondInfo Q} (h : Faithful par sm bond) {s s' : Nat} (hs : s < 4)
    (hs' : s' < 4) (e : slot sm s = slot sm s') : s = s' := by
  have hn : ([0, 1, 2, 3].map (slot sm)).Nodup := h.basis.nodup_iff.1 (legBasis_nodup h.wf)
  exact List.inj_on_of_nodup_map hn (mem_states.2 hs) (mem_states.2 hs') e

theorem Faithful.injs {par : Q → Nat} {sm : StateMap Q} {bond : BondInfo Q} (h : Faithful par sm bond) {ss ss' : List Nat}
    (hs : ∀ s ∈ ss, s < 4) (hs' : ∀ s ∈ ss', s < 4) : ss.map (slot sm) = ss'.map (slot sm) ↔ ss = ss' := by
  refine ⟨fun e => ?_, fun e => by rw [e]⟩
  induction ss generalizing ss' with
  | nil => cases ss' with
    | nil => rfl
    | cons => simp at e
  | cons s ss ih => cases ss' with
    | nil => simp at e
    | cons s' ss' =>
      simp only [List.map_cons, List.cons.injEq] at e
      rw [h.inj (hs s (by simp)) (hs' s' (by simp)) e.1,
        ih (fun x hx => hs x (by simp [hx])) (fun x hx => hs' x (by simp [hx])) e.2]

theorem Faithful.lt {par : Q → Nat} {sm : StateMap Q} {bond : BondInfo Q} (h : Faithful par sm bond) {s : Nat} (hs : s < 4) :
    (sm s).2.1 < (sm s).2.2 := by
  have hm : slot sm s ∈ legBasis bond := h.basis.mem_iff.2 (List.mem_map_of_mem (mem_states.2 hs))
  unfold legBasis at hm
  obtain ⟨p, hp, hm⟩ := List.mem_flatMap.1 hm
  obtain ⟨i, hi, e⟩ := List.mem_map.1 hm
  have h1 : Dict.get? bond p.1 = some p.2 := Dict.get?_of_mem h.wf hp
  have e1 : p.1 = (sm s).1 := congrArg Prod.fst e
  have e2 : i = (sm s).2.1 := congrArg Prod.snd e
  rw [e1, h.dim s hs] at h1
  injection h1 with h1
  have := List.mem_range.1 hi
  omega

theorem Faithful.comb {par : Q → Nat} {sm : StateMap Q} {bond : BondInfo Q} (h : Faithful par sm bond) {ss : List Nat}
    (hs : ∀ s ∈ ss, s < 4) :
    IsCombination (List.replicate ss.length bond) (ss.map fun s => (sm s).1) (ss.map fun s => (sm s).2.2) := by
  induction ss with
  | nil => exact .nil
  | cons s ss ih =>
    exact .cons (h.dim s (hs s (by simp))) (ih fun x hx => hs x (by simp [hx]))

theorem blockEntry_unit [AddMonoid K] (sm : StateMap Q) (ss : List Nat) (hlt : ∀ s ∈ ss, (sm s).2.1 < (sm s).2.2) (v : K)
    (x : List (Q × Nat)) :
    blockEntry (ss.map (fun s => (sm s).1), unitArr (ss.map fun s => (sm s).2.2) (ss.map fun s => (sm s).2.1) v) x =
      if x = ss.map (slot sm) then v else 0 := by
  have hbox : inBox (ss.map fun s => (sm s).2.2) (ss.map fun s => (sm s).2.1) = true := by
    induction ss with
    | nil => rfl
    | cons s ss ih =>
      simp only [List.map_cons, inBox, Bool.and_eq_true, decide_eq_true_eq]
      exact ⟨hlt s (by simp), ih fun x hx => hlt x (by simp [hx])⟩
  have key : x = ss.map (slot sm) ↔ ss.map (fun s => (sm s).1) = x.map Prod.fst ∧ x.map Prod.snd = ss.map fun s => (sm s).2.1 := by
    constructor
    · rintro rfl
      simp [List.map_map, slot, Function.comp_def]
    · rintro ⟨h1, h2⟩
      clear hlt hbox
      induction x generalizing ss with
      | nil => cases ss with
        | nil => rfl
        | cons => simp at h1
      | cons y x ih => cases ss with
        | nil => simp at h1
        | cons s ss =>
          simp only [List.map_cons, List.cons.injEq] at h1 h2 ⊢
          exact ⟨Prod.ext h1.1.symm h2.1, ih ss h1.2 h2.2⟩
  unfold blockEntry unitArr
  simp only
  by_cases e : x = ss.map (slot sm)
  · obtain ⟨h1, h2⟩ := key.1 e
    rw [if_pos ⟨h1, by rw [h2]; exact hbox⟩, if_pos h2, if_pos e]
  · rw [if_neg e]
    split_ifs with h1 h2
    · exact absurd (key.2 ⟨h1.1, h2⟩) e
    · rfl
    · rfl

theorem build_spec [AddCommMonoid K] {par : Q → Nat} {sm : StateMap Q} {bond : BondInfo Q} (h : Faithful par sm bond) (n : Nat)
    (ts : List (List Nat × K)) (ht : ∀ t ∈ ts, t.1.length = n ∧ ∀ s ∈ t.1, s < 4) :
    Conforms (List.replicate n bond) (build sm ts) ∧ UniqueLabels (build sm ts) ∧
      ∀ x, entry (build sm ts) x = (ts.map fun t => if x = t.1.map (slot sm) then t.2 else 0).sum := by
  have e : build sm ts = (ts.map fun t => (t.1.map fun s => (sm s).1,
      unitArr (t.1.map fun s => (sm s).2.2) (t.1.map fun s => (sm s).2.1) t.2)).foldl (fun m b => SpT.accumulate m b.1 b.2) [] := by
    unfold build
    rw [List.foldl_map]
    rfl
  have := foldl_accumulate (legs := List.replicate n bond) (ts.map fun t => (t.1.map fun s => (sm s).1,
      unitArr (t.1.map fun s => (sm s).2.2) (t.1.map fun s => (sm s).2.1) t.2)) [] (by simp [Conforms]) (by
        intro b hb
        obtain ⟨t, htm, rfl⟩ := List.mem_map.1 hb
        obtain ⟨h1, h2⟩ := ht t htm
        have := h.comb h2
        rw [h1] at this
        exact this) (by simp [UniqueLabels])
  rw [← e] at this
  refine ⟨this.1, this.2.1, fun x => ?_⟩
  rw [this.2.2 x, entry_nil, zero_add]
  unfold entry
  rw [List.map_map]
  refine sum_map_congr' _ _ _ fun t htm => ?_
  exact blockEntry_unit sm t.1 (fun s hs => h.lt ((ht t htm).2 s hs)) t.2 x

/-- Entries at basis states. -/
theorem build_entry [AddCommMonoid K] {par : Q → Nat} {sm : StateMap Q} {bond : BondInfo Q} (h : Faithful par sm bond) (n : Nat)
    (ts : List (List Nat × K)) (ht : ∀ t ∈ ts, t.1.length = n ∧ ∀ s ∈ t.1, s < 4) (ss : List Nat) (hss : ∀ s ∈ ss, s < 4) :
    entry (build sm ts) (ss.map (slot sm)) = (ts.map fun t => if ss = t.1 then t.2 else 0).sum := by
  rw [(build_spec h n ts ht).2.2]
  refine sum_map_congr' _ _ _ fun t htm => ?_
  simp only [h.injs hss (ht t htm).2]

/-! ### Phases do not depend on the iteration order of the set -/

theorem swapPhase_two (ord : Nat → Bool) {a b : Nat} (ha : a < 4) (hb : b < 4) :
    swapPhase ord [a, b] = swapPhase (fun _ => true) [a, b] := by
  have e : swapPhase ord [a, b] = swapPhase (fun _ => ord 0) [a, b] := by
    simp only [swapPhase, List.length_cons, List.length_nil, Nat.reduceAdd, Nat.reduceDiv, List.take_succ_cons, List.take_zero, List.map_cons,
      List.map_nil, List.zipIdx_cons, List.zipIdx_nil, List.foldl_cons, List.foldl_nil, swapStep]
  rw [e]
  have key : ∀ (x : Bool) (a b : Fin 4), swapPhase (fun _ => x) [a.1, b.1] = swapPhase (fun _ => true) [a.1, b.1] := by
    decide +kernel
  exact key (ord 0) ⟨a, ha⟩ ⟨b, hb⟩

theorem swapPhase_four (ord : Nat → Bool) {a b c d : Nat} (ha : a < 4) (hb : b < 4) (hc : c < 4) (hd : d < 4) :
    swapPhase ord [a, b, c, d] = swapPhase (fun _ => true) [a, b, c, d] := by
  have e : swapPhase ord [a, b, c, d] = swapPhase (fun i => if i = 0 then ord 0 else ord 1) [a, b, c, d] := by
    simp only [swapPhase, List.length_cons, List.length_nil, Nat.reduceAdd, Nat.reduceDiv, List.take_succ_cons, List.take_zero, List.map_cons,
      List.map_nil, List.zipIdx_cons, List.zipIdx_nil, List.foldl_cons, List.foldl_nil, swapStep, if_true, one_ne_zero, if_false]
  rw [e]
  have key : ∀ (x y : Bool) (a b c d : Fin 4), swapPhase (fun i => if i = 0 then x else y) [a.1, b.1, c.1, d.1] =
      swapPhase (fun _ => true) [a.1, b.1, c.1, d.1] := by
    decide +kernel
  exact key (ord 0) (ord 1) ⟨a, ha⟩ ⟨b, hb⟩ ⟨c, hc⟩ ⟨d, hd⟩

/-! ### Reading off the entries -/

/-- A linear form in the parameters of the operator, with integer coefficients. -/
def lin5 [CommRing K] (p : K × K × K × K × K) (c : Int × Int × Int × Int × Int) : K :=
  c.1 * p.1 + (c.2.1 * p.2.1 + (c.2.2.1 * p.2.2.1 + (c.2.2.2.1 * p.2.2.2.1 + c.2.2.2.2 * p.2.2.2.2)))

theorem lin5_zero [CommRing K] (p : K × K × K × K × K) : lin5 p 0 = 0 := by simp [lin5]

theorem lin5_add [CommRing K] (p : K × K × K × K × K) (c d : Int × Int × Int × Int × Int) :
    lin5 p (c + d) = lin5 p c + lin5 p d := by
  simp only [lin5, Prod.fst_add, Prod.snd_add, Int.cast_add]
  ring

theorem lin5_sum [CommRing K] (p : K × K × K × K × K) (ts : List (List Nat × (Int × Int × Int × Int × Int))) (ss : List Nat) :
    ((ts.map fun t => (t.1, lin5 p t.2)).map fun t => if ss = t.1 then t.2 else 0).sum =
      lin5 p (ts.map fun t => if ss = t.1 then t.2 else 0).sum := by
  induction ts with
  | nil => exact (lin5_zero p).symm
  | cons t ts ih =>
    simp only [List.map_cons, List.sum_cons, ih, lin5_add]
    split_ifs
    · rfl
    · rw [lin5_zero]

/-- The updates of `Hubbard` with the coefficients of `-t`, `f0 u`, `f0 mu`, `f1 u`, `f1 mu`. -/
def hubCoef : List (List Nat × (Int × Int × Int × Int × Int)) :=
  statePairs.flatMap fun p =>
    let d := swapPhase (fun _ => true) [p.1, p.2, p.1, p.2]
    ([p.1, p.2, p.1, p.2], (0, d * (if pnDict p.1 = 2 then 1 else 0), d * (pnDict p.1 : Int),
      d * (if pnDict p.2 = 2 then 1 else 0), d * (pnDict p.2 : Int))) ::
    (hops p.1 p.2).map fun r => ([p.1, p.2, r.1, r.2], (swapPhase (fun _ => true) [p.1, p.2, r.1, r.2], 0, 0, 0, 0))

theorem mem_statePairs {p : Nat × Nat} (h : p ∈ statePairs) : p.1 < 4 ∧ p.2 < 4 := by
  unfold statePairs at h
  obtain ⟨a, ha, h⟩ := List.mem_flatMap.1 h
  obtain ⟨b, hb, rfl⟩ := List.mem_map.1 h
  exact ⟨mem_states.1 ha, mem_states.1 hb⟩

theorem hops_lt {s1 s2 : Nat} {r : Nat × Nat} (h : r ∈ hops s1 s2) : r.1 < 4 ∧ r.2 < 4 := by
  have hm : ∀ s x, x ∈ hopMap s → x < 4 := by
    intro s x hx
    rcases s with _ | _ | _ | _ <;> simp [hopMap] at hx <;> omega
  unfold hops at h
  obtain ⟨a, ha, h⟩ := List.mem_flatMap.1 h
  obtain ⟨b, hb, rfl⟩ := List.mem_map.1 h
  exact ⟨hm _ _ ha, hm _ _ (List.mem_of_mem_filter hb)⟩

theorem hubbardTerms_eq [CommRing K] (ord : List Nat → Nat → Bool) (t u mu f0 f1 : K) :
    hubbardTerms ord t u mu f0 f1 = hubCoef.map fun x => (x.1, lin5 (-t, f0 * u, f0 * mu, f1 * u, f1 * mu) x.2) := by
  unfold hubbardTerms hubCoef
  rw [List.map_flatMap]
  refine List.flatMap_congr fun p hp => ?_
  obtain ⟨h1, h2⟩ := mem_statePairs hp
  simp only [List.map_cons, List.map_map]
  congr 1
  · rw [swapPhase_four _ h1 h2 h1 h2]
    refine Prod.ext rfl ?_
    simp only [lin5, onsiteVal, Int.cast_mul, Int.cast_zero, Int.cast_ite, Int.cast_one, Int.cast_natCast]
    ring
  · refine List.map_congr_left fun r hr => ?_
    obtain ⟨h3, h4⟩ := hops_lt hr
    rw [swapPhase_four _ h1 h2 h3 h4]
    refine Prod.ext rfl ?_
    simp [lin5]

theorem hubbardTerms_lt [CommRing K] (ord : List Nat → Nat → Bool) (t u mu f0 f1 : K) :
    ∀ x ∈ hubbardTerms ord t u mu f0 f1, x.1.length = 4 ∧ ∀ s ∈ x.1, s < 4 := by
  intro x hx
  unfold hubbardTerms at hx
  obtain ⟨p, hp, hx⟩ := List.mem_flatMap.1 hx
  obtain ⟨h1, h2⟩ := mem_statePairs hp
  rcases List.mem_cons.1 hx with rfl | hx
  · refine ⟨rfl, fun s hs => ?_⟩
    simp only [List.mem_cons, List.not_mem_nil, or_false] at hs
    rcases hs with rfl | rfl | rfl | rfl <;> assumption
  · obtain ⟨r, hr, rfl⟩ := List.mem_map.1 hx
    obtain ⟨h3, h4⟩ := hops_lt hr
    refine ⟨rfl, fun s hs => ?_⟩
    simp only [List.mem_cons, List.not_mem_nil, or_false] at hs
    rcases hs with rfl | rfl | rfl | rfl <;> assumption

open Fock in
theorem hub_table : ∀ a b c d : Fin 4,
    (hubCoef.map fun t => if [a.1, b.1, c.1, d.1] = t.1 then t.2 else 0).sum =
      (reversalSign [c.1, d.1] * (element [(true, 0), (false, 2)] (occOf [a.1, b.1]) (occOf [c.1, d.1]) +
          element [(true, 1), (false, 3)] (occOf [a.1, b.1]) (occOf [c.1, d.1]) +
          element [(true, 2), (false, 0)] (occOf [a.1, b.1]) (occOf [c.1, d.1]) +
          element [(true, 3), (false, 1)] (occOf [a.1, b.1]) (occOf [c.1, d.1])),
        reversalSign [c.1, d.1] * element (number 0 ++ number 1) (occOf [a.1, b.1]) (occOf [c.1, d.1]),
        reversalSign [c.1, d.1] * (element (number 0) (occOf [a.1, b.1]) (occOf [c.1, d.1]) +
          element (number 1) (occOf [a.1, b.1]) (occOf [c.1, d.1])),
        reversalSign [c.1, d.1] * element (number 2 ++ number 3) (occOf [a.1, b.1]) (occOf [c.1, d.1]),
        reversalSign [c.1, d.1] * (element (number 2) (occOf [a.1, b.1]) (occOf [c.1, d.1]) +
          element (number 3) (occOf [a.1, b.1]) (occOf [c.1, d.1]))) := by
  decide +kernel

theorem hub_value [CommRing K] (t u mu f0 f1 : K) {a b c d : Nat} (ha : a < 4) (hb : b < 4) (hc : c < 4) (hd : d < 4) :
    lin5 (-t, f0 * u, f0 * mu, f1 * u, f1 * mu) ((hubCoef.map fun t => if [a, b] ++ [c, d] = t.1 then t.2 else 0).sum) =
      (reversalSign [c, d] : K) * Fock.matrixElement (Fock.hubbardOp t u mu f0 f1) (occOf [a, b]) (occOf [c, d]) := by
  have key : ((hubCoef.map fun t => if [a, b] ++ [c, d] = t.1 then t.2 else 0).sum) = _ := hub_table ⟨a, ha⟩ ⟨b, hb⟩ ⟨c, hc⟩ ⟨d, hd⟩
  rw [key]
  simp only [Fock.matrixElement, Fock.hubbardOp, Fock.hoppingOp, Fock.onsiteOp, List.map_append, List.map_cons, List.map_nil,
    List.sum_append, List.sum_cons, List.sum_nil, Nat.reduceAdd, Nat.reduceMul]
  generalize reversalSign [c, d] = r
  generalize occOf [a, b] = v
  generalize occOf [c, d] = w
  simp only [lin5, Int.cast_mul, Int.cast_add]
  ring

/-- C40: the tensor built by `Hubbard` is the two-site Hubbard Hamiltonian, for all parameters, whatever faithful labelling
of the states is used, and whatever the iteration order of Python sets.  Its labels are unique and its four legs are those of the sites. -/
theorem C40_hubbard [CommRing K] {par : Q → Nat} {sm : StateMap Q} {bond : BondInfo Q} (h : Faithful par sm bond)
    (ord : List Nat → Nat → Bool) (t u mu f0 f1 : K) :
    Represents sm 2 (Fock.hubbardOp t u mu f0 f1) (hubbard ord sm t u mu f0 f1).blocks ∧
    Conforms [bond, bond, bond, bond] (hubbard ord sm t u mu f0 f1).blocks ∧
    UniqueLabels (hubbard ord sm t u mu f0 f1).blocks ∧
    (hubbard ord sm t u mu f0 f1).pattern = [true, true, false, false] := by
  obtain ⟨hc, hu, _⟩ := build_spec h 4 _ (hubbardTerms_lt ord t u mu f0 f1)
  have hb : (hubbard ord sm t u mu f0 f1).blocks = build sm (hubbardTerms ord t u mu f0 f1) := by rw [hubbard]
  have hr : List.replicate 4 bond = [bond, bond, bond, bond] := rfl
  rw [hb]
  rw [hr] at hc
  refine ⟨?_, hc, hu, by rw [hubbard]⟩
  clear hb hc hu
  intro out inn ho hi hos his
  obtain ⟨a, b, rfl⟩ := List.length_eq_two.1 ho
  obtain ⟨c, d, rfl⟩ := List.length_eq_two.1 hi
  have ha := hos a (by simp)
  have hb := hos b (by simp)
  have hc := his c (by simp)
  have hd := his d (by simp)
  rw [← List.map_append, build_entry h 4 _ (hubbardTerms_lt ord t u mu f0 f1) _ (by
    intro s hs
    rcases List.mem_append.1 hs with hs | hs
    · exact hos s hs
    · exact his s hs), hubbardTerms_eq, lin5_sum]
  exact hub_value t u mu f0 f1 ha hb hc hd

/-- The updates of `H1`, as integer multiples of `h`. -/
def hopCoef : List (List Nat × (Int × Int × Int × Int × Int)) :=
  statePairs.flatMap fun p => (hops p.1 p.2).map fun r =>
    ([p.1, p.2, r.1, r.2], (swapPhase (fun _ => true) [p.1, p.2, r.1, r.2], 0, 0, 0, 0))

theorem h1Terms_eq [CommRing K] (ord : List Nat → Nat → Bool) (h : K) :
    h1Terms ord h = hopCoef.map fun x => (x.1, lin5 (h, 0, 0, 0, 0) x.2) := by
  unfold h1Terms hopCoef
  rw [List.map_flatMap]
  refine List.flatMap_congr fun p hp => ?_
  obtain ⟨h1, h2⟩ := mem_statePairs hp
  rw [List.map_map]
  refine List.map_congr_left fun r hr => ?_
  obtain ⟨h3, h4⟩ := hops_lt hr
  rw [swapPhase_four _ h1 h2 h3 h4]
  refine Prod.ext rfl ?_
  simp [lin5]

theorem h1Terms_lt [CommRing K] (ord : List Nat → Nat → Bool) (h : K) :
    ∀ x ∈ h1Terms ord h, x.1.length = 4 ∧ ∀ s ∈ x.1, s < 4 := by
  intro x hx
  unfold h1Terms at hx
  obtain ⟨p, hp, hx⟩ := List.mem_flatMap.1 hx
  obtain ⟨h1, h2⟩ := mem_statePairs hp
  obtain ⟨r, hr, rfl⟩ := List.mem_map.1 hx
  obtain ⟨h3, h4⟩ := hops_lt hr
  refine ⟨rfl, fun s hs => ?_⟩
  simp only [List.mem_cons, List.not_mem_nil, or_false] at hs
  rcases hs with rfl | rfl | rfl | rfl <;> assumption

open Fock in
theorem hop_table : ∀ a b c d : Fin 4,
    (hopCoef.map fun t => if [a.1, b.1, c.1, d.1] = t.1 then t.2 else 0).sum =
      (reversalSign [c.1, d.1] * (element [(true, 0), (false, 2)] (occOf [a.1, b.1]) (occOf [c.1, d.1]) +
          element [(true, 1), (false, 3)] (occOf [a.1, b.1]) (occOf [c.1, d.1]) +
          element [(true, 2), (false, 0)] (occOf [a.1, b.1]) (occOf [c.1, d.1]) +
          element [(true, 3), (false, 1)] (occOf [a.1, b.1]) (occOf [c.1, d.1])), 0, 0, 0, 0) := by
  decide +kernel

theorem hop_value [CommRing K] (h : K) {a b c d : Nat} (ha : a < 4) (hb : b < 4) (hc : c < 4) (hd : d < 4) :
    lin5 (h, 0, 0, 0, 0) ((hopCoef.map fun t => if [a, b] ++ [c, d] = t.1 then t.2 else 0).sum) =
      (reversalSign [c, d] : K) * Fock.matrixElement (Fock.hoppingOp h) (occOf [a, b]) (occOf [c, d]) := by
  have key : ((hopCoef.map fun t => if [a, b] ++ [c, d] = t.1 then t.2 else 0).sum) = _ := hop_table ⟨a, ha⟩ ⟨b, hb⟩ ⟨c, hc⟩ ⟨d, hd⟩
  rw [key]
  simp only [Fock.matrixElement, Fock.hoppingOp, List.map_cons, List.map_nil, List.sum_cons, List.sum_nil]
  generalize reversalSign [c, d] = r
  generalize occOf [a, b] = v
  generalize occOf [c, d] = w
  simp only [lin5, Int.cast_mul, Int.cast_add]
  ring

/-- C40: the tensor built by `H1` is the hopping of both spins between two sites. -/
theorem C40_hopping [CommRing K] {par : Q → Nat} {sm : StateMap Q} {bond : BondInfo Q} (hf : Faithful par sm bond)
    (ord : List Nat → Nat → Bool) (h : K) :
    Represents sm 2 (Fock.hoppingOp h) (hopping ord sm h).blocks ∧ Conforms [bond, bond, bond, bond] (hopping ord sm h).blocks ∧
    UniqueLabels (hopping ord sm h).blocks ∧ (hopping ord sm h).pattern = [true, true, false, false] := by
  obtain ⟨hc, hu, _⟩ := build_spec hf 4 _ (h1Terms_lt ord h)
  have hb : (hopping ord sm h).blocks = build sm (h1Terms ord h) := by rw [hopping]
  have hr : List.replicate 4 bond = [bond, bond, bond, bond] := rfl
  rw [hb]
  rw [hr] at hc
  refine ⟨?_, hc, hu, by rw [hopping]⟩
  clear hb hc hu
  intro out inn ho hi hos his
  obtain ⟨a, b, rfl⟩ := List.length_eq_two.1 ho
  obtain ⟨c, d, rfl⟩ := List.length_eq_two.1 hi
  have ha := hos a (by simp)
  have hb := hos b (by simp)
  have hc := his c (by simp)
  have hd := his d (by simp)
  rw [← List.map_append, build_entry hf 4 _ (h1Terms_lt ord h) _ (by
    intro s hs
    rcases List.mem_append.1 hs with hs | hs
    · exact hos s hs
    · exact his s hs), h1Terms_eq, lin5_sum]
  exact hop_value h ha hb hc hd

/-! ### One-site operators -/

theorem reversalSign_one (s : Nat) : reversalSign [s] = 1 := by
  simp [reversalSign, reorderSign, oddSwaps]

theorem represents_one [CommRing K] {sm : StateMap Q} {H : Fock.FockOp K} {A : SpT Q K}
    (h : ∀ a b : Fin 4, entry A [slot sm a, slot sm b] = Fock.matrixElement H (Fock.occupations a) (Fock.occupations b)) :
    Represents sm 1 H A := by
  intro out inn ho hi hos his
  obtain ⟨a, rfl⟩ := List.length_eq_one_iff.1 ho
  obtain ⟨b, rfl⟩ := List.length_eq_one_iff.1 hi
  rw [reversalSign_one, Int.cast_one, one_mul]
  have := h ⟨a, hos a (by simp)⟩ ⟨b, his b (by simp)⟩
  simpa [occOf] using this

/-- The updates of `creation`, with integer values. -/
def creCoef (spin : Spin) : List (List Nat × (Int × Int × Int × Int × Int)) :=
  states.flatMap fun s1 => (creationMap spin s1).map fun os1 => ([os1, s1], (swapPhase (fun _ => true) [os1, s1], 0, 0, 0, 0))

theorem creationMap_lt {spin : Spin} {s x : Nat} (h : x ∈ creationMap spin s) : x < 4 := by
  rcases spin <;> rcases s with _ | _ | _ | _ <;> simp [creationMap] at h <;> omega

theorem creationTerms_eq [CommRing K] (ord : List Nat → Nat → Bool) (spin : Spin) :
    (creationTerms ord spin : List (List Nat × K)) = (creCoef spin).map fun x => (x.1, lin5 (1, 0, 0, 0, 0) x.2) := by
  unfold creationTerms creCoef
  rw [List.map_flatMap]
  refine List.flatMap_congr fun p hp => ?_
  have h1 := mem_states.1 hp
  rw [List.map_map]
  refine List.map_congr_left fun r hr => ?_
  rw [swapPhase_two _ (creationMap_lt hr) h1]
  refine Prod.ext rfl ?_
  simp [lin5]

theorem creationTerms_lt [CommRing K] (ord : List Nat → Nat → Bool) (spin : Spin) :
    ∀ x ∈ (creationTerms ord spin : List (List Nat × K)), x.1.length = 2 ∧ ∀ s ∈ x.1, s < 4 := by
  intro x hx
  unfold creationTerms at hx
  obtain ⟨p, hp, hx⟩ := List.mem_flatMap.1 hx
  have h1 := mem_states.1 hp
  obtain ⟨r, hr, rfl⟩ := List.mem_map.1 hx
  have h3 := creationMap_lt hr
  refine ⟨rfl, fun s hs => ?_⟩
  simp only [List.mem_cons, List.not_mem_nil, or_false] at hs
  rcases hs with rfl | rfl <;> assumption

/-- The modes of site 0 that the argument `spin` selects. -/
def Spin.modes : Spin → List Nat
  | .a => [0]
  | .b => [1]
  | .sum => [0, 1]

/-- `Σ c†` (or `Σ c`) over the given modes. -/
def ladderOp (K : Type) [One K] (dag : Bool) (modes : List Nat) : Fock.FockOp K := modes.map fun m => (1, [(dag, m)])

theorem cre_table : ∀ (spin : Fin 3) (a b : Fin 4),
    let sp : Spin := [Spin.a, Spin.b, Spin.sum].getD spin.1 Spin.a
    ((creCoef sp).map fun t => if [a.1, b.1] = t.1 then t.2 else 0).sum =
      ((sp.modes.map fun m => Fock.element [(true, m)] (Fock.occupations a.1) (Fock.occupations b.1)).sum, 0, 0, 0, 0) ∧
    (sp.modes.map fun m => Fock.element [(true, m)] (Fock.occupations a.1) (Fock.occupations b.1)).sum =
      (sp.modes.map fun m => Fock.element [(false, m)] (Fock.occupations b.1) (Fock.occupations a.1)).sum := by
  decide +kernel

theorem cre_table' (sp : Spin) (a b : Fin 4) :
    ((creCoef sp).map fun t => if [a.1, b.1] = t.1 then t.2 else 0).sum =
      ((sp.modes.map fun m => Fock.element [(true, m)] (Fock.occupations a.1) (Fock.occupations b.1)).sum, 0, 0, 0, 0) ∧
    (sp.modes.map fun m => Fock.element [(true, m)] (Fock.occupations a.1) (Fock.occupations b.1)).sum =
      (sp.modes.map fun m => Fock.element [(false, m)] (Fock.occupations b.1) (Fock.occupations a.1)).sum := by
  cases sp
  · exact cre_table 0 a b
  · exact cre_table 1 a b
  · exact cre_table 2 a b

theorem ladder_element [CommRing K] (dag : Bool) (ms : List Nat) (v w : List Bool) :
    Fock.matrixElement (ladderOp K dag ms) v w = (((ms.map fun m => Fock.element [(dag, m)] v w).sum : Int) : K) := by
  unfold Fock.matrixElement ladderOp
  rw [List.map_map]
  induction ms with
  | nil => simp
  | cons m ms ih => simp only [List.map_cons, List.sum_cons, ih, Function.comp, one_mul, Int.cast_add]

theorem creation_entry [CommRing K] {par : Q → Nat} {sm : StateMap Q} {bond : BondInfo Q} (hf : Faithful par sm bond)
    (ord : List Nat → Nat → Bool) (spin : Spin) (a b : Fin 4) :
    entry (creation ord sm spin : FermT Q K).blocks [slot sm a, slot sm b] =
      (((spin.modes.map fun m => Fock.element [(true, m)] (Fock.occupations a.1) (Fock.occupations b.1)).sum : Int) : K) := by
  have hb : (creation ord sm spin : FermT Q K).blocks = build sm (creationTerms ord spin) := by rw [creation]
  rw [hb]
  have := build_entry hf 2 _ (creationTerms_lt (K := K) ord spin) [a.1, b.1] (by
    intro s hs
    simp only [List.mem_cons, List.not_mem_nil, or_false] at hs
    rcases hs with rfl | rfl
    · exact a.2
    · exact b.2)
  rw [List.map_cons, List.map_cons, List.map_nil, creationTerms_eq, lin5_sum, (cre_table' spin a b).1] at this
  rw [creationTerms_eq, this]
  simp [lin5]

/-- C40: `creation` is the creation operator of the chosen spin (or the sum over both), with its signs. -/
theorem C40_creation [CommRing K] {par : Q → Nat} {sm : StateMap Q} {bond : BondInfo Q} (hf : Faithful par sm bond)
    (ord : List Nat → Nat → Bool) (spin : Spin) :
    Represents sm 1 (ladderOp K true spin.modes) (creation ord sm spin : FermT Q K).blocks ∧
    Conforms [bond, bond] (creation ord sm spin : FermT Q K).blocks ∧ UniqueLabels (creation ord sm spin : FermT Q K).blocks ∧
    (creation ord sm spin : FermT Q K).pattern = [true, false] := by
  obtain ⟨hc, hu, _⟩ := build_spec hf 2 _ (creationTerms_lt (K := K) ord spin)
  have hb : (creation ord sm spin : FermT Q K).blocks = build sm (creationTerms ord spin) := by rw [creation]
  have hr : List.replicate 2 bond = [bond, bond] := rfl
  rw [hr] at hc
  refine ⟨represents_one fun a b => ?_, hb ▸ hc, hb ▸ hu, by rw [creation]⟩
  rw [creation_entry hf, ladder_element]

theorem entry_dagger [Zero Q] [CommRing K] [StarRing K] (legs : List (BondInfo Q)) (A : FermT Q K) (hA : Conforms legs A.blocks)
    (x : List (Q × Nat)) (hx : x.length = legs.length) : entry (dagger A).blocks x.reverse = star (entry A.blocks x) := by
  have hm : ∀ (T : SpT Q K) (y : List (Q × Nat)), entry (T.map fun b => (b.1, b.2.mapK star)) y = star (entry T y) := by
    intro T y
    induction T with
    | nil => simp
    | cons b T ih =>
      rw [List.map_cons, entry_cons, entry_cons, ih, star_add]
      congr 1
      by_cases e : b.1 = y.map Prod.fst ∧ inBox b.2.shape (y.map Prod.snd) = true
      · unfold blockEntry
        rw [if_pos e]
        exact if_pos e
      · unfold blockEntry
        rw [if_neg e, star_zero]
        exact if_neg e
  show entry ((SpT.transpose none A.blocks).map _) _ = _
  rw [hm, C14_default legs A.blocks hA x hx]

/-- C40: `annihilation` is the annihilation operator. -/
theorem C40_annihilation [Zero Q] [CommRing K] [StarRing K] {par : Q → Nat} {sm : StateMap Q} {bond : BondInfo Q} (hf : Faithful par sm bond)
    (ord : List Nat → Nat → Bool) (spin : Spin) :
    Represents sm 1 (ladderOp K false spin.modes) (annihilation ord sm spin : FermT Q K).blocks ∧
    (annihilation ord sm spin : FermT Q K).pattern = [true, false] := by
  obtain ⟨_, hc, _, hp⟩ := C40_creation (K := K) hf ord spin
  refine ⟨represents_one fun a b => ?_, ?_⟩
  · have := entry_dagger _ _ hc [slot sm b, slot sm a] rfl
    simp only [List.reverse_cons, List.reverse_nil, List.nil_append, List.cons_append] at this
    rw [annihilation, this, creation_entry hf, ladder_element, (cre_table' spin b a).2]
    exact star_intCast _
  · show ((creation ord sm spin : FermT Q K).pattern.map not).reverse = _
    rw [hp]; rfl

end
end FermiOps
end Verif
