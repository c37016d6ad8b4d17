import Verif.Proof.SliceableMps

/-!
C72: amplitudes of a state through sliceable tensors.
-/

set_option linter.unusedSectionVars false

namespace Verif
section
variable {Q K : Type} [DecidableEq Q] [AddCommGroup Q] [CommRing K] [StarRing K]

theorem Numbers.perm {le : Q → Q → Bool} {ls ls' : List Q} (h : ls.Perm ls') {x : Int} {q : Q} (hn : Numbers le ls x q) : Numbers le ls' x q := by
  refine ⟨h.mem_iff.1 hn.1, ?_⟩
  have := hn.2
  rwa [h.length_eq, (h.filter _).length_eq] at this

theorem chosen_iff {le : Q → Q → Bool} {Ms : List (List (BondInfo Q))} {cs : List (List (Int × Q))} :
    Chosen le (Ms.map fun M => M.map fun i => i.map Prod.fst) cs ↔ List.Forall₂ (Choice le) Ms cs := by
  unfold Chosen Choice
  rw [List.forall₂_map_left_iff]
  simp only [List.forall₂_map_left_iff]

theorem keys_choice {le : Q → Q → Bool} (o : LabelOrder le) {M : List (BondInfo Q)} (hw : ∀ i ∈ M, Dict.WF i) (r : BondInfo Q) {det : List Int}
    (hl : det.length = M.length) {ks : List (Option Nat)}
    (h : ((det.map some ++ [none]).zip (M.map List.length ++ [r.length])).mapM (fun x : Option Int × Nat => SlT.axisKey x.2 x.1) = some ks) :
    ∃ c, Choice le M c ∧ c.map Prod.fst = det := by
  induction M generalizing det ks with
  | nil => exact ⟨[], .nil, (List.length_eq_zero_iff.1 hl).symm⟩
  | cons i M ih =>
    rcases det with _ | ⟨x, det⟩
    · simp at hl
    simp only [List.map_cons, List.cons_append, List.zip_cons_cons, List.mapM_cons, Option.pure_def, Option.bind_eq_bind, Option.bind_eq_some_iff] at h
    obtain ⟨k, hk, ks', hks, -⟩ := h
    obtain ⟨c, c1, c2⟩ := ih (fun j hj => hw j (by simp [hj])) (by simpa using hl) hks
    simp only [SlT.axisKey, Option.map_eq_some_iff] at hk
    obtain ⟨n, hn, -⟩ := hk
    have hx := pyIndex_iff.1 hn
    have hp := sortedLabels_perm le i
    have hlt : n < (sortedLabels le i).length := by rw [hp.length_eq, List.length_map]; exact hx.1
    have hmem : (sortedLabels le i)[n] ∈ i.map Prod.fst := hp.mem_iff.1 (List.getElem_mem hlt)
    refine ⟨(x, (sortedLabels le i)[n]) :: c, .cons ⟨hmem, ?_⟩ c1, by simp [c2]⟩
    have hpl := place_of_mem o (hw i (by simp)) hmem
    rw [← hpl.1, List.length_map]
    have : SpT.labelPlace le i (sortedLabels le i)[n] = n := by
      unfold SpT.labelPlace
      rw [if_pos (List.getElem_mem hlt)]
      exact (hp.nodup_iff.2 (hw i (by simp))).idxOf_getElem n hlt
    rw [this]
    exact hx

theorem getitem_choice {le : Q → Q → Bool} (o : LabelOrder le) {l r : BondInfo Q} {M : List (BondInfo Q)} {T : SpT Q K} {S R : SlT Q K}
    (h : Rep le (l :: M ++ [r]) T S) (hw : ∀ i ∈ M, Dict.WF i) {det : List Int} (hg : S.getitem le (none :: det.map some ++ [none]) = some R) :
    ∃ c, Choice le M c ∧ c.map Prod.fst = det := by
  unfold SlT.getitem at hg
  rw [h.shape, h.infos] at hg
  split at hg
  · rename_i hlen
    have hl : det.length = M.length := by simpa using hlen.1
    rw [show (l :: M ++ [r]).map List.length = l.length :: (M.map List.length ++ [r.length]) by simp] at hg
    simp only [List.cons_append, List.zip_cons_cons, List.mapM_cons, Option.pure_def, Option.bind_eq_bind, Option.bind_eq_some_iff] at hg
    obtain ⟨-, ⟨-, -, ks, hks, -⟩, -⟩ := hg
    exact keys_choice o hw r hl hks
  · simp at hg

theorem sliceAt_choice {le : Q → Q → Bool} (o : LabelOrder le) {Ms : List (List (BondInfo Q))} {ts : List (SpT Q K)} {Ss Bs : List (SlT Q K)}
    (hS : Stored le Ms ts Ss) (hw : ∀ M ∈ Ms, ∀ i ∈ M, Dict.WF i) {det rest : List Int} (h : Mps.sliceAt le Ss det = some (Bs, rest)) :
    ∃ cs, List.Forall₂ (Choice le) Ms cs ∧ det = detOf cs ++ rest := by
  induction Ss generalizing Ms ts Bs det with
  | nil =>
    rcases Ms with _ | ⟨M, Ms⟩ <;> rcases ts with _ | ⟨T, ts⟩ <;> first | exact False.elim hS | skip
    simp only [Mps.sliceAt, Option.some.injEq, Prod.mk.injEq] at h
    exact ⟨[], .nil, by simp [detOf, h.2]⟩
  | cons S Ss ih =>
    rcases Ms with _ | ⟨M, Ms⟩ <;> rcases ts with _ | ⟨T, ts⟩ <;> first | exact False.elim hS | skip
    obtain ⟨⟨l, r, hrep⟩, hS⟩ := hS
    simp only [Mps.sliceAt, Option.bind_eq_some_iff, Option.map_eq_some_iff, Prod.mk.injEq] at h
    obtain ⟨R, hR, ⟨Bs', rest'⟩, hrest, -, rfl⟩ := h
    obtain ⟨c, c1, c2⟩ := getitem_choice o hrep (hw M (by simp)) hR
    obtain ⟨cs, g1, g2⟩ := ih hS (fun M hM => hw M (by simp [hM])) hrest
    refine ⟨c :: cs, .cons c1 g1, ?_⟩
    have : detOf (c :: cs) = c.map Prod.fst ++ detOf cs := by simp [detOf]
    rw [this, c2, List.append_assoc, ← g2, List.take_append_drop]

theorem amplitude_iff {le : Q → Q → Bool} (o : LabelOrder le) {l r : Q} {X : List (BondInfo Q)} {phys Ms : List (List (BondInfo Q))}
    {ts : List (SpT Q K)} {Ss : List (SlT Q K)} (h : OnBonds ([(l, 1)] :: X ++ [[(r, 1)]]) phys ts) (hX : ∀ c ∈ X, GoodBond c)
    (hg : ∀ ph ∈ phys, ∀ i ∈ ph, GoodBond i)
    (hS : Stored le Ms ts Ss) (hM : Ms.map List.length = phys.map List.length) (hw : ∀ M ∈ Ms, ∀ i ∈ M, Dict.WF i) (det : List Int) (v : K) :
    Mps.amplitude le Ss det = some v ↔ ∃ choice, List.Forall₂ (Choice le) Ms choice ∧ det = detOf choice ∧ v = ampl ts X (l, 0) (stateOf choice) (r, 0) := by
  constructor
  · intro ha
    have ha' := ha
    unfold Mps.amplitude at ha'
    rw [Option.bind_eq_some_iff] at ha'
    obtain ⟨⟨Bs, rest⟩, h1, h2⟩ := ha'
    obtain ⟨cs, c1, c2⟩ := sliceAt_choice o hS hw h1
    split at h2
    · simp at h2
    · rename_i hr
      obtain rfl : rest = [] := by simpa using hr
      rw [List.append_nil] at c2
      refine ⟨cs, c1, c2, ?_⟩
      rw [c2, amplitude_ok o h hX hg hS hM hw c1] at ha
      exact (Option.some.inj ha).symm
  · rintro ⟨cs, c1, rfl, rfl⟩
    exact amplitude_ok o h hX hg hS hM hw c1

/-- **C72.**  A state on bonds with one basis vector at each end, made sliceable with the complete basis of its sites, gives for every list of numbers
the amplitude of the basis state with those numbers: number `k` stands for the label of the leg with `k` labels before it, or counts from the end when
negative.  Any other list is refused. -/
theorem C72_amplitude (le : Q → Q → Bool) (o : LabelOrder le) (l r : Q) (X : List (BondInfo Q)) (phys : List (List (BondInfo Q))) (ts : List (SpT Q K))
    (h : OnBonds ([(l, 1)] :: X ++ [[(r, 1)]]) phys ts) (hX : ∀ c ∈ X, GoodBond c) (hg : ∀ ph ∈ phys, ∀ i ∈ ph, GoodBond i)
    (hu : ∀ T ∈ ts, UniqueLabels T) (hne : ∀ T ∈ ts, T ≠ []) :
    ∃ S, Mps.toSliceable le (some phys.flatten) ts = some S ∧ ∀ det v, Mps.amplitude le S det = some v ↔
      ∃ choice, Chosen le (phys.map fun ph => ph.map fun i => i.map Prod.fst) choice ∧ det = detOf choice ∧
        v = ampl ts X (l, 0) (stateOf choice) (r, 0) := by
  obtain ⟨Y, hY, e⟩ := mps_toSliceable le h hX hne (some phys.flatten)
  obtain ⟨S, s1, s2⟩ := sliceSites_basis le hY hu hne
  refine ⟨S, e.trans s1, fun det v => ?_⟩
  rw [amplitude_iff o h hX hg s2 rfl fun M hM i hi => (hg M hM i hi).1]
  simp only [chosen_iff]

theorem own_choice {le : Q → Q → Bool} {l : BondInfo Q} {Y : List (BondInfo Q)} {phys : List (List (BondInfo Q))} {ts : List (SpT Q K)}
    (h : OnBonds (l :: Y) phys ts) (hne : ∀ T ∈ ts, T ≠ []) {labels : List (List (List Q))} (hl : labels.length = ts.length)
    (hL : ∀ k, k < ts.length → UsedLabels (ts.getD k []) (phys.getD k []).length (labels.getD k [])) :
    (ts.map ownLegs).map List.length = phys.map List.length ∧ (∀ M ∈ ts.map ownLegs, ∀ i ∈ M, Dict.WF i) ∧
      ∀ cs, Chosen le labels cs ↔ List.Forall₂ (Choice le) (ts.map ownLegs) cs := by
  induction ts generalizing l Y phys labels with
  | nil =>
    rcases Y with _ | ⟨r, Y⟩ <;> rcases phys with _ | ⟨ph, phys⟩ <;> first | exact False.elim h | skip
    obtain rfl : labels = [] := by simpa using hl
    exact ⟨rfl, by simp, fun cs => by simp [Chosen]⟩
  | cons T ts ih =>
    rcases Y with _ | ⟨r, Y⟩ <;> rcases phys with _ | ⟨ph, phys⟩ <;> first | exact False.elim h | skip
    rcases labels with _ | ⟨ls, labels⟩
    · simp at hl
    obtain ⟨i1, i2, i3⟩ := ih h.2 (fun T hT => hne T (by simp [hT])) (by simpa using hl)
      fun k hk => by simpa using hL (k + 1) (by simpa using hk)
    have hT : Conforms (l :: ph ++ [r]) T := h.1
    have hown := ownLegs_eq hT (hne T (by simp))
    have hlen : (ownLegs T).length = ph.length := by rw [hown]; simp
    have hk : ∀ k, k < ph.length → k + 1 < (l :: ph ++ [r]).length := by intro k hk; simp; omega
    obtain ⟨u1, u2⟩ : UsedLabels T ph.length ls := by simpa using hL 0 (by simp)
    have hwf : ∀ i ∈ ownLegs T, Dict.WF i := by
      rw [hown]
      intro i hi
      obtain ⟨k, hk', rfl⟩ := List.mem_map.1 hi
      exact (occ_spec (hk k (List.mem_range.1 hk')) hT).1
    have hperm : ∀ k, k < ph.length → (((ownLegs T).getD k []).map Prod.fst).Perm (ls.getD k []) := by
      intro k hk'
      have e : (ownLegs T).getD k [] = occ (k + 1) T := by rw [hown]; simp [hk']
      rw [e]
      obtain ⟨o1, o2⟩ := occ_spec (hk k hk') hT
      refine (List.perm_ext_iff_of_nodup o1 (u2 k hk').1).2 ?_
      intro q
      rw [(u2 k hk').2, Dict.mem_keys_iff]
      constructor
      · rintro ⟨s, hs⟩
        exact ((o2 q s).1 hs).2
      · rintro ⟨b, hb, hq⟩
        refine ⟨b.2.shape.getD (k + 1) 0, (o2 q _).2 ⟨?_, b, hb, hq⟩⟩
        rw [← hq]
        exact (hT b hb).getD (hk k hk')
    refine ⟨by simp [hlen, i1], ?_, ?_⟩
    · intro M hM
      rcases List.mem_cons.1 hM with rfl | hM
      · exact hwf
      · exact i2 M hM
    · intro cs
      rcases cs with _ | ⟨c, cs⟩
      · simp [Chosen]
      · have := i3 cs
        unfold Chosen at this ⊢
        rw [List.forall₂_cons, List.map_cons, List.forall₂_cons, this]
        refine and_congr_left fun _ => ?_
        unfold Choice
        rw [List.forall₂_iff_get, List.forall₂_iff_get]
        refine and_congr (by rw [u1, hlen]) ?_
        constructor
        · intro hn i h1 h2
          have hi : i < ph.length := hlen ▸ h1
          have := (hn i (u1.symm ▸ hi) h2)
          refine Numbers.perm ?_ this
          have hp := (hperm i hi).symm
          simpa [List.getD_eq_getElem?_getD, List.getElem?_eq_getElem h1, List.getElem?_eq_getElem (u1.symm ▸ hi : i < ls.length)] using hp
        · intro hn i h1 h2
          have hi : i < ph.length := u1 ▸ h1
          have h1' : i < (ownLegs T).length := hlen.symm ▸ hi
          have := (hn i h1' h2)
          refine Numbers.perm ?_ this
          have hp := hperm i hi
          simpa [List.getD_eq_getElem?_getD, List.getElem?_eq_getElem h1', List.getElem?_eq_getElem (u1.symm ▸ hi : i < ls.length)] using hp

/-- **C72.**  Without the basis the numbers count only the labels that the blocks of the site have on the leg. -/
theorem C72_own (le : Q → Q → Bool) (o : LabelOrder le) (l r : Q) (X : List (BondInfo Q)) (phys : List (List (BondInfo Q))) (ts : List (SpT Q K))
    (h : OnBonds ([(l, 1)] :: X ++ [[(r, 1)]]) phys ts) (hX : ∀ c ∈ X, GoodBond c) (hg : ∀ ph ∈ phys, ∀ i ∈ ph, GoodBond i)
    (hu : ∀ T ∈ ts, UniqueLabels T) (hne : ∀ T ∈ ts, T ≠ []) (labels : List (List (List Q))) (hl : labels.length = ts.length)
    (hL : ∀ k, k < ts.length → UsedLabels (ts.getD k []) (phys.getD k []).length (labels.getD k [])) :
    ∃ S, Mps.toSliceable le none ts = some S ∧ ∀ det v, Mps.amplitude le S det = some v ↔
      ∃ choice, Chosen le labels choice ∧ det = detOf choice ∧ v = ampl ts X (l, 0) (stateOf choice) (r, 0) := by
  obtain ⟨Y, hY, e⟩ := mps_toSliceable le h hX hne none
  obtain ⟨S, s1, s2⟩ := sliceSites_own le hY hu hne
  obtain ⟨w1, w2, w3⟩ := own_choice (le := le) h hne hl hL
  refine ⟨S, e.trans s1, fun det v => ?_⟩
  rw [amplitude_iff o h hX hg s2 w1 w2]
  simp only [w3]

/-- **C72.**  A tensor made sliceable with legs that have all its labels still has the same blocks: converting back gives them in some order, hence the
same entries. -/
theorem C72_roundtrip (le : Q → Q → Bool) (legs : List (BondInfo Q)) (T : SpT Q K) (hT : Conforms legs T) (hu : UniqueLabels T) :
    ∃ S, T.toSliceable le (some legs) = some S ∧ S.toSparse.Perm T ∧ ∀ x, entry S.toSparse x = entry T x := by
  obtain ⟨S, s1, s2⟩ := toSliceable_rep le hu fun b hb => (hT b hb).labelsIn
  exact ⟨S, s1, s2.sparse, fun x => entry_perm' s2.sparse x⟩

/-- **C72.**  A state without sites has no amplitude: there is nothing to reduce. -/
theorem C72_no_sites (le : Q → Q → Bool) (det : List Int) : Mps.amplitude le ([] : List (SlT Q K)) det = none := by
  unfold Mps.amplitude
  cases h : Mps.sliceAt le ([] : List (SlT Q K)) det with
  | none => rfl
  | some x =>
    have : x.1 = [] := by
      simp [Mps.sliceAt] at h
      simp [← h]
    rw [Option.bind_some, this]
    split <;> rfl

end

/-! ### Concrete cases -/

section
open Mps

/-- The usual order of integers. -/
def intLe (a b : ℤ) : Bool := decide (a ≤ b)

theorem intLe_order : LabelOrder intLe := by
  constructor <;> intro a b <;> simp only [intLe, decide_eq_true_eq] <;> intros <;> omega

/-- A number as a block with three legs. -/
def cell3 (q : List ℤ) (v : ℤ) : List ℤ × Arr ℤ := (q, ⟨[1, 1, 1], fun _ => v⟩)

/-- Two sites with the labels 0 and 1, one particle: `2 · 5` times the state (0, 1) plus `3 · 7` times the state (1, 0). -/
def exSites : List (SpT ℤ ℤ) := [[cell3 [0, 1, 1] 3, cell3 [0, 0, 0] 2], [cell3 [0, 1, 1] 5, cell3 [1, 0, 1] 7]]

/-- The legs of the two sites. -/
def exPhys : List (List (BondInfo ℤ)) := [[[(1, 1), (0, 1)]], [[(0, 1), (1, 1)]]]

theorem ex_onBonds : OnBonds ([(0, 1)] :: [[(0, 1), (1, 1)]] ++ [[(1, 1)]]) exPhys exSites := by
  refine ⟨?_, ?_, trivial⟩ <;> decide +kernel

/-- The hypotheses of `C72_amplitude` and `C72_own` for the example. -/
example : (∀ c ∈ ([[(0, 1), (1, 1)]] : List (BondInfo ℤ)), GoodBond c) ∧ (∀ ph ∈ exPhys, ∀ i ∈ ph, GoodBond i) ∧ (∀ T ∈ exSites, UniqueLabels T) ∧
    ∀ T ∈ exSites, T ≠ [] := by
  refine ⟨?_, ?_, by decide, ?_⟩ <;> simp [GoodBond, exPhys, Dict.WF, exSites] <;> (try constructor) <;> intro a b <;> omega

example : ((toSliceable intLe (some exPhys.flatten) exSites).bind fun S => amplitude intLe S [0, 1]) = some 10 := by decide +kernel
example : ((toSliceable intLe (some exPhys.flatten) exSites).bind fun S => amplitude intLe S [1, 0]) = some 21 := by decide +kernel
example : ((toSliceable intLe (some exPhys.flatten) exSites).bind fun S => amplitude intLe S [-1, -2]) = some 21 := by decide +kernel
example : ((toSliceable intLe (some exPhys.flatten) exSites).bind fun S => amplitude intLe S [1, 1]) = some 0 := by decide +kernel
example : ((toSliceable intLe (some exPhys.flatten) exSites).bind fun S => amplitude intLe S [2, 0]) = none := by decide +kernel
example : ((toSliceable intLe (some exPhys.flatten) exSites).bind fun S => amplitude intLe S [0]) = none := by decide +kernel

/-- Choices for the example: the state (1, 0), with a number from the end. -/
example : Chosen intLe (exPhys.map fun ph => ph.map fun i => i.map Prod.fst) [[(-1, 1)], [(0, 0)]] := by
  refine .cons (.cons ⟨by decide, ?_⟩ .nil) (.cons (.cons ⟨by decide, ?_⟩ .nil) .nil) <;> simp [NamesAxis, intLe]

/-- **C72.**  Without the basis the same numbers can mean another state: the first site has only the label 1, and number 0 is that label. -/
theorem C72_own_shifts : ∃ ts : List (SpT ℤ ℤ), OnBonds ([(0, 1)] :: [[(0, 1), (1, 1)]] ++ [[(1, 1)]]) exPhys ts ∧
    ((toSliceable intLe (some exPhys.flatten) ts).bind fun S => amplitude intLe S [0, 0]) = some 0 ∧
    ((toSliceable intLe none ts).bind fun S => amplitude intLe S [0, 0]) = some 21 := by
  refine ⟨[[cell3 [0, 1, 1] 3], [cell3 [0, 1, 1] 5, cell3 [1, 0, 1] 7]], ?_, by decide +kernel, by decide +kernel⟩
  refine ⟨?_, ?_, trivial⟩ <;> decide +kernel

/-- **C72.**  With a basis that lacks a label of the state, nothing is refused: a block with the missing label stands at the place of the first
label, and its amplitude is given for that label. -/
theorem C72_missing : ∃ (basis : List (BondInfo ℤ)) (ts : List (SpT ℤ ℤ)), OnBonds ([(0, 1)] :: [[(0, 1), (1, 1)]] ++ [[(1, 1)]]) exPhys ts ∧
    ampl ts [[(0, 1), (1, 1)]] (0, 0) [[(0, 0)], [(0, 0)]] (1, 0) = 0 ∧
    ((toSliceable intLe (some basis) ts).bind fun S => amplitude intLe S [0, 0]) = some 21 := by
  refine ⟨[[(0, 1)], [(0, 1), (1, 1)]], exSites, ?_, by decide +kernel, by decide +kernel⟩
  refine ⟨?_, ?_, trivial⟩ <;> decide +kernel

end
end Verif
