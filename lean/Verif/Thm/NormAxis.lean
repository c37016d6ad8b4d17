import Verif.Model.NormAxis
import Verif.Spec.NormAxis
import Verif.Proof.Sparse
import Verif.Proof.Dict
import Mathlib.Tactic.NormNum
import Mathlib.Tactic.Positivity
import Mathlib.Tactic.Ring
import Mathlib.Tactic.Linarith

set_option linter.unusedSectionVars false

/-!
C81: `normalize_along_axis` and the noise.
-/

namespace Verif
open NormAxis

section normalise
variable {Q 𝕜 : Type} [DecidableEq Q] [RCLike 𝕜]

/-- The total squared norm of the blocks with label `q` on leg `k`. -/
noncomputable def blockWeight (k : Nat) (q : Q) (T : SpT Q 𝕜) : ℝ :=
  (T.map fun b => if b.1[k]? = some q then sqNorm b.2 else 0).sum

theorem combination_lengths {legs : List (BondInfo Q)} {qs : List Q} {sh : List Nat} (h : IsCombination legs qs sh) :
    qs.length = legs.length ∧ sh.length = legs.length := by
  induction h with
  | nil => simp
  | cons _ _ ih => simp [ih]

/-- The squared entry is a sum over the blocks. -/
theorem sq_entry {T : SpT Q 𝕜} (hu : UniqueLabels T) (x : List (Q × Nat)) :
    ‖entry T x‖ ^ 2 = (T.map fun b => if b.1 = x.map Prod.fst ∧ inBox b.2.shape (x.map Prod.snd) = true then ‖b.2.get (x.map Prod.snd)‖ ^ 2 else 0).sum := by
  induction T with
  | nil => simp
  | cons b t ih =>
    have hu' := hu
    simp only [UniqueLabels, List.map_cons, List.nodup_cons] at hu'
    rw [List.map_cons, List.sum_cons, ← ih hu'.2]
    by_cases hb : x.map Prod.fst = b.1
    · have h0 : entry t x = 0 := by
        apply sum_map_zero'
        intro c hc
        unfold blockEntry
        rw [if_neg]
        rintro ⟨h1, _⟩
        exact hu'.1 (List.mem_map.2 ⟨c, hc, by rw [h1, hb]⟩)
      rw [entry_of_mem hu List.mem_cons_self hb, h0]
      unfold blockEntry
      split_ifs <;> simp
    · rw [entry_cons, if_neg (fun h => hb h.1.symm)]
      unfold blockEntry
      rw [if_neg (fun h => hb h.1.symm), zero_add, zero_add]

theorem sectorWeight_eq {legs : List (BondInfo Q)} (hw : ∀ b ∈ legs, Dict.WF b) {T : SpT Q 𝕜} (hT : Conforms legs T) (hu : UniqueLabels T)
    (k : Nat) (q : Q) : sectorWeight legs T k q = blockWeight k q T := by
  unfold sectorWeight blockWeight
  have : ∀ x : List (Q × Nat), (if (x[k]?).map Prod.fst = some q then ‖entry T x‖ ^ 2 else 0) =
      (T.map fun b => if b.1 = x.map Prod.fst ∧ inBox b.2.shape (x.map Prod.snd) = true then
        (if b.1[k]? = some q then ‖b.2.get (x.map Prod.snd)‖ ^ 2 else 0) else 0).sum := by
    intro x
    rw [sq_entry hu]
    split_ifs with h
    · apply sum_map_congr'
      intro b _
      by_cases hb : b.1 = x.map Prod.fst
      · have : b.1[k]? = some q := by rw [hb, List.getElem?_map, h]
        simp [this]
      · rw [if_neg (fun h => hb h.1), if_neg (fun h => hb h.1)]
    · symm
      apply sum_map_zero'
      intro b _
      by_cases hb : b.1 = x.map Prod.fst
      · have : ¬ b.1[k]? = some q := by rw [hb, List.getElem?_map]; exact h
        simp [this]
      · rw [if_neg (fun h => hb h.1)]
  simp only [this]
  rw [sum_comm']
  apply sum_map_congr'
  intro b hb
  rw [legIndices_sum hw (hT b hb) (fun v => if b.1[k]? = some q then ‖b.2.get v‖ ^ 2 else 0)]
  unfold sqNorm
  split_ifs <;> simp

theorem sqNorm_nonneg (a : Arr 𝕜) : 0 ≤ sqNorm a := by
  unfold sqNorm
  apply List.sum_nonneg
  intro v hv
  obtain ⟨ix, _, rfl⟩ := List.mem_map.1 hv
  positivity

theorem blockWeight_nonneg (k : Nat) (q : Q) (T : SpT Q 𝕜) : 0 ≤ blockWeight k q T := by
  unfold blockWeight
  apply List.sum_nonneg
  intro v hv
  obtain ⟨b, _, rfl⟩ := List.mem_map.1 hv
  split_ifs
  · exact sqNorm_nonneg _
  · exact le_refl _

/-- The first loop. -/
theorem accum_spec (axis : Int) (k : Nat) : ∀ (T : SpT Q 𝕜), (∀ b ∈ T, labelAt axis b.1 = b.1[k]? ∧ k < b.1.length) → ∀ d : Dict Q ℝ,
    ∃ d', T.foldlM (accumStep axis) d = some d' ∧
      (∀ q, (Dict.get? d' q).getD 0 = (Dict.get? d q).getD 0 + blockWeight k q T) ∧
      (∀ q, (Dict.get? d q).isSome = true → (Dict.get? d' q).isSome = true) ∧
      (∀ b ∈ T, ∀ q, b.1[k]? = some q → (Dict.get? d' q).isSome = true)
  | [], _, d => ⟨d, rfl, by simp [blockWeight], by simp, by simp⟩
  | b :: t, h, d => by
    obtain ⟨h1, h2⟩ := h b List.mem_cons_self
    have h3 : labelAt axis b.1 = some b.1[k] := by rw [h1, List.getElem?_eq_getElem h2]
    set q0 := b.1[k] with hq0
    set d1 := if Dict.has d q0 then d else Dict.set d q0 0 with hd1
    set d2 := Dict.set d1 q0 ((Dict.get? d1 q0).getD 0 + sqNorm b.2) with hd2
    have hstep : accumStep axis d b = some d2 := by
      unfold accumStep
      rw [h3]
      rfl
    have g1 : ∀ q, (Dict.get? d1 q).getD 0 = (Dict.get? d q).getD 0 := by
      intro q
      rw [hd1]
      split_ifs with hh
      · rfl
      · rw [Dict.get?_set]
        split_ifs with e
        · subst e
          unfold Dict.has at hh
          have : Dict.get? d q0 = none := by simpa using hh
          rw [this]
          rfl
        · rfl
    have s1 : ∀ q, (Dict.get? d q).isSome = true → (Dict.get? d2 q).isSome = true := by
      intro q hq
      rw [hd2, Dict.get?_set]
      split_ifs with e
      · rfl
      · rw [hd1]
        split_ifs
        · exact hq
        · rw [Dict.get?_set, if_neg e]; exact hq
    obtain ⟨d', e1, e2, e3, e4⟩ := accum_spec axis k t (fun c hc => h c (List.mem_cons_of_mem _ hc)) d2
    refine ⟨d', ?_, ?_, fun q hq => e3 q (s1 q hq), ?_⟩
    · rw [List.foldlM_cons, hstep]
      exact e1
    · intro q
      rw [e2 q, hd2, Dict.get?_set]
      unfold blockWeight
      rw [List.map_cons, List.sum_cons, List.getElem?_eq_getElem h2, ← hq0]
      by_cases e : q0 = q
      · subst e
        rw [if_pos rfl, if_pos rfl, Option.getD_some, g1]
        ring
      · rw [if_neg e, if_neg (by simpa using e), g1]
        ring
    · intro c hc q hq
      rcases List.mem_cons.1 hc with rfl | hc
      · apply e3
        rw [List.getElem?_eq_getElem h2] at hq
        have : q0 = q := by simpa [hq0] using hq
        rw [hd2, Dict.get?_set, if_pos this]
        rfl
      · exact e4 c hc q hq

open Classical in
/-- What happens to one block. -/
noncomputable def scaled (thr : ℝ) (k : Nat) (W : Q → ℝ) (b : List Q × Arr 𝕜) : List Q × Arr 𝕜 :=
  match b.1[k]? with
  | none => b
  | some q => if W q > thr then (b.1, ⟨b.2.shape, fun ix => b.2.get ix / ((Real.sqrt (W q) : ℝ) : 𝕜)⟩) else b

theorem mapM_scaled {α β : Type} (f : α → Option β) (g : α → β) : ∀ (l : List α), (∀ a ∈ l, f a = some (g a)) → l.mapM f = some (l.map g)
  | [], _ => rfl
  | a :: t, h => by
    rw [List.mapM_cons, h a List.mem_cons_self, mapM_scaled f g t fun c hc => h c (List.mem_cons_of_mem _ hc)]
    rfl

/-- Python axes after the correction at the start. -/
theorem labelAt_named {n : Nat} {axis : Int} {k : Nat} (h : NamesAxis n axis k) {qs : List Q} (_hq : qs.length = n) :
    labelAt (if axis < 0 then axis + (n : Int) else axis) qs = qs[k]? := by
  obtain ⟨h1, rfl | rfl⟩ := h
  · rw [if_neg (by omega)]
    simp [labelAt]
  · rw [if_pos (by omega)]
    unfold labelAt
    rw [if_pos (by omega)]
    congr 1
    omega

theorem normalise_core (thr : ℝ) (axis : Int) (k : Nat) {T : SpT Q 𝕜} (h : ∀ b ∈ T, labelAt axis b.1 = b.1[k]? ∧ k < b.1.length) :
    ((T.foldlM (accumStep axis) []).bind fun normsq => T.mapM (scaleStep thr axis normsq)) =
      some (T.map (scaled thr k fun q => blockWeight k q T)) := by
  obtain ⟨d, e1, e2, _, e4⟩ := accum_spec axis k T h []
  rw [e1]
  apply mapM_scaled
  intro b hb
  obtain ⟨h1, h2⟩ := h b hb
  have h3 : b.1[k]? = some b.1[k] := List.getElem?_eq_getElem h2
  obtain ⟨w, hw⟩ := Option.isSome_iff_exists.1 (e4 b hb _ h3)
  have hw' : w = blockWeight k b.1[k] T := by
    have := e2 b.1[k]
    rw [hw] at this
    simpa [Dict.get?] using this
  unfold scaleStep scaled
  rw [h1, h3]
  simp only [Option.bind_eq_bind, Option.bind_some, hw]
  rw [← hw']

theorem normalise_eq (thr : ℝ) {legs : List (BondInfo Q)} {T : SpT Q 𝕜} (hT : Conforms legs T) {axis : Int} {k : Nat}
    (hk : NamesAxis legs.length axis k) :
    normalizeAlongAxis thr axis T = some (T.map (scaled thr k fun q => blockWeight k q T)) := by
  unfold normalizeAlongAxis
  cases hc : T with
  | nil => rfl
  | cons b t =>
    rw [← hc]
    have hn : SpT.ndim T = legs.length := by
      rw [hc]
      exact (combination_lengths (hT b (by rw [hc]; exact List.mem_cons_self))).2
    apply normalise_core
    intro c hcT
    have hl := (combination_lengths (hT c hcT)).1
    rw [hn]
    exact ⟨labelAt_named hk hl, by rw [hl]; exact hk.1⟩

theorem scaled_fst (thr : ℝ) (k : Nat) (W : Q → ℝ) (b : List Q × Arr 𝕜) : (scaled thr k W b).1 = b.1 ∧ (scaled thr k W b).2.shape = b.2.shape := by
  unfold scaled
  split
  · exact ⟨rfl, rfl⟩
  · split_ifs <;> exact ⟨rfl, rfl⟩

theorem scaled_conforms (thr : ℝ) (k : Nat) (W : Q → ℝ) {legs : List (BondInfo Q)} {T : SpT Q 𝕜} (hT : Conforms legs T) :
    Conforms legs (T.map (scaled thr k W)) := by
  intro b hb
  obtain ⟨c, hc, rfl⟩ := List.mem_map.1 hb
  rw [(scaled_fst thr k W c).1, (scaled_fst thr k W c).2]
  exact hT c hc

theorem scaled_unique (thr : ℝ) (k : Nat) (W : Q → ℝ) {T : SpT Q 𝕜} (hu : UniqueLabels T) : UniqueLabels (T.map (scaled thr k W)) := by
  unfold UniqueLabels at hu ⊢
  rw [List.map_map]
  have : (Prod.fst ∘ scaled thr k W : List Q × Arr 𝕜 → List Q) = Prod.fst := funext fun b => (scaled_fst thr k W b).1
  rwa [this]

theorem sqNorm_div (sh : List Nat) (g : List Nat → 𝕜) {w : ℝ} (hw : 0 < w) :
    sqNorm (⟨sh, fun ix => g ix / ((Real.sqrt w : ℝ) : 𝕜)⟩ : Arr 𝕜) = sqNorm (⟨sh, g⟩ : Arr 𝕜) / w := by
  unfold sqNorm
  dsimp only
  rw [div_eq_mul_inv, ← List.sum_map_mul_right]
  apply sum_map_congr'
  intro ix _
  rw [norm_div, div_pow, RCLike.norm_ofReal, sq_abs, Real.sq_sqrt hw.le, div_eq_mul_inv]

theorem blockWeight_scaled {thr : ℝ} (h0 : 0 ≤ thr) (k : Nat) (W : Q → ℝ) (T : SpT Q 𝕜) (q : Q) :
    blockWeight k q (T.map (scaled thr k W)) = if W q > thr then blockWeight k q T / W q else blockWeight k q T := by
  have key : ∀ b : List Q × Arr 𝕜, (if (scaled thr k W b).1[k]? = some q then sqNorm (scaled thr k W b).2 else 0) =
      if W q > thr then (if b.1[k]? = some q then sqNorm b.2 else 0) / W q else (if b.1[k]? = some q then sqNorm b.2 else 0) := by
    intro b
    rw [(scaled_fst thr k W b).1]
    by_cases h : b.1[k]? = some q
    · rw [if_pos h, if_pos h]
      unfold scaled
      rw [h]
      dsimp only
      split_ifs with hh
      · exact sqNorm_div _ _ (lt_of_le_of_lt h0 hh)
      · rfl
    · rw [if_neg h, if_neg h]
      simp
  unfold blockWeight
  rw [List.map_map, show ((fun b : List Q × Arr 𝕜 => if b.1[k]? = some q then sqNorm b.2 else 0) ∘ scaled thr k W) = _ from funext key]
  split_ifs
  · rw [div_eq_mul_inv, ← List.sum_map_mul_right]
    apply sum_map_congr'
    intro b _
    rw [div_eq_mul_inv]
  · rfl

theorem scaled_self {thr : ℝ} {k : Nat} {W : Q → ℝ} {b : List Q × Arr 𝕜} (h : ∀ q, b.1[k]? = some q → W q > thr → W q = 1) :
    scaled thr k W b = b := by
  unfold scaled
  split
  · rfl
  · rename_i q hq
    split_ifs with h1
    · rw [h q hq h1]
      simp
    · rfl

/-- **C81, entries.** The method succeeds for every axis that names a leg, keeps the labels and the shapes of all blocks, and divides each
entry by the square root of the weight of its sector on that leg, if that weight is above the threshold; other entries stay. -/
theorem C81_entry (thr : ℝ) {legs : List (BondInfo Q)} (hw : ∀ b ∈ legs, Dict.WF b) {T : SpT Q 𝕜} (hT : Conforms legs T)
    (hu : UniqueLabels T) {axis : Int} {k : Nat} (hk : NamesAxis legs.length axis k) :
    ∃ T', normalizeAlongAxis thr axis T = some T' ∧
      T'.map (fun b => (b.1, b.2.shape)) = T.map (fun b => (b.1, b.2.shape)) ∧
      ∀ x q, (x[k]?).map Prod.fst = some q →
        (thr < sectorWeight legs T k q → entry T' x = entry T x / ((Real.sqrt (sectorWeight legs T k q) : ℝ) : 𝕜)) ∧
        (¬ thr < sectorWeight legs T k q → entry T' x = entry T x) := by
  refine ⟨_, normalise_eq thr hT hk, ?_, ?_⟩
  · rw [List.map_map]
    apply List.map_congr_left
    intro b _
    simp [scaled_fst]
  · intro x q hx
    have key : ∀ b : List Q × Arr 𝕜, blockEntry (scaled thr k (fun q => blockWeight k q T) b) x =
        blockEntry b x * (if blockWeight k q T > thr then (((Real.sqrt (blockWeight k q T) : ℝ) : 𝕜))⁻¹ else 1) := by
      intro b
      unfold blockEntry
      rw [(scaled_fst _ _ _ b).1, (scaled_fst _ _ _ b).2]
      by_cases hb : b.1 = x.map Prod.fst ∧ inBox b.2.shape (x.map Prod.snd) = true
      · rw [if_pos hb, if_pos hb]
        have : b.1[k]? = some q := by rw [hb.1, List.getElem?_map, hx]
        unfold scaled
        rw [this]
        dsimp only
        split_ifs
        · exact div_eq_mul_inv _ _
        · rw [mul_one]
      · rw [if_neg hb, if_neg hb, zero_mul]
    have he : entry (T.map (scaled thr k fun q => blockWeight k q T)) x =
        entry T x * (if blockWeight k q T > thr then (((Real.sqrt (blockWeight k q T) : ℝ) : 𝕜))⁻¹ else 1) := by
      unfold entry
      rw [List.map_map, ← List.sum_map_mul_right]
      apply sum_map_congr'
      intro b _
      exact key b
    rw [sectorWeight_eq hw hT hu]
    constructor
    · intro h
      rw [he, if_pos h, div_eq_mul_inv]
    · intro h
      rw [he, if_neg h, mul_one]

/-- **C81, weights.** Afterwards each sector of the leg has weight one, except those at or below the threshold, which keep theirs. -/
theorem C81_weight {thr : ℝ} (h0 : 0 ≤ thr) {legs : List (BondInfo Q)} (hw : ∀ b ∈ legs, Dict.WF b) {T T' : SpT Q 𝕜}
    (hT : Conforms legs T) (hu : UniqueLabels T) {axis : Int} {k : Nat} (hk : NamesAxis legs.length axis k)
    (h : normalizeAlongAxis thr axis T = some T') (q : Q) :
    (thr < sectorWeight legs T k q → sectorWeight legs T' k q = 1) ∧
    (¬ thr < sectorWeight legs T k q → sectorWeight legs T' k q = sectorWeight legs T k q) := by
  rw [normalise_eq thr hT hk, Option.some.injEq] at h
  subst h
  rw [sectorWeight_eq hw hT hu, sectorWeight_eq hw (scaled_conforms _ _ _ hT) (scaled_unique _ _ _ hu),
    blockWeight_scaled h0]
  constructor
  · intro h
    rw [if_pos h]
    exact div_self (lt_of_le_of_lt h0 h).ne'
  · intro h
    rw [if_neg h]

/-- **C81, once is enough.** A second application changes nothing. -/
theorem C81_idempotent {thr : ℝ} (h0 : 0 ≤ thr) {legs : List (BondInfo Q)} {T T' : SpT Q 𝕜}
    (hT : Conforms legs T) {axis : Int} {k : Nat} (hk : NamesAxis legs.length axis k)
    (h : normalizeAlongAxis thr axis T = some T') : normalizeAlongAxis thr axis T' = some T' := by
  rw [normalise_eq thr hT hk, Option.some.injEq] at h
  subst h
  rw [normalise_eq thr (scaled_conforms _ _ _ hT) hk, Option.some.injEq]
  conv_rhs => rw [← List.map_id (T.map _)]
  apply List.map_congr_left
  intro b _
  rw [id]
  apply scaled_self
  intro q _
  rw [blockWeight_scaled h0]
  split_ifs with h1
  · intro _
    exact div_self (lt_of_le_of_lt h0 h1).ne'
  · intro h2
    exact absurd h2 h1

/-- **C81, negative axes.** `axis - ndim` is the same as `axis`. -/
theorem C81_negative (thr : ℝ) {legs : List (BondInfo Q)} {T : SpT Q 𝕜} (hT : Conforms legs T) {k : Nat} (hk : k < legs.length) :
    normalizeAlongAxis thr ((k : Int) - (legs.length : Int)) T = normalizeAlongAxis thr (k : Int) T := by
  rw [normalise_eq thr hT ⟨hk, Or.inr rfl⟩, normalise_eq thr hT ⟨hk, Or.inl rfl⟩]

/-- **C81, violation.** An axis below `-ndim` is not rejected: it is wrapped once more. -/
theorem C81_wraps_twice (thr : ℝ) {legs : List (BondInfo Q)} {T : SpT Q 𝕜} (hT : Conforms legs T) {k : Nat} (hk : k < legs.length) :
    normalizeAlongAxis thr ((k : Int) - 2 * (legs.length : Int)) T = normalizeAlongAxis thr (k : Int) T := by
  rw [normalise_eq thr hT ⟨hk, Or.inl rfl⟩]
  unfold normalizeAlongAxis
  cases hc : T with
  | nil => rfl
  | cons b t =>
    rw [← hc]
    have hn : SpT.ndim T = legs.length := by
      rw [hc]
      exact (combination_lengths (hT b (by rw [hc]; exact List.mem_cons_self))).2
    apply normalise_core
    intro c hcT
    have hl := (combination_lengths (hT c hcT)).1
    refine ⟨?_, by rw [hl]; exact hk⟩
    rw [hn, if_pos (by omega)]
    unfold labelAt
    rw [if_neg (by omega), if_pos (by omega)]
    congr 1
    omega

/-- **C81, other axes.** They raise an error when there is a block. -/
theorem C81_bad_axis (thr : ℝ) {legs : List (BondInfo Q)} {T : SpT Q 𝕜} (hT : Conforms legs T) (hne : T ≠ []) {axis : Int}
    (h : (legs.length : Int) ≤ axis ∨ axis < -(2 * (legs.length : Int))) : normalizeAlongAxis thr axis T = none := by
  obtain ⟨b, t, rfl⟩ := List.exists_cons_of_ne_nil hne
  have hl := combination_lengths (hT b List.mem_cons_self)
  have hn : SpT.ndim (b :: t) = legs.length := hl.2
  unfold normalizeAlongAxis
  rw [hn]
  have : labelAt (if axis < 0 then axis + (legs.length : Int) else axis) b.1 = none := by
    unfold labelAt
    rw [hl.1]
    rcases h with h | h
    · rw [if_neg (by omega : ¬ axis < 0), if_pos (by omega)]
      apply List.getElem?_eq_none
      omega
    · rw [if_pos (by omega : axis < 0), if_neg (by omega), if_neg (by omega)]
  dsimp only
  rw [List.foldlM_cons]
  unfold accumStep
  rw [this]
  rfl

end normalise

section noise
variable {E : Type} [NormedAddCommGroup E] [NormedSpace ℝ E]

theorem noise_size (dm pdm : E) (c : ℝ) (h : ‖pdm‖ ≠ 0) : ‖dm + (c / ‖pdm‖) • pdm - dm‖ = |c| := by
  rw [add_sub_cancel_left, norm_smul, Real.norm_eq_abs, abs_div, abs_norm, div_mul_cancel₀ _ h]

/-- **C81, noise.** The perturbative noise moves the density matrix by exactly the requested amount, or, when the perturbation is below the
threshold, not at all; without noise nothing changes. -/
theorem C81_noise {thr : ℝ} (h0 : 0 ≤ thr) (dm pdm : E) (noise : ℝ) :
    (thr < ‖pdm‖ → ‖addDmNoise thr dm pdm noise - dm‖ = |noise|) ∧ (‖pdm‖ ≤ thr → addDmNoise thr dm pdm noise = dm) ∧
      addDmNoise thr dm pdm 0 = dm := by
  unfold addDmNoise
  rw [abs_norm]
  refine ⟨fun h => ?_, fun h => ?_, by simp⟩
  · split_ifs with h1
    · simp [h1]
    · exact noise_size _ _ _ (lt_of_le_of_lt h0 h).ne'
  · rw [if_neg (not_lt.2 h)]
    simp

/-- **C81, random noise.** With a non-zero random tensor the density matrix moves by `|noise|` and the squared distance of the wavefunction from the old
one is `noise`; a zero random tensor is a division by zero. -/
theorem C81_random_noise (v p : E) {noise : ℝ} (hn : 0 ≤ noise) :
    (p ≠ 0 → (∃ r, addDmNoiseRandom v p noise = some r ∧ ‖r - v‖ = noise) ∧ ∃ r, addWfnNoise v p noise = some r ∧ ‖r - v‖ ^ 2 = noise) ∧
    (p = 0 → noise ≠ 0 → addDmNoiseRandom v p noise = none ∧ addWfnNoise v p noise = none) := by
  unfold addDmNoiseRandom addWfnNoise
  constructor
  · intro hp
    have hp' : ‖p‖ ≠ 0 := by simpa using hp
    by_cases h : noise = 0
    · subst h
      exact ⟨⟨v, by simp, by simp⟩, v, by simp, by simp⟩
    · rw [if_neg h, if_neg hp', if_neg h, if_neg hp']
      refine ⟨⟨_, rfl, ?_⟩, _, rfl, ?_⟩
      · rw [noise_size _ _ _ hp', abs_of_nonneg hn]
      · rw [noise_size _ _ _ hp', sq_abs, Real.sq_sqrt hn]
  · rintro rfl h
    simp [h]

end noise

/-- A tensor with two legs: labels 0 and 1, block (0, 0) is `(3, 4)` and block (1, 1) is `0`. -/
noncomputable def naLegs : List (BondInfo Int) := [[(0, 1), (1, 1)], [(0, 2), (1, 1)]]
noncomputable def naT : SpT Int ℝ := [([0, 0], ⟨[1, 2], fun ix => if ix = [0, 0] then 3 else 4⟩), ([1, 1], ⟨[1, 1], fun _ => 0⟩)]

/-- The hypotheses of the theorems hold for it; the weights on the first leg are 25 and 0. -/
example : (∀ b ∈ naLegs, Dict.WF b) ∧ UniqueLabels naT ∧ NamesAxis naLegs.length (-2) 0 ∧
    sectorWeight naLegs naT 0 0 = 25 ∧ sectorWeight naLegs naT 0 1 = 0 := by
  refine ⟨by decide, by unfold UniqueLabels; simp [naT], ⟨by decide, Or.inr rfl⟩, ?_, ?_⟩ <;>
  norm_num [sectorWeight, naLegs, naT, legIndices, legBasis, cart, entry, blockEntry, inBox, List.range_succ]

example : Conforms naLegs naT := by
  intro b hb
  simp only [naT, List.mem_cons, List.not_mem_nil, or_false] at hb
  rcases hb with rfl | rfl <;> exact .cons rfl (.cons rfl .nil)

end Verif
