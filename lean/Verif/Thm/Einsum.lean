import Verif.Model.Einsum
import Verif.Spec.Einsum
import Verif.Thm.Sparse
import Mathlib.Data.List.GetD

/-!
C38: Einstein summation.
-/
set_option linter.unusedSectionVars false

namespace Verif
namespace Einsum

section pos
variable {α β : Type} [DecidableEq α]

theorem positions_congr {p q : α → Bool} {s : List α} (h : ∀ c ∈ s, p c = q c) : positions p s = positions q s := by
  unfold positions
  refine List.filter_congr fun j hj => ?_
  have hj' : j < s.length := by simpa using hj
  rw [List.getElem?_eq_getElem hj']
  exact h _ (List.getElem_mem hj')

theorem mem_positions {p : α → Bool} {s : List α} {j : Nat} : j ∈ positions p s ↔ ∃ h : j < s.length, p s[j] = true := by
  unfold positions
  rw [List.mem_filter, List.mem_range]
  constructor
  · rintro ⟨h, h'⟩
    rw [List.getElem?_eq_getElem h] at h'
    exact ⟨h, h'⟩
  · rintro ⟨h, h'⟩
    rw [List.getElem?_eq_getElem h]
    exact ⟨h, h'⟩

theorem positions_nodup (p : α → Bool) (s : List α) : (positions p s).Nodup := List.nodup_range.filter _

theorem positions_cons (p : α → Bool) (a : α) (s : List α) :
    positions p (a :: s) = (if p a = true then [0] else []) ++ (positions p s).map (· + 1) := by
  unfold positions
  rw [List.length_cons, List.range_succ_eq_map, List.filter_cons, List.filter_map]
  simp only [List.getElem?_cons_zero, Option.any_some]
  have : ((fun j => (a :: s)[j]?.any p) ∘ Nat.succ) = fun j => s[j]?.any p := by
    funext j; simp
  rw [this]
  split_ifs <;> rfl

theorem positions_map (p : α → Bool) (s : List α) (f : α → β) (d : β) :
    (positions p s).map (fun i => (s.map f).getD i d) = (s.filter p).map f := by
  induction s with
  | nil => rfl
  | cons a s ih =>
    rw [positions_cons, List.map_append, List.map_map]
    have : ((fun i => ((a :: s).map f).getD i d) ∘ (· + 1)) = fun i => (s.map f).getD i d := by
      funext i; simp
    rw [this, ih]
    by_cases h : p a = true <;> simp [h]

theorem positions_length (p : α → Bool) (s : List α) : (positions p s).length = (s.filter p).length := by
  induction s with
  | nil => rfl
  | cons a s ih =>
    rw [positions_cons, List.length_append, List.length_map, ih]
    by_cases h : p a = true
    · simp [h, Nat.add_comm]
    · simp [h]

theorem free_positions (p : α → Bool) (s : List α) : freeAxes s.length (positions p s) = positions (fun c => !p c) s := by
  unfold freeAxes
  refine List.filter_congr fun j hj => ?_
  have hj' : j < s.length := by simpa using hj
  rw [List.getElem?_eq_getElem hj', Option.any_some]
  by_cases h : p s[j] = true
  · simp [mem_positions, hj', h]
  · simp [mem_positions, hj', h]

theorem free_congr {n : Nat} {a b : List Nat} (h : ∀ j < n, j ∈ a ↔ j ∈ b) : freeAxes n a = freeAxes n b := by
  unfold freeAxes
  refine List.filter_congr fun j hj => ?_
  have := h j (by simpa using hj)
  simp [this]

/-- The sorted second list of axes. -/
theorem sort_positions {t D : List α} (p : α → Bool) (ht : t.Nodup) (hD : D.Nodup) (hp : ∀ c, p c = true ∧ c ∈ t ↔ c ∈ D) :
    sortBy (fun x y => decide (sortKey D t x ≤ sortKey D t y)) (positions p t) = D.map fun c => t.idxOf c := by
  set key := sortKey D t with hkey
  have hk : ∀ c ∈ D, key (t.idxOf c) = D.idxOf c := by
    intro c hc
    have hct := ((hp c).2 hc).2
    have hl := List.idxOf_lt_length_iff.2 hct
    rw [hkey, sortKey, List.getElem?_eq_getElem hl, List.getElem_idxOf hl]
    simp [hc]
  have hmem : ∀ j, j ∈ positions p t ↔ j ∈ D.map fun c => t.idxOf c := by
    intro j
    rw [mem_positions, List.mem_map]
    constructor
    · rintro ⟨hj, h⟩
      exact ⟨t[j], (hp _).1 ⟨h, List.getElem_mem hj⟩, ht.idxOf_getElem j hj⟩
    · rintro ⟨c, hc, rfl⟩
      have := (hp c).2 hc
      have hl := List.idxOf_lt_length_iff.2 this.2
      exact ⟨hl, by rw [List.getElem_idxOf hl]; exact this.1⟩
  have hnd : (D.map fun c => t.idxOf c).Nodup := by
    refine (List.nodup_map_iff_inj_on hD).2 fun a ha b hb h => (List.idxOf_inj ((hp a).2 ha).2).1 h
  have hperm : (sortBy (fun x y => decide (key x ≤ key y)) (positions p t)).Perm (D.map fun c => t.idxOf c) :=
    (sortBy_perm _ _).trans ((List.perm_ext_iff_of_nodup (positions_nodup p t) hnd).2 hmem)
  have hs := sortBy_sorted (fun x y => decide (key x ≤ key y)) (fun a b => by simpa using le_total (key a) (key b))
    (fun a b c h1 h2 => by simp only [decide_eq_true_eq] at *; exact le_trans h1 h2) (positions p t)
  have hs2 : (D.map fun c => t.idxOf c).Pairwise fun a b => decide (key a ≤ key b) = true := by
    rw [List.pairwise_map, List.pairwise_iff_getElem]
    intro i j hi hj hij
    rw [hk _ (List.getElem_mem hi), hk _ (List.getElem_mem hj), hD.idxOf_getElem i hi, hD.idxOf_getElem j hj]
    simp only [decide_eq_true_eq]
    omega
  refine hperm.eq_of_pairwise (fun a b ha hb h1 h2 => ?_) hs hs2
  have ha' := hperm.mem_iff.1 ha
  obtain ⟨c, hc, rfl⟩ := List.mem_map.1 ha'
  obtain ⟨c', hc', rfl⟩ := List.mem_map.1 hb
  simp only [decide_eq_true_eq] at h1 h2
  have := le_antisymm h1 h2
  rw [hk c hc, hk c' hc'] at this
  have h3 : D.idxOf c = D.idxOf c' := by exact_mod_cast this
  rw [(List.idxOf_inj hc).1 h3]

end pos

/-! ### Sums over letters -/

section sums
variable {α Q K : Type} [DecidableEq α] [DecidableEq Q]

theorem sumOver_congr [AddCommMonoid K] (leg : α → BondInfo Q) (l : List α) {f g : (α → Q × Nat) → K} (h : ∀ τ, f τ = g τ) (σ : α → Q × Nat) :
    sumOver leg l f σ = sumOver leg l g σ := by
  have : f = g := funext h
  rw [this]

theorem sumOver_append [AddCommMonoid K] (leg : α → BondInfo Q) (l m : List α) (f : (α → Q × Nat) → K) (σ : α → Q × Nat) :
    sumOver leg (l ++ m) f σ = sumOver leg l (sumOver leg m f) σ := by
  induction l generalizing σ with
  | nil => rfl
  | cons c l ih =>
    rw [List.cons_append, sumOver, sumOver]
    simp only [ih]

theorem sumOver_perm [AddCommMonoid K] (leg : α → BondInfo Q) {l m : List α} (h : l.Perm m) (f : (α → Q × Nat) → K) (σ : α → Q × Nat) :
    sumOver leg l f σ = sumOver leg m f σ := by
  induction h generalizing σ with
  | nil => rfl
  | cons c _ ih => rw [sumOver, sumOver]; simp only [ih]
  | swap c d l =>
    by_cases e : c = d
    · rw [e]
    · simp only [sumOver]
      rw [sum_comm']
      simp only [Function.update_comm e]
  | trans _ _ ih1 ih2 => rw [ih1, ih2]

theorem sumOver_mul [Semiring K] (leg : α → BondInfo Q) (l : List α) (f g : (α → Q × Nat) → K) (σ : α → Q × Nat)
    (hg : ∀ c ∈ l, ∀ τ z, g (Function.update τ c z) = g τ) : sumOver leg l f σ * g σ = sumOver leg l (fun τ => f τ * g τ) σ := by
  induction l generalizing σ with
  | nil => rfl
  | cons c l ih =>
    rw [sumOver, sumOver, ← sum_map_mul_right']
    refine sum_map_congr' _ _ _ fun z _ => ?_
    rw [← ih _ fun d hd => hg d (by simp [hd]), hg c (by simp)]

/-- Give the letters `l` the values `c`. -/
def assign (σ : α → Q × Nat) : List α → List (Q × Nat) → α → Q × Nat
  | d :: l, z :: c => assign (Function.update σ d z) l c
  | _, _ => σ

theorem assign_not_mem (σ : α → Q × Nat) (l : List α) (c : List (Q × Nat)) {a : α} (h : a ∉ l) : assign σ l c a = σ a := by
  induction l generalizing σ c with
  | nil => cases c <;> rfl
  | cons d l ih =>
    cases c with
    | nil => rfl
    | cons z c =>
      rw [List.mem_cons, not_or] at h
      rw [assign, ih _ _ h.2, Function.update_of_ne h.1]

theorem assign_map (σ : α → Q × Nat) (l : List α) (c : List (Q × Nat)) (hl : l.Nodup) (h : c.length = l.length) : l.map (assign σ l c) = c := by
  induction l generalizing σ c with
  | nil => cases c with
    | nil => rfl
    | cons => simp at h
  | cons d l ih =>
    cases c with
    | nil => simp at h
    | cons z c =>
      rw [List.nodup_cons] at hl
      rw [List.map_cons, assign, ih _ _ hl.2 (by simpa using h), assign_not_mem _ _ _ hl.1, Function.update_self]

theorem sumOver_eq [AddCommMonoid K] (leg : α → BondInfo Q) (l : List α) (f : (α → Q × Nat) → K) (σ : α → Q × Nat) :
    sumOver leg l f σ = ((legIndices (l.map leg)).map fun c => f (assign σ l c)).sum := by
  induction l generalizing σ with
  | nil => simp [sumOver, legIndices, cart, assign]
  | cons d l ih =>
    rw [sumOver]
    unfold legIndices
    rw [List.map_cons, List.map_cons, cart, sum_flatMap']
    refine sum_map_congr' _ _ _ fun z _ => ?_
    rw [ih, List.map_map]
    rfl

end sums

section value
variable {α Q K : Type} [DecidableEq α] [DecidableEq Q] [AddCommGroup Q] [CommSemiring K]

/-- One contraction. -/
theorem dot_value (leg : α → BondInfo Q) (hw : ∀ c, Dict.WF (leg c)) (s t : List α) (hs : s.Nodup) (ht : t.Nodup) (A B : SpT Q K)
    (hA : Conforms (s.map leg) A) (hB : Conforms (t.map leg) B) :
    ∃ R, spDot A B (positions (fun c => decide (c ∈ t)) s) ((s.filter fun c => decide (c ∈ t)).map fun c => t.idxOf c) = some R ∧
      Conforms ((s.filter (fun c => !decide (c ∈ t)) ++ t.filter fun c => !decide (c ∈ s)).map leg) R ∧
      ∀ σ, entry R ((s.filter (fun c => !decide (c ∈ t)) ++ t.filter fun c => !decide (c ∈ s)).map σ) =
        sumOver leg (s.filter fun c => decide (c ∈ t)) (fun τ => entry A (s.map τ) * entry B (t.map τ)) σ := by
  set D := s.filter fun c => decide (c ∈ t) with hD
  have hDn : D.Nodup := hs.filter _
  have hDm : ∀ c, c ∈ D ↔ c ∈ s ∧ c ∈ t := by intro c; rw [hD, List.mem_filter]; simp
  set idxa := positions (fun c => decide (c ∈ t)) s with hia
  set idxb := D.map fun c => t.idxOf c with hib
  have fa : freeAxes s.length idxa = positions (fun c => !decide (c ∈ t)) s := by rw [hia, free_positions]
  have hmb : ∀ j < t.length, j ∈ idxb ↔ j ∈ positions (fun c => decide (c ∈ s)) t := by
    intro j hj
    rw [mem_positions, hib, List.mem_map]
    constructor
    · rintro ⟨c, hc, rfl⟩
      exact ⟨hj, by rw [List.getElem_idxOf hj]; simpa using ((hDm c).1 hc).1⟩
    · rintro ⟨h, h'⟩
      exact ⟨t[j], (hDm _).2 ⟨by simpa using h', List.getElem_mem h⟩, ht.idxOf_getElem j h⟩
  have fb : freeAxes t.length idxb = positions (fun c => !decide (c ∈ s)) t := by rw [free_congr hmb, free_positions]
  have hidxb : ∀ {β : Type} (f : α → β) (d : β), idxb.map (fun i => (t.map f).getD i d) = D.map f := by
    intro β f d
    rw [hib, List.map_map]
    refine List.map_congr_left fun c hc => ?_
    have hl := List.idxOf_lt_length_iff.2 ((hDm c).1 hc).2
    simp [List.getElem?_eq_getElem hl]
  obtain ⟨R, hR, hc, -, hv⟩ := C12_tensordot A B (idxa.map fun (i : Nat) => (i : Int)) (idxb.map fun (i : Nat) => (i : Int)) (s.map leg) (t.map leg)
    (D.map leg) idxa idxb hA hB
    (by
      rw [List.forall₂_map_left_iff, List.forall₂_same]
      intro i hi
      obtain ⟨h, -⟩ := mem_positions.1 hi
      exact ⟨by simpa using h, Or.inl rfl⟩)
    (by
      rw [List.forall₂_map_left_iff, List.forall₂_same]
      intro i hi
      obtain ⟨c, hc, rfl⟩ := List.mem_map.1 hi
      exact ⟨by simpa using List.idxOf_lt_length_iff.2 ((hDm c).1 hc).2, Or.inl rfl⟩)
    (positions_nodup _ _)
    ((List.nodup_map_iff_inj_on hDn).2 fun a ha b _ h => (List.idxOf_inj ((hDm a).1 ha).2).1 h)
    (positions_map _ s leg [])
    (hidxb leg [])
    (by
      intro b hb
      obtain ⟨c, -, rfl⟩ := List.mem_map.1 hb
      exact hw c)
  rw [List.length_map, List.length_map, fa, fb] at hc hv
  rw [positions_map, positions_map, ← List.map_append] at hc
  refine ⟨R, hR, hc, fun σ => ?_⟩
  rw [sumOver_eq, List.map_append]
  refine hv _ _ ?_ ?_ (fun c => s.map (assign σ D c)) (fun c => t.map (assign σ D c)) ?_ ?_
  · rw [List.length_map, positions_length]
  · rw [List.length_map, positions_length]
  · intro c hcm
    have hlen : c.length = D.length := by
      have := ((mem_cart _ _).1 hcm).length_eq
      simpa using this.symm
    have h1 : pick idxa (s.map (assign σ D c)) = c := by
      unfold pick
      rw [hia, positions_map, ← hD, assign_map σ D c hDn hlen]
    have h2 : pick (freeAxes (s.map (assign σ D c)).length idxa) (s.map (assign σ D c)) = (s.filter fun c => !decide (c ∈ t)).map σ := by
      unfold pick
      rw [List.length_map, fa, positions_map]
      refine List.map_congr_left fun a ha => assign_not_mem _ _ _ fun hd => ?_
      have := (List.mem_filter.1 ha).2
      simp [((hDm a).1 hd).2] at this
    refine ⟨?_, h1, h2⟩
    rw [List.length_map, hlen, List.length_map, hD]
    have := List.length_eq_length_filter_add (l := s) fun c => decide (c ∈ t)
    simpa using this
  · intro c hcm
    have hlen : c.length = D.length := by
      have := ((mem_cart _ _).1 hcm).length_eq
      simpa using this.symm
    have h1 : pick idxb (t.map (assign σ D c)) = c := by
      unfold pick
      rw [hidxb, assign_map σ D c hDn hlen]
    have h2 : pick (freeAxes (t.map (assign σ D c)).length idxb) (t.map (assign σ D c)) = (t.filter fun c => !decide (c ∈ s)).map σ := by
      unfold pick
      rw [List.length_map, fb, positions_map]
      refine List.map_congr_left fun a ha => assign_not_mem _ _ _ fun hd => ?_
      have := (List.mem_filter.1 ha).2
      simp [((hDm a).1 hd).1] at this
    refine ⟨?_, h1, h2⟩
    have hp : D.Perm (t.filter fun c => decide (c ∈ s)) := by
      refine (List.perm_ext_iff_of_nodup hDn (ht.filter _)).2 fun a => ?_
      rw [hDm, List.mem_filter]
      simp [and_comm]
    rw [List.length_map, hlen, List.length_map, hp.length_eq]
    have := List.length_eq_length_filter_add (l := t) fun c => decide (c ∈ s)
    simpa using this

theorem two_places {s t : List α} (hs : s.Nodup) (ht : t.Nodup) (c : α) : (s.count c + t.count c > 1) ↔ c ∈ s ∧ c ∈ t := by
  have h1 := List.nodup_iff_count_le_one.1 hs c
  have h2 := List.nodup_iff_count_le_one.1 ht c
  rw [← List.count_pos_iff (a := c) (l := s), ← List.count_pos_iff (a := c) (l := t)]
  omega

theorem two_places_eq {s t : List α} (hs : s.Nodup) (ht : t.Nodup) {c : α} (h : c ∈ s ∧ c ∈ t) : s.count c + t.count c = 2 := by
  rw [List.count_eq_one_of_mem hs h.1, List.count_eq_one_of_mem ht h.2]

/-- One pass of the loop for scripts without repeated letters. -/
theorem step_eq {X : Type} (tensordot : X → X → List Nat → List Nat → Option X) (s t : List α) (hs : s.Nodup) (ht : t.Nodup) (A B : X)
    (cnt : α → Nat) :
    step tensordot s A cnt t B = if ∀ c ∈ s, c ∈ t → cnt c = 2 then
      (tensordot A B (positions (fun c => decide (c ∈ t)) s) ((s.filter fun c => decide (c ∈ t)).map fun c => t.idxOf c)).map fun R =>
        (s.filter (fun c => !decide (c ∈ t)) ++ t.filter fun c => !decide (c ∈ s), R,
          fun c => if c ∈ s.filter fun c => decide (c ∈ t) then cnt c - 2 else cnt c)
      else none := by
  unfold step
  simp only [positions_length]
  by_cases h : ∀ c ∈ s, c ∈ t → cnt c = 2
  · rw [if_pos h]
    have hctr : ∀ c, (decide (s.count c + t.count c > 1) && decide (s.count c + t.count c = cnt c)) = (decide (c ∈ s) && decide (c ∈ t)) := by
      intro c
      by_cases hc : c ∈ s ∧ c ∈ t
      · have h2 := two_places_eq hs ht hc
        have h3 := h c hc.1 hc.2
        simp [hc.1, hc.2, h2, h3]
      · have h1 : ¬ (s.count c + t.count c > 1) := fun h => hc ((two_places hs ht c).1 h)
        have h2 : (decide (c ∈ s) && decide (c ∈ t)) = false := by simpa using hc
        rw [h2]
        simp only [h1, decide_false, Bool.false_and]
    have hbr : ∀ c, (decide (s.count c + t.count c > 1) && !decide (s.count c + t.count c = cnt c)) = false := by
      intro c
      by_cases hc : c ∈ s ∧ c ∈ t
      · have h2 := two_places_eq hs ht hc
        have h3 := h c hc.1 hc.2
        simp [h2, h3]
      · have h1 : ¬ (s.count c + t.count c > 1) := fun h => hc ((two_places hs ht c).1 h)
        simp only [h1, decide_false, Bool.false_and]
    have hfree : ∀ c, (!decide (s.count c + t.count c > 1)) = !(decide (c ∈ s) && decide (c ∈ t)) := by
      intro c
      rw [decide_eq_decide.2 (two_places hs ht c), Bool.decide_and]
    simp only [hctr, hbr, hfree]
    have hf0 : ∀ l : List α, l.filter (fun _ => false) = [] := by intro l; simp
    simp only [hf0, List.length_nil, ne_eq, not_true_eq_false, if_false, List.nil_append]
    have e1 : s.filter (fun c => decide (c ∈ s) && decide (c ∈ t)) = s.filter fun c => decide (c ∈ t) :=
      List.filter_congr fun c hc => by simp [hc]
    have e2 : positions (fun c => decide (c ∈ s) && decide (c ∈ t)) s = positions (fun c => decide (c ∈ t)) s :=
      positions_congr fun c hc => by simp [hc]
    have e3 : s.filter (fun c => !(decide (c ∈ s) && decide (c ∈ t))) = s.filter fun c => !decide (c ∈ t) :=
      List.filter_congr fun c hc => by simp [hc]
    have e4 : t.filter (fun c => !(decide (c ∈ s) && decide (c ∈ t))) = t.filter fun c => !decide (c ∈ s) :=
      List.filter_congr fun c hc => by simp [hc]
    have e5 := sort_positions (D := s.filter fun c => decide (c ∈ t)) (t := t) (fun c => decide (c ∈ s) && decide (c ∈ t)) ht (hs.filter _) (by
      intro c; simp [List.mem_filter])
    rw [e1, e2, e3, e4, e5]
    cases tensordot A B (positions (fun c => decide (c ∈ t)) s) ((s.filter fun c => decide (c ∈ t)).map fun c => t.idxOf c) <;> rfl
  · rw [if_neg h]
    push Not at h
    obtain ⟨c, hcs, hct, hne⟩ := h
    rw [if_pos]
    have h2 := two_places_eq hs ht ⟨hcs, hct⟩
    have : c ∈ s.filter fun c => decide (s.count c + t.count c > 1) && !decide (s.count c + t.count c = cnt c) := by
      rw [List.mem_filter]
      refine ⟨hcs, ?_⟩
      rw [h2]
      simp [Ne.symm hne]
    have := List.length_pos_of_mem this
    omega

/-- Letters of the scripts that are left, with the result. -/
def total (s : List α) (rest : List (List α)) (result : List α) (c : α) : Nat := s.count c + rest.flatten.count c + result.count c

theorem total_step {s t : List α} {rest : List (List α)} {result : List α} {cnt : α → Nat} (hs : s.Nodup) (ht : t.Nodup)
    (hcnt : ∀ c, cnt c = total s (t :: rest) result c) (h : ∀ c ∈ s, c ∈ t → cnt c = 2) (c : α) :
    (if c ∈ s.filter fun c => decide (c ∈ t) then cnt c - 2 else cnt c) =
      total (s.filter (fun c => !decide (c ∈ t)) ++ t.filter fun c => !decide (c ∈ s)) rest result c := by
  have h0 := hcnt c
  unfold total at *
  rw [List.flatten_cons, List.count_append] at h0
  rw [List.count_append]
  by_cases hc1 : c ∈ s <;> by_cases hc2 : c ∈ t
  · have h2 := two_places_eq hs ht ⟨hc1, hc2⟩
    have h3 := h c hc1 hc2
    have e1 : (s.filter fun c => !decide (c ∈ t)).count c = 0 := List.count_eq_zero.2 (by simp [hc2])
    have e2 : (t.filter fun c => !decide (c ∈ s)).count c = 0 := List.count_eq_zero.2 (by simp [hc1])
    rw [if_pos (by simp [hc1, hc2]), e1, e2]
    omega
  · have e1 : (s.filter fun c => !decide (c ∈ t)).count c = s.count c := List.count_filter (by simp [hc2])
    have e2 : (t.filter fun c => !decide (c ∈ s)).count c = 0 := List.count_eq_zero.2 (by simp [hc1])
    have e3 : t.count c = 0 := List.count_eq_zero.2 hc2
    rw [if_neg (by simp [hc2]), e1, e2]
    omega
  · have e1 : (s.filter fun c => !decide (c ∈ t)).count c = 0 := List.count_eq_zero.2 (by simp [hc1])
    have e2 : (t.filter fun c => !decide (c ∈ s)).count c = t.count c := List.count_filter (by simp [hc1])
    have e3 : s.count c = 0 := List.count_eq_zero.2 hc1
    rw [if_neg (by simp [hc1]), e1, e2]
    omega
  · have e1 : (s.filter fun c => !decide (c ∈ t)).count c = 0 := List.count_eq_zero.2 (by simp [hc1])
    have e2 : (t.filter fun c => !decide (c ∈ s)).count c = 0 := List.count_eq_zero.2 (by simp [hc2])
    have e3 : s.count c = 0 := List.count_eq_zero.2 hc1
    have e4 : t.count c = 0 := List.count_eq_zero.2 hc2
    rw [if_neg (by simp [hc1]), e1, e2]
    omega

theorem new_nodup {s t : List α} (hs : s.Nodup) (ht : t.Nodup) :
    (s.filter (fun c => !decide (c ∈ t)) ++ t.filter fun c => !decide (c ∈ s)).Nodup := by
  rw [List.nodup_append]
  refine ⟨hs.filter _, ht.filter _, ?_⟩
  intro a ha b hb h
  subst h
  have h1 := (List.mem_filter.1 ha).1
  have h2 := (List.mem_filter.1 hb).2
  simp [h1] at h2

theorem mem_new {s t : List α} {c : α} (h : c ∈ s.filter (fun c => !decide (c ∈ t)) ++ t.filter fun c => !decide (c ∈ s)) : c ∈ s ∨ c ∈ t := by
  rw [List.mem_append, List.mem_filter, List.mem_filter] at h
  tauto

/-- Value of the loop. -/
theorem loop_value (leg : α → BondInfo Q) (hw : ∀ c, Dict.WF (leg c)) (result : List α) (rest : List (List α)) (Bs : List (SpT Q K))
    (s : List α) (A : SpT Q K) (cnt : α → Nat) (hs : s.Nodup) (hrest : ∀ t ∈ rest, t.Nodup) (hA : Conforms (s.map leg) A)
    (hB : List.Forall₂ (fun t B => Conforms (t.map leg) B) rest Bs) (hcnt : ∀ c, cnt c = total s rest result c)
    (s2 : List α) (R : SpT Q K) (h : loop spDot s A cnt (rest.zip Bs) = some (s2, R)) :
    s2.Nodup ∧ Conforms (s2.map leg) R ∧ (∀ c ∈ s2, c ∈ s ++ rest.flatten ∧ total s rest result c = 1 + result.count c) ∧
      ∃ C : List α, C.Nodup ∧ (∀ c ∈ C, c ∈ s ++ rest.flatten ∧ c ∉ s2 ∧ c ∉ result) ∧ (∀ c ∈ s ++ rest.flatten, c ∈ C ∨ c ∈ s2) ∧
        ∀ σ, entry R (s2.map σ) = sumOver leg C (fun τ => entry A (s.map τ) * ((rest.zip Bs).map fun p => entry p.2 (p.1.map τ)).prod) σ := by
  induction hB generalizing s A cnt with
  | nil =>
    simp only [List.zip_nil_left, loop, Option.some.injEq, Prod.mk.injEq] at h
    obtain ⟨rfl, rfl⟩ := h
    refine ⟨hs, hA, ?_, [], List.nodup_nil, by simp, by simp, ?_⟩
    · intro c hc
      refine ⟨by simpa using hc, ?_⟩
      simp [total, List.count_eq_one_of_mem hs hc]
    · intro σ
      simp [sumOver]
  | @cons t B rest Bs hB1 hB2 ih =>
    have ht := hrest t (by simp)
    rw [List.zip_cons_cons, loop, step_eq spDot s t hs ht A B cnt] at h
    split_ifs at h with hok
    · obtain ⟨R1, hR1, hR1c, hR1v⟩ := dot_value leg hw s t hs ht A B hA hB1
      rw [hR1] at h
      simp only [Option.map_some] at h
      set D := s.filter fun c => decide (c ∈ t) with hD
      set s' := s.filter (fun c => !decide (c ∈ t)) ++ t.filter fun c => !decide (c ∈ s) with hs'
      have htot := total_step (rest := rest) (result := result) hs ht hcnt hok
      have hDm : ∀ c, c ∈ D ↔ c ∈ s ∧ c ∈ t := by intro c; rw [hD, List.mem_filter]; simp
      obtain ⟨h1, h2, h3, C, hC1, hC2, hC3, hC4⟩ := ih s' R1 _ (new_nodup hs ht) (fun u hu => hrest u (by simp [hu])) hR1c htot h
      have hD0 : ∀ c ∈ D, c ∉ s' ∧ c ∉ rest.flatten ∧ c ∉ result := by
        intro c hc
        have h4 := htot c
        rw [if_pos hc, hok c ((hDm c).1 hc).1 ((hDm c).1 hc).2] at h4
        rw [← hs'] at h4
        unfold total at h4
        refine ⟨List.count_eq_zero.1 ?_, List.count_eq_zero.1 ?_, List.count_eq_zero.1 ?_⟩ <;> omega
      have hsub : ∀ c, c ∈ s' ++ rest.flatten → c ∈ s ++ (t :: rest).flatten := by
        intro c hc
        rw [List.mem_append] at hc
        rcases hc with hc | hc
        · rcases mem_new hc with hc | hc <;> simp [hc]
        · rw [List.mem_append, List.flatten_cons, List.mem_append]
          exact Or.inr (Or.inr hc)
      have hnD : ∀ c, c ∈ s' ++ rest.flatten → c ∉ D := by
        intro c hc hd
        have := hD0 c hd
        rw [List.mem_append] at hc
        tauto
      refine ⟨h1, h2, ?_, C ++ D, ?_, ?_, ?_, ?_⟩
      · intro c hc
        obtain ⟨h5, h6⟩ := h3 c hc
        refine ⟨hsub c h5, ?_⟩
        have h7 := htot c
        rw [if_neg (hnD c h5), hcnt] at h7
        rw [h7, h6]
      · rw [List.nodup_append]
        refine ⟨hC1, hs.filter _, ?_⟩
        intro a ha b hb e
        subst e
        exact hnD a (hC2 a ha).1 hb
      · intro c hc
        rw [List.mem_append] at hc
        rcases hc with hc | hc
        · exact ⟨hsub c (hC2 c hc).1, (hC2 c hc).2⟩
        · refine ⟨by simp [((hDm c).1 hc).1], ?_, (hD0 c hc).2.2⟩
          intro h8
          exact hnD c (h3 c h8).1 hc
      · intro c hc
        by_cases hd : c ∈ D
        · left; simp [hd]
        · have : c ∈ s' ++ rest.flatten := by
            rw [hDm] at hd
            simp only [List.mem_append, List.flatten_cons, hs', List.mem_filter, Bool.not_eq_true', decide_eq_false_iff_not] at hc ⊢
            tauto
          rcases hC3 c this with h9 | h9
          · left; simp [h9]
          · right; exact h9
      · intro σ
        rw [hC4, sumOver_append]
        refine sumOver_congr leg C (fun τ => ?_) σ
        rw [hR1v, sumOver_mul leg D _ (fun τ => ((rest.zip Bs).map fun p => entry p.2 (p.1.map τ)).prod)]
        · refine sumOver_congr leg D (fun τ => ?_) τ
          rw [List.zip_cons_cons, List.map_cons, List.prod_cons, mul_assoc]
        · intro c hc τ z
          congr 1
          refine List.map_congr_left fun p hp => ?_
          congr 1
          refine List.map_congr_left fun a ha => ?_
          rw [Function.update_of_ne]
          rintro rfl
          exact (hD0 a hc).2.1 (List.mem_flatten.2 ⟨p.1, (List.of_mem_zip hp).1, ha⟩)

/-- Which scripts get through the loop and the final check. -/
theorem loop_accepts (leg : α → BondInfo Q) (hw : ∀ c, Dict.WF (leg c)) (result : List α) (rest : List (List α)) (Bs : List (SpT Q K))
    (s : List α) (A : SpT Q K) (cnt : α → Nat) (hs : s.Nodup) (hrest : ∀ t ∈ rest, t.Nodup) (hA : Conforms (s.map leg) A)
    (hB : List.Forall₂ (fun t B => Conforms (t.map leg) B) rest Bs) (hcnt : ∀ c, cnt c = total s rest result c)
    (hne : ∀ c ∈ s ++ rest.flatten, total s rest result c ≠ 1) :
    (∃ s2 R, loop spDot s A cnt (rest.zip Bs) = some (s2, R) ∧ ∃ R', finish spTranspose s2 R result = some R') ↔ TwicePlaced (s :: rest) result := by
  have htc : ∀ (s : List α) (rest : List (List α)) (c : α), ((s :: rest).flatten ++ result).count c = total s rest result c := by
    intro s rest c
    unfold total
    rw [List.flatten_cons, List.count_append, List.count_append]
  induction hB generalizing s A cnt with
  | nil =>
    have hsub : s ⊆ result := by
      intro c hc
      have := hne c (by simpa using hc)
      unfold total at this
      rw [List.count_eq_one_of_mem hs hc] at this
      apply List.count_pos_iff.1
      simp at this
      omega
    simp only [List.zip_nil_left, loop, Option.some.injEq, Prod.mk.injEq]
    have : (∃ s2 R, (s = s2 ∧ A = R) ∧ ∃ R', finish spTranspose s2 R result = some R') ↔ ∃ R', finish spTranspose s A result = some R' := by
      constructor
      · rintro ⟨s2, R, ⟨rfl, rfl⟩, h⟩; exact h
      · intro h; exact ⟨s, A, ⟨rfl, rfl⟩, h⟩
    rw [this]
    constructor
    · rintro ⟨R', h⟩
      unfold finish at h
      split_ifs at h with h1 h2
      all_goals
        have hlen : s.length = result.length := not_not.1 h1
        have hp : s.Perm result := (List.subperm_of_subset hs hsub).perm_of_length_le (le_of_eq hlen.symm)
        refine ⟨hp.nodup_iff.1 hs, by simpa using hs, ?_⟩
        intro c hc
        have hcs : c ∈ s := by
          rcases List.mem_append.1 hc with hc | hc
          · simpa using hc
          · exact hp.mem_iff.2 hc
        rw [List.count_append]
        simp [List.count_eq_one_of_mem hs hcs, ← hp.count_eq c]
    · rintro ⟨h1, h2, h3⟩
      have hsup : ∀ c ∈ result, c ∈ s := by
        intro c hc
        have := h3 c (List.mem_append_right _ hc)
        rw [List.count_append, List.count_eq_one_of_mem h1 hc] at this
        have h4 : ([s].flatten).count c = 1 := by omega
        apply List.count_pos_iff.1
        simp at h4
        omega
      have hp : s.Perm result := (List.perm_ext_iff_of_nodup hs h1).2 fun c => ⟨fun h => hsub h, hsup c⟩
      unfold finish
      rw [if_neg (by simpa using hp.length_eq)]
      split_ifs with h5 h6
      · exact ⟨_, rfl⟩
      · exact ⟨_, rfl⟩
      · exact absurd (by simpa using hsup) h6
  | @cons t B rest Bs hB1 hB2 ih =>
    have ht := hrest t (by simp)
    rw [List.zip_cons_cons, loop, step_eq spDot s t hs ht A B cnt]
    have hDm : ∀ c, c ∈ (s.filter fun c => decide (c ∈ t)) ↔ c ∈ s ∧ c ∈ t := by intro c; rw [List.mem_filter]; simp
    by_cases hok : ∀ c ∈ s, c ∈ t → cnt c = 2
    · rw [if_pos hok]
      obtain ⟨R1, hR1, hR1c, -⟩ := dot_value leg hw s t hs ht A B hA hB1
      rw [hR1]
      simp only [Option.map_some]
      have htot := total_step (rest := rest) (result := result) hs ht hcnt hok
      have hmem : ∀ c, c ∉ (s.filter fun c => decide (c ∈ t)) →
          (c ∈ (s.filter (fun c => !decide (c ∈ t)) ++ t.filter fun c => !decide (c ∈ s)) ++ rest.flatten ↔ c ∈ s ++ (t :: rest).flatten) := by
        intro c hd
        rw [hDm] at hd
        simp only [List.mem_append, List.flatten_cons, List.mem_filter, Bool.not_eq_true', decide_eq_false_iff_not]
        tauto
      have hD0 : ∀ c ∈ (s.filter fun c => decide (c ∈ t)),
          total (s.filter (fun c => !decide (c ∈ t)) ++ t.filter fun c => !decide (c ∈ s)) rest result c = 0 := by
        intro c hc
        rw [← htot, if_pos hc, hok c ((hDm c).1 hc).1 ((hDm c).1 hc).2]
      have hDn : ∀ c ∈ (s.filter (fun c => !decide (c ∈ t)) ++ t.filter fun c => !decide (c ∈ s)) ++ rest.flatten ++ result,
          c ∉ (s.filter fun c => decide (c ∈ t)) := by
        intro c hc hd
        have := hD0 c hd
        unfold total at this
        rw [← List.count_append, ← List.count_append] at this
        exact List.count_eq_zero.1 this hc
      have hDt : ∀ c, c ∉ (s.filter fun c => decide (c ∈ t)) →
          total (s.filter (fun c => !decide (c ∈ t)) ++ t.filter fun c => !decide (c ∈ s)) rest result c = total s (t :: rest) result c := by
        intro c hc
        rw [← htot, if_neg hc, hcnt]
      refine (ih _ R1 _ (new_nodup hs ht) (fun u hu => hrest u (by simp [hu])) hR1c htot (by
        intro c hc
        have hd := hDn c (List.mem_append_left _ hc)
        rw [hDt c hd]
        exact hne c ((hmem c hd).1 hc))).trans ?_
      constructor
      · rintro ⟨h1, h2, h3⟩
        refine ⟨h1, ?_, ?_⟩
        · intro u hu
          rcases List.mem_cons.1 hu with rfl | hu
          · exact hs
          · exact hrest u hu
        · intro c hc
          rw [htc]
          by_cases hd : c ∈ (s.filter fun c => decide (c ∈ t))
          · rw [← hcnt]
            exact hok c ((hDm c).1 hd).1 ((hDm c).1 hd).2
          · rw [← hDt c hd, ← htc]
            apply h3
            rw [List.mem_append] at hc ⊢
            rcases hc with hc | hc
            · left
              rw [List.flatten_cons] at hc ⊢
              exact (hmem c hd).2 hc
            · right; exact hc
      · rintro ⟨h1, h2, h3⟩
        refine ⟨h1, ?_, ?_⟩
        · intro u hu
          rcases List.mem_cons.1 hu with rfl | hu
          · exact new_nodup hs ht
          · exact hrest u (by simp [hu])
        · intro c hc
          have hd := hDn c (by simpa using hc)
          rw [htc, hDt c hd, ← htc]
          apply h3
          rw [List.mem_append] at hc ⊢
          rcases hc with hc | hc
          · left
            rw [List.flatten_cons] at hc ⊢
            exact (hmem c hd).1 hc
          · right; exact hc
    · rw [if_neg hok]
      constructor
      · rintro ⟨s2, R, h, -⟩
        simp at h
      · rintro ⟨h1, h2, h3⟩
        exfalso
        apply hok
        intro c hc1 hc2
        rw [hcnt, ← htc]
        exact h3 c (by simp [hc1])

theorem charCount_eq (s : List α) (rest : List (List α)) (result : List α) (c : α) : charCount (s :: rest) result c = total s rest result c := by
  unfold charCount total
  rw [List.count_flatten, List.map_cons, List.sum_cons]

theorem check_iff (ops : List (List α)) (cnt : α → Nat) : checkOperands cnt ops = true ↔ ∀ s ∈ ops, s.Nodup ∧ ∀ c ∈ s, cnt c ≠ 1 := by
  unfold checkOperands
  rw [List.all_eq_true]
  refine forall₂_congr fun s _ => ?_
  simp only [Bool.and_eq_true, decide_eq_true_eq, List.all_eq_true]
  refine and_congr_right fun hs => ?_
  refine forall₂_congr fun c hc => ?_
  rw [List.count_eq_one_of_mem hs hc]
  simp [eq_comm]

/-- C38: a script is accepted exactly if there is one operand or more, one array for each, and each letter stands in exactly two places: in two
different operands, or in one operand and the result. -/
theorem C38_accepts (leg : α → BondInfo Q) (hw : ∀ c, Dict.WF (leg c)) (ops : List (List α)) (result : List α) (Ts : List (SpT Q K))
    (hne : ops ≠ []) (hT : List.Forall₂ (fun s T => Conforms (s.map leg) T) ops Ts) :
    (∃ R, core spDot spTranspose ops result Ts = some R) ↔ TwicePlaced ops result := by
  cases hT with
  | nil => exact absurd rfl hne
  | @cons s A rest Bs hA hB =>
    unfold core
    rw [if_neg (by simpa using hB.length_eq)]
    by_cases hck : checkOperands (charCount (s :: rest) result) (s :: rest) = true
    · rw [hck]
      simp only [Bool.not_true, Bool.false_eq_true, if_false, List.zip_cons_cons]
      rw [check_iff] at hck
      have := loop_accepts leg hw result rest Bs s A (charCount (s :: rest) result) (hck s (by simp)).1 (fun t ht => (hck t (by simp [ht])).1) hA hB
        (charCount_eq s rest result) (by
          intro c hc
          rw [← charCount_eq]
          rcases List.mem_append.1 hc with hc | hc
          · exact (hck s (by simp)).2 c hc
          · obtain ⟨t, ht, hct⟩ := List.mem_flatten.1 hc
            exact (hck t (by simp [ht])).2 c hct)
      rw [← this]
      cases hl : loop spDot s A (charCount (s :: rest) result) (rest.zip Bs) with
      | none => simp
      | some x =>
        simp only [Option.some.injEq]
        constructor
        · rintro ⟨R, hR⟩
          exact ⟨x.1, x.2, rfl, R, hR⟩
        · rintro ⟨s2, R, rfl, h⟩
          exact h
    · have h2 : checkOperands (charCount (s :: rest) result) (s :: rest) = false := by simpa using hck
      rw [h2]
      simp only [Bool.not_false, if_true]
      constructor
      · rintro ⟨R, h⟩; simp at h
      · rintro ⟨h1, h3, h4⟩
        exfalso
        apply hck
        rw [check_iff]
        intro t ht
        refine ⟨h3 t ht, fun c hc => ?_⟩
        have h5 := h4 c (List.mem_append_left _ (List.mem_flatten.2 ⟨t, ht, hc⟩))
        rw [charCount_eq]
        unfold total
        rw [List.flatten_cons, List.count_append, List.count_append] at h5
        omega

/-- C38: the result of an accepted script is the Einstein sum, on the legs of the result letters in their order. -/
theorem C38_value (leg : α → BondInfo Q) (hw : ∀ c, Dict.WF (leg c)) (ops : List (List α)) (result : List α) (Ts : List (SpT Q K))
    (hT : List.Forall₂ (fun s T => Conforms (s.map leg) T) ops Ts) (R : SpT Q K) (h : core spDot spTranspose ops result Ts = some R) :
    Conforms (result.map leg) R ∧ ∀ σ, entry R (result.map σ) = einstein leg ops result Ts σ := by
  have hacc : ops ≠ [] → TwicePlaced ops result := fun hne => (C38_accepts leg hw ops result Ts hne hT).1 ⟨R, h⟩
  cases hT with
  | nil => simp [core, checkOperands] at h
  | @cons s A rest Bs hA hB =>
    obtain ⟨hrn, -, hr2⟩ := hacc (by simp)
    unfold core at h
    rw [if_neg (by simpa using hB.length_eq)] at h
    split_ifs at h with hck
    have hck' : checkOperands (charCount (s :: rest) result) (s :: rest) = true := by simpa using hck
    rw [check_iff] at hck'
    simp only [List.zip_cons_cons] at h
    cases hl : loop spDot s A (charCount (s :: rest) result) (rest.zip Bs) with
    | none => rw [hl] at h; simp at h
    | some x =>
      rw [hl] at h
      simp only at h
      obtain ⟨s2, R2⟩ := x
      simp only at h
      obtain ⟨h1, h2, h3, C, hC1, hC2, hC3, hC4⟩ := loop_value leg hw result rest Bs s A _ (hck' s (by simp)).1
        (fun t ht => (hck' t (by simp [ht])).1) hA hB (charCount_eq s rest result) s2 R2 hl
      have hsub : s2 ⊆ result := by
        intro c hc
        obtain ⟨h4, h5⟩ := h3 c hc
        have := hr2 c (List.mem_append_left _ h4)
        rw [List.count_append, List.flatten_cons, List.count_append] at this
        unfold total at h5
        apply List.count_pos_iff.1
        omega
      have hlen : s2.length = result.length := by
        unfold finish at h
        by_contra hlen
        rw [if_pos hlen] at h
        simp at h
      have hp : s2.Perm result := (List.subperm_of_subset h1 hsub).perm_of_length_le (le_of_eq hlen.symm)
      have hfin : Conforms (result.map leg) R ∧ ∀ σ, entry R (result.map σ) = entry R2 (s2.map σ) := by
        unfold finish at h
        rw [if_neg (by simpa using hlen)] at h
        split_ifs at h with h4 h5
        · cases h
          subst h4
          exact ⟨h2, fun σ => rfl⟩
        · cases h
          have hax : (result.map fun c => s2.idxOf c).Perm (List.range (s2.map leg).length) := by
            rw [List.length_map]
            refine (hp.symm.map _).trans ?_
            have : (s2.map fun c => s2.idxOf c) = List.range s2.length := by
              apply List.ext_getElem
              · simp
              · intro i hi hi'
                simp only [List.length_map] at hi
                simp [h1.idxOf_getElem i hi]
            rw [this]
          have hget : ∀ {β : Type} (f : α → β) (d : β), ((result.map fun c => s2.idxOf c).map fun i => (s2.map f).getD i d) = result.map f := by
            intro β f d
            rw [List.map_map]
            refine List.map_congr_left fun c hc => ?_
            have hl := List.idxOf_lt_length_iff.2 (hp.mem_iff.2 hc)
            simp [List.getElem?_eq_getElem hl]
          constructor
          · have := C14_conforms (s2.map leg) R2 h2 _ hax
            rw [hget] at this
            exact this
          · intro σ
            have := C14_entry (s2.map leg) R2 h2 _ hax (s2.map σ) (by simp)
            rw [hget] at this
            exact this
      refine ⟨hfin.1, fun σ => ?_⟩
      rw [hfin.2, hC4, einstein]
      have hperm : C.Perm (summed (s :: rest) result) := by
        refine (List.perm_ext_iff_of_nodup hC1 ((List.nodup_dedup _).filter _)).2 fun c => ?_
        rw [List.mem_filter, List.mem_dedup, List.flatten_cons]
        constructor
        · intro hc
          exact ⟨(hC2 c hc).1, by simpa using (hC2 c hc).2.2⟩
        · rintro ⟨hc, hcr⟩
          rcases hC3 c hc with h6 | h6
          · exact h6
          · exact absurd (hsub h6) (by simpa using hcr)
      rw [sumOver_perm leg hperm]
      rfl

end value

/-! ### The text of the script -/

section text
variable {X : Type} (tensordot : X → X → List Nat → List Nat → Option X) (transpose : X → List Nat → X)

theorem split_plain (cur s : List Char) (hs : ∀ c ∈ s, c ≠ ',' ∧ c ≠ '-') (r : List Char) : split cur (s ++ r) = split (cur ++ s) r := by
  induction s generalizing cur with
  | nil => simp
  | cons c s ih =>
    have hc := hs c (by simp)
    rw [List.cons_append, split.eq_4 _ _ _ (by simpa using hc.1) (by rintro r h _; exact hc.2 h), ih _ fun d hd => hs d (by simp [hd])]
    simp

theorem split_result (cur s : List Char) (hs : ∀ c ∈ s, c ≠ ',' ∧ c ≠ '-') : split cur s = ([], false, cur ++ s) := by
  have := split_plain cur s hs []
  rw [List.append_nil] at this
  rw [this, split]

theorem split_script (ops : List (List Char)) (hne : ops ≠ []) (result : List Char) (ho : ∀ s ∈ ops, ∀ c ∈ s, c ≠ ',' ∧ c ≠ '-')
    (hr : ∀ c ∈ result, c ≠ ',' ∧ c ≠ '-') :
    split [] ([','].intercalate ops ++ ['-', '>'] ++ result) = (ops, true, result) := by
  induction ops with
  | nil => exact absurd rfl hne
  | cons s ops ih =>
    have h1 := ho s (by simp)
    cases ops with
    | nil =>
      rw [show [','].intercalate [s] = s by simp [List.intercalate], List.append_assoc, split_plain _ _ h1]
      simp only [List.nil_append, List.cons_append, split]
      rw [split_result _ _ hr]
      simp
    | cons t ops =>
      have := ih (by simp) fun u hu => ho u (by simp [hu])
      rw [show [','].intercalate (s :: t :: ops) = s ++ (',' :: [','].intercalate (t :: ops)) by simp [List.intercalate], List.append_assoc,
        List.append_assoc, split_plain _ _ h1]
      rw [List.append_assoc] at this
      simp only [List.nil_append, List.cons_append, split] at this ⊢
      rw [this]

theorem dropWhile_filter (p q : Char → Bool) (s : List Char) (h : ∀ c ∈ s, p c = true → q c = false) : (s.dropWhile p).filter q = s.filter q := by
  induction s with
  | nil => rfl
  | cons c s ih =>
    rw [List.dropWhile_cons]
    split_ifs with hc
    · rw [ih fun d hd => h d (by simp [hd]), List.filter_cons_of_neg (by simp [h c (by simp) hc])]
    · rfl

theorem dropWhile_subset (p : Char → Bool) (s : List Char) : ∀ c ∈ s.dropWhile p, c ∈ s := fun _ hc => (List.dropWhile_suffix p).subset hc

theorem strip_filter (s : List Char) (h : ∀ c ∈ s, isBlank c = true → isEmptyChar c = true) :
    (strip s).filter (fun c => !isEmptyChar c) = s.filter fun c => !isEmptyChar c := by
  unfold strip
  rw [List.filter_reverse, dropWhile_filter, List.filter_reverse, List.reverse_reverse, dropWhile_filter]
  · intro c hc hb; simp [h c hc hb]
  · intro c hc hb
    simp [h c (dropWhile_subset _ _ c (by simpa using hc)) hb]

theorem strip_mem {s : List Char} {c : Char} (h : c ∈ strip s) : c ∈ s := by
  unfold strip at h
  rw [List.mem_reverse] at h
  have := dropWhile_subset _ _ c h
  rw [List.mem_reverse] at this
  exact dropWhile_subset _ _ c this

theorem strip_pad (pre s post : List Char) (hpre : ∀ c ∈ pre, isBlank c = true) (hpost : ∀ c ∈ post, isBlank c = true)
    (hs : ∀ c ∈ s, isBlank c = false) : strip (pre ++ s ++ post) = s := by
  have hd : ∀ (a b : List Char), (∀ c ∈ a, isBlank c = true) → (a ++ b).dropWhile isBlank = b.dropWhile isBlank := by
    intro a b ha
    exact List.dropWhile_append_of_pos ha
  have hd0 : ∀ a : List Char, (∀ c ∈ a, isBlank c = true) → a.dropWhile isBlank = [] := by
    intro a ha
    have := hd a [] ha
    simpa using this
  unfold strip
  rw [List.append_assoc, hd _ _ hpre]
  cases s with
  | nil =>
    rw [List.nil_append, hd0 _ hpost]
    rfl
  | cons c s =>
    have hc := hs c (by simp)
    have e1 : ((c :: s) ++ post).dropWhile isBlank = (c :: s) ++ post := by
      rw [List.cons_append, List.dropWhile_cons_of_neg (by simp [hc])]
    rw [e1, List.reverse_append, hd _ _ (by intro d hd; exact hpost d (by simpa using hd))]
    have e2 : (c :: s).reverse.dropWhile isBlank = (c :: s).reverse := by
      cases hr : (c :: s).reverse with
      | nil => rfl
      | cons d r =>
        have : d ∈ c :: s := by
          have : d ∈ (c :: s).reverse := by rw [hr]; simp
          exact List.mem_reverse.1 this
        rw [List.dropWhile_cons_of_neg (by simp [hs d this])]
    rw [e2, List.reverse_reverse]

/-- C38: a script written as operands separated by commas, an arrow and the result, with blanks anywhere in the operands and around the result,
is read as such. -/
theorem C38_script (ops : List (List Char)) (hne : ops ≠ []) (pre result post : List Char)
    (ho : ∀ s ∈ ops, ∀ c ∈ s, c ∉ [',', '-', '.', '>', '\x00', '\x0b', '\x0c'])
    (hr : ∀ c ∈ result, c ∉ [',', '-', ' ', '\t', '\n', '\r', '\x0b', '\x0c']) (hpre : ∀ c ∈ pre, c = ' ') (hpost : ∀ c ∈ post, c = ' ') (arrs : List X) :
    einsum tensordot transpose ([','].intercalate ops ++ ['-', '>'] ++ (pre ++ result ++ post)) arrs =
      core tensordot transpose (ops.map fun s => s.filter fun c => c ∉ [' ', '\t', '\n', '\r']) result arrs := by
  unfold einsum
  rw [split_script ops hne (pre ++ result ++ post)]
  · simp only [Bool.not_true, Bool.false_eq_true, if_false]
    rw [if_neg, strip_pad]
    · congr 1
      rw [List.map_map]
      refine List.map_congr_left fun s hs => ?_
      simp only [Function.comp_def]
      rw [strip_filter]
      · refine List.filter_congr fun c _ => ?_
        simp [isEmptyChar]
      · intro c hc hb
        have := ho s hs c hc
        simp only [isBlank, isEmptyChar, List.mem_cons, decide_eq_true_eq, List.not_mem_nil, or_false] at *
        tauto
    · intro c hc
      rw [hpre c hc]
      rfl
    · intro c hc
      rw [hpost c hc]
      rfl
    · intro c hc
      have := hr c hc
      simp only [isBlank, List.mem_cons, decide_eq_false_iff_not, List.not_mem_nil, or_false] at *
      tauto
    · simp only [List.any_map, List.any_eq_true, not_exists, not_and, Function.comp_def]
      intro s hs c hc hi
      have := ho s hs c (strip_mem hc)
      simp only [isIllegal, List.mem_cons, decide_eq_true_eq, List.not_mem_nil, or_false] at *
      tauto
  · intro s hs c hc
    have := ho s hs c hc
    simp only [List.mem_cons, List.not_mem_nil, or_false] at this
    tauto
  · intro c hc
    simp only [List.mem_append] at hc
    rcases hc with (hc | hc) | hc
    · rw [hpre c hc]; decide
    · have := hr c hc
      simp only [List.mem_cons, List.not_mem_nil, or_false] at this
      tauto
    · rw [hpost c hc]; decide

/-- C38: implicit mode is rejected. -/
theorem C38_implicit (script : List Char) (h : ∀ c ∈ script, c ≠ '-') (arrs : List X) : einsum tensordot transpose script arrs = none := by
  have : ∀ cur, (split cur script).2.1 = false := by
    induction script with
    | nil => intro cur; rfl
    | cons c s ih =>
      intro cur
      have hc := h c (by simp)
      have ih := ih fun d hd => h d (by simp [hd])
      by_cases e : c = ','
      · subst e
        rw [split]
        exact ih []
      · rw [split.eq_4 _ _ _ (by simpa using e) (by rintro r h _; exact hc h)]
        exact ih _
  unfold einsum
  simp [this []]

theorem mem_dropWhile {p : Char → Bool} {c : Char} (hc : p c = false) : ∀ {s : List Char}, c ∈ s → c ∈ s.dropWhile p
  | [], h => h
  | d :: s, h => by
    by_cases e : p d = true
    · rw [List.dropWhile_cons_of_pos e]
      rcases List.mem_cons.1 h with rfl | h
      · rw [hc] at e; exact absurd e (by simp)
      · exact mem_dropWhile hc h
    · rw [List.dropWhile_cons_of_neg e]
      exact h

/-- C38: a script with an ellipsis, or with a stray `>`, in an operand is rejected. -/
theorem C38_ellipsis (ops : List (List Char)) (result : List Char) (ho : ∀ s ∈ ops, ∀ c ∈ s, c ≠ ',' ∧ c ≠ '-')
    (hr : ∀ c ∈ result, c ≠ ',' ∧ c ≠ '-') (hd : ∃ s ∈ ops, '.' ∈ s ∨ '>' ∈ s) (arrs : List X) :
    einsum tensordot transpose ([','].intercalate ops ++ ['-', '>'] ++ result) arrs = none := by
  obtain ⟨s, hs, hd⟩ := hd
  unfold einsum
  rw [split_script ops (List.ne_nil_of_mem hs) result ho hr]
  simp only [Bool.not_true, Bool.false_eq_true, if_false]
  rw [if_pos]
  have key : ∀ c, isBlank c = false → isIllegal c = true → c ∈ s → (ops.map strip).any (·.any isIllegal) = true := by
    intro c h1 h2 h3
    refine List.any_eq_true.2 ⟨strip s, List.mem_map_of_mem hs, List.any_eq_true.2 ⟨c, ?_, h2⟩⟩
    unfold strip
    rw [List.mem_reverse]
    exact mem_dropWhile h1 (List.mem_reverse.2 (mem_dropWhile h1 h3))
  rcases hd with hd | hd
  · exact key _ (by decide) (by decide) hd
  · exact key _ (by decide) (by decide) hd

/-- C38: arrows and commas are interchangeable, only the last separator counts as the arrow: a script with a comma after the arrow is not
rejected but read differently. -/
theorem C38_separators (arrs : List X) :
    einsum tensordot transpose "ab->bc,ac".toList arrs = einsum tensordot transpose "ab,bc->ac".toList arrs := by
  have h1 : split [] "ab->bc,ac".toList = split [] "ab,bc->ac".toList := by decide +kernel
  unfold einsum
  rw [h1]

end text

/-- The matrix product of two block-sparse matrices with sectors 0 and 1, transposed. -/
example :
    let b : BondInfo Int := [(0, 1), (1, 1)]
    let blk (q : Int) (v : Int) : List Int × Arr Int := ([q, q], ⟨[1, 1], fun _ => v⟩)
    let A : SpT Int Int := [blk 0 2, blk 1 3]
    let B : SpT Int Int := [blk 1 5]
    TwicePlaced ["ab".toList, "bc".toList] "ca".toList ∧ Conforms ("ab".toList.map fun _ => b) A ∧ Conforms ("bc".toList.map fun _ => b) B ∧
      (einsum spDot spTranspose "ab, bc -> ca".toList [A, B]).map (fun R => (R.map fun x => (x.1, x.2.shape, x.2.get [0, 0]))) =
        some [([1, 1], [1, 1], 15)] ∧
      ¬ TwicePlaced ["ab".toList, "bc".toList] "abc".toList := by
  refine ⟨by decide, by decide, by decide, by decide +kernel, by decide⟩

end Einsum
end Verif
