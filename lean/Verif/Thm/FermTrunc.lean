import Verif.Proof.FermTrunc
import Verif.Thm.Trunc

/-!
C51: the truncated singular value decomposition of fermionic tensors.
-/

set_option linter.unusedSectionVars false

namespace Verif
namespace FermSplit

section
variable {Q K V : Type} [DecidableEq Q] [AddCommGroup Q] [CommRing K] [StarRing K] [Field V] [LinearOrder V] [IsStrictOrderedRing V]
variable {legsL legsR : List (BondInfo Q)} {patL patR : List Bool} {dl dr : Q} {A : FermT Q K}
variable {svd : Arr K → Arr K × Arr V × Arr K} {S : List (Sector Q K)}

theorem Ready.shaped (h : Ready legsL legsR patL patR dl dr A) (c : V →+* K) (hsvd : IsSvd c svd) : Shaped svd (sectors legsL.length A.pattern dl A.blocks) := by
  refine ⟨sectors_nodup _ _ _ _, ?_⟩
  intro s hs
  obtain ⟨R, C, hok, hR, hC⟩ := h.sector hs
  exact ⟨R, C, hok.data, hR, hC, hsvd.left _ _ _ hok.data hR hC, hsvd.values _ _ _ hok.data hR hC, hsvd.right _ _ _ hok.data hR hC⟩

theorem shape_inj {a b c d : Nat} (h : [a, b] = [c, d]) : a = c ∧ b = d := by simpa using h

theorem Ready.full (h : Ready legsL legsR patL patR dl dr A) (hs : Shaped svd S) (hS : S = sectors legsL.length A.pattern dl A.blocks) :
    SplitOf legsL legsR (fun l => leftLabel patL l dl) A.blocks (full svd S) := by
  refine h.splitOf ?_ ?_ ?_
  · unfold FermSplit.full
    rw [List.map_map]
    exact hs.nodup
  · intro e he
    obtain ⟨s, hs, rfl⟩ := List.mem_map.1 he
    exact hS ▸ hs
  · intro e he R C hRC
    obtain ⟨s, hm, rfl⟩ := List.mem_map.1 he
    obtain ⟨R', C', h1, _, _, h4, _, h6⟩ := hs.shapes s hm
    obtain ⟨rfl, rfl⟩ := shape_inj (hRC.symm.trans h1)
    have : wid (s, (svd s.data).1, (svd s.data).2.2) = min R C := by simp [wid, h4]
    rw [this]
    exact ⟨h4, h6⟩

theorem Ready.final (h : Ready legsL legsR patL patR dl dr A) (hs : Shaped svd S) (hS : S = sectors legsL.length A.pattern dl A.blocks) (c : V →+* K) (root : V → V)
    (absorb : Option Int) (big : V → Bool) (k : Q → Nat) (f : V) :
    SplitOf legsL legsR (fun l => leftLabel patL l dl) A.blocks (final c root absorb svd big k f S) := by
  refine h.splitOf ?_ ?_ ?_
  · unfold FermSplit.final
    rw [List.map_map]
    exact List.Nodup.sublist (List.Sublist.map _ List.filter_sublist) hs.nodup
  · intro e he
    obtain ⟨s, hs, rfl⟩ := List.mem_map.1 he
    exact hS ▸ (List.mem_filter.1 hs).1
  · intro e he R C hRC
    obtain ⟨s, hm, rfl⟩ := List.mem_map.1 he
    have hm := (List.mem_filter.1 hm).1
    obtain ⟨R', C', h1, _, _, h4, h6⟩ := cut_shape hs big k hm
    obtain ⟨rfl, rfl⟩ := shape_inj (hRC.symm.trans h1)
    rw [final_wid c root absorb hs big k f hm]
    exact ⟨(absorbed_shape _ _ _ _ _).1.trans h4, (absorbed_shape _ _ _ _ _).2.trans h6⟩

theorem Ready.spectral (h : Ready legsL legsR patL patR dl dr A) (hS : S = sectors legsL.length A.pattern dl A.blocks) (c : V →+* K) (hsvd : IsSvd c svd)
    (hun : SvdUnitary svd) (hsort : SvdSorted svd) :
    Spectral c legsL legsR A.blocks (bondOf (FermSplit.full svd S)) (leftOf (FermSplit.full svd S)) (value svd S) (rightOf (FermSplit.full svd S)) := by
  have hs : Shaped svd S := hS ▸ h.shaped c hsvd
  have hf := h.full hs hS
  have hmem : ∀ e ∈ FermSplit.full svd S, ∃ s ∈ S, e = (s, (svd s.data).1, (svd s.data).2.2) := by
    intro e he
    obtain ⟨s, h1, rfl⟩ := List.mem_map.1 he
    exact ⟨s, h1, rfl⟩
  have hw : ∀ s ∈ S, ∀ R C, s.data.shape = [R, C] → wid (s, (svd s.data).1, (svd s.data).2.2) = min R C ∧ 0 < R ∧ 0 < C := by
    intro s hm R C hRC
    obtain ⟨R', C', h1, h2, h3, h4, _, h6⟩ := hs.shapes s hm
    obtain ⟨rfl, rfl⟩ := shape_inj (hRC.symm.trans h1)
    exact ⟨by simp [wid, h4], h2, h3⟩
  have hhal := h.halves hf (by
    intro e he
    obtain ⟨s, h1, rfl⟩ := hmem e he
    exact hS ▸ h1) (by
    intro e he
    obtain ⟨s, h1, rfl⟩ := hmem e he
    obtain ⟨R, C, h2, _⟩ := hs.shapes s h1
    obtain ⟨h3, h4, h5⟩ := hw s h1 R C h2
    omega) (by
    have := h.sectors_ne
    rw [← hS] at this
    simpa [FermSplit.full] using this)
  have hwf : ∀ b ∈ legsL ++ legsR, Dict.WF b := fun b hb => (h.valid.good b hb).1
  refine ⟨hhal.right.good _ List.mem_cons_self, ?_, ?_, ?_, ?_⟩
  · refine hf.isometric_left (fun b hb => hwf b (List.mem_append_left _ hb)) ?_
    intro e he R C hRC t ht t' ht'
    obtain ⟨s, h1, rfl⟩ := hmem e he
    obtain ⟨h3, h4, h5⟩ := hw s h1 R C hRC
    rw [h3] at ht ht'
    exact hun.columns _ R C hRC h4 h5 t ht t' ht'
  · have hcharge := h.valid.charge
    rw [h.signs] at hcharge
    refine hf.isometric_right (fun b hb => hwf b (List.mem_append_right _ hb)) (fun l => dl + dr - signedSum patR l - dl)
      (keyRight (p := patL) (p' := patR) h.signsL h.valid.conforms hcharge) ?_
    intro e he R C hRC t ht t' ht'
    obtain ⟨s, h1, rfl⟩ := hmem e he
    obtain ⟨h3, h4, h5⟩ := hw s h1 R C hRC
    rw [h3] at ht ht'
    exact hun.rows _ R C hRC h4 h5 t ht t' ht'
  · rintro ⟨q, t⟩ hz
    rw [legBasis_full hs] at hz
    obtain ⟨s, h1, hz⟩ := List.mem_flatMap.1 hz
    obtain ⟨t', ht, he⟩ := List.mem_map.1 hz
    obtain ⟨rfl, rfl⟩ := Prod.mk.inj he
    rw [value_of_mem hs h1]
    obtain ⟨R, C, h2, h3, h4, _, h5, _⟩ := hs.shapes s h1
    rw [h5] at ht
    exact (hsort _ R C h2 h3 h4).2 _ (List.mem_range.1 ht)
  · intro x y hx hy
    refine hf.whole (fun z => c (value svd S z)) ?_ (h.rest ?_) hx
    · intro e he R C hRC i hi j hj
      obtain ⟨s, h1, rfl⟩ := hmem e he
      obtain ⟨h3, h4, h5⟩ := hw s h1 R C hRC
      rw [h3]
      simp only [value_of_mem hs h1]
      exact hsvd.product _ R C hRC h4 h5 i hi j hj
    · intro s hs
      rw [← hS] at hs
      unfold FermSplit.full
      rw [List.map_map]
      exact List.mem_map.2 ⟨s, hs, rfl⟩

theorem kept_eq (hs : Shaped svd S) (big : V → Bool) (kI : Q → Int) :
    Trim.kept ((S.filter fun s => idx svd big s ≠ []).map fun s => kI s.label) ((S.filter fun s => idx svd big s ≠ []).map fun s => (idx svd big s).map (val svd s)) =
      ((legBasis (bondOf (full svd S))).filter (keepOf svd big S fun q => (kI q).toNat)).map (value svd S) := by
  rw [filter_keep hs, List.map_flatMap]
  unfold Trim.kept
  rw [List.zipWith_map, List.zipWith_self, ← List.flatMap_def, flatMap_filter_of_nil]
  · refine List.flatMap_congr ?_
    intro s hm
    rw [← List.map_take, List.map_map]
    apply List.map_congr_left
    intro j _
    exact (value_of_mem hs hm j).symm
  · intro s _ hp
    have : idx svd big s = [] := by
      by_contra hc
      rw [decide_eq_true hc] at hp
      exact absurd hp (by simp)
    simp [this]

theorem filter_not_take {l : List Nat} (hn : l.Nodup) (k : Nat) : (l.filter fun j => decide (j ∉ l.take k)) = l.drop k := by
  have e : ∀ l' : List Nat, l' = l.take k ++ l.drop k → (l'.filter fun j => decide (j ∉ l.take k)) = l.drop k := by
    rintro l' rfl
    rw [List.filter_append, List.filter_eq_nil_iff.2, List.filter_eq_self.2, List.nil_append]
    · intro j hj
      have := List.disjoint_take_drop hn (le_refl k)
      exact decide_eq_true fun h => this h hj
    · intro j hj
      simpa using hj
  exact e l (List.take_append_drop k l).symm

theorem dropped_eq (hs : Shaped svd S) (big : V → Bool) (kI : Q → Int) :
    Trim.dropped ((S.filter fun s => idx svd big s ≠ []).map fun s => kI s.label) ((S.filter fun s => idx svd big s ≠ []).map fun s => (idx svd big s).map (val svd s)) =
      ((legBasis (bondOf (full svd S))).filter fun z => !keepOf svd big S (fun q => (kI q).toNat) z && big (value svd S z)).map (value svd S) := by
  rw [legBasis_full hs, filter_flatMap', List.map_flatMap]
  unfold Trim.dropped
  rw [List.zipWith_map, List.zipWith_self, ← List.flatMap_def, flatMap_filter_of_nil]
  · refine List.flatMap_congr ?_
    intro s hm
    rw [List.filter_map, List.map_map, ← List.map_drop, ← filter_not_take (l := idx svd big s) (List.Nodup.filter _ List.nodup_range)]
    have e : (List.filter ((fun z => !keepOf svd big S (fun q => (kI q).toNat) z && big (value svd S z)) ∘ fun t => (s.label, t))
        (List.range ((svd s.data).2.1.shape.headD 0))) = (idx svd big s).filter fun j => decide (j ∉ (idx svd big s).take (kI s.label).toNat) := by
      conv_rhs => rw [idx, List.filter_filter]
      apply List.filter_congr
      intro j _
      simp only [Function.comp, keepOf_of_mem hs big _ hm, value_of_mem hs hm, decide_not]
      rfl
    rw [e]
    apply List.map_congr_left
    intro j _
    exact (value_of_mem hs hm j).symm
  · intro s _ hp
    have : idx svd big s = [] := by
      by_contra hc
      rw [decide_eq_true hc] at hp
      exact absurd hp (by simp)
    simp [this]

/-! ### The tensor of the values -/

/-- The tensor of the values. -/
def diagOf (c : V → K) (svd : Arr K → Arr K × Arr V × Arr K) (big : V → Bool) (k : Q → Nat) (f : V) (S : List (Sector Q K)) : SpT Q K :=
  (S.filter fun s => (idx svd big s).take (k s.label) ≠ []).map fun s => ([s.label, s.label], diagonal ((cutVals svd big k f s).map c))

theorem mem_remaining {big : V → Bool} {k : Q → Nat} {s : Sector Q K} (hs : s ∈ S) {t : Nat} (ht : t < ((idx svd big s).take (k s.label)).length) :
    s ∈ S.filter fun s => (idx svd big s).take (k s.label) ≠ [] := by
  refine List.mem_filter.2 ⟨hs, ?_⟩
  refine decide_eq_true fun h => ?_
  rw [h] at ht
  exact absurd ht (by simp)

theorem entry_diag (hs : Shaped svd S) (c : V →+* K) (root : V → V) (absorb : Option Int) (big : V → Bool) (k : Q → Nat) (f : V) {z z' : Q × Nat}
    (hz : z ∈ legBasis (bondOf (final c root absorb svd big k f S))) :
    entry (diagOf c svd big k f S) [z, z'] = if z = z' then c (value svd S (position svd big S z) * f) else 0 := by
  obtain ⟨s, hm, hl, ht, _⟩ := mem_legBasis_final c root absorb hs big k f hz
  obtain ⟨q, t⟩ := z
  obtain ⟨q', t'⟩ := z'
  simp only at hl ht
  subst hl
  have hlen : ∀ s : Sector Q K, ((cutVals svd big k f s).map c).length = ((idx svd big s).take (k s.label)).length := by
    intro s
    simp [cutVals]
  have hD : Dict.WF ((S.filter fun s => (idx svd big s).take (k s.label) ≠ []).map fun s => (s.label, s)) := by
    unfold Dict.WF
    rw [List.map_map]
    exact List.Nodup.sublist (List.Sublist.map _ List.filter_sublist) hs.nodup
  have := entry_blockDiag hD (fun g => diagonal ((cutVals svd big k f g.2).map c)) (fun g => ((idx svd big g.2).take (k g.2.label)).length)
    (fun g => ((idx svd big g.2).take (k g.2.label)).length) (by intro g _; simp only [diagonal, hlen]) s.label q' t t'
  rw [Dict.get?_of_mem hD (List.mem_map.2 ⟨s, mem_remaining hm ht, rfl⟩)] at this
  rw [List.map_map] at this
  refine this.trans ?_
  rw [position_of_mem hs big hm, value_of_mem hs hm]
  simp only [diagonal, List.getD_cons_zero, List.getD_cons_succ, Prod.mk.injEq]
  have hv : ((cutVals svd big k f s).map c).getD t 0 = c (val svd s ((idx svd big s).getD t 0) * f) := by
    have h' := ht
    rw [List.length_take] at h'
    simp [cutVals, List.getD_eq_getElem?_getD, List.getElem?_eq_getElem (show t < (idx svd big s).length by omega), show t < k s.label by omega]
  by_cases h1 : s.label = q'
  · by_cases h2 : t = t'
    · subst h2
      subst h1
      rw [if_pos ⟨rfl, ht, ht⟩, if_pos rfl, if_pos ⟨rfl, rfl⟩, hv]
    · simp [h1, h2]
  · simp [h1]

theorem conforms_diag (hs : Shaped svd S) (c : V →+* K) (root : V → V) (absorb : Option Int) (big : V → Bool) (k : Q → Nat) (f : V)
    (hw : Dict.WF (bondOf (final c root absorb svd big k f S))) :
    Conforms [bondOf (final c root absorb svd big k f S), bondOf (final c root absorb svd big k f S)] (diagOf c svd big k f S) := by
  intro b hb
  obtain ⟨s, hm, rfl⟩ := List.mem_map.1 hb
  have hlen : ((cutVals svd big k f s).map c).length = ((idx svd big s).take (k s.label)).length := by simp [cutVals]
  have hm' := (List.mem_filter.1 hm).1
  have : Dict.get? (bondOf (final c root absorb svd big k f S)) s.label = some ((idx svd big s).take (k s.label)).length := by
    rw [← final_wid c root absorb hs big k f hm']
    refine Dict.get?_of_mem hw (List.mem_map.2 ⟨(s, absorbed c root absorb (cutVals svd big k f s) (cut svd big k s)), List.mem_map.2 ⟨s, hm, rfl⟩, rfl⟩)
  simp only [diagonal, hlen]
  exact .cons this (.cons this .nil)

theorem scaleOf_nonneg (renorm : Bool) {pow rroot : V → V} (hpow : ∀ x, 0 ≤ x → 0 ≤ pow x) (hrr : ∀ x, 0 ≤ x → 0 ≤ rroot x) {d : List (List V)} {n : List Int}
    (hd : Trim.Spectrum d) (hn : Trim.Leading n d) : 0 ≤ scaleOf renorm pow rroot d n := by
  unfold scaleOf
  split_ifs
  · unfold Trim.renormFactor
    simp only
    obtain ⟨h1, h2⟩ := Trim.renorm_sums pow d n hn.nonneg
    have hperm := Trim.kept_dropped_perm n d hn.length
    have hin : ∀ x ∈ Trim.kept n d ++ Trim.dropped n d, 0 ≤ x := by
      intro x hx
      obtain ⟨b, hb, hx⟩ := List.mem_flatten.1 (hperm.mem_iff.1 hx)
      exact (hd b hb).2 x hx
    rw [h1, h2]
    have k1 : 0 ≤ ((Trim.kept n d).map pow).sum := List.sum_nonneg (by
      intro y hy
      obtain ⟨x, hx, rfl⟩ := List.mem_map.1 hy
      exact hpow x (hin x (List.mem_append_left _ hx)))
    have k2 : 0 ≤ ((Trim.dropped n d).map pow).sum := List.sum_nonneg (by
      intro y hy
      obtain ⟨x, hx, rfl⟩ := List.mem_map.1 hy
      exact hpow x (hin x (List.mem_append_right _ hx)))
    exact hrr _ (div_nonneg (add_nonneg k1 k2) k1)
  · exact zero_le_one

theorem total_length {d : List (List V)} : (d.map fun b => (b.length : Int)).sum = (d.flatten.length : Int) := by
  rw [List.length_flatten, Nat.cast_list_sum, List.map_map]
  rfl

/-- The renormalisation restores the sum of powers. -/
theorem renorm_total {renorm : Bool} {pow rroot : V → V} (hmul : ∀ x y, 0 ≤ x → 0 ≤ y → pow (y * rroot x) = pow y * x) (hren : renorm = true) {d : List (List V)} {n : List Int}
    (hd : Trim.Spectrum d) (hpow : ∀ x, 0 ≤ x → 0 ≤ pow x) (hn : Trim.Leading n d) (hne : ((Trim.kept n d).map pow).sum ≠ 0) :
    ((Trim.kept n d).map fun x => pow (x * scaleOf renorm pow rroot d n)).sum = ((Trim.kept n d).map pow).sum + ((Trim.dropped n d).map pow).sum := by
  have hperm := Trim.kept_dropped_perm n d hn.length
  have hin : ∀ x ∈ Trim.kept n d ++ Trim.dropped n d, 0 ≤ x := by
    intro x hx
    obtain ⟨b, hb, hx⟩ := List.mem_flatten.1 (hperm.mem_iff.1 hx)
    exact (hd b hb).2 x hx
  unfold scaleOf
  split_ifs with hc
  · unfold Trim.renormFactor
    simp only
    obtain ⟨h1, h2⟩ := Trim.renorm_sums pow d n hn.nonneg
    rw [h1, h2]
    have k1 : 0 ≤ ((Trim.kept n d).map pow).sum := List.sum_nonneg (by
      intro y hy
      obtain ⟨x, hx, rfl⟩ := List.mem_map.1 hy
      exact hpow x (hin x (List.mem_append_left _ hx)))
    have k2 : 0 ≤ ((Trim.dropped n d).map pow).sum := List.sum_nonneg (by
      intro y hy
      obtain ⟨x, hx, rfl⟩ := List.mem_map.1 hy
      exact hpow x (hin x (List.mem_append_right _ hx)))
    generalize ((Trim.dropped n d).map pow).sum = L at k2 ⊢
    have := div_nonneg (add_nonneg k1 k2) k1
    rw [sum_map_congr' (g := fun x => pow x * ((((Trim.kept n d).map pow).sum + L) / ((Trim.kept n d).map pow).sum))]
    · rw [sum_map_mul_right', mul_div_cancel₀ _ hne]
    · intro x hx
      exact hmul _ x this (hin x (List.mem_append_left _ hx))
  · have h3 := Trim.kept_length _ d hn
    have h4 := hperm.length_eq
    rw [List.length_append] at h4
    have h5 : ¬ n.sum < (d.flatten.length : Int) := by
      intro h
      exact hc ⟨by rw [total_length]; exact h, hren⟩
    have h6 : Trim.dropped n d = [] := by
      rw [← List.length_eq_zero_iff]
      omega
    rw [h6]
    simp

theorem sum_filter_split {α : Type} {M : Type} [AddCommMonoid M] (l : List α) (p q : α → Bool) (h : ∀ x ∈ l, p x = true → q x = true) (g : α → M) :
    ((l.filter q).map g).sum = ((l.filter p).map g).sum + ((l.filter fun x => !p x && q x).map g).sum := by
  induction l with
  | nil => simp
  | cons a l ih =>
    have ih := ih fun x hx => h x (List.mem_cons_of_mem _ hx)
    have ha := h a List.mem_cons_self
    cases hp : p a with
    | true =>
      rw [List.filter_cons_of_pos (ha hp), List.filter_cons_of_pos hp, List.filter_cons_of_neg (by simp [hp]), List.map_cons, List.map_cons, List.sum_cons, List.sum_cons, ih,
        add_assoc]
    | false =>
      cases hq : q a with
      | true =>
        rw [List.filter_cons_of_pos hq, List.filter_cons_of_neg (by simp [hp]), List.filter_cons_of_pos (by simp [hp, hq]), List.map_cons, List.map_cons, List.sum_cons, List.sum_cons, ih,
          add_left_comm]
      | false =>
        rw [List.filter_cons_of_neg (by simp [hq]), List.filter_cons_of_neg (by simp [hp]), List.filter_cons_of_neg (by simp [hq]), ih]

/-- What contracting the truncated factors gives. -/
theorem Ready.truncated (par : Q → Nat) (h : Ready legsL legsR patL patR dl dr A) (hS : S = sectors legsL.length A.pattern dl A.blocks) (c : V →+* K) (hsvd : IsSvd c svd)
    (hun : SvdUnitary svd) (hsort : SvdSorted svd) {root : V → V} (hroot : ∀ x, 0 ≤ x → root x * root x = x) (absorb : Option Int) (big : V → Bool) (k : Q → Nat) {f : V}
    (hf : 0 ≤ f) (hne : FermSplit.final c root absorb svd big k f S ≠ []) :
    ∃ X, Truncated par c legsL legsR patL patR dl dr absorb (bondOf (FermSplit.full svd S)) (leftOf (FermSplit.full svd S)) (value svd S) (rightOf (FermSplit.full svd S))
      (keepOf svd big S k) f ⟨⟨patL ++ [false], leftOf (FermSplit.final c root absorb svd big k f S)⟩,
        if absorb = none then some ⟨[true, false], diagOf c svd big k f S⟩ else none,
        ⟨true :: patR, rightOf (FermSplit.final c root absorb svd big k f S)⟩⟩ (bondOf (FermSplit.final c root absorb svd big k f S)) X := by
  have hs : Shaped svd S := hS ▸ h.shaped c hsvd
  have h0 := h.full hs hS
  have hF := h.final hs hS c root absorb big k f
  have hsp := h.spectral hS c hsvd hun hsort
  have hhal := h.halves hF (by
    intro e he
    obtain ⟨s, hs, rfl⟩ := List.mem_map.1 he
    exact hS ▸ (List.mem_filter.1 hs).1) (by
    intro e he
    obtain ⟨s, hm, rfl⟩ := List.mem_map.1 he
    obtain ⟨h1, h2⟩ := List.mem_filter.1 hm
    rw [final_wid c root absorb hs big k f h1]
    exact List.length_pos_iff.2 (of_decide_eq_true h2)) hne
  have hbas := legBasis_final c root absorb hs big k f
  have hm0 := hsp.bond
  have hmem : ∀ z ∈ legBasis (bondOf (FermSplit.final c root absorb svd big k f S)), position svd big S z ∈ legBasis (bondOf (FermSplit.full svd S)) := by
    intro z hz
    have : position svd big S z ∈ (legBasis (bondOf (FermSplit.final c root absorb svd big k f S))).map (position svd big S) := List.mem_map.2 ⟨z, hz, rfl⟩
    rw [hbas] at this
    exact (List.mem_filter.1 this).1
  have hinj : ∀ z ∈ legBasis (bondOf (FermSplit.final c root absorb svd big k f S)), ∀ z' ∈ legBasis (bondOf (FermSplit.final c root absorb svd big k f S)),
      (position svd big S z = position svd big S z') = (z = z') := by
    intro z hz z' hz'
    have hnd : ((legBasis (bondOf (FermSplit.final c root absorb svd big k f S))).map (position svd big S)).Nodup := by
      rw [hbas]
      exact (legBasis_nodup hm0.1).filter _
    exact propext ⟨fun e => List.inj_on_of_nodup_map hnd hz hz' e, fun e => by rw [e]⟩
  have hl := fun {z} (hz : z ∈ legBasis (bondOf (FermSplit.final c root absorb svd big k f S))) {x : List (Q × Nat)} (hx : x.length = legsL.length) =>
    entry_final_left c root absorb hs h0 big k f hF hz hx
  have hr := fun {z} (hz : z ∈ legBasis (bondOf (FermSplit.final c root absorb svd big k f S))) (y : List (Q × Nat)) =>
    entry_final_right c root absorb hs h0 big k f hF hz y
  have hd := fun {z z'} (hz : z ∈ legBasis (bondOf (FermSplit.final c root absorb svd big k f S))) => entry_diag hs c root absorb big k f (z' := z') hz
  have hcd := conforms_diag hs c root absorb big k f hF.wfBond
  obtain ⟨F, hFdef⟩ : ∃ F, F = FermSplit.final c root absorb svd big k f S := ⟨_, rfl⟩
  rw [← hFdef] at hF hhal hbas hmem hinj hne hcd
  simp only [← hFdef] at hl hr hd
  -- the product
  have hprod : ∀ x y, x.length = legsL.length → ∀ w : Q × Nat → K, (∀ z ∈ legBasis (bondOf F), c (portion root absorb (value svd S (position svd big S z) * f)).1 * w z *
        c (portion root absorb (value svd S (position svd big S z) * f)).2 = c (value svd S (position svd big S z) * f)) →
      ((legBasis (bondOf F)).map fun z => entry (leftOf F) (x ++ [z]) * (w z * entry (rightOf F) (z :: y))).sum =
        (((legBasis (bondOf (FermSplit.full svd S))).filter (keepOf svd big S k)).map fun z =>
          entry (leftOf (FermSplit.full svd S)) (x ++ [z]) * c (value svd S z * f) * entry (rightOf (FermSplit.full svd S)) (z :: y)).sum := by
    intro x y hx w hw
    rw [← hbas, List.map_map]
    apply sum_map_congr'
    intro z hz
    rw [hl hz hx, hr hz y]
    simp only [Function.comp]
    rw [← hw z hz]
    ring
  have hnn : ∀ z ∈ legBasis (bondOf F), 0 ≤ value svd S (position svd big S z) * f := fun z hz => mul_nonneg (hsp.values _ (hmem z hz)) hf
  have hwfL : ∀ {x}, x ∈ legIndices legsL → x.length = legsL.length := fun hx => legIndices_length hx
  have key : ∃ X, recombine par ⟨⟨patL ++ [false], leftOf F⟩, if absorb = none then some ⟨[true, false], diagOf c svd big k f S⟩ else none, ⟨true :: patR, rightOf F⟩⟩ = some X ∧
      X.pattern = patL ++ patR ∧ Conforms (legsL ++ legsR) X.blocks ∧ ∀ x y, x.length = legsL.length → y.length = legsR.length → entry X.blocks (x ++ y) =
        (((legBasis (bondOf (FermSplit.full svd S))).filter (keepOf svd big S k)).map fun z =>
          entry (leftOf (FermSplit.full svd S)) (x ++ [z]) * c (value svd S z * f) * entry (rightOf (FermSplit.full svd S)) (z :: y)).sum := by
    cases absorb with
    | some a =>
      obtain ⟨X, hX, hXp, hXc, hXu, hXe⟩ := contract_spec par h.signsL hhal.left.conforms hhal.right.conforms hF.wfBond hhal.left.nonempty (sg := false) rfl rfl
      refine ⟨X, hX, hXp, hXc, ?_⟩
      intro x y hx hy
      rw [hXe x y hx hy, ← hprod x y hx (fun _ => 1) (by
        intro z hz
        rw [mul_one, ← map_mul, portion_mul root hroot a (hnn z hz)])]
      simp
    | none =>
      have hdne : diagOf c svd big k f S ≠ [] := by
        intro h1
        apply hne
        rw [hFdef]
        unfold diagOf at h1
        unfold FermSplit.final
        rw [List.map_eq_nil_iff] at h1 ⊢
        exact h1
      obtain ⟨Y, hY, hYp, hYc, _, hYe⟩ := contract_spec par (legsL := [bondOf F]) (patL := [true]) (u := ⟨[true, false], diagOf c svd big k f S⟩) rfl hcd
        hhal.right.conforms hF.wfBond hdne (sg := false) rfl rfl
      obtain ⟨X, hX, hXp, hXc, hXu, hXe⟩ := contract_spec par h.signsL hhal.left.conforms hYc hF.wfBond hhal.left.nonempty (sg := false) rfl hYp
      refine ⟨X, ?_, hXp, hXc, ?_⟩
      · simp only [recombine, if_true, hY, Option.bind_some]
        exact hX
      · intro x y hx hy
        rw [hXe x y hx hy, ← hprod x y hx (fun z => c (value svd S (position svd big S z) * f)) (by
          intro z hz
          simp [portion])]
        apply sum_map_congr'
        intro z hz
        have := hYe [z] y rfl hy
        simp only [List.cons_append, List.nil_append] at this
        rw [this]
        congr 1
        rw [sum_map_congr' (g := fun z' => if z' = z then c (value svd S (position svd big S z) * f) * entry (rightOf F) (z' :: y) else 0), sum_map_ite_eq' _ (legBasis_nodup hF.wfBond),
          if_pos hz]
        intro z' hz'
        rw [hd hz]
        by_cases e : z = z'
        · rw [if_pos e, if_pos e.symm]
        · rw [if_neg e, if_neg fun h => e h.symm, zero_mul]
  obtain ⟨X, hX1, hX2, hX3, hX4⟩ := key
  rw [← hFdef]
  refine ⟨X, hhal, ?_, ?_, ?_, ?_, ?_, hX1, hX2, hX3, hX4⟩
  · rw [← hbas, List.length_map]
  · cases absorb <;> simp
  · intro s hs'
    simp only at hs'
    split_ifs at hs'
    have := Option.some.inj hs'
    subst this
    refine ⟨hcd, rfl, ?_, ?_⟩
    · rw [← hbas, List.map_map]
      apply List.map_congr_left
      intro z hz
      rw [hd hz, if_pos rfl]
      rfl
    · intro z hz z' _ hne
      rw [hd hz, if_neg hne]
  · intro ha z hz z' hz'
    have h1 : ∀ x : V, (portion root absorb x).1 = 1 := by
      intro x
      rcases ha with rfl | rfl <;> simp [portion]
    have := hsp.left _ (hmem z hz) _ (hmem z' hz')
    simp only [hinj z hz z' hz'] at this
    rw [← this]
    apply sum_map_congr'
    intro x hx
    rw [hl hz (hwfL hx), hl hz' (hwfL hx), h1, h1]
    simp
  · intro ha z hz z' hz'
    have h1 : ∀ x : V, (portion root absorb x).2 = 1 := by
      intro x
      rcases ha with rfl | rfl <;> simp [portion]
    have := hsp.right _ (hmem z hz) _ (hmem z' hz')
    simp only [hinj z hz z' hz'] at this
    rw [← this]
    apply sum_map_congr'
    intro x hx
    rw [hr hz, hr hz', h1, h1]
    simp

end

section
variable {Q K V : Type} [DecidableEq Q] [AddCommGroup Q] [CommRing K] [StarRing K] [Field V] [LinearOrder V] [IsStrictOrderedRing V]
variable {legs : List (BondInfo Q)} {dq : Q} {T : FermT Q K} {left right : List Nat}

/-- C51: `tensor_svd`.  There is a singular value decomposition of the tensor across the cut, of which the code keeps a part: values above the threshold `big` that obey the rule
given by `cutoff`, `cutoff_mode` and `max_bond`.  If no value is kept, the code raises.  Otherwise it returns the kept part; the returned tensors, contracted, are the sum of the
kept terms.  The values are only changed if `renorm` is set and something is lost; then all are multiplied by the same number, which restores the sum of powers. -/
theorem C51_svd (par : Q → Nat) (c : V →+* K) {svd : Arr K → Arr K × Arr V × Arr K} (hsvd : IsSvd c svd) (hun : SvdUnitary svd) (hsort : SvdSorted svd) (big : V → Bool)
    {argsort : List V → List Nat} (hargs : Trim.IsArgsort argsort) {root : V → V} (hroot : ∀ x, 0 ≤ x → root x * root x = x) {cutoff : V} (hcut : 0 ≤ cutoff)
    {mode : Nat} (hm : 1 ≤ mode ∧ mode ≤ 6) (maxBond : Option Int) (renorm : Bool) {pow rroot : V → V} (hpow : ∀ x, 0 ≤ x → 0 ≤ pow x) (hrr : ∀ x, 0 ≤ x → 0 ≤ rroot x)
    (absorb : Option Int) {partition : Option (Q × Q)} {dl dr : Q}
    (hpart : partition = some (dl, dr) ∧ dl + dr = dq ∨ partition = none ∧ (dl, dr) = if absorb = some (-1) then (dq, 0) else (0, dq))
    (h : Valid legs dq T) (hp : Bipartition legs.length left right) :
    ∃ m₀ u₀ s₀ v₀ keep f,
      Spectral c (legsAt legs left) (legsAt legs right) (T.transpose par (some (left ++ right))).blocks m₀ u₀ s₀ v₀ ∧
      (∀ z ∈ legBasis m₀, keep z = true → big (s₀ z) = true) ∧
      Rule mode cutoff maxBond (((legBasis m₀).filter keep).map s₀) (((legBasis m₀).filter fun z => !keep z && big (s₀ z)).map s₀) ∧
      (renorm = false ∨ ((legBasis m₀).filter fun z => !keep z && big (s₀ z)) = [] → f = 1) ∧
      ((∀ x y, 0 ≤ x → 0 ≤ y → pow (y * rroot x) = pow y * x) → renorm = true → (((legBasis m₀).filter keep).map fun z => pow (s₀ z)).sum ≠ 0 →
        (((legBasis m₀).filter keep).map fun z => pow (s₀ z * f)).sum = (((legBasis m₀).filter fun z => big (s₀ z)).map fun z => pow (s₀ z)).sum) ∧
      ((∀ z ∈ legBasis m₀, keep z = false) →
        sparseSvd par c svd big argsort root cutoff mode (.total maxBond) renorm pow rroot absorb partition T left (some right) = none) ∧
      ((∃ z ∈ legBasis m₀, keep z = true) → ∃ d m X,
        sparseSvd par c svd big argsort root cutoff mode (.total maxBond) renorm pow rroot absorb partition T left (some right) = some d ∧
        Truncated par c (legsAt legs left) (legsAt legs right) (signsAt T.pattern left) (signsAt T.pattern right) dl dr absorb m₀ u₀ s₀ v₀ keep f d m X) := by
  obtain ⟨l1, l2, l3⟩ := hp.lengths
  have hd : dl + dr = dq := by
    rcases hpart with ⟨_, h1⟩ | ⟨_, h1⟩
    · exact h1
    · split_ifs at h1 <;> obtain ⟨rfl, rfl⟩ := Prod.mk.inj h1 <;> simp
  have hr := h.ready par hp dl dr hd
  have hre := (h.reorder par hp).2.2
  obtain ⟨A, hA⟩ : ∃ A, A = FermSplit.reorder par T left right := ⟨_, rfl⟩
  rw [← hA] at hr hre
  have hn : (legsAt legs left).length = left.length := by simp [legsAt]
  have hn' : (legsAt legs right).length = right.length := by simp [legsAt]
  obtain ⟨S, hS⟩ : ∃ S, S = sectors (legsAt legs left).length A.pattern dl A.blocks := ⟨_, rfl⟩
  have hs : Shaped svd S := hS ▸ hr.shaped c hsvd
  have hsp := hr.spectral hS c hsvd hun hsort
  have hsp' : Spectral c (legsAt legs left) (legsAt legs right) (T.transpose par (some (left ++ right))).blocks (bondOf (full svd S)) (leftOf (full svd S)) (value svd S)
      (rightOf (full svd S)) := by
    refine ⟨hsp.bond, hsp.left, hsp.right, hsp.values, ?_⟩
    intro x y hx hy
    rw [hsp.product x y hx hy, hre]
    rw [List.length_append, hx, hy, hn, hn']
    omega
  obtain ⟨D, hD⟩ : ∃ D, D = S.filter fun s => idx svd big s ≠ [] := ⟨_, rfl⟩
  obtain ⟨d, hdd⟩ : ∃ d, d = D.map fun s => (idx svd big s).map (val svd s) := ⟨_, rfl⟩
  have hspec : Trim.Spectrum d := by
    intro b hb
    rw [hdd] at hb
    obtain ⟨s, hm, rfl⟩ := List.mem_map.1 hb
    rw [hD] at hm
    have hm := (List.mem_filter.1 hm).1
    obtain ⟨R, C, h2, h3, h4, _, h5, _⟩ := hs.shapes s hm
    obtain ⟨k1, k2⟩ := hsort _ R C h2 h3 h4
    have hsub : (idx svd big s).Sublist (List.range (min R C)) := by
      have := List.filter_sublist (p := fun j => big (val svd s j)) (l := List.range ((svd s.data).2.1.shape.headD 0))
      rw [h5] at this
      unfold idx
      rw [h5]
      exact this
    refine ⟨k1.sublist (hsub.map _), ?_⟩
    intro x hx
    obtain ⟨j, hj, rfl⟩ := List.mem_map.1 hx
    exact k2 j (List.mem_range.1 (hsub.subset hj))
  -- the numbers of kept values
  have hnum : ∃ kI : Q → Int, (D ≠ [] → Trim.trimSingularVals argsort cutoff mode maxBond d = some (D.map fun s => kI s.label)) ∧
      Trim.Leading (D.map fun s => kI s.label) d ∧ Rule mode cutoff maxBond (Trim.kept (D.map fun s => kI s.label) d) (Trim.dropped (D.map fun s => kI s.label) d) := by
    by_cases hD0 : D = []
    · have hd0 : d = [] := by rw [hdd, hD0]; rfl
      refine ⟨fun _ => 0, fun h => absurd hD0 h, ?_, ?_⟩
      · rw [hD0, hd0]
        exact ⟨rfl, by simp, by simp, by simp [Trim.dropped]⟩
      · rw [hD0, hd0]
        exact rule_nil cutoff hcut mode maxBond
    · obtain ⟨n, h1, h2, h3⟩ := trim_rule argsort hargs cutoff hcut mode hm maxBond d hspec (by
        obtain ⟨s, hs⟩ := List.exists_mem_of_ne_nil _ hD0
        have h1 : idx svd big s ≠ [] := by
          rw [hD] at hs
          exact of_decide_eq_true (List.mem_filter.1 hs).2
        obtain ⟨j, hj⟩ := List.exists_mem_of_ne_nil _ h1
        refine List.ne_nil_of_mem (a := val svd s j) (List.mem_flatten.2 ⟨(idx svd big s).map (val svd s), ?_, List.mem_map.2 ⟨j, hj, rfl⟩⟩)
        rw [hdd]
        exact List.mem_map.2 ⟨s, hs, rfl⟩)
      have hnd : (D.map fun s => s.label).Nodup := by
        rw [hD]
        exact List.Nodup.sublist (List.Sublist.map _ List.filter_sublist) hs.nodup
      obtain ⟨kI, hk⟩ := exists_count (D.map fun s => s.label) hnd n (by rw [h2.length, hdd]; simp)
      rw [List.map_map] at hk
      have hk : n = D.map fun s => kI s.label := hk
      subst hk
      exact ⟨kI, fun _ => h1, h2, h3⟩
  obtain ⟨kI, htrim, hlead, hrule⟩ := hnum
  obtain ⟨f, hf⟩ : ∃ f, f = scaleOf renorm pow rroot d (D.map fun s => kI s.label) := ⟨_, rfl⟩
  have hf0 : 0 ≤ f := by
    rw [hf]
    exact scaleOf_nonneg renorm hpow hrr hspec hlead
  obtain ⟨k, hk⟩ : ∃ k : Q → Nat, k = fun q => (kI q).toNat := ⟨_, rfl⟩
  have hkept := kept_eq hs big kI
  have hdrop := dropped_eq hs big kI
  rw [← hk, ← hD, ← hdd] at hkept hdrop
  -- the code
  have hcode : sparseSvd par c svd big argsort root cutoff mode (.total maxBond) renorm pow rroot absorb partition T left (some right) =
      if FermSplit.final c root absorb svd big k f S = [] then none else some ⟨⟨signsAt T.pattern left ++ [false], leftOf (FermSplit.final c root absorb svd big k f S)⟩,
        if absorb = none then some ⟨[true, false], diagOf c svd big k f S⟩ else none,
        ⟨true :: signsAt T.pattern right, rightOf (FermSplit.final c root absorb svd big k f S)⟩⟩ := by
    have hpart' : partition.getD (if absorb = some (-1) then (dq, 0) else (0, dq)) = (dl, dr) := by
      rcases hpart with ⟨rfl, _⟩ | ⟨rfl, h1⟩
      · rfl
      · exact h1.symm
    unfold sparseSvd
    simp only [h.chargeEq, Option.bind_some, hpart']
    have hrest : FermSplit.rest T.blocks.ndim left (some right) = right := rfl
    rw [if_neg (by rw [hrest, h.ndim]; omega), if_neg (by rintro ⟨_, h2⟩; exact h2 hd), hrest, ← hA, ← hn, ← hS, screened_eq, ← hD]
    have t1 := hr.take
    have t2 := hr.drop
    rw [t1, t2]
    by_cases hD0 : D = []
    · have hfin : FermSplit.final c root absorb svd big k f S = [] := by
        unfold FermSplit.final
        rw [List.map_eq_nil_iff, List.filter_eq_nil_iff]
        intro s hs h1
        rw [hD, List.filter_eq_nil_iff] at hD0
        have h2 : idx svd big s = [] := by
          by_contra hc
          exact hD0 s hs (decide_eq_true hc)
        rw [h2, List.take_nil] at h1
        simp at h1
      rw [if_pos hfin, hD0]
      unfold Trim.trimAndRenorm
      cases Trim.capNumbers argsort cutoff mode (List.map (fun x => x.2.1) (List.map (fun s =>
        (s, (idx svd big s).map (val svd s), (svd s.data).1.pickLast (idx svd big s), (svd s.data).2.2.pickFirst (idx svd big s))) ([] : List (Sector Q K)))) (.total maxBond) with
      | none => rfl
      | some n => simp
    · have e := trim_eq argsort cutoff mode (.total maxBond) renorm pow rroot svd big D _ kI rfl hlead.nonneg (by rw [← hdd]; exact htrim hD0)
      rw [← hdd, ← hf, ← hk, hdd] at e
      rw [List.map_map, List.map_map, List.map_map]
      refine (congrArg (fun o => Option.bind o _) e).trans ?_
      rw [Option.bind_some]
      have e2 : List.map (Prod.fst ∘ fun s : Sector Q K => (s, (idx svd big s).map (val svd s), (svd s.data).1.pickLast (idx svd big s),
          (svd s.data).2.2.pickFirst (idx svd big s))) D = D := List.map_id _
      simp only [e2]
      rw [fin_eq c root absorb hs big k f D hD]
      have e3 : (List.map (fun s => (s, cutVals svd big k f s, absorbed c root absorb (cutVals svd big k f s) (cut svd big k s)))
          (S.filter fun s => (idx svd big s).take (k s.label) ≠ []) = []) = (FermSplit.final c root absorb svd big k f S = []) := by
        unfold FermSplit.final
        rw [List.map_eq_nil_iff, List.map_eq_nil_iff]
      by_cases hF : FermSplit.final c root absorb svd big k f S = []
      · rw [if_pos hF, if_pos (e3 ▸ hF)]
      · rw [if_neg hF, if_neg (e3 ▸ hF)]
        unfold FermSplit.final leftOf rightOf diagOf
        simp only [List.flatMap_map, List.map_map]
        rfl
  have hlen : (Trim.dropped (D.map fun s => kI s.label) d = []) ↔ (((legBasis (bondOf (full svd S))).filter fun z => !keepOf svd big S k z && big (value svd S z)) = []) := by
    rw [hdrop, List.map_eq_nil_iff]
  have hbig : ∀ z ∈ legBasis (bondOf (full svd S)), keepOf svd big S k z = true → big (value svd S z) = true := by
    rintro ⟨q, j⟩ hz hkeep
    rw [legBasis_full hs] at hz
    obtain ⟨s, hm, hz⟩ := List.mem_flatMap.1 hz
    obtain ⟨j', _, he⟩ := List.mem_map.1 hz
    obtain ⟨rfl, rfl⟩ := Prod.mk.inj he
    rw [keepOf_of_mem hs big k hm] at hkeep
    rw [value_of_mem hs hm]
    exact (List.mem_filter.1 ((List.take_sublist _ _).subset (of_decide_eq_true hkeep))).2
  refine ⟨_, _, _, _, keepOf svd big S k, f, hsp', hbig, ?_, ?_, ?_, ?_, ?_⟩
  · rw [← hkept, ← hdrop]
    exact hrule
  · intro hc
    rw [hf]
    unfold scaleOf
    rw [if_neg]
    rintro ⟨h1, h2⟩
    rcases hc with hc | hc
    · rw [hc] at h2
      exact absurd h2 (by simp)
    · have h3 := Trim.kept_length _ d hlead
      have h4 := (Trim.kept_dropped_perm _ d hlead.length).length_eq
      rw [hlen.2 hc, List.append_nil, List.length_flatten] at h4
      have h5 : (d.map fun b => (b.length : Int)).sum = ((d.map List.length).sum : Nat) := by
        rw [Nat.cast_list_sum, List.map_map]
        rfl
      rw [h5] at h1
      omega
  · intro hmul hren hne
    have hk2 : (((legBasis (bondOf (full svd S))).filter (keepOf svd big S k)).map fun z => pow (value svd S z * f)).sum =
        ((Trim.kept (D.map fun s => kI s.label) d).map fun x => pow (x * f)).sum := by
      rw [hkept, List.map_map]
      rfl
    have hk3 : (((legBasis (bondOf (full svd S))).filter (keepOf svd big S k)).map fun z => pow (value svd S z)).sum =
        ((Trim.kept (D.map fun s => kI s.label) d).map pow).sum := by
      rw [hkept, List.map_map]
      rfl
    have hk4 : (((legBasis (bondOf (full svd S))).filter fun z => !keepOf svd big S k z && big (value svd S z)).map fun z => pow (value svd S z)).sum =
        ((Trim.dropped (D.map fun s => kI s.label) d).map pow).sum := by
      rw [hdrop, List.map_map]
      rfl
    have hsplit := sum_filter_split (legBasis (bondOf (full svd S))) (keepOf svd big S k) (fun z => big (value svd S z)) hbig (fun z => pow (value svd S z))
    rw [hsplit, hk2, hk4, hk3, hf]
    rw [hk3] at hne
    exact renorm_total hmul hren hspec hpow hlead hne
  · intro hc
    rw [hcode, if_pos]
    by_contra hne
    obtain ⟨e, he⟩ := List.exists_mem_of_ne_nil _ hne
    have h1 := legBasis_final c root absorb hs big k f
    rw [List.filter_eq_nil_iff.2 (by intro z hz; rw [hc z hz]; simp), List.map_eq_nil_iff, legBasis_bondOf, List.flatMap_eq_nil_iff] at h1
    have h1 := h1 e he
    obtain ⟨s, hm, rfl⟩ := List.mem_map.1 he
    obtain ⟨h2, h3⟩ := List.mem_filter.1 hm
    rw [final_wid c root absorb hs big k f h2, List.map_eq_nil_iff, List.range_eq_nil, List.length_eq_zero_iff] at h1
    exact of_decide_eq_true h3 h1
  · rintro ⟨z, hz, hkz⟩
    have hne : FermSplit.final c root absorb svd big k f S ≠ [] := by
      intro h1
      have h2 := legBasis_final c root absorb hs big k f
      rw [h1] at h2
      have : z ∈ (legBasis (bondOf (full svd S))).filter (keepOf svd big S k) := List.mem_filter.2 ⟨hz, hkz⟩
      rw [← h2] at this
      exact absurd this (by simp [bondOf, legBasis])
    obtain ⟨X, hX⟩ := hr.truncated par hS c hsvd hun hsort hroot absorb big k hf0 hne
    exact ⟨_, _, X, by rw [hcode, if_neg hne], hX⟩

/-- C51: the squared distance of the tensor and what the truncated decomposition gives is the sum of the squares of the values that are not kept (without renormalisation). -/
theorem C51_distance (par : Q → Nat) (c : V →+* K) (hc : ∀ v, star (c v) = c v) {legsL legsR : List (BondInfo Q)} {patL patR : List Bool} {dl dr : Q} {absorb : Option Int}
    {A : SpT Q K} {m₀ m : BondInfo Q} {u₀ v₀ : SpT Q K} {s₀ : Q × Nat → V} {keep : Q × Nat → Bool} {d : Svd Q K} {X : FermT Q K}
    (hs : Spectral c legsL legsR A m₀ u₀ s₀ v₀) (ht : Truncated par c legsL legsR patL patR dl dr absorb m₀ u₀ s₀ v₀ keep 1 d m X) :
    ((legIndices legsL).map fun x => ((legIndices legsR).map fun y =>
      star (entry A (x ++ y) - entry X.blocks (x ++ y)) * (entry A (x ++ y) - entry X.blocks (x ++ y))).sum).sum =
      c (((legBasis m₀).filter fun z => !keep z).map fun z => s₀ z * s₀ z).sum := by
  have hdiff : ∀ x ∈ legIndices legsL, ∀ y ∈ legIndices legsR, entry A (x ++ y) - entry X.blocks (x ++ y) =
      (((legBasis m₀).filter fun z => !keep z).map fun z => entry u₀ (x ++ [z]) * c (s₀ z) * entry v₀ (z :: y)).sum := by
    intro x hx y hy
    have hx := legIndices_length hx
    have hy := legIndices_length hy
    rw [← hs.product x y hx hy, ht.entries x y hx hy, sum_filter', sum_filter', sub_eq_iff_eq_add, ← sum_map_add']
    apply sum_map_congr'
    intro z _
    cases keep z <;> simp
  rw [sum_map_congr' _ _ _ (fun x hx => sum_map_congr' _ _ _ (fun y hy => by rw [hdiff x hx y hy]))]
  rw [parseval_weights (fun z => c (s₀ z)) (fun z => hc _) hs.left hs.right _ (fun z hz => (List.mem_filter.1 hz).1) ((legBasis_nodup hs.bond.1).filter _)]
  rw [map_list_sum, List.map_map]
  apply sum_map_congr'
  intro z _
  simp

/-- C51: if only zeros are lost, the returned tensors give the tensor back, with its legs in the order `left`, `right`. -/
theorem C51_exact (par : Q → Nat) (c : V →+* K) {dl dr : Q} {absorb : Option Int} {m₀ m : BondInfo Q} {u₀ v₀ : SpT Q K} {s₀ : Q × Nat → V} {keep : Q × Nat → Bool}
    {d : Svd Q K} {X : FermT Q K} (hp : Bipartition legs.length left right)
    (hs : Spectral c (legsAt legs left) (legsAt legs right) (T.transpose par (some (left ++ right))).blocks m₀ u₀ s₀ v₀)
    (ht : Truncated par c (legsAt legs left) (legsAt legs right) (signsAt T.pattern left) (signsAt T.pattern right) dl dr absorb m₀ u₀ s₀ v₀ keep 1 d m X)
    (hz : ∀ z ∈ legBasis m₀, keep z = false → s₀ z = 0) : Reordered par legs T X left right := by
  obtain ⟨l1, l2, l3⟩ := hp.lengths
  refine ⟨?_, ht.conforms, ?_⟩
  · rw [ht.signs]
    simp [signsAt]
  · intro x hx
    have hxl : (x.take left.length).length = (legsAt legs left).length := by simp [legsAt]; omega
    have hxr : (x.drop left.length).length = (legsAt legs right).length := by simp [legsAt, hx]; omega
    have h1 := ht.entries _ _ hxl hxr
    have h2 := hs.product _ _ hxl hxr
    rw [List.take_append_drop] at h1 h2
    rw [h1, ← h2, sum_filter']
    apply sum_map_congr'
    intro z hm
    cases hk : keep z with
    | true => simp
    | false => simp [hz z hm hk]

/-- C51: without truncation (`cutoff=0`, no `max_bond`, and only zeros below the threshold) `tensor_svd` returns tensors that, contracted, give the tensor back, in all modes
and for all values of `absorb` and `renorm`. -/
theorem C51_lossless (par : Q → Nat) (c : V →+* K) {svd : Arr K → Arr K × Arr V × Arr K} (hsvd : IsSvd c svd) (hun : SvdUnitary svd) (hsort : SvdSorted svd) {big : V → Bool}
    (hbig : ∀ x, 0 ≤ x → (big x = true ↔ 0 < x))
    {argsort : List V → List Nat} (hargs : Trim.IsArgsort argsort) {root : V → V} (hroot : ∀ x, 0 ≤ x → root x * root x = x)
    {mode : Nat} (hm : 1 ≤ mode ∧ mode ≤ 6) (renorm : Bool) {pow rroot : V → V} (hpow : ∀ x, 0 ≤ x → 0 ≤ pow x) (hrr : ∀ x, 0 ≤ x → 0 ≤ rroot x)
    (absorb : Option Int) {partition : Option (Q × Q)} {dl dr : Q}
    (hpart : partition = some (dl, dr) ∧ dl + dr = dq ∨ partition = none ∧ (dl, dr) = if absorb = some (-1) then (dq, 0) else (0, dq))
    (h : Valid legs dq T) (hp : Bipartition legs.length left right) {x : List (Q × Nat)} (hx : x.length = legs.length)
    (hne : entry (T.transpose par (some (left ++ right))).blocks x ≠ 0) :
    ∃ d m X, sparseSvd par c svd big argsort root 0 mode (.total none) renorm pow rroot absorb partition T left (some right) = some d ∧
      Halves (legsAt legs left) (legsAt legs right) (signsAt T.pattern left) (signsAt T.pattern right) m dl dr d.u d.v ∧
      recombine par d = some X ∧ Reordered par legs T X left right ∧
      (absorb = none ∨ absorb = some 1 → LeftIsometric (legsAt legs left) m d.u.blocks) ∧
      (absorb = none ∨ absorb = some (-1) → RightIsometric m (legsAt legs right) d.v.blocks) := by
  obtain ⟨l1, l2, l3⟩ := hp.lengths
  obtain ⟨m₀, u₀, s₀, v₀, keep, f, hs, hb, hrule, hf, _, _, hsome⟩ := C51_svd par c hsvd hun hsort big hargs hroot (le_refl 0) hm none renorm hpow hrr absorb hpart h hp
  have hroom : ∀ n, Trim.HasRoom none n := fun n m hm => by simp at hm
  have hnn : ∀ y ∈ ((legBasis m₀).filter fun z => !keep z && big (s₀ z)).map s₀, 0 < y := by
    intro y hy
    obtain ⟨z, hz, rfl⟩ := List.mem_map.1 hy
    obtain ⟨hz, hk⟩ := List.mem_filter.1 hz
    exact (hbig _ (hs.values z hz)).1 (Bool.and_eq_true_iff.1 hk).2
  have hlost : ((legBasis m₀).filter fun z => !keep z && big (s₀ z)).map s₀ = [] := by
    generalize hL : ((legBasis m₀).filter fun z => !keep z && big (s₀ z)).map s₀ = L at hnn hrule
    generalize ((legBasis m₀).filter keep).map s₀ = Kp at hrule
    by_contra hne
    obtain ⟨y, hy⟩ := List.exists_mem_of_ne_nil _ hne
    by_cases h3 : 3 ≤ mode
    · have h1 := (hrule.weight h3).1 (hroom _)
      have h2 : Trim.budget mode (0 : V) [Kp ++ L] = 0 := by
        unfold Trim.budget
        split_ifs <;> simp
      rw [h2] at h1
      have h4 : 0 < (L.map (· ^ Trim.power mode)).sum := List.sum_pos _ (by
        intro w hw
        obtain ⟨v, hv, rfl⟩ := List.mem_map.1 hw
        exact pow_pos (hnn v hv) _) (by simpa using hne)
      exact absurd h1 (not_le.2 h4)
    · have h1 : ∃ thr, (mode = 1 ∧ thr = 0 ∨ mode = 2 ∧ ∃ smax ∈ Kp ++ L, (∀ x ∈ Kp ++ L, x ≤ smax) ∧ thr = 0 * smax) ∧ thr = 0 := by
        by_cases h1 : mode = 1
        · exact ⟨0, Or.inl ⟨h1, rfl⟩, rfl⟩
        · obtain ⟨smax, h5, h6⟩ := exists_max (Kp ++ L) (List.ne_nil_of_mem (List.mem_append_right _ hy))
          exact ⟨0 * smax, Or.inr ⟨by omega, smax, h5, h6, rfl⟩, by simp⟩
      obtain ⟨thr, h1, rfl⟩ := h1
      exact absurd ((hrule.threshold _ h1).2 (hroom _) y hy) (not_le.2 (hnn y hy))
  have hf := hf (Or.inr (List.map_eq_nil_iff.1 hlost))
  have hz : ∀ z ∈ legBasis m₀, keep z = false → s₀ z = 0 := by
    intro z hz hk
    by_contra h0
    have hpos : 0 < s₀ z := lt_of_le_of_ne (hs.values z hz) (Ne.symm h0)
    have : s₀ z ∈ ((legBasis m₀).filter fun z => !keep z && big (s₀ z)).map s₀ :=
      List.mem_map.2 ⟨z, List.mem_filter.2 ⟨hz, by simp [hk, (hbig _ (hs.values z hz)).2 hpos]⟩, rfl⟩
    rw [hlost] at this
    simp at this
  have hex : ∃ z ∈ legBasis m₀, keep z = true := by
    by_contra hno
    apply hne
    have hxl : (x.take left.length).length = (legsAt legs left).length := by simp [legsAt]; omega
    have hxr : (x.drop left.length).length = (legsAt legs right).length := by simp [legsAt, hx]; omega
    have h2 := hs.product _ _ hxl hxr
    rw [List.take_append_drop] at h2
    rw [← h2]
    apply sum_map_zero'
    intro z hz'
    have : keep z = false := by
      cases hk : keep z with
      | false => rfl
      | true => exact absurd ⟨z, hz', hk⟩ hno
    simp [hz z hz' this]
  obtain ⟨d, m, X, h1, h2⟩ := hsome hex
  rw [hf] at h2
  exact ⟨d, m, X, h1, h2.halves, h2.whole, C51_exact par c hp hs h2 hz, h2.leftIso, h2.rightIso⟩

/-- C51: with `cutoff_mode` 3 or 4 and without `max_bond` and `renorm`, the squared distance of the tensor and what the returned tensors give is at most the budget plus the
squares of the values below the threshold. -/
theorem C51_error (par : Q → Nat) (c : V →+* K) (hc : ∀ v, star (c v) = c v) {svd : Arr K → Arr K × Arr V × Arr K} (hsvd : IsSvd c svd) (hun : SvdUnitary svd)
    (hsort : SvdSorted svd) (big : V → Bool) {argsort : List V → List Nat} (hargs : Trim.IsArgsort argsort) {root : V → V} (hroot : ∀ x, 0 ≤ x → root x * root x = x)
    {cutoff : V} (hcut : 0 ≤ cutoff) {mode : Nat} (hm : mode = 3 ∨ mode = 4) {pow rroot : V → V} (hpow : ∀ x, 0 ≤ x → 0 ≤ pow x)
    (hrr : ∀ x, 0 ≤ x → 0 ≤ rroot x) (absorb : Option Int) {partition : Option (Q × Q)} {dl dr : Q}
    (hpart : partition = some (dl, dr) ∧ dl + dr = dq ∨ partition = none ∧ (dl, dr) = if absorb = some (-1) then (dq, 0) else (0, dq))
    (h : Valid legs dq T) (hp : Bipartition legs.length left right) {d : Svd Q K}
    (hd : sparseSvd par c svd big argsort root cutoff mode (.total none) false pow rroot absorb partition T left (some right) = some d) :
    ∃ m₀ u₀ s₀ v₀ X e, Spectral c (legsAt legs left) (legsAt legs right) (T.transpose par (some (left ++ right))).blocks m₀ u₀ s₀ v₀ ∧ recombine par d = some X ∧
      ((legIndices (legsAt legs left)).map fun x => ((legIndices (legsAt legs right)).map fun y =>
        star (entry (T.transpose par (some (left ++ right))).blocks (x ++ y) - entry X.blocks (x ++ y)) *
          (entry (T.transpose par (some (left ++ right))).blocks (x ++ y) - entry X.blocks (x ++ y))).sum).sum = c e ∧
      e ≤ (if mode = 3 then cutoff else cutoff * (((legBasis m₀).filter fun z => big (s₀ z)).map fun z => s₀ z * s₀ z).sum) +
        (((legBasis m₀).filter fun z => !big (s₀ z)).map fun z => s₀ z * s₀ z).sum := by
  obtain ⟨m₀, u₀, s₀, v₀, keep, f, hs, hb, hrule, hf, _, hnone, hsome⟩ := C51_svd par c hsvd hun hsort big hargs hroot hcut (mode := mode) (by omega) none false hpow hrr absorb hpart h hp
  have hex : ∃ z ∈ legBasis m₀, keep z = true := by
    by_contra hno
    rw [hnone (by
      intro z hz
      cases hk : keep z with
      | false => rfl
      | true => exact absurd ⟨z, hz, hk⟩ hno)] at hd
    exact absurd hd (by simp)
  obtain ⟨d', m, X, h1, h2⟩ := hsome hex
  rw [hd] at h1
  obtain rfl := Option.some.inj h1
  rw [hf (Or.inl rfl)] at h2
  refine ⟨m₀, u₀, s₀, v₀, X, _, hs, h2.whole, C51_distance par c hc hs h2, ?_⟩
  have e1 := sum_filter_split (legBasis m₀) (fun z => !keep z && big (s₀ z)) (fun z => !keep z) (by
    intro z _ h1
    exact (Bool.and_eq_true_iff.1 h1).1) (fun z => s₀ z * s₀ z)
  rw [e1]
  have hw := (hrule.weight (by omega)).1 (fun m hm => by simp at hm)
  have hpw : Trim.power mode = 2 := by unfold Trim.power; rw [if_pos hm]
  refine add_le_add ?_ (le_of_eq ?_)
  · rw [hpw, List.map_map] at hw
    have e2 : (((legBasis m₀).filter fun z => !keep z && big (s₀ z)).map fun z => s₀ z * s₀ z).sum =
        (((legBasis m₀).filter fun z => !keep z && big (s₀ z)).map ((· ^ 2) ∘ s₀)).sum := by
      apply sum_map_congr'
      intro z _
      simp [sq]
    rw [e2]
    refine hw.trans (le_of_eq ?_)
    unfold Trim.budget
    rcases hm with rfl | rfl
    · simp
    · simp only [show ¬ (4 = 3) by omega, if_false]
      rw [if_pos (Or.inl trivial), hpw]
      congr 1
      simp only [List.flatten_cons, List.flatten_nil, List.append_nil, List.map_append, List.sum_append, List.map_map]
      rw [sum_filter_split (legBasis m₀) keep (fun z => big (s₀ z)) hb]
      congr 1 <;>
      · apply sum_map_congr'
        intro z _
        simp [sq]
  · congr 2
    apply List.filter_congr
    intro z hz
    cases hk : keep z with
    | false => simp
    | true => simp [hb z hz hk]

end

end FermSplit
end Verif
