import Verif.Proof.FermSvd
import Verif.Spec.FermSvd
import Verif.Thm.Fermion
import Verif.Thm.Canon

/-!
C51: splitting a fermionic tensor in two and contracting the parts gives the tensor back.
-/

set_option linter.unusedSectionVars false

namespace Verif
namespace FermSplit

section
variable {Q K V : Type} [DecidableEq Q] [AddCommGroup Q] [CommRing K]

/-! ### Reordering the legs -/

theorem signedSum_perm (p : List Bool) (qs : List Q) {n : Nat} (hp : p.length = n) (hq : qs.length = n) {ax : List Nat} (hax : ax.Perm (List.range n)) :
    signedSum (ax.map fun i => p.getD i true) (pick ax qs) = signedSum p qs := by
  have h1 : (ax.map fun i => p.getD i true) = ax.map fun i => p.getD i false := by
    apply List.map_congr_left
    intro i hi
    have : i < p.length := by rw [hp]; simpa using hax.mem_iff.1 hi
    simp [List.getD_eq_getElem?_getD, List.getElem?_eq_getElem this]
  rw [h1, Verif.signedSum_pick, Verif.signedSum_range p qs (by rw [hp, hq]), hq]
  exact (hax.map _).sum_eq

theorem Valid.ndim {legs : List (BondInfo Q)} {dq : Q} {T : FermT Q K} (h : Valid legs dq T) : T.blocks.ndim = legs.length := by
  have := h.nonempty
  cases hb : T.blocks with
  | nil => exact absurd hb this
  | cons b t =>
    exact (h.conforms b (by rw [hb]; exact List.mem_cons_self)).lengths.2

theorem Valid.chargeEq {legs : List (BondInfo Q)} {dq : Q} {T : FermT Q K} (h : Valid legs dq T) : FermSplit.charge T = some dq := by
  have := h.nonempty
  unfold FermSplit.charge
  cases hb : T.blocks with
  | nil => exact absurd hb this
  | cons b t =>
    have hc := h.charge b (by rw [hb]; exact List.mem_cons_self)
    simp only [List.head?_cons, Option.map_some]
    congr 1
    rw [← hc]
    exact BondFusingInfo.combine_eq b.1 T.pattern

theorem map_getD_range {α : Type} (d : α) (l : List α) : (List.range l.length).map (fun i => l.getD i d) = l := by
  apply List.ext_getElem
  · simp
  · intro i h1 h2
    simp [List.getD_eq_getElem?_getD, List.getElem?_eq_getElem h2]

/-- Transposing keeps a tensor valid. -/
theorem Valid.transpose {legs : List (BondInfo Q)} {dq : Q} {T : FermT Q K} (h : Valid legs dq T) (par : Q → Nat) {ax : List Nat}
    (hax : ax.Perm (List.range legs.length)) : Valid (legsAt legs ax) dq (T.transpose par (some ax)) := by
  have hlt : ∀ i ∈ ax, i < legs.length := fun i hi => by simpa using hax.mem_iff.1 hi
  refine ⟨?_, C25_conforms par legs T h.conforms ax hax, ?_, ?_, ?_, ?_⟩
  · intro b hb
    obtain ⟨i, hi, rfl⟩ := List.mem_map.1 hb
    apply h.good
    rw [List.getD_eq_getElem?_getD, List.getElem?_eq_getElem (hlt i hi)]
    exact List.getElem_mem _
  · unfold UniqueLabels FermT.transpose
    simp only [Option.getD_some, List.map_map]
    have hu : (T.blocks.map Prod.fst).Nodup := h.unique
    rw [show (Prod.fst ∘ fun b : List Q × Arr K => (pick ax b.1, (b.2.transpose ax).mapK (· * ((computePhase (b.1.map par) ax false : Int) : K)))) =
      pick ax ∘ Prod.fst from rfl, ← List.map_map]
    refine List.Nodup.map_on ?_ hu
    intro a ha b hb hab
    obtain ⟨a', ha', rfl⟩ := List.mem_map.1 ha
    obtain ⟨b', hb', rfl⟩ := List.mem_map.1 hb
    rw [← unpick_pick hax a'.1 (h.conforms a' ha').lengths.1, hab, unpick_pick hax b'.1 (h.conforms b' hb').lengths.1]
  · simp [FermT.transpose, legsAt]
  · intro b hb
    unfold FermT.transpose at hb
    simp only [Option.getD_some] at hb
    obtain ⟨a, ha, rfl⟩ := List.mem_map.1 hb
    simp only [FermT.transpose, Option.getD_some]
    rw [signedSum_perm T.pattern a.1 h.signs (h.conforms a ha).lengths.1 hax]
    exact h.charge a ha
  · unfold FermT.transpose
    simpa using h.nonempty

/-- `_maybe_transpose_tensor` gives a valid tensor with the legs in the wanted order. -/
theorem Valid.reorder {legs : List (BondInfo Q)} {dq : Q} {T : FermT Q K} (h : Valid legs dq T) (par : Q → Nat) {left right : List Nat}
    (hp : Bipartition legs.length left right) :
    Valid (legsAt legs left ++ legsAt legs right) dq (FermSplit.reorder par T left right) ∧
      (FermSplit.reorder par T left right).pattern = signsAt T.pattern (left ++ right) ∧
      ∀ x : List (Q × Nat), x.length = legs.length →
        entry (FermSplit.reorder par T left right).blocks x = entry (T.transpose par (some (left ++ right))).blocks x := by
  unfold FermSplit.reorder
  have hl : legsAt legs left ++ legsAt legs right = legsAt legs (left ++ right) := by simp [legsAt]
  rw [hl]
  split
  · rename_i he
    rw [h.ndim] at he
    have hid : legsAt legs (left ++ right) = legs := by
      rw [he]
      exact map_getD_range _ _
    refine ⟨by rw [hid]; exact h, ?_, ?_⟩
    · rw [he, ← h.signs]
      exact (map_getD_range _ _).symm
    · intro x hx
      have := C25_entry par legs T h.conforms (List.range legs.length) (List.Perm.refl _) x hx
      rw [← hx, map_getD_range, hx, reorderSign_range, Int.cast_one, one_mul] at this
      rw [he, this]
  · exact ⟨h.transpose par hp.all, rfl, fun _ _ => rfl⟩

/-! ### Contracting neighbouring legs -/

theorem entry_transpose_range (par : Q → Nat) {legs : List (BondInfo Q)} {A : FermT Q K} (hA : Conforms legs A.blocks) {x : List (Q × Nat)}
    (hx : x.length = legs.length) : entry (A.transpose par (some (List.range legs.length))).blocks x = entry A.blocks x := by
  have := C25_entry par legs A hA (List.range legs.length) (List.Perm.refl _) x hx
  rw [← hx, map_getD_range, hx, reorderSign_range, Int.cast_one, one_mul] at this
  rw [this]

/-- Contracting the last leg of one tensor with the first leg of another needs no sign. -/
theorem contract_spec (par : Q → Nat) {legsL legsR : List (BondInfo Q)} {m : BondInfo Q} {patL patR : List Bool} (hpl : patL.length = legsL.length)
    {u v : FermT Q K} (hu : Conforms (legsL ++ [m]) u.blocks) (hv : Conforms (m :: legsR) v.blocks) (hm : Dict.WF m) (hne : u.blocks ≠ [])
    {sg : Bool} (hup : u.pattern = patL ++ [sg]) (hvp : v.pattern = (!sg) :: patR) :
    ∃ X, contract par u v = some X ∧ X.pattern = patL ++ patR ∧ Conforms (legsL ++ legsR) X.blocks ∧ UniqueLabels X.blocks ∧
      ∀ x y, x.length = legsL.length → y.length = legsR.length →
        entry X.blocks (x ++ y) = ((legBasis m).map fun z => entry u.blocks (x ++ [z]) * entry v.blocks (z :: y)).sum := by
  have hcon : Contractible u v [-1] [0] (legsL ++ [m]) (m :: legsR) [m] [legsL.length] [0] := by
    refine ⟨hu, hv, .cons ⟨by simp, Or.inr (by simp)⟩ .nil, .cons ⟨by simp, Or.inl (by simp)⟩ .nil, by simp, by simp, by simp, by simp, ?_, hne, ?_⟩
    · intro b hb
      rw [List.mem_singleton.1 hb]
      exact hm
    · refine .cons ?_ .nil
      rw [hup, hvp]
      simp [← hpl]
  obtain ⟨X, hX, hXc, hXu, hXe⟩ := C26_tensordot par u v [-1] [0] _ _ _ _ _ hcon
  have f1 : freeAxes (legsL ++ [m]).length [legsL.length] = List.range legsL.length := by
    rw [List.length_append]
    exact freeAxes_last _
  have f2 : freeAxes (m :: legsR).length [0] = (List.range legsR.length).map (· + 1) := freeAxes_zero _
  have nd : u.blocks.ndim = legsL.length + 1 := by
    cases hb : u.blocks with
    | nil => exact absurd hb hne
    | cons b t =>
      have := (hu b (by rw [hb]; exact List.mem_cons_self)).lengths.2
      rw [List.length_append] at this
      exact this
  refine ⟨X, hX, ?_, ?_, hXu, ?_⟩
  · unfold FermT.tensordot at hX
    simp only at hX
    split_ifs at hX
    have := Option.some.inj hX
    rw [← this]
    simp only [FermT.contractPatterns, hup, hvp, nd, List.map_cons, List.map_nil, SpT.normAxis]
    have e1 : ((((patL ++ [sg]).zipIdx).filter fun p => p.2 ∉ [if (0 : Int) ≤ -1 then (-1 : Int).toNat else (((legsL.length + 1 : Nat) : Int) + -1).toNat]).map Prod.fst) = patL := by
      have : (if (0 : Int) ≤ -1 then (-1 : Int).toNat else (((legsL.length + 1 : Nat) : Int) + -1).toNat) = patL.length := by
        rw [if_neg (by omega), hpl]
        omega
      rw [this, List.zipIdx_append, List.filter_append, List.map_append, List.filter_eq_self.2]
      · simp
      · intro p hp
        have := List.snd_lt_of_mem_zipIdx hp
        simp at this ⊢
        omega
    have e2 : (((((!sg) :: patR).zipIdx).filter fun p => p.2 ∉ [if (0 : Int) ≤ 0 then Int.toNat 0 else ((v.blocks.ndim : Int) + 0).toNat]).map Prod.fst) = patR := by
      rw [if_pos (by omega), List.zipIdx_cons, List.filter_cons_of_neg (by simp), List.filter_eq_self.2]
      · simp
      · intro p hp
        have := List.le_snd_of_mem_zipIdx hp
        simp at this ⊢
        omega
    rw [e1, e2]
  · rw [f1, f2] at hXc
    have g1 : (List.range legsL.length).map (fun i => (legsL ++ [m]).getD i []) = legsL := by
      apply List.ext_getElem
      · simp
      · intro i h1 h2
        simp [List.getD_eq_getElem?_getD, List.getElem?_append_left h2, List.getElem?_eq_getElem h2]
    have g2 : ((List.range legsR.length).map (· + 1)).map (fun i => (m :: legsR).getD i []) = legsR := by
      rw [List.map_map]
      exact map_getD_range [] legsR
    rw [g1, g2] at hXc
    exact hXc
  · intro x y hx hy
    have := hXe x y (by rw [f1]; simpa using hx) (by rw [f2]; simpa using hy)
    rw [this, f1, f2]
    unfold legIndices
    simp only [List.map_cons, List.map_nil, cart]
    rw [sum_flatMap']
    apply sum_map_congr'
    intro z _
    simp only [List.map_cons, List.map_nil, List.sum_cons, List.sum_nil, add_zero, List.reverse_cons, List.reverse_nil, List.nil_append, List.cons_append]
    have t1 : List.range legsL.length ++ [legsL.length] = List.range (legsL ++ [m]).length := by
      rw [List.length_append]
      exact List.range_succ.symm
    have t2 : 0 :: (List.range legsR.length).map (· + 1) = List.range (m :: legsR).length := by
      rw [List.length_cons, List.range_succ_eq_map]
    rw [t1, t2, entry_transpose_range par hu (by simp [hx]), entry_transpose_range par hv (by simp [hy])]

/-! ### Sectors -/

theorem mem_sectors {n : Nat} {p : List Bool} {dl : Q} {T : SpT Q K} {s : Sector Q K} (hs : s ∈ sectors n p dl T) :
    (∃ bs, (s.label, bs) ∈ groupBy (fun b : List Q × Arr K => leftLabel (p.take n) (b.1.take n) dl) T ∧ s = sector n s.label bs) ∧ s.data.shape.prod ≠ 0 := by
  unfold sectors at hs
  obtain ⟨h1, h2⟩ := List.mem_filter.1 hs
  obtain ⟨g, hg, rfl⟩ := List.mem_map.1 h1
  exact ⟨⟨g.2, hg, rfl⟩, by simpa using h2⟩

theorem sectors_nodup (n : Nat) (p : List Bool) (dl : Q) (T : SpT Q K) : ((sectors n p dl T).map fun s => s.label).Nodup := by
  unfold sectors
  refine List.Nodup.sublist (List.Sublist.map _ List.filter_sublist) ?_
  rw [List.map_map]
  exact wf_groupBy _ _

/-- What holds before the matrices are factorised: `A` is the tensor with its legs in the right order. -/
structure Ready (legsL legsR : List (BondInfo Q)) (patL patR : List Bool) (dl dr : Q) (A : FermT Q K) : Prop where
  valid : Valid (legsL ++ legsR) (dl + dr) A
  signs : A.pattern = patL ++ patR
  signsL : patL.length = legsL.length

variable {legsL legsR : List (BondInfo Q)} {patL patR : List Bool} {dl dr : Q} {A : FermT Q K}

theorem Ready.take (h : Ready legsL legsR patL patR dl dr A) : A.pattern.take legsL.length = patL := by
  rw [h.signs, ← h.signsL, List.take_left]

theorem Ready.drop (h : Ready legsL legsR patL patR dl dr A) : A.pattern.drop legsL.length = patR := by
  rw [h.signs, ← h.signsL, List.drop_left]

theorem Ready.sector (h : Ready legsL legsR patL patR dl dr A) {s : Sector Q K} (hs : s ∈ sectors legsL.length A.pattern dl A.blocks) :
    ∃ R C, SectorOk legsL legsR (fun l => leftLabel patL l dl) A.blocks s R C ∧ 0 < R ∧ 0 < C := by
  obtain ⟨⟨bs, hg, he⟩, hp⟩ := mem_sectors hs
  rw [h.take] at hg
  obtain ⟨R, C, hok⟩ := sectorOk (key := fun l => leftLabel patL l dl) h.valid.conforms h.valid.unique hg
  simp only at hok
  rw [← he] at hok
  refine ⟨R, C, hok, ?_⟩
  rw [hok.data] at hp
  simp only [List.prod_cons, List.prod_nil, Nat.mul_one, ne_eq, Nat.mul_eq_zero, not_or] at hp
  omega

/-- Sectors with matrices that fit. -/
theorem Ready.splitOf (h : Ready legsL legsR patL patR dl dr A) {es : List (Sector Q K × Arr K × Arr K)} (hn : (es.map fun e => e.1.label).Nodup)
    (hs : ∀ e ∈ es, e.1 ∈ sectors legsL.length A.pattern dl A.blocks)
    (hsh : ∀ e ∈ es, ∀ R C, e.1.data.shape = [R, C] → e.2.1.shape = [R, wid e] ∧ e.2.2.shape = [wid e, C]) :
    SplitOf legsL legsR (fun l => leftLabel patL l dl) A.blocks es := by
  refine ⟨h.valid.conforms, h.valid.unique, hn, ?_, ?_⟩
  · intro e he
    obtain ⟨R, C, hok, _⟩ := h.sector (hs e he)
    exact ⟨R, C, hok⟩
  · intro e he
    obtain ⟨R, C, hok, _⟩ := h.sector (hs e he)
    exact ⟨R, C, hok.data, hsh e he R C hok.data⟩

/-- Groups whose matrix is empty do not matter. -/
theorem Ready.rest (h : Ready legsL legsR patL patR dl dr A) {es : List (Sector Q K × Arr K × Arr K)}
    (hall : ∀ s ∈ sectors legsL.length A.pattern dl A.blocks, s.label ∈ es.map fun e => e.1.label) :
    ∀ g ∈ groupBy (fun b : List Q × Arr K => leftLabel patL (b.1.take legsL.length) dl) A.blocks, g.1 ∉ es.map (fun e => e.1.label) →
      ∀ R C, (FermSplit.sector legsL.length g.1 g.2).data.shape = [R, C] → ∀ i < R, ∀ j < C, (FermSplit.sector legsL.length g.1 g.2).data.get [i, j] = 0 := by
  intro g hg hn R C hsh i hi j hj
  exfalso
  apply hn
  refine hall (FermSplit.sector legsL.length g.1 g.2) ?_
  unfold sectors
  refine List.mem_filter.2 ⟨List.mem_map.2 ⟨g, by rw [h.take]; exact hg, rfl⟩, ?_⟩
  rw [hsh]
  simp
  omega

theorem tiled_ne {o R : Nat} {t : Places Q} (h : Tiled o t R) (hR : o < R) : t ≠ [] := by
  rintro rfl
  cases h
  omega

theorem Ready.halves (h : Ready legsL legsR patL patR dl dr A) {es : List (Sector Q K × Arr K × Arr K)}
    (hsp : SplitOf legsL legsR (fun l => leftLabel patL l dl) A.blocks es) (hs : ∀ e ∈ es, e.1 ∈ sectors legsL.length A.pattern dl A.blocks)
    (hpos : ∀ e ∈ es, 0 < wid e) (hne : es ≠ []) :
    Halves legsL legsR patL patR (bondOf es) dl dr ⟨patL ++ [false], leftOf es⟩ ⟨true :: patR, rightOf es⟩ := by
  have hbond : GoodBond (bondOf es) := by
    refine ⟨hsp.wfBond, ?_⟩
    intro x hx
    obtain ⟨e, he, rfl⟩ := List.mem_map.1 hx
    exact hpos e he
  have hgl : ∀ b ∈ legsL, GoodBond b := fun b hb => h.valid.good b (List.mem_append_left _ hb)
  have hgr : ∀ b ∈ legsR, GoodBond b := fun b hb => h.valid.good b (List.mem_append_right _ hb)
  obtain ⟨e, he⟩ := List.exists_mem_of_ne_nil _ hne
  obtain ⟨R, C, hok, hR, hC⟩ := h.sector (hs e he)
  have hcons := hsp.conserves (p' := patR) h.signsL (dr := dr) (by rw [← h.signs]; exact h.valid.charge)
  have hlen := h.valid.signs
  rw [h.signs, List.length_append, List.length_append, h.signsL] at hlen
  refine ⟨⟨?_, hsp.conforms_left, hsp.unique_left, by simp [h.signsL], hcons.1, ?_⟩, ⟨?_, hsp.conforms_right, hsp.unique_right, ?_, hcons.2, ?_⟩, rfl, rfl⟩
  · intro b hb
    rcases List.mem_append.1 hb with hb | hb
    · exact hgl b hb
    · rw [List.mem_singleton.1 hb]
      exact hbond
  · obtain ⟨r, hr⟩ := List.exists_mem_of_ne_nil _ (tiled_ne hok.rowsTiled hR)
    intro h0
    have : (r.1, (e.2.1.sliceAxis 0 r.2.1 (r.2.2.1 - r.2.1)).reshape (r.2.2.2 ++ [e.2.1.shape.getLastD 0])) ∈ leftOf es :=
      List.mem_flatMap.2 ⟨e, he, List.mem_map.2 ⟨r, hr, rfl⟩⟩
    simp only at h0
    rw [h0] at this
    simp at this
  · intro b hb
    rcases List.mem_cons.1 hb with rfl | hb
    · exact hbond
    · exact hgr b hb
  · simp only [List.length_cons]
    omega
  · obtain ⟨r, hr⟩ := List.exists_mem_of_ne_nil _ (tiled_ne hok.colsTiled hC)
    intro h0
    have : (r.1, (e.2.2.sliceAxis 1 r.2.1 (r.2.2.1 - r.2.1)).reshape (e.2.2.shape.headD 0 :: r.2.2.2)) ∈ rightOf es :=
      List.mem_flatMap.2 ⟨e, he, List.mem_map.2 ⟨r, hr, rfl⟩⟩
    simp only at h0
    rw [h0] at this
    simp at this

theorem combination_pos {legs : List (BondInfo Q)} (hl : ∀ b ∈ legs, GoodBond b) {qs : List Q} {sh : List Nat} (hc : IsCombination legs qs sh) :
    0 < sh.prod := by
  induction hc with
  | nil => simp
  | cons h1 _ ih =>
    rw [List.prod_cons]
    exact Nat.mul_pos ((hl _ List.mem_cons_self).2 _ (Dict.mem_of_get? h1)) (ih fun b hb => hl b (List.mem_cons_of_mem _ hb))

/-- The matrix of a sector is not empty. -/
theorem sector_pos {bs : SpT Q K} (hg : ∀ b ∈ legsL ++ legsR, GoodBond b) (hc : Conforms (legsL ++ legsR) bs) (hne : bs ≠ []) (q : Q) :
    (FermSplit.sector legsL.length q bs).data.shape.prod ≠ 0 := by
  obtain ⟨b, hb⟩ := List.exists_mem_of_ne_nil _ hne
  obtain ⟨r1, _, r3, r4⟩ := rowTab_spec (q := q) hc
  obtain ⟨c1, _, c3, c4⟩ := colTab_spec (q := q) hc
  obtain ⟨p, hp, _⟩ := r3 b hb
  obtain ⟨p', hp', _⟩ := c3 b hb
  have hp := Dict.mem_of_get? hp
  have hp' := Dict.mem_of_get? hp'
  obtain ⟨_, _, _, i1⟩ := r4 _ hp
  obtain ⟨_, _, _, i2⟩ := c4 _ hp'
  have k1 := combination_pos (fun b hb => hg b (List.mem_append_left _ hb)) i1
  have k2 := combination_pos (fun b hb => hg b (List.mem_append_right _ hb)) i2
  have j1 := r1.range.2 _ hp
  have j2 := c1.range.2 _ hp'
  rw [sector_eq]
  simp only [fill_shape, Arr.zeros, List.prod_cons, List.prod_nil, Nat.mul_one]
  simp only at k1 k2 j1 j2
  exact Nat.mul_ne_zero (by omega) (by omega)

theorem Ready.sectors_ne (h : Ready legsL legsR patL patR dl dr A) : sectors legsL.length A.pattern dl A.blocks ≠ [] := by
  obtain ⟨b, hb⟩ := List.exists_mem_of_ne_nil _ h.valid.nonempty
  have hgr := get?_groupBy_some (key := fun b : List Q × Arr K => leftLabel patL (b.1.take legsL.length) dl) ⟨b, hb, rfl⟩
  have hm := Dict.mem_of_get? hgr
  have hne := (mem_groupBy hm).2
  have hpos := sector_pos h.valid.good (fun b hb => h.valid.conforms b (by rw [(mem_groupBy hm).1] at hb; exact (List.mem_filter.1 hb).1)) hne
    (leftLabel patL (b.1.take legsL.length) dl)
  intro h0
  unfold sectors at h0
  rw [h.take, List.filter_eq_nil_iff] at h0
  exact h0 _ (List.mem_map.2 ⟨_, hm, rfl⟩) (by simpa using hpos)

/-! ### QR and LQ -/

variable {legs : List (BondInfo Q)} {dq : Q} {T : FermT Q K} {left right : List Nat}

theorem Bipartition.lengths {n : Nat} (h : Bipartition n left right) : left.length + right.length = n ∧ left.length < n ∧ right.length < n := by
  have h1 := h.all.length_eq
  rw [List.length_append, List.length_range] at h1
  have h2 := List.length_pos_iff.2 h.left
  have h3 := List.length_pos_iff.2 h.right
  omega

theorem Valid.ready (h : Valid legs dq T) (par : Q → Nat) (hp : Bipartition legs.length left right) (dl dr : Q) (hd : dl + dr = dq) :
    Ready (legsAt legs left) (legsAt legs right) (signsAt T.pattern left) (signsAt T.pattern right) dl dr (FermSplit.reorder par T left right) := by
  obtain ⟨h1, h2, _⟩ := h.reorder par hp
  exact ⟨by rw [hd]; exact h1, by rw [h2]; simp [signsAt], by simp [signsAt, legsAt]⟩

theorem transpose_shape2 {a : Arr K} {R C : Nat} (ha : a.shape = [R, C]) : (a.transpose [1, 0]).shape = [C, R] := by
  simp [Arr.transpose, ha, pick]

theorem transpose_get2 (b : Arr K) (p q : Nat) : (b.transpose [1, 0]).get [p, q] = b.get [q, p] := rfl

/-- Shapes and product of the two matrices, in both modes. -/
theorem factors_spec {qr : Arr K → Arr K × Arr K} (hqr : Factorises qr) (isQr : Bool) {a : Arr K} {R C : Nat} (ha : a.shape = [R, C]) (hR : 0 < R) (hC : 0 < C) :
    (factors qr isQr a).1.shape = [R, min R C] ∧ (factors qr isQr a).2.shape = [min R C, C] ∧
      ∀ i < R, ∀ j < C, ((List.range (min R C)).map fun t => (factors qr isQr a).1.get [i, t] * (factors qr isQr a).2.get [t, j]).sum = a.get [i, j] := by
  cases isQr with
  | true => exact ⟨hqr.left a R C ha hR hC, hqr.right a R C ha hR hC, hqr.product a R C ha hR hC⟩
  | false =>
    have ht := transpose_shape2 ha
    have h1 := hqr.left _ C R ht hC hR
    have h2 := hqr.right _ C R ht hC hR
    have h3 := hqr.product _ C R ht hC hR
    rw [Nat.min_comm] at h1 h2 h3
    simp only [factors, Bool.false_eq_true, if_false]
    refine ⟨transpose_shape2 h2, transpose_shape2 h1, ?_⟩
    intro i hi j hj
    have := h3 j hj i hi
    rw [transpose_get2] at this
    rw [← this]
    apply sum_map_congr'
    intro t _
    rw [transpose_get2, transpose_get2, mul_comm]

end

section
variable {Q K : Type} [DecidableEq Q] [AddCommGroup Q] [CommRing K] [StarRing K]
variable {legs : List (BondInfo Q)} {dq : Q} {T : FermT Q K} {left right : List Nat}

/-- C51: `tensor_qr` splits a tensor in two tensors that share a new bond.  Contracting this bond gives the tensor back, with its legs in the order `left`,
`right`.  With `mod="qr"` the first tensor is an isometry and carries the charge; with `mod="lq"` this holds for the second one. -/
theorem C51_qr (par : Q → Nat) {qr : Arr K → Arr K × Arr K} (hqr : Factorises qr) (isQr : Bool) (h : Valid legs dq T)
    (hp : Bipartition legs.length left right) :
    ∃ q r m X, sparseQr par qr isQr T left (some right) = some (q, r) ∧
      Halves (legsAt legs left) (legsAt legs right) (signsAt T.pattern left) (signsAt T.pattern right) m (if isQr then dq else 0) (if isQr then 0 else dq) q r ∧
      contract par q r = some X ∧ Reordered par legs T X left right ∧
      (OrthonormalColumns qr → (isQr = true → LeftIsometric (legsAt legs left) m q.blocks) ∧ (isQr = false → RightIsometric m (legsAt legs right) r.blocks)) := by
  obtain ⟨l1, l2, l3⟩ := hp.lengths
  have hd : (if isQr then dq else 0) + (if isQr then 0 else dq) = dq := by cases isQr <;> simp
  have hr := h.ready par hp _ _ hd
  have hre := (h.reorder par hp).2
  obtain ⟨A, hA⟩ : ∃ A, A = FermSplit.reorder par T left right := ⟨_, rfl⟩
  rw [← hA] at hr hre
  have hn : (legsAt legs left).length = left.length := by simp [legsAt]
  obtain ⟨S, hS⟩ : ∃ S, S = sectors left.length A.pattern (if isQr then dq else 0) A.blocks := ⟨_, rfl⟩
  obtain ⟨es, hes⟩ : ∃ es : List (Sector Q K × Arr K × Arr K), es = S.map fun s => (s, factors qr isQr s.data) := ⟨_, rfl⟩
  have hlab : (es.map fun e => e.1.label) = S.map fun s => s.label := by rw [hes, List.map_map]; rfl
  have hin : ∀ e ∈ es, e.1 ∈ sectors (legsAt legs left).length A.pattern (if isQr then dq else 0) A.blocks ∧ e.2 = factors qr isQr e.1.data := by
    intro e he
    rw [hes] at he
    obtain ⟨s, hs, rfl⟩ := List.mem_map.1 he
    rw [hn, ← hS]
    exact ⟨hs, rfl⟩
  have hfac : ∀ e ∈ es, ∃ R C, e.1.data.shape = [R, C] ∧ wid e = min R C ∧ 0 < R ∧ 0 < C ∧ e.2.1.shape = [R, min R C] ∧ e.2.2.shape = [min R C, C] ∧
      ∀ i < R, ∀ j < C, ((List.range (min R C)).map fun t => e.2.1.get [i, t] * e.2.2.get [t, j]).sum = e.1.data.get [i, j] := by
    intro e he
    obtain ⟨h1, h2⟩ := hin e he
    obtain ⟨R, C, hok, hR, hC⟩ := hr.sector h1
    obtain ⟨f1, f2, f3⟩ := factors_spec hqr isQr hok.data hR hC
    rw [← h2] at f1 f2 f3
    exact ⟨R, C, hok.data, by rw [wid, f1]; rfl, hR, hC, f1, f2, f3⟩
  have hsp := hr.splitOf (es := es) (by rw [hlab, hS]; exact sectors_nodup _ _ _ _) (fun e he => (hin e he).1) (by
    intro e he R C hRC
    obtain ⟨R', C', a1, a2, _, _, a3, a4, _⟩ := hfac e he
    rw [hRC] at a1
    simp only [List.cons.injEq, and_true] at a1
    obtain ⟨rfl, rfl⟩ := a1
    rw [a2]
    exact ⟨a3, a4⟩)
  have hSne : S ≠ [] := by
    rw [hS, ← hn]
    exact hr.sectors_ne
  have hhal := hr.halves hsp (fun e he => (hin e he).1) (by
    intro e he
    obtain ⟨R, C, _, a2, a3, a4, _⟩ := hfac e he
    rw [a2]
    omega) (by rw [hes]; simpa using hSne)
  obtain ⟨X, hX, hXp, hXc, hXu, hXe⟩ := contract_spec par hr.signsL hhal.left.conforms hhal.right.conforms hsp.wfBond hhal.left.nonempty (sg := false) rfl rfl
  refine ⟨_, _, bondOf es, X, ?_, hhal, hX, ⟨?_, hXc, ?_⟩, ?_⟩
  · unfold sparseQr
    simp only [h.chargeEq, Option.bind_some]
    have hrest : FermSplit.rest T.blocks.ndim left (some right) = right := rfl
    have hSne' := hSne
    rw [hS, hA, ← hrest] at hSne'
    rw [if_neg (by rw [hrest, h.ndim]; omega), if_neg hSne', hrest, ← hA, ← hS]
    have t1 := hr.take
    have t2 := hr.drop
    rw [hn] at t1 t2
    rw [t1, t2]
    congr 3
    · rw [hes]
      unfold leftOf
      rw [List.flatMap_map]
    · rw [hes]
      unfold rightOf
      rw [List.flatMap_map]
  · rw [hXp]
    simp [signsAt]
  · intro x hx
    rw [← hre.2 x hx]
    have hxl : (x.take left.length).length = (legsAt legs left).length := by rw [hn, List.length_take]; omega
    have hxr : (x.drop left.length).length = (legsAt legs right).length := by simp [legsAt, hx]; omega
    have := hXe (x.take left.length) (x.drop left.length) hxl hxr
    rw [List.take_append_drop] at this
    rw [this]
    have hw := hsp.whole (fun _ => 1) (by
      intro e he R C hRC i hi j hj
      obtain ⟨R', C', a1, a2, _, _, a3, a4, a5⟩ := hfac e he
      rw [hRC] at a1
      simp only [List.cons.injEq, and_true] at a1
      obtain ⟨rfl, rfl⟩ := a1
      rw [a2, ← a5 i hi j hj]
      simp) (hr.rest (by
        intro s hs
        rw [hlab]
        rw [hn, ← hS] at hs
        exact List.mem_map.2 ⟨s, hs, rfl⟩)) (x := x.take left.length) (y := x.drop left.length) hxl
    rw [List.take_append_drop] at hw
    rw [← hw]
    simp
  · intro ho
    have hwf : ∀ b ∈ legsAt legs left ++ legsAt legs right, Dict.WF b := fun b hb => (hr.valid.good b hb).1
    constructor
    · intro hq
      subst hq
      refine hsp.isometric_left (fun b hb => hwf b (List.mem_append_left _ hb)) ?_
      intro e he R C hRC t ht t' ht'
      obtain ⟨R', C', a1, a2, a3, a4, _⟩ := hfac e he
      rw [hRC] at a1
      simp only [List.cons.injEq, and_true] at a1
      obtain ⟨rfl, rfl⟩ := a1
      rw [a2] at ht ht'
      rw [(hin e he).2]
      exact ho e.1.data R C hRC a3 a4 t ht t' ht'
    · intro hq
      subst hq
      refine hsp.isometric_right (fun b hb => hwf b (List.mem_append_right _ hb))
        (fun l => ((if false = true then dq else 0) + (if false = true then 0 else dq)) - signedSum (signsAt T.pattern right) l - (if false = true then dq else 0)) (keyRight hr.signsL hr.valid.conforms (by rw [← hr.signs]; exact hr.valid.charge)) ?_
      intro e he R C hRC t ht t' ht'
      obtain ⟨R', C', a1, a2, a3, a4, _⟩ := hfac e he
      rw [hRC] at a1
      simp only [List.cons.injEq, and_true] at a1
      obtain ⟨rfl, rfl⟩ := a1
      rw [a2, Nat.min_comm] at ht ht'
      rw [(hin e he).2]
      exact ho (e.1.data.transpose [1, 0]) C R (transpose_shape2 hRC) a4 a3 t ht t' ht'

/-- C51: transposing back by the inverse permutation gives the tensor itself. -/
theorem C51_back (par : Q → Nat) {X : FermT Q K} (h : Valid legs dq T) (hp : Bipartition legs.length left right) (hX : Reordered par legs T X left right)
    (q : List Nat) (hq : q.Perm (List.range legs.length)) (hinv : (q.map fun i => (left ++ right).getD i 0) = List.range legs.length) :
    (X.transpose par (some q)).pattern = T.pattern ∧
      ∀ x : List (Q × Nat), x.length = legs.length → entry (X.transpose par (some q)).blocks x = entry T.blocks x := by
  have hnp := hp.all.length_eq
  rw [List.length_range] at hnp
  have hlegs : (legsAt legs left ++ legsAt legs right).length = legs.length := by
    rw [List.length_append] at hnp
    simp [legsAt]
    omega
  constructor
  · show (q.map fun i => X.pattern.getD i true) = T.pattern
    rw [hX.signs]
    have : (q.map fun i => (signsAt T.pattern (left ++ right)).getD i true) = (q.map fun i => (left ++ right).getD i 0).map fun j => T.pattern.getD j true := by
      rw [List.map_map]
      apply List.map_congr_left
      intro i hi
      have hi : i < (left ++ right).length := by
        rw [hnp]
        exact List.mem_range.1 (hq.mem_iff.1 hi)
      simp [signsAt, List.getD_eq_getElem?_getD, List.getElem?_eq_getElem hi, -List.map_append, -List.getElem?_append]
    rw [this, hinv, ← h.signs]
    exact map_getD_range _ _
  · intro x hx
    have e0 := C25_inverse par legs T h.conforms (left ++ right) q hp.all hq hinv x hx
    rw [← e0]
    have hc : Conforms (legsAt legs left ++ legsAt legs right) (T.transpose par (some (left ++ right))).blocks := by
      have := C25_conforms par legs T h.conforms (left ++ right) hp.all
      rw [List.map_append] at this
      exact this
    have hq' : q.Perm (List.range (legsAt legs left ++ legsAt legs right).length) := by rw [hlegs]; exact hq
    have hxy : x = pick q (unpick q x) := (pick_unpick hq x hx).symm
    have hyl : (unpick q x).length = (legsAt legs left ++ legsAt legs right).length := by
      rw [hlegs, unpick_length, hq.length_eq, List.length_range]
    have e1 := C25_entry par _ X hX.conforms q hq' (unpick q x) hyl
    have e2 := C25_entry par _ (T.transpose par (some (left ++ right))) hc q hq' (unpick q x) hyl
    change entry _ (pick _ _) = _ at e1 e2
    rw [← hxy] at e1 e2
    rw [e1, e2, hX.entries _ (hyl.trans hlegs)]

/-- C51: without `right_idx` the right side is what is not on the left. -/
theorem C51_default (par : Q → Nat) (qr : Arr K → Arr K × Arr K) (isQr : Bool) (h : Valid legs dq T) :
    sparseQr par qr isQr T left none = sparseQr par qr isQr T left (some (freeAxes legs.length left)) := by
  unfold sparseQr
  rw [h.ndim]
  rfl

theorem bipartition_default {n : Nat} (hl : left ≠ []) (hn : left.Nodup) (hlt : ∀ i ∈ left, i < n) (hlen : left.length < n) :
    Bipartition n left (freeAxes n left) := by
  have hperm : (left ++ freeAxes n left).Perm (List.range n) := by
    rw [List.perm_ext_iff_of_nodup]
    · intro a
      unfold freeAxes
      simp only [List.mem_append, List.mem_filter, List.mem_range, decide_eq_true_eq]
      constructor
      · rintro (h | h)
        · exact hlt a h
        · exact h.1
      · intro h
        by_cases ha : a ∈ left
        · exact Or.inl ha
        · exact Or.inr ⟨h, ha⟩
    · rw [List.nodup_append]
      refine ⟨hn, List.nodup_range.filter _, ?_⟩
      intro a ha b hb hab
      subst hab
      unfold freeAxes at hb
      simp only [List.mem_filter, decide_eq_true_eq] at hb
      exact hb.2 ha
    · exact List.nodup_range
  refine ⟨hperm, hl, ?_⟩
  intro h0
  have := hperm.length_eq
  rw [h0, List.append_nil, List.length_range] at this
  omega

theorem entry_charged {legs : List (BondInfo Q)} {T : SpT Q K} (h : Conforms legs T) (dq : Q) {x : List (Q × Nat)} (hx : x.length = legs.length) :
    entry (T.map fun b => (dq :: b.1, b.2.reshape (1 :: b.2.shape))) ((dq, 0) :: x) = entry T x ∧
    entry (T.map fun b => (b.1 ++ [dq], b.2.reshape (b.2.shape ++ [1]))) (x ++ [(dq, 0)]) = entry T x := by
  unfold entry
  rw [List.map_map, List.map_map]
  constructor
  · apply sum_map_congr'
    intro b hb
    have hl := (h b hb).lengths
    simp only [Function.comp, blockEntry, List.map_cons, List.cons.injEq, true_and, Arr.reshape, inBox, Bool.and_eq_true]
    by_cases hc : b.1 = x.map Prod.fst ∧ inBox b.2.shape (x.map Prod.snd) = true
    · rw [if_pos (by simpa using hc), if_pos hc]
      have : ravel (1 :: b.2.shape) (0 :: x.map Prod.snd) = ravel b.2.shape (x.map Prod.snd) := by simp [ravel]
      rw [this, unravel_ravel hc.2]
    · rw [if_neg (by simpa using hc), if_neg hc]
  · apply sum_map_congr'
    intro b hb
    have hl := (h b hb).lengths
    have hlen : b.1.length = (x.map Prod.fst).length := by simp [hl.1, hx]
    have hlen2 : b.2.shape.length = (x.map Prod.snd).length := by simp [hl.2, hx]
    simp only [Function.comp, blockEntry, List.map_append, List.map_cons, List.map_nil, Arr.reshape]
    have e1 : b.1 ++ [dq] = x.map Prod.fst ++ [dq] ↔ b.1 = x.map Prod.fst := by simp
    have e2 : inBox (b.2.shape ++ [1]) (x.map Prod.snd ++ [0]) = inBox b.2.shape (x.map Prod.snd) := by
      rw [inBox_append hlen2.symm]
      simp [inBox]
    have e3 : ravel (b.2.shape ++ [1]) (x.map Prod.snd ++ [0]) = ravel b.2.shape (x.map Prod.snd) := by
      rw [ravel_append hlen2.symm]
      simp [ravel]
    rw [e2, e3]
    by_cases hc : b.1 = x.map Prod.fst ∧ inBox b.2.shape (x.map Prod.snd) = true
    · rw [if_pos ⟨e1.2 hc.1, hc.2⟩, if_pos hc, unravel_ravel hc.2]
    · rw [if_neg (fun hh => hc ⟨e1.1 hh.1, hh.2⟩), if_neg hc]

/-- C51: with all legs on one side `tensor_qr` splits off a leg of dimension 1 that carries the charge.  Contracting this leg gives the tensor itself: its legs are in
their old order, whatever `left_idx` and `right_idx` say. -/
theorem C51_null (par : Q → Nat) (qr : Arr K → Arr K × Arr K) (isQr : Bool) (h : Valid legs dq T) (hside : left.length = legs.length ∨ right.length = legs.length) :
    ∃ q r X, sparseQr par qr isQr T left (some right) = some (q, r) ∧ contract par q r = some X ∧ X.pattern = T.pattern ∧
      ∀ x : List (Q × Nat), x.length = legs.length → entry X.blocks x = entry T.blocks x := by
  have hone : Conforms [[(dq, 1)]] ([([dq], ⟨[1], fun _ => 1⟩)] : SpT Q K) := by
    intro b hb
    rw [List.mem_singleton.1 hb]
    exact .cons (by simp [Dict.get?]) .nil
  have hbas : legBasis [(dq, 1)] = [(dq, 0)] := by simp [legBasis]
  have hent : entry ([([dq], ⟨[1], fun _ => 1⟩)] : SpT Q K) [(dq, 0)] = 1 := by simp [entry, blockEntry, inBox]
  have hcode : sparseQr par qr isQr T left (some right) = some (nullFactors isQr dq T) := by
    unfold sparseQr
    simp only [h.chargeEq, Option.bind_some]
    rw [if_pos (by rw [h.ndim]; exact hside)]
  cases isQr with
  | true =>
    have hc : Conforms ([(dq, 1)] :: legs) (T.blocks.map fun b => (dq :: b.1, b.2.reshape (1 :: b.2.shape))) := by
      intro b' hb'
      obtain ⟨b, hb, rfl⟩ := List.mem_map.1 hb'
      exact .cons (by simp [Dict.get?]) (h.conforms b hb)
    obtain ⟨X, h1, h2, _, _, h4⟩ := contract_spec par (legsL := []) (patL := []) (u := ⟨[true], [([dq], ⟨[1], fun _ => 1⟩)]⟩)
      (v := ⟨false :: T.pattern, T.blocks.map fun b => (dq :: b.1, b.2.reshape (1 :: b.2.shape))⟩) rfl hone hc (by simp [Dict.WF]) (by simp) (sg := true) rfl rfl
    refine ⟨_, _, X, hcode, h1, h2, ?_⟩
    intro x hx
    have := h4 [] x rfl hx
    rw [hbas] at this
    simp only [List.nil_append, List.map_cons, List.map_nil, List.sum_cons, List.sum_nil, add_zero, hent, one_mul] at this
    rw [this, (entry_charged h.conforms dq hx).1]
  | false =>
    have hc : Conforms (legs ++ [[(dq, 1)]]) (T.blocks.map fun b => (b.1 ++ [dq], b.2.reshape (b.2.shape ++ [1]))) := by
      intro b' hb'
      obtain ⟨b, hb, rfl⟩ := List.mem_map.1 hb'
      exact (h.conforms b hb).append (.cons (by simp [Dict.get?]) .nil)
    obtain ⟨X, h1, h2, _, _, h4⟩ := contract_spec par (legsL := legs) (legsR := []) (patL := T.pattern) (patR := [])
      (u := ⟨T.pattern ++ [false], T.blocks.map fun b => (b.1 ++ [dq], b.2.reshape (b.2.shape ++ [1]))⟩)
      (v := ⟨[true], [([dq], ⟨[1], fun _ => 1⟩)]⟩) h.signs hc hone (by simp [Dict.WF]) (by simpa using h.nonempty) (sg := false) rfl rfl
    refine ⟨_, _, X, hcode, h1, by rw [h2, List.append_nil], ?_⟩
    intro x hx
    have := h4 x [] hx rfl
    rw [hbas, List.append_nil] at this
    simp only [List.map_cons, List.map_nil, List.sum_cons, List.sum_nil, add_zero, hent, mul_one] at this
    rw [this, (entry_charged h.conforms dq hx).2]

end

end FermSplit
end Verif
