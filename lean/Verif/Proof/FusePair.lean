import Verif.Thm.Fuse
import Verif.Proof.Mps
import Verif.Proof.Chain
import Verif.Proof.Contract

/-! Fusing two neighbouring legs with the table of their tensor product. -/

set_option linter.unusedSectionVars false

namespace Verif
section
variable {Q K : Type} [DecidableEq Q] [AddCommGroup Q]

/-- The table of two bonds. -/
structure PairTable (fi : BondFusingInfo Q) (A B : BondInfo Q) : Prop where
  good : GoodTable fi
  ga : GoodBond A
  gb : GoodBond B
  entries : ∀ q qs sh, fi.shapeOf q qs = some sh ↔ IsCombination [A, B] qs sh ∧ signedSum [true, true] qs = q
  pattern : fi.pattern = [true, true]
  pos : ∀ x ∈ fi.quanta, 0 < x.2

theorem mem_set' {d : BondInfo Q} {k : Q} {v : Nat} {x : Q × Nat} (h : x ∈ Dict.set d k v) : x ∈ d ∨ x = (k, v) := by
  induction d with
  | nil => exact Or.inr (by simpa [Dict.set] using h)
  | cons a d ih =>
    rw [Dict.set] at h
    split at h
    · rename_i hk
      rcases List.mem_cons.1 h with rfl | h
      · exact Or.inr (by rw [hk])
      · exact Or.inl (List.mem_cons_of_mem _ h)
    · rcases List.mem_cons.1 h with rfl | h
      · exact Or.inl (List.mem_cons_self ..)
      · rcases ih h with h | h
        · exact Or.inl (List.mem_cons_of_mem _ h)
        · exact Or.inr h

theorem addWindow_pos (ref : Option (BondInfo Q)) (pattern : List Bool) (items : List (List Q × List Nat))
    (st : BondInfo Q × Dict Q (FuseTable Q)) (h : ∀ x ∈ st.1, 0 < x.2) (hi : ∀ it ∈ items, 0 < it.2.prod) :
    ∀ x ∈ (items.foldl (BondFusingInfo.addWindow ref pattern) st).1, 0 < x.2 := by
  induction items generalizing st with
  | nil => exact h
  | cons it t ih =>
    refine ih _ ?_ fun i hi' => hi i (List.mem_cons_of_mem _ hi')
    unfold BondFusingInfo.addWindow
    simp only
    split_ifs
    · intro x hx
      unfold Counter.incr at hx
      rcases mem_set' hx with hx | rfl
      · exact h x hx
      · have := hi it (List.mem_cons_self ..)
        simp only
        omega
    · exact h

theorem tensorProduct_pos (le : Q → Q → Bool) {A B : BondInfo Q} {fi : BondFusingInfo Q} (hA : ∀ x ∈ A, 0 < x.2) (hB : ∀ x ∈ B, 0 < x.2)
    (h : BondFusingInfo.tensorProduct le [A, B] none none = some fi) : ∀ x ∈ fi.quanta, 0 < x.2 := by
  unfold BondFusingInfo.tensorProduct at h
  split_ifs at h
  simp only [Option.some.injEq] at h
  subst h
  refine addWindow_pos _ _ _ _ (by simp) ?_
  intro it hit
  obtain ⟨x, hx, rfl⟩ := List.mem_map.1 hit
  rw [mem_cart] at hx
  simp only [List.map_cons, List.map_nil] at hx
  cases hx with
  | cons h1 hx =>
    cases hx with
    | cons h2 hx =>
      cases hx
      rw [mem_sortBy] at h1 h2
      simpa using ⟨hA _ h1, hB _ h2⟩

theorem pairTable (le : Q → Q → Bool) {A B : BondInfo Q} (hA : GoodBond A) (hB : GoodBond B) (neA : A ≠ []) (neB : B ≠ []) :
    ∃ fi, BondFusingInfo.tensorProduct le [A, B] none none = some fi ∧ PairTable fi A B := by
  have ht := C08_total le [A, B] none none (by simp [neA, neB])
  obtain ⟨fi, hfi⟩ := Option.isSome_iff_exists.1 ht
  have hw : ∀ b ∈ [A, B], Dict.WF b := by simp [hA.1, hB.1]
  refine ⟨fi, hfi, ?_⟩
  refine { pos := tensorProduct_pos le hA.2 hB.2 hfi, good := ?_, ga := hA, gb := hB, entries := ?_, pattern := ?_ }
  · refine C15_good_tensorProduct le _ none none fi hw (by
    intro b hb e he
    simp only [List.mem_cons, List.not_mem_nil, or_false] at hb
    rcases hb with rfl | rfl
    · exact hA.2 e he
    · exact hB.2 e he) hfi
  · intro q qs sh
    rw [C08_entries le _ none none fi hw hfi]
    simp [List.replicate]
  · exact (tensorProduct_inv le _ none none fi hw hfi).1

theorem comb_pair {A B : BondInfo Q} {qs : List Q} {sh : List Nat} :
    IsCombination [A, B] qs sh ↔ ∃ q1 q2 n1 n2, qs = [q1, q2] ∧ sh = [n1, n2] ∧ Dict.get? A q1 = some n1 ∧ Dict.get? B q2 = some n2 := by
  constructor
  · intro h
    cases h with
    | cons h1 h =>
      cases h with
      | cons h2 h =>
        cases h
        exact ⟨_, _, _, _, rfl, rfl, h1, h2⟩
  · rintro ⟨q1, q2, n1, n2, rfl, rfl, h1, h2⟩
    exact .cons h1 (.cons h2 .nil)

theorem signedSum_pair (a b : Q) : signedSum [true, true] [a, b] = a + b := by
  simp [signedSum]

/-- First position of the window of the labels `q1`, `q2`. -/
def pairStart (fi : BondFusingInfo Q) (q1 q2 : Q) : Nat := ((fi.window (q1 + q2) [q1, q2]).getD (0, 0)).1

/-- The fused basis vector of two basis vectors. -/
def pairIndex (fi : BondFusingInfo Q) (B : BondInfo Q) (z : (Q × Nat) × (Q × Nat)) : Q × Nat :=
  (z.1.1 + z.2.1, pairStart fi z.1.1 z.2.1 + (z.1.2 * Counter.count B z.2.1 + z.2.2))

variable {fi : BondFusingInfo Q} {A B : BondInfo Q}

theorem PairTable.shape (h : PairTable fi A B) {q1 q2 : Q} (h1 : 0 < Counter.count A q1) (h2 : 0 < Counter.count B q2) :
    fi.shapeOf (q1 + q2) [q1, q2] = some [Counter.count A q1, Counter.count B q2] :=
  (h.entries _ _ _).2 ⟨comb_pair.2 ⟨_, _, _, _, rfl, rfl, get_of_count h1, get_of_count h2⟩, signedSum_pair _ _⟩

theorem window_of_shape {q : Q} {qs : List Q} {sh : List Nat} (h : fi.shapeOf q qs = some sh) : ∃ k, fi.window q qs = some (k, sh.prod) := by
  unfold BondFusingInfo.shapeOf at h
  unfold BondFusingInfo.window
  cases he : (Dict.get? fi.finfo q).bind fun t => Dict.get? t qs with
  | none => rw [he] at h; simp at h
  | some e =>
    rw [he] at h
    simp at h
    exact ⟨e.1, by simp [h]⟩

theorem shape_of_window {q : Q} {qs : List Q} {k l : Nat} (h : fi.window q qs = some (k, l)) : ∃ sh, fi.shapeOf q qs = some sh ∧ l = sh.prod := by
  unfold BondFusingInfo.window at h
  unfold BondFusingInfo.shapeOf
  cases he : (Dict.get? fi.finfo q).bind fun t => Dict.get? t qs with
  | none => rw [he] at h; simp at h
  | some e =>
    rw [he] at h
    simp at h
    exact ⟨e.2, by simp, h.2.symm⟩

theorem PairTable.window (h : PairTable fi A B) {q1 q2 : Q} (h1 : 0 < Counter.count A q1) (h2 : 0 < Counter.count B q2) :
    fi.window (q1 + q2) [q1, q2] = some (pairStart fi q1 q2, Counter.count A q1 * Counter.count B q2) := by
  obtain ⟨k, hk⟩ := window_of_shape (h.shape h1 h2)
  unfold pairStart
  rw [hk]
  simp

theorem mem_pairs_basis (h : PairTable fi A B) {z : (Q × Nat) × (Q × Nat)} :
    z ∈ pairs (legBasis A) (legBasis B) ↔ z.1.2 < Counter.count A z.1.1 ∧ z.2.2 < Counter.count B z.2.1 := by
  rw [mem_pairs, mem_legBasis h.ga.1, mem_legBasis h.gb.1]

theorem offset_lt {i j n m : Nat} (hi : i < n) (hj : j < m) : i * m + j < n * m := by
  calc i * m + j < i * m + m := by omega
    _ = (i + 1) * m := by rw [Nat.add_mul, Nat.one_mul]
    _ ≤ n * m := Nat.mul_le_mul_right _ hi

theorem offset_inj {i j i' j' m : Nat} (hj : j < m) (hj' : j' < m) (h : i * m + j = i' * m + j') : i = i' ∧ j = j' := by
  have h1 : (i * m + j) / m = i := by rw [Nat.add_comm, Nat.add_mul_div_right _ _ (by omega), Nat.div_eq_of_lt hj, Nat.zero_add]
  have h2 : (i' * m + j') / m = i' := by rw [Nat.add_comm, Nat.add_mul_div_right _ _ (by omega), Nat.div_eq_of_lt hj', Nat.zero_add]
  have h3 : i = i' := by rw [← h1, ← h2, h]
  subst h3
  exact ⟨rfl, by omega⟩

/-- The position of a fused basis vector lies in the window of its labels. -/
theorem PairTable.inWindow (h : PairTable fi A B) {z : (Q × Nat) × (Q × Nat)} (hz : z ∈ pairs (legBasis A) (legBasis B)) :
    ∃ k l, fi.window (pairIndex fi B z).1 [z.1.1, z.2.1] = some (k, l) ∧ k ≤ (pairIndex fi B z).2 ∧ (pairIndex fi B z).2 < k + l := by
  obtain ⟨h1, h2⟩ := (mem_pairs_basis h).1 hz
  refine ⟨_, _, h.window (by omega) (by omega), ?_, ?_⟩
  · unfold pairIndex; simp
  · have := offset_lt h1 h2
    unfold pairIndex; simp only; omega

theorem PairTable.mem (h : PairTable fi A B) {z : (Q × Nat) × (Q × Nat)} (hz : z ∈ pairs (legBasis A) (legBasis B)) :
    pairIndex fi B z ∈ legBasis fi.quanta := by
  rw [mem_legBasis h.good.wf.1]
  obtain ⟨k, l, hw, -, h2⟩ := h.inWindow hz
  have := (h.good.tiles _).1 _ _ _ hw
  omega

theorem PairTable.inj (h : PairTable fi A B) {z z' : (Q × Nat) × (Q × Nat)} (hz : z ∈ pairs (legBasis A) (legBasis B))
    (hz' : z' ∈ pairs (legBasis A) (legBasis B)) (he : pairIndex fi B z = pairIndex fi B z') : z = z' := by
  obtain ⟨k, l, hw⟩ := h.inWindow hz
  obtain ⟨k', l', hw'⟩ := h.inWindow hz'
  rw [← he] at hw'
  have hlt := (mem_legBasis h.good.wf.1).1 (h.mem hz)
  have hu := ((h.good.tiles _).2 _ hlt).unique ⟨k, l, hw⟩ ⟨k', l', hw'⟩
  have e1 : z.1.1 = z'.1.1 := by simpa using (List.cons.inj hu).1
  have e2 : z.2.1 = z'.2.1 := by simpa using (List.cons.inj (List.cons.inj hu).2).1
  obtain ⟨a1, a2⟩ := (mem_pairs_basis h).1 hz
  obtain ⟨b1, b2⟩ := (mem_pairs_basis h).1 hz'
  have he2 := (Prod.mk.inj he).2
  rw [← e1, ← e2] at he2
  have he3 : z.1.2 * Counter.count B z.2.1 + z.2.2 = z'.1.2 * Counter.count B z.2.1 + z'.2.2 := by omega
  rw [← e2] at b2
  obtain ⟨f1, f2⟩ := offset_inj a2 b2 he3
  exact Prod.ext (Prod.ext e1 f1) (Prod.ext e2 f2)

theorem PairTable.surj (h : PairTable fi A B) {y : Q × Nat} (hy : y ∈ legBasis fi.quanta) :
    ∃ z ∈ pairs (legBasis A) (legBasis B), pairIndex fi B z = y := by
  rw [mem_legBasis h.good.wf.1] at hy
  obtain ⟨qs, ⟨k, l, hw, hk, hl⟩, -⟩ := (h.good.tiles _).2 _ hy
  obtain ⟨sh, hs, rfl⟩ := shape_of_window hw
  obtain ⟨hc, hq⟩ := (h.entries _ _ _).1 hs
  obtain ⟨q1, q2, n1, n2, rfl, rfl, g1, g2⟩ := comb_pair.1 hc
  rw [signedSum_pair] at hq
  have hl' : y.2 < k + n1 * n2 := by simpa using hl
  have hpos : 0 < n1 * n2 := by omega
  have hn2 : 0 < n2 := Nat.pos_of_mul_pos_left hpos
  have c1 := count_of_get g1
  have c2 := count_of_get g2
  refine ⟨((q1, (y.2 - k) / n2), (q2, (y.2 - k) % n2)), (mem_pairs_basis h).2 ⟨?_, ?_⟩, ?_⟩
  · show (y.2 - k) / n2 < Counter.count A q1
    rw [c1]
    exact Nat.div_lt_of_lt_mul (by rw [Nat.mul_comm]; omega)
  · show (y.2 - k) % n2 < Counter.count B q2
    rw [c2]
    exact Nat.mod_lt _ hn2
  · have hst : pairStart fi q1 q2 = k := by
      unfold pairStart
      rw [hq, hw]; rfl
    refine Prod.ext hq ?_
    show pairStart fi q1 q2 + ((y.2 - k) / n2 * Counter.count B q2 + (y.2 - k) % n2) = y.2
    rw [hst, c2]
    have := Nat.div_add_mod (y.2 - k) n2
    rw [Nat.mul_comm] at this
    omega

theorem nodup_pairs {I J : Type} {l : List I} {m : List J} (hl : l.Nodup) (hm : m.Nodup) : (pairs l m).Nodup := by
  have : pairs l m = l.product m := rfl
  rw [this]
  exact hl.product hm

/-- The basis of the fused bond is the set of pairs of basis vectors. -/
theorem PairTable.perm (h : PairTable fi A B) : ((pairs (legBasis A) (legBasis B)).map (pairIndex fi B)).Perm (legBasis fi.quanta) := by
  rw [List.perm_ext_iff_of_nodup]
  · intro y
    rw [List.mem_map]
    exact ⟨fun ⟨z, hz, e⟩ => e ▸ h.mem hz, fun hy => h.surj hy⟩
  · rw [List.nodup_map_iff_inj_on (nodup_pairs (legBasis_nodup h.ga.1) (legBasis_nodup h.gb.1))]
    exact fun z hz z' hz' => h.inj hz hz'
  · exact legBasis_nodup h.good.wf.1

theorem PairTable.sum [CommRing K] (h : PairTable fi A B) (F : Q × Nat → K) :
    ((legBasis fi.quanta).map F).sum = ((pairs (legBasis A) (legBasis B)).map fun z => F (pairIndex fi B z)).sum := by
  have := ((h.perm).map F).sum_eq
  rw [← this, List.map_map]
  rfl

theorem getD_mid0 {α : Type} (pre post : List α) (a b d : α) : (pre ++ [a, b] ++ post).getD pre.length d = a := by simp

theorem getD_mid1 {α : Type} (pre post : List α) (a b d : α) : (pre ++ [a, b] ++ post).getD (pre.length + 1) d = b := by
  rw [List.getD_eq_getElem?_getD, List.append_assoc, List.getElem?_append_right (by omega)]
  simp

theorem fusedIndex_pair {α : Type} [Zero α] (pre post : List α) (a b v : α) :
    fusedIndex [pre.length, pre.length + 1] pre.length (pre ++ [a, b] ++ post) v = pre ++ v :: post := by
  unfold fusedIndex
  have h1 : (pre ++ [a, b] ++ post).take pre.length = pre := by
    rw [List.append_assoc, List.take_left' rfl]
  have h2 : (List.range (pre ++ [a, b] ++ post).length).filter (fun i => decide (pre.length < i ∧ i ∉ [pre.length, pre.length + 1])) =
      List.range' (pre.length + 2) post.length := by
    have hl : (pre ++ [a, b] ++ post).length = (pre.length + 2) + post.length := by simp; omega
    have : List.range ((pre.length + 2) + post.length) = List.range (pre.length + 2) ++ List.range' (pre.length + 2) post.length := by
      rw [List.range_eq_range', List.range_eq_range', range'_zero_append]
    rw [hl, this, List.filter_append]
    have g1 : (List.range (pre.length + 2)).filter (fun i => decide (pre.length < i ∧ i ∉ [pre.length, pre.length + 1])) = [] := by
      rw [List.filter_eq_nil_iff]
      intro i hi
      simp at hi ⊢
      omega
    have g2 : (List.range' (pre.length + 2) post.length).filter (fun i => decide (pre.length < i ∧ i ∉ [pre.length, pre.length + 1])) =
        List.range' (pre.length + 2) post.length := by
      rw [List.filter_eq_self]
      intro i hi
      simp at hi ⊢
      omega
    rw [g1, g2, List.nil_append]
  rw [h1, h2]
  congr 2
  have := pick_second (pre ++ [a, b]) post
  rw [List.length_append] at this
  exact this

theorem GoodBond.count_pos {b : BondInfo Q} (h : GoodBond b) {q : Q} {n : Nat} (hg : Dict.get? b q = some n) : 0 < n :=
  h.2 _ (Dict.mem_of_get? hg)

theorem set_ne_nil {α β : Type} [DecidableEq α] (d : Dict α β) (k : α) (v : β) : Dict.set d k v ≠ [] := by
  cases d with
  | nil => simp [Dict.set]
  | cons a d => rw [Dict.set]; split <;> simp

theorem collect_ne_nil (ps : List (SpT.FusePiece Q K)) (h : ps ≠ []) : SpT.collectPieces ps ≠ [] := by
  have key : ∀ (l : List (SpT.FusePiece Q K)) (m : Dict (List Q) (List Nat × List (Nat × Nat × Arr K))), m ≠ [] →
      l.foldl (fun m p => match Dict.get? m p.key with
        | none => Dict.set m p.key (p.full, [(p.k, p.nk, p.arr)])
        | some (full, l) => Dict.set m p.key (full, l ++ [(p.k, p.nk, p.arr)])) m ≠ [] := by
    intro l
    induction l with
    | nil => exact fun m h => h
    | cons a l ih =>
      intro m _
      rw [List.foldl_cons]
      refine ih _ ?_
      split
      · exact set_ne_nil _ _ _
      · exact set_ne_nil _ _ _
  rcases ps with _ | ⟨a, ps⟩
  · exact absurd rfl h
  · unfold SpT.collectPieces
    rw [List.foldl_cons]
    refine key _ _ ?_
    split
    · exact set_ne_nil _ _ _
    · exact set_ne_nil _ _ _

theorem fuse_ne_nil [Zero K] {T R : SpT Q K} {idxs : List Nat} {fi : BondFusingInfo Q} (h : SpT.fuse T idxs fi none = some R) (hne : T ≠ [])
    (hq : ∀ b ∈ T, (Dict.get? fi.quanta (signedSum fi.pattern (pick idxs b.1))).isSome) : R ≠ [] := by
  unfold SpT.fuse at h
  cases hm : idxs.min? with
  | none => rw [hm] at h; simp at h; exact h ▸ hne
  | some m =>
    rw [hm] at h
    simp only at h
    rcases T with _ | ⟨b, T⟩
    · exact absurd rfl hne
    cases hps : (b :: T).mapM (SpT.fusePiece fi ((none : Option (List Bool)).getD fi.pattern) idxs (idxs.filter (· != m)) m) with
    | none => rw [hps] at h; simp at h
    | some ps =>
      rw [hps] at h
      simp only [Option.some.injEq] at h
      rw [← h]
      simp only [ne_eq, List.map_eq_nil_iff]
      refine collect_ne_nil _ ?_
      rw [List.mapM_cons] at hps
      cases hb : SpT.fusePiece fi ((none : Option (List Bool)).getD fi.pattern) idxs (idxs.filter (· != m)) m b with
      | none => rw [hb] at hps; simp at hps
      | some o =>
        have ho : o ≠ none := by
          rintro rfl
          unfold SpT.fusePiece at hb
          simp only [BondFusingInfo.combine_eq, Option.getD_none] at hb
          obtain ⟨x, hx⟩ := Option.isSome_iff_exists.1 (hq b (List.mem_cons_self ..))
          rw [hx] at hb
          simp only at hb
          split at hb <;> simp at hb
        obtain ⟨p, rfl⟩ := Option.ne_none_iff_exists'.1 ho
        rw [hb] at hps
        cases ht : List.mapM (SpT.fusePiece fi ((none : Option (List Bool)).getD fi.pattern) idxs (idxs.filter (· != m)) m) T with
        | none => rw [ht] at hps; simp at hps
        | some ps' =>
          rw [ht] at hps
          have : some p :: ps' = ps := by simpa using hps
          rw [← this]
          simp

/-- Fusing two neighbouring legs. -/
theorem fuse_pair [CommRing K] (h : PairTable fi A B) (pre post : List (BondInfo Q)) (T : SpT Q K) (hT : Conforms (pre ++ [A, B] ++ post) T)
    (hu : UniqueLabels T) :
    ∃ R, SpT.fuse T [pre.length, pre.length + 1] fi none = some R ∧ UniqueLabels R ∧ Conforms (pre ++ fi.quanta :: post) R ∧ (T ≠ [] → R ≠ []) ∧
      ∀ p z s, p.length = pre.length → s.length = post.length → z ∈ pairs (legBasis A) (legBasis B) →
        entry R (p ++ pairIndex fi B z :: s) = entry T (p ++ [z.1, z.2] ++ s) := by
  have hlen : (pre ++ [A, B] ++ post).length = pre.length + 2 + post.length := by simp; omega
  have hcov : Covers fi [pre.length, pre.length + 1] T := by
    intro b hb _
    have hg0 := (isCombination_iff_getD.1 (hT b hb)).2.2 pre.length (by omega)
    have hg1 := (isCombination_iff_getD.1 (hT b hb)).2.2 (pre.length + 1) (by omega)
    rw [getD_mid0] at hg0
    rw [getD_mid1] at hg1
    simp only [List.map_cons, List.map_nil, h.pattern]
    exact (h.entries _ _ _).2 ⟨comb_pair.2 ⟨_, _, _, _, rfl, rfl, hg0, hg1⟩, rfl⟩
  obtain ⟨R, h1, h2, h3, h4, -⟩ := C15_fuse (pre ++ [A, B] ++ post) T fi [pre.length, pre.length + 1] pre.length h.good hT hu (by simp)
    (by simp) (by simp) (by simp) hcov
  rw [fusedIndex_pair] at h3
  refine ⟨R, h1, h2, h3, fun hne => fuse_ne_nil h1 hne fun b hb => ?_, fun p z s hp hs hz => ?_⟩
  · have hg0 := (isCombination_iff_getD.1 (hT b hb)).2.2 pre.length (by omega)
    have hg1 := (isCombination_iff_getD.1 (hT b hb)).2.2 (pre.length + 1) (by omega)
    rw [getD_mid0] at hg0
    rw [getD_mid1] at hg1
    have hs := (h.entries (signedSum [true, true] (pick [pre.length, pre.length + 1] b.1)) (pick [pre.length, pre.length + 1] b.1) _).2
      ⟨comb_pair.2 ⟨_, _, _, _, rfl, rfl, hg0, hg1⟩, rfl⟩
    rw [h.pattern]
    unfold BondFusingInfo.shapeOf at hs
    cases hf : Dict.get? fi.finfo (signedSum [true, true] (pick [pre.length, pre.length + 1] b.1)) with
    | none => rw [hf] at hs; simp at hs
    | some t =>
      obtain ⟨v, hv⟩ := Dict.mem_keys_iff.1 (h.good.listed _ _ hf)
      rw [hv]; rfl
  obtain ⟨z1, z2⟩ := (mem_pairs_basis h).1 hz
  have hx : (p ++ [z.1, z.2] ++ s).length = (pre ++ [A, B] ++ post).length := by simp [hp, hs]
  have g0 : (p ++ [z.1, z.2] ++ s).getD pre.length 0 = z.1 := by rw [← hp]; exact getD_mid0 ..
  have g1 : (p ++ [z.1, z.2] ++ s).getD (pre.length + 1) 0 = z.2 := by rw [← hp]; exact getD_mid1 ..
  have key := h4 (p ++ [z.1, z.2] ++ s) (z.1.1 + z.2.1) (pairStart fi z.1.1 z.2.1) [Counter.count A z.1.1, Counter.count B z.2.1] hx
  simp only [List.map_cons, List.map_nil, g0, g1] at key
  have key := key (by rw [h.window (by omega) (by omega)]; simp) (h.shape (by omega) (by omega)) (by simp [inBox, z1, z2])
  rw [← key]
  have hf := fusedIndex_pair p s z.1 z.2 (pairIndex fi B z)
  rw [hp] at hf
  rw [← hf]
  unfold pairIndex
  simp [ravel]

end
end Verif
