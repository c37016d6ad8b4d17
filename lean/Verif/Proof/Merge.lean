import Verif.Proof.Ladder

/-! Merging the pairs of bonds of a chain: the bonds read off the tensors, the tables and the fused chain. -/

set_option linter.unusedSectionVars false

namespace Verif
section
variable {Q K : Type} [DecidableEq Q] [AddCommGroup Q] [CommRing K]

/-- The pairs of bonds between neighbouring tensors, from the bonds found on each. -/
def innerPairs : List (List (BondInfo Q)) → List (BondInfo Q × BondInfo Q)
  | x :: y :: rest => (BondInfo.union (y.getD 0 []) (x.getD (x.length - 2) []), BondInfo.union (y.getD 1 []) (x.getD (x.length - 1) [])) ::
      innerPairs (y :: rest)
  | _ => []

theorem prodInner_eq (le : Q → Q → Bool) (is : List (List (BondInfo Q))) :
    prodInner le is = (innerPairs is).map fun b => BondFusingInfo.tensorProduct le [b.1, b.2] none none := by
  induction is with
  | nil => rfl
  | cons x is ih =>
    rcases is with _ | ⟨y, rest⟩
    · rfl
    · rw [prodInner, ih]; rfl

/-- Positive good bonds of a site. -/
theorem InfoSpec.nonempty {legs : List (BondInfo Q)} {T : SpT Q K} {I : List (BondInfo Q)} (h : InfoSpec legs T I) (hT : Conforms legs T) (hne : T ≠ [])
    {k : Nat} (hk : k < legs.length) : I.getD k [] ≠ [] := by
  rcases T with _ | ⟨b, T⟩
  · exact absurd rfl hne
  have := (h.get k hk _ _).2 ⟨(hT b (by simp)).getD hk, ⟨b, by simp, rfl⟩⟩
  intro h0
  rw [h0] at this
  simp at this

theorem union_nonempty' {a b : BondInfo Q} (ga : GoodBond a) (gb : GoodBond b) (h : b ≠ []) : BondInfo.union a b ≠ [] := by
  rcases b with _ | ⟨x, b⟩
  · exact absurd rfl h
  intro h0
  have hc := C06_union a (x :: b) ga.1 gb.1 x.1
  have h1 : Counter.count (x :: b) x.1 = x.2 := count_of_get (Dict.get?_of_mem gb.1 (by simp))
  have h2 := gb.2 x (by simp)
  rw [h0, h1] at hc
  have : Counter.count ([] : BondInfo Q) x.1 = 0 := rfl
  omega

/-- A pair of usable bonds. -/
def GoodPair (b : BondInfo Q × BondInfo Q) : Prop := GoodBond b.1 ∧ GoodBond b.2 ∧ b.1 ≠ [] ∧ b.2 ≠ []

theorem rehomePairs {l r F E : BondInfo Q × BondInfo Q} {X : List (BondInfo Q × BondInfo Q)} {phys : List (List (BondInfo Q))}
    {ts : List (SpT Q K)} {is : List (List (BondInfo Q))} (h : OnPairs (l :: X ++ [r]) phys ts) (hI : InfoSpecs (l :: X ++ [r]) phys ts is)
    (hne : ∀ T ∈ ts, T ≠ [])
    (hF1 : ∀ q s, OccursOn (ts.headD []) 0 q → Dict.get? l.1 q = some s → Dict.get? F.1 q = some s)
    (hF2 : ∀ q s, OccursOn (ts.headD []) 1 q → Dict.get? l.2 q = some s → Dict.get? F.2 q = some s)
    (hE1 : ∀ q s, OccursOn (ts.getLastD []) ((phys.getLastD []).length + 2) q → Dict.get? r.1 q = some s → Dict.get? E.1 q = some s)
    (hE2 : ∀ q s, OccursOn (ts.getLastD []) ((phys.getLastD []).length + 3) q → Dict.get? r.2 q = some s → Dict.get? E.2 q = some s) :
    OnPairs (F :: innerPairs is ++ [E]) phys ts ∧ (innerPairs is).length = X.length ∧ ∀ b ∈ innerPairs is, GoodPair b := by
  induction X generalizing l F phys ts is with
  | nil =>
    rcases phys with _ | ⟨ph, phys⟩
    · exact h.elim
    rcases ts with _ | ⟨T, ts⟩
    · exact h.elim
    rcases is with _ | ⟨I, is⟩
    · exact hI.elim
    have hts : phys = [] ∧ ts = [] ∧ is = [] := by
      have h2 := hI.2
      rcases phys with _ | ⟨ph, phys⟩ <;> rcases ts with _ | ⟨T, ts⟩ <;> rcases is with _ | ⟨I, is⟩ <;> simp_all [InfoSpecs]
    obtain ⟨rfl, rfl, rfl⟩ := hts
    exact ⟨⟨Conforms.ends4 h.1 hF1 hF2 hE1 hE2, trivial⟩, rfl, by simp [innerPairs]⟩
  | cons b X ih =>
    rcases phys with _ | ⟨ph, _ | ⟨ph', phys⟩⟩
    · exact h.elim
    · rcases ts with _ | ⟨T, _ | ⟨T', ts⟩⟩ <;> rcases X with _ | ⟨c, X⟩ <;> exact absurd h (by simp [OnPairs])
    rcases ts with _ | ⟨T, _ | ⟨T', ts⟩⟩
    · exact h.elim
    · rcases X with _ | ⟨c, X⟩ <;> exact absurd h (by simp [OnPairs])
    rcases is with _ | ⟨I, _ | ⟨I', is⟩⟩
    · exact hI.elim
    · rcases X with _ | ⟨c, X⟩ <;> exact absurd hI (by simp [InfoSpecs])
    have hneT := hne T (List.mem_cons_self ..)
    have hneT' := hne T' (by simp)
    obtain ⟨r', X', hr'⟩ : ∃ r' X', X ++ [r] = r' :: X' := by
      rcases X with _ | ⟨c, X⟩
      · exact ⟨_, _, rfl⟩
      · exact ⟨_, _, rfl⟩
    have hT := h.1
    have hIT := hI.1
    have hT' : Conforms ([b.1, b.2] ++ ph' ++ [r'.1, r'.2]) T' := by
      have h2 := h.2
      rw [List.append_eq, hr'] at h2
      exact h2.1
    have hIT' : InfoSpec ([b.1, b.2] ++ ph' ++ [r'.1, r'.2]) T' I' := by
      have h2 := hI.2
      rw [List.append_eq, hr'] at h2
      exact h2.1
    have e2 : I.length - 2 = ph.length + 2 := by rw [hIT.length]; simp
    have e1 : I.length - 1 = ph.length + 3 := by rw [hIT.length]; simp
    have k0 : 0 < ([b.1, b.2] ++ ph' ++ [r'.1, r'.2]).length := by simp
    have k1 : 1 < ([b.1, b.2] ++ ph' ++ [r'.1, r'.2]).length := by simp
    have k2 : ph.length + 2 < ([l.1, l.2] ++ ph ++ [b.1, b.2]).length := by simp
    have k3 : ph.length + 3 < ([l.1, l.2] ++ ph ++ [b.1, b.2]).length := by simp
    have g1 := union_get (l := b.1) (P := OccursOn T' 0) (P' := OccursOn T (ph.length + 2)) (hIT'.good 0 k0) (hIT.good _ k2)
      (fun q s => hIT'.get 0 k0 q s) (fun q s => by have := hIT.get _ k2 q s; rwa [legs4_2] at this)
    have g2 := union_get (l := b.2) (P := OccursOn T' 1) (P' := OccursOn T (ph.length + 3)) (hIT'.good 1 k1) (hIT.good _ k3)
      (fun q s => hIT'.get 1 k1 q s) (fun q s => by have := hIT.get _ k3 q s; rwa [legs4_3] at this)
    let B : BondInfo Q × BondInfo Q := (BondInfo.union (I'.getD 0 []) (I.getD (ph.length + 2) []), BondInfo.union (I'.getD 1 []) (I.getD (ph.length + 3) []))
    have hB : innerPairs (I :: I' :: is) = B :: innerPairs (I' :: is) := by rw [innerPairs, e1, e2]
    obtain ⟨i1, i2, i3⟩ := ih (l := b) (F := B) (phys := ph' :: phys) (ts := T' :: ts) (is := I' :: is) h.2 hI.2
      (fun c hc => hne c (List.mem_cons_of_mem _ hc)) (fun q s ho hq => (g1 q s).2 ⟨hq, Or.inl ho⟩) (fun q s ho hq => (g2 q s).2 ⟨hq, Or.inl ho⟩)
      (by simpa using hE1) (by simpa using hE2)
    rw [hB]
    refine ⟨⟨Conforms.ends4 hT hF1 hF2 (fun q s ho hq => (g1 q s).2 ⟨hq, Or.inr ho⟩) (fun q s ho hq => (g2 q s).2 ⟨hq, Or.inr ho⟩), i1⟩,
      (congrArg (· + 1) i2).trans (by simp), ?_⟩
    intro c hc
    rcases List.mem_cons.1 hc with rfl | hc
    · exact ⟨good_union _ _, good_union _ _, union_nonempty' (hIT'.good 0 k0) (hIT.good _ k2) (hIT.nonempty hT hneT k2),
        union_nonempty' (hIT'.good 1 k1) (hIT.good _ k3) (hIT.nonempty hT hneT k3)⟩
    · exact i3 c hc

theorem tables_of_good (le : Q → Q → Bool) (bs : List (BondInfo Q × BondInfo Q)) (h : ∀ b ∈ bs, GoodPair b) :
    ∃ fis, (bs.map fun b => BondFusingInfo.tensorProduct le [b.1, b.2] none none).mapM id = some fis ∧ Tables fis bs := by
  induction bs with
  | nil => exact ⟨[], rfl, .nil⟩
  | cons b bs ih =>
    obtain ⟨fis, h1, h2⟩ := ih fun c hc => h c (List.mem_cons_of_mem _ hc)
    obtain ⟨g1, g2, g3, g4⟩ := h b (List.mem_cons_self ..)
    obtain ⟨fi, e, t⟩ := pairTable le g1 g2 g3 g4
    refine ⟨fi :: fis, ?_, .cons t h2⟩
    rw [List.map_cons, List.mapM_cons, e, h1]
    rfl

/-- First and last pair of the bonds found on the tensors. -/
def endPairs (is : List (List (BondInfo Q))) : (BondInfo Q × BondInfo Q) × (BondInfo Q × BondInfo Q) :=
  (((is.headD []).getD 0 [], (is.headD []).getD 1 []),
    ((is.getLastD []).getD ((is.getLastD []).length - 2) [], (is.getLastD []).getD ((is.getLastD []).length - 1) []))

theorem prodBonds_eq (le : Q → Q → Bool) (is : List (List (BondInfo Q))) :
    prodBonds le is = ((((endPairs is).1 :: innerPairs is ++ [(endPairs is).2]).map
      fun b => BondFusingInfo.tensorProduct le [b.1, b.2] none none).mapM id) := by
  unfold prodBonds
  rw [prodInner_eq]
  simp [endPairs]

theorem OnPairs.first {l r : BondInfo Q × BondInfo Q} {X : List (BondInfo Q × BondInfo Q)} {phys : List (List (BondInfo Q))} {ts : List (SpT Q K)}
    {is : List (List (BondInfo Q))} (h : OnPairs (l :: X ++ [r]) phys ts) (hI : InfoSpecs (l :: X ++ [r]) phys ts is) :
    ∃ (b : BondInfo Q × BondInfo Q) (T : SpT Q K) (I : List (BondInfo Q)), ts.headD [] = T ∧ T ∈ ts ∧ is.headD [] = I ∧ Conforms ([l.1, l.2] ++ phys.headD [] ++ [b.1, b.2]) T ∧
      InfoSpec ([l.1, l.2] ++ phys.headD [] ++ [b.1, b.2]) T I := by
  rcases X with _ | ⟨c, X⟩ <;> rcases phys with _ | ⟨ph, phys⟩ <;> rcases ts with _ | ⟨T, ts⟩ <;> rcases is with _ | ⟨I, is⟩ <;>
    first | exact h.elim | exact hI.elim | exact ⟨_, T, I, rfl, by simp, rfl, h.1, hI.1⟩

theorem OnPairs.last {l r : BondInfo Q × BondInfo Q} {X : List (BondInfo Q × BondInfo Q)} {phys : List (List (BondInfo Q))} {ts : List (SpT Q K)}
    {is : List (List (BondInfo Q))} (h : OnPairs (l :: X ++ [r]) phys ts) (hI : InfoSpecs (l :: X ++ [r]) phys ts is) :
    ∃ (b : BondInfo Q × BondInfo Q) (T : SpT Q K) (I : List (BondInfo Q)), ts.getLastD [] = T ∧ T ∈ ts ∧ is.getLastD [] = I ∧ Conforms ([b.1, b.2] ++ phys.getLastD [] ++ [r.1, r.2]) T ∧
      InfoSpec ([b.1, b.2] ++ phys.getLastD [] ++ [r.1, r.2]) T I := by
  induction X generalizing l phys ts is with
  | nil =>
    rcases phys with _ | ⟨ph, phys⟩
    · exact h.elim
    rcases ts with _ | ⟨T, ts⟩
    · exact h.elim
    rcases is with _ | ⟨I, is⟩
    · exact hI.elim
    have hts : phys = [] ∧ ts = [] ∧ is = [] := by
      have h2 := hI.2
      rcases phys with _ | ⟨ph, phys⟩ <;> rcases ts with _ | ⟨T, ts⟩ <;> rcases is with _ | ⟨I, is⟩ <;> simp_all [InfoSpecs]
    obtain ⟨rfl, rfl, rfl⟩ := hts
    exact ⟨_, T, I, rfl, by simp, rfl, h.1, hI.1⟩
  | cons b X ih =>
    rcases phys with _ | ⟨ph, _ | ⟨ph', phys⟩⟩
    · exact h.elim
    · rcases ts with _ | ⟨T, _ | ⟨T', ts⟩⟩ <;> rcases X with _ | ⟨c, X⟩ <;> exact absurd h (by simp [OnPairs])
    rcases ts with _ | ⟨T, _ | ⟨T', ts⟩⟩
    · exact h.elim
    · rcases X with _ | ⟨c, X⟩ <;> exact absurd h (by simp [OnPairs])
    rcases is with _ | ⟨I, _ | ⟨I', is⟩⟩
    · exact hI.elim
    · rcases X with _ | ⟨c, X⟩ <;> exact absurd hI (by simp [InfoSpecs])
    obtain ⟨b, T0, I0, h1, h2, h3, h4, h5⟩ := ih h.2 hI.2
    exact ⟨b, T0, I0, by simpa using h1, List.mem_cons_of_mem _ h2, by simpa using h3, by simpa using h4, by simpa using h5⟩

/-- The tables computed from the tensors, and the bonds they fuse. -/
theorem prodBonds_spec (le : Q → Q → Bool) {l r : BondInfo Q × BondInfo Q} {X : List (BondInfo Q × BondInfo Q)} {phys : List (List (BondInfo Q))}
    {ts : List (SpT Q K)} {is : List (List (BondInfo Q))} (h : OnPairs (l :: X ++ [r]) phys ts) (hI : InfoSpecs (l :: X ++ [r]) phys ts is)
    (hne : ∀ T ∈ ts, T ≠ []) :
    ∃ fl fm fr F Y E, prodBonds le is = some (fl :: fm ++ [fr]) ∧ PairTable fl F.1 F.2 ∧ Tables fm Y ∧ PairTable fr E.1 E.2 ∧
      Y.length = X.length ∧ OnPairs (F :: Y ++ [E]) phys ts ∧
      (∀ q s, Dict.get? F.1 q = some s ↔ Dict.get? l.1 q = some s ∧ OccursOn (ts.headD []) 0 q) ∧
      (∀ q s, Dict.get? F.2 q = some s ↔ Dict.get? l.2 q = some s ∧ OccursOn (ts.headD []) 1 q) ∧
      (∀ q s, Dict.get? E.1 q = some s ↔ Dict.get? r.1 q = some s ∧ OccursOn (ts.getLastD []) ((phys.getLastD []).length + 2) q) ∧
      (∀ q s, Dict.get? E.2 q = some s ↔ Dict.get? r.2 q = some s ∧ OccursOn (ts.getLastD []) ((phys.getLastD []).length + 3) q) := by
  obtain ⟨b, T, I, e1, e2, e3, e4, e5⟩ := h.first hI
  obtain ⟨b', T', I', e1', e2', e3', e4', e5'⟩ := h.last hI
  have l2 : I'.length - 2 = (phys.getLastD []).length + 2 := by rw [e5'.length]; simp
  have l1 : I'.length - 1 = (phys.getLastD []).length + 3 := by rw [e5'.length]; simp
  have k0 : 0 < ([l.1, l.2] ++ phys.headD [] ++ [b.1, b.2]).length := by simp
  have k1 : 1 < ([l.1, l.2] ++ phys.headD [] ++ [b.1, b.2]).length := by simp
  have k2 : (phys.getLastD []).length + 2 < ([b'.1, b'.2] ++ phys.getLastD [] ++ [r.1, r.2]).length := by simp
  have k3 : (phys.getLastD []).length + 3 < ([b'.1, b'.2] ++ phys.getLastD [] ++ [r.1, r.2]).length := by simp
  have f1 : ∀ q s, Dict.get? (endPairs is).1.1 q = some s ↔ Dict.get? l.1 q = some s ∧ OccursOn (ts.headD []) 0 q := by
    intro q s
    show Dict.get? ((is.headD []).getD 0 []) q = some s ↔ _
    rw [e3, e1]; exact e5.get 0 k0 q s
  have f2 : ∀ q s, Dict.get? (endPairs is).1.2 q = some s ↔ Dict.get? l.2 q = some s ∧ OccursOn (ts.headD []) 1 q := by
    intro q s
    show Dict.get? ((is.headD []).getD 1 []) q = some s ↔ _
    rw [e3, e1]; exact e5.get 1 k1 q s
  have f3 : ∀ q s, Dict.get? (endPairs is).2.1 q = some s ↔ Dict.get? r.1 q = some s ∧ OccursOn (ts.getLastD []) ((phys.getLastD []).length + 2) q := by
    intro q s
    show Dict.get? ((is.getLastD []).getD ((is.getLastD []).length - 2) []) q = some s ↔ _
    rw [e3', e1', l2]
    have := e5'.get _ k2 q s
    rwa [legs4_2] at this
  have f4 : ∀ q s, Dict.get? (endPairs is).2.2 q = some s ↔ Dict.get? r.2 q = some s ∧ OccursOn (ts.getLastD []) ((phys.getLastD []).length + 3) q := by
    intro q s
    show Dict.get? ((is.getLastD []).getD ((is.getLastD []).length - 1) []) q = some s ↔ _
    rw [e3', e1', l1]
    have := e5'.get _ k3 q s
    rwa [legs4_3] at this
  obtain ⟨i1, i2, i3⟩ := rehomePairs h hI hne (F := (endPairs is).1) (E := (endPairs is).2) (fun q s ho hq => (f1 q s).2 ⟨hq, ho⟩)
    (fun q s ho hq => (f2 q s).2 ⟨hq, ho⟩) (fun q s ho hq => (f3 q s).2 ⟨hq, ho⟩) (fun q s ho hq => (f4 q s).2 ⟨hq, ho⟩)
  obtain ⟨fm, m1, m2⟩ := tables_of_good le (innerPairs is) i3
  have gF : GoodPair (endPairs is).1 := by
    unfold endPairs
    simp only [e3]
    exact ⟨e5.good 0 k0, e5.good 1 k1, e5.nonempty e4 (hne T e2) k0, e5.nonempty e4 (hne T e2) k1⟩
  have gE : GoodPair (endPairs is).2 := by
    unfold endPairs
    simp only [e3', l1, l2]
    exact ⟨e5'.good _ k2, e5'.good _ k3, e5'.nonempty e4' (hne T' e2') k2, e5'.nonempty e4' (hne T' e2') k3⟩
  obtain ⟨fl, h1, t1⟩ := pairTable le gF.1 gF.2.1 gF.2.2.1 gF.2.2.2
  obtain ⟨fr, h2, t2⟩ := pairTable le gE.1 gE.2.1 gE.2.2.1 gE.2.2.2
  refine ⟨fl, fm, fr, _, _, _, ?_, t1, m2, t2, i2, i1, f1, f2, f3, f4⟩
  rw [prodBonds_eq, List.map_append, List.map_cons, List.map_cons, List.map_nil, h1, h2, List.mapM_append, List.mapM_cons, m1]
  rfl

/-- Merging the pairs of bonds of one tensor. -/
theorem mergeSite_spec {fl fr : BondFusingInfo Q} {a b c d : BondInfo Q} (hl : PairTable fl a b) (hr : PairTable fr c d) (ph : List (BondInfo Q))
    (T : SpT Q K) (hT : Conforms ([a, b] ++ ph ++ [c, d]) T) (hu : UniqueLabels T) :
    ∃ t1 t2, T.fuse [ph.length + 2, ph.length + 3] fr none = some t1 ∧ t1.fuse [0, 1] fl none = some t2 ∧ UniqueLabels t2 ∧ (T ≠ [] → t2 ≠ []) ∧
      Conforms (fl.quanta :: ph ++ [fr.quanta]) t2 ∧ ∀ z ∈ pairs (legBasis a) (legBasis b), ∀ p, ∀ y ∈ pairs (legBasis c) (legBasis d),
        entry t2 (pairIndex fl b z :: p ++ [pairIndex fr d y]) = entry T ([z.1, z.2] ++ p ++ [y.1, y.2]) := by
  obtain ⟨t1, h1, h2, h3, h3n, h4⟩ := fuse_pair hr ([a, b] ++ ph) [] T (by simpa using hT) hu
  obtain ⟨t2, g1, g2, g3, g3n, g4⟩ := fuse_pair hl [] (ph ++ [fr.quanta]) t1 (by simpa using h3) h2
  have e : ([a, b] ++ ph).length = ph.length + 2 := by simp
  rw [e] at h1
  refine ⟨t1, t2, h1, g1, g2, fun h => g3n (h3n h), by simpa using g3, fun z hz p y hy => ?_⟩
  by_cases hp : p.length = ph.length
  · have k1 := g4 [] z (p ++ [pairIndex fr d y]) rfl (by simp [hp]) hz
    have k2 := h4 ([z.1, z.2] ++ p) y [] (by simp [hp]) rfl hy
    simp only [List.nil_append, List.append_nil, List.cons_append] at k1 k2 ⊢
    rw [k1, k2]
  · have z1 : entry T ([z.1, z.2] ++ p ++ [y.1, y.2]) = 0 := by
      by_contra h0
      have := (entry_support hT h0).2.length_eq
      simp at this
      omega
    have z2 : entry t2 (pairIndex fl b z :: p ++ [pairIndex fr d y]) = 0 := by
      by_contra h0
      have := (entry_support g3 h0).2.length_eq
      simp at this
      omega
    rw [z1, z2]

/-- Chains of site functions before and after merging. -/
inductive MergedFuns {U D : Type} : List (BondFusingInfo Q) → List (BondInfo Q × BondInfo Q) → List (Bool → Q × Nat → U → D → Q × Nat → K) →
    List (Bool → (Q × Nat) × (Q × Nat) → U → D → (Q × Nat) × (Q × Nat) → K) → Prop
  | nil {fi b} : MergedFuns [fi] [b] [] []
  | cons {fl bl fr br fis bs f g fs gs} :
      (∀ s, ∀ z ∈ pairs (legBasis bl.1) (legBasis bl.2), ∀ u d, ∀ y ∈ pairs (legBasis br.1) (legBasis br.2),
        f s (pairIndex fl bl.2 z) u d (pairIndex fr br.2 y) = g s z u d y) →
      MergedFuns (fr :: fis) (br :: bs) fs gs → MergedFuns (fl :: fr :: fis) (bl :: br :: bs) (f :: fs) (g :: gs)

theorem reindexed_of_merged {U D : Type} {fl fr : BondFusingInfo Q} {fm : List (BondFusingInfo Q)} {F E : BondInfo Q × BondInfo Q}
    {Y : List (BondInfo Q × BondInfo Q)} (hY : Tables fm Y) {fs : List (Bool → Q × Nat → U → D → Q × Nat → K)}
    {gs : List (Bool → (Q × Nat) × (Q × Nat) → U → D → (Q × Nat) × (Q × Nat) → K)} (h : MergedFuns (fl :: fm ++ [fr]) (F :: Y ++ [E]) fs gs) :
    Reindexed (pairs (legBasis F.1) (legBasis F.2)) (pairIndex fl F.2) fs (fm.map fun fi => legBasis fi.quanta) gs
      (Y.map fun b => pairs (legBasis b.1) (legBasis b.2)) (pairs (legBasis E.1) (legBasis E.2)) (pairIndex fr E.2) := by
  induction hY generalizing fl F fs gs with
  | nil =>
    cases h with
    | cons h1 h2 =>
      cases h2
      exact .one h1
  | cons t _ ih =>
    cases h with
    | cons h1 h2 =>
      refine .cons ?_ (ih h2)
      intro s x hx u d G H hGH
      rw [t.sum]
      exact sum_map_congr' _ _ _ fun z hz => by rw [h1 s x hx u d z hz, hGH z hz]

/-- Site functions that vanish outside both lists of inner indices. -/
inductive SuppFuns {I U D : Type} : List (Bool → I → U → D → I → K) → List (List I) → List (List I) → Prop
  | one {f} : SuppFuns [f] [] []
  | cons {f b c fs bs cs} : b.Nodup → c.Nodup → (∀ s x u d z, f s x u d z ≠ 0 → z ∈ b ∧ z ∈ c) → SuppFuns fs bs cs →
      SuppFuns (f :: fs) (b :: bs) (c :: cs)

theorem sch_support {I U D : Type} [DecidableEq I] (par : D → Bool) {fs : List (Bool → I → U → D → I → K)} {bs cs : List (List I)} (h : SuppFuns fs bs cs)
    (s : Bool) (x : I) (us : List U) (ds : List D) (y : I) : sch par fs bs s x us ds y = sch par fs cs s x us ds y := by
  induction h generalizing s x us ds with
  | one => rfl
  | cons hb hc hf _ ih =>
    rcases us with _ | ⟨u, us⟩ <;> rcases ds with _ | ⟨d, ds⟩ <;> try (rw [sch, sch] <;> simp)
    rw [sch_cons, sch_cons]
    simp only [ih]
    refine sum_support hb hc _ fun z hz => hf s x u d z ?_
    intro h0
    rw [h0, zero_mul] at hz
    exact hz rfl

/-- Site functions that agree for even parity give the same chain when the parity stays even. -/
theorem sch_even {I U D : Type} (par : D → Bool) (hpar : ∀ d, par d = false) {fs gs : List (Bool → I → U → D → I → K)}
    (h : List.Forall₂ (fun f g => ∀ x u d y, f false x u d y = g false x u d y) fs gs) (bs : List (List I)) (x : I) (us : List U) (ds : List D) (y : I) :
    sch par fs bs false x us ds y = sch par gs bs false x us ds y := by
  induction h generalizing bs x us ds with
  | nil => rfl
  | cons hf h2 ih =>
    rcases us with _ | ⟨u, us⟩ <;> rcases ds with _ | ⟨d, ds⟩
    · simp [sch]
    · simp [sch]
    · simp [sch]
    rcases bs with _ | ⟨b, bs⟩
    · cases h2 with
      | nil =>
        rcases us with _ | ⟨u', us⟩ <;> rcases ds with _ | ⟨d', ds⟩
        · rw [sch_one, sch_one, hf]
        · simp [sch]
        · simp [sch]
        · simp [sch]
      | cons _ _ => simp [sch]
    · rw [sch_cons, sch_cons]
      refine sum_map_congr' _ _ _ fun z _ => ?_
      rw [hf, hpar, Bool.xor_false, ih]

end
end Verif
