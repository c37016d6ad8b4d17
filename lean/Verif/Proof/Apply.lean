import Verif.Proof.Pdot

/-! The product of an operator and a state as a chain. -/

set_option linter.unusedSectionVars false

namespace Verif
section
variable {Q K : Type} [DecidableEq Q] [AddCommGroup Q] [CommRing K]

/-- Site function of a state. -/
def stFun (T : SpT Q K) : Bool → Q × Nat → List (Q × Nat) → Unit → Q × Nat → K := fun _ x u _ y => entry T (x :: u ++ [y])

/-- Site function of an operator. -/
def opFun (W : OpT Q K) : Bool → Q × Nat → List (Q × Nat) → List (Q × Nat) → Q × Nat → K := fun s x u d y => opEntry W s (x :: u ++ d ++ [y])

/-- Site function of a tensor with pairs of bonds. -/
def pairFun (T : SpT Q K) : Bool → (Q × Nat) × (Q × Nat) → List (Q × Nat) → Unit → (Q × Nat) × (Q × Nat) → K :=
  fun _ x u _ y => entry T ([x.1, x.2] ++ u ++ [y.1, y.2])

/-- No parity. -/
def noPar : Unit → Bool := fun _ => false

/-- Parity of basis vectors. -/
def basisPar (isF : Q → Bool) (d : List (Q × Nat)) : Bool := fermParity isF (d.map Prod.fst)

theorem ampl_eq_sch (ts : List (SpT Q K)) (bs : List (BondInfo Q)) (s : Bool) (x : Q × Nat) (ps : List (List (Q × Nat))) (y : Q × Nat) :
    ampl ts bs x ps y = sch noPar (ts.map stFun) (bs.map legBasis) s x ps (ps.map fun _ => ()) y := by
  induction ts generalizing bs s x ps with
  | nil => simp [ampl, sch]
  | cons T ts ih =>
    rcases ps with _ | ⟨p, ps⟩
    · rw [ampl_noSites]; simp [sch]
    rcases bs with _ | ⟨b, bs⟩
    · rcases ts with _ | ⟨T', ts⟩
      · rcases ps with _ | ⟨p', ps⟩
        · rw [ampl, List.map_cons, List.map_nil, List.map_nil, List.map_cons, List.map_nil, sch_one]; rfl
        · rw [ampl]; · simp [sch]
          all_goals simp
      · rw [ampl]; · simp [sch]
        all_goals simp
    · rw [ampl_cons, List.map_cons, List.map_cons, List.map_cons, sch_cons]
      refine sum_map_congr' _ _ _ fun z _ => ?_
      rw [ih bs (xor s (noPar ()))]
      rfl

theorem opAmpl_cons (isF : Q → Bool) (W : OpT Q K) (ws : List (OpT Q K)) (b : BondInfo Q) (bs : List (BondInfo Q)) (s : Bool) (x : Q × Nat)
    (u : List (Q × Nat)) (us : List (List (Q × Nat))) (d : List (Q × Nat)) (ds : List (List (Q × Nat))) (y : Q × Nat) :
    opAmpl isF (W :: ws) (b :: bs) s x (u :: us) (d :: ds) y =
      ((legBasis b).map fun z => opEntry W s (x :: u ++ d ++ [z]) * opAmpl isF ws bs (xor s (fermParity isF (d.map Prod.fst))) z us ds y).sum := by
  rw [opAmpl]

theorem opAmpl_eq_sch (isF : Q → Bool) (ws : List (OpT Q K)) (bs : List (BondInfo Q)) (s : Bool) (x : Q × Nat) (us ds : List (List (Q × Nat)))
    (y : Q × Nat) : opAmpl isF ws bs s x us ds y = sch (basisPar isF) (ws.map opFun) (bs.map legBasis) s x us ds y := by
  induction ws generalizing bs s x us ds with
  | nil => simp [opAmpl, sch]
  | cons W ws ih =>
    rcases us with _ | ⟨u, us⟩
    · simp [opAmpl, sch]
    rcases ds with _ | ⟨d, ds⟩
    · simp [opAmpl, sch]
    rcases bs with _ | ⟨b, bs⟩
    · rcases ws with _ | ⟨W', ws⟩
      · rcases us with _ | ⟨u', us⟩ <;> rcases ds with _ | ⟨d', ds⟩
        · rw [opAmpl, List.map_cons, List.map_nil, List.map_nil, sch_one]; rfl
        · simp [opAmpl, sch]
        · simp [opAmpl, sch]
        · simp [opAmpl, sch]
      · simp [opAmpl, sch]
    · rw [opAmpl_cons, List.map_cons, List.map_cons, sch_cons]
      refine sum_map_congr' _ _ _ fun z _ => ?_
      rw [ih]
      rfl

/-- A chain with a vanishing site function vanishes. -/
theorem sch_zero_even {I U D : Type} (par : D → Bool) (hpar : ∀ d, par d = false) {fs : List (Bool → I → U → D → I → K)}
    (h : ∃ f ∈ fs, ∀ x u d y, f false x u d y = 0) (bs : List (List I)) (x : I) (us : List U) (ds : List D) (y : I) :
    sch par fs bs false x us ds y = 0 := by
  induction fs generalizing bs x us ds with
  | nil => simp at h
  | cons f fs ih =>
    rcases us with _ | ⟨u, us⟩ <;> rcases ds with _ | ⟨d, ds⟩
    · simp [sch]
    · simp [sch]
    · simp [sch]
    obtain ⟨g, hg, h0⟩ := h
    rcases bs with _ | ⟨b, bs⟩
    · rcases fs with _ | ⟨f', fs⟩
      · obtain rfl : g = f := by simpa using hg
        rcases us with _ | ⟨u', us⟩ <;> rcases ds with _ | ⟨d', ds⟩
        · rw [sch_one]; exact h0 x u d y
        · simp [sch]
        · simp [sch]
        · simp [sch]
      · simp [sch]
    · rw [sch_cons]
      refine sum_map_zero' _ _ fun z _ => ?_
      rcases List.mem_cons.1 hg with rfl | hg
      · rw [h0, zero_mul]
      · rw [hpar, Bool.xor_false, ih ⟨g, hg, h0⟩, mul_zero]

/-- An operator and a state on the same sites; the bonds of both as pairs. -/
def ApplyOn (isF : Q → Bool) : List (BondInfo Q × BondInfo Q) → List (List (BondInfo Q) × List (BondInfo Q)) → List (OpT Q K) → List (SpT Q K) → Prop
  | [_], [], [], [] => True
  | l :: r :: bonds, ph :: phys, W :: ws, B :: bs => OpSite isF l.1 ph.1 ph.2 r.1 W ∧ Conforms (l.2 :: ph.2 ++ [r.2]) B ∧ SameParity isF B ∧
      ph.1 ≠ [] ∧ ph.2 ≠ [] ∧ (∀ b ∈ ph.2, Dict.WF b) ∧ ApplyOn isF (r :: bonds) phys ws bs
  | _, _, _, _ => False

theorem ApplyOn.cons_inv {isF : Q → Bool} {l r : BondInfo Q × BondInfo Q} {bonds : List (BondInfo Q × BondInfo Q)}
    {phys : List (List (BondInfo Q) × List (BondInfo Q))} {ws : List (OpT Q K)} {bs : List (SpT Q K)} (h : ApplyOn isF (l :: r :: bonds) phys ws bs) :
    ∃ ph phys' W ws' B bs', phys = ph :: phys' ∧ ws = W :: ws' ∧ bs = B :: bs' ∧ OpSite isF l.1 ph.1 ph.2 r.1 W ∧ Conforms (l.2 :: ph.2 ++ [r.2]) B ∧
      SameParity isF B ∧ ph.1 ≠ [] ∧ ph.2 ≠ [] ∧ (∀ b ∈ ph.2, Dict.WF b) ∧ ApplyOn isF (r :: bonds) phys' ws' bs' := by
  rcases phys with _ | ⟨ph, phys⟩
  · exact h.elim
  rcases ws with _ | ⟨W, ws⟩
  · exact h.elim
  rcases bs with _ | ⟨B, bs⟩
  · exact h.elim
  exact ⟨ph, phys, W, ws, B, bs, rfl, rfl, rfl, h⟩

theorem ApplyOn.one_inv {isF : Q → Bool} {l : BondInfo Q × BondInfo Q} {phys : List (List (BondInfo Q) × List (BondInfo Q))} {ws : List (OpT Q K)}
    {bs : List (SpT Q K)} (h : ApplyOn isF [l] phys ws bs) : phys = [] ∧ ws = [] ∧ bs = [] := by
  rcases phys with _ | ⟨ph, phys⟩ <;> rcases ws with _ | ⟨W, ws⟩ <;> rcases bs with _ | ⟨B, bs⟩ <;> simp_all [ApplyOn]

/-- The site functions of the product. -/
def applyFuns (isF : Q → Bool) (phys : List (List (BondInfo Q) × List (BondInfo Q))) (ws : List (OpT Q K)) (bs : List (SpT Q K)) :
    List (Bool → (Q × Nat) × (Q × Nat) → List (Q × Nat) → Unit → (Q × Nat) × (Q × Nat) → K) :=
  prodSites (fun x : Q × Nat => isF x.1) (phys.map fun ph => legIndices ph.2) (ws.map opFun) (bs.map stFun)

theorem applyFun_eq (isF : Q → Bool) (s : List (List (Q × Nat))) (W : OpT Q K) (B : SpT Q K) (x : (Q × Nat) × (Q × Nat)) (u : List (Q × Nat)) (d : Unit)
    (y : (Q × Nat) × (Q × Nat)) : prodSite (fun x : Q × Nat => isF x.1) s (opFun W) (stFun B) false x u d y =
      (s.map fun m => opEntry W (isF x.2.1) (x.1 :: u ++ m ++ [y.1]) * entry B (x.2 :: m ++ [y.2])).sum := by
  unfold prodSite opFun stFun
  simp only [Bool.false_xor]

theorem opEntry_length {isF : Q → Bool} {l r : BondInfo Q} {ups downs : List (BondInfo Q)} {W : OpT Q K} (hW : OpSite isF l ups downs r W) (s : Bool)
    {x : List (Q × Nat)} (hx : x.length ≠ ups.length + downs.length + 2) : opEntry W s x = 0 := by
  have h : ∀ T : SpT Q K, Conforms (l :: ups ++ downs ++ [r]) T → entry T x = 0 := by
    intro T hT
    by_contra h0
    have := (entry_support hT h0).2.length_eq
    simp at this
    omega
  rw [opEntry, h _ hW.odd, h _ hW.even]
  simp

theorem opEntry_noBlocks {W : OpT Q K} (h : W.noBlocks = true) (s : Bool) (x : List (Q × Nat)) : opEntry W s x = 0 := by
  unfold OpT.noBlocks at h
  rw [Bool.and_eq_true, List.isEmpty_iff, List.isEmpty_iff] at h
  rw [opEntry, h.1, h.2, entry_nil]
  simp

theorem applySites_spec (isF : Q → Bool) {l : BondInfo Q × BondInfo Q} {bonds : List (BondInfo Q × BondInfo Q)}
    {phys : List (List (BondInfo Q) × List (BondInfo Q))} {ws : List (OpT Q K)} {bs : List (SpT Q K)} (h : ApplyOn isF (l :: bonds) phys ws bs) :
    (Mps.applySites isF ws bs = some none ∧ ∃ g ∈ applyFuns isF phys ws bs, ∀ x u d y, g false x u d y = 0) ∨
    ∃ rs, Mps.applySites isF ws bs = some (some rs) ∧ OnPairs (l :: bonds) (phys.map Prod.fst) rs ∧ (∀ r ∈ rs, r ≠ [] ∧ UniqueLabels r) ∧
      List.Forall₂ (fun f g => ∀ x u d y, f false x u d y = g false x u d y) (rs.map pairFun) (applyFuns isF phys ws bs) := by
  induction bonds generalizing l phys ws bs with
  | nil =>
    obtain ⟨rfl, rfl, rfl⟩ := h.one_inv
    exact Or.inr ⟨[], rfl, trivial, by simp, .nil⟩
  | cons r bonds ih =>
    obtain ⟨ph, phys, W, ws, B, bs, rfl, rfl, rfl, hW, hB, hp, hn1, hn2, hwf, hrest⟩ := h.cons_inv
    have hfun : applyFuns isF (ph :: phys) (W :: ws) (B :: bs) =
        prodSite (fun x : Q × Nat => isF x.1) (legIndices ph.2) (opFun W) (stFun B) :: applyFuns isF phys ws bs := rfl
    rw [hfun]
    by_cases hWe : W.noBlocks = true
    · refine Or.inl ⟨?_, _, List.mem_cons_self .., fun x u d y => ?_⟩
      · rw [Mps.applySites, hWe]; rfl
      · rw [applyFun_eq]
        exact sum_map_zero' _ _ fun m _ => by rw [opEntry_noBlocks hWe, zero_mul]
    by_cases hBe : B = []
    · refine Or.inl ⟨?_, _, List.mem_cons_self .., fun x u d y => ?_⟩
      · rw [Mps.applySites, hBe]; simp
      · rw [applyFun_eq]
        exact sum_map_zero' _ _ fun m _ => by rw [hBe, entry_nil, mul_zero]
    have hWe' : W.noBlocks = false := by simpa using hWe
    obtain ⟨R, h1, h2, h3, h4⟩ := pdotState_spec isF hW hB hp hWe' hBe hn1 hn2 hwf
    have hc : (W.noBlocks || B.isEmpty) = false := by
      rw [hWe']
      simpa using hBe
    have hR : ∀ x u d y, pairFun R false x u d y = prodSite (fun x : Q × Nat => isF x.1) (legIndices ph.2) (opFun W) (stFun B) false x u d y := by
      intro x u d y
      rw [applyFun_eq]
      by_cases hu : u.length = ph.1.length
      · exact h4 x.1 x.2 u y.1 y.2 hu
      · have z1 : pairFun R false x u d y = 0 := by
          by_contra h0
          have := (entry_support h2 h0).2.length_eq
          simp at this
          omega
        rw [z1]
        symm
        refine sum_map_zero' _ _ fun m hm => ?_
        rw [opEntry_length hW, zero_mul]
        have := legIndices_length hm
        simp
        omega
    by_cases hRe : R = []
    · refine Or.inl ⟨?_, _, List.mem_cons_self .., fun x u d y => ?_⟩
      · rw [Mps.applySites, hc, h1, hRe]; rfl
      · rw [← hR, hRe]; exact entry_nil _
    have hRe' : R.isEmpty = false := by simpa using hRe
    rcases ih hrest with ⟨i1, g, hg, i2⟩ | ⟨rs, i1, i2, i3, i4⟩
    · refine Or.inl ⟨?_, g, List.mem_cons_of_mem _ hg, i2⟩
      rw [Mps.applySites, hc, h1]
      simp [hRe, i1]
    · refine Or.inr ⟨R :: rs, ?_, ⟨h2, i2⟩, ?_, .cons hR i4⟩
      · rw [Mps.applySites, hc, h1]
        simp [hRe, i1]
      · intro r hr
        rcases List.mem_cons.1 hr with rfl | hr
        · exact ⟨hRe, h3⟩
        · exact i3 r hr

theorem OnPairs.cons_inv {l r : BondInfo Q × BondInfo Q} {bonds : List (BondInfo Q × BondInfo Q)} {phys : List (List (BondInfo Q))} {ts : List (SpT Q K)}
    (h : OnPairs (l :: r :: bonds) phys ts) : ∃ ph phys' T ts', phys = ph :: phys' ∧ ts = T :: ts' ∧ Conforms ([l.1, l.2] ++ ph ++ [r.1, r.2]) T ∧
      OnPairs (r :: bonds) phys' ts' := by
  rcases phys with _ | ⟨ph, phys⟩
  · exact h.elim
  rcases ts with _ | ⟨T, ts⟩
  · exact h.elim
  exact ⟨ph, phys, T, ts, rfl, rfl, h⟩

theorem OnPairs.one_inv {l : BondInfo Q × BondInfo Q} {phys : List (List (BondInfo Q))} {ts : List (SpT Q K)} (h : OnPairs [l] phys ts) :
    phys = [] ∧ ts = [] := by
  rcases phys with _ | ⟨ph, phys⟩ <;> rcases ts with _ | ⟨T, ts⟩ <;> simp_all [OnPairs]

theorem infoSpecs_of {l : BondInfo Q × BondInfo Q} {bonds : List (BondInfo Q × BondInfo Q)} {phys : List (List (BondInfo Q))} {ts : List (SpT Q K)}
    (h : OnPairs (l :: bonds) phys ts) (hg : ∀ b ∈ l :: bonds, GoodBond b.1 ∧ GoodBond b.2) (hp : ∀ ph ∈ phys, ∀ b ∈ ph, GoodBond b)
    (hne : ∀ T ∈ ts, T ≠ []) : ∃ is, ts.mapM SpT.infos = some is ∧ InfoSpecs (l :: bonds) phys ts is := by
  induction bonds generalizing l phys ts with
  | nil =>
    obtain ⟨rfl, rfl⟩ := h.one_inv
    exact ⟨[], rfl, trivial⟩
  | cons r bonds ih =>
    obtain ⟨ph, phys, T, ts, rfl, rfl, h1, h2⟩ := h.cons_inv
    obtain ⟨is, i1, i2⟩ := ih h2 (fun b hb => hg b (List.mem_cons_of_mem _ hb)) (fun p h => hp p (List.mem_cons_of_mem _ h))
      fun T hT => hne T (List.mem_cons_of_mem _ hT)
    obtain ⟨I, j1, j2⟩ := infoSpec_site h1 (hne T (List.mem_cons_self ..)) (by
      intro b hb
      simp only [List.mem_append, List.mem_cons, List.not_mem_nil, or_false] at hb
      rcases hb with ((rfl | rfl) | hb) | (rfl | rfl)
      · exact (hg l (by simp)).1
      · exact (hg l (by simp)).2
      · exact hp ph (by simp) b hb
      · exact (hg r (by simp)).1
      · exact (hg r (by simp)).2)
    refine ⟨I :: is, ?_, j2, i2⟩
    rw [List.mapM_cons, j1, i1]
    rfl

theorem mergeSites_spec {fi : BondFusingInfo Q} {fis : List (BondFusingInfo Q)} {l : BondInfo Q × BondInfo Q} {bonds : List (BondInfo Q × BondInfo Q)}
    {phys : List (List (BondInfo Q))} {rs : List (SpT Q K)} (ht : Tables (fi :: fis) (l :: bonds)) (h : OnPairs (l :: bonds) phys rs)
    (hu : ∀ r ∈ rs, r ≠ [] ∧ UniqueLabels r) :
    ∃ ts, Mps.mergeSites rs (fi :: fis) = some ts ∧ OnBonds ((fi :: fis).map fun f => f.quanta) phys ts ∧
      MergedFuns (fi :: fis) (l :: bonds) (ts.map stFun) (rs.map pairFun) ∧ ∀ t ∈ ts, t ≠ [] ∧ UniqueLabels t := by
  induction bonds generalizing fi fis l phys rs with
  | nil =>
    obtain ⟨rfl, rfl⟩ := h.one_inv
    cases ht with
    | cons t1 t2 =>
      cases t2
      exact ⟨[], rfl, trivial, .nil, by simp⟩
  | cons r bonds ih =>
    obtain ⟨ph, phys, T, rs, rfl, rfl, h1, h2⟩ := h.cons_inv
    cases ht with
    | cons t1 t2 =>
      cases t2 with
      | @cons fr _ fis _ t2 t3 =>
        obtain ⟨ts, i1, i2, i3, i4⟩ := ih (.cons t2 t3) h2 fun r hr => hu r (List.mem_cons_of_mem _ hr)
        obtain ⟨hne, huT⟩ := hu T (List.mem_cons_self ..)
        obtain ⟨a1, a2, m1, m2, m3, m3n, m4, m5⟩ := mergeSite_spec t1 t2 ph T h1 huT
        have nd : T.ndim = ph.length + 4 := by rw [ndim_of_conforms h1 hne]; simp
        refine ⟨a2 :: ts, ?_, ⟨m4, i2⟩, .cons (fun s z hz u d y hy => m5 z hz u y hy) i3, ?_⟩
        · rw [Mps.mergeSites, nd]
          show (T.fuse [ph.length + 2, ph.length + 3] fr none).bind _ = _
          rw [m1, Option.bind_some, m2, Option.bind_some, i1]
          rfl
        · intro t ht
          rcases List.mem_cons.1 ht with rfl | ht
          · exact ⟨m3n hne, m3⟩
          · exact i4 t ht

theorem pairFun_support {l r : BondInfo Q × BondInfo Q} {ph : List (BondInfo Q)} {T : SpT Q K} (h : Conforms ([l.1, l.2] ++ ph ++ [r.1, r.2]) T)
    (hr : Dict.WF r.1 ∧ Dict.WF r.2) {s : Bool} {x : (Q × Nat) × (Q × Nat)} {u : List (Q × Nat)} {d : Unit} {z : (Q × Nat) × (Q × Nat)}
    (h0 : pairFun T s x u d z ≠ 0) : z ∈ pairs (legBasis r.1) (legBasis r.2) := by
  have := (entry_support h h0).2
  have hl := this.length_eq
  have k : ∀ i, i < ([l.1, l.2] ++ ph ++ [r.1, r.2]).length → (([x.1, x.2] ++ u ++ [z.1, z.2]).getD i 0).2 <
      Counter.count (([l.1, l.2] ++ ph ++ [r.1, r.2]).getD i []) (([x.1, x.2] ++ u ++ [z.1, z.2]).getD i 0).1 := by
    intro i hi
    have hi' := hl ▸ hi
    have := List.forall₂_iff_get.1 this |>.2 i hi hi'
    rw [List.getD_eq_getElem?_getD, List.getD_eq_getElem?_getD, List.getElem?_eq_getElem hi, List.getElem?_eq_getElem hi']
    exact this
  have hul : u.length = ph.length := by simp at hl; omega
  have k2 := k (ph.length + 2) (by simp)
  have k3 := k (ph.length + 3) (by simp)
  rw [legs4_2, ← hul, legs4_2] at k2
  rw [legs4_3, ← hul, legs4_3] at k3
  rw [mem_pairs, mem_legBasis hr.1, mem_legBasis hr.2]
  exact ⟨k2, k3⟩

theorem suppFuns_of {l r F E : BondInfo Q × BondInfo Q} {X Y : List (BondInfo Q × BondInfo Q)} {phys : List (List (BondInfo Q))} {rs : List (SpT Q K)}
    (h : OnPairs (l :: X ++ [r]) phys rs) (h' : OnPairs (F :: Y ++ [E]) phys rs) (hl : Y.length = X.length)
    (hX : ∀ b ∈ X, Dict.WF b.1 ∧ Dict.WF b.2) (hY : ∀ b ∈ Y, Dict.WF b.1 ∧ Dict.WF b.2) :
    SuppFuns (rs.map pairFun) (X.map fun b => pairs (legBasis b.1) (legBasis b.2)) (Y.map fun b => pairs (legBasis b.1) (legBasis b.2)) := by
  induction X generalizing l F Y phys rs with
  | nil =>
    obtain rfl : Y = [] := List.length_eq_zero_iff.1 hl
    obtain ⟨ph, phys, T, ts, rfl, rfl, h1, h2⟩ := OnPairs.cons_inv h
    obtain ⟨rfl, rfl⟩ := h2.one_inv
    exact .one
  | cons b X ih =>
    rcases Y with _ | ⟨c, Y⟩
    · simp at hl
    obtain ⟨ph, phys, T, ts, rfl, rfl, h1, h2⟩ := OnPairs.cons_inv h
    have hb := hX b (List.mem_cons_self ..)
    have hc := hY c (List.mem_cons_self ..)
    exact .cons (nodup_pairs (legBasis_nodup hb.1) (legBasis_nodup hb.2)) (nodup_pairs (legBasis_nodup hc.1) (legBasis_nodup hc.2))
      (fun s x u d z h0 => ⟨pairFun_support h1 hb h0, pairFun_support h'.1 hc h0⟩)
      (ih h2 h'.2 (by simpa using hl) (fun c hc => hX c (List.mem_cons_of_mem _ hc)) (fun c hc => hY c (List.mem_cons_of_mem _ hc)))

theorem Tables.good {fis : List (BondFusingInfo Q)} {Y : List (BondInfo Q × BondInfo Q)} (h : Tables fis Y) :
    (∀ b ∈ Y, Dict.WF b.1 ∧ Dict.WF b.2) ∧ (∀ f ∈ fis, GoodBond f.quanta) ∧ fis.length = Y.length := by
  induction h with
  | nil => simp
  | cons t _ ih =>
    refine ⟨?_, ?_, by simp [ih.2.2]⟩
    · intro c hc
      rcases List.mem_cons.1 hc with rfl | hc
      · exact ⟨t.ga.1, t.gb.1⟩
      · exact ih.1 c hc
    · intro c hc
      rcases List.mem_cons.1 hc with rfl | hc
      · exact ⟨t.good.wf.1, t.pos⟩
      · exact ih.2.1 c hc

theorem Tables.append {fis fis' : List (BondFusingInfo Q)} {Y Y' : List (BondInfo Q × BondInfo Q)} (h : Tables fis Y) (h' : Tables fis' Y') :
    Tables (fis ++ fis') (Y ++ Y') := by
  induction h with
  | nil => exact h'
  | cons t _ ih => exact .cons t ih

/-- The product of the tensors of an operator and a state, for any edges. -/
theorem applyTensors_spec (isF : Q → Bool) (le : Q → Q → Bool) {l r : BondInfo Q × BondInfo Q} {X : List (BondInfo Q × BondInfo Q)}
    {phys : List (List (BondInfo Q) × List (BondInfo Q))} (a : Mpo Q K) (b : Mps Q K) (h : ApplyOn isF (l :: X ++ [r]) phys a.tensors b.tensors)
    (hX : X ≠ []) (hg : ∀ b ∈ l :: X ++ [r], GoodBond b.1 ∧ GoodBond b.2) (hp : ∀ ph ∈ phys, ∀ b ∈ ph.1, GoodBond b)
    (hlen : a.tensors.length = X.length + 1 ∧ b.tensors.length = X.length + 1) :
    (Mps.applyTensors isF le a b = some none ∧ ∃ g ∈ applyFuns isF phys a.tensors b.tensors, ∀ x u d y, g false x u d y = 0) ∨
    ∃ (ts : List (SpT Q K)) (fl : BondFusingInfo Q) (fm : List (BondFusingInfo Q)) (fr : BondFusingInfo Q) (F E : BondInfo Q × BondInfo Q)
      (T0 T1 : SpT Q K), Mps.applyTensors isF le a b = some (some ⟨ts, 0⟩) ∧ PairTable fl F.1 F.2 ∧ PairTable fr E.1 E.2 ∧
      OnBonds (fl.quanta :: (fm.map fun f => f.quanta) ++ [fr.quanta]) (phys.map Prod.fst) ts ∧ (∀ f ∈ fm, GoodBond f.quanta) ∧ (∀ t ∈ ts, t ≠ [] ∧ UniqueLabels t) ∧
      fm.length = X.length ∧ T0 ≠ [] ∧ T1 ≠ [] ∧
      (∃ c : BondInfo Q × BondInfo Q, Conforms ([l.1, l.2] ++ (phys.map Prod.fst).headD [] ++ [c.1, c.2]) T0) ∧
      (∃ c : BondInfo Q × BondInfo Q, Conforms ([c.1, c.2] ++ (phys.map Prod.fst).getLastD [] ++ [r.1, r.2]) T1) ∧
      (∀ q s, Dict.get? F.1 q = some s ↔ Dict.get? l.1 q = some s ∧ OccursOn T0 0 q) ∧
      (∀ q s, Dict.get? F.2 q = some s ↔ Dict.get? l.2 q = some s ∧ OccursOn T0 1 q) ∧
      (∀ q s, Dict.get? E.1 q = some s ↔ Dict.get? r.1 q = some s ∧ OccursOn T1 (((phys.map Prod.fst).getLastD []).length + 2) q) ∧
      (∀ q s, Dict.get? E.2 q = some s ↔ Dict.get? r.2 q = some s ∧ OccursOn T1 (((phys.map Prod.fst).getLastD []).length + 3) q) ∧
      ∀ z ∈ pairs (legBasis F.1) (legBasis F.2), ∀ us, ∀ y ∈ pairs (legBasis E.1) (legBasis E.2),
        ampl ts (fm.map fun f => f.quanta) (pairIndex fl F.2 z) us (pairIndex fr E.2 y) =
          sch noPar (applyFuns isF phys a.tensors b.tensors) (X.map fun b => pairs (legBasis b.1) (legBasis b.2)) false z us (us.map fun _ => ()) y := by
  have hX0 : 0 < X.length := List.length_pos_iff.2 hX
  have hcond : ¬ (a.tensors.length ≠ b.tensors.length ∨ b.tensors.length ≤ 1) := by omega
  unfold Mps.applyTensors
  rw [if_neg hcond]
  rcases applySites_spec isF (bonds := X ++ [r]) h with ⟨h1, h2⟩ | ⟨rs, h1, h2, h3, h4⟩
  · rw [h1]
    exact Or.inl ⟨rfl, h2⟩
  right
  rw [h1]
  have hne : ∀ T ∈ rs, T ≠ [] := fun T hT => (h3 T hT).1
  obtain ⟨is, i1, i2⟩ := infoSpecs_of h2 hg (by
    intro ph hph
    obtain ⟨p, hp', rfl⟩ := List.mem_map.1 hph
    exact hp p hp') hne
  obtain ⟨fl, fm, fr, F, Y, E, p1, p2, p3, p4, p5, p6, p7, p8, p9, p10⟩ := prodBonds_spec le (X := X) (r := r) h2 i2 hne
  have ht : Tables (fl :: (fm ++ [fr])) (F :: (Y ++ [E])) := .cons p2 (p3.append (.cons p4 .nil))
  obtain ⟨ts, m1, m2, m3, m4⟩ := mergeSites_spec ht p6 h3
  obtain ⟨c0, T0, I0, e1, e2, e3, e4, e5⟩ := OnPairs.first (X := X) (r := r) h2 i2
  obtain ⟨c1, T1, I1, e1', e2', e3', e4', e5'⟩ := OnPairs.last (X := X) (r := r) h2 i2
  rw [e1] at p7 p8
  rw [e1'] at p9 p10
  refine ⟨ts, fl, fm, fr, F, E, T0, T1, ?_, p2, p4, ?_, p3.good.2.1, m4, p3.good.2.2.trans p5, hne T0 e2, hne T1 e2', ⟨c0, e4⟩, ⟨c1, e4'⟩, p7, p8, p9, p10, ?_⟩
  · show ((rs.mapM SpT.infos).bind fun infos => (prodBonds le infos).bind fun pb => (Mps.mergeSites rs pb).map fun ts => some (⟨ts, 0⟩ : Mps Q K)) = _
    rw [i1, Option.bind_some, p1, Option.bind_some, List.cons_append, m1]
    rfl
  · simpa using m2
  · intro z hz us y hy
    rw [ampl_eq_sch ts _ false, List.map_map]
    have hre := reindexed_of_merged p3 m3
    have := sch_reindex noPar hre false z hz us (us.map fun _ => ()) y hy
    have e : (legBasis ∘ fun f : BondFusingInfo Q => f.quanta) = fun f => legBasis f.quanta := rfl
    rw [e, this]
    rw [← sch_support noPar (suppFuns_of (l := l) (r := r) (X := X) h2 p6 p5
      (fun b hb => ⟨(hg b (by simp [hb])).1.1, (hg b (by simp [hb])).2.1⟩) p3.good.1)]
    exact sch_even noPar (fun _ => rfl) h4 _ _ _ _ _

end
end Verif
