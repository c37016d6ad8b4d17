import Verif.Proof.MpoMul
import Verif.Thm.Mps

/-! Sums of matrix product operators: for fixed column states an operator chain is a chain of ordinary tensors. -/

set_option linter.unusedSectionVars false

namespace Verif
section
variable {Q K : Type} [DecidableEq Q] [AddCommGroup Q] [CommRing K]

theorem OpOn.cons_inv {l r : BondInfo Q} {bonds : List (BondInfo Q)} {phys : List (List (BondInfo Q) × List (BondInfo Q))} {ws : List (OpT Q K)}
    (h : OpOn (l :: r :: bonds) phys ws) : ∃ ph phys' W ws', phys = ph :: phys' ∧ ws = W :: ws' ∧ OpBlocks (l :: ph.1 ++ ph.2 ++ [r]) W ∧
      OpOn (r :: bonds) phys' ws' := by
  rcases phys with _ | ⟨ph, phys⟩
  · exact h.elim
  rcases ws with _ | ⟨T, ts⟩
  · exact h.elim
  exact ⟨ph, phys, T, ts, rfl, rfl, h⟩

theorem OpOn.one_inv {l : BondInfo Q} {phys : List (List (BondInfo Q) × List (BondInfo Q))} {ws : List (OpT Q K)} (h : OpOn [l] phys ws) :
    phys = [] ∧ ws = [] := by
  rcases phys with _ | ⟨ph, phys⟩ <;> rcases ws with _ | ⟨T, ts⟩ <;> simp_all [OpOn]

/-- The tensor of an operator site seen behind an even or odd number of fermions. -/
def OpT.signed (s : Bool) (W : OpT Q K) : SpT Q K := W.odd.smul (paritySign K s) ++ W.even

theorem entry_signed_op (s : Bool) (W : OpT Q K) (x : List (Q × Nat)) : entry (W.signed s) x = opEntry W s x := by
  unfold OpT.signed opEntry
  rw [entry_append, C11_smul, add_comm]

theorem conforms_signed {legs : List (BondInfo Q)} {W : OpT Q K} (h : OpBlocks legs W) (s : Bool) : Conforms legs (W.signed s) :=
  Conforms.append.2 ⟨conforms_mapShape _ (fun _ => rfl) (fun _ => rfl) h.odd, h.even⟩

/-- The chain of tensors seen by the column states `ds`. -/
def signedChain (isF : Q → Bool) : List (OpT Q K) → Bool → List (List (Q × Nat)) → List (SpT Q K)
  | [], _, _ => []
  | W :: ws, s, [] => W.signed s :: signedChain isF ws s []
  | W :: ws, s, d :: ds => W.signed s :: signedChain isF ws (xor s (fermParity isF (d.map Prod.fst))) ds

theorem signedChain_cons (isF : Q → Bool) (W : OpT Q K) (ws : List (OpT Q K)) (s : Bool) (ds : List (List (Q × Nat))) :
    ∃ (s' : Bool) (ds' : List (List (Q × Nat))), signedChain isF (W :: ws) s ds = W.signed s :: signedChain isF ws s' ds' ∧
      ∀ (V : OpT Q K) (vs : List (OpT Q K)), signedChain isF (V :: vs) s ds = V.signed s :: signedChain isF vs s' ds' := by
  rcases ds with _ | ⟨d, ds⟩
  · exact ⟨_, _, rfl, fun _ _ => rfl⟩
  · exact ⟨_, _, rfl, fun _ _ => rfl⟩

theorem signedChain_onBonds (isF : Q → Bool) {l : BondInfo Q} {bonds : List (BondInfo Q)} {phys : List (List (BondInfo Q) × List (BondInfo Q))}
    {ws : List (OpT Q K)} (h : OpOn (l :: bonds) phys ws) (s : Bool) (ds : List (List (Q × Nat))) :
    OnBonds (l :: bonds) (joinPhys phys) (signedChain isF ws s ds) := by
  induction bonds generalizing l phys ws s ds with
  | nil => obtain ⟨rfl, rfl⟩ := h.one_inv; trivial
  | cons r bonds ih =>
    obtain ⟨ph, phys, W, ws, rfl, rfl, h1, h2⟩ := h.cons_inv
    obtain ⟨s', ds', e, -⟩ := signedChain_cons isF W ws s ds
    rw [e]
    refine ⟨?_, ih h2 s' ds'⟩
    have := conforms_signed h1 s
    simpa using this

theorem opAmpl_length (isF : Q → Bool) (ws : List (OpT Q K)) (X : List (BondInfo Q)) (s : Bool) (x : Q × Nat) (us ds : List (List (Q × Nat)))
    (y : Q × Nat) (h : us.length ≠ ds.length) : opAmpl isF ws X s x us ds y = 0 := by
  induction ws generalizing X s x us ds with
  | nil => simp [opAmpl]
  | cons W ws ih =>
    rcases us with _ | ⟨u, us⟩
    · simp [opAmpl]
    rcases ds with _ | ⟨d, ds⟩
    · simp [opAmpl]
    rcases X with _ | ⟨b, X⟩
    · rcases ws with _ | ⟨W', ws⟩
      · rcases us with _ | ⟨u', us⟩ <;> rcases ds with _ | ⟨d', ds⟩
        · simp at h
        · simp [opAmpl]
        · simp [opAmpl]
        · simp [opAmpl]
      · simp [opAmpl]
    · rw [opAmpl_cons]
      refine sum_map_zero' _ _ fun z _ => ?_
      rw [ih _ _ _ _ _ (by simpa using h), mul_zero]

theorem opAmpl_signed (isF : Q → Bool) (ws : List (OpT Q K)) (X : List (BondInfo Q)) (s : Bool) (x : Q × Nat) (us ds : List (List (Q × Nat)))
    (y : Q × Nat) (h : us.length = ds.length) :
    opAmpl isF ws X s x us ds y = ampl (signedChain isF ws s ds) X x (us.zipWith (· ++ ·) ds) y := by
  induction ws generalizing X s x us ds with
  | nil => simp [opAmpl, signedChain, ampl]
  | cons W ws ih =>
    rcases us with _ | ⟨u, us⟩ <;> rcases ds with _ | ⟨d, ds⟩
    · simp [opAmpl, ampl_noSites]
    · simp at h
    · simp at h
    have hl : us.length = ds.length := by simpa using h
    rw [signedChain, List.zipWith_cons_cons]
    rcases X with _ | ⟨b, X⟩
    · rcases ws with _ | ⟨W', ws⟩
      · rcases us with _ | ⟨u', us⟩ <;> rcases ds with _ | ⟨d', ds⟩
        · rw [signedChain, opAmpl, List.zipWith_nil_left, ampl, entry_signed_op]
          simp
        · simp at hl
        · simp at hl
        · simp [opAmpl, ampl, signedChain]
      · obtain ⟨s', ds', e, -⟩ := signedChain_cons isF W' ws (xor s (fermParity isF (d.map Prod.fst))) ds
        rw [e]
        simp [opAmpl, ampl]
    · rw [opAmpl_cons, ampl_cons]
      refine sum_map_congr' _ _ _ fun z _ => ?_
      rw [ih _ _ _ _ _ hl, entry_signed_op]
      simp

theorem ampl_congr {as bs : List (SpT Q K)} (h : List.Forall₂ (fun A B => ∀ x p y, entry A (x :: p ++ [y]) = entry B (x :: p ++ [y])) as bs)
    (X : List (BondInfo Q)) (x : Q × Nat) (ps : List (List (Q × Nat))) (y : Q × Nat) : ampl as X x ps y = ampl bs X x ps y := by
  induction h generalizing X x ps with
  | nil => rfl
  | cons h1 h2 ih =>
    rcases ps with _ | ⟨p, ps⟩
    · rw [ampl_noSites, ampl_noSites]
    rcases X with _ | ⟨b, X⟩
    · cases h2 with
      | nil =>
        rcases ps with _ | ⟨p', ps⟩
        · rw [ampl, ampl, h1]
        · simp [ampl]
      | cons _ _ => simp [ampl]
    · rw [ampl_cons, ampl_cons]
      refine sum_map_congr' _ _ _ fun z _ => ?_
      rw [h1, ih]

/-- The direct sum of operator tensors behind an even or odd number of fermions. -/
theorem opKronAdd_entry {l r l' r' L R : BondInfo Q} {ph : List (BondInfo Q)} {A B : OpT Q K} (hA : OpBlocks (l :: ph ++ [r]) A)
    (hB : OpBlocks (l' :: ph ++ [r']) B) (hL : Fits l l' L) (hR : Fits r r' R) (s : Bool) (x y : Q × Nat) (p : List (Q × Nat)) :
    entry ((A.kronAdd B L R).signed s) (x :: p ++ [y]) = entry (SpT.kronAdd (A.signed s) (B.signed s) L R) (x :: p ++ [y]) := by
  rw [entry_signed_op, kronAdd_entry (conforms_signed hA s) (conforms_signed hB s) hL hR]
  unfold opEntry OpT.kronAdd
  rw [kronAdd_entry hA.odd hB.odd hL hR, kronAdd_entry hA.even hB.even hL hR]
  simp only [entry_signed_op, opEntry]
  split_ifs
  · ring
  · ring

theorem opKronAdd_blocks {l r l' r' L R : BondInfo Q} {ph : List (BondInfo Q)} {A B : OpT Q K} (hA : OpBlocks (l :: ph ++ [r]) A)
    (hB : OpBlocks (l' :: ph ++ [r']) B) (hL : Fits l l' L) (hR : Fits r r' R) : OpBlocks (L :: ph ++ [R]) (A.kronAdd B L R) :=
  ⟨(kronAdd_spec hA.odd hB.odd hL hR).1, (kronAdd_spec hA.even hB.even hL hR).1, (kronAdd_spec hA.odd hB.odd hL hR).2.1,
    (kronAdd_spec hA.even hB.even hL hR).2.1⟩

theorem opKronAddSites_spec (isF : Q → Bool) {as bs : List (OpT Q K)} {X Y : List (BondInfo Q)} {lA lB L E : BondInfo Q}
    {phys : List (List (BondInfo Q) × List (BondInfo Q))}
    (hA : OpOn (lA :: X ++ [E]) phys as) (hB : OpOn (lB :: Y ++ [E]) phys bs) (hlen : X.length = Y.length)
    (hX : ∀ b ∈ X, GoodBond b) (hY : ∀ b ∈ Y, GoodBond b) (hE : ∀ x ∈ E, 0 < x.2) (hL : Fits lA lB L)
    (N : List (BondInfo Q)) (hN : N = (X.zip Y).map fun x => BondInfo.addCounts x.1 x.2) :
    OpOn (L :: N ++ [E]) phys (Mpo.kronAddSites as bs (L :: N ++ [E])) ∧ ∀ s ds,
      List.Forall₂ (fun A B => ∀ x p y, entry A (x :: p ++ [y]) = entry B (x :: p ++ [y])) (signedChain isF (Mpo.kronAddSites as bs (L :: N ++ [E])) s ds)
        (Mps.kronAddSites (signedChain isF as s ds) (signedChain isF bs s ds) (L :: N ++ [E])) := by
  have ea : ∀ (l r : BondInfo Q) (ph : List (BondInfo Q) × List (BondInfo Q)) (W : OpT Q K), OpBlocks (l :: ph.1 ++ ph.2 ++ [r]) W ↔
      OpBlocks (l :: (ph.1 ++ ph.2) ++ [r]) W := fun l r ph W => by simp
  induction X generalizing as bs Y lA lB L phys N with
  | nil =>
    obtain rfl : Y = [] := List.length_eq_zero_iff.1 hlen.symm
    obtain rfl : N = [] := hN
    obtain ⟨ph, phys, A, as, rfl, rfl, a1, a2⟩ := OpOn.cons_inv (bonds := []) hA
    obtain ⟨ph', phys', B, bs, e, rfl, b1, b2⟩ := OpOn.cons_inv (bonds := []) hB
    obtain ⟨rfl, rfl⟩ := a2.one_inv
    obtain ⟨rfl, rfl⟩ : ph' = ph ∧ phys' = [] := by simpa [eq_comm] using e
    obtain ⟨-, rfl⟩ := b2.one_inv
    rw [ea] at a1 b1
    refine ⟨⟨(ea _ _ _ _).2 (opKronAdd_blocks a1 b1 hL (Fits.self hE)), trivial⟩, fun s ds => ?_⟩
    obtain ⟨s', ds', e, e'⟩ := signedChain_cons isF A [] s ds
    have k1 : Mpo.kronAddSites [A] [B] ([L] ++ [E]) = [A.kronAdd B L E] := rfl
    rw [e, e' B [], k1, e' _ []]
    exact .cons (fun x p y => opKronAdd_entry a1 b1 hL (Fits.self hE) s x y p) .nil
  | cons b X ih =>
    rcases Y with _ | ⟨c, Y⟩
    · simp at hlen
    obtain ⟨ph, phys, A, as, rfl, rfl, a1, a2⟩ := OpOn.cons_inv (bonds := X ++ [E]) hA
    obtain ⟨ph', phys', B, bs, e, rfl, b1, b2⟩ := OpOn.cons_inv (bonds := Y ++ [E]) hB
    obtain ⟨rfl, rfl⟩ : ph' = ph ∧ phys' = phys := by simpa [eq_comm] using e
    subst hN
    have hb := hX b (List.mem_cons_self ..)
    have hc := hY c (List.mem_cons_self ..)
    have hR := Fits.add hb hc
    obtain ⟨i1, i2⟩ := ih a2 b2 (by simpa using hlen) (fun d hd => hX d (List.mem_cons_of_mem _ hd))
      (fun d hd => hY d (List.mem_cons_of_mem _ hd)) hR _ rfl
    rw [ea] at a1 b1
    have hk : Mpo.kronAddSites (A :: as) (B :: bs) (L :: ((b :: X).zip (c :: Y)).map (fun x => BondInfo.addCounts x.1 x.2) ++ [E]) =
        OpT.kronAdd A B L (BondInfo.addCounts b c) ::
          Mpo.kronAddSites as bs (BondInfo.addCounts b c :: (X.zip Y).map (fun x => BondInfo.addCounts x.1 x.2) ++ [E]) := rfl
    rw [hk]
    refine ⟨⟨(ea _ _ _ _).2 (opKronAdd_blocks a1 b1 hL hR), i1⟩, fun s ds => ?_⟩
    obtain ⟨s', ds', e, e'⟩ := signedChain_cons isF A as s ds
    rw [e, e' B bs, e']
    exact .cons (fun x p y => opKronAdd_entry a1 b1 hL hR s x y p) (i2 s' ds')

/-- Bonds found on the tensors of a chain. -/
def SiteSpecs : List (BondInfo Q) → List (List (BondInfo Q)) → List (SpT Q K) → List (List (BondInfo Q)) → Prop
  | [_], [], [], [] => True
  | l :: r :: bonds, ph :: phys, T :: ts, I :: is => InfoSpec (l :: ph ++ [r]) T I ∧ SiteSpecs (r :: bonds) phys ts is
  | _, _, _, _ => False

theorem getLastD_getD (I : List (BondInfo Q)) (n : Nat) (h : I.length = n + 1) : I.getLastD [] = I.getD n [] := by
  rw [List.getLastD_eq_getLast?, List.getLast?_eq_getElem?, h, List.getD_eq_getElem?_getD]
  rfl

/-- The sites live on the bonds found on them. -/
theorem rehomeSites {l r F E : BondInfo Q} {X : List (BondInfo Q)} {phys : List (List (BondInfo Q))} {ts : List (SpT Q K)} {is : List (List (BondInfo Q))}
    (h : OnBonds (l :: X ++ [r]) phys ts) (hI : SiteSpecs (l :: X ++ [r]) phys ts is)
    (hF : ∀ q s, OccursOn (ts.headD []) 0 q → Dict.get? l q = some s → Dict.get? F q = some s)
    (hE : ∀ q s, OccursOn (ts.getLastD []) ((phys.getLastD []).length + 1) q → Dict.get? r q = some s → Dict.get? E q = some s) :
    OnBonds (F :: Mps.innerBonds is ++ [E]) phys ts ∧ (Mps.innerBonds is).length = X.length ∧ ∀ b ∈ Mps.innerBonds is, GoodBond b := by
  induction X generalizing l F phys ts is with
  | nil =>
    rcases phys with _ | ⟨ph, phys⟩
    · exact h.elim
    rcases ts with _ | ⟨T, ts⟩
    · exact h.elim
    rcases is with _ | ⟨I, is⟩
    · exact hI.elim
    have hts : phys = [] ∧ ts = [] ∧ is = [] := by
      have h2 := hI.2
      rcases phys with _ | ⟨ph, phys⟩ <;> rcases ts with _ | ⟨T, ts⟩ <;> rcases is with _ | ⟨I, is⟩ <;> simp_all [SiteSpecs]
    obtain ⟨rfl, rfl, rfl⟩ := hts
    refine ⟨⟨Conforms.ends h.1 hF hE, trivial⟩, rfl, ?_⟩
    simp [Mps.innerBonds]
  | cons b X ih =>
    rcases phys with _ | ⟨ph, _ | ⟨ph', phys⟩⟩
    · exact h.elim
    · rcases ts with _ | ⟨T, _ | ⟨T', ts⟩⟩ <;> rcases X with _ | ⟨c, X⟩ <;> exact absurd h (by simp [OnBonds])
    rcases ts with _ | ⟨T, _ | ⟨T', ts⟩⟩
    · exact h.elim
    · rcases X with _ | ⟨c, X⟩ <;> exact absurd h (by simp [OnBonds])
    rcases is with _ | ⟨I, _ | ⟨I', is⟩⟩
    · exact hI.elim
    · rcases X with _ | ⟨c, X⟩ <;> exact absurd hI (by simp [SiteSpecs])
    obtain ⟨r', X', hr'⟩ : ∃ r' X', X ++ [r] = r' :: X' := by
      rcases X with _ | ⟨c, X⟩
      · exact ⟨_, _, rfl⟩
      · exact ⟨_, _, rfl⟩
    have hIT := hI.1
    have hIT' : InfoSpec (b :: ph' ++ [r']) T' I' := by
      have h2 := hI.2
      rw [List.append_eq, hr'] at h2
      exact h2.1
    have k0 : 0 < (b :: ph' ++ [r']).length := by simp
    have k1 : ph.length + 1 < (l :: ph ++ [b]).length := by simp
    have hlast : I.getLastD [] = I.getD (ph.length + 1) [] := getLastD_getD I _ (by rw [hIT.length]; simp)
    have g := union_get (l := b) (P := OccursOn T' 0) (P' := OccursOn T (ph.length + 1)) (hIT'.good 0 k0) (hIT.good _ k1)
      (fun q s => hIT'.get 0 k0 q s) (fun q s => by have := hIT.get _ k1 q s; rwa [getD_mid] at this)
    let B := BondInfo.union (I'.getD 0 []) (I.getD (ph.length + 1) [])
    have hB : Mps.innerBonds (I :: I' :: is) = B :: Mps.innerBonds (I' :: is) := by rw [Mps.innerBonds, hlast]
    obtain ⟨i1, i2, i3⟩ := ih (l := b) (F := B) (phys := ph' :: phys) (ts := T' :: ts) (is := I' :: is) h.2 hI.2
      (fun q s ho hq => (g q s).2 ⟨hq, Or.inl ho⟩) (by simpa using hE)
    rw [hB]
    refine ⟨⟨Conforms.ends h.1 hF fun q s ho hq => (g q s).2 ⟨hq, Or.inr ho⟩, i1⟩, (congrArg (· + 1) i2).trans (by simp), ?_⟩
    intro c hc
    rcases List.mem_cons.1 hc with rfl | hc
    · exact good_union _ _
    · exact i3 c hc

theorem OpOn.both {l : BondInfo Q} {bonds : List (BondInfo Q)} {phys : List (List (BondInfo Q) × List (BondInfo Q))} {ws : List (OpT Q K)}
    (h : OpOn (l :: bonds) phys ws) : OnBonds (l :: bonds) (joinPhys phys) (ws.map OpT.both) := by
  induction bonds generalizing l phys ws with
  | nil => obtain ⟨rfl, rfl⟩ := h.one_inv; trivial
  | cons r bonds ih =>
    obtain ⟨ph, phys, T, ts, rfl, rfl, h1, h2⟩ := h.cons_inv
    have := h1.both
    exact ⟨by simpa using this, ih h2⟩

theorem OpOn.rehome {l l' : BondInfo Q} {bonds bonds' : List (BondInfo Q)} {phys : List (List (BondInfo Q) × List (BondInfo Q))}
    {ts : List (OpT Q K)} (h : OpOn (l :: bonds) phys ts) (h' : OnBonds (l' :: bonds') (joinPhys phys) (ts.map OpT.both))
    (hl : bonds'.length = bonds.length) : OpOn (l' :: bonds') phys ts := by
  induction bonds generalizing l l' bonds' phys ts with
  | nil =>
    obtain rfl : bonds' = [] := List.length_eq_zero_iff.1 hl
    obtain ⟨rfl, rfl⟩ := h.one_inv
    trivial
  | cons r bonds ih =>
    rcases bonds' with _ | ⟨r', bonds'⟩
    · simp at hl
    obtain ⟨ph, phys, T, ts, rfl, rfl, h1, h2⟩ := h.cons_inv
    have c : Conforms (l' :: (ph.1 ++ ph.2) ++ [r']) T.both := h'.1
    have c' : Conforms (l' :: ph.1 ++ ph.2 ++ [r']) T.both := by simpa using c
    have := Conforms.append.1 c'
    exact ⟨⟨this.1, this.2, h1.oddUnique, h1.evenUnique⟩, ih h2 h'.2 (by simpa using hl)⟩

theorem opSiteSpecs {l : BondInfo Q} {bonds : List (BondInfo Q)} {phys : List (List (BondInfo Q) × List (BondInfo Q))} {ts : List (OpT Q K)}
    (h : OpOn (l :: bonds) phys ts) (hg : ∀ b ∈ l :: bonds, GoodBond b) (hp : ∀ ph ∈ phys, ∀ b ∈ ph.1 ++ ph.2, GoodBond b)
    (hne : ∀ T ∈ ts, T.noBlocks = false) : ∃ is, ts.mapM OpT.infos = some is ∧ SiteSpecs (l :: bonds) (joinPhys phys) (ts.map OpT.both) is := by
  induction bonds generalizing l phys ts with
  | nil =>
    obtain ⟨rfl, rfl⟩ := h.one_inv
    exact ⟨[], rfl, trivial⟩
  | cons r bonds ih =>
    obtain ⟨ph, phys, T, ts, rfl, rfl, h1, h2⟩ := h.cons_inv
    obtain ⟨is, i1, i2⟩ := ih h2 (fun b hb => hg b (List.mem_cons_of_mem _ hb)) (fun p h => hp p (List.mem_cons_of_mem _ h))
      fun T hT => hne T (List.mem_cons_of_mem _ hT)
    obtain ⟨I, j1, j2⟩ := opInfoSpec h1 (hne T (List.mem_cons_self ..)) (by
      intro b hb
      simp only [List.cons_append, List.mem_append, List.mem_cons, List.not_mem_nil, or_false] at hb
      rcases hb with rfl | (hb | hb) | rfl
      · exact hg _ (by simp)
      · exact hp ph (by simp) b (List.mem_append_left _ hb)
      · exact hp ph (by simp) b (List.mem_append_right _ hb)
      · exact hg _ (by simp)) (by simp)
    refine ⟨I :: is, ?_, ?_, i2⟩
    · rw [List.mapM_cons, j1, i1]
      rfl
    · have e : l :: ph.1 ++ ph.2 ++ [r] = l :: (ph.1 ++ ph.2) ++ [r] := by simp
      rwa [e] at j2

theorem SiteSpecs.first {l r : BondInfo Q} {X : List (BondInfo Q)} {phys : List (List (BondInfo Q))} {ts : List (SpT Q K)}
    {is : List (List (BondInfo Q))} (hI : SiteSpecs (l :: X ++ [r]) phys ts is) :
    GoodBond ((is.headD []).headD []) ∧ ∀ q s, Dict.get? ((is.headD []).headD []) q = some s ↔ Dict.get? l q = some s ∧ OccursOn (ts.headD []) 0 q := by
  have : ∃ b, InfoSpec (l :: phys.headD [] ++ [b]) (ts.headD []) (is.headD []) := by
    rcases X with _ | ⟨c, X⟩ <;> rcases phys with _ | ⟨ph, phys⟩ <;> rcases ts with _ | ⟨T, ts⟩ <;> rcases is with _ | ⟨I, is⟩ <;>
      first | exact hI.elim | exact ⟨_, hI.1⟩
  obtain ⟨b, h⟩ := this
  have e : (is.headD []).headD [] = (is.headD []).getD 0 [] := by
    generalize is.headD [] = I
    rcases I with _ | ⟨i, I⟩ <;> rfl
  rw [e]
  exact ⟨h.good 0 (by simp), h.get 0 (by simp)⟩

theorem SiteSpecs.last {l r : BondInfo Q} {X : List (BondInfo Q)} {phys : List (List (BondInfo Q))} {ts : List (SpT Q K)}
    {is : List (List (BondInfo Q))} (hI : SiteSpecs (l :: X ++ [r]) phys ts is) :
    GoodBond ((is.getLastD []).getLastD []) ∧ ∀ q s, Dict.get? ((is.getLastD []).getLastD []) q = some s ↔ Dict.get? r q = some s ∧
      OccursOn (ts.getLastD []) ((phys.getLastD []).length + 1) q := by
  have : ∃ b, InfoSpec (b :: phys.getLastD [] ++ [r]) (ts.getLastD []) (is.getLastD []) := by
    induction X generalizing l phys ts is with
    | nil =>
      rcases phys with _ | ⟨ph, _ | ⟨ph', phys⟩⟩ <;> rcases ts with _ | ⟨T, _ | ⟨T', ts⟩⟩ <;> rcases is with _ | ⟨I, _ | ⟨I', is⟩⟩ <;>
        first | exact hI.elim | exact hI.2.elim | exact ⟨_, hI.1⟩
    | cons c X ih =>
      rcases phys with _ | ⟨ph, phys⟩ <;> rcases ts with _ | ⟨T, ts⟩ <;> rcases is with _ | ⟨I, is⟩ <;> first | exact hI.elim | skip
      have h2 := hI.2
      obtain ⟨b, hb⟩ := ih h2
      rcases phys with _ | ⟨ph', phys⟩ <;> rcases ts with _ | ⟨T', ts⟩ <;> rcases is with _ | ⟨I', is⟩ <;> rcases X with _ | ⟨c', X⟩ <;> first | exact h2.elim | skip
      all_goals exact ⟨b, by simpa using hb⟩
  obtain ⟨b, h⟩ := this
  have e : (is.getLastD []).getLastD [] = (is.getLastD []).getD ((phys.getLastD []).length + 1) [] := getLastD_getD _ _ (by rw [h.length]; simp)
  rw [e]
  refine ⟨h.good _ (by simp), fun q s => ?_⟩
  have := h.get ((phys.getLastD []).length + 1) (by simp) q s
  rwa [getD_mid] at this

end
end Verif
