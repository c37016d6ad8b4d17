import Verif.Proof.MpeWindow
import Verif.Proof.MpeGauge

/-!
C57: the sub-system that a sweep works on (`mpe[l:r]`, `/repo/pyblock3/algebra/mpe.py`) is the whole problem restricted to the window: its
`⟨bra|operator|ket⟩` is that of the whole network.
-/

set_option linter.unusedSectionVars false

namespace Verif
section
variable {Q K : Type} [DecidableEq Q] [AddCommGroup Q] [CommRing K] [StarRing K]

theorem foldlM_snoc {α β : Type} (f : β → α → Option β) (b : β) (l : List α) (a : α) :
    (l ++ [a]).foldlM f b = (l.foldlM f b).bind fun x => f x a := by
  rw [List.foldlM_append]
  congr 1
  funext x
  simp

theorem leftEnv_eq {isF : Q → Bool} {qr : Arr K → Arr K × Arr K} {canon same : Bool} {mpo : List (OpT Q K)} {ids : Mpe.Idents Q K}
    {f g : Nat → SpT Q K} {S : List (NSite Q K)} (hW : S.map (·.W) = mpo) (hB : S.map (·.B) = (List.range mpo.length).map g)
    (hT : S.map (·.T) = (List.range mpo.length).map f) {l : Nat} (hl : l ≤ mpo.length) :
    Mpe.leftEnv (Mpe.sweepCfg isF qr canon same mpo ids) f g l = leftOver isF ids.lMpo (S.take l) := by
  have hlen : S.length = mpo.length := by rw [← hW, List.length_map]
  induction l with
  | zero => rfl
  | succ l ih =>
    have hl' : l < S.length := by omega
    rw [Mpe.leftEnv, ih (by omega), List.take_succ, List.getElem?_eq_getElem hl']
    show _ = leftOver isF ids.lMpo (S.take l ++ [S[l]])
    conv_rhs => unfold leftOver; rw [foldlM_snoc]
    have e1 : S[l].W = mpo.getD l ⟨[], []⟩ := by
      rw [← hW]; simp [hl']
    have e2 : S[l].B = g l := by
      have : (S.map (·.B))[l]'(by simpa using hl') = ((List.range mpo.length).map g)[l]'(by simp; omega) := by simp only [hB]
      simpa using this
    have e3 : S[l].T = f l := by
      have : (S.map (·.T))[l]'(by simpa using hl') = ((List.range mpo.length).map f)[l]'(by simp; omega) := by simp only [hT]
      simpa using this
    rw [e1, e2, e3]
    rfl

theorem rightEnv_eq {isF : Q → Bool} {qr : Arr K → Arr K × Arr K} {canon same : Bool} {mpo : List (OpT Q K)} {ids : Mpe.Idents Q K}
    {f g : Nat → SpT Q K} {S : List (NSite Q K)} (hW : S.map (·.W) = mpo) (hB : S.map (·.B) = (List.range mpo.length).map g)
    (hT : S.map (·.T) = (List.range mpo.length).map f) (m : Nat) : ∀ r, r + m = mpo.length →
    Mpe.rightEnv (Mpe.sweepCfg isF qr canon same mpo ids) f g r = rightOver isF ids.rMpo (S.drop r) := by
  have hlen : S.length = mpo.length := by rw [← hW, List.length_map]
  induction m with
  | zero =>
    intro r hr
    have : r = (Mpe.sweepCfg isF qr canon same mpo ids).n := by show r = mpo.length; omega
    rw [this, Mpe.rightEnv_self]
    show _ = rightOver isF ids.rMpo (S.drop mpo.length)
    rw [List.drop_of_length_le (by omega)]
    rfl
  | succ m ih =>
    intro r hr
    have hr' : r < S.length := by omega
    rw [Mpe.rightEnv_step (show r < (Mpe.sweepCfg isF qr canon same mpo ids).n by show r < mpo.length; omega), ih (r + 1) (by omega),
      List.drop_eq_getElem_cons hr']
    have e1 : S[r].W = mpo.getD r ⟨[], []⟩ := by
      rw [← hW]; simp [hr']
    have e2 : S[r].B = g r := by
      have : (S.map (·.B))[r]'(by simpa using hr') = ((List.range mpo.length).map g)[r]'(by simp; omega) := by simp only [hB]
      simpa using this
    have e3 : S[r].T = f r := by
      have : (S.map (·.T))[r]'(by simpa using hr') = ((List.range mpo.length).map f)[r]'(by simp; omega) := by simp only [hT]
      simpa using this
    rw [rightOver, e1, e2, e3]
    rfl

/-- The sites of a network. -/
theorem Network.sites {isF : Q → Bool} {qb qk : Q} {Y X Z : List (BondInfo Q)} {phys : List (List (BondInfo Q) × List (BondInfo Q))}
    {bs : List (SpT Q K)} {ws : List (OpT Q K)} {ks : List (SpT Q K)} (h : Network isF qb qk Y X Z phys bs ws ks) :
    ∃ S : List (NSite Q K), NOk isF [(0, 1)] [(0, 1)] [(0, 1)] S ∧ S.map (·.B) = bs ∧ S.map (·.W) = ws ∧ S.map (·.T) = ks ∧ rightEdge qb qk S ∧
      (∀ σ ∈ S, σ.good) ∧ (∀ s b m k, sandwich isF phys Y X Z bs ws ks s b m k (qb, 0) (0, 0) (qk, 0) = net isF (edge (qb, 0) (0, 0) (qk, 0)) S s b m k) ∧
      S.map (·.rb) = Y ++ [[(qb, 1)]] ∧ S.map (·.rk) = Z ++ [[(qk, 1)]] ∧ S.map (fun σ => (σ.ups, σ.downs)) = phys := by
  have g1 : ∀ q : Q, GoodBond [(q, 1)] := goodBond_one
  obtain ⟨S, h1, h2, h3, h4, h5, h6, h7, h8⟩ := toSites (isF := isF) (phys := phys) (lb := [(0, 1)]) (lm := [(0, 1)]) (lk := [(0, 1)]) (bs := bs) (ws := ws) (ks := ks) (Y := Y ++ [[(qb, 1)]]) (X := X ++ [[(0, 1)]]) (Z := Z ++ [[(qk, 1)]]) (by simpa only [List.cons_append] using h.bra)
    (by simpa only [List.cons_append] using h.op) (by simpa only [List.cons_append] using h.ket)
    (by
      intro c hc
      simp only [List.mem_cons, List.mem_append, List.cons_append, List.not_mem_nil, or_false] at hc
      rcases hc with rfl | rfl | rfl | ((hc | rfl) | (hc | rfl)) | (hc | rfl)
      · exact (g1 _).1
      · exact (g1 _).1
      · exact (g1 _).1
      · exact (h.bonds c (by simp [hc])).1
      · exact (g1 _).1
      · exact (h.bonds c (by simp [hc])).1
      · exact (g1 _).1
      · exact (h.bonds c (by simp [hc])).1
      · exact (g1 _).1)
    (fun ph hph => ⟨(h.legs ph hph).2.1, fun c hc => ((h.legs ph hph).2.2 c hc).1⟩) h.braEven h.ketEven
  have gg : ∀ (V : List (BondInfo Q)) (q : Q), (∀ c ∈ V, GoodBond c) → ∀ c ∈ V ++ [[(q, 1)]], GoodBond c := by
    intro V q hV c hc
    rcases List.mem_append.1 hc with hc | hc
    · exact hV c hc
    · rw [List.mem_singleton.1 hc]; exact g1 q
  refine ⟨S, h1, h6, h7, h8, ⟨?_, ?_, ?_⟩, ?_, ?_, h2, h4, h5⟩
  · rw [h2, getLastD_append_cons]; rfl
  · rw [h3, getLastD_append_cons]; rfl
  · rw [h4, getLastD_append_cons]; rfl
  · intro σ hσ
    have hph : (σ.ups, σ.downs) ∈ phys := by rw [← h5]; exact List.mem_map_of_mem hσ
    refine ⟨(h.legs _ hph).1, ?_, ?_, ?_, (h.legs _ hph).2.2⟩
    · exact gg Y qb (fun c hc => h.bonds c (by simp [hc])) _ (by rw [← h2]; exact List.mem_map_of_mem hσ)
    · exact gg X 0 (fun c hc => h.bonds c (by simp [hc])) _ (by rw [← h3]; exact List.mem_map_of_mem hσ)
    · exact gg Z qk (fun c hc => h.bonds c (by simp [hc])) _ (by rw [← h4]; exact List.mem_map_of_mem hσ)
  · intro s b m k
    have l2 := congrArg List.length h2
    have l3 := congrArg List.length h3
    have l4 := congrArg List.length h4
    have l5 := congrArg List.length h5
    have l6 := congrArg List.length h6
    have l7 := congrArg List.length h7
    have l8 := congrArg List.length h8
    simp only [List.length_map, List.length_append, List.length_cons, List.length_nil] at l2 l3 l4 l5 l6 l7 l8
    rw [sandwich_eq_net isF s b m k (by omega) (by omega) (by omega) (by omega) (by omega) (by omega), ← h2, ← h3, ← h4, ← h5, ← h6, ← h7, ← h8,
      mkSites_map]

theorem range_map_window {α : Type} (n l r : Nat) (f : Nat → α) (hr : r ≤ n) :
    ((((List.range n).map f).drop l).take (r - l)) = (List.range' l (r - l)).map f := by
  apply List.ext_getElem
  · simp; omega
  · intro i h1 h2
    simp

/-- A window of at least two sites, the tensors given by functions of the site. -/
theorem window_functions {isF : Q → Bool} (h0 : isF 0 = false) {qr : Arr K → Arr K × Arr K} {canon same : Bool} {qb qk : Q} {dq : Option Q}
    {ids : Mpe.Idents Q K} (hI : IdentsFor isF qb qk dq ids) {mpo : List (OpT Q K)} {f g : Nat → SpT Q K} {Y X Z : List (BondInfo Q)}
    {phys : List (List (BondInfo Q) × List (BondInfo Q))}
    (h : Network isF qb qk Y X Z phys ((List.range mpo.length).map g) mpo ((List.range mpo.length).map f))
    {l r : Nat} (hlr : l + 2 ≤ r) (hr : r ≤ mpo.length) (hf : ∀ i < mpo.length, g i ≠ [] ∧ f i ≠ []) (c : K) :
    ∃ L R bra o ket, Mpe.leftEnv (Mpe.sweepCfg isF qr canon same mpo ids) f g l = some L ∧
      Mpe.rightEnv (Mpe.sweepCfg isF qr canon same mpo ids) f g r = some R ∧
      Mpe.effMps ids.lKet ((List.range' l (r - l)).map f) ids.rKet = some ket ∧ Mpe.effMps ids.lBra ((List.range' l (r - l)).map g) ids.rBra = some bra ∧
      Mpe.effMpo isF L ((mpo.drop l).take (r - l)) R c = some o ∧ o.const = c ∧ ket.const = 0 ∧ bra.const = 0 ∧
      ∃ Y' X' Z' phys', X' ≠ [] ∧ Network isF 0 0 Y' X' Z' phys' bra.tensors o.tensors ket.tensors ∧
        sandwich isF phys' Y' X' Z' bra.tensors o.tensors ket.tensors false (0, 0) (0, 0) (0, 0) (0, 0) (0, 0) (0, 0) =
          paritySign K (isF (dq.getD 0) && isF qk) * sandwich isF phys Y X Z ((List.range mpo.length).map g) mpo ((List.range mpo.length).map f) false
            (0, 0) (0, 0) (0, 0) (qb, 0) (0, 0) (qk, 0) := by
  obtain ⟨S, hS, hB, hW, hT, hE, hG, hV, -⟩ := h.sites
  have hlen : S.length = mpo.length := by rw [← hW, List.length_map]
  have hfull : ∀ σ ∈ S, σ.full := by
    intro σ hσ
    have hb : σ.B ∈ S.map (·.B) := List.mem_map_of_mem hσ
    have ht : σ.T ∈ S.map (·.T) := List.mem_map_of_mem hσ
    rw [hB] at hb
    rw [hT] at ht
    obtain ⟨i, hi, e1⟩ := List.mem_map.1 hb
    obtain ⟨j, hj, e2⟩ := List.mem_map.1 ht
    exact ⟨e1 ▸ (hf i (List.mem_range.1 hi)).1, e2 ▸ (hf j (List.mem_range.1 hj)).2⟩
  obtain ⟨σ0, M, σ1, hw⟩ : ∃ σ0 M σ1, (S.drop l).take (r - l) = σ0 :: M ++ [σ1] := by
    have hl2 : 2 ≤ ((S.drop l).take (r - l)).length := by simp; omega
    generalize (S.drop l).take (r - l) = w at hl2
    rcases w with _ | ⟨a, w⟩
    · simp at hl2
    · have : w ≠ [] := by rintro rfl; simp at hl2
      exact ⟨a, w.dropLast, w.getLast this, by rw [List.cons_append, List.dropLast_append_getLast]⟩
  have hdec : S = S.take l ++ (σ0 :: M ++ σ1 :: S.drop r) := by
    have e1 : (S.drop l).drop (r - l) = S.drop r := by rw [List.drop_drop]; congr 1; omega
    have e2 : S.drop l = (σ0 :: M ++ [σ1]) ++ S.drop r := by
      rw [← hw, ← e1, List.take_append_drop]
    conv_lhs => rw [← List.take_append_drop l S, e2]
    simp
  have hmap : ∀ {α : Type} (F : NSite Q K → α) (L : List α), S.map F = L → (σ0 :: M ++ [σ1]).map F = (L.drop l).take (r - l) := by
    intro α F L hL
    rw [← hw, ← hL, List.map_take, List.map_drop]
  obtain ⟨L, R, bra, o, ket, Y', X', Z', phys', e1, e2, e3, e4, e5, e6, e7, e8, e9, e10, e11, -⟩ := window_spec h0 hI (c := c) (A := S.take l) (C := S.drop r)
    (hdec ▸ hS) (hdec ▸ hE) (fun σ hσ => hfull σ (by
      rcases List.mem_append.1 hσ with h | h
      · exact List.mem_of_mem_take h
      · exact List.mem_of_mem_drop h)) (hdec ▸ hG)
  rw [hmap _ _ hT, range_map_window _ _ _ _ hr] at e3
  rw [hmap _ _ hB, range_map_window _ _ _ _ hr] at e4
  rw [hmap _ _ hW] at e5
  rw [← hdec] at e11
  refine ⟨L, R, bra, o, ket, ?_, ?_, e3, e4, e5, e8, e9, e10, Y', X', Z', phys', e7, e6, ?_⟩
  · rw [leftEnv_eq hW hB hT (by omega), e1]
  · rw [rightEnv_eq hW hB hT (mpo.length - r) r (by omega), e2]
  · rw [e11, hV]

theorem cart_legs {phys : List (List (BondInfo Q))} {us : List (List (Q × Nat))} (h : us ∈ cart (phys.map legIndices)) :
    List.Forall₂ (fun (p : List (Q × Nat)) ph => p.length = ph.length) us phys := by
  induction phys generalizing us with
  | nil =>
    have : us = [] := by simpa [cart] using h
    rw [this]; exact .nil
  | cons ph phys ih =>
    rw [List.map_cons, cart] at h
    obtain ⟨u, hu, h⟩ := List.mem_flatMap.1 h
    obtain ⟨vs, hv, rfl⟩ := List.mem_map.1 h
    exact .cons (legIndices_length hu) (ih hv)

/-- `sandwich` depends on the states only. -/
theorem sandwich_same {isF : Q → Bool} {l r l' r' : BondInfo Q} {phys : List (List (BondInfo Q) × List (BondInfo Q))} {Y X Z Y' Z' : List (BondInfo Q)}
    {bs bs' ks ks' : List (SpT Q K)} {ws : List (OpT Q K)} (hb : SameState isF l r (phys.map Prod.fst) Y bs Y' bs')
    (hk : SameState isF l' r' (phys.map Prod.snd) Z ks Z' ks') (s : Bool) (b m k b' m' k' : Q × Nat) :
    sandwich isF phys Y' X Z' bs' ws ks' s b m k b' m' k' = sandwich isF phys Y X Z bs ws ks s b m k b' m' k' := by
  unfold sandwich
  refine sum_map_congr' _ _ _ fun us hu => sum_map_congr' _ _ _ fun ds hd => ?_
  rw [hb.ampl _ _ _ (cart_legs (by rw [List.map_map]; exact hu)), hk.ampl _ _ _ (cart_legs (by rw [List.map_map]; exact hd))]

/-- Some amplitude of the state is not zero. -/
def NonZero (phys : List (List (BondInfo Q))) (X : List (BondInfo Q)) (ts : List (SpT Q K)) (x y : Q × Nat) : Prop :=
  ∃ ps, List.Forall₂ (fun (p : List (Q × Nat)) ph => p.length = ph.length) ps phys ∧ ampl ts X x ps y ≠ 0

theorem SameState.full {isF : Q → Bool} {l r : BondInfo Q} {phys : List (List (BondInfo Q))} {X X' : List (BondInfo Q)} {ts ts' : List (SpT Q K)}
    (h : SameState isF l r phys X ts X' ts') {x y : Q × Nat} (hn : NonZero phys X ts x y) : ∀ T ∈ ts', T ≠ [] := by
  rintro T hT rfl
  obtain ⟨ps, hp, hne⟩ := hn
  rw [← h.ampl _ _ _ hp] at hne
  exact hne (ampl_empty hT _ _ _ _)

/-- The windows of an object whose identities are right. -/
theorem window_rounds {isF : Q → Bool} (h0 : isF 0 = false) {qr : Arr K → Arr K × Arr K} (hqr : Factorises qr) {canon same : Bool}
    {qb qk : Q} {dq : Option Q} {ids : Mpe.Idents Q K} (hI : IdentsFor isF qb qk dq ids) {mpo : Mpo Q K} {X Y Z : List (BondInfo Q)}
    {phys : List (List (BondInfo Q) × List (BondInfo Q))} {f g f' g' : Nat → SpT Q K}
    (hn : Network isF qb qk Y X Z phys ((List.range mpo.tensors.length).map g) mpo.tensors ((List.range mpo.tensors.length).map f))
    (hnb : NonZero (phys.map Prod.fst) Y ((List.range mpo.tensors.length).map g) (0, 0) (qb, 0))
    (hnk : NonZero (phys.map Prod.snd) Z ((List.range mpo.tensors.length).map f) (0, 0) (qk, 0)) {l r : Nat}
    (hf : Mpe.Regauged (Mpe.sweepCfg isF qr canon same mpo.tensors ids) l r f f') (hg : Mpe.Regauged (Mpe.sweepCfg isF qr canon same mpo.tensors ids) l r g g')
    (hlr : l + 2 ≤ r) (hr : r ≤ mpo.tensors.length) :
    ∃ L R bra o ket, Mpe.leftEnv (Mpe.sweepCfg isF qr canon same mpo.tensors ids) f' g' l = some L ∧
      Mpe.rightEnv (Mpe.sweepCfg isF qr canon same mpo.tensors ids) f' g' r = some R ∧
      Mpe.effMps ids.lKet ((List.range' l (r - l)).map f') ids.rKet = some ket ∧ Mpe.effMps ids.lBra ((List.range' l (r - l)).map g') ids.rBra = some bra ∧
      Mpe.effMpo isF L ((mpo.tensors.drop l).take (r - l)) R mpo.const = some o ∧ o.const = mpo.const ∧ ket.const = 0 ∧ bra.const = 0 ∧
      ∃ Y' X' Z' phys', X' ≠ [] ∧ Network isF 0 0 Y' X' Z' phys' bra.tensors o.tensors ket.tensors ∧
        sandwich isF phys' Y' X' Z' bra.tensors o.tensors ket.tensors false (0, 0) (0, 0) (0, 0) (0, 0) (0, 0) (0, 0) =
          paritySign K (isF (dq.getD 0) && isF qk) * sandwich isF phys Y X Z ((List.range mpo.tensors.length).map g) mpo.tensors
            ((List.range mpo.tensors.length).map f) false (0, 0) (0, 0) (0, 0) (qb, 0) (0, 0) (qk, 0) := by
  obtain ⟨Z', hZ'⟩ := regauged_same hqr hf (goodBond_one 0) (goodBond_one qk)
    (fun ph hph c hc => by
      obtain ⟨p, hp, rfl⟩ := List.mem_map.1 hph
      exact (hn.legs p hp).2.2 c (by simp [hc])) (fun c hc => hn.bonds c (by simp [hc])) hn.ket
  obtain ⟨Y', hY'⟩ := regauged_same hqr hg (goodBond_one 0) (goodBond_one qb)
    (fun ph hph c hc => by
      obtain ⟨p, hp, rfl⟩ := List.mem_map.1 hph
      exact (hn.legs p hp).2.2 c (by simp [hc])) (fun c hc => hn.bonds c (by simp [hc])) hn.bra
  have hn' : Network isF qb qk Y' X Z' phys ((List.range mpo.tensors.length).map g') mpo.tensors ((List.range mpo.tensors.length).map f') :=
    { bra := hY'.on, op := hn.op, ket := hZ'.on, legs := hn.legs, braEven := hY'.even hn.braEven, ketEven := hZ'.even hn.ketEven,
      bonds := by
        intro c hc
        simp only [List.mem_append] at hc
        rcases hc with (hc | hc) | hc
        · exact hY'.good c hc
        · exact hn.bonds c (by simp [hc])
        · exact hZ'.good c hc }
  obtain ⟨L, R, bra, o, ket, e1, e2, e3, e4, e5, e6, e7, e8, Y'', X'', Z'', phys'', e9, e10, e11⟩ :=
    window_functions h0 (qr := qr) (canon := canon) (same := same) hI hn' hlr hr (fun i hi =>
      ⟨hY'.full hnb _ (List.mem_map_of_mem (List.mem_range.2 hi)), hZ'.full hnk _ (List.mem_map_of_mem (List.mem_range.2 hi))⟩) mpo.const
  exact ⟨L, R, bra, o, ket, e1, e2, e3, e4, e5, e6, e7, e8, Y'', X'', Z'', phys'', e9, e10, by rw [e11, sandwich_same hY' hZ']⟩

theorem idents_network {isF : Q → Bool} (h0 : isF 0 = false) (le : Q → Q → Bool)
    {qb qk : Q} {dq : Option Q} {bra0 ket0 : List (SpT Q K)} {ws : List (OpT Q K)} {Y0 X Z0 : List (BondInfo Q)}
    {phys : List (List (BondInfo Q) × List (BondInfo Q))} (hnet : Network isF qb qk Y0 X Z0 phys bra0 ws ket0)
    (hne : ∀ T ∈ bra0 ++ ket0, T ≠ []) (hd : qb - qk = dq.getD 0) (hp : isF (dq.getD 0) = xor (isF qb) (isF qk)) :
    ∃ ids, Mpe.initIdents isF le bra0 ws ket0 dq = some ids ∧ IdentsFor isF qb qk dq ids := by
  obtain ⟨S, hS, hB, hW, hT, hE, hG, -⟩ := hnet.sites
  obtain ⟨S1, σ1, rfl⟩ : ∃ S1 σ1, S = S1 ++ [σ1] := by
    have : S ≠ [] := by
      rintro rfl
      have := (OpOnBonds.lengths (l := [(0, 1)]) (bonds := X ++ [[(0, 1)]]) hnet.op).1
      rw [← hW] at this
      simp at this
    exact ⟨S.dropLast, S.getLast this, (List.dropLast_append_getLast this).symm⟩
  have hfull : ∀ σ ∈ S1 ++ [σ1], σ.full := fun σ hσ =>
    ⟨hne _ (by rw [← hB]; exact List.mem_append_left _ (List.mem_map_of_mem hσ)), hne _ (by rw [← hT]; exact List.mem_append_right _ (List.mem_map_of_mem hσ))⟩
  obtain ⟨r1, r2, r3⟩ := hE
  simp only [List.map_append, List.map_cons, List.map_nil, getLastD_append_cons] at r1 r2 r3
  obtain ⟨ids, hids, hI⟩ := initIdents_spec h0 le hS ⟨r1, r2, r3⟩ hfull dq hd hp
  rw [hB, hW, hT] at hids
  exact ⟨ids, hids, hI⟩

theorem bind_chain {A B M O : Type} {w : Option (Option A × Option A × B × B)} {fk fb : B → Option M} {fo : A → A → Option O} {L R : A} {fs gs : B}
    {ket bra : M} {o : O} (hw : w = some (some L, some R, fs, gs)) (hk : fk fs = some ket) (hb : fb gs = some bra) (ho : fo L R = some o) :
    (w.bind fun w => w.1.bind fun L => w.2.1.bind fun R => (fk w.2.2.1).bind fun ket => (fb w.2.2.2).bind fun bra =>
      (fo L R).map fun o => (bra, o, ket)) = some (bra, o, ket) := by
  subst hw
  simp [hk, hb, ho]

/-- What `mpe[l:r]` is made of. -/
theorem effective_of {isF : Q → Bool} {qr : Arr K → Arr K × Arr K} {canon same : Bool} {mpo : Mpo Q K} {ids : Mpe.Idents Q K} {l r : Nat}
    {s : Mpe.Sys (SpT Q K) (Option (OpT Q K))} {L' R' : Option (OpT Q K)} {L R : OpT Q K} {fs gs : List (SpT Q K)} {bra ket : Mps Q K} {o : Mpo Q K}
    (hw : Mpe.getWindow (Mpe.sweepCfg isF qr canon same mpo.tensors ids) l r s = some (L', R', fs, gs)) (hL : L' = some L) (hR : R' = some R)
    (e3 : Mpe.effMps ids.lKet fs ids.rKet = some ket) (e4 : Mpe.effMps ids.lBra gs ids.rBra = some bra)
    (e5 : Mpe.effMpo isF L ((mpo.tensors.drop l).take (r - l)) R mpo.const = some o) :
    Mpe.effective isF qr canon same mpo ids l r s = some (bra, o, ket) := by
  subst hL hR
  unfold Mpe.effective
  exact bind_chain (fk := fun t => Mpe.effMps ids.lKet t ids.rKet) (fb := fun t => Mpe.effMps ids.lBra t ids.rBra)
    (fo := fun L R => Mpe.effMpo isF L ((mpo.tensors.drop l).take (r - l)) R mpo.const) hw e3 e4 e5

/-- **C57**: an object made from a bra, an operator and a ket without empty tensors has identities at its ends; and whatever windows have been treated
since, if the present bra and ket fit the operator and are not zero, then `mpe[l:r]` for a window of at least two sites is again a bra, an operator
and a ket that fit together, and its `⟨bra|operator|ket⟩` is that of the present bra and ket with the whole operator, up to a sign that is `-1` only if
the operator changes the fermion parity and the ket has an odd number of fermions. -/
theorem C57_window {isF : Q → Bool} (h0 : isF 0 = false) (le : Q → Q → Bool) {qr : Arr K → Arr K × Arr K} (hqr : Factorises qr) {canon same : Bool}
    {qb qk : Q} {dq : Option Q} {bra0 ket0 : List (SpT Q K)} {mpo : Mpo Q K} {Y0 X Z0 : List (BondInfo Q)}
    {phys : List (List (BondInfo Q) × List (BondInfo Q))} (hnet : Network isF qb qk Y0 X Z0 phys bra0 mpo.tensors ket0)
    (hne : ∀ T ∈ bra0 ++ ket0, T ≠ []) (hd : qb - qk = dq.getD 0) (hp : isF (dq.getD 0) = xor (isF qb) (isF qk)) :
    ∃ ids, Mpe.initIdents isF le bra0 mpo.tensors ket0 dq = some ids ∧
      ∀ (rounds : List (Mpe.Round (SpT Q K))) (s s' : Mpe.Sys (SpT Q K) (Option (OpT Q K))) (l r builds : Nat),
        (∀ x ∈ rounds, x.Valid (Mpe.sweepCfg isF qr canon same mpo.tensors ids)) → l + 2 ≤ r → r ≤ mpo.tensors.length →
        rounds.foldlM (fun s x => x.exec (Mpe.sweepCfg isF qr canon same mpo.tensors ids) s)
          (Mpe.new (fun i => ket0.getD i []) fun i => bra0.getD i []) = some s →
        (List.replicate builds ()).foldlM (fun s _ => Mpe.buildEnvs (Mpe.sweepCfg isF qr canon same mpo.tensors ids) l r s) s = some s' →
        ∀ {Y Z : List (BondInfo Q)}, Network isF qb qk Y X Z phys ((List.range mpo.tensors.length).map
            (Mpe.braOf (Mpe.sweepCfg isF qr canon same mpo.tensors ids) s)) mpo.tensors ((List.range mpo.tensors.length).map s.ket) →
          NonZero (phys.map Prod.fst) Y ((List.range mpo.tensors.length).map (Mpe.braOf (Mpe.sweepCfg isF qr canon same mpo.tensors ids) s)) (0, 0) (qb, 0) →
          NonZero (phys.map Prod.snd) Z ((List.range mpo.tensors.length).map s.ket) (0, 0) (qk, 0) →
          ∃ bra o ket, Mpe.effective isF qr canon same mpo ids l r s' = some (bra, o, ket) ∧ o.const = mpo.const ∧ ket.const = 0 ∧ bra.const = 0 ∧
            ∃ Y' X' Z' phys', X' ≠ [] ∧ Network isF 0 0 Y' X' Z' phys' bra.tensors o.tensors ket.tensors ∧
              sandwich isF phys' Y' X' Z' bra.tensors o.tensors ket.tensors false (0, 0) (0, 0) (0, 0) (0, 0) (0, 0) (0, 0) =
                paritySign K (isF (dq.getD 0) && isF qk) * sandwich isF phys Y X Z
                  ((List.range mpo.tensors.length).map (Mpe.braOf (Mpe.sweepCfg isF qr canon same mpo.tensors ids) s)) mpo.tensors
                  ((List.range mpo.tensors.length).map s.ket) false (0, 0) (0, 0) (0, 0) (qb, 0) (0, 0) (qk, 0) := by
  obtain ⟨ids, hids, hI⟩ := idents_network h0 le hnet hne hd hp
  refine ⟨ids, hids, ?_⟩
  intro rounds s s' l r builds hval hlr hr hs hs' Y Z hn hnb hnk
  obtain ⟨f, g, hw, hf, hg⟩ := Mpe.C33_used _ _ _ rounds hval l r builds (by omega) hr s s' hs hs'
  obtain ⟨L, R, bra, o, ket, e1, e2, e3, e4, e5, e6, e7, e8, e9⟩ := window_rounds h0 hqr hI hn hnb hnk hf hg hlr hr
  exact ⟨bra, o, ket, effective_of hw e1 e2 e3 e4 e5, e6, e7, e8, e9⟩

/-- **C57**: for an operator that does not change the charge and has no constant, `expectation` of `mpe[l:r]` and of the whole object give the same
number: the sum over all configurations of conjugated amplitude of the present bra, matrix element of the operator, amplitude of the present ket. -/
theorem C57_expectation [DecidableEq K] {isF : Q → Bool} (h0 : isF 0 = false) (le : Q → Q → Bool) {qr : Arr K → Arr K × Arr K} (hqr : Factorises qr)
    {canon same : Bool} {q : Q} {dq : Option Q} {bra0 ket0 : List (SpT Q K)} {mpo : Mpo Q K} {Y0 X Z0 : List (BondInfo Q)}
    {phys : List (List (BondInfo Q) × List (BondInfo Q))} (hnet : Network isF q q Y0 X Z0 phys bra0 mpo.tensors ket0)
    (hne : ∀ T ∈ bra0 ++ ket0, T ≠ []) (hd : dq.getD 0 = 0) (hc : mpo.const = 0) :
    ∃ ids, Mpe.initIdents isF le bra0 mpo.tensors ket0 dq = some ids ∧
      ∀ (rounds : List (Mpe.Round (SpT Q K))) (s s' : Mpe.Sys (SpT Q K) (Option (OpT Q K))) (l r builds : Nat),
        (∀ x ∈ rounds, x.Valid (Mpe.sweepCfg isF qr canon same mpo.tensors ids)) → l + 2 ≤ r → r ≤ mpo.tensors.length →
        rounds.foldlM (fun s x => x.exec (Mpe.sweepCfg isF qr canon same mpo.tensors ids) s)
          (Mpe.new (fun i => ket0.getD i []) fun i => bra0.getD i []) = some s →
        (List.replicate builds ()).foldlM (fun s _ => Mpe.buildEnvs (Mpe.sweepCfg isF qr canon same mpo.tensors ids) l r s) s = some s' →
        ∀ {Y Z : List (BondInfo Q)} (bs ks : List (SpT Q K)), bs = (List.range mpo.tensors.length).map
            (Mpe.braOf (Mpe.sweepCfg isF qr canon same mpo.tensors ids) s) → ks = (List.range mpo.tensors.length).map s.ket →
          Network isF q q Y X Z phys bs mpo.tensors ks → NonZero (phys.map Prod.fst) Y bs (0, 0) (q, 0) → NonZero (phys.map Prod.snd) Z ks (0, 0) (q, 0) →
          ∃ bra o ket v, Mpe.effective isF qr canon same mpo ids l r s' = some (bra, o, ket) ∧ Mpe.expectation isF le bra o ket = some v ∧
            Mpe.expectation isF le ⟨bs, 0⟩ mpo ⟨ks, 0⟩ = some v ∧
            v = sandwich isF phys Y X Z bs mpo.tensors ks false (0, 0) (0, 0) (0, 0) (q, 0) (0, 0) (q, 0) := by
  obtain ⟨ids, hids, H⟩ := C57_window h0 le hqr (canon := canon) (same := same) hnet hne (by rw [sub_self, hd]) (by rw [hd, h0]; simp)
  refine ⟨ids, hids, ?_⟩
  intro rounds s s' l r builds hval hlr hr hs hs' Y Z bs ks hbs hks hn hnb hnk
  subst hbs hks
  obtain ⟨bra, o, ket, e1, e2, e3, e4, Y', X', Z', phys', e5, e6, e7⟩ := H rounds s s' l r builds hval hlr hr hs hs' hn hnb hnk
  have hX : X ≠ [] := by
    rintro rfl
    have := (OpOnBonds.lengths (l := [(0, 1)]) (bonds := [] ++ [[(0, 1)]]) hn.op).1
    simp at this
    omega
  refine ⟨bra, o, ket, _, e1, expectation_network h0 le e6 e5 (e2.trans hc) e3, ?_, ?_⟩
  · rw [e7, hd, h0, Bool.false_and]
    simp only [paritySign, Bool.false_eq_true, if_false, one_mul]
    exact expectation_network (bra := ⟨_, 0⟩) (ket := ⟨_, 0⟩) h0 le hn hX hc rfl
  · rw [e7, hd, h0, Bool.false_and]
    simp [paritySign]

end

section

/-- Hopping on three sites and a number-like term. -/
def swH : Mpo Int Int :=
  ⟨[⟨mpoBlocks [([0, 1, 0, 1], 2)], mpoBlocks [([0, 0, 0, 0], 1), ([0, 1, 1, 0], 5)]⟩,
    ⟨mpoBlocks [([1, 0, 1, 0], 3)], mpoBlocks [([0, 0, 0, 0], 1), ([0, 1, 1, 0], 1), ([1, 0, 0, 1], 1), ([1, 1, 1, 1], 1)]⟩,
    ⟨mpoBlocks [([1, 0, 1, 0], 7)], mpoBlocks [([0, 0, 0, 0], 1), ([0, 1, 1, 0], 4)]⟩], 0⟩

def swPhys : List (List (BondInfo Int) × List (BondInfo Int)) := List.replicate 3 ([[(0, 1), (1, 1)]], [[(0, 1), (1, 1)]])

/-- Two particles on three sites. -/
def swKet : List (SpT Int Int) :=
  [mpoBlocks [([0, 0, 0], 2), ([0, 1, 1], 3)], mpoBlocks [([0, 1, 1], 5), ([1, 0, 1], 7), ([1, 1, 2], 11)], mpoBlocks [([1, 1, 2], 13), ([2, 0, 2], 17)]]

def swBra : List (SpT Int Int) :=
  [mpoBlocks [([0, 0, 0], 1), ([0, 1, 1], 4)], mpoBlocks [([0, 1, 1], 6), ([1, 0, 1], 8), ([1, 1, 2], 9)], mpoBlocks [([1, 1, 2], 10), ([2, 0, 2], 12)]]

/-- The hypotheses of `C57_expectation` are met. -/
theorem swNet : Network mpoIsF 2 2 [[(0, 1), (1, 1)], [(1, 1), (2, 1)]] [[(0, 1), (1, 1)], [(0, 1), (1, 1)]] [[(0, 1), (1, 1)], [(1, 1), (2, 1)]] swPhys
    swBra swH.tensors swKet where
  bra := ⟨by decide, by decide, by decide, trivial⟩
  op := ⟨⟨by decide, by decide, by decide, by decide, by decide, by decide⟩, ⟨by decide, by decide, by decide, by decide, by decide, by decide⟩,
    ⟨by decide, by decide, by decide, by decide, by decide, by decide⟩, trivial⟩
  ket := ⟨by decide, by decide, by decide, trivial⟩
  bonds := by unfold GoodBond; decide
  legs := by unfold GoodBond; decide
  braEven := by unfold EvenBlocks; decide
  ketEven := by unfold EvenBlocks; decide

example : ∀ T ∈ swBra ++ swKet, T ≠ [] := by decide

example : NonZero (swPhys.map Prod.snd) [[(0, 1), (1, 1)], [(1, 1), (2, 1)]] swKet (0, 0) (2, 0) :=
  ⟨[[(0, 0)], [(1, 0)], [(1, 0)]], by decide, by decide⟩

/-- A new object, canonicalisation switched on, last two sites: the numbers agree. -/
example : ∃ ids w, Mpe.initIdents mpoIsF (fun a b => decide (a ≤ b)) swBra swH.tensors swKet none = some ids ∧
    Mpe.effective mpoIsF plainQR true false swH ids 1 3 (Mpe.new (fun i => swKet.getD i []) fun i => swBra.getD i []) = some w ∧
    Mpe.expectation mpoIsF (fun a b => decide (a ≤ b)) w.1 w.2.1 w.2.2 = some 3202320 := by
  refine ⟨_, _, rfl, rfl, ?_⟩
  decide +kernel

/-- Creation of a particle on the first site. -/
def swC : Mpo Int Int :=
  ⟨[⟨mpoBlocks [([0, 1, 0, 0], 1)], []⟩, ⟨[], mpoBlocks [([0, 0, 0, 0], 1), ([0, 1, 1, 0], 1)]⟩, ⟨[], mpoBlocks [([0, 0, 0, 0], 1), ([0, 1, 1, 0], 1)]⟩], 0⟩

/-- Three particles. -/
def swBra3 : List (SpT Int Int) := [mpoBlocks [([0, 1, 1], 1)], mpoBlocks [([1, 1, 2], 1)], mpoBlocks [([2, 1, 3], 1)]]

theorem swNet3 : Network mpoIsF 3 2 [[(1, 1)], [(2, 1)]] [[(0, 1)], [(0, 1)]] [[(0, 1), (1, 1)], [(1, 1), (2, 1)]] swPhys
    swBra3 swC.tensors swKet where
  bra := ⟨by decide, by decide, by decide, trivial⟩
  op := ⟨⟨by decide, by decide, by decide, by decide, by decide, by decide⟩, ⟨by decide, by decide, by decide, by decide, by decide, by decide⟩,
    ⟨by decide, by decide, by decide, by decide, by decide, by decide⟩, trivial⟩
  ket := ⟨by decide, by decide, by decide, trivial⟩
  bonds := by unfold GoodBond; decide
  legs := by unfold GoodBond; decide
  braEven := by unfold EvenBlocks; decide
  ketEven := by unfold EvenBlocks; decide

/-- **C57**, violation: for an operator that changes the charge, `expectation` of the whole object is 0 while that of a window is right
(`⟨111|c†|011⟩ = 130`): the label at the right end of the operator applied to the ket is that of the ket, not that of the bra. -/
theorem C57_charged_whole : ∃ ids w, Mpe.initIdents mpoIsF (fun a b => decide (a ≤ b)) swBra3 swC.tensors swKet (some 1) = some ids ∧
    Mpe.effective mpoIsF plainQR false false swC ids 1 3 (Mpe.new (fun i => swKet.getD i []) fun i => swBra3.getD i []) = some w ∧
    Mpe.expectation mpoIsF (fun a b => decide (a ≤ b)) w.1 w.2.1 w.2.2 = some 130 ∧
    Mpe.expectation mpoIsF (fun a b => decide (a ≤ b)) ⟨swBra3, 0⟩ swC ⟨swKet, 0⟩ = some 0 := by
  refine ⟨_, _, rfl, rfl, ?_⟩
  decide +kernel

/-- **C57**, violation: with a constant in the operator and a bra that differs from the ket, the window adds the constant times the overlap of the
tensors in the window, which is not the overlap of the states. -/
theorem C57_const_differs : ∃ ids w v v', Mpe.initIdents mpoIsF (fun a b => decide (a ≤ b)) swBra swH.tensors swKet none = some ids ∧
    Mpe.effective mpoIsF plainQR false false ⟨swH.tensors, 1⟩ ids 1 3 (Mpe.new (fun i => swKet.getD i []) fun i => swBra.getD i []) = some w ∧
    Mpe.expectation mpoIsF (fun a b => decide (a ≤ b)) w.1 w.2.1 w.2.2 = some v ∧
    Mpe.expectation mpoIsF (fun a b => decide (a ≤ b)) ⟨swBra, 0⟩ ⟨swH.tensors, 1⟩ ⟨swKet, 0⟩ = some v' ∧ v ≠ v' := by
  refine ⟨_, _, 3202320 + (6 * 10 * (5 * 13) + 8 * 10 * (7 * 13) + 9 * 12 * (11 * 17)), 3202320 + (60 * 130 + 320 * 273 + 432 * 561), rfl, rfl, ?_⟩
  decide +kernel

end
end Verif
