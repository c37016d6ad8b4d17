import Verif.Thm.OpTChain
import Verif.Spec.Mpo
import Verif.Proof.Pdot

/-! `hdot` of operator tensors whose row legs and column legs may differ. -/

set_option linter.unusedSectionVars false
set_option linter.unusedSimpArgs false

namespace Verif
section
variable {Q K : Type} [DecidableEq Q] [AddCommGroup Q] [CommRing K]

theorem hdim {isF : Q → Bool} {l r : BondInfo Q} {u d : List (BondInfo Q)} {A : OpT Q K} (h : OpSite isF l u d r A) {n : Nat} (hu : u.length = n)
    (hd : d.length = n) : A = ⟨[], []⟩ ∨ A.ndim = n + n + 2 := by
  by_cases h0 : A.noBlocks = false
  · right
    rw [OpT.ndim_of h.odd h.even h0]
    simp; omega
  · left
    obtain ⟨o, e⟩ := A
    simp [OpT.noBlocks] at h0
    obtain ⟨rfl, rfl⟩ := h0
    rfl

theorem OpSite.empty (isF : Q → Bool) (l r : BondInfo Q) (u d : List (BondInfo Q)) : OpSite isF l u d r (⟨[], []⟩ : OpT Q K) :=
  ⟨by intro b hb; simp at hb, by intro b hb; simp at hb, by simp [UniqueLabels], by simp [UniqueLabels], by intro b hb; simp at hb,
    by intro b hb; simp at hb⟩

theorem physLabels_eq (q : List Q) : physLabels q = q.tail.dropLast := by
  unfold physLabels
  rw [List.drop_one]

theorem hdot_parts (isF : Q → Bool) {l m r : BondInfo Q} (hm : Dict.WF m) {uA dA uB dB : List (BondInfo Q)} {n k : Nat} (hlu : uA.length = n)
    (hld : dA.length = n) (hku : uB.length = k) (hkd : dB.length = k) {A B : OpT Q K} (hA : OpSite isF l uA dA m A) (hB : OpSite isF m uB dB r B) :
    ∃ R, OpT.hdot isF A B = some R ∧ OpSite isF l (uA ++ uB) (dA ++ dB) r R ∧
      ∀ (a c : Q × Nat) (ua ub da db : List (Q × Nat)), ua.length = n → da.length = n → ub.length = k → db.length = k →
        entry R.odd (a :: ((ua ++ ub) ++ (da ++ db)) ++ [c]) = ((legBasis m).map fun z =>
          entry A.odd (a :: (ua ++ da) ++ [z]) * entry B.even (z :: (ub ++ db) ++ [c]) +
          paritySign K (fermParity isF (da.map Prod.fst)) * (entry A.even (a :: (ua ++ da) ++ [z]) * entry B.odd (z :: (ub ++ db) ++ [c]))).sum ∧
        entry R.even (a :: ((ua ++ ub) ++ (da ++ db)) ++ [c]) = ((legBasis m).map fun z =>
          entry A.even (a :: (ua ++ da) ++ [z]) * entry B.even (z :: (ub ++ db) ++ [c]) +
          paritySign K (fermParity isF (da.map Prod.fst)) * (entry A.odd (a :: (ua ++ da) ++ [z]) * entry B.odd (z :: (ub ++ db) ++ [c]))).sum := by
  by_cases hemp : A = ⟨[], []⟩ ∨ B = ⟨[], []⟩
  · refine ⟨_, hdot_empty' isF A B ?_ hemp, OpSite.empty _ _ _ _ _, ?_⟩
    · rcases hdim hA hlu hld with h | h
      · rw [h]; simp [OpT.ndim, SpT.ndim]
      · rw [h]; omega
    · intro a c ua ub da db _ _ _ _
      rcases hemp with h | h <;> rw [h] <;> simp [entry_nil]
  obtain ⟨neA, neB⟩ := not_or.1 hemp
  have hAo : Conforms (l :: (uA ++ dA) ++ [m]) A.odd := by simpa using hA.odd
  have hAe : Conforms (l :: (uA ++ dA) ++ [m]) A.even := by simpa using hA.even
  have hBo : Conforms (m :: (uB ++ dB) ++ [r]) B.odd := by simpa using hB.odd
  have hBe : Conforms (m :: (uB ++ dB) ++ [r]) B.even := by simpa using hB.even
  have hAop : ∀ b ∈ A.odd, fermParity isF b.1.tail.dropLast = true := fun b hb => by rw [← physLabels_eq]; exact hA.oddParity b hb
  have hAep : ∀ b ∈ A.even, fermParity isF b.1.tail.dropLast = false := fun b hb => by rw [← physLabels_eq]; exact hA.evenParity b hb
  have hBop : ∀ b ∈ B.odd, fermParity isF b.1.tail.dropLast = true := fun b hb => by rw [← physLabels_eq]; exact hB.oddParity b hb
  have hBep : ∀ b ∈ B.even, fermParity isF b.1.tail.dropLast = false := fun b hb => by rw [← physLabels_eq]; exact hB.evenParity b hb
  obtain ⟨oa, a1, a2, a3, a4, a5⟩ := sp_link (l :: (uA ++ dA)) ((uB ++ dB) ++ [r]) m hm A.odd B.even hAo hBe
  obtain ⟨ob, b1, b2, b3, b4, b5⟩ := sp_link (l :: (uA ++ dA)) ((uB ++ dB) ++ [r]) m hm A.even B.odd hAe hBo
  obtain ⟨ea, c1, c2, c3, c4, c5⟩ := sp_link (l :: (uA ++ dA)) ((uB ++ dB) ++ [r]) m hm A.odd B.odd hAo hBo
  obtain ⟨eb, d1, d2, d3, d4, d5⟩ := sp_link (l :: (uA ++ dA)) ((uB ++ dB) ++ [r]) m hm A.even B.even hAe hBe
  have nA : A.ndim = n + n + 2 := (hdim hA hlu hld).resolve_left neA
  have nB : B.ndim = k + k + 2 := (hdim hB hku hkd).resolve_left neB
  have hlen0 : (l :: (uA ++ dA)).length = n + n + 1 := by simp; omega
  rw [hlen0] at a1 b1 c1 d1
  set f := OpT.factor isF (List.range' (n + 1) n) with hf
  have hh : OpT.hdot isF A B = some (OpT.transpose (hAxes n k)
      ⟨OpT.addAliased oa ob (fun _ => false) f, OpT.addAliased ea eb f (fun _ => false)⟩) := by
    unfold OpT.hdot OpT.tensordot
    have x1 : ([-1] : List Int).map (SpT.normAxis A.ndim) = [n + n + 1] := by
      simp [SpT.normAxis, nA]
      omega
    have x2 : ([0] : List Int).map (SpT.normAxis B.ndim) = [0] := by simp [SpT.normAxis]
    simp only [x1, x2]
    simp only [List.map_cons, List.map_nil]
    simp only [a1, b1, c1, d1, Option.bind_some]
    rw [if_neg (by simp), if_pos (by simp [nA])]
    rw [if_neg (by omega)]
    simp only [Option.map_some]
    rw [if_pos (by omega)]
    have y1 : (A.ndim - 2) / 2 = n := by omega
    have y2 : A.ndim / 2 - 1 = n := by omega
    have y3 : B.ndim / 2 - 1 = k := by omega
    have y4 : A.ndim - 1 = 1 + (n + n) := by omega
    rw [y1, y2, y3, y4]
    rfl
  -- labels
  have lA : ∀ a, a ∈ A.odd ∨ a ∈ A.even → a.1.length = n + n + 2 := by
    intro a ha
    rcases ha with ha | ha
    · have := (hAo a ha).lengths.1; simp at this; omega
    · have := (hAe a ha).lengths.1; simp at this; omega
  have lB : ∀ a, a ∈ B.odd ∨ a ∈ B.even → a.1.length = k + k + 2 := by
    intro a ha
    rcases ha with ha | ha
    · have := (hBo a ha).lengths.1; simp at this; omega
    · have := (hBe a ha).lengths.1; simp at this; omega
  let p : List Q → Bool := fun q => fermParity isF (q.take (n + n + 1)).tail
  have par : ∀ {X Y R : SpT Q K} {v : Bool}, (∀ x ∈ X, x.1.length = n + n + 2) → (∀ x ∈ X, fermParity isF x.1.tail.dropLast = v) →
      (∀ r ∈ R, ∃ qa qb : List Q, ∃ q : Q, (∃ a ∈ X, a.1 = qa ++ [q]) ∧ (∃ b ∈ Y, b.1 = q :: qb) ∧ r.1 = qa ++ qb) → ∀ r ∈ R, p r.1 = v := by
    intro X Y R v hl hx hR r hr
    obtain ⟨qa, qb, q, ⟨a, ha, ea'⟩, _, e⟩ := hR r hr
    have h1 := hl a ha
    have h2 := hx a ha
    rw [ea'] at h1 h2
    have h3 : qa.length = n + n + 1 := by simpa using h1
    simp only [p, e]
    rw [List.take_left' h3, ← h2]
    rcases qa with _ | ⟨q0, qa⟩
    · simp at h3
    · simp
  have whole : ∀ {X Y R : SpT Q K} {v w : Bool}, (∀ x ∈ X, x.1.length = n + n + 2) → (∀ x ∈ Y, x.1.length = k + k + 2) →
      (∀ x ∈ X, fermParity isF x.1.tail.dropLast = v) → (∀ x ∈ Y, fermParity isF x.1.tail.dropLast = w) →
      (∀ r ∈ R, ∃ qa qb : List Q, ∃ q : Q, (∃ a ∈ X, a.1 = qa ++ [q]) ∧ (∃ b ∈ Y, b.1 = q :: qb) ∧ r.1 = qa ++ qb) →
      ∀ r ∈ R, fermParity isF (pick (hAxes n k) r.1).tail.dropLast = xor v w := by
    intro X Y R v w hl hl' hx hy hR r hr
    obtain ⟨qa, qb, q, ⟨a, ha, ea'⟩, ⟨b, hb, eb'⟩, e⟩ := hR r hr
    have h1 := hl a ha
    have h2 := hx a ha
    have h1' := hl' b hb
    have h2' := hy b hb
    rw [ea'] at h1 h2
    rw [eb'] at h1' h2'
    rcases qa with _ | ⟨q0, qa⟩
    · simp at h1
    rcases List.eq_nil_or_concat qb with rfl | ⟨qb', q1, rfl⟩
    · simp at h1'
    rw [List.concat_eq_append] at h1' h2' e
    have k1 : qa.length = n + n := by simpa using h1
    have k2 : qb'.length = k + k := by simpa using h1'
    obtain ⟨ua, da, rfl, g1, g2⟩ : ∃ ua da, qa = ua ++ da ∧ ua.length = n ∧ da.length = n :=
      ⟨qa.take n, qa.drop n, (List.take_append_drop _ _).symm, by simp; omega, by simp; omega⟩
    obtain ⟨ub, db, rfl, g3, g4⟩ : ∃ ua da, qb' = ua ++ da ∧ ua.length = k ∧ da.length = k :=
      ⟨qb'.take k, qb'.drop k, (List.take_append_drop _ _).symm, by simp; omega, by simp; omega⟩
    have hpk := pick_hAxes q0 ua da ub db q1 (by omega) (by omega)
    rw [g1, g3] at hpk
    rw [e, hpk]
    have h2 : fermParity isF (ua ++ da) = v := by simpa using h2
    have h2' : fermParity isF (ub ++ db) = w := by simpa using h2'
    rw [← h2, ← h2', ← fermParity_append]
    have e2 : (q0 :: (ua ++ ub ++ (da ++ db)) ++ [q1]).tail.dropLast = ua ++ ub ++ (da ++ db) := by simp [List.dropLast_append_of_ne_nil]
    rw [e2]
    apply fermParity_perm
    simp only [List.append_assoc]
    refine List.Perm.append_left _ ?_
    rw [← List.append_assoc, ← List.append_assoc]
    exact List.Perm.append_right _ List.perm_append_comm
  have uo : UniqueLabels (oa ++ ob) :=
    unique_append a3 b3 p (par (fun x hx => lA x (Or.inl hx)) hAop a5) (par (fun x hx => lA x (Or.inr hx)) hAep b5)
  have ue : UniqueLabels (ea ++ eb) :=
    unique_append c3 d3 p (par (fun x hx => lA x (Or.inl hx)) hAop c5) (par (fun x hx => lA x (Or.inr hx)) hAep d5)
  have cO := conforms_addAliased uo a2 b2 (fun _ => false) f
  have cE := conforms_addAliased ue c2 d2 f (fun _ => false)
  have hperm := hAxes_perm n k
  have hlen : (l :: (uA ++ dA) ++ ((uB ++ dB) ++ [r])).length = 1 + (n + n) + (k + k + 1) := by
    simp; omega
  rw [← hlen] at hperm
  have hpl : (hAxes n k).map (fun i => (l :: (uA ++ dA) ++ ((uB ++ dB) ++ [r])).getD i []) =
      l :: ((uA ++ uB) ++ (dA ++ dB)) ++ [r] := by
    let _ : Zero (BondInfo Q) := ⟨[]⟩
    have := pick_hAxes l uA dA uB dB r (by omega) (by omega)
    rwa [hlu, hku] at this
  refine ⟨_, hh, ⟨?_, ?_, transpose_unique cO (addAliased_unique _ _ uo _ _) hperm, transpose_unique cE (addAliased_unique _ _ ue _ _) hperm, ?_, ?_⟩, ?_⟩
  · have := C14_conforms _ _ cO _ hperm
    rw [hpl] at this
    exact this
  · have := C14_conforms _ _ cE _ hperm
    rw [hpl] at this
    exact this
  · intro x hx
    obtain ⟨x', hx', rfl⟩ := List.mem_map.1 hx
    obtain ⟨y, hy, e1, e2⟩ := addAliased_labels _ _ uo (fun _ => false) f x' hx'
    rw [physLabels_eq]
    change fermParity isF (pick (hAxes n k) x'.1).tail.dropLast = true
    rw [← e1]
    rcases hy with hy | hy
    · exact whole (fun x hx => lA x (Or.inl hx)) (fun x hx => lB x (Or.inr hx)) hAop hBep a5 y hy
    · exact whole (fun x hx => lA x (Or.inr hx)) (fun x hx => lB x (Or.inl hx)) hAep hBop b5 y hy
  · intro x hx
    obtain ⟨x', hx', rfl⟩ := List.mem_map.1 hx
    obtain ⟨y, hy, e1, e2⟩ := addAliased_labels _ _ ue f (fun _ => false) x' hx'
    rw [physLabels_eq]
    change fermParity isF (pick (hAxes n k) x'.1).tail.dropLast = false
    rw [← e1]
    rcases hy with hy | hy
    · exact whole (fun x hx => lA x (Or.inl hx)) (fun x hx => lB x (Or.inl hx)) hAop hBop c5 y hy
    · exact whole (fun x hx => lA x (Or.inr hx)) (fun x hx => lB x (Or.inr hx)) hAep hBep d5 y hy
  · intro a c ua ub da db hua hda hub hdb
    have hx : ((a :: (ua ++ da)) ++ (ub ++ db ++ [c])).length = (l :: (uA ++ dA) ++ ((uB ++ dB) ++ [r])).length := by
      simp [hua, hda, hub, hdb, hlu, hld, hku, hkd]
    have hpk := pick_hAxes a ua da ub db c (by rw [hda, hua]) (by rw [hdb, hub])
    rw [hua, hub] at hpk
    have eO := C14_entry _ _ cO _ hperm ((a :: (ua ++ da)) ++ (ub ++ db ++ [c])) hx
    have eE := C14_entry _ _ cE _ hperm ((a :: (ua ++ da)) ++ (ub ++ db ++ [c])) hx
    change entry _ (pick _ _) = _ at eO eE
    rw [hpk] at eO eE
    have hfx : f (((a :: (ua ++ da)) ++ (ub ++ db ++ [c])).map Prod.fst) = fermParity isF (da.map Prod.fst) := by
      rw [hf, factor_eq]
      congr 1
      have := pick_range' ((a :: ua).map Prod.fst) (da.map Prod.fst) ((ub ++ db ++ [c]).map Prod.fst)
      simpa [hua, hda] using this
    have e0 : paritySign K false = 1 := rfl
    have hx1 : (a :: (ua ++ da)).length = (l :: (uA ++ dA)).length := by simp [hua, hda, hlu, hld]
    have hx2 : (ub ++ db ++ [c]).length = ((uB ++ dB) ++ [r]).length := by simp [hub, hdb, hku, hkd]
    refine ⟨?_, ?_⟩
    · change entry (SpT.transpose _ _) _ = _
      rw [eO, entry_addAliased _ _ uo, hfx, a4 _ _ hx1 hx2, b4 _ _ hx1 hx2, e0, one_mul, ← sum_map_mul_left', ← sum_map_add']
      rfl
    · change entry (SpT.transpose _ _) _ = _
      rw [eE, entry_addAliased _ _ ue, hfx, c4 _ _ hx1 hx2, d4 _ _ hx1 hx2, e0, one_mul, add_comm, ← sum_map_mul_left', ← sum_map_add']
      rfl
/-- `hdot` joins two operator tensors along a bond. -/
theorem hdot_site (isF : Q → Bool) {l m r : BondInfo Q} (hm : Dict.WF m) {uA dA uB dB : List (BondInfo Q)} (hA0 : uA.length = dA.length)
    (hB0 : uB.length = dB.length) {A B : OpT Q K} (hA : OpSite isF l uA dA m A) (hB : OpSite isF m uB dB r B) :
    ∃ R, OpT.hdot isF A B = some R ∧ OpSite isF l (uA ++ uB) (dA ++ dB) r R ∧
      ∀ (s : Bool) (a c : Q × Nat) (ua ub da db : List (Q × Nat)), ua.length = uA.length → da.length = dA.length → ub.length = uB.length →
        db.length = dB.length → opEntry R s (a :: (ua ++ ub) ++ (da ++ db) ++ [c]) = ((legBasis m).map fun z =>
          opEntry A s (a :: ua ++ da ++ [z]) * opEntry B (xor s (fermParity isF (da.map Prod.fst))) (z :: ub ++ db ++ [c])).sum := by
  obtain ⟨R, h1, h2, h3⟩ := hdot_parts isF hm rfl hA0.symm rfl hB0.symm hA hB
  refine ⟨R, h1, h2, ?_⟩
  intro s a c ua ub da db e1 e2 e3 e4
  obtain ⟨g1, g2⟩ := h3 a c ua ub da db e1 (by omega) e3 (by omega)
  have k1 : a :: (ua ++ ub) ++ (da ++ db) ++ [c] = a :: ((ua ++ ub) ++ (da ++ db)) ++ [c] := by simp
  rw [k1]
  unfold opEntry
  rw [g1, g2, ← sum_map_mul_left', ← sum_map_add']
  refine sum_map_congr' _ _ _ fun z _ => ?_
  rw [paritySign_xor]
  have k2 : a :: ua ++ da ++ [z] = a :: (ua ++ da) ++ [z] := by simp
  have k3 : z :: ub ++ db ++ [c] = z :: (ub ++ db) ++ [c] := by simp
  rw [k2, k3]
  have hs : paritySign K s * paritySign K s = 1 := by cases s <;> simp [paritySign]
  linear_combination (-(paritySign K (fermParity isF (da.map Prod.fst)) * entry A.odd (a :: (ua ++ da) ++ [z]) * entry B.odd (z :: (ub ++ db) ++ [c]))) * hs

end
end Verif
