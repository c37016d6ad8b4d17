import Verif.Proof.MpeExpect
import Verif.Proof.MpsInfos
import Verif.Proof.ChainIp

/-! Environments over lists of sites, boundary environments, and the network of a sub-system. -/

set_option linter.unusedSectionVars false

namespace Verif
section
variable {Q K : Type} [DecidableEq Q] [AddCommGroup Q] [CommRing K] [StarRing K]

/-! ### Sites and lists -/

theorem mkSites_map (S : List (NSite Q K)) : mkSites (S.map (·.rb)) (S.map (·.rm)) (S.map (·.rk)) (S.map fun σ => (σ.ups, σ.downs)) (S.map (·.B))
    (S.map (·.W)) (S.map (·.T)) = S := by
  induction S with
  | nil => rfl
  | cons σ S ih =>
    simp only [List.map_cons, mkSites, ih]

theorem toSites {isF : Q → Bool} : ∀ {phys : List (List (BondInfo Q) × List (BondInfo Q))} {lb lm lk : BondInfo Q} {Y X Z : List (BondInfo Q)}
    {bs : List (SpT Q K)} {ws : List (OpT Q K)} {ks : List (SpT Q K)}, OnBonds (lb :: Y) (phys.map Prod.fst) bs → OpOnBonds isF (lm :: X) phys ws →
    OnBonds (lk :: Z) (phys.map Prod.snd) ks → (∀ c ∈ lb :: lm :: lk :: Y ++ X ++ Z, Dict.WF c) →
    (∀ ph ∈ phys, ph.1.length = ph.2.length ∧ ∀ c ∈ ph.1 ++ ph.2, Dict.WF c) → (∀ T ∈ bs, EvenBlocks isF T) → (∀ T ∈ ks, EvenBlocks isF T) →
    ∃ S : List (NSite Q K), NOk isF lb lm lk S ∧ S.map (·.rb) = Y ∧ S.map (·.rm) = X ∧ S.map (·.rk) = Z ∧
      S.map (fun σ => (σ.ups, σ.downs)) = phys ∧ S.map (·.B) = bs ∧ S.map (·.W) = ws ∧ S.map (·.T) = ks := by
  intro phys
  induction phys with
  | nil =>
    intro lb lm lk Y X Z bs ws ks h1 h2 h3 hw _ _ _
    rcases Y with _ | ⟨y, Y⟩
    · rcases X with _ | ⟨x, X⟩
      · rcases Z with _ | ⟨z, Z⟩
        · rcases bs with _ | ⟨B, bs⟩
          · rcases ws with _ | ⟨W, ws⟩
            · rcases ks with _ | ⟨T, ks⟩
              · exact ⟨[], ⟨hw _ (by simp), hw _ (by simp), hw _ (by simp)⟩, rfl, rfl, rfl, rfl, rfl, rfl, rfl⟩
              · exact h3.elim
            · exact h2.elim
          · exact h1.elim
        · rcases ks with _ | ⟨T, ks⟩ <;> exact h3.elim
      · rcases ws with _ | ⟨W, ws⟩ <;> exact h2.elim
    · rcases bs with _ | ⟨B, bs⟩ <;> exact h1.elim
  | cons ph phys ih =>
    intro lb lm lk Y X Z bs ws ks h1 h2 h3 hw hp hb hk
    rcases Y with _ | ⟨y, Y⟩
    · rcases bs with _ | ⟨B, bs⟩ <;> exact h1.elim
    rcases X with _ | ⟨x, X⟩
    · rcases ws with _ | ⟨W, ws⟩ <;> exact h2.elim
    rcases Z with _ | ⟨z, Z⟩
    · rcases ks with _ | ⟨T, ks⟩ <;> exact h3.elim
    rcases bs with _ | ⟨B, bs⟩
    · exact h1.elim
    rcases ws with _ | ⟨W, ws⟩
    · exact h2.elim
    rcases ks with _ | ⟨T, ks⟩
    · exact h3.elim
    obtain ⟨S, s0, s1, s2, s3, s4, s5, s6, s7⟩ := ih h1.2 h2.2 h3.2 (fun c hc => hw c (by
        simp only [List.cons_append, List.append_assoc, List.mem_cons, List.mem_append] at hc ⊢; tauto))
      (fun p hp' => hp p (List.mem_cons_of_mem _ hp')) (fun T hT => hb T (List.mem_cons_of_mem _ hT)) (fun T hT => hk T (List.mem_cons_of_mem _ hT))
    refine ⟨⟨B, W, T, ph.1, ph.2, y, x, z⟩ :: S, ⟨⟨hw _ (by simp), hw _ (by simp), hw _ (by simp), h1.1, h2.1, h3.1, hb _ (by simp), hk _ (by simp),
      (hp ph (by simp)).1, (hp ph (by simp)).2⟩, s0⟩, ?_, ?_, ?_, ?_, ?_, ?_, ?_⟩ <;> simp [*]

/-- What `NOk` says in terms of lists. -/
theorem NOk.lists {isF : Q → Bool} {lb lm lk : BondInfo Q} {S : List (NSite Q K)} (h : NOk isF lb lm lk S) :
    OnBonds (lb :: S.map (·.rb)) ((S.map fun σ => (σ.ups, σ.downs)).map Prod.fst) (S.map (·.B)) ∧
    OpOnBonds isF (lm :: S.map (·.rm)) (S.map fun σ => (σ.ups, σ.downs)) (S.map (·.W)) ∧
    OnBonds (lk :: S.map (·.rk)) ((S.map fun σ => (σ.ups, σ.downs)).map Prod.snd) (S.map (·.T)) ∧
    (∀ T ∈ S.map (·.B), EvenBlocks isF T) ∧ (∀ T ∈ S.map (·.T), EvenBlocks isF T) := by
  induction S generalizing lb lm lk with
  | nil => exact ⟨trivial, trivial, trivial, by simp, by simp⟩
  | cons σ S ih =>
    obtain ⟨⟨w1, w2, w3, hB, hW, hT, eB, eT, hlen, wl'⟩, hrest⟩ := h
    obtain ⟨a1, a2, a3, a4, a5⟩ := ih hrest
    refine ⟨⟨hB, a1⟩, ⟨hW, a2⟩, ⟨hT, a3⟩, ?_, ?_⟩
    · intro T hT'
      rcases List.mem_cons.1 hT' with rfl | h
      · exact eB
      · exact a4 T h
    · intro T hT'
      rcases List.mem_cons.1 hT' with rfl | h
      · exact eT
      · exact a5 T h

/-! ### Environments over lists of sites -/

/-- Left environment after the given sites. -/
def leftOver (isF : Q → Bool) (L : OpT Q K) (S : List (NSite Q K)) : Option (OpT Q K) :=
  S.foldlM (fun L σ => Mpe.leftRotate isF L σ.W σ.B σ.T) L

/-- Right environment of the given sites. -/
def rightOver (isF : Q → Bool) (R : OpT Q K) : List (NSite Q K) → Option (OpT Q K)
  | [] => some R
  | σ :: S => (rightOver isF R S).bind fun R => Mpe.rightRotate isF R σ.W σ.B σ.T

theorem leftOver_spec (isF : Q → Bool) {wl : BondInfo Q} (e : Q × Nat) {xs : List (NSite Q K)} : ∀ {lb lm lk : BondInfo Q} {L : OpT Q K} {ys : List (NSite Q K)},
    OpSite isF wl [lb] [lk] lm L → NOk isF lb lm lk (xs ++ ys) → (∀ σ ∈ xs, σ.full) →
    ∃ L' lb' lm' lk', leftOver isF L xs = some L' ∧ OpSite isF wl [lb'] [lk'] lm' L' ∧ NOk isF lb' lm' lk' ys ∧
      ((lb' = lb ∧ lm' = lm ∧ lk' = lk ∨ ∃ σ ∈ xs, lb' = σ.rb ∧ lm' = σ.rm ∧ lk' = σ.rk) ∧ lk' = (lk :: xs.map (·.rk)).getLastD [] ∧
        lb' = (lb :: xs.map (·.rb)).getLastD []) ∧
      ∀ F, closeLeft isF F lb lm lk L e (xs ++ ys) = closeLeft isF F lb' lm' lk' L' e ys := by
  induction xs with
  | nil =>
    intro lb lm lk L ys hL h _
    exact ⟨L, lb, lm, lk, rfl, hL, h, ⟨Or.inl ⟨rfl, rfl, rfl⟩, rfl, rfl⟩, fun _ => rfl⟩
  | cons σ xs ih =>
    intro lb lm lk L ys hL h hf
    obtain ⟨L1, a1, a2, -⟩ := closeLeft_step isF (fun _ _ _ _ => 0) e hL h (hf σ (by simp))
    obtain ⟨L', lb', lm', lk', b1, b2, b3, ⟨b4, b6, b7⟩, b5⟩ := ih a2 h.2 fun τ hτ => hf τ (by simp [hτ])
    refine ⟨L', lb', lm', lk', ?_, b2, b3, ⟨?_, by rw [b6]; simp [List.getLastD_cons], by rw [b7]; simp [List.getLastD_cons]⟩, ?_⟩
    · rw [leftOver, List.foldlM_cons, a1]; exact b1
    · rcases b4 with ⟨rfl, rfl, rfl⟩ | ⟨τ, hτ, c⟩
      · exact Or.inr ⟨σ, by simp, rfl, rfl, rfl⟩
      · exact Or.inr ⟨τ, by simp [hτ], c⟩
    · intro F
      obtain ⟨L2, c1, -, c3⟩ := closeLeft_step isF F e hL h (hf σ (by simp))
      rw [a1] at c1
      obtain rfl := Option.some.inj c1
      exact c3.trans (b5 F)

theorem rightOver_spec (isF : Q → Bool) {wr rb rm rk : BondInfo Q} (e : Q × Nat) {R : OpT Q K} (hR : OpSite isF rm [rb] [rk] wr R) {ys : List (NSite Q K)} :
    ∀ {lb lm lk : BondInfo Q}, NOk isF lb lm lk ys → (lb :: ys.map (·.rb)).getLastD [] = rb → (lm :: ys.map (·.rm)).getLastD [] = rm →
    (lk :: ys.map (·.rk)).getLastD [] = rk → (∀ σ ∈ ys, σ.full) →
    ∃ R', rightOver isF R ys = some R' ∧ OpSite isF lm [lb] [lk] wr R' ∧
      ∀ s b m k, opEntry R' s [m, b, k, e] = net isF (fun s b m k => opEntry R s [m, b, k, e]) ys s b m k := by
  induction ys with
  | nil =>
    intro lb lm lk _ h1 h2 h3 _
    simp only [List.map_nil, List.getLastD_cons, List.getLastD_nil] at h1 h2 h3
    subst h1 h2 h3
    exact ⟨R, rfl, hR, fun _ _ _ _ => rfl⟩
  | cons σ ys ih =>
    intro lb lm lk h h1 h2 h3 hf
    rw [List.map_cons, List.getLastD_cons] at h1 h2 h3
    rw [List.getLastD_cons] at h1 h2 h3
    obtain ⟨R1, a1, a2, a3⟩ := ih h.2 (by rw [List.getLastD_cons]; exact h1) (by rw [List.getLastD_cons]; exact h2) (by rw [List.getLastD_cons]; exact h3)
      fun τ hτ => hf τ (by simp [hτ])
    obtain ⟨R2, b1, b2, b3⟩ := right_step isF _ e a2 h (hf σ (by simp)) a3
    exact ⟨R2, by rw [rightOver, a1]; exact b1, b2, b3⟩

/-- What stands to the right matters only for the fermion parity that the ket has there. -/
theorem net_congr_par (isF : Q → Bool) {F G : Bool → Q × Nat → Q × Nat → Q × Nat → K} (hFG : ∀ b m k, F (isF k.1) b m k = G (isF k.1) b m k)
    {S : List (NSite Q K)} : ∀ {lb lm lk : BondInfo Q}, NOk isF lb lm lk S → ∀ b m k, net isF F S (isF k.1) b m k = net isF G S (isF k.1) b m k := by
  induction S with
  | nil => intro _ _ _ _ b m k; exact hFG b m k
  | cons σ S ih =>
    intro lb lm lk h b m k
    rw [net_cons, net_cons]
    refine sum_map_congr' _ _ _ fun u _ => ?_
    refine sum_map_congr' _ _ _ fun b' _ => ?_
    refine sum_map_congr' _ _ _ fun d _ => ?_
    refine sum_map_congr' _ _ _ fun k' _ => ?_
    by_cases hz : entry σ.T (k :: d ++ [k']) = 0
    · rw [hz]; ring
    · have := h.1.2.2.2.2.2.2.2.1.site (l := lk) (r := lk) (ph := []) hz
      unfold basisPar at this
      rw [this]
      simp only [ih h.2]

theorem net_scale (isF : Q → Bool) (c : K) (F : Bool → Q × Nat → Q × Nat → Q × Nat → K) (S : List (NSite Q K)) (s : Bool) (b m k : Q × Nat) :
    net isF (fun s b m k => c * F s b m k) S s b m k = c * net isF F S s b m k := by
  induction S generalizing s b m k with
  | nil => rfl
  | cons σ S ih =>
    rw [net_cons, net_cons]
    simp only [ih, ← sum_map_mul_left', ← sum_map_mul_right']
    refine sum_map_congr' _ _ _ fun u _ => ?_
    refine sum_map_congr' _ _ _ fun b' _ => ?_
    refine sum_map_congr' _ _ _ fun d _ => ?_
    refine sum_map_congr' _ _ _ fun k' _ => ?_
    refine sum_map_congr' _ _ _ fun m' _ => ?_
    ring

/-! ### Boundary environments -/

/-- The rank-four tensor with one block of size one. -/
def oneBlock (q : List Q) : SpT Q K := [(q, Arr.ones (q.map fun _ => 1))]

theorem ones_single (le : Q → Q → Bool) (q : Q) : SpT.ones le [[(q, 1)]] none none = some (oneBlock (K := K) [q]) := by
  simp [SpT.ones, SpT.skeleton, cart, sortBy, insertBy, BondFusingInfo.signedLabels, oneBlock]

theorem ones_edge (le : Q → Q → Bool) (qm qb qk : Q) (dq : Option Q) (h : qb - qk = dq.getD 0) :
    SpT.ones le [[(qm, 1)], [(qb, 1)], [(qk, 1)], [(qm, 1)]] (some [true, true, false, false]) dq = some (oneBlock (K := K) [qm, qb, qk, qm]) := by
  rcases dq with _ | d
  · have h2 : (0 : Q) + qm + qb + -qk = - -qm := by
      simp only [Option.getD_none, sub_eq_zero] at h
      rw [h]; simp
    simp only [SpT.ones, SpT.skeleton, cart, sortBy, insertBy, BondFusingInfo.signedLabels, oneBlock, List.any_cons, List.isEmpty_cons, List.any_nil,
      Bool.or_false, Bool.false_eq_true, if_false, List.map_cons, List.map_nil, Option.getD_some, List.flatMap_cons, List.flatMap_nil, List.append_nil,
      List.zip_cons_cons, List.zip_nil_right, List.filterMap_cons, List.filterMap_nil, if_true, List.getLastD_cons, List.getLastD_nil, List.length_cons,
      List.length_nil, List.dropLast, List.foldl_cons, List.foldl_nil, Option.map_some]
    rw [if_pos (Or.inr h2)]
    rfl
  · have h2 : (0 : Q) + qm + qb + -qk = d - -qm := by
      simp only [Option.getD_some] at h
      rw [← h]; abel
    simp only [SpT.ones, SpT.skeleton, cart, sortBy, insertBy, BondFusingInfo.signedLabels, oneBlock, List.any_cons, List.isEmpty_cons, List.any_nil,
      Bool.or_false, Bool.false_eq_true, if_false, List.map_cons, List.map_nil, Option.getD_some, List.flatMap_cons, List.flatMap_nil, List.append_nil,
      List.zip_cons_cons, List.zip_nil_right, List.filterMap_cons, List.filterMap_nil, if_true, List.getLastD_cons, List.getLastD_nil, List.length_cons,
      List.length_nil, List.dropLast, List.foldl_cons, List.foldl_nil, Option.map_some]
    rw [if_pos (Or.inr h2)]
    rfl

theorem conforms_oneBlock (q : List Q) : Conforms (q.map fun a => [(a, 1)]) (oneBlock (K := K) q) := by
  intro b hb
  obtain rfl := List.mem_singleton.1 hb
  have : ∀ q : List Q, IsCombination (q.map fun a => [(a, 1)]) q (q.map fun _ => 1) := by
    intro q
    induction q with
    | nil => exact .nil
    | cons a q ih => exact .cons (by simp [Dict.get?]) ih
  exact this q

theorem entry_oneBlock (q : List Q) (x : List (Q × Nat)) : entry (oneBlock (K := K) q) x = if x = q.map fun a => (a, 0) then 1 else 0 := by
  unfold entry oneBlock blockEntry
  simp only [List.map_cons, List.map_nil, List.sum_cons, List.sum_nil, add_zero, Arr.ones]
  refine if_congr ?_ rfl rfl
  induction q generalizing x with
  | nil => rcases x with _ | ⟨y, x⟩ <;> simp [inBox]
  | cons a q ih =>
    rcases x with _ | ⟨⟨c, n⟩, x⟩
    · simp
    · simp only [List.map_cons, List.cons.injEq, Prod.mk.injEq, inBox, Bool.and_eq_true, decide_eq_true_eq]
      have := ih x
      constructor
      · rintro ⟨⟨h1, h2⟩, h3, h4⟩
        exact ⟨⟨h1.symm, by omega⟩, this.1 ⟨h2, h4⟩⟩
      · rintro ⟨⟨h1, h2⟩, h3⟩
        obtain ⟨h4, h5⟩ := this.2 h3
        exact ⟨⟨h1.symm, h4⟩, by omega, h5⟩

theorem uniqueLabels_oneBlock (q : List Q) : UniqueLabels (oneBlock (K := K) q) := by
  simp [UniqueLabels, oneBlock]

theorem opSite_empty_odd {isF : Q → Bool} {l r : BondInfo Q} {ups downs : List (BondInfo Q)} {T : SpT Q K} (h : Conforms (l :: ups ++ downs ++ [r]) T)
    (hu : UniqueLabels T) (hp : ∀ b ∈ T, fermParity isF (physLabels b.1) = false) : OpSite isF l ups downs r ⟨[], T⟩ :=
  ⟨fun _ h => absurd h (by simp), h, by simp [UniqueLabels], hu, fun _ h => absurd h (by simp), hp⟩

theorem opSite_empty_even {isF : Q → Bool} {l r : BondInfo Q} {ups downs : List (BondInfo Q)} {T : SpT Q K} (h : Conforms (l :: ups ++ downs ++ [r]) T)
    (hu : UniqueLabels T) (hp : ∀ b ∈ T, fermParity isF (physLabels b.1) = true) : OpSite isF l ups downs r ⟨T, []⟩ :=
  ⟨h, fun _ h => absurd h (by simp), hu, by simp [UniqueLabels], hp, fun _ h => absurd h (by simp)⟩

/-- The boundary environment at an edge with the labels `qb` and `qk`. -/
theorem op_ones_edge (isF : Q → Bool) (h0 : isF 0 = false) (le : Q → Q → Bool) (qb qk : Q) (dq : Option Q) (h : qb - qk = dq.getD 0)
    (hp : isF (dq.getD 0) = xor (isF qb) (isF qk)) :
    ∃ R : OpT Q K, OpT.ones isF le [[(0, 1)], [(qb, 1)], [(qk, 1)], [(0, 1)]] (some [true, true, false, false]) dq = some R ∧
      OpSite isF [(0, 1)] [[(qb, 1)]] [[(qk, 1)]] [(0, 1)] R ∧
      ∀ s m b k e, opEntry R s [m, b, k, e] =
        if m = (0, 0) ∧ b = (qb, 0) ∧ k = (qk, 0) ∧ e = (0, 0) then paritySign K (isF (dq.getD 0) && s) else 0 := by
  have hd : (dq.map isF).getD false = isF (dq.getD 0) := by
    rcases dq with _ | d
    · simp [h0]
    · rfl
  have hc : Conforms ([(0, 1)] :: [[(qb, 1)]] ++ [[(qk, 1)]] ++ [[(0, 1)]]) (oneBlock (K := K) [0, qb, qk, 0]) := conforms_oneBlock [0, qb, qk, 0]
  have hpar : fermParity isF (physLabels [0, qb, qk, 0]) = isF (dq.getD 0) := by
    rw [hp]
    have : physLabels [0, qb, qk, 0] = [qb, qk] := rfl
    rw [this, fermParity_cons, fermParity_cons]
    simp [fermParity]
  unfold OpT.ones
  rw [ones_edge le 0 qb qk dq h, Option.map_some, hd]
  rcases hf : isF (dq.getD 0) with _ | _
  · refine ⟨_, rfl, opSite_empty_odd hc (uniqueLabels_oneBlock _) ?_, ?_⟩
    · intro b hb
      obtain rfl := List.mem_singleton.1 hb
      rw [← hf]; exact hpar
    · intro s m b k e
      simp only [opEntry, Bool.false_eq_true, if_false, entry_oneBlock, entry_nil, mul_zero, add_zero, Bool.false_and]
      refine if_congr ?_ rfl rfl
      simp
  · refine ⟨_, rfl, opSite_empty_even hc (uniqueLabels_oneBlock _) ?_, ?_⟩
    · intro b hb
      obtain rfl := List.mem_singleton.1 hb
      rw [← hf]; exact hpar
    · intro s m b k e
      simp only [opEntry, if_true, entry_oneBlock, entry_nil, zero_add, Bool.true_and]
      rw [mul_ite, mul_one, mul_zero]
      refine if_congr ?_ rfl rfl
      simp

theorem dict_single {d : BondInfo Q} {q : Q} (hw : Dict.WF d) (h : ∀ a s, Dict.get? d a = some s ↔ a = q ∧ s = 1) : d = [(q, 1)] := by
  have mem : ∀ x, x ∈ d ↔ x = (q, 1) := by
    rintro ⟨a, s⟩
    rw [← Dict.get?_iff_mem hw, h, Prod.mk.injEq]
  have nd : d.Nodup := List.Nodup.of_map Prod.fst hw
  rcases d with _ | ⟨x, _ | ⟨y, d⟩⟩
  · have := (mem (q, 1)).2 rfl
    simp at this
  · rw [(mem x).1 (by simp)]
  · have h1 := (mem x).1 (by simp)
    have h2 := (mem y).1 (by simp)
    rw [h1, h2] at nd
    simp at nd

theorem occ_edge {legs : List (BondInfo Q)} {T : SpT Q K} (hT : Conforms legs T) (hne : T ≠ []) {k : Nat} (hk : k < legs.length) {q : Q}
    (hq : legs.getD k [] = [(q, 1)]) : Verif.occ k T = [(q, 1)] := by
  obtain ⟨h1, h2⟩ := occ_fold hk T hT [] (by simp [Dict.WF, Dict.keys]) (by simp [Dict.get?])
  refine dict_single h1 fun a s => ?_
  rw [Verif.occ, h2, hq]
  have hg : ∀ a s, Dict.get? [(q, 1)] a = some s ↔ a = q ∧ s = 1 := by
    intro a s
    by_cases ha : q = a
    · subst ha; simp [Dict.get?, eq_comm]
    · have ha' : ¬ a = q := fun h => ha h.symm
      simp [Dict.get?, ha, ha']
  rw [hg]
  refine ⟨fun h => h.1, fun h => ⟨h, Or.inr ?_⟩⟩
  obtain ⟨b, T, rfl⟩ := List.exists_cons_of_ne_nil hne
  have := (hT b (by simp)).getD hk
  rw [hq, hg] at this
  exact ⟨b, by simp, this.1.trans h.1.symm⟩

theorem firstLeg_edge {l : List (BondInfo Q)} {T : SpT Q K} {q : Q} (hT : Conforms ([(q, 1)] :: l) T) (hne : T ≠ []) : Mpe.firstLeg T = some [(q, 1)] := by
  unfold Mpe.firstLeg
  rw [infos_eq hT hne, Option.bind_some, List.length_cons, List.range_succ_eq_map, List.map_cons, List.head?_cons, occ_edge hT hne (by simp) (q := q) rfl]

theorem lastLeg_edge {l : List (BondInfo Q)} {T : SpT Q K} {q : Q} (hT : Conforms (l ++ [[(q, 1)]]) T) (hne : T ≠ []) : Mpe.lastLeg T = some [(q, 1)] := by
  unfold Mpe.lastLeg
  rw [infos_eq hT hne, Option.bind_some, List.length_append, List.length_singleton, List.range_succ, List.map_append, List.map_singleton,
    List.getLast?_concat, occ_edge hT hne (by simp) (q := q) (by simp)]

theorem union_edge (q : Q) : BondInfo.union [(q, 1)] [(q, 1)] = [(q, 1)] := by
  simp [BondInfo.union, Counter.count, Dict.get?, Dict.set, Dict.has]

theorem op_infos {legs : List (BondInfo Q)} {A : OpT Q K} (h1 : Conforms legs A.odd) (h2 : Conforms legs A.even) (hl : legs ≠ []) (hb : A.noBlocks = false) :
    ∃ I, A.infos = some I ∧ I.length = legs.length ∧ ∀ k q, k < legs.length → legs.getD k [] = [(q, 1)] → I[k]? = some [(q, 1)] := by
  have nd : ∀ T : SpT Q K, Conforms legs T → (T.ndim = 0 ↔ T = []) := by
    intro T hT
    constructor
    · intro h
      by_contra hne
      rw [ndim_of_conforms hT hne] at h
      exact hl (List.length_eq_zero_iff.1 h)
    · rintro rfl; rfl
  unfold OpT.infos
  by_cases ho : A.odd = []
  · rw [if_pos ((nd _ h1).2 ho)]
    have he : A.even ≠ [] := by
      intro he
      simp [OpT.noBlocks, ho, he] at hb
    refine ⟨_, infos_eq h2 he, by simp, fun k q hk hq => ?_⟩
    rw [List.getElem?_map, List.getElem?_range hk, Option.map_some, occ_edge h2 he hk hq]
  · rw [if_neg (fun h => ho ((nd _ h1).1 h))]
    by_cases he : A.even = []
    · rw [if_pos ((nd _ h2).2 he)]
      refine ⟨_, infos_eq h1 ho, by simp, fun k q hk hq => ?_⟩
      rw [List.getElem?_map, List.getElem?_range hk, Option.map_some, occ_edge h1 ho hk hq]
    · rw [if_neg (fun h => he ((nd _ h2).1 h)), infos_eq h1 ho, infos_eq h2 he]
      refine ⟨_, rfl, by simp, fun k q hk hq => ?_⟩
      have hz : (((List.range legs.length).map fun k => Verif.occ k A.odd).zip ((List.range legs.length).map fun k => Verif.occ k A.even))[k]? =
          some (Verif.occ k A.odd, Verif.occ k A.even) := by
        rw [List.getElem?_zip_eq_some]
        constructor
        · rw [List.getElem?_map, List.getElem?_range hk]; rfl
        · rw [List.getElem?_map, List.getElem?_range hk]; rfl
      rw [List.getElem?_map, hz, Option.map_some, occ_edge h1 ho hk hq, occ_edge h2 he hk hq, union_edge]

theorem NOk.tail_of_append {isF : Q → Bool} {xs ys : List (NSite Q K)} : ∀ {lb lm lk : BondInfo Q}, NOk isF lb lm lk (xs ++ ys) →
    ∃ lb' lm' lk', NOk isF lb' lm' lk' ys := by
  induction xs with
  | nil => intro lb lm lk h; exact ⟨lb, lm, lk, h⟩
  | cons σ xs ih => intro lb lm lk h; exact ih h.2

/-- The boundary tensors of a network. -/
structure IdentsFor (isF : Q → Bool) (qb qk : Q) (dq : Option Q) (ids : Mpe.Idents Q K) : Prop where
  lBra : ids.lBra = oneBlock [0]
  rBra : ids.rBra = oneBlock [0]
  lKet : ids.lKet = oneBlock [0]
  rKet : ids.rKet = oneBlock [0]
  lSite : OpSite isF [(0, 1)] [[(0, 1)]] [[(0, 1)]] [(0, 1)] ids.lMpo
  lEntry : ∀ s m b k e, opEntry ids.lMpo s [m, b, k, e] = if m = (0, 0) ∧ b = (0, 0) ∧ k = (0, 0) ∧ e = (0, 0) then 1 else 0
  rSite : OpSite isF [(0, 1)] [[(qb, 1)]] [[(qk, 1)]] [(0, 1)] ids.rMpo
  rEntry : ∀ s m b k e, opEntry ids.rMpo s [m, b, k, e] =
    if m = (0, 0) ∧ b = (qb, 0) ∧ k = (qk, 0) ∧ e = (0, 0) then paritySign K (isF (dq.getD 0) && s) else 0

theorem initIdents_spec {isF : Q → Bool} (h0 : isF 0 = false) (le : Q → Q → Bool) {qb qk : Q} {S : List (NSite Q K)} {σ1 : NSite Q K}
    (h : NOk isF [(0, 1)] [(0, 1)] [(0, 1)] (S ++ [σ1])) (hr : σ1.rb = [(qb, 1)] ∧ σ1.rm = [(0, 1)] ∧ σ1.rk = [(qk, 1)])
    (hf : ∀ σ ∈ S ++ [σ1], σ.full) (dq : Option Q) (hd : qb - qk = dq.getD 0) (hp : isF (dq.getD 0) = xor (isF qb) (isF qk)) :
    ∃ ids, Mpe.initIdents isF le ((S ++ [σ1]).map (·.B)) ((S ++ [σ1]).map (·.W)) ((S ++ [σ1]).map (·.T)) dq = some ids ∧
      IdentsFor isF qb qk dq ids := by
  obtain ⟨lb', lm', lk', hl, -⟩ := NOk.tail_of_append h
  obtain ⟨-, -, -, cB, cW, cT, -, -, -, -⟩ := hl
  rw [hr.1] at cB; rw [hr.2.1] at cW; rw [hr.2.2] at cT
  have fl := hf σ1 (by simp)
  obtain ⟨τ, rest, hτ⟩ : ∃ τ rest, S ++ [σ1] = τ :: rest := by
    rcases S with _ | ⟨τ, S⟩
    · exact ⟨σ1, [], rfl⟩
    · exact ⟨τ, S ++ [σ1], rfl⟩
  have ft := hf τ (by rw [hτ]; simp)
  obtain ⟨⟨-, -, -, dB, dW, dT, -, -, -, -⟩, -⟩ : NOk isF [(0, 1)] [(0, 1)] [(0, 1)] (τ :: rest) := hτ ▸ h
  obtain ⟨Lm, l1, l2, l3⟩ := op_ones_edge (K := K) isF h0 le 0 0 none (by simp) (by simp [h0])
  obtain ⟨Rm, r1, r2, r3⟩ := op_ones_edge (K := K) isF h0 le qb qk dq hd hp
  have hb : ((S ++ [σ1]).map (·.B)).headD [] = τ.B ∧ ((S ++ [σ1]).map (·.T)).headD [] = τ.T ∧ ((S ++ [σ1]).map (·.W)).headD ⟨[], []⟩ = τ.W := by
    rw [hτ]; exact ⟨rfl, rfl, rfl⟩
  have he : ((S ++ [σ1]).map (·.B)).getLastD [] = σ1.B ∧ ((S ++ [σ1]).map (·.T)).getLastD [] = σ1.T ∧ ((S ++ [σ1]).map (·.W)).getLastD ⟨[], []⟩ = σ1.W := by
    simp
  have m1 : (if τ.W.noBlocks then some [((0 : Q), 1)] else τ.W.infos.bind fun i => i.head?) = some [(0, 1)] := by
    by_cases hn : τ.W.noBlocks = true
    · rw [if_pos hn]
    · rw [if_neg hn]
      obtain ⟨I, i1, i2, i3⟩ := op_infos dW.odd dW.even (by simp) (by simpa using hn)
      rw [i1, Option.bind_some, List.head?_eq_getElem?]
      exact i3 0 0 (by simp) rfl
  have m2 : (if σ1.W.noBlocks then some [((0 : Q), 1)] else σ1.W.infos.bind fun i => i.getLast?) = some [(0, 1)] := by
    by_cases hn : σ1.W.noBlocks = true
    · rw [if_pos hn]
    · rw [if_neg hn]
      obtain ⟨I, i1, i2, i3⟩ := op_infos cW.odd cW.even (by simp) (by simpa using hn)
      rw [i1, Option.bind_some, List.getLast?_eq_getElem?, i2]
      refine i3 _ 0 (by simp) ?_
      have : (lm' :: σ1.ups ++ σ1.downs ++ [[((0 : Q), 1)]]).length - 1 = (lm' :: σ1.ups ++ σ1.downs).length := by simp; omega
      rw [this, List.getD_append_right _ _ _ _ (le_refl _), Nat.sub_self]
      rfl
  refine ⟨⟨Lm, Rm, oneBlock [0], oneBlock [0], oneBlock [0], oneBlock [0]⟩, ?_, ⟨rfl, rfl, rfl, rfl, l2, ?_, r2, r3⟩⟩
  · unfold Mpe.initIdents
    rw [hb.1, hb.2.1, hb.2.2, he.1, he.2.1, he.2.2, firstLeg_edge dB ft.1, firstLeg_edge dT ft.2, lastLeg_edge cB fl.1, lastLeg_edge cT fl.2]
    simp only [Option.bind_some, m1, m2, l1, r1, ones_single, Option.map_some]
  · intro s m b k e
    rw [l3]
    simp [h0, paritySign]

/-! ### The network of a sub-system -/

theorem outer_left {isF : Q → Bool} (h0 : isF 0 = false) {legs : List (BondInfo Q)} {T : SpT Q K} (hT : Conforms legs T) (eT : EvenBlocks isF T) :
    ∃ R, SpT.tensordotN (oneBlock [0]) T 0 = some R ∧ Conforms ([(0, 1)] :: legs) R ∧ EvenBlocks isF R ∧
      ∀ x, x.length = legs.length → entry R ((0, 0) :: x) = entry T x := by
  obtain ⟨R, r1, r2, -, r3, r4⟩ := sp_contract [[((0 : Q), 1)]] [] [] [] legs (by simp) (oneBlock (K := K) [0]) T (conforms_oneBlock [0]) hT
  refine ⟨R, r1, r2, ?_, fun x hx => ?_⟩
  · intro r hr
    obtain ⟨u, v, m, u', v', e1, e2, e3, e4, e5, ⟨a, ha, ea⟩, ⟨b, hb, eb⟩, e6⟩ := r4 r hr
    obtain rfl := List.mem_singleton.1 ha
    obtain rfl := List.length_eq_zero_iff.1 e2
    obtain rfl := List.length_eq_zero_iff.1 e3
    obtain rfl := List.length_eq_zero_iff.1 e4
    simp only [List.append_nil, List.nil_append] at ea eb e6
    rw [e6, ← ea, fermParity_append, ← eb, eT b hb, fermParity_cons, h0]
    rfl
  · have := r3 [(0, 0)] [] [] x rfl rfl rfl hx
    rw [legIndices_nil_sum] at this
    simp only [List.append_nil, List.nil_append, List.singleton_append] at this
    rw [this, entry_oneBlock]; simp

theorem outer_right {isF : Q → Bool} (h0 : isF 0 = false) {legs : List (BondInfo Q)} {T : SpT Q K} (hT : Conforms legs T) (eT : EvenBlocks isF T) :
    ∃ R, SpT.tensordotN T (oneBlock [0]) 0 = some R ∧ Conforms (legs ++ [[(0, 1)]]) R ∧ EvenBlocks isF R ∧
      ∀ x, x.length = legs.length → entry R (x ++ [(0, 0)]) = entry T x := by
  obtain ⟨R, r1, r2, -, r3, r4⟩ := sp_contract [] [] legs [[((0 : Q), 1)]] [] (by simp) T (oneBlock (K := K) [0]) hT (conforms_oneBlock [0])
  refine ⟨R, r1, by simpa using r2, ?_, fun x hx => ?_⟩
  · intro r hr
    obtain ⟨u, v, m, u', v', e1, e2, e3, e4, e5, ⟨a, ha, ea⟩, ⟨b, hb, eb⟩, e6⟩ := r4 r hr
    obtain rfl := List.mem_singleton.1 hb
    obtain rfl := List.length_eq_zero_iff.1 e1
    obtain rfl := List.length_eq_zero_iff.1 e3
    obtain rfl := List.length_eq_zero_iff.1 e5
    simp only [List.append_nil, List.nil_append] at ea eb e6
    rw [e6, ← ea, fermParity_append, ← eb, eT a ha, fermParity_cons, h0]
    rfl
  · have := r3 [] x [(0, 0)] [] rfl hx rfl rfl
    rw [legIndices_nil_sum] at this
    simp only [List.append_nil, List.nil_append] at this
    rw [this, entry_oneBlock]; simp

/-- The first site of a sub-system with the left environment. -/
theorem first_site {isF : Q → Bool} (h0 : isF 0 = false) {lb lm lk : BondInfo Q} {L : OpT Q K} {σ : NSite Q K} {rest : List (NSite Q K)}
    (hL : OpSite isF [(0, 1)] [lb] [lk] lm L) (h : NOk isF lb lm lk (σ :: rest)) :
    ∃ τ : NSite Q K, SpT.tensordotN (oneBlock [0]) σ.B 0 = some τ.B ∧ SpT.tensordotN (oneBlock [0]) σ.T 0 = some τ.T ∧ L.hdot isF σ.W = some τ.W ∧
      τ.ups = lb :: σ.ups ∧ τ.downs = lk :: σ.downs ∧ τ.rb = σ.rb ∧ τ.rm = σ.rm ∧ τ.rk = σ.rk ∧
      NOk isF [(0, 1)] [(0, 1)] [(0, 1)] (τ :: rest) ∧
      ∀ F, net isF F (τ :: rest) false (0, 0) (0, 0) (0, 0) = closeLeft isF F lb lm lk L (0, 0) (σ :: rest) := by
  obtain ⟨⟨w1, w2, w3, hB, hW, hT, eB, eT, hlen, wl'⟩, hrest⟩ := h
  obtain ⟨B, b1, b2, b3, b4⟩ := outer_left h0 hB eB
  obtain ⟨T, t1, t2, t3, t4⟩ := outer_left h0 hT eT
  obtain ⟨W, v1, v2, v3⟩ := hdot_site isF w2 (uA := [lb]) (dA := [lk]) rfl hlen hL hW
  have wone := (goodBond_one (0 : Q)).1
  refine ⟨⟨B, W, T, lb :: σ.ups, lk :: σ.downs, σ.rb, σ.rm, σ.rk⟩, b1, t1, v1, rfl, rfl, rfl, rfl, rfl,
    ⟨⟨wone, wone, wone, b2, v2, t2, b3, t3, by simp [hlen], ?_⟩, hrest⟩, ?_⟩
  · intro c hc
    simp only [List.cons_append, List.mem_cons, List.mem_append] at hc
    rcases hc with rfl | hc | rfl | hc
    · exact w1
    · exact wl' c (by simp [hc])
    · exact w3
    · exact wl' c (by simp [hc])
  · intro F
    unfold closeLeft
    rw [net_cons, legIndices_cons_sum]
    refine sum_map_congr' _ _ _ fun b _ => ?_
    -- right side: sums over `u, b', d, k', m'` outside
    have rhs : ∀ k, ((legBasis lm).map fun m => opEntry L false [(0, 0), b, k, m] * net isF F (σ :: rest) (isF k.1) b m k).sum =
        ((legIndices σ.ups).map fun u => ((legBasis σ.rb).map fun b' => ((legIndices σ.downs).map fun d => ((legBasis σ.rk).map fun k' =>
          star (entry σ.B (b :: u ++ [b'])) * (((legBasis σ.rm).map fun m' => ((legBasis lm).map fun m => opEntry L false [(0, 0), b, k, m] *
            opEntry σ.W (isF k.1) (m :: u ++ d ++ [m'])).sum * net isF F rest (xor (isF k.1) (fermParity isF (d.map Prod.fst))) b' m' k').sum *
              entry σ.T (k :: d ++ [k']))).sum).sum).sum).sum := by
      intro k
      have e1 : ∀ m, opEntry L false [(0, 0), b, k, m] * net isF F (σ :: rest) (isF k.1) b m k =
          ((legIndices σ.ups).map fun u => ((legBasis σ.rb).map fun b' => ((legIndices σ.downs).map fun d => ((legBasis σ.rk).map fun k' =>
            star (entry σ.B (b :: u ++ [b'])) * (((legBasis σ.rm).map fun m' => (opEntry L false [(0, 0), b, k, m] *
              opEntry σ.W (isF k.1) (m :: u ++ d ++ [m'])) * net isF F rest (xor (isF k.1) (fermParity isF (d.map Prod.fst))) b' m' k').sum *
                entry σ.T (k :: d ++ [k']))).sum).sum).sum).sum := by
        intro m
        rw [net_cons]
        simp only [← sum_map_mul_left', ← sum_map_mul_right']
        refine sum_map_congr' _ _ _ fun u _ => ?_
        refine sum_map_congr' _ _ _ fun b' _ => ?_
        refine sum_map_congr' _ _ _ fun d _ => ?_
        refine sum_map_congr' _ _ _ fun k' _ => ?_
        refine sum_map_congr' _ _ _ fun m' _ => ?_
        ring
      simp only [e1]
      rw [sum_comm']
      refine sum_map_congr' _ _ _ fun u _ => ?_
      rw [sum_comm']
      refine sum_map_congr' _ _ _ fun b' _ => ?_
      rw [sum_comm']
      refine sum_map_congr' _ _ _ fun d _ => ?_
      rw [sum_comm']
      refine sum_map_congr' _ _ _ fun k' _ => ?_
      rw [sum_map_mul_left', sum_map_mul_right', sum_comm']
      congr 2
      refine sum_map_congr' _ _ _ fun m' _ => ?_
      rw [sum_map_mul_right']
    simp only [rhs]
    rw [sum_comm' (legBasis lk)]
    refine sum_map_congr' _ _ _ fun u hu => ?_
    rw [sum_comm' (legBasis lk)]
    refine sum_map_congr' _ _ _ fun b' _ => ?_
    rw [legIndices_cons_sum]
    refine sum_map_congr' _ _ _ fun k _ => ?_
    refine sum_map_congr' _ _ _ fun d hd => ?_
    refine sum_map_congr' _ _ _ fun k' _ => ?_
    have lu := legIndices_length hu
    have ld := legIndices_length hd
    have q1 : entry B ((0, 0) :: (b :: u) ++ [b']) = entry σ.B (b :: u ++ [b']) := b4 (b :: u ++ [b']) (by simp [lu])
    have q2 : entry T ((0, 0) :: (k :: d) ++ [k']) = entry σ.T (k :: d ++ [k']) := t4 (k :: d ++ [k']) (by simp [ld])
    rw [q1, q2]
    congr 2
    refine sum_map_congr' _ _ _ fun m' _ => ?_
    have q3 : opEntry W false ((0, 0) :: (b :: u) ++ (k :: d) ++ [m']) = _ := v3 false (0, 0) m' [b] u [k] d rfl rfl lu ld
    rw [q3]
    have q4 : xor false (fermParity isF ((k :: d).map Prod.fst)) = xor (isF k.1) (fermParity isF (d.map Prod.fst)) := by
      rw [List.map_cons, fermParity_cons, Bool.false_xor]
    have q5 : xor false (fermParity isF ([k].map Prod.fst)) = isF k.1 := by
      rw [List.map_cons, List.map_nil, fermParity_cons]; simp [fermParity]
    rw [q4, q5]
    rfl

/-- The last site of a sub-system with the right environment. -/
theorem last_site {isF : Q → Bool} (h0 : isF 0 = false) {lb lm lk : BondInfo Q} {R : OpT Q K} {σ : NSite Q K}
    (hR : OpSite isF σ.rm [σ.rb] [σ.rk] [(0, 1)] R) (h : NOk isF lb lm lk [σ]) :
    ∃ τ : NSite Q K, SpT.tensordotN σ.B (oneBlock [0]) 0 = some τ.B ∧ SpT.tensordotN σ.T (oneBlock [0]) 0 = some τ.T ∧ σ.W.hdot isF R = some τ.W ∧
      τ.ups = σ.ups ++ [σ.rb] ∧ τ.downs = σ.downs ++ [σ.rk] ∧ τ.rb = [(0, 1)] ∧ τ.rm = [(0, 1)] ∧ τ.rk = [(0, 1)] ∧
      NOk isF lb lm lk [τ] ∧
      ∀ s b m k, net isF (edge (0, 0) (0, 0) (0, 0)) [τ] s b m k = net isF (fun s b m k => opEntry R s [m, b, k, (0, 0)]) [σ] s b m k := by
  obtain ⟨⟨w1, w2, w3, hB, hW, hT, eB, eT, hlen, wl'⟩, v1, v2, v3⟩ := h
  obtain ⟨B, b1, b2, b3, b4⟩ := outer_right h0 hB eB
  obtain ⟨T, t1, t2, t3, t4⟩ := outer_right h0 hT eT
  obtain ⟨W, u1, u2, u3⟩ := hdot_site isF v2 hlen (uB := [σ.rb]) (dB := [σ.rk]) rfl hW hR
  have wone := (goodBond_one (0 : Q)).1
  refine ⟨⟨B, W, T, σ.ups ++ [σ.rb], σ.downs ++ [σ.rk], [(0, 1)], [(0, 1)], [(0, 1)]⟩, b1, t1, u1, rfl, rfl, rfl, rfl, rfl,
    ⟨⟨w1, w2, w3, by simpa using b2, u2, by simpa using t2, b3, t3, by simp [hlen], ?_⟩, wone, wone, wone⟩, ?_⟩
  · intro c hc
    simp only [List.append_assoc, List.mem_append, List.mem_cons, List.not_mem_nil, or_false] at hc
    rcases hc with hc | rfl | hc | rfl
    · exact wl' c (by simp [hc])
    · exact v1
    · exact wl' c (by simp [hc])
    · exact v3
  · intro s b m k
    rw [net_cons, net_cons]
    simp only [legBasis_single, List.map_cons, List.map_nil, List.sum_cons, List.sum_nil, add_zero, net, edge, and_self, if_true, mul_one]
    rw [legIndices_snoc_sum]
    refine sum_map_congr' _ _ _ fun u hu => ?_
    refine sum_map_congr' _ _ _ fun b' _ => ?_
    rw [legIndices_snoc_sum]
    refine sum_map_congr' _ _ _ fun d hd => ?_
    refine sum_map_congr' _ _ _ fun k' _ => ?_
    have lu := legIndices_length hu
    have ld := legIndices_length hd
    have q1 : entry B (b :: (u ++ [b']) ++ [(0, 0)]) = entry σ.B (b :: u ++ [b']) := b4 (b :: u ++ [b']) (by simp [lu])
    have q2 : entry T (k :: (d ++ [k']) ++ [(0, 0)]) = entry σ.T (k :: d ++ [k']) := t4 (k :: d ++ [k']) (by simp [ld])
    rw [q1, q2, u3 s m (0, 0) u [b'] d [k'] lu ld rfl rfl]
    rfl

end
end Verif
