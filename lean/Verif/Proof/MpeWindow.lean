import Verif.Proof.MpeEnv
import Verif.Proof.MpeExpect

/-! The sub-system of a window of at least two sites. -/

set_option linter.unusedSectionVars false

namespace Verif
section
variable {Q K : Type} [DecidableEq Q] [AddCommGroup Q] [CommRing K] [StarRing K]

theorem effMps_two (lid t z rid : SpT Q K) (mid : List (SpT Q K)) :
    Mpe.effMps lid (t :: mid ++ [z]) rid = (SpT.tensordotN lid t 0).bind fun t' => (SpT.tensordotN z rid 0).map fun z' => ⟨t' :: mid ++ [z'], 0⟩ := by
  unfold Mpe.effMps
  dsimp only
  have e0 : (lid :: (t :: mid ++ [z]) ++ [rid]).getD 0 [] = lid := rfl
  have e1 : (lid :: (t :: mid ++ [z]) ++ [rid]).getD 1 [] = t := rfl
  have e2 : (lid :: (t :: mid ++ [z]) ++ [rid]).drop 2 = mid ++ [z] ++ [rid] := rfl
  rw [e0, e1, e2]
  congr 1
  funext t'
  have l0 : (t' :: (mid ++ [z] ++ [rid])).length = mid.length + 3 := by simp
  have e3 : (t' :: (mid ++ [z] ++ [rid])).getD (mid.length + 1) [] = z := by simp
  have e4 : (t' :: (mid ++ [z] ++ [rid])).getD (mid.length + 2) [] = rid := by simp
  have e5 : (t' :: (mid ++ [z] ++ [rid])).take (mid.length + 1) = t' :: mid := by simp
  rw [l0]
  show Option.map _ (SpT.tensordotN ((t' :: (mid ++ [z] ++ [rid])).getD (mid.length + 1) []) ((t' :: (mid ++ [z] ++ [rid])).getD (mid.length + 2) []) 0) = _
  rw [e3, e4]
  congr 1
  funext z'
  show Mps.mk ((t' :: (mid ++ [z] ++ [rid])).take (mid.length + 1) ++ [z']) 0 = _
  rw [e5]

theorem effMpo_two (isF : Q → Bool) (L w z R : OpT Q K) (mid : List (OpT Q K)) (c : K) :
    Mpe.effMpo isF L (w :: mid ++ [z]) R c = (L.hdot isF w).bind fun w' => (z.hdot isF R).map fun z' => ⟨w' :: mid ++ [z'], c⟩ := by
  unfold Mpe.effMpo
  dsimp only [List.cons_append]
  congr 1
  funext w'
  have l0 : (w' :: (mid ++ [z]) ++ [R]).length = mid.length + 3 := by simp
  have e3 : (w' :: (mid ++ [z]) ++ [R]).getD (mid.length + 1) ⟨[], []⟩ = z := by simp
  have e5 : (w' :: (mid ++ [z]) ++ [R]).take (mid.length + 1) = w' :: mid := by simp
  have l1 : (w' :: (mid ++ [z] ++ [R])).length = mid.length + 3 := l0
  rw [if_pos (by rw [l1]; omega)]
  show Option.map _ (OpT.hdot isF ((w' :: (mid ++ [z]) ++ [R]).getD ((w' :: (mid ++ [z]) ++ [R]).length - 2) ⟨[], []⟩) R) = _
  rw [l0, show mid.length + 3 - 2 = mid.length + 1 from rfl, e3]
  congr 1
  funext z'
  show Mpo.mk ((w' :: (mid ++ [z]) ++ [R]).take ((w' :: (mid ++ [z]) ++ [R]).length - 2) ++ [z']) c = _
  rw [l0, show mid.length + 3 - 2 = mid.length + 1 from rfl, e5]
  rfl

theorem NOk.after {isF : Q → Bool} {xs ys : List (NSite Q K)} {σ : NSite Q K} : ∀ {lb lm lk : BondInfo Q}, NOk isF lb lm lk (xs ++ σ :: ys) →
    NOk isF σ.rb σ.rm σ.rk ys := by
  induction xs with
  | nil => intro _ _ _ h; exact h.2
  | cons x xs ih => intro _ _ _ h; exact ih h.2

theorem NOk.front {isF : Q → Bool} {xs ys : List (NSite Q K)} : ∀ {lb lm lk : BondInfo Q}, NOk isF lb lm lk (xs ++ ys) → NOk isF lb lm lk xs := by
  induction xs with
  | nil => intro _ _ _ h; exact h.wf
  | cons x xs ih => intro _ _ _ h; exact ⟨h.1, ih h.2⟩

theorem NOk.last {isF : Q → Bool} {xs : List (NSite Q K)} {σ : NSite Q K} : ∀ {lb lm lk : BondInfo Q}, NOk isF lb lm lk (xs ++ [σ]) →
    ∃ lb' lm' lk', NOk isF lb' lm' lk' [σ] ∧ ∀ τ, NOk isF lb' lm' lk' [τ] → NOk isF lb lm lk (xs ++ [τ]) := by
  induction xs with
  | nil => intro lb lm lk h; exact ⟨lb, lm, lk, h, fun τ h => h⟩
  | cons x xs ih =>
    intro lb lm lk h
    obtain ⟨lb', lm', lk', h1, h2⟩ := ih h.2
    exact ⟨lb', lm', lk', h1, fun τ ht => ⟨h.1, h2 τ ht⟩⟩

theorem closeLeft_ident {isF : Q → Bool} (h0 : isF 0 = false) {qb qk : Q} {dq : Option Q} {ids : Mpe.Idents Q K} (hI : IdentsFor isF qb qk dq ids)
    (F : Bool → Q × Nat → Q × Nat → Q × Nat → K) (S : List (NSite Q K)) :
    closeLeft isF F [(0, 1)] [(0, 1)] [(0, 1)] ids.lMpo (0, 0) S = net isF F S false (0, 0) (0, 0) (0, 0) := by
  unfold closeLeft
  simp [legBasis_single, hI.lEntry, h0]

theorem NOk.len {isF : Q → Bool} {S : List (NSite Q K)} : ∀ {lb lm lk : BondInfo Q}, NOk isF lb lm lk S → ∀ σ ∈ S, σ.ups.length = σ.downs.length := by
  induction S with
  | nil => intro _ _ _ _ σ hσ; simp at hσ
  | cons x S ih =>
    intro _ _ _ h σ hσ
    rcases List.mem_cons.1 hσ with rfl | hσ
    · exact h.1.2.2.2.2.2.2.2.2.1
    · exact ih h.2 σ hσ

/-- There is a physical leg, and all bonds of the site are labelled by distinct labels with positive dimensions. -/
def NSite.good (σ : NSite Q K) : Prop := σ.ups ≠ [] ∧ GoodBond σ.rb ∧ GoodBond σ.rm ∧ GoodBond σ.rk ∧ ∀ c ∈ σ.ups ++ σ.downs, GoodBond c

/-- The right edges of a network. -/
def rightEdge (qb qk : Q) (S : List (NSite Q K)) : Prop :=
  ([(0, 1)] :: S.map (·.rb)).getLastD [] = [(qb, 1)] ∧ ([(0, 1)] :: S.map (·.rm)).getLastD [] = [(0, 1)] ∧
    ([(0, 1)] :: S.map (·.rk)).getLastD [] = [(qk, 1)]

theorem net_right_ident {isF : Q → Bool} (h0 : isF 0 = false) {qb qk : Q} {dq : Option Q} {ids : Mpe.Idents Q K} (hI : IdentsFor isF qb qk dq ids)
    {S : List (NSite Q K)} (h : NOk isF [(0, 1)] [(0, 1)] [(0, 1)] S) :
    net isF (fun s b m k => opEntry ids.rMpo s [m, b, k, (0, 0)]) S false (0, 0) (0, 0) (0, 0) =
      paritySign K (isF (dq.getD 0) && isF qk) * net isF (edge (qb, 0) (0, 0) (qk, 0)) S false (0, 0) (0, 0) (0, 0) := by
  have := net_congr_par (K := K) isF (F := fun s b m k => opEntry ids.rMpo s [m, b, k, (0, 0)])
    (G := fun s b m k => paritySign K (isF (dq.getD 0) && isF qk) * edge (qb, 0) (0, 0) (qk, 0) s b m k) (by
      intro b m k
      rw [hI.rEntry]
      unfold edge
      by_cases hk : k = (qk, 0)
      · subst hk
        by_cases hb : b = (qb, 0) <;> by_cases hm : m = (0, 0) <;> simp [hb, hm]
      · simp [hk]) h (0, 0) (0, 0) (0, 0)
  rw [h0] at this
  rw [this, net_scale]

theorem getLastD_append_cons {α : Type} (a : α) (l : List α) (x : α) (ys : List α) (d : α) :
    (a :: (l ++ x :: ys)).getLastD d = (x :: ys).getLastD d := by
  rw [← List.cons_append, List.getLastD_eq_getLast?, List.getLastD_eq_getLast?, List.getLast?_append]
  cases h : (x :: ys).getLast? with
  | none => simp at h
  | some v => simp

/-- A window of at least two sites. -/
theorem window_spec {isF : Q → Bool} (h0 : isF 0 = false) {qb qk : Q} {dq : Option Q} {ids : Mpe.Idents Q K} (hI : IdentsFor isF qb qk dq ids)
    {A M C : List (NSite Q K)} {σ0 σ1 : NSite Q K} (h : NOk isF [(0, 1)] [(0, 1)] [(0, 1)] (A ++ (σ0 :: M ++ σ1 :: C)))
    (hr : rightEdge qb qk (A ++ (σ0 :: M ++ σ1 :: C))) (hf : ∀ σ ∈ A ++ C, σ.full) (hg : ∀ σ ∈ A ++ (σ0 :: M ++ σ1 :: C), σ.good) (c : K) :
    ∃ L R bra o ket Y X Z phys, leftOver isF ids.lMpo A = some L ∧ rightOver isF ids.rMpo C = some R ∧
      Mpe.effMps ids.lKet ((σ0 :: M ++ [σ1]).map (·.T)) ids.rKet = some ket ∧ Mpe.effMps ids.lBra ((σ0 :: M ++ [σ1]).map (·.B)) ids.rBra = some bra ∧
      Mpe.effMpo isF L ((σ0 :: M ++ [σ1]).map (·.W)) R c = some o ∧ Network isF 0 0 Y X Z phys bra.tensors o.tensors ket.tensors ∧ X ≠ [] ∧
      o.const = c ∧ ket.const = 0 ∧ bra.const = 0 ∧
      sandwich isF phys Y X Z bra.tensors o.tensors ket.tensors false (0, 0) (0, 0) (0, 0) (0, 0) (0, 0) (0, 0) =
        paritySign K (isF (dq.getD 0) && isF qk) * net isF (edge (qb, 0) (0, 0) (qk, 0)) (A ++ (σ0 :: M ++ σ1 :: C)) false (0, 0) (0, 0) (0, 0) ∧
      ((∀ τ ∈ A, τ.rb = τ.rk) → (∀ τ ∈ σ0 :: M ++ [σ1], τ.ups = τ.downs) → σ1.rb = σ1.rk → ∀ ph ∈ phys, ph.1 = ph.2) ∧
      (phys.map Prod.snd).flatten = ([(0, 1)] :: A.map (·.rk)).getLastD [] :: ((σ0 :: M ++ [σ1]).map (·.downs)).flatten ++ [σ1.rk] ∧
      (phys.map Prod.fst).flatten = ([(0, 1)] :: A.map (·.rb)).getLastD [] :: ((σ0 :: M ++ [σ1]).map (·.ups)).flatten ++ [σ1.rb] := by
  have hgA : ∀ σ ∈ A, σ.good := fun σ hσ => hg σ (by simp [hσ])
  have hg0 : σ0.good := hg σ0 (by simp)
  have hg1 : σ1.good := hg σ1 (by simp)
  have hgM : ∀ σ ∈ M, σ.good := fun σ hσ => hg σ (by simp [hσ])
  have g1 : GoodBond ([(0, 1)] : BondInfo Q) := goodBond_one 0
  obtain ⟨L, lb, lm, lk, eL, sL, nL, ⟨bL, kL, jL⟩, cL⟩ := leftOver_spec isF (0, 0) hI.lSite h fun σ hσ => hf σ (by simp [hσ])
  have gl : GoodBond lb ∧ GoodBond lm ∧ GoodBond lk := by
    rcases bL with ⟨rfl, rfl, rfl⟩ | ⟨σ, hσ, rfl, rfl, rfl⟩
    · exact ⟨g1, g1, g1⟩
    · exact ⟨(hgA σ hσ).2.1, (hgA σ hσ).2.2.1, (hgA σ hσ).2.2.2.1⟩
  have hC : NOk isF σ1.rb σ1.rm σ1.rk C := by
    have : NOk isF [(0, 1)] [(0, 1)] [(0, 1)] ((A ++ σ0 :: M) ++ σ1 :: C) := by simpa using h
    exact this.after
  have hx : ∀ (f : NSite Q K → BondInfo Q), ([(0, 1)] :: (A ++ (σ0 :: M ++ σ1 :: C)).map f).getLastD [] = (f σ1 :: C.map f).getLastD [] := by
    intro f
    rw [show (A ++ (σ0 :: M ++ σ1 :: C)).map f = (A ++ σ0 :: M).map f ++ f σ1 :: C.map f by simp, getLastD_append_cons]
  obtain ⟨r1, r2, r3⟩ := hr
  rw [hx] at r1 r2 r3
  obtain ⟨R, eR, sR, cR⟩ := rightOver_spec isF (0, 0) hI.rSite hC r1 r2 r3 fun σ hσ => hf σ (by simp [hσ])
  obtain ⟨τ0, b0, t0, w0, u0, d0, x0, y0, z0, n0, c0⟩ := first_site h0 sL nL
  have n0' : NOk isF [(0, 1)] [(0, 1)] [(0, 1)] ((τ0 :: M) ++ [σ1]) := by
    have : NOk isF [(0, 1)] [(0, 1)] [(0, 1)] ((τ0 :: M ++ [σ1]) ++ C) := by simpa using n0
    exact this.front
  obtain ⟨lb', lm', lk', nl, nr⟩ := n0'.last
  obtain ⟨τ1, b1, t1, w1, u1, d1, x1, y1, z1, n1, c1⟩ := last_site h0 sR nl
  have hE := nr τ1 n1
  have hlists := hE.lists
  refine ⟨L, R, ⟨(τ0 :: M ++ [τ1]).map (·.B), 0⟩, ⟨(τ0 :: M ++ [τ1]).map (·.W), c⟩, ⟨(τ0 :: M ++ [τ1]).map (·.T), 0⟩, (τ0 :: M).map (·.rb), (τ0 :: M).map (·.rm),
    (τ0 :: M).map (·.rk), (τ0 :: M ++ [τ1]).map (fun σ => (σ.ups, σ.downs)), eL, eR, ?_, ?_, ?_, ?_, by simp, rfl, rfl, rfl, ?_, ?_, ?_⟩
  · simp only [List.map_append, List.map_cons, List.map_nil]
    rw [effMps_two, hI.lKet, hI.rKet, t0, t1]
    simp
  · simp only [List.map_append, List.map_cons, List.map_nil]
    rw [effMps_two, hI.lBra, hI.rBra, b0, b1]
    simp
  · simp only [List.map_append, List.map_cons, List.map_nil]
    rw [effMpo_two, w0, w1]
    simp
  · have gg : ∀ σ ∈ τ0 :: M, GoodBond σ.rb ∧ GoodBond σ.rm ∧ GoodBond σ.rk := by
      intro σ hσ
      rcases List.mem_cons.1 hσ with rfl | hσ
      · rw [x0, y0, z0]; exact ⟨hg0.2.1, hg0.2.2.1, hg0.2.2.2.1⟩
      · exact ⟨(hgM σ hσ).2.1, (hgM σ hσ).2.2.1, (hgM σ hσ).2.2.2.1⟩
    obtain ⟨i1, i2, i3, i4, i5⟩ := hlists
    refine ⟨?_, ?_, ?_, ?_, ?_, i4, i5⟩
    · rw [List.map_append, List.map_singleton, x1] at i1; exact i1
    · rw [List.map_append, List.map_singleton, y1] at i2; exact i2
    · rw [List.map_append, List.map_singleton, z1] at i3; exact i3
    · intro c hc
      simp only [List.mem_append, List.mem_map] at hc
      rcases hc with (⟨σ, hσ, rfl⟩ | ⟨σ, hσ, rfl⟩) | ⟨σ, hσ, rfl⟩
      · exact (gg σ hσ).1
      · exact (gg σ hσ).2.1
      · exact (gg σ hσ).2.2
    · intro ph hph
      obtain ⟨σ, hσ, rfl⟩ := List.mem_map.1 hph
      refine ⟨?_, hE.len σ hσ, ?_⟩
      · simp only [List.mem_append, List.mem_cons, List.not_mem_nil, or_false] at hσ
        rcases hσ with (rfl | hσ) | rfl
        · rw [u0]; simp
        · exact (hgM σ hσ).1
        · rw [u1]; simp
      · intro c hc
        simp only [List.mem_append, List.mem_cons, List.not_mem_nil, or_false] at hσ
        rcases hσ with (rfl | hσ) | rfl
        · simp only [u0, d0, List.mem_append, List.mem_cons] at hc
          rcases hc with (rfl | hc) | (rfl | hc)
          · exact gl.1
          · exact hg0.2.2.2.2 c (by simp [hc])
          · exact gl.2.2
          · exact hg0.2.2.2.2 c (by simp [hc])
        · exact (hgM σ hσ).2.2.2.2 c hc
        · simp only [u1, d1, List.mem_append, List.mem_cons, List.not_mem_nil, or_false] at hc
          rcases hc with (hc | rfl) | (hc | rfl)
          · exact hg1.2.2.2.2 c (by simp [hc])
          · exact hg1.2.1
          · exact hg1.2.2.2.2 c (by simp [hc])
          · exact hg1.2.2.2.1
  · rw [sandwich_eq_net isF false (0, 0) (0, 0) (0, 0) (by simp) (by simp) (by simp) (by simp) (by simp) (by simp)]
    have e1 : ((τ0 :: M).map (·.rb)) ++ [[((0 : Q), 1)]] = (τ0 :: M ++ [τ1]).map (·.rb) := by simp [x1]
    have e2 : ((τ0 :: M).map (·.rm)) ++ [[((0 : Q), 1)]] = (τ0 :: M ++ [τ1]).map (·.rm) := by simp [y1]
    have e3 : ((τ0 :: M).map (·.rk)) ++ [[((0 : Q), 1)]] = (τ0 :: M ++ [τ1]).map (·.rk) := by simp [z1]
    rw [e1, e2, e3, mkSites_map, net_append, net_congr isF (τ0 :: M) c1, ← net_append]
    have hcc : net isF (fun s b m k => opEntry ids.rMpo s [m, b, k, (0, 0)]) (τ0 :: M ++ σ1 :: C) false (0, 0) (0, 0) (0, 0) =
      closeLeft isF (fun s b m k => opEntry ids.rMpo s [m, b, k, (0, 0)]) lb lm lk L (0, 0) (σ0 :: M ++ σ1 :: C) := c0 _
    rw [← net_right_ident h0 hI h, ← closeLeft_ident h0 hI _ (A ++ (σ0 :: M ++ σ1 :: C)), cL, ← hcc,
      show τ0 :: M ++ σ1 :: C = (τ0 :: M ++ [σ1]) ++ C by simp, net_append isF _ (τ0 :: M ++ [σ1]) C]
    exact net_congr isF _ (fun s b m k => cR s b m k) _ _ _ _
  · intro hA hw h1 ph hph
    have hlb : lb = lk := by
      rcases bL with ⟨rfl, -, rfl⟩ | ⟨σ, hσ, rfl, -, rfl⟩
      · rfl
      · exact hA σ hσ
    obtain ⟨σ, hσ, rfl⟩ := List.mem_map.1 hph
    simp only [List.mem_append, List.mem_cons, List.not_mem_nil, or_false] at hσ
    rcases hσ with (rfl | hσ) | rfl
    · simp only [u0, d0, hlb, hw σ0 (by simp)]
    · exact hw σ (by simp [hσ])
    · simp only [u1, d1, h1, hw σ1 (by simp)]
  · constructor
    · simp [List.map_map, Function.comp_def, d0, d1, kL]
    · simp [List.map_map, Function.comp_def, u0, u1, jL]

end
end Verif
