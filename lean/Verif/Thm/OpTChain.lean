import Verif.Thm.OpT
import Verif.Thm.MpsDot

/-!
Property C49, continued: operator tensors with virtual legs (left, ups, downs, right) joined along a chain.
-/

set_option linter.unusedSectionVars false
set_option linter.unusedSimpArgs false

namespace Verif
variable {Q K : Type} [DecidableEq Q] [AddCommGroup Q] [CommRing K]

/-! ### Specification -/

/-- `A` is a piece of a chain of operators: its legs are the left virtual leg `l`, the row indices and the column indices of the sites, and the right
virtual leg `r`.  Blocks of the odd part change the fermion parity of the sites, blocks of the even part keep it. -/
structure ChainPiece (isF : Q → Bool) (l : BondInfo Q) (sites : List (BondInfo Q)) (r : BondInfo Q) (A : OpT Q K) : Prop where
  odd : Conforms (l :: (sites ++ sites) ++ [r]) A.odd
  even : Conforms (l :: (sites ++ sites) ++ [r]) A.even
  oddParity : ∀ b ∈ A.odd, fermParity isF b.1.tail.dropLast = true
  evenParity : ∀ b ∈ A.even, fermParity isF b.1.tail.dropLast = false

/-! ### One bond -/

theorem sp_link (la lb : List (BondInfo Q)) (m : BondInfo Q) (hm : Dict.WF m) (A B : SpT Q K) (hA : Conforms (la ++ [m]) A)
    (hB : Conforms (m :: lb) B) :
    ∃ R, SpT.tensordot A B [Int.ofNat la.length] [Int.ofNat 0] = some R ∧ Conforms (la ++ lb) R ∧ UniqueLabels R ∧
      (∀ x y, x.length = la.length → y.length = lb.length →
        entry R (x ++ y) = ((legBasis m).map fun z => entry A (x ++ [z]) * entry B (z :: y)).sum) ∧
      ∀ r ∈ R, ∃ qa qb : List Q, ∃ q : Q, (∃ a ∈ A, a.1 = qa ++ [q]) ∧ (∃ b ∈ B, b.1 = q :: qb) ∧ r.1 = qa ++ qb := by
  have fa : freeAxes (la.length + 1) [la.length] = List.range la.length := by
    unfold freeAxes
    rw [List.range_succ, List.filter_append]
    have h1 : (List.range la.length).filter (fun i => decide (i ∉ [la.length])) = List.range la.length := by
      rw [List.filter_eq_self]; intro i hi; simp at hi ⊢; omega
    rw [h1]; simp
  have fb : freeAxes (lb.length + 1) [0] = List.range' 1 lb.length := by
    unfold freeAxes
    rw [List.range_succ_eq_map, List.filter_cons]
    simp only [List.mem_singleton, not_true_eq_false, decide_false, Bool.false_eq_true, if_false]
    rw [List.filter_eq_self.2]
    · apply List.ext_getElem (by simp)
      intro i _ _
      simp [Nat.add_comm]
    · intro i hi
      obtain ⟨j, _, rfl⟩ := List.mem_map.1 hi
      simp
  have g1 : (List.range la.length).map (fun i => (la ++ [m]).getD i []) = la := by
    let _ : Zero (BondInfo Q) := ⟨[]⟩
    exact pick_first la [m]
  have g2 : (List.range' 1 lb.length).map (fun i => (m :: lb).getD i []) = lb := by
    let _ : Zero (BondInfo Q) := ⟨[]⟩
    exact pick_second [m] lb
  obtain ⟨R, h1, h2, h3, h4⟩ := C12_tensordot A B [Int.ofNat la.length] [Int.ofNat 0] (la ++ [m]) (m :: lb) [m]
    [la.length] [0] hA hB
    (namesAxes_ofNat [la.length] (by intro i hi; simp at hi ⊢; omega)) (namesAxes_ofNat [0] (by intro i hi; simp at hi ⊢; omega))
    (by simp) (by simp) (by simp) (by simp) (by simpa using hm)
  have nA : (la ++ [m]).length = la.length + 1 := by simp
  have nB : (m :: lb).length = lb.length + 1 := by simp
  simp only [nA, nB, fa, fb, g1, g2, List.length_range, List.length_range'] at h2 h4
  refine ⟨R, h1, h2, h3, ?_, ?_⟩
  · intro x y hx hy
    have := h4 x y hx hy (fun c => x ++ c) (fun c => c ++ y) ?_ ?_
    · rw [this]
      rw [legIndices_one_sum]
      rfl
    · intro c hc
      have hc := legIndices_length hc
      refine ⟨by simp [hx, hc, Nat.add_comm], ?_, ?_⟩
      · have := pick_second x c
        rw [hx, hc] at this
        exact this
      · have hl : (x ++ c).length = la.length + 1 := by simp [hx, hc]
        rw [hl, fa, ← hx]
        exact pick_first x c
    · intro c hc
      have hc := legIndices_length hc
      have hl : (c ++ y).length = lb.length + 1 := by simp [hy, hc, Nat.add_comm]
      refine ⟨by simp [hc, hy], ?_, ?_⟩
      · have := pick_first c y
        rw [hc] at this
        exact this
      · rw [hl, fb]
        have := pick_second c y
        rw [hc, hy] at this
        exact this
  · intro r hr
    obtain ⟨a, ha, b, hb, e1, e2⟩ := tensordot_labels A B R _ _ h1 r hr
    have nA' : A.ndim = la.length + 1 := by rw [ndim_eq hA (List.ne_nil_of_mem ha), nA]
    have nB' : B.ndim = lb.length + 1 := by rw [ndim_eq hB (List.ne_nil_of_mem hb), nB]
    have la' : a.1.length = la.length + 1 := by rw [(hA a ha).lengths.1, nA]
    have lb' : b.1.length = lb.length + 1 := by rw [(hB b hb).lengths.1, nB]
    have x1 := normAxes_ofNat A.ndim [la.length]
    have x2 := normAxes_ofNat B.ndim [0]
    simp only [List.map_cons, List.map_nil] at x1 x2
    simp only [List.map_cons, List.map_nil] at e1 e2
    rw [x1, x2] at e1 e2
    rw [nA', nB', ← freeAxes_eq, ← freeAxes_eq, fa, fb] at e1
    obtain ⟨qa, q, hqa⟩ : ∃ qa q, a.1 = qa ++ [q] := by
      rcases List.eq_nil_or_concat a.1 with h | ⟨l, z, h⟩
      · rw [h] at la'; simp at la'
      · exact ⟨l, z, by rw [h, List.concat_eq_append]⟩
    obtain ⟨q', qb, hqb⟩ : ∃ q qb, b.1 = q :: qb := by
      rcases h : b.1 with _ | ⟨q, qb⟩
      · rw [h] at lb'; simp at lb'
      · exact ⟨q, qb, rfl⟩
    have lqa : qa.length = la.length := by rw [hqa] at la'; simpa using la'
    have lqb : qb.length = lb.length := by rw [hqb] at lb'; simpa using lb'
    have p1 : pick (List.range la.length) a.1 = qa := by rw [hqa, ← lqa]; exact pick_first qa [q]
    have p2 : pick [la.length] a.1 = [q] := by
      rw [hqa, ← lqa]; exact pick_second qa [q]
    have p3 : pick [0] b.1 = [q'] := by
      rw [hqb]; rfl
    have p4 : pick (List.range' 1 lb.length) b.1 = qb := by
      rw [hqb, ← lqb]; exact pick_second [q'] qb
    rw [p1, p4] at e1
    rw [p2, p3] at e2
    obtain rfl : q' = q := by simpa using e2
    exact ⟨qa, qb, q', ⟨a, ha, hqa⟩, ⟨b, hb, hqb⟩, e1⟩

/-- Order of the legs after `hdot`. -/
def hAxes (na nb : Nat) : List Nat :=
  0 :: List.range' 1 na ++ List.range' (1 + (na + na)) nb ++ List.range' (na + 1) na ++ List.range' (1 + (na + na) + nb) nb ++ [1 + (na + na) + nb + nb]

theorem hAxes_perm (na nb : Nat) : (hAxes na nb).Perm (List.range (1 + (na + na) + (nb + nb + 1))) := by
  have e : List.range (1 + (na + na) + (nb + nb + 1)) =
      List.range' 0 1 ++ (List.range' 1 na ++ (List.range' (na + 1) na ++ (List.range' (1 + (na + na)) nb ++
        (List.range' (1 + (na + na) + nb) nb ++ List.range' (1 + (na + na) + nb + nb) 1)))) := by
    rw [List.range_eq_range']
    have s1 := @List.range'_append_1 (1 + (na + na) + nb) nb 1
    have s2 := @List.range'_append_1 (1 + (na + na)) nb (nb + 1)
    have s3 := @List.range'_append_1 (na + 1) na (nb + (nb + 1))
    have s4 := @List.range'_append_1 1 na (na + (nb + (nb + 1)))
    have s5 := @List.range'_append_1 0 1 (na + (na + (nb + (nb + 1))))
    rw [show (na + 1) + na = 1 + (na + na) by omega] at s3
    rw [show 1 + na = na + 1 by omega] at s4
    rw [show 0 + 1 = 1 by rfl] at s5
    rw [s1, s2, s3, s4, s5]
    congr 1
    omega
  rw [e]
  have h : hAxes na nb = List.range' 0 1 ++ (List.range' 1 na ++ (List.range' (1 + (na + na)) nb ++ (List.range' (na + 1) na ++
      (List.range' (1 + (na + na) + nb) nb ++ List.range' (1 + (na + na) + nb + nb) 1)))) := by
    simp [hAxes]
  rw [h]
  refine List.Perm.append_left _ (List.Perm.append_left _ ?_)
  rw [← List.append_assoc, ← List.append_assoc (List.range' (na + 1) na)]
  exact List.Perm.append_right _ List.perm_append_comm

theorem pick_hAxes {α : Type} [Zero α] (a : α) (ua da ub db : List α) (c : α) (h1 : da.length = ua.length) (h2 : db.length = ub.length) :
    pick (hAxes ua.length ub.length) ((a :: (ua ++ da)) ++ (ub ++ db ++ [c])) = a :: ((ua ++ ub) ++ (da ++ db)) ++ [c] := by
  have e0 : pick (List.range' 0 1) ((a :: (ua ++ da)) ++ (ub ++ db ++ [c])) = [a] := by
    have := pick_range' [] [a] (ua ++ da ++ (ub ++ db ++ [c]))
    simpa using this
  have e1 : pick (List.range' 1 ua.length) ((a :: (ua ++ da)) ++ (ub ++ db ++ [c])) = ua := by
    have := pick_range' [a] ua (da ++ (ub ++ db ++ [c]))
    simpa using this
  have e2 : pick (List.range' (1 + (ua.length + ua.length)) ub.length) ((a :: (ua ++ da)) ++ (ub ++ db ++ [c])) = ub := by
    have := pick_range' (a :: (ua ++ da)) ub (db ++ [c])
    simpa [h1, Nat.add_comm] using this
  have e3 : pick (List.range' (ua.length + 1) ua.length) ((a :: (ua ++ da)) ++ (ub ++ db ++ [c])) = da := by
    have := pick_range' (a :: ua) da (ub ++ db ++ [c])
    simpa [h1] using this
  have e4 : pick (List.range' (1 + (ua.length + ua.length) + ub.length) ub.length) ((a :: (ua ++ da)) ++ (ub ++ db ++ [c])) = db := by
    have := pick_range' (a :: (ua ++ da) ++ ub) db [c]
    simpa [h1, h2, Nat.add_comm, Nat.add_left_comm, Nat.add_assoc] using this
  have e5 : pick (List.range' (1 + (ua.length + ua.length) + ub.length + ub.length) 1) ((a :: (ua ++ da)) ++ (ub ++ db ++ [c])) = [c] := by
    have := pick_range' (a :: (ua ++ da) ++ ub ++ db) [c] []
    simpa [h1, h2, Nat.add_comm, Nat.add_left_comm, Nat.add_assoc] using this
  have h : hAxes ua.length ub.length = List.range' 0 1 ++ List.range' 1 ua.length ++ List.range' (1 + (ua.length + ua.length)) ub.length ++
      List.range' (ua.length + 1) ua.length ++ List.range' (1 + (ua.length + ua.length) + ub.length) ub.length ++
      List.range' (1 + (ua.length + ua.length) + ub.length + ub.length) 1 := by
    simp [hAxes]
  rw [h, pick_append, pick_append, pick_append, pick_append, pick_append, e0, e1, e2, e3, e4, e5]
  simp

theorem ChainPiece.ndim {isF : Q → Bool} {l r : BondInfo Q} {s : List (BondInfo Q)} {A : OpT Q K} (h : ChainPiece isF l s r A) :
    A = ⟨[], []⟩ ∨ A.ndim = s.length + s.length + 2 := by
  have e : ∀ T : SpT Q K, Conforms (l :: (s ++ s) ++ [r]) T → T = [] ∨ T.ndim = s.length + s.length + 2 := by
    intro T hT
    by_cases h0 : T = []
    · exact Or.inl h0
    · exact Or.inr (by have := ndim_eq hT h0; simp at this; omega)
  obtain ⟨o, ev⟩ := A
  unfold OpT.ndim
  rcases e _ h.odd with h1 | h1 <;> rcases e _ h.even with h2 | h2
  · left; simp only at h1 h2; rw [h1, h2]
  · right; simp only at h1 h2 ⊢; rw [h1, h2]; simp [SpT.ndim]
  · right; simp only at h1 h2 ⊢; rw [h1, h2]; simp [SpT.ndim]
  · right; simp only at h1 h2 ⊢; rw [h1, h2]; simp

theorem chainPiece_empty (isF : Q → Bool) (l r : BondInfo Q) (s : List (BondInfo Q)) : ChainPiece isF l s r (⟨[], []⟩ : OpT Q K) :=
  ⟨by intro b hb; simp at hb, by intro b hb; simp at hb, by intro b hb; simp at hb, by intro b hb; simp at hb⟩

/-! ### The theorem -/

theorem hdot_empty' (isF : Q → Bool) (A B : OpT Q K) (hev : A.ndim % 2 = 0) (h : A = ⟨[], []⟩ ∨ B = ⟨[], []⟩) :
    OpT.hdot isF A B = some ⟨[], []⟩ := by
  have key : ∀ (X Y : SpT Q K) (x y : Int), (X = [] ∨ Y = []) → SpT.tensordot X Y [x] [y] = some [] := by
    intro X Y x y hXY
    obtain ⟨i, hi⟩ : ∃ i, i = [x] := ⟨_, rfl⟩
    obtain ⟨j, hj⟩ : ∃ j, j = [y] := ⟨_, rfl⟩
    have hij : i.length = j.length := by rw [hi, hj]; rfl
    rw [← hi, ← hj]
    have h1 : SpT.tensordot X Y i j = some (SpT.tensordotCore X Y (i.map (SpT.normAxis X.ndim)) (j.map (SpT.normAxis Y.ndim))
        (SpT.outAxes X.ndim (i.map (SpT.normAxis X.ndim))) (SpT.outAxes Y.ndim (j.map (SpT.normAxis Y.ndim)))) := by
      unfold SpT.tensordot
      simp [hij]
    rw [h1]
    congr 1
    rw [List.eq_nil_iff_forall_not_mem]
    intro r hr
    obtain ⟨a, ha, b, hb, _⟩ := tensordot_labels X Y _ i j h1 r hr
    rcases hXY with h | h
    · rw [h] at ha; simp at ha
    · rw [h] at hb; simp at hb
  have o1 : A.odd = [] ∨ B.even = [] := by rcases h with h | h <;> rw [h] <;> simp
  have o2 : A.even = [] ∨ B.odd = [] := by rcases h with h | h <;> rw [h] <;> simp
  have o3 : A.odd = [] ∨ B.odd = [] := by rcases h with h | h <;> rw [h] <;> simp
  have o4 : A.even = [] ∨ B.even = [] := by rcases h with h | h <;> rw [h] <;> simp
  unfold OpT.hdot OpT.tensordot
  simp only [List.map_cons, List.map_nil]
  rw [key _ _ _ _ o1, key _ _ _ _ o2, key _ _ _ _ o3, key _ _ _ _ o4]
  simp only [Option.bind_some]
  have e : ∀ f g : List Q → Bool, OpT.addAliased ([] : SpT Q K) [] f g = [] := fun _ _ => rfl
  simp only [e]
  have hno : ¬ A.ndim % 2 = 1 := by omega
  rw [if_neg (by simp)]
  simp only [if_neg hno, ite_self, Option.map_some]
  split_ifs <;> rfl

theorem hdot_empty (isF : Q → Bool) (l m r : BondInfo Q) (sA sB : List (BondInfo Q)) (A B : OpT Q K)
    (hA : ChainPiece isF l sA m A) (h : A = ⟨[], []⟩ ∨ B = ⟨[], []⟩) : OpT.hdot isF A B = some ⟨[], []⟩ := by
  refine hdot_empty' isF A B ?_ h
  rcases hA.ndim with h | h
  · rw [h]; simp [OpT.ndim, SpT.ndim]
  · rw [h]; omega

/-- C49: `hdot` joins two pieces of a chain.  Entries are sums over the shared virtual leg of products of entries, with the sign for moving the odd part
of the right piece past the column states of the left sites; the result is a piece of a chain over the sites of both. -/
theorem C49_chain (isF : Q → Bool) (l m r : BondInfo Q) (hm : Dict.WF m) (sA sB : List (BondInfo Q)) (A B : OpT Q K)
    (hA : ChainPiece isF l sA m A) (hB : ChainPiece isF m sB r B) :
    ∃ R, OpT.hdot isF A B = some R ∧ ChainPiece isF l (sA ++ sB) r R ∧
      ∀ (a c : Q × Nat) (ua ub da db : List (Q × Nat)), ua.length = sA.length → da.length = sA.length → ub.length = sB.length →
        db.length = sB.length →
        entry R.odd (a :: ((ua ++ ub) ++ (da ++ db)) ++ [c]) = ((legBasis m).map fun z =>
          entry A.odd (a :: (ua ++ da) ++ [z]) * entry B.even (z :: (ub ++ db) ++ [c]) +
          paritySign K (fermParity isF (da.map Prod.fst)) * (entry A.even (a :: (ua ++ da) ++ [z]) * entry B.odd (z :: (ub ++ db) ++ [c]))).sum ∧
        entry R.even (a :: ((ua ++ ub) ++ (da ++ db)) ++ [c]) = ((legBasis m).map fun z =>
          entry A.even (a :: (ua ++ da) ++ [z]) * entry B.even (z :: (ub ++ db) ++ [c]) +
          paritySign K (fermParity isF (da.map Prod.fst)) * (entry A.odd (a :: (ua ++ da) ++ [z]) * entry B.odd (z :: (ub ++ db) ++ [c]))).sum := by
  by_cases hemp : A = ⟨[], []⟩ ∨ B = ⟨[], []⟩
  · refine ⟨_, hdot_empty isF l m r sA sB A B hA hemp, chainPiece_empty _ _ _ _, ?_⟩
    intro a c ua ub da db _ _ _ _
    rcases hemp with h | h <;> rw [h] <;> simp [entry_nil]
  obtain ⟨neA, neB⟩ := not_or.1 hemp
  obtain ⟨oa, a1, a2, a3, a4, a5⟩ := sp_link (l :: (sA ++ sA)) ((sB ++ sB) ++ [r]) m hm A.odd B.even hA.odd hB.even
  obtain ⟨ob, b1, b2, b3, b4, b5⟩ := sp_link (l :: (sA ++ sA)) ((sB ++ sB) ++ [r]) m hm A.even B.odd hA.even hB.odd
  obtain ⟨ea, c1, c2, c3, c4, c5⟩ := sp_link (l :: (sA ++ sA)) ((sB ++ sB) ++ [r]) m hm A.odd B.odd hA.odd hB.odd
  obtain ⟨eb, d1, d2, d3, d4, d5⟩ := sp_link (l :: (sA ++ sA)) ((sB ++ sB) ++ [r]) m hm A.even B.even hA.even hB.even
  have nA : A.ndim = sA.length + sA.length + 2 := hA.ndim.resolve_left neA
  have nB : B.ndim = sB.length + sB.length + 2 := hB.ndim.resolve_left neB
  have hlen0 : (l :: (sA ++ sA)).length = sA.length + sA.length + 1 := by simp
  rw [hlen0] at a1 b1 c1 d1
  set f := OpT.factor isF (List.range' (sA.length + 1) sA.length) with hf
  have hh : OpT.hdot isF A B = some (OpT.transpose (hAxes sA.length sB.length)
      ⟨OpT.addAliased oa ob (fun _ => false) f, OpT.addAliased ea eb f (fun _ => false)⟩) := by
    unfold OpT.hdot OpT.tensordot
    have x1 : ([-1] : List Int).map (SpT.normAxis A.ndim) = [sA.length + sA.length + 1] := by
      simp [SpT.normAxis, nA]
      omega
    have x2 : ([0] : List Int).map (SpT.normAxis B.ndim) = [0] := by simp [SpT.normAxis]
    simp only [x1, x2]
    simp only [List.map_cons, List.map_nil]
    simp only [a1, b1, c1, d1, Option.bind_some]
    rw [if_neg (by simp), if_pos (by simp [nA])]
    rw [if_neg (by omega)]
    simp only [Option.map_some]
    rw [if_pos (by omega)]
    have y1 : (A.ndim - 2) / 2 = sA.length := by omega
    have y2 : A.ndim / 2 - 1 = sA.length := by omega
    have y3 : B.ndim / 2 - 1 = sB.length := by omega
    have y4 : A.ndim - 1 = 1 + (sA.length + sA.length) := by omega
    rw [y1, y2, y3, y4]
    rfl
  -- labels
  have lA : ∀ a, a ∈ A.odd ∨ a ∈ A.even → a.1.length = sA.length + sA.length + 2 := by
    intro a ha
    rcases ha with ha | ha
    · have := (hA.odd a ha).lengths.1; simp at this; omega
    · have := (hA.even a ha).lengths.1; simp at this; omega
  have lB : ∀ a, a ∈ B.odd ∨ a ∈ B.even → a.1.length = sB.length + sB.length + 2 := by
    intro a ha
    rcases ha with ha | ha
    · have := (hB.odd a ha).lengths.1; simp at this; omega
    · have := (hB.even a ha).lengths.1; simp at this; omega
  let p : List Q → Bool := fun q => fermParity isF (q.take (sA.length + sA.length + 1)).tail
  have par : ∀ {X Y R : SpT Q K} {v : Bool}, (∀ x ∈ X, x.1.length = sA.length + sA.length + 2) → (∀ x ∈ X, fermParity isF x.1.tail.dropLast = v) →
      (∀ r ∈ R, ∃ qa qb : List Q, ∃ q : Q, (∃ a ∈ X, a.1 = qa ++ [q]) ∧ (∃ b ∈ Y, b.1 = q :: qb) ∧ r.1 = qa ++ qb) → ∀ r ∈ R, p r.1 = v := by
    intro X Y R v hl hx hR r hr
    obtain ⟨qa, qb, q, ⟨a, ha, ea'⟩, _, e⟩ := hR r hr
    have h1 := hl a ha
    have h2 := hx a ha
    rw [ea'] at h1 h2
    have h3 : qa.length = sA.length + sA.length + 1 := by simpa using h1
    simp only [p, e]
    rw [List.take_left' h3, ← h2]
    rcases qa with _ | ⟨q0, qa⟩
    · simp at h3
    · simp
  have whole : ∀ {X Y R : SpT Q K} {v w : Bool}, (∀ x ∈ X, x.1.length = sA.length + sA.length + 2) → (∀ x ∈ Y, x.1.length = sB.length + sB.length + 2) →
      (∀ x ∈ X, fermParity isF x.1.tail.dropLast = v) → (∀ x ∈ Y, fermParity isF x.1.tail.dropLast = w) →
      (∀ r ∈ R, ∃ qa qb : List Q, ∃ q : Q, (∃ a ∈ X, a.1 = qa ++ [q]) ∧ (∃ b ∈ Y, b.1 = q :: qb) ∧ r.1 = qa ++ qb) →
      ∀ r ∈ R, fermParity isF (pick (hAxes sA.length sB.length) r.1).tail.dropLast = xor v w := by
    intro X Y R v w hl hl' hx hy hR r hr
    obtain ⟨qa, qb, q, ⟨a, ha, ea'⟩, ⟨b, hb, eb'⟩, e⟩ := hR r hr
    have h1 := hl a ha
    have h2 := hx a ha
    have h1' := hl' b hb
    have h2' := hy b hb
    rw [ea'] at h1 h2
    rw [eb'] at h1' h2'
    rcases qa with _ | ⟨q0, qa⟩
    · simp at h1
    rcases List.eq_nil_or_concat qb with rfl | ⟨qb', q1, rfl⟩
    · simp at h1'
    rw [List.concat_eq_append] at h1' h2' e
    have k1 : qa.length = sA.length + sA.length := by simpa using h1
    have k2 : qb'.length = sB.length + sB.length := by simpa using h1'
    obtain ⟨ua, da, rfl, g1, g2⟩ : ∃ ua da, qa = ua ++ da ∧ ua.length = sA.length ∧ da.length = sA.length :=
      ⟨qa.take sA.length, qa.drop sA.length, (List.take_append_drop _ _).symm, by simp; omega, by simp; omega⟩
    obtain ⟨ub, db, rfl, g3, g4⟩ : ∃ ua da, qb' = ua ++ da ∧ ua.length = sB.length ∧ da.length = sB.length :=
      ⟨qb'.take sB.length, qb'.drop sB.length, (List.take_append_drop _ _).symm, by simp; omega, by simp; omega⟩
    have hpk := pick_hAxes q0 ua da ub db q1 (by omega) (by omega)
    rw [g1, g3] at hpk
    rw [e, hpk]
    have h2 : fermParity isF (ua ++ da) = v := by simpa using h2
    have h2' : fermParity isF (ub ++ db) = w := by simpa using h2'
    rw [← h2, ← h2', ← fermParity_append]
    have e2 : (q0 :: (ua ++ ub ++ (da ++ db)) ++ [q1]).tail.dropLast = ua ++ ub ++ (da ++ db) := by simp [List.dropLast_append_of_ne_nil]
    rw [e2]
    apply fermParity_perm
    simp only [List.append_assoc]
    refine List.Perm.append_left _ ?_
    rw [← List.append_assoc, ← List.append_assoc]
    exact List.Perm.append_right _ List.perm_append_comm
  have uo : UniqueLabels (oa ++ ob) :=
    unique_append a3 b3 p (par (fun x hx => lA x (Or.inl hx)) hA.oddParity a5) (par (fun x hx => lA x (Or.inr hx)) hA.evenParity b5)
  have ue : UniqueLabels (ea ++ eb) :=
    unique_append c3 d3 p (par (fun x hx => lA x (Or.inl hx)) hA.oddParity c5) (par (fun x hx => lA x (Or.inr hx)) hA.evenParity d5)
  have cO := conforms_addAliased uo a2 b2 (fun _ => false) f
  have cE := conforms_addAliased ue c2 d2 f (fun _ => false)
  have hperm := hAxes_perm sA.length sB.length
  have hlen : (l :: (sA ++ sA) ++ ((sB ++ sB) ++ [r])).length = 1 + (sA.length + sA.length) + (sB.length + sB.length + 1) := by
    simp; omega
  rw [← hlen] at hperm
  have hpl : (hAxes sA.length sB.length).map (fun i => (l :: (sA ++ sA) ++ ((sB ++ sB) ++ [r])).getD i []) =
      l :: ((sA ++ sB) ++ (sA ++ sB)) ++ [r] := by
    let _ : Zero (BondInfo Q) := ⟨[]⟩
    exact pick_hAxes l sA sA sB sB r rfl rfl
  refine ⟨_, hh, ⟨?_, ?_, ?_, ?_⟩, ?_⟩
  · have := C14_conforms _ _ cO _ hperm
    rw [hpl] at this
    exact this
  · have := C14_conforms _ _ cE _ hperm
    rw [hpl] at this
    exact this
  · intro x hx
    obtain ⟨x', hx', rfl⟩ := List.mem_map.1 hx
    obtain ⟨y, hy, e1, e2⟩ := addAliased_labels _ _ uo (fun _ => false) f x' hx'
    change fermParity isF (pick (hAxes sA.length sB.length) x'.1).tail.dropLast = true
    rw [← e1]
    rcases hy with hy | hy
    · exact whole (fun x hx => lA x (Or.inl hx)) (fun x hx => lB x (Or.inr hx)) hA.oddParity hB.evenParity a5 y hy
    · exact whole (fun x hx => lA x (Or.inr hx)) (fun x hx => lB x (Or.inl hx)) hA.evenParity hB.oddParity b5 y hy
  · intro x hx
    obtain ⟨x', hx', rfl⟩ := List.mem_map.1 hx
    obtain ⟨y, hy, e1, e2⟩ := addAliased_labels _ _ ue f (fun _ => false) x' hx'
    change fermParity isF (pick (hAxes sA.length sB.length) x'.1).tail.dropLast = false
    rw [← e1]
    rcases hy with hy | hy
    · exact whole (fun x hx => lA x (Or.inl hx)) (fun x hx => lB x (Or.inl hx)) hA.oddParity hB.oddParity c5 y hy
    · exact whole (fun x hx => lA x (Or.inr hx)) (fun x hx => lB x (Or.inr hx)) hA.evenParity hB.evenParity d5 y hy
  · intro a c ua ub da db hua hda hub hdb
    have hx : ((a :: (ua ++ da)) ++ (ub ++ db ++ [c])).length = (l :: (sA ++ sA) ++ ((sB ++ sB) ++ [r])).length := by
      simp [hua, hda, hub, hdb]
    have hpk := pick_hAxes a ua da ub db c (by rw [hda, hua]) (by rw [hdb, hub])
    rw [hua, hub] at hpk
    have eO := C14_entry _ _ cO _ hperm ((a :: (ua ++ da)) ++ (ub ++ db ++ [c])) hx
    have eE := C14_entry _ _ cE _ hperm ((a :: (ua ++ da)) ++ (ub ++ db ++ [c])) hx
    change entry _ (pick _ _) = _ at eO eE
    rw [hpk] at eO eE
    have hfx : f (((a :: (ua ++ da)) ++ (ub ++ db ++ [c])).map Prod.fst) = fermParity isF (da.map Prod.fst) := by
      rw [hf, factor_eq]
      congr 1
      have := pick_range' ((a :: ua).map Prod.fst) (da.map Prod.fst) ((ub ++ db ++ [c]).map Prod.fst)
      simpa [hua, hda] using this
    have e0 : paritySign K false = 1 := rfl
    have hx1 : (a :: (ua ++ da)).length = (l :: (sA ++ sA)).length := by simp [hua, hda]
    have hx2 : (ub ++ db ++ [c]).length = ((sB ++ sB) ++ [r]).length := by simp [hub, hdb]
    refine ⟨?_, ?_⟩
    · change entry (SpT.transpose _ _) _ = _
      rw [eO, entry_addAliased _ _ uo, hfx, a4 _ _ hx1 hx2, b4 _ _ hx1 hx2, e0, one_mul, ← sum_map_mul_left', ← sum_map_add']
      rfl
    · change entry (SpT.transpose _ _) _ = _
      rw [eE, entry_addAliased _ _ ue, hfx, c4 _ _ hx1 hx2, d4 _ _ hx1 hx2, e0, one_mul, add_comm, ← sum_map_mul_left', ← sum_map_add']
      rfl

/-- C49: joining pieces of a chain is associative. -/
theorem C49_chain_associative (isF : Q → Bool) (l m n r : BondInfo Q) (hm : Dict.WF m) (hn : Dict.WF n) (s t w : List (BondInfo Q)) (A B C : OpT Q K)
    (hA : ChainPiece isF l s m A) (hB : ChainPiece isF m t n B) (hC : ChainPiece isF n w r C) :
    ∃ L R, ((OpT.hdot isF A B).bind fun X => OpT.hdot isF X C) = some L ∧ ((OpT.hdot isF B C).bind fun X => OpT.hdot isF A X) = some R ∧
      ChainPiece isF l (s ++ t ++ w) r L ∧ ChainPiece isF l (s ++ t ++ w) r R ∧
      ∀ (a c : Q × Nat) (u d : List (Q × Nat)), u.length = (s ++ t ++ w).length → d.length = (s ++ t ++ w).length →
        entry L.odd (a :: (u ++ d) ++ [c]) = entry R.odd (a :: (u ++ d) ++ [c]) ∧
        entry L.even (a :: (u ++ d) ++ [c]) = entry R.even (a :: (u ++ d) ++ [c]) := by
  obtain ⟨X, hX, oX, eX⟩ := C49_chain isF l m n hm s t A B hA hB
  obtain ⟨Y, hY, oY, eY⟩ := C49_chain isF m n r hn t w B C hB hC
  obtain ⟨L, hL, oL, eL⟩ := C49_chain isF l n r hn (s ++ t) w X C oX hC
  obtain ⟨R, hR, oR, eR⟩ := C49_chain isF l m r hm s (t ++ w) A Y hA oY
  refine ⟨L, R, by rw [hX]; exact hL, by rw [hY]; exact hR, oL, by rw [List.append_assoc]; exact oR, ?_⟩
  intro a c u d hu hd
  have sp : ∀ v : List (Q × Nat), v.length = (s ++ t ++ w).length → ∃ va vb vc, v = va ++ vb ++ vc ∧ va.length = s.length ∧ vb.length = t.length ∧
      vc.length = w.length := by
    intro v hv
    simp only [List.length_append] at hv
    refine ⟨v.take s.length, (v.drop s.length).take t.length, (v.drop s.length).drop t.length, ?_, ?_, ?_, ?_⟩
    · rw [List.append_assoc, List.take_append_drop, List.take_append_drop]
    · rw [List.length_take]; omega
    · rw [List.length_take, List.length_drop]; omega
    · rw [List.length_drop, List.length_drop]; omega
  obtain ⟨ua, ub, uc, rfl, l1, l2, l3⟩ := sp u hu
  obtain ⟨da, db, dc, rfl, l4, l5, l6⟩ := sp d hd
  obtain ⟨z1, z2⟩ := eL a c (ua ++ ub) uc (da ++ db) dc (by simp [l1, l2]) (by simp [l4, l5]) l3 l6
  obtain ⟨w1, w2⟩ := eR a c ua (ub ++ uc) da (db ++ dc) l1 l4 (by simp [l2, l3]) (by simp [l5, l6])
  have exO := fun z => (eX a z ua ub da db l1 l4 l2 l5).1
  have exE := fun z => (eX a z ua ub da db l1 l4 l2 l5).2
  have eyO := fun z => (eY z c ub uc db dc l2 l5 l3 l6).1
  have eyE := fun z => (eY z c ub uc db dc l2 l5 l3 l6).2
  simp only [exO, exE, List.map_append, fermParity_append] at z1 z2
  simp only [eyO, eyE] at w1 w2
  rw [← List.append_assoc ua, ← List.append_assoc da] at w1 w2
  rw [z1, z2, w1, w2]
  have sq : paritySign K (fermParity isF (da.map Prod.fst)) * paritySign K (fermParity isF (da.map Prod.fst)) = 1 := by
    cases fermParity isF (da.map Prod.fst) <;> simp [paritySign]
  constructor
  · simp only [← sum_map_mul_left', ← sum_map_mul_right', ← sum_map_add']
    rw [sum_comm']
    apply sum_map_congr'
    intro y _
    apply sum_map_congr'
    intro z _
    rw [paritySign_xor]
    linear_combination (paritySign K (fermParity isF (db.map Prod.fst)) * entry A.odd (a :: (ua ++ da) ++ [y]) * entry B.odd (y :: (ub ++ db) ++ [z]) *
      entry C.odd (z :: (uc ++ dc) ++ [c])) * sq
  · simp only [← sum_map_mul_left', ← sum_map_mul_right', ← sum_map_add']
    rw [sum_comm']
    apply sum_map_congr'
    intro y _
    apply sum_map_congr'
    intro z _
    rw [paritySign_xor]
    linear_combination (paritySign K (fermParity isF (db.map Prod.fst)) * entry A.even (a :: (ua ++ da) ++ [y]) * entry B.odd (y :: (ub ++ db) ++ [z]) *
      entry C.odd (z :: (uc ++ dc) ++ [c])) * sq

/-- Concrete case: a two-site chain of an odd piece and an odd piece, with one sign. -/
def exPiece : OpT SZ Int :=
  ⟨[([⟨0, 0, 0⟩, ⟨1, 1, 0⟩, ⟨0, 0, 0⟩, ⟨0, 0, 0⟩], ⟨[1, 1, 1, 1], fun _ => 2⟩), ([⟨0, 0, 0⟩, ⟨0, 0, 0⟩, ⟨1, 1, 0⟩, ⟨0, 0, 0⟩], ⟨[1, 1, 1, 1], fun _ => 3⟩)], []⟩

example : ChainPiece SZ.isFermion [(⟨0, 0, 0⟩, 1)] [[(⟨0, 0, 0⟩, 1), (⟨1, 1, 0⟩, 1)]] [(⟨0, 0, 0⟩, 1)] exPiece :=
  ⟨by decide, by decide, by decide, by decide⟩

example : (OpT.hdot SZ.isFermion exPiece exPiece).map (fun R => R.even.map fun b => (b.1.map fun q => q.n, b.2.get [0, 0, 0, 0, 0, 0])) =
    some [([0, 1, 1, 0, 0, 0], 4), ([0, 1, 0, 0, 1, 0], 6), ([0, 0, 1, 1, 0, 0], -6), ([0, 0, 0, 1, 1, 0], -9)] := by decide +kernel

end Verif
