import Verif.Spec.QcMpo
import Verif.Proof.QcMpoChain
import Verif.Thm.BuildMpo
import Mathlib.Data.Fin.VecNotation
import Mathlib.Data.Rat.Defs

/-!
Property C53: the matrix product operator that `build_mpo` makes from the integrals has the matrix elements of the second-quantised Hamiltonian.
-/

set_option linter.unusedSectionVars false

namespace Verif
namespace Hamiltonian
open Fock BuildMpo Symbolic
variable {K : Type} [Field K] [DecidableEq K] {V : Type}

theorem symbol_charge (orbSym : List Nat) (o : Op) : (symbolOf (K := K) orbSym o).label = chargeOf orbSym o := by
  obtain ⟨b, m⟩ := o
  rcases Nat.mod_two_eq_zero_or_one m with h | h <;> cases b <;> simp [symbolOf, elementary, chargeOf, sz, h]

theorem symbol_eval {n : Nat} (orbSym : List Nat) (o : Op) : evalElem (value K n) (symbolOf (K := K) orbSym o) = fockMat n [o] := by
  obtain ⟨b, m⟩ := o
  have e : 2 * (m / 2) + (if m % 2 = 1 then (1 : Int) else 0).toNat = m := by
    rcases Nat.mod_two_eq_zero_or_one m with h | h <;> simp [h] <;> omega
  have e' : (((m / 2 : Nat) : Int)).toNat = m / 2 := Int.toNat_natCast _
  cases b <;> simp only [symbolOf, elementary, evalElem, value, nameI, Bool.not_true, Bool.not_false, if_true, decide_eq_true_eq, map_one, one_mul, e', e] <;> simp

theorem abs_symbol (orbSym : List Nat) (o : Op) : (symbolOf (K := K) orbSym o).abs = symbolOf orbSym o := rfl

theorem mk_symbols (orbSym : List Nat) (w : List Op) (x : K) : OpString.mk' (w.map (symbolOf orbSym)) x = ⟨w.map (symbolOf orbSym), x⟩ := by
  have h1 : ((w.map (symbolOf (K := K) orbSym)).map (·.factor)).prod = 1 := by
    rw [List.map_map]
    exact List.prod_eq_one (by intro y hy; obtain ⟨o, _, rfl⟩ := List.mem_map.1 hy; rfl)
  rw [OpString.mk', h1, one_mul, List.map_map]
  rfl

theorem string_eval {n : Nat} (orbSym : List Nat) (t : K × List Op) : evalString (value K n) (⟨t.2.map (symbolOf orbSym), t.1⟩ : OpString Nat SZ K) = t.1 • fockMat n t.2 := by
  rw [evalString, List.map_map, fockMat_prod, Algebra.smul_def]
  congr 3
  funext o
  exact symbol_eval orbSym o

theorem trivial_leg : rightLeg ([0] : List SZ) = [(0, 1)] := by decide

theorem trivial_left : leftLeg (0 : SZ) [0] = [(0, 1)] := by decide

/-- C53: from a sum of products of fermionic operators that conserves the quantum numbers, `build_mpo` makes a matrix product operator with the matrix elements of that
sum between occupation-number states.  Products must not be empty if there is one orbital only.  The singular values that are not kept are zero. -/
theorem C53_build (small : K → Bool) (hsmall : ∀ x, small x = true ↔ x = 0) (c : V → K) (svd : Arr K → Arr K × Arr V × Arr K) (hsvd : IsSvd c svd)
    (big : V → Bool) (hbig : ∀ s, big s = false → c s = 0) (orbSym : List Nat) (hn : orbSym ≠ []) (H : FockOp K) (hH : NeutralOn orbSym H)
    (hne : 1 < orbSym.length ∨ ∀ t ∈ H, t.2 ≠ []) :
    ∃ ws X, buildMpo small c svd big orbSym ((termsOf orbSym H).map some) = some ws ∧ Represents orbSym H ws X := by
  have hterms : ((termsOf orbSym H).map some).filterMap id = H.map fun t => (⟨t.2.map (symbolOf orbSym), t.1⟩ : OpString Nat SZ K) := by
    simp only [termsOf, mk_symbols, List.filterMap_map, Function.comp_def, id_eq, List.filterMap_some]
  have hexp : Expression nameX (labels orbSym) (iSymbol : OpElement Nat SZ K) (hSymbol : OpElement Nat SZ K).label orbSym.length ((termsOf orbSym H).map some) := by
    refine ⟨?_, ?_⟩
    · intro s hs e he
      rw [hterms] at hs
      obtain ⟨t, ht, rfl⟩ := List.mem_map.1 hs
      obtain ⟨o, ho, rfl⟩ := List.mem_map.1 he
      have hm := hH.modes t ht o ho
      obtain ⟨b, m⟩ := o
      dsimp only at hm
      refine ⟨rfl, ?_, ?_, Or.inr ⟨_, _, rfl, ?_, ?_⟩⟩
      · rcases Nat.mod_two_eq_zero_or_one m with h | h <;> cases b <;> simp [symbolOf, elementary, labels, h, nameI, ← Int.natCast_div, -Nat.cast_ofNat, -Int.natCast_ediv, -Nat.cast_div]
      · cases b <;> simp [symbolOf, elementary, nameX]
      · simp
        omega
      · have : m / 2 < orbSym.length := by omega
        show ((m / 2 : Nat) : Int) < _
        exact_mod_cast this
    · intro s hs
      rw [hterms] at hs
      obtain ⟨t, ht, rfl⟩ := List.mem_map.1 hs
      have := hH.neutral t ht
      rw [charge, List.map_map]
      refine Eq.trans ?_ this
      congr 2
      funext o
      exact symbol_charge orbSym o
  obtain ⟨ms, col, h1, h2, h3, h4, h5, h6, h7⟩ := C52_build (R := Matrix (Fin orbSym.length → Bool × Bool) (Fin orbSym.length → Bool × Bool) K) (nameX, nameXL, nameXR)
    (labels orbSym) small hsmall c svd hsvd big hbig iSymbol hSymbol ⟨rfl, rfl, rfl, rfl, by simp [iSymbol, nameI, nameX]⟩ rfl orbSym.length
    (List.length_pos_iff.2 hn) _ hexp
  have hne' : 1 < orbSym.length ∨ ∀ s ∈ ((termsOf orbSym H).map some).filterMap id, s.ops ≠ [] := by
    refine hne.imp_right fun h s hs => ?_
    rw [hterms] at hs
    obtain ⟨t, ht, rfl⟩ := List.mem_map.1 hs
    simpa using h t ht
  obtain ⟨ws, k1, k2, k3, k4⟩ := chain_ok orbSym rfl hne' col h4 ms 0 (by omega) (fun k m hk => by simpa using h3 k m hk) h5
  have hl : headLabels ms col = [0] := by
    rw [headLabels, h6]
    rfl
  rw [hl, trivial_left, trivial_leg] at k2
  refine ⟨ws, Hamiltonian.bonds ms, by rw [buildMpo, h1]; exact k1, ⟨by simpa using k2, ?_, k3, ?_⟩⟩
  · intro b hb
    obtain ⟨m, _, rfl⟩ := List.mem_map.1 hb
    exact leg_good _
  · intro u d
    have e := k4 0 (0, 0) (by rw [hl]; exact ⟨rfl, rfl⟩) u d
    rw [if_pos (fun l hl => absurd hl (by omega)), List.drop_zero, List.drop_zero] at e
    refine Eq.trans ?_ (e.symm.trans ?_)
    · simp [parBelow]
    · rw [h7 (value K orbSym.length) (by simp [value, iSymbol]) ?_]
      · rw [evalVal_sum, List.map_map, sum_apply, matrixElement]
        have : ((evalOpt (value K orbSym.length)) ∘ some) = evalString (value K orbSym.length) (L := SZ) (K := K) := rfl
        rw [termsOf, List.map_map]
        congr 1
        refine List.map_congr_left fun t _ => ?_
        simp only [Function.comp_apply, mk_symbols]
        show evalString (value K orbSym.length) _ u d = _
        rw [string_eval, Matrix.smul_apply, smul_eq_mul]
        rfl
      · intro s hs a ha b hb hab
        rw [hterms] at hs
        obtain ⟨t, ht, rfl⟩ := List.mem_map.1 hs
        obtain ⟨o, ho, rfl⟩ := List.mem_map.1 ha
        obtain ⟨o', ho', rfl⟩ := List.mem_map.1 hb
        rw [symbol_eval, symbol_eval]
        refine fockMat_car fun h => hab ?_
        simp [symbolOf, elementary, h]

theorem sum_flat {α β : Type} (l : List α) (f : α → List β) (g : β → K) : ((l.flatMap f).map g).sum = (l.map fun a => ((f a).map g).sum).sum := by
  induction l with
  | nil => rfl
  | cons a t ih => rw [List.flatMap_cons, List.map_append, List.sum_append, ih, List.map_cons, List.sum_cons]

/-- The operators that the generated terms stand for. -/
def qcTerms (n : Nat) (h : Nat → Nat → K) (g : Nat → Nat → Nat → Nat → K) (keep : K → Bool) : FockOp K :=
  (plainTerms n h g keep).map fun p => (p.1, p.2.1.map fun q => (!q.1, 2 * q.2.1 + q.2.2.toNat))

theorem qcTerms_element (n : Nat) (h : Nat → Nat → K) (g : Nat → Nat → Nat → Nat → K) (keep : K → Bool) (hk : ∀ x, keep x = false → x = 0) (v v' : List Bool) :
    matrixElement (qcTerms n h g keep) v v' = matrixElement (qcOp n h g) v v' := by
  unfold matrixElement qcTerms qcOp plainTerms
  simp only [List.map_append, List.sum_append, List.map_map, sum_flat]
  congr 1
  · refine sum_map_congr' _ _ _ fun i _ => sum_map_congr' _ _ _ fun j _ => ?_
    by_cases hb : keep (h i j) = true
    · simp [hb]
    · rw [if_neg hb, hk (h i j) (by simpa using hb)]
      simp
  · refine sum_map_congr' _ _ _ fun i _ => sum_map_congr' _ _ _ fun j _ => sum_map_congr' _ _ _ fun k _ => sum_map_congr' _ _ _ fun l _ => ?_
    by_cases hb : keep (g i j k l) = true
    · simp [hb, add_assoc]
    · rw [if_neg hb, hk (g i j k l) (by simpa using hb)]
      simp

theorem qcTerms_symbols (orbSym : List Nat) (n : Nat) (h : Nat → Nat → K) (g : Nat → Nat → Nat → Nat → K) (keep : K → Bool) :
    termsOf orbSym (qcTerms n h g keep) = (plainTerms n h g keep).map fun p => OpString.mk' (p.2.1.map fun q => elementary orbSym q.1 q.2.1 q.2.2) p.1 := by
  rw [termsOf, qcTerms, List.map_map]
  refine List.map_congr_left fun p _ => ?_
  simp only [Function.comp_apply, List.map_map]
  congr 1
  refine List.map_congr_left fun q _ => ?_
  obtain ⟨d, i, s⟩ := q
  have h1 : (2 * i + s.toNat) / 2 = i := by cases s <;> simp <;> omega
  have h2 : decide ((2 * i + s.toNat) % 2 = 1) = s := by cases s <;> simp [Nat.add_mod]
  simp only [Function.comp_apply, symbolOf, h1, h2, Bool.not_not]

theorem qcTerms_neutral (orbSym : List Nat) (h : Nat → Nat → K) (g : Nat → Nat → Nat → Nat → K) (keep : K → Bool) (hk : ∀ x, keep x = true → x ≠ 0)
    (ha : Allowed orbSym h g) : NeutralOn orbSym (qcTerms orbSym.length h g keep) ∧ ∀ t ∈ qcTerms orbSym.length h g keep, t.2 ≠ [] := by
  refine ⟨⟨?_, ?_⟩, ?_⟩
  · intro t ht o ho
    obtain ⟨p, hp, rfl⟩ := List.mem_map.1 ht
    obtain ⟨q, hq, rfl⟩ := List.mem_map.1 ho
    have := plain_sites _ _ _ _ p hp q hq
    have := q.2.2.toNat_lt
    simp only
    omega
  · intro t ht
    obtain ⟨p, hp, rfl⟩ := List.mem_map.1 ht
    have ev : ∀ i : Nat, (2 * i) % 2 = 0 ∧ (2 * i + 1) % 2 = 1 ∧ (2 * i) / 2 = i ∧ (2 * i + 1) / 2 = i := fun i => by omega
    unfold plainTerms at hp
    rcases List.mem_append.1 hp with hp | hp
    · simp only [List.mem_flatMap, List.mem_range] at hp
      obtain ⟨i, hi, j, hj, hp⟩ := hp
      split_ifs at hp with hb
      · have := ha.one i j (hk _ hb)
        simp only [List.map_cons, List.map_nil, List.mem_cons, List.not_mem_nil, or_false] at hp
        rcases hp with rfl | rfl <;> simp [chargeOf, ev, SZ_add, SZ_zero, this, -List.getD_eq_getElem?_getD]
      · simp at hp
    · simp only [List.mem_flatMap, List.mem_range] at hp
      obtain ⟨i, hi, j, hj, k, hk', l, hl, hp⟩ := hp
      split_ifs at hp with hb
      · have := ha.two i j k l (hk _ hb)
        have e : orbSym.getD i 0 ^^^ (orbSym.getD k 0 ^^^ (orbSym.getD l 0 ^^^ orbSym.getD j 0)) = 0 := by
          refine Eq.trans ?_ this
          ac_rfl
        simp only [List.map_cons, List.map_nil, List.flatMap_cons, List.flatMap_nil, List.append_nil, List.cons_append,
          List.nil_append, List.mem_cons, List.not_mem_nil, or_false] at hp
        rcases hp with rfl | rfl | rfl | rfl <;> simp [chargeOf, ev, SZ_add, SZ_zero, e, -List.getD_eq_getElem?_getD]
      · simp at hp
  · intro t ht
    obtain ⟨p, hp, rfl⟩ := List.mem_map.1 ht
    unfold plainTerms at hp
    rcases List.mem_append.1 hp with hp | hp
    · simp only [List.mem_flatMap, List.mem_range] at hp
      obtain ⟨i, hi, j, hj, hp⟩ := hp
      split_ifs at hp with hb
      · simp only [List.map_cons, List.map_nil, List.mem_cons, List.not_mem_nil, or_false] at hp
        rcases hp with rfl | rfl <;> simp
      · simp at hp
    · simp only [List.mem_flatMap, List.mem_range] at hp
      obtain ⟨i, hi, j, hj, k, hk', l, hl, hp⟩ := hp
      split_ifs at hp with hb
      · simp only [List.map_cons, List.map_nil, List.flatMap_cons, List.flatMap_nil, List.append_nil, List.cons_append,
          List.nil_append, List.mem_cons, List.not_mem_nil, or_false] at hp
        rcases hp with rfl | rfl | rfl | rfl <;> simp
      · simp at hp

/-- C53: from integrals to tensors.  The terms are generated, decoded to symbols, and made into a matrix product operator; its matrix elements are those of
`Σ h_ij c†_is c_js + 1/2 Σ g_ijkl c†_is c†_kt c_lt c_js`.  Exactly the integrals that are zero are skipped. -/
theorem C53_hamiltonian (small : K → Bool) (hsmall : ∀ x, small x = true ↔ x = 0) (c : V → K) (svd : Arr K → Arr K × Arr V × Arr K) (hsvd : IsSvd c svd)
    (big : V → Bool) (hbig : ∀ s, big s = false → c s = 0) (orbSym : List Nat) (hn : orbSym ≠ []) (hl : orbSym.length ≤ 8192)
    (h : Nat → Nat → K) (g : Nat → Nat → Nat → Nat → K) (keep : K → Bool) (hkeep : ∀ x, keep x = true ↔ x ≠ 0) (ha : Allowed orbSym h g) :
    ∃ terms ws X, decodeTerms orbSym (generateQcTerms orbSym.length h g keep) = some terms ∧
      buildMpo small c svd big orbSym (terms.map some) = some ws ∧ Represents orbSym (qcOp orbSym.length h g) ws X := by
  obtain ⟨n1, n2⟩ := qcTerms_neutral orbSym h g keep (fun x => (hkeep x).1) ha
  obtain ⟨ws, X, b1, b2⟩ := C53_build small hsmall c svd hsvd big hbig orbSym hn (qcTerms orbSym.length h g keep) n1 (Or.inr n2)
  refine ⟨_, ws, X, ?_, b1, ⟨b2.bonds, b2.good, b2.even, ?_⟩⟩
  · rw [qcTerms_symbols, generate_eq]
    unfold decodeTerms
    rw [List.mapM_map]
    apply mapM_some
    intro p hp
    exact C29_roundtrip orbSym hl p.1 p.2.1 (plain_sites _ _ _ _ p hp) p.2.2
  · intro u d
    rw [b2.elements]
    exact qcTerms_element _ _ _ _ (fun x hx => by
      by_contra h0
      rw [(hkeep x).2 h0] at hx
      cases hx) _ _

/-! ### A concrete case -/

/-- Three orbitals, the last one with another point-group label: hopping between the first two, and interaction of the first with the last, written both ways. -/
def exSym : List Nat := [0, 0, 5]
def exH (i j : Nat) : Rat := if (i, j) = (0, 1) ∨ (i, j) = (1, 0) then 3 else 0
def exG (i j k l : Nat) : Rat := if [i, j, k, l] = [0, 0, 2, 2] ∨ [i, j, k, l] = [2, 2, 0, 0] then 7 else 0

theorem ex_allowed : Allowed exSym exH exG := by
  refine ⟨?_, ?_⟩
  · intro i j h
    unfold exH at h
    split_ifs at h with h'
    · rcases h' with h' | h' <;> obtain ⟨rfl, rfl⟩ := Prod.mk.inj h' <;> rfl
    · simp at h
  · intro i j k l h
    unfold exG at h
    split_ifs at h with h'
    · rcases h' with h' | h' <;> simp only [List.cons.injEq, and_true] at h' <;> obtain ⟨rfl, rfl, rfl, rfl⟩ := h' <;> rfl
    · simp at h

/-- The tensors exist; the spin-down electron that hops from a doubly occupied second orbital past its partner onto the first gets a minus sign; the interaction of two
electrons counts 7 once. -/
example : ∃ terms ws X, decodeTerms exSym (generateQcTerms 3 exH exG fun x => decide (x ≠ 0)) = some terms ∧
    buildMpo (fun x => decide (x = 0)) (fun x : Rat => x) plainSvd (fun x => decide (x ≠ 0)) exSym (terms.map some) = some ws ∧
    OpOnBonds SZ.isFermion ([(0, 1)] :: X ++ [[(0, 1)]]) (exSym.map fun g => ([siteBasis g], [siteBasis g])) ws ∧
    opAmpl SZ.isFermion ws X false (0, 0) (legsOf (n := 3) exSym ![(false, true), (true, false), (false, false)])
      (legsOf (n := 3) exSym ![(false, false), (true, true), (false, false)]) (0, 0) = -3 ∧
    opAmpl SZ.isFermion ws X false (0, 0) (legsOf (n := 3) exSym ![(false, true), (false, false), (true, false)])
      (legsOf (n := 3) exSym ![(false, true), (false, false), (true, false)]) (0, 0) = 7 := by
  obtain ⟨terms, ws, X, h1, h2, h3⟩ := C53_hamiltonian (K := Rat) (fun x => decide (x = 0)) (by simp) (fun x => x) plainSvd plainSvd_isSvd (fun x => decide (x ≠ 0)) (by simp)
    exSym (by decide) (by decide) exH exG (fun x => decide (x ≠ 0)) (by simp) ex_allowed
  refine ⟨terms, ws, X, h1, h2, h3.bonds, (h3.elements _ _).trans ?_, (h3.elements _ _).trans ?_⟩
  · decide +kernel
  · decide +kernel

end Hamiltonian
end Verif
