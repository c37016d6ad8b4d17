import Verif.Model.Dmrg
import Mathlib.Data.List.Induction
import Mathlib.Order.Lattice
import Mathlib.Tactic.Linarith
import Mathlib.Algebra.Order.Ring.Rat

/-!
Property C42: the DMRG driver follows its schedule and its convergence rule.
-/

set_option linter.unusedSectionVars false

namespace Verif
namespace Dmrg
variable {R E S : Type} [LinearOrder R] [LinearOrder E] [Zero R] [Mul R]

/-! ### Specification -/

/-- The value of a schedule for sweep `k`: the `k`-th entry, or the last one when the list is shorter (`dflt` for an empty list). -/
def scheduled {α : Type} (dflt : α) (l : List α) (k : Nat) : α := if h : k < l.length then l[k] else l.getLastD dflt

/-- The convergence threshold of the local solver in sweep `k`, for a tolerance `tol`: as given by the user, otherwise the noise of the
sweep, or a tenth of the tolerance when there is no noise, but not below `tiny`. -/
def threshold (tiny tenth tol : R) (noises thrds : List R) (k : Nat) : R :=
  if h : k < thrds.length then thrds[k] else
  if scheduled 0 noises k = 0 then (if tol = 0 then tiny else max (tol * tenth) tiny) else max (scheduled 0 noises k) tiny

/-- The direction of sweep `k`: alternating. -/
def direction (forward : Bool) (k : Nat) : Bool := if k % 2 = 0 then forward else !forward

/-- The first sites visited in a sweep: from left to right (starting at `init`), or from right to left. -/
def visited (nSites dot : Nat) (init : Option Nat) (forward : Bool) : List Nat :=
  if forward then (List.range (nSites + 1 - dot)).filter fun i => init.getD 0 ≤ i else (List.range (nSites + 1 - dot)).reverse

/-- The sweep number `k` may be the last one before the maximal number of sweeps: the energy has changed by less than the tolerance and
the noise has its final value. -/
def Converged (de : E → E → R) (noises : List R) (tol : R) (energies : List E) (k : Nat) : Prop :=
  1 ≤ k ∧ (∃ e p, energies[k]? = some e ∧ energies[k - 1]? = some p ∧ de e p < tol) ∧ scheduled 0 noises k = noises.getLastD 0

/-! ### The schedules -/

theorem getD_padBdims {n : Nat} {l l' : List Nat} (h : padBdims n l = some l') {k : Nat} (hk : k < n) :
    l'.getD k 0 = scheduled 0 l k := by
  unfold padBdims at h
  unfold scheduled
  split_ifs at h with hl
  · cases hlast : l.getLast? with
    | none => rw [hlast] at h; simp at h
    | some x =>
      rw [hlast] at h
      simp only [Option.map_some, Option.some.injEq] at h
      subst h
      have hx : l.getLastD 0 = x := by simp [List.getLastD_eq_getLast?, hlast]
      split_ifs with hkl
      · simp [List.getD_eq_getElem?_getD, List.getElem?_append_left hkl, hkl]
      · rw [hx, List.getD_eq_getElem?_getD, List.getElem?_append_right (by omega), List.getElem?_replicate, if_pos (by omega)]
        rfl
  · obtain rfl := Option.some.inj h
    rw [dif_pos (by omega)]
    simp [List.getD_eq_getElem?_getD, (show k < l.length by omega)]

theorem getD_padNoises (n : Nat) (l : List R) {k : Nat} (hk : k < n) : (padNoises n l).getD k 0 = scheduled 0 l k := by
  unfold padNoises scheduled
  cases hlast : l.getLast? with
  | none =>
    have : l = [] := by simpa using hlast
    subst this
    simp [List.getD_eq_getElem?_getD, List.getElem?_replicate, hk]
  | some x =>
    have hx : l.getLastD 0 = x := by simp [List.getLastD_eq_getLast?, hlast]
    dsimp only
    split_ifs with hkl
    · simp [List.getD_eq_getElem?_getD, List.getElem?_append_left hkl, hkl]
    · rw [hx, List.getD_eq_getElem?_getD, List.getElem?_append_right (by omega), List.getElem?_replicate, if_pos (by omega)]
      rfl

theorem getLastD_padNoises (n : Nat) (l : List R) : (padNoises n l).getLastD 0 = l.getLastD 0 := by
  unfold padNoises
  cases hlast : l.getLast? with
  | none =>
    have : l = [] := by simpa using hlast
    subst this
    cases n <;> simp [List.getLastD_eq_getLast?, List.getLast?_replicate]
  | some x =>
    dsimp only
    rw [List.getLastD_eq_getLast?, List.getLastD_eq_getLast?, List.getLast?_append, hlast]
    cases h : n - l.length with
    | zero => simp
    | succ m => simp [List.getLast?_replicate]

theorem getD_fillThrds (tiny tenth tol : R) (n : Nat) (noises thrds : List R) {k : Nat} (hk : k < n) :
    (fillThrds tiny tenth tol n (padNoises n noises) thrds).getD k 0 = threshold tiny tenth tol noises thrds k := by
  unfold fillThrds threshold
  by_cases h : k < thrds.length
  · rw [dif_pos h, List.getD_eq_getElem?_getD, List.getElem?_append_left h]
    simp [h]
  · rw [dif_neg h, List.getD_eq_getElem?_getD, List.getElem?_append_right (by omega), List.getElem?_map, List.getElem?_range' (by omega)]
    have e : thrds.length + 1 * (k - thrds.length) = k := by omega
    simp only [Option.map_some, Option.getD_some, e, getD_padNoises n noises hk]

theorem sites_eq (nSites dot : Nat) (init : Option Nat) (forward : Bool) : sites nSites dot init forward = visited nSites dot init forward := by
  unfold sites visited
  cases forward <;> cases init <;> simp
  apply List.filter_congr
  intro i _
  rw [Bool.eq_iff_iff]
  simp

/-! ### The loop -/

theorem sweep_spec (step : Call R → S → E × S) (big : E) (calls : List (Call R)) (s : S) :
    (sweep step big calls s).1.map Prod.fst = calls ∧
    (sweep step big calls s).2.1 = ((sweep step big calls s).1.map Prod.snd).foldl min big := by
  unfold sweep
  induction calls using List.reverseRecOn with
  | nil => exact ⟨rfl, rfl⟩
  | append_singleton t a ih =>
    rw [List.foldl_append, List.foldl_cons, List.foldl_nil]
    dsimp only
    rw [List.map_append, List.map_append, List.foldl_append, ih.1, ← ih.2]
    exact ⟨rfl, rfl⟩

/-- The test at the end of a sweep with energy `e`, previous energy `p` and noise `x`. -/
def Stops (de : E → E → R) (tol final : R) (p e : Option E) (x : R) : Prop := ∃ p' e', p = some p' ∧ e = some e' ∧ de e' p' < tol ∧ x = final

/-- What the loop does from sweep `iw` on. -/
theorem loop_spec (step : Call R → S → E × S) (big : E) (de : E → E → R) (d : Driver R) (nSites dot : Nat) (tol : R) :
    ∀ (left iw : Nat) (forward : Bool) (prev : Option E) (s : S) (r : List (List (Call R × E)) × List E × S),
    r = loop step big de d nSites dot tol left iw forward prev s →
    r.1.length = r.2.1.length ∧ r.1.length ≤ left ∧ (0 < left → 0 < r.1.length) ∧
    (∀ (k : Nat) (t : List (Call R × E)), r.1[k]? = some t →
      t.map Prod.fst = (sites nSites dot d.initSite (direction forward k)).map fun i =>
        (⟨iw + k, i, direction forward k, d.bdims.getD (iw + k) 0, d.noises.getD (iw + k) 0, d.thrds.getD (iw + k) 0⟩ : Call R)) ∧
    (∀ (k : Nat) (t : List (Call R × E)), r.1[k]? = some t → r.2.1[k]? = some ((t.map Prod.snd).foldl min big)) ∧
    (∀ k : Nat, k + 1 < r.1.length →
      ¬ Stops de tol (d.noises.getLastD 0) (if k = 0 then prev else r.2.1[k - 1]?) r.2.1[k]? (d.noises.getD (iw + k) 0)) ∧
    (∀ k : Nat, k + 1 = r.1.length → k + 1 < left →
      Stops de tol (d.noises.getLastD 0) (if k = 0 then prev else r.2.1[k - 1]?) r.2.1[k]? (d.noises.getD (iw + k) 0)) := by
  intro left
  induction left with
  | zero =>
    intro iw forward prev s r hr
    subst hr
    simp [loop]
  | succ left ih =>
    intro iw forward prev s r0 hr0
    unfold loop at hr0
    dsimp only at hr0
    have hd0 : direction forward 0 = forward := by simp [direction]
    have hds : ∀ k, direction (!forward) k = direction forward (k + 1) := by
      intro k
      unfold direction
      rcases Nat.mod_two_eq_zero_or_one k with h | h
      · rw [if_pos h, if_neg (by omega)]
      · rw [if_neg (by omega), if_pos (by omega), Bool.not_not]
    generalize hcalls : ((sites nSites dot d.initSite forward).map fun i =>
      (⟨iw, i, forward, d.bdims.getD iw 0, d.noises.getD iw 0, d.thrds.getD iw 0⟩ : Call R)) = calls at hr0
    obtain ⟨s1, s2⟩ := sweep_spec step big calls s
    generalize sweep step big calls s = r at hr0 s1 s2
    have ih' := ih (iw + 1) (!forward) (some r.2.1) r.2.2 _ rfl
    generalize loop step big de d nSites dot tol left (iw + 1) (!forward) (some r.2.1) r.2.2 = t at hr0 ih'
    obtain ⟨i1, i2, i3, i4, i5, i6, i7⟩ := ih'
    have hstop : stopTest de tol (d.noises.getLastD 0) prev r.2.1 (d.noises.getD iw 0) = true ↔
        Stops de tol (d.noises.getLastD 0) prev (some r.2.1) (d.noises.getD iw 0) := by
      unfold stopTest
      clear hr0
      cases prev with
      | none => simp [Stops]
      | some p => simp [Stops]
    have c0 : r.1.map Prod.fst = (sites nSites dot d.initSite (direction forward 0)).map fun i =>
        (⟨iw + 0, i, direction forward 0, d.bdims.getD (iw + 0) 0, d.noises.getD (iw + 0) 0, d.thrds.getD (iw + 0) 0⟩ : Call R) := by
      rw [s1, hd0, ← hcalls]
      rfl
    by_cases hs : Stops de tol (d.noises.getLastD 0) prev (some r.2.1) (d.noises.getD iw 0)
    · rw [if_pos (hstop.2 hs)] at hr0
      subst hr0
      dsimp only
      refine ⟨rfl, by simp, by simp, ?_, ?_, ?_, ?_⟩
      · intro k t hk
        cases k with
        | zero => obtain rfl := Option.some.inj hk; exact c0
        | succ k => simp at hk
      · intro k t hk
        cases k with
        | zero => obtain rfl := Option.some.inj hk; rw [← s2]; rfl
        | succ k => simp at hk
      · intro k hk
        simp at hk
      · intro k hk _
        simp at hk
        subst hk
        exact hs
    · rw [if_neg (fun h => hs (hstop.1 h))] at hr0
      subst hr0
      dsimp only
      refine ⟨by simp [i1], by simpa using i2, by simp, ?_, ?_, ?_, ?_⟩
      · intro k t' hk
        cases k with
        | zero => obtain rfl := Option.some.inj hk; exact c0
        | succ k =>
          have := i4 k t' (by simpa using hk)
          rw [this, hds]
          have e : iw + 1 + k = iw + (k + 1) := by omega
          rw [e]
      · intro k t' hk
        cases k with
        | zero => obtain rfl := Option.some.inj hk; rw [← s2]; rfl
        | succ k => simpa using i5 k t' (by simpa using hk)
      · intro k hk
        cases k with
        | zero => exact hs
        | succ k =>
          have := i6 k (by simpa using hk)
          have e : iw + 1 + k = iw + (k + 1) := by omega
          rw [e] at this
          cases k with
          | zero => simpa using this
          | succ k => simpa using this
      · intro k hk hk'
        cases k with
        | zero =>
          have h0 : t.1.length = 0 := by simpa using hk.symm
          have := i3 (by omega)
          omega
        | succ k =>
          have := i7 k (by simpa using hk) (by omega)
          have e : iw + 1 + k = iw + (k + 1) := by omega
          rw [e] at this
          cases k with
          | zero => simpa using this
          | succ k => simpa using this

/-! ### Theorems -/

/-- The run exists exactly when there is a bond dimension to use. -/
theorem solve_isSome (step : Call R → S → E × S) (big : E) (de : E → E → R) (tiny tenth : R) (nSites : Nat) (d : Driver R)
    (nSweeps : Nat) (tol : R) (dot : Nat) (forward : Bool) (s : S) :
    (solve step big de tiny tenth nSites d nSweeps tol dot forward s).isSome ↔ (nSweeps = 0 ∨ d.bdims ≠ []) := by
  unfold solve padBdims
  rw [Option.isSome_map]
  cases h : d.bdims with
  | nil => cases nSweeps <;> simp
  | cons a t => split_ifs <;> simp

/-- C42: after the padding every sweep finds its parameters: no access to the lists of the driver fails. -/
theorem C42_padded (step : Call R → S → E × S) (big : E) (de : E → E → R) (tiny tenth : R) (nSites : Nat) (d : Driver R)
    (nSweeps : Nat) (tol : R) (dot : Nat) (forward : Bool) (s : S) (d' : Driver R) (runs : List (List (Call R × E))) (energies : List E)
    (s' : S) (h : solve step big de tiny tenth nSites d nSweeps tol dot forward s = some (d', runs, energies, s')) :
    nSweeps ≤ d'.bdims.length ∧ nSweeps ≤ d'.noises.length ∧ nSweeps ≤ d'.thrds.length := by
  unfold solve at h
  obtain ⟨b, hb, hl⟩ := Option.map_eq_some_iff.1 h
  simp only [Prod.mk.injEq] at hl
  obtain ⟨hd', hl⟩ := hl
  subst hd'
  refine ⟨?_, ?_, ?_⟩
  · unfold padBdims at hb
    split_ifs at hb with h1
    · obtain ⟨x, _, rfl⟩ := Option.map_eq_some_iff.1 hb
      simp
      omega
    · obtain rfl := Option.some.inj hb
      simpa using h1
  · simp only [padNoises]
    split <;> simp
    omega
  · simp [fillThrds]
    omega

/-- **C42**: the parameters used in sweep `k`: the scheduled bond dimension, noise and threshold, the direction alternates, and the
sites are visited in order. -/
theorem C42_schedule (step : Call R → S → E × S) (big : E) (de : E → E → R) (tiny tenth : R) (nSites : Nat) (d : Driver R)
    (nSweeps : Nat) (tol : R) (dot : Nat) (forward : Bool) (s : S) (d' : Driver R) (runs : List (List (Call R × E))) (energies : List E)
    (s' : S) (h : solve step big de tiny tenth nSites d nSweeps tol dot forward s = some (d', runs, energies, s')) (k : Nat)
    (run : List (Call R × E)) (hk : runs[k]? = some run) :
    run.map Prod.fst = (visited nSites dot d.initSite (direction forward k)).map fun i =>
      ⟨k, i, direction forward k, scheduled 0 d.bdims k, scheduled 0 d.noises k, threshold tiny tenth tol d.noises d.thrds k⟩ := by
  unfold solve at h
  obtain ⟨b, hb, hl⟩ := Option.map_eq_some_iff.1 h
  simp only [Prod.mk.injEq] at hl
  obtain ⟨hd', hl⟩ := hl
  subst hd'
  obtain ⟨_, h2, _, h4, _⟩ := loop_spec step big de _ nSites dot tol nSweeps 0 forward none s _ hl.symm
  have hkn : k < nSweeps := lt_of_lt_of_le (List.getElem?_eq_some_iff.1 hk).1 h2
  rw [h4 k run hk, sites_eq]
  simp only [Nat.zero_add, getD_padBdims hb hkn, getD_padNoises nSweeps d.noises hkn, getD_fillThrds tiny tenth tol nSweeps _ _ hkn]

/-- **C42**: the energy recorded for a sweep is the smallest energy found in it (`big` when no site is visited). -/
theorem C42_energy (step : Call R → S → E × S) (big : E) (de : E → E → R) (tiny tenth : R) (nSites : Nat) (d : Driver R)
    (nSweeps : Nat) (tol : R) (dot : Nat) (forward : Bool) (s : S) (d' : Driver R) (runs : List (List (Call R × E))) (energies : List E)
    (s' : S) (h : solve step big de tiny tenth nSites d nSweeps tol dot forward s = some (d', runs, energies, s')) :
    energies.length = runs.length ∧ ∀ (k : Nat) (run : List (Call R × E)), runs[k]? = some run →
      ∃ e, energies[k]? = some e ∧ e ≤ big ∧ (∀ c ∈ run, e ≤ c.2) ∧ (e = big ∨ ∃ c ∈ run, e = c.2) := by
  unfold solve at h
  obtain ⟨b, hb, hl⟩ := Option.map_eq_some_iff.1 h
  simp only [Prod.mk.injEq] at hl
  obtain ⟨hd', hl⟩ := hl
  subst hd'
  obtain ⟨h1, _, _, _, h5, _⟩ := loop_spec step big de _ nSites dot tol nSweeps 0 forward none s _ hl.symm
  refine ⟨h1.symm, fun k run hk => ⟨_, h5 k run hk, ?_⟩⟩
  have key : ∀ (l : List E) (b : E), l.foldl min b ≤ b ∧ (∀ c ∈ l, l.foldl min b ≤ c) ∧ (l.foldl min b = b ∨ l.foldl min b ∈ l) := by
    intro l
    induction l with
    | nil => intro b; simp
    | cons a t ih =>
      intro b
      obtain ⟨i1, i2, i3⟩ := ih (min b a)
      rw [List.foldl_cons]
      refine ⟨le_trans i1 (min_le_left _ _), ?_, ?_⟩
      · intro c hc
        rcases List.mem_cons.1 hc with rfl | hc
        · exact le_trans i1 (min_le_right _ _)
        · exact i2 c hc
      · rcases i3 with i3 | i3
        · rw [i3]
          rcases min_choice b a with hm | hm
          · exact Or.inl hm
          · rw [hm]
            exact Or.inr (List.mem_cons_self ..)
        · exact Or.inr (List.mem_cons_of_mem _ i3)
  obtain ⟨k1, k2, k3⟩ := key (run.map Prod.snd) big
  refine ⟨k1, fun c hc => k2 _ (List.mem_map_of_mem hc), ?_⟩
  rcases k3 with k3 | k3
  · exact Or.inl k3
  · obtain ⟨c, hc, he⟩ := List.mem_map.1 k3
    exact Or.inr ⟨c, hc, he.symm⟩

/-- **C42**: the stopping rule.  The driver performs at most the requested number of sweeps; it stops earlier exactly at the first sweep
that has converged (energy change below the tolerance and noise at its final value). -/
theorem C42_stop (step : Call R → S → E × S) (big : E) (de : E → E → R) (tiny tenth : R) (nSites : Nat) (d : Driver R)
    (nSweeps : Nat) (tol : R) (dot : Nat) (forward : Bool) (s : S) (d' : Driver R) (runs : List (List (Call R × E))) (energies : List E)
    (s' : S) (h : solve step big de tiny tenth nSites d nSweeps tol dot forward s = some (d', runs, energies, s')) :
    runs.length ≤ nSweeps ∧
    (∀ k, k + 1 < runs.length → ¬ Converged de d.noises tol energies k) ∧
    (runs.length < nSweeps → Converged de d.noises tol energies (runs.length - 1)) := by
  unfold solve at h
  obtain ⟨b, hb, hl⟩ := Option.map_eq_some_iff.1 h
  simp only [Prod.mk.injEq] at hl
  obtain ⟨hd', hl⟩ := hl
  subst hd'
  obtain ⟨h1, h2, h3, _, _, h6, h7⟩ := loop_spec step big de _ nSites dot tol nSweeps 0 forward none s _ hl.symm
  dsimp only at h1 h2 h3 h6 h7
  have hiff : ∀ k, k < nSweeps → (Stops de tol ((padNoises nSweeps d.noises).getLastD 0) (if k = 0 then none else energies[k - 1]?)
      energies[k]? ((padNoises nSweeps d.noises).getD (0 + k) 0) ↔ Converged de d.noises tol energies k) := by
    intro k hk
    unfold Stops Converged
    rw [Nat.zero_add, getD_padNoises _ _ hk, getLastD_padNoises]
    by_cases h0 : k = 0
    · simp [h0]
    · rw [if_neg h0]
      constructor
      · rintro ⟨p, e, hp, he, hd, hn⟩
        exact ⟨by omega, ⟨e, p, he, hp, hd⟩, hn⟩
      · rintro ⟨_, ⟨e, p, he, hp, hd⟩, hn⟩
        exact ⟨p, e, hp, he, hd, hn⟩
  refine ⟨h2, fun k hk => ?_, fun hlt => ?_⟩
  · rw [← hiff k (by omega)]
    exact h6 k hk
  · have hpos := h3 (by omega)
    rw [← hiff _ (by omega)]
    exact h7 _ (by omega) (by omega)

/-- **C42**, what is kept on the driver: a second call of `solve` with the same number of sweeps uses the thresholds that the first call
derived from its own tolerance; the tolerance of the second call has no influence on them. -/
theorem C42_second_solve (step : Call R → S → E × S) (big : E) (de : E → E → R) (tiny tenth : R) (nSites : Nat) (d : Driver R)
    (nSweeps : Nat) (tol tol' : R) (dot : Nat) (forward forward' : Bool) (s s'' : S) (d' d'' : Driver R)
    (runs runs' : List (List (Call R × E))) (energies energies' : List E) (s' s''' : S)
    (h : solve step big de tiny tenth nSites d nSweeps tol dot forward s = some (d', runs, energies, s'))
    (h' : solve step big de tiny tenth nSites d' nSweeps tol' dot forward' s'' = some (d'', runs', energies', s''')) (k : Nat)
    (run : List (Call R × E)) (hk : runs'[k]? = some run) :
    ∀ c ∈ run, c.1.thrd = threshold tiny tenth tol d.noises d.thrds k := by
  have hs := C42_schedule step big de tiny tenth nSites d' nSweeps tol' dot forward' s'' d'' runs' energies' s''' h' k run hk
  unfold solve at h'
  obtain ⟨b, hb, h'⟩ := Option.map_eq_some_iff.1 h'
  simp only [Prod.mk.injEq] at h'
  obtain ⟨h2, _⟩ := loop_spec step big de _ nSites dot tol' nSweeps 0 forward' none s'' _ h'.2.symm |>.2
  have hkn : k < nSweeps := lt_of_lt_of_le (List.getElem?_eq_some_iff.1 hk).1 h2
  intro c hc
  have : c.1 ∈ run.map Prod.fst := List.mem_map_of_mem hc
  rw [hs] at this
  obtain ⟨i, _, hi⟩ := List.mem_map.1 this
  rw [← hi]
  dsimp only
  unfold solve at h
  obtain ⟨b', hb', h⟩ := Option.map_eq_some_iff.1 h
  simp only [Prod.mk.injEq] at h
  obtain ⟨rfl, _⟩ := h
  rw [← getD_fillThrds tiny tenth tol nSweeps d.noises d.thrds hkn]
  dsimp only
  have hlen : k < (fillThrds tiny tenth tol nSweeps (padNoises nSweeps d.noises) d.thrds).length := by
    unfold fillThrds
    simp
    omega
  unfold threshold
  rw [dif_pos hlen]
  simp [List.getD_eq_getElem?_getD, hlen]

/-- A run on a chain of three sites with energies `5, 4, 3, 3, ...`: the noise reaches zero in the third sweep, the tolerance is met in
the second sweep already, so the run stops after the third. -/
example : (solve (R := ℚ) (E := ℚ) (S := Nat) (fun _ s => ((max 3 (5 - s) : ℚ), s + 1)) 100 (fun a b => |a - b|) (1/100) (1/10) 3
      ⟨[10, 20], [1/2, 0], [], none⟩ 6 (1/10) 2 true 0).map (fun r => (r.2.1.map (·.map fun c => (c.1.site, c.1.bdim, c.1.thrd)), r.2.2.1)) =
    some ([[(0, 10, 1/2), (1, 10, 1/2)], [(1, 20, 1/100), (0, 20, 1/100)], [(0, 20, 1/100), (1, 20, 1/100)]], [4, 3, 3]) := by
  decide +kernel

end Dmrg
end Verif
