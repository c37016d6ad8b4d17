import Verif.Model.Mpe
import Verif.Proof.Dict
import Mathlib.Data.List.Induction
import Mathlib.Tactic.Common
import Mathlib.Algebra.Ring.Int.Defs

/-!
C33: environments kept by `MPE` (`/repo/pyblock3/algebra/mpe.py`).
C34: storage of `CachedMPE`.
-/

set_option linter.unusedSectionVars false

namespace Verif
namespace Mpe

section
variable {T W V : Type}

/-! ### Specification -/

/-- The left environment of the first `k` sites, computed from scratch. -/
def leftEnv (c : Cfg T W V) (ket bra : Nat → T) : Nat → V
  | 0 => c.identL
  | k + 1 => c.rotL (leftEnv c ket bra k) (c.mpo k) (bra k) (ket k)

/-- The right environment of the last `m` sites, computed from scratch. -/
def rightLast (c : Cfg T W V) (ket bra : Nat → T) : Nat → V
  | 0 => c.identR
  | m + 1 => c.rotR (rightLast c ket bra m) (c.mpo (c.n - (m + 1))) (bra (c.n - (m + 1))) (ket (c.n - (m + 1)))

/-- The right environment of the sites from `i` on, computed from scratch. -/
def rightEnv (c : Cfg T W V) (ket bra : Nat → T) (i : Nat) : V := rightLast c ket bra (c.n - i)

/-- Every environment the object keeps is the one computed from its present tensors. -/
def Fresh (c : Cfg T W V) (s : Sys T V) : Prop :=
  (∀ k ≤ c.n, ∀ v, s.left k = some v → v = leftEnv c s.ket (braOf c s) k) ∧
    ∀ i ≤ c.n, ∀ v, s.right i = some v → v = rightEnv c s.ket (braOf c s) i

/-- The treatment of one window by a sweep algorithm: `builds` calls of `build_envs(l, r)` (reading `mpe[l:r]` any number of times changes
nothing), then `mpe[l:r] = ...`. -/
structure Round (T : Type) where
  l : Nat
  r : Nat
  builds : Nat
  kets : List T
  bras : Option (List T)

/-- The window is a non-empty range of sites. -/
def Round.Valid (c : Cfg T W V) (x : Round T) : Prop := x.l < x.r ∧ x.r ≤ c.n

def Round.exec (c : Cfg T W V) (x : Round T) (s : Sys T V) : Option (Sys T V) :=
  ((List.replicate x.builds ()).foldlM (fun s _ => buildEnvs c x.l x.r s) s).bind (setWindow c x.l x.r x.kets x.bras)

/-! ### Proof -/

theorem leftEnv_congr {c : Cfg T W V} {f g f' g' : Nat → T} (k : Nat)
    (h : ∀ i < k, f i = f' i ∧ g i = g' i) : leftEnv c f g k = leftEnv c f' g' k := by
  induction k with
  | zero => rfl
  | succ k ih =>
    have h1 := h k (Nat.lt_succ_self k)
    rw [leftEnv, leftEnv, ih fun i hi => h i (Nat.lt_succ_of_lt hi), h1.1, h1.2]

theorem rightLast_congr {c : Cfg T W V} {f g f' g' : Nat → T} (m : Nat) (hm : m ≤ c.n)
    (h : ∀ i, c.n - m ≤ i → f i = f' i ∧ g i = g' i) : rightLast c f g m = rightLast c f' g' m := by
  induction m with
  | zero => rfl
  | succ m ih =>
    have h1 := h (c.n - (m + 1)) (Nat.le_refl _)
    rw [rightLast, rightLast, ih (by omega) fun i hi => h i (by omega), h1.1, h1.2]

theorem rightEnv_congr {c : Cfg T W V} {f g f' g' : Nat → T} (i : Nat) (hi : i ≤ c.n)
    (h : ∀ j, i ≤ j → f j = f' j ∧ g j = g' j) : rightEnv c f g i = rightEnv c f' g' i :=
  rightLast_congr _ (Nat.sub_le _ _) fun j hj => h j (by omega)

theorem rightEnv_self {c : Cfg T W V} {f g : Nat → T} : rightEnv c f g c.n = c.identR := by
  rw [rightEnv, Nat.sub_self]; rfl

theorem rightEnv_step {c : Cfg T W V} {f g : Nat → T} {i : Nat} (hi : i < c.n) :
    rightEnv c f g i = c.rotR (rightEnv c f g (i + 1)) (c.mpo i) (g i) (f i) := by
  have h1 : c.n - i = (c.n - (i + 1)) + 1 := by omega
  have h2 : c.n - ((c.n - (i + 1)) + 1) = i := by omega
  rw [rightEnv, rightEnv, h1, rightLast, h2]

/-- Environments to the left of site `l` and from site `r` on belong to the present tensors; no gaps. -/
structure Inv (c : Cfg T W V) (l r : Nat) (s : Sys T V) : Prop where
  left : ∀ k ≤ l, ∀ v, s.left k = some v → v = leftEnv c s.ket (braOf c s) k
  right : ∀ i ≤ c.n, r ≤ i → ∀ v, s.right i = some v → v = rightEnv c s.ket (braOf c s) i
  far : ∀ k > c.n, s.left k = none
  gapL : ∀ k, (s.left (k + 1)).isSome → (s.left k).isSome
  gapR : ∀ i < c.n, (s.right i).isSome → (s.right (i + 1)).isSome

theorem gapL_trans {s : Sys T V} (h : ∀ k, (s.left (k + 1)).isSome → (s.left k).isSome) {j k : Nat} (hjk : j ≤ k)
    (hk : (s.left k).isSome) : (s.left j).isSome := by
  induction k with
  | zero => rw [Nat.le_zero.1 hjk]; exact hk
  | succ k ih =>
    rcases Nat.lt_or_eq_of_le hjk with h1 | h1
    · exact ih (Nat.le_of_lt_succ h1) (h k hk)
    · rw [h1]; exact hk

theorem gapR_trans {c : Cfg T W V} {s : Sys T V} (h : ∀ i < c.n, (s.right i).isSome → (s.right (i + 1)).isSome) {i j : Nat}
    (hij : i ≤ j) (hj : j ≤ c.n) (hi : (s.right i).isSome) : (s.right j).isSome := by
  induction j with
  | zero => rw [Nat.le_zero.1 hij] at hi; exact hi
  | succ j ih =>
    rcases Nat.lt_or_eq_of_le hij with h1 | h1
    · exact h j (by omega) (ih (by omega) (by omega))
    · rw [← h1]; exact hi

/-- `g` comes from `f` by canonicalisations (mpe.py:123-131) with the centre moving right from sites before `l` and moving left from sites from `r` on;
none when `do_canon` is off. -/
inductive Regauged (c : Cfg T W V) (l r : Nat) (f : Nat → T) : (Nat → T) → Prop where
  | refl : Regauged c l r f f
  | left {g : Nat → T} (i : Nat) : Regauged c l r f g → c.canon = true → i < l → i + 1 < c.n → Regauged c l r f (canonLeftAt c i g)
  | right {g : Nat → T} (i : Nat) : Regauged c l r f g → c.canon = true → r ≤ i → 1 ≤ i → i < c.n → Regauged c l r f (canonRightAt c i g)

theorem Regauged.trans {c : Cfg T W V} {l r : Nat} {f g h : Nat → T} (h1 : Regauged c l r f g) (h2 : Regauged c l r g h) : Regauged c l r f h := by
  induction h2 with
  | refl => exact h1
  | left i _ hc hi hn ih => exact ih.left i hc hi hn
  | right i _ hc hi h1' hn ih => exact ih.right i hc hi h1' hn

section

theorem prepLeft_ket {c : Cfg T W V} {i : Nat} {s : Sys T V} :
    (prepLeft c i s).ket = if c.canon then canonLeftAt c i s.ket else s.ket := by
  rw [prepLeft]; split <;> rfl

theorem prepLeft_bra {c : Cfg T W V} {i : Nat} {s : Sys T V} :
    braOf c (prepLeft c i s) = if c.canon then canonLeftAt c i (braOf c s) else braOf c s := by
  rw [prepLeft]; unfold braOf
  rcases hc : c.canon <;> rcases hs : c.same <;> simp

theorem prepLeft_envs {c : Cfg T W V} {i : Nat} {s : Sys T V} :
    (prepLeft c i s).left = s.left ∧ (prepLeft c i s).right = s.right := by
  rw [prepLeft]; split <;> exact ⟨rfl, rfl⟩

theorem prepRight_ket {c : Cfg T W V} {i : Nat} {s : Sys T V} :
    (prepRight c i s).ket = if c.canon then canonRightAt c i s.ket else s.ket := by
  rw [prepRight]; split <;> rfl

theorem prepRight_bra {c : Cfg T W V} {i : Nat} {s : Sys T V} :
    braOf c (prepRight c i s) = if c.canon then canonRightAt c i (braOf c s) else braOf c s := by
  rw [prepRight]; unfold braOf
  rcases hc : c.canon <;> rcases hs : c.same <;> simp

theorem prepRight_envs {c : Cfg T W V} {i : Nat} {s : Sys T V} :
    (prepRight c i s).left = s.left ∧ (prepRight c i s).right = s.right := by
  rw [prepRight]; split <;> exact ⟨rfl, rfl⟩

theorem canonLeftAt_other {c : Cfg T W V} {i j : Nat} {f : Nat → T} (h1 : j ≠ i) (h2 : j ≠ i + 1) : canonLeftAt c i f j = f j := by
  rw [canonLeftAt, Function.update_of_ne h2, Function.update_of_ne h1]

theorem canonRightAt_other {c : Cfg T W V} {i j : Nat} {f : Nat → T} (h1 : j ≠ i) (h2 : j ≠ i - 1) : canonRightAt c i f j = f j := by
  rw [canonRightAt, Function.update_of_ne h2, Function.update_of_ne h1]

theorem prepLeft_other {c : Cfg T W V} {i j : Nat} {s : Sys T V} (h1 : j ≠ i) (h2 : j ≠ i + 1) :
    (prepLeft c i s).ket j = s.ket j ∧ braOf c (prepLeft c i s) j = braOf c s j := by
  rw [prepLeft_ket, prepLeft_bra]
  split
  · exact ⟨canonLeftAt_other h1 h2, canonLeftAt_other h1 h2⟩
  · exact ⟨rfl, rfl⟩

theorem prepRight_other {c : Cfg T W V} {i j : Nat} {s : Sys T V} (h1 : j ≠ i) (h2 : j ≠ i - 1) :
    (prepRight c i s).ket j = s.ket j ∧ braOf c (prepRight c i s) j = braOf c s j := by
  rw [prepRight_ket, prepRight_bra]
  split
  · exact ⟨canonRightAt_other h1 h2, canonRightAt_other h1 h2⟩
  · exact ⟨rfl, rfl⟩

theorem prepLeft_other' {c : Cfg T W V} {i j : Nat} {s : Sys T V} (h : c.canon = true → j ≠ i ∧ j ≠ i + 1) :
    (prepLeft c i s).ket j = s.ket j ∧ braOf c (prepLeft c i s) j = braOf c s j := by
  by_cases hc : c.canon = true
  · exact prepLeft_other (h hc).1 (h hc).2
  · rw [prepLeft, if_neg hc]; exact ⟨rfl, rfl⟩

theorem prepRight_other' {c : Cfg T W V} {i j : Nat} {s : Sys T V} (h : c.canon = true → j ≠ i ∧ j ≠ i - 1) :
    (prepRight c i s).ket j = s.ket j ∧ braOf c (prepRight c i s) j = braOf c s j := by
  by_cases hc : c.canon = true
  · exact prepRight_other (h hc).1 (h hc).2
  · rw [prepRight, if_neg hc]; exact ⟨rfl, rfl⟩

/-- Ket and bra of `s'` come from those of `s` by canonicalisation. -/
def SameVal (c : Cfg T W V) (l r : Nat) (s s' : Sys T V) : Prop :=
  Regauged c l r s.ket s'.ket ∧ Regauged c l r (braOf c s) (braOf c s')

theorem SameVal.refl {c : Cfg T W V} {l r : Nat} {s : Sys T V} : SameVal c l r s s := ⟨.refl, .refl⟩

theorem SameVal.trans {c : Cfg T W V} {l r : Nat} {s s' s'' : Sys T V} (h : SameVal c l r s s') (h' : SameVal c l r s' s'') :
    SameVal c l r s s'' := ⟨h.1.trans h'.1, h.2.trans h'.2⟩

theorem sameVal_left {c : Cfg T W V} {l r i : Nat} (hl : i < l) (hi : c.canon = true → i + 1 < c.n) (s : Sys T V) :
    SameVal c l r s (prepLeft c i s) := by
  rw [SameVal, prepLeft_ket, prepLeft_bra]
  split
  · rename_i hc
    exact ⟨Regauged.refl.left i hc hl (hi hc), Regauged.refl.left i hc hl (hi hc)⟩
  · exact ⟨.refl, .refl⟩

theorem sameVal_right {c : Cfg T W V} {l r i : Nat} (hr : r ≤ i) (hi : 1 ≤ i) (hin : i < c.n) (s : Sys T V) :
    SameVal c l r s (prepRight c i s) := by
  rw [SameVal, prepRight_ket, prepRight_bra]
  split
  · rename_i hc
    exact ⟨Regauged.refl.right i hc hr hi hin, Regauged.refl.right i hc hr hi hin⟩
  · exact ⟨.refl, .refl⟩

theorem braOf_setLeft {c : Cfg T W V} {s : Sys T V} {e : Nat → Option V} : braOf c { s with left := e } = braOf c s := rfl

theorem braOf_setRight {c : Cfg T W V} {s : Sys T V} {e : Nat → Option V} : braOf c { s with right := e } = braOf c s := rfl

theorem Inv.buildLeft1 {c : Cfg T W V} {l r : Nat} (hlr : c.canon = true → l < r) (hl : l ≤ c.n) (hr : r ≤ c.n) {k : Nat} (hk : k ≤ l)
    {s : Sys T V} (h : Inv c l r s) (hp : ∀ j < k, (s.left j).isSome) :
    ∃ s', buildLeft1 c k s = some s' ∧ Inv c l r s' ∧ (∀ j ≤ k, (s'.left j).isSome) ∧ SameVal c l r s s' := by
  rcases hsk : s.left k with _ | v
  · rcases k with _ | i
    · have hnone : ∀ j, s.left j = none := by
        intro j
        by_contra hj
        have := gapL_trans h.gapL (Nat.zero_le j) (Option.isSome_iff_ne_none.2 hj)
        rw [hsk] at this; simp at this
      refine ⟨{ s with left := Function.update s.left 0 (some c.identL) }, by simp [Mpe.buildLeft1, hsk], ⟨?_, h.right, ?_, ?_, h.gapR⟩, ?_, .refl⟩
      · intro j hj v hjv
        by_cases hj0 : j = 0
        · subst hj0
          simp at hjv
          rw [← hjv]; rfl
        · simp [hj0, hnone] at hjv
      · intro j hj
        show Function.update s.left 0 (some c.identL) j = none
        rw [Function.update_of_ne (by omega)]; exact h.far j hj
      · intro j hj
        simp [hnone] at hj
      · intro j hj
        rw [Nat.le_zero.1 hj]; simp
    · obtain ⟨prev, hprev⟩ := Option.isSome_iff_exists.1 (hp i (Nat.lt_succ_self i))
      have hnone : ∀ j, i + 1 ≤ j → s.left j = none := by
        intro j hij
        by_contra hj
        have := gapL_trans h.gapL hij (Option.isSome_iff_ne_none.2 hj)
        rw [hsk] at this; simp at this
      have hpe : prev = leftEnv c s.ket (braOf c s) i := h.left i (by omega) prev hprev
      have hlt : ∀ j ≤ i, leftEnv c s.ket (braOf c s) j = leftEnv c (prepLeft c i s).ket (braOf c (prepLeft c i s)) j := by
        intro j hj
        refine leftEnv_congr j fun m hm => ?_
        have := prepLeft_other' (c := c) (i := i) (j := m) (s := s) (fun hc => by have := hlr hc; omega)
        exact ⟨this.1.symm, this.2.symm⟩
      refine ⟨_, by simp [Mpe.buildLeft1, hsk, hprev]; rfl, ⟨?_, ?_, ?_, ?_, ?_⟩, ?_, ?_⟩
      · intro j hj v hjv
        show v = leftEnv c (prepLeft c i s).ket (braOf c (prepLeft c i s)) j
        by_cases hj1 : j = i + 1
        · subst hj1
          simp at hjv
          rw [← hjv, leftEnv, ← hlt i (Nat.le_refl _), ← hpe]
        · simp [hj1, prepLeft_envs.1] at hjv
          have hji : j ≤ i := by
            by_contra hji
            rw [hnone j (by omega)] at hjv
            exact absurd hjv (by simp)
          rw [← hlt j hji]
          exact h.left j hj v hjv
      · intro j hjn hj v hjv
        show v = rightEnv c (prepLeft c i s).ket (braOf c (prepLeft c i s)) j
        rw [show ({ (prepLeft c i s) with left := _ } : Sys T V).right = s.right from prepLeft_envs.2] at hjv
        rw [h.right j hjn hj v hjv]
        refine rightEnv_congr j hjn fun m hm => ?_
        have := prepLeft_other' (c := c) (i := i) (j := m) (s := s) (fun hc => by have := hlr hc; omega)
        exact ⟨this.1.symm, this.2.symm⟩
      · intro j hj
        simp only [prepLeft_envs.1]
        rw [Function.update_of_ne (by omega)]
        exact h.far j hj
      · intro j hj
        simp only [prepLeft_envs.1] at hj ⊢
        by_cases hj1 : j = i + 1
        · subst hj1; simp
        · rw [Function.update_of_ne hj1]
          by_cases hj2 : j + 1 = i + 1
          · rw [show j = i by omega, hprev]; rfl
          · rw [Function.update_of_ne hj2] at hj
            exact h.gapL j hj
      · rw [show ({ (prepLeft c i s) with left := _ } : Sys T V).right = s.right from prepLeft_envs.2]
        exact h.gapR
      · intro j hj
        simp only [prepLeft_envs.1]
        by_cases hj1 : j = i + 1
        · subst hj1; simp
        · rw [Function.update_of_ne hj1]
          exact hp j (by omega)
      · exact sameVal_left (by omega) (fun hc => by have := hlr hc; omega) s
  · refine ⟨s, by simp [Mpe.buildLeft1, hsk], h, ?_, .refl⟩
    intro j hj
    exact gapL_trans h.gapL hj (by rw [hsk]; rfl)

theorem Inv.buildRight1 {c : Cfg T W V} {l r : Nat} (hlr : c.canon = true → l < r) {i : Nat} (hi : r ≤ i) (hin : i ≤ c.n) (hpos : 0 < i)
    {s : Sys T V} (h : Inv c l r s) (hp : ∀ j ≤ c.n, i < j → (s.right j).isSome) :
    ∃ s', buildRight1 c i s = some s' ∧ Inv c l r s' ∧ (∀ j ≤ c.n, i ≤ j → (s'.right j).isSome) ∧ SameVal c l r s s' ∧
      s'.left = s.left := by
  rcases hsi : s.right i with _ | v
  · have hnone : ∀ j ≤ i, s.right j = none := by
      intro j hij
      by_contra hj
      have := gapR_trans h.gapR hij hin (Option.isSome_iff_ne_none.2 hj)
      rw [hsi] at this; simp at this
    by_cases hni : i = c.n
    · subst hni
      refine ⟨{ s with right := Function.update s.right c.n (some c.identR) }, by simp [Mpe.buildRight1, hsi],
        ⟨h.left, ?_, h.far, h.gapL, ?_⟩, ?_, .refl, rfl⟩
      · intro j hjn hj v hjv
        by_cases hj0 : j = c.n
        · subst hj0
          simp at hjv
          rw [← hjv]; exact rightEnv_self.symm
        · simp [hj0, hnone j hjn] at hjv
      · intro j hjn hj
        simp [Nat.ne_of_lt hjn, hnone j (Nat.le_of_lt hjn)] at hj
      · intro j hjn hj
        rw [Nat.le_antisymm hjn hj]; simp
    · have hlt' : i < c.n := Nat.lt_of_le_of_ne hin hni
      obtain ⟨prev, hprev⟩ := Option.isSome_iff_exists.1 (hp (i + 1) (by omega) (by omega))
      have hpe : prev = rightEnv c s.ket (braOf c s) (i + 1) := h.right (i + 1) (by omega) (by omega) prev hprev
      have hlt : ∀ j ≤ c.n, i < j →
          rightEnv c s.ket (braOf c s) j = rightEnv c (prepRight c i s).ket (braOf c (prepRight c i s)) j := by
        intro j hjn hj
        refine rightEnv_congr j hjn fun m hm => ?_
        have := prepRight_other' (c := c) (i := i) (j := m) (s := s) (fun hc => by have := hlr hc; omega)
        exact ⟨this.1.symm, this.2.symm⟩
      refine ⟨_, by simp [Mpe.buildRight1, hsi, hprev, hni]; rfl, ⟨?_, ?_, ?_, ?_, ?_⟩, ?_, ?_, ?_⟩
      · intro j hj v hjv
        show v = leftEnv c (prepRight c i s).ket (braOf c (prepRight c i s)) j
        rw [show ({ (prepRight c i s) with right := _ } : Sys T V).left = s.left from prepRight_envs.1] at hjv
        rw [h.left j hj v hjv]
        refine leftEnv_congr j fun m hm => ?_
        have := prepRight_other' (c := c) (i := i) (j := m) (s := s) (fun hc => by have := hlr hc; omega)
        exact ⟨this.1.symm, this.2.symm⟩
      · intro j hjn hj v hjv
        show v = rightEnv c (prepRight c i s).ket (braOf c (prepRight c i s)) j
        by_cases hj1 : j = i
        · subst hj1
          simp at hjv
          rw [← hjv, rightEnv_step hlt', ← hlt (j + 1) (by omega) (by omega), ← hpe]
        · simp [hj1, prepRight_envs.2] at hjv
          have hji : i < j := by
            by_contra hji
            rw [hnone j (by omega)] at hjv
            exact absurd hjv (by simp)
          rw [← hlt j hjn hji]
          exact h.right j hjn hj v hjv
      · rw [show ({ (prepRight c i s) with right := _ } : Sys T V).left = s.left from prepRight_envs.1]
        exact h.far
      · rw [show ({ (prepRight c i s) with right := _ } : Sys T V).left = s.left from prepRight_envs.1]
        exact h.gapL
      · intro j hjn hj
        simp only [prepRight_envs.2] at hj ⊢
        by_cases hj1 : j + 1 = i
        · rw [hj1]; simp
        · rw [Function.update_of_ne hj1]
          by_cases hj2 : j = i
          · rw [hj2, hprev]; rfl
          · rw [Function.update_of_ne hj2] at hj
            exact h.gapR j hjn hj
      · intro j hjn hj
        simp only [prepRight_envs.2]
        by_cases hj1 : j = i
        · subst hj1; simp
        · rw [Function.update_of_ne hj1]
          exact hp j hjn (by omega)
      · exact sameVal_right hi (by omega) hlt' s
      · exact prepRight_envs.1
  · refine ⟨s, by simp [Mpe.buildRight1, hsi], h, ?_, .refl, rfl⟩
    intro j hjn hj
    exact gapR_trans h.gapR hj hjn (by rw [hsi]; rfl)

theorem Inv.build {c : Cfg T W V} {l r l' r' : Nat} (hlr : c.canon = true → l < r) (hl : l ≤ c.n) (hl' : l' ≤ l) (hr : r ≤ r')
    (hr' : r' ≤ c.n) (hpos : 0 < r') {s : Sys T V} (h : Inv c l r s) :
    ∃ s', buildEnvs c l' r' s = some s' ∧ Inv c l r s' ∧ (s'.left l').isSome ∧ (s'.right r').isSome ∧ SameVal c l r s s' := by
  have hL : ∀ k ≤ l' + 1, ∃ s', (List.range k).foldlM (fun s k => Mpe.buildLeft1 c k s) s = some s' ∧ Inv c l r s' ∧
      (∀ j < k, (s'.left j).isSome) ∧ SameVal c l r s s' := by
    intro k hk
    induction k with
    | zero => exact ⟨s, rfl, h, by simp, .refl⟩
    | succ k ih =>
      obtain ⟨s1, h1, h2, h3, h4⟩ := ih (by omega)
      obtain ⟨s2, g1, g2, g3, g4⟩ := Inv.buildLeft1 hlr hl (by omega) (by omega : k ≤ l) h2 h3
      refine ⟨s2, ?_, g2, fun j hj => g3 j (by omega), h4.trans g4⟩
      rw [List.range_succ, List.foldlM_append, h1]
      simp [g1]
  obtain ⟨s1, h1, h2, h3, h4⟩ := hL (l' + 1) (Nat.le_refl _)
  have hR : ∀ m, m ≤ c.n + 1 - r' → ∃ s', (List.range' (c.n + 1 - m) m).reverse.foldlM (fun s i => Mpe.buildRight1 c i s) s1 = some s' ∧
      Inv c l r s' ∧ (∀ j ≤ c.n, c.n + 1 - m ≤ j → (s'.right j).isSome) ∧ SameVal c l r s s' ∧ s'.left = s1.left := by
    intro m hm
    induction m with
    | zero => exact ⟨s1, rfl, h2, fun j hj hj' => by omega, h4, rfl⟩
    | succ m ih =>
      obtain ⟨t1, k1, k2, k3, k4, k5⟩ := ih (by omega)
      obtain ⟨t2, g1, g2, g3, g4, g5⟩ := Inv.buildRight1 hlr (i := c.n - m) (by omega) (by omega) (by omega) k2
        fun j hj hj' => k3 j hj (by omega)
      refine ⟨t2, ?_, g2, fun j hj hj' => g3 j hj (by omega), k4.trans g4, g5.trans k5⟩
      rw [show c.n + 1 - (m + 1) = c.n - m by omega, List.range'_succ, List.reverse_cons, List.foldlM_append,
        show c.n - m + 1 = c.n + 1 - m by omega, k1]
      simp [g1]
  obtain ⟨t, k1, k2, k3, k4, k5⟩ := hR (c.n + 1 - r') (Nat.le_refl _)
  refine ⟨t, ?_, k2, ?_, k3 r' hr' (by omega), k4⟩
  · rw [buildEnvs, h1, Option.bind_some]
    rw [show c.n + 1 - (c.n + 1 - r') = r' by omega] at k1
    exact k1
  · rw [k5]; exact h3 l' (Nat.lt_succ_self l')

end

/-- What holds between two rounds. -/
structure Good (c : Cfg T W V) (s : Sys T V) : Prop where
  fresh : Fresh c s
  far : ∀ k > c.n, s.left k = none
  gapL : ∀ k, (s.left (k + 1)).isSome → (s.left k).isSome
  gapR : ∀ i < c.n, (s.right i).isSome → (s.right (i + 1)).isSome

theorem Good.inv {c : Cfg T W V} {s : Sys T V} (h : Good c s) {l r : Nat} (hl : l ≤ c.n) : Inv c l r s :=
  ⟨fun k hk => h.fresh.1 k (by omega), fun i hi _ => h.fresh.2 i hi, h.far, h.gapL, h.gapR⟩

theorem good_new (c : Cfg T W V) (ket bra : Nat → T) : Good c (new ket bra) :=
  ⟨⟨fun _ _ _ h => by simp [new] at h, fun _ _ _ h => by simp [new] at h⟩, fun _ _ => rfl, fun _ h => by simp [new] at h,
    fun _ _ h => by simp [new] at h⟩

theorem setRange_other {f : Nat → T} {l r : Nat} {ts : List T} {i : Nat} (h : i < l ∨ r ≤ i) : setRange f l r ts i = f i := by
  rw [setRange, if_neg (by omega)]

theorem embed_other {c : Cfg T W V} {l r : Nat} {kets : List T} {bras : Option (List T)} {s : Sys T V} {i : Nat} (h : i < l ∨ r ≤ i) :
    (embed c l r kets bras s).ket i = s.ket i ∧ braOf c (embed c l r kets bras s) i = braOf c s i := by
  unfold embed braOf
  rcases hs : c.same <;> simp [setRange_other h]

theorem Inv.embed {c : Cfg T W V} {l r : Nat} (hlr : l < r) (hr : r ≤ c.n) {s : Sys T V} (h : Inv c l r s)
    (kets : List T) (bras : Option (List T)) : Good c (embed c l r kets bras s) := by
  have hleft : ∀ k v, k ≤ c.n → (Mpe.embed c l r kets bras s).left k = some v → k ≤ l ∧ s.left k = some v := by
    intro k v hkn hk
    by_cases hkl : l < k ∧ k ≤ c.n + 1
    · rw [show (Mpe.embed c l r kets bras s).left k = if l < k ∧ k ≤ c.n + 1 then none else s.left k from rfl, if_pos hkl] at hk
      exact absurd hk (by simp)
    · rw [show (Mpe.embed c l r kets bras s).left k = if l < k ∧ k ≤ c.n + 1 then none else s.left k from rfl, if_neg hkl] at hk
      exact ⟨by omega, hk⟩
  have hright : ∀ i v, (Mpe.embed c l r kets bras s).right i = some v → r ≤ i ∧ s.right i = some v := by
    intro i v hi
    by_cases hir : i < r
    · rw [show (Mpe.embed c l r kets bras s).right i = if i < r then none else s.right i from rfl, if_pos hir] at hi
      exact absurd hi (by simp)
    · rw [show (Mpe.embed c l r kets bras s).right i = if i < r then none else s.right i from rfl, if_neg hir] at hi
      exact ⟨by omega, hi⟩
  refine ⟨⟨fun k hkn v hk => ?_, fun i hin v hi => ?_⟩, fun k hk => ?_, fun k hk => ?_, fun i hin hi => ?_⟩
  · obtain ⟨h1, h2⟩ := hleft k v hkn hk
    rw [h.left k h1 v h2]
    refine leftEnv_congr k fun m hm => ?_
    have := embed_other (c := c) (kets := kets) (bras := bras) (s := s) (l := l) (r := r) (i := m) (by omega)
    exact ⟨this.1.symm, this.2.symm⟩
  · obtain ⟨h1, h2⟩ := hright i v hi
    rw [h.right i hin h1 v h2]
    refine rightEnv_congr i hin fun m hm => ?_
    have := embed_other (c := c) (kets := kets) (bras := bras) (s := s) (l := l) (r := r) (i := m) (by omega)
    exact ⟨this.1.symm, this.2.symm⟩
  · show (if l < k ∧ k ≤ c.n + 1 then none else s.left k) = none
    rw [h.far k hk, ite_self]
  · have hkn : k + 1 ≤ c.n := by
      by_contra hkn
      rw [show (Mpe.embed c l r kets bras s).left (k + 1) = if l < k + 1 ∧ k + 1 ≤ c.n + 1 then none else s.left (k + 1) from rfl,
        h.far (k + 1) (by omega), ite_self] at hk
      simp at hk
    obtain ⟨v, hv⟩ := Option.isSome_iff_exists.1 hk
    obtain ⟨h1, h2⟩ := hleft (k + 1) v hkn hv
    rw [show (Mpe.embed c l r kets bras s).left k = if l < k ∧ k ≤ c.n + 1 then none else s.left k from rfl, if_neg (by omega)]
    exact h.gapL k (by rw [h2]; rfl)
  · obtain ⟨v, hv⟩ := Option.isSome_iff_exists.1 hi
    obtain ⟨h1, h2⟩ := hright i v hv
    rw [show (Mpe.embed c l r kets bras s).right (i + 1) = if i + 1 < r then none else s.right (i + 1) from rfl, if_neg (by omega)]
    exact h.gapR i hin (by rw [h2]; rfl)

theorem Good.exec {c : Cfg T W V} {s : Sys T V} (h : Good c s) {x : Round T} (hx : x.Valid c) :
    ∃ s', x.exec c s = some s' ∧ Good c s' := by
  have hi : Inv c x.l x.r s := h.inv (Nat.le_of_lt (Nat.lt_of_lt_of_le hx.1 hx.2))
  have hb : ∀ m : Nat, ∀ s : Sys T V, Inv c x.l x.r s →
      ∃ s', (List.replicate m ()).foldlM (fun s _ => buildEnvs c x.l x.r s) s = some s' ∧ Inv c x.l x.r s' := by
    intro m
    induction m with
    | zero => exact fun s hs => ⟨s, rfl, hs⟩
    | succ m ih =>
      intro s hs
      obtain ⟨s1, h1, h2, -⟩ := hs.build (fun _ => hx.1) (Nat.le_of_lt (Nat.lt_of_lt_of_le hx.1 hx.2)) (Nat.le_refl _) (Nat.le_refl _) hx.2
        (Nat.lt_of_le_of_lt (Nat.zero_le _) hx.1)
      obtain ⟨s2, h3, h4⟩ := ih s1 h2
      refine ⟨s2, ?_, h4⟩
      rw [List.replicate_succ, List.foldlM_cons, h1]
      exact h3
  obtain ⟨s1, h1, h2⟩ := hb x.builds s hi
  obtain ⟨s2, h3, h4, -⟩ := h2.build (fun _ => hx.1) (Nat.le_of_lt (Nat.lt_of_lt_of_le hx.1 hx.2)) (Nat.le_refl _) (Nat.le_refl _) hx.2
    (Nat.lt_of_le_of_lt (Nat.zero_le _) hx.1)
  refine ⟨Mpe.embed c x.l x.r x.kets x.bras s2, ?_, h4.embed hx.1 hx.2 _ _⟩
  rw [Round.exec, h1, Option.bind_some, setWindow, h3]
  rfl

theorem Good.rounds {c : Cfg T W V} (xs : List (Round T)) (hxs : ∀ x ∈ xs, x.Valid c) {s : Sys T V} (h : Good c s) :
    ∃ s', xs.foldlM (fun s x => x.exec c s) s = some s' ∧ Good c s' := by
  induction xs generalizing s with
  | nil => exact ⟨s, rfl, h⟩
  | cons x xs ih =>
    obtain ⟨s1, h1, h2⟩ := h.exec (hxs x (List.mem_cons_self ..))
    obtain ⟨s2, h3, h4⟩ := ih (fun y hy => hxs y (List.mem_cons_of_mem _ hy)) h2
    refine ⟨s2, ?_, h4⟩
    rw [List.foldlM_cons, h1]
    exact h3

theorem leftEnv_same {c : Cfg T W V} {b : Bool} {f g : Nat → T} (k : Nat) :
    leftEnv { c with same := b } f g k = leftEnv c f g k := by
  induction k with
  | zero => rfl
  | succ k ih => rw [leftEnv, leftEnv, ih]

theorem rightEnv_same {c : Cfg T W V} {b : Bool} {f g : Nat → T} (i : Nat) :
    rightEnv { c with same := b } f g i = rightEnv c f g i := by
  have : ∀ m, rightLast { c with same := b } f g m = rightLast c f g m := by
    intro m
    induction m with
    | zero => rfl
    | succ m ih => rw [rightLast, rightLast, ih]
  exact this _

/-! ### C33 -/

/-- A new object treated window after window (any windows, in any order, any replacements, any number of builds per window): no step fails,
and afterwards every environment that is kept is the one computed from the present tensors. -/
theorem C33_fresh (c : Cfg T W V) (ket bra : Nat → T) (rounds : List (Round T)) (h : ∀ x ∈ rounds, x.Valid c) :
    ∃ s, rounds.foldlM (fun s x => x.exec c s) (new ket bra) = some s ∧ Fresh c s := by
  obtain ⟨s, h1, h2⟩ := (good_new c ket bra).rounds rounds h
  exact ⟨s, h1, h2.fresh⟩

theorem Regauged.same {c : Cfg T W V} {b : Bool} {l r : Nat} {f g : Nat → T} (h : Regauged { c with same := b } l r f g) : Regauged c l r f g := by
  induction h with
  | refl => exact .refl
  | left i _ hc hi hn ih => exact ih.left i hc hi hn
  | right i _ hc hi h1 hn ih => exact ih.right i hc hi h1 hn

/-- **C33**: what `mpe[l:r]` hands out after any rounds and any number of builds for the window: the tensors of some `f` (ket) and `g` (bra) with the
environments computed from the same `f` and `g`, and these come from the present ket and bra by canonicalisation at sites outside the window;
without canonicalisation they are the present ket and bra. -/
theorem C33_used (c : Cfg T W V) (ket bra : Nat → T) (rounds : List (Round T)) (h : ∀ x ∈ rounds, x.Valid c) (l r builds : Nat)
    (hlr : l < r) (hr : r ≤ c.n) (s s' : Sys T V)
    (hs : rounds.foldlM (fun s x => x.exec c s) (new ket bra) = some s)
    (hs' : (List.replicate builds ()).foldlM (fun s _ => buildEnvs c l r s) s = some s') :
    ∃ f g : Nat → T, getWindow c l r s' =
        some (leftEnv c f g l, rightEnv c f g r, (List.range' l (r - l)).map f, (List.range' l (r - l)).map g) ∧
      Regauged c l r s.ket f ∧ Regauged c l r (braOf c s) g := by
  obtain ⟨s1, h1, h2⟩ := (good_new c ket bra).rounds rounds h
  rw [hs] at h1
  obtain rfl := Option.some.inj h1
  have hln : l ≤ c.n := by omega
  have hb : ∀ m : Nat, ∀ t t' : Sys T V, Inv c l r t → (List.replicate m ()).foldlM (fun s _ => buildEnvs c l r s) t = some t' →
      Inv c l r t' ∧ SameVal c l r t t' := by
    intro m
    induction m with
    | zero =>
      intro t t' ht h
      obtain rfl := Option.some.inj h
      exact ⟨ht, .refl⟩
    | succ m ih =>
      intro t t' ht h
      obtain ⟨t1, k1, k2, -, -, k3⟩ := ht.build (fun _ => hlr) hln (Nat.le_refl _) (Nat.le_refl _) hr (by omega)
      rw [List.replicate_succ, List.foldlM_cons, k1] at h
      obtain ⟨k4, k5⟩ := ih t1 t' k2 h
      exact ⟨k4, k3.trans k5⟩
  obtain ⟨hi, hsv⟩ := hb builds s s' (h2.inv hln) hs'
  have hi' : Inv { c with same := false } l r { s' with bra := braOf c s' } :=
    ⟨fun k hk v hv => (hi.left k hk v hv).trans (leftEnv_same k).symm,
      fun i hin hir v hv => (hi.right i hin hir v hv).trans (rightEnv_same i).symm, hi.far, hi.gapL, hi.gapR⟩
  obtain ⟨t, k1, k2, k3, k4, k5⟩ := Inv.build (c := { c with same := false }) (fun _ => hlr) hln (Nat.le_refl _) (Nat.le_refl _)
    hr (by omega) hi'
  obtain ⟨a, ha⟩ := Option.isSome_iff_exists.1 k3
  obtain ⟨b, hb'⟩ := Option.isSome_iff_exists.1 k4
  refine ⟨t.ket, t.bra, ?_, hsv.1.trans k5.1.same, hsv.2.trans k5.2.same⟩
  rw [getWindow, k1]
  simp only [Option.bind_some, ha, hb', Option.map_some]
  rw [k2.left l (Nat.le_refl _) a ha, k2.right r hr (Nat.le_refl _) b hb', leftEnv_same, rightEnv_same]
  rfl

/-- Without canonicalisation nothing changes. -/
theorem Regauged.eq_of_no_canon {c : Cfg T W V} (hc : c.canon = false) {l r : Nat} {f g : Nat → T} (h : Regauged c l r f g) : g = f := by
  induction h with
  | refl => rfl
  | left i _ hc' => rw [hc] at hc'; exact absurd hc' (by simp)
  | right i _ hc' => rw [hc] at hc'; exact absurd hc' (by simp)

/-- The canonicalisation of neighbouring sites does not change `val`. -/
def Gauge {X : Type} (c : Cfg T W V) (val : (Nat → T) → X) : Prop :=
  ∀ (i : Nat) (f : Nat → T), (i + 1 < c.n → val (canonLeftAt c i f) = val f) ∧ (1 ≤ i → i < c.n → val (canonRightAt c i f) = val f)

/-- **C33**: every quantity that canonicalisation preserves (the represented state, say) is the same for what `mpe[l:r]` hands out as for the present
tensors. -/
theorem C33_state (c : Cfg T W V) (ket bra : Nat → T) (rounds : List (Round T)) (h : ∀ x ∈ rounds, x.Valid c) (l r builds : Nat)
    (hlr : l < r) (hr : r ≤ c.n) (s s' : Sys T V)
    (hs : rounds.foldlM (fun s x => x.exec c s) (new ket bra) = some s)
    (hs' : (List.replicate builds ()).foldlM (fun s _ => buildEnvs c l r s) s = some s') {X : Type} (val : (Nat → T) → X)
    (hval : Gauge c val) :
    ∃ f g : Nat → T, getWindow c l r s' =
        some (leftEnv c f g l, rightEnv c f g r, (List.range' l (r - l)).map f, (List.range' l (r - l)).map g) ∧
      val f = val s.ket ∧ val g = val (braOf c s) := by
  obtain ⟨f, g, h1, h2, h3⟩ := C33_used c ket bra rounds h l r builds hlr hr s s' hs hs'
  have : ∀ f g, Regauged c l r f g → val g = val f := by
    intro f g h
    induction h with
    | refl => rfl
    | left i _ _ _ hn ih => rw [(hval i _).1 hn, ih]
    | right i _ _ _ h1 hn ih => rw [(hval i _).2 h1 hn, ih]
  exact ⟨f, g, h1, this _ _ h2, this _ _ h3⟩

/-- A step of a history without canonicalisation: build for any window, or replace any window. -/
inductive Act (T : Type) where
  | build (l r : Nat)
  | set (l r : Nat) (kets : List T) (bras : Option (List T))

def Act.Valid (c : Cfg T W V) : Act T → Prop
  | .build l r => l < r ∧ r ≤ c.n
  | .set l r _ _ => l < r ∧ r ≤ c.n

def Act.exec (c : Cfg T W V) : Act T → Sys T V → Option (Sys T V)
  | .build l r, s => buildEnvs c l r s
  | .set l r kets bras, s => setWindow c l r kets bras s

theorem Good.act {c : Cfg T W V} (hc : c.canon = false) {s : Sys T V} (h : Good c s) {x : Act T} (hx : x.Valid c) :
    ∃ s', x.exec c s = some s' ∧ Good c s' := by
  have hb : ∀ l r, l < r → r ≤ c.n → ∃ s', buildEnvs c l r s = some s' ∧ Good c s' := by
    intro l r hl hr
    obtain ⟨s1, h1, h2, -⟩ := (h.inv (l := c.n) (r := 0) (Nat.le_refl _)).build (l' := l) (r' := r) (fun h => by rw [hc] at h; simp at h)
      (Nat.le_refl _) (by omega) (Nat.zero_le _) hr (by omega)
    exact ⟨s1, h1, ⟨fun k hk v hv => h2.left k hk v hv, fun i hi v hv => h2.right i hi (Nat.zero_le _) v hv⟩, h2.far, h2.gapL, h2.gapR⟩
  rcases x with ⟨l, r⟩ | ⟨l, r, kets, bras⟩
  · exact hb l r hx.1 hx.2
  · obtain ⟨s1, h1, h2⟩ := hb l r hx.1 hx.2
    refine ⟨Mpe.embed c l r kets bras s1, ?_, (h2.inv (by have := hx.1; have := hx.2; omega)).embed hx.1 hx.2 _ _⟩
    rw [Act.exec, setWindow, h1]; rfl

/-- Without canonicalisation (`do_canon=False`): after every sequence of builds and replacements, for any windows in any order, every
environment that is kept is the one computed from the present tensors. -/
theorem C33_no_canon (c : Cfg T W V) (hc : c.canon = false) (ket bra : Nat → T) (acts : List (Act T)) (h : ∀ x ∈ acts, x.Valid c) :
    ∃ s, acts.foldlM (fun s x => x.exec c s) (new ket bra) = some s ∧ Fresh c s := by
  have : ∀ (acts : List (Act T)), (∀ x ∈ acts, x.Valid c) → ∀ s : Sys T V, Good c s →
      ∃ s', acts.foldlM (fun s x => x.exec c s) s = some s' ∧ Good c s' := by
    intro acts
    induction acts with
    | nil => exact fun _ s hs => ⟨s, rfl, hs⟩
    | cons x xs ih =>
      intro hv s hs
      obtain ⟨s1, h1, h2⟩ := hs.act hc (hv x (List.mem_cons_self ..))
      obtain ⟨s2, h3, h4⟩ := ih (fun y hy => hv y (List.mem_cons_of_mem _ hy)) s1 h2
      refine ⟨s2, ?_, h4⟩
      rw [List.foldlM_cons, h1]
      exact h3
  obtain ⟨s, h1, h2⟩ := this acts h _ (good_new c ket bra)
  exact ⟨s, h1, h2.fresh⟩

/-- **C33**, what an assignment to a window stores: the given tensors for the ket, and the given tensors for the bra, or those of the ket when the part that is
assigned has one state as bra and ket. -/
theorem C33_assign (c : Cfg T W V) {l r : Nat} {kets : List T} {bras : Option (List T)} {s s' : Sys T V} (h : setWindow c l r kets bras s = some s')
    (hk : kets.length = r - l) (hb : ∀ b ∈ bras, b.length = r - l) {i : Nat} (hi : l ≤ i ∧ i < r) :
    ((c.same = true → bras = none) → kets[i - l]? = some (s'.ket i)) ∧ (bras.getD kets)[i - l]? = some (braOf c s' i) := by
  obtain ⟨s1, -, rfl⟩ := Option.map_eq_some_iff.1 h
  have hset : ∀ (f : Nat → T) (ts : List T), ts.length = r - l → ts[i - l]? = some (setRange f l r ts i) := by
    intro f ts ht
    rw [setRange, if_pos hi, List.getD_eq_getElem?_getD, List.getElem?_eq_getElem (by omega)]
    rfl
  have hnew : (bras.getD ((List.range' l (r - l)).map (setRange s1.ket l r kets))).length = r - l := by
    cases bras with
    | none => simp
    | some b => exact hb b rfl
  have hnew2 : (bras.getD ((List.range' l (r - l)).map (setRange s1.ket l r kets)))[i - l]? = (bras.getD kets)[i - l]? := by
    cases bras with
    | none =>
      simp only [Option.getD_none]
      rw [hset s1.ket kets hk, List.getElem?_map, List.getElem?_range' (by omega)]
      simp only [Option.map_some, Nat.one_mul]
      rw [Nat.add_sub_cancel' hi.1]
    | some b => rfl
  unfold embed braOf
  rcases hs : c.same
  · simp only [Bool.false_eq_true, if_false]
    exact ⟨fun _ => hset _ _ hk, by rw [← hnew2]; exact hset _ _ hnew⟩
  · simp only [if_true]
    have := hset (setRange s1.ket l r kets) _ hnew
    refine ⟨fun hb => ?_, by rw [← hnew2]; exact this⟩
    rw [← this, hnew2, hb trivial]
    rfl

/-- A chain of numbers: the canonical form of a pair has `1` at one place, an environment is the product of what it covers. -/
def numbers (canon : Bool) : Cfg Int Int Int where
  n := 3
  canon := canon
  same := true
  mpo := fun _ => 1
  identL := 1
  identR := 1
  rotL := fun v w b k => v * w * b * k
  rotR := fun v w b k => v * w * b * k
  canonL := fun a b => (1, a * b)
  canonR := fun a b => (a * b, 1)

/-- With canonicalisation the full statement fails: two builds for different windows without a replacement between them leave an environment
that does not belong to the present tensors, and the next `mpe[1:2]` uses it. -/
theorem C33_stale : ∃ s : Sys Int Int,
    ((buildEnvs (numbers true) 2 3 (new (fun i => [2, 3, 5].getD i 0) fun _ => 0)).bind (buildEnvs (numbers true) 0 1) = some s) ∧
      s.left 1 = some 1 ∧ leftEnv (numbers true) s.ket (braOf (numbers true) s) 1 = 900 ∧
      (getWindow (numbers true) 1 2 s).map Prod.fst = some 1 := by
  refine ⟨_, rfl, ?_⟩
  decide +kernel

/-- Concrete case of `C33_fresh` and `C33_used`: two windows out of order. -/
example : ∃ s, [(⟨1, 3, 1, [7, 11], none⟩ : Round Int), ⟨0, 2, 2, [2, 9], none⟩].foldlM (fun s x => x.exec (numbers true) s)
      (new (fun i => [2, 3, 5].getD i 0) fun _ => 0) = some s ∧
    s.left 0 = some 1 ∧ s.right 2 = some 1 ∧ (List.range 3).map s.ket = [2, 9, 1] ∧
      getWindow (numbers true) 1 2 s = some (1, 1, [18], [18]) := by
  refine ⟨_, rfl, ?_⟩
  decide +kernel

/-- Concrete case of `C33_assign`. -/
example : ∃ s, setWindow { numbers false with same := false } 1 3 [7, 11] (some [8, 12]) (new (fun i => (i : Int)) fun i => (10 * i : Int)) = some s ∧
    (List.range 4).map s.ket = [0, 7, 11, 3] ∧ (List.range 4).map s.bra = [0, 8, 12, 30] := ⟨_, rfl, by decide, by decide⟩

/-- The product of the three numbers is preserved by canonicalisation. -/
example : Gauge (numbers true) fun f => f 0 * f 1 * f 2 := by
  intro i f
  constructor
  · intro h
    have h' : i + 1 < 3 := h
    rcases i with _ | _ | i
    · simp [canonLeftAt, numbers, Function.update]
    · simp [canonLeftAt, numbers, Function.update, mul_assoc]
    · omega
  · intro h1 h
    have h' : i < 3 := h
    rcases i with _ | _ | _ | i
    · omega
    · simp [canonRightAt, numbers, Function.update]
    · simp [canonRightAt, numbers, Function.update, mul_assoc]
    · omega

end

/-! ### C34 -/

section
variable {F X : Type} [DecidableEq F]

/-- Plain storage: a load returns what was saved last under the name. -/
def plain : List (Op F X) → (F → Option X) → Option (List X)
  | [], _ => some []
  | .save fn x :: ops, m => plain ops (Function.update m fn (some x))
  | .load fn :: ops, m => (m fn).bind fun x => (plain ops m).map fun xs => x :: xs

/-- The names saved by a history. -/
def savedNames : List (Op F X) → List F
  | [] => []
  | .save fn _ :: ops => fn :: savedNames ops
  | .load _ :: ops => savedNames ops

/-- No save of the history meets a name that is held in memory at that moment. -/
def NoOverwrite (maxsize : Nat) : List (Op F X) → Store F X → Prop
  | [], _ => True
  | .save fn x :: ops, s => fn ∉ s.cached.map (·.1) ∧ NoOverwrite maxsize ops (s.save maxsize fn x)
  | .load fn :: ops, s => ∀ r, s.load maxsize fn = some r → NoOverwrite maxsize ops r.2

/-- Memory and disk together hold the contents `m`. -/
structure Holds (s : Store F X) (m : F → Option X) : Prop where
  nodup : (s.cached.map (·.1)).Nodup
  mem : ∀ c ∈ s.cached, m c.1 = some c.2.1
  clean : ∀ c ∈ s.cached, c.2.2 = true → Dict.get? s.disk c.1 = some c.2.1
  disk : ∀ fn, fn ∉ s.cached.map (·.1) → Dict.get? s.disk fn = m fn

theorem Holds.push {s : Store F X} {m : F → Option X} (h : Holds s m) {maxsize : Nat} {fn : F} {x : X} {b : Bool}
    (hfn : fn ∉ s.cached.map (·.1)) (hb : b = true → Dict.get? s.disk fn = some x) :
    Holds (s.push maxsize (fn, x, b)) (Function.update m fn (some x)) := by
  have h0 : Holds ⟨s.cached ++ [(fn, x, b)], s.disk⟩ (Function.update m fn (some x)) := by
    refine ⟨?_, ?_, ?_, ?_⟩
    · rw [List.map_append, List.nodup_append]
      refine ⟨h.nodup, by simp, ?_⟩
      intro a ha b hb hab
      simp at hb
      subst hb; subst hab
      exact hfn ha
    · intro c hc
      rcases List.mem_append.1 hc with h1 | h1
      · have : c.1 ≠ fn := fun he => hfn (he ▸ List.mem_map_of_mem h1)
        rw [Function.update_of_ne this]
        exact h.mem c h1
      · rw [List.mem_singleton.1 h1]; simp
    · intro c hc hc2
      rcases List.mem_append.1 hc with h1 | h1
      · exact h.clean c h1 hc2
      · rw [List.mem_singleton.1 h1] at hc2 ⊢
        exact hb hc2
    · intro fn' hfn'
      rw [List.map_append, List.mem_append, not_or] at hfn'
      have : fn' ≠ fn := fun he => hfn'.2 (by simp [he])
      rw [Function.update_of_ne this]
      exact h.disk fn' hfn'.1
  rw [Store.push]
  split
  · rename_i hlen
    generalize s.cached ++ [(fn, x, b)] = l at h0 hlen
    match l, h0 with
    | [], _ => simp at hlen
    | c :: rest, h0 =>
      have hnd := h0.nodup
      rw [List.map_cons, List.nodup_cons] at hnd
      refine ⟨hnd.2, fun d hd => h0.mem d (List.mem_cons_of_mem _ hd), ?_, ?_⟩
      · intro d hd hd2
        have hne : d.1 ≠ c.1 := fun he => hnd.1 (he ▸ List.mem_map_of_mem hd)
        have := h0.clean d (List.mem_cons_of_mem _ hd) hd2
        show Dict.get? (if c.2.2 then s.disk else Dict.set s.disk c.1 c.2.1) d.1 = _
        split
        · exact this
        · rw [Dict.get?_set, if_neg (Ne.symm hne)]; exact this
      · intro fn' hfn'
        show Dict.get? (if c.2.2 then s.disk else Dict.set s.disk c.1 c.2.1) fn' = _
        by_cases he : fn' = c.1
        · subst he
          rw [h0.mem c (List.mem_cons_self ..)]
          split
          · rename_i hc2; exact h0.clean c (List.mem_cons_self ..) hc2
          · rw [Dict.get?_set, if_pos rfl]
        · have := h0.disk fn' (by
            rw [List.map_cons, List.mem_cons, not_or]; exact ⟨he, hfn'⟩)
          split
          · exact this
          · rw [Dict.get?_set, if_neg (Ne.symm he)]; exact this
  · exact h0

theorem find_none {s : Store F X} {fn : F} (h : fn ∉ s.cached.map (·.1)) :
    (s.cached.find? fun c => c.1 = fn) = none := by
  rw [List.find?_eq_none]
  intro c hc hcf
  exact h ((of_decide_eq_true hcf) ▸ List.mem_map_of_mem hc)

theorem find_some {s : Store F X} {fn : F} {c : F × X × Bool} (h : (s.cached.find? fun c => c.1 = fn) = some c) :
    c ∈ s.cached ∧ c.1 = fn :=
  ⟨List.mem_of_find?_eq_some h, of_decide_eq_true (List.find?_some (p := fun c : F × X × Bool => decide (c.1 = fn)) h)⟩

theorem Holds.save {s : Store F X} {m : F → Option X} (h : Holds s m) {maxsize : Nat} {fn : F} {x : X}
    (hfn : fn ∉ s.cached.map (·.1)) : Holds (s.save maxsize fn x) (Function.update m fn (some x)) := by
  rw [Store.save, find_none hfn]
  exact h.push hfn (by simp)

theorem Holds.load {s : Store F X} {m : F → Option X} (h : Holds s m) (maxsize : Nat) (fn : F) :
    (s.load maxsize fn).map Prod.fst = m fn ∧ ∀ r, s.load maxsize fn = some r → Holds r.2 m := by
  rcases hf : (s.cached.find? fun c => c.1 = fn) with _ | c
  · have hfn : fn ∉ s.cached.map (·.1) := by
      intro hmem
      obtain ⟨c, hc, rfl⟩ := List.mem_map.1 hmem
      exact (List.find?_eq_none.1 hf c hc) (by simp)
    have hd := h.disk fn hfn
    have hload : s.load maxsize fn = (Dict.get? s.disk fn).map fun x => (x, s.push maxsize (fn, x, true)) := by
      rw [Store.load, hf]
    rw [hload]
    constructor
    · show ((Dict.get? s.disk fn).map _).map _ = _
      rw [Option.map_map, hd]
      exact Option.map_id'
    · intro r hr
      obtain ⟨x, hx, rfl⟩ := Option.map_eq_some_iff.1 hr
      have := h.push (maxsize := maxsize) hfn (b := true) (x := x) fun _ => hx
      rwa [Function.update_eq_self_iff.2 (by rw [← hd, hx])] at this
  · obtain ⟨h1, h2⟩ := find_some hf
    have hload : s.load maxsize fn = some (c.2.1, s) := by rw [Store.load, hf]
    rw [hload]
    constructor
    · show some c.2.1 = _
      rw [← h2, h.mem c h1]
    · intro r hr
      obtain rfl := Option.some.inj hr
      exact h

theorem Holds.run {maxsize : Nat} (ops : List (Op F X)) {s : Store F X} {m : F → Option X} (h : Holds s m)
    (hc : NoOverwrite maxsize ops s) : (Store.run maxsize ops s).map Prod.fst = plain ops m := by
  induction ops generalizing s m with
  | nil => rfl
  | cons op ops ih =>
    rcases op with ⟨fn, x⟩ | fn
    · exact ih (h.save hc.1) hc.2
    · obtain ⟨h1, h2⟩ := h.load maxsize fn
      rw [Store.run, plain, ← h1]
      rcases hl : s.load maxsize fn with _ | r
      · rfl
      · have := ih (h2 r hl) (hc r hl)
        simp only [Option.bind_some, Option.map_some]
        rw [← this, Option.map_map, Option.map_map]
        rfl

theorem holds_empty : Holds (Store.empty : Store F X) fun _ => none :=
  ⟨List.nodup_nil, fun _ h => by simp [Store.empty] at h, fun _ h => by simp [Store.empty] at h, fun _ _ => rfl⟩

/-- For every history in which no save meets a name that is in memory at that moment: every load returns what was saved last under the name
(and a load of a name never saved fails), whatever the size of the memory. -/
theorem C34_holds (maxsize : Nat) (ops : List (Op F X)) (h : NoOverwrite maxsize ops Store.empty) :
    (Store.run maxsize ops Store.empty).map Prod.fst = plain ops fun _ => none :=
  holds_empty.run ops h

theorem mem_push {s : Store F X} {maxsize : Nat} {e : F × X × Bool} {fn : F}
    (h : fn ∈ (s.push maxsize e).cached.map (·.1)) : fn ∈ s.cached.map (·.1) ∨ fn = e.1 := by
  have h0 : ∀ l : List (F × X × Bool), s.cached ++ [e] = l → fn ∈ l.map (·.1) → fn ∈ s.cached.map (·.1) ∨ fn = e.1 := by
    rintro l rfl hl
    simpa using hl
  rw [Store.push] at h
  generalize hl : s.cached ++ [e] = l at h
  split at h
  · match l, hl, h with
    | [], _, h => simp at h
    | c :: rest, hl, h => exact h0 _ hl (List.mem_cons_of_mem _ h)
  · exact h0 l hl h

theorem known_push {s : Store F X} {maxsize : Nat} {e : F × X × Bool} {seen : List F} (he : e.1 ∈ seen)
    (h : ∀ fn, fn ∈ s.cached.map (·.1) ∨ fn ∈ s.disk.map (·.1) → fn ∈ seen) :
    ∀ fn, fn ∈ (s.push maxsize e).cached.map (·.1) ∨ fn ∈ (s.push maxsize e).disk.map (·.1) → fn ∈ seen := by
  intro fn hfn
  rcases hfn with hfn | hfn
  · rcases mem_push hfn with h1 | h1
    · exact h fn (Or.inl h1)
    · exact h1 ▸ he
  · have h0 : ∀ l : List (F × X × Bool), s.cached ++ [e] = l → ∀ fn, fn ∈ l.map (·.1) → fn ∈ seen := by
      rintro l rfl fn hl
      rcases (by simpa using hl : (∃ b x, (fn, b, x) ∈ s.cached) ∨ fn = e.1) with ⟨b, x, h1⟩ | h1
      · exact h fn (Or.inl (List.mem_map.2 ⟨_, h1, rfl⟩))
      · exact h1 ▸ he
    rw [Store.push] at hfn
    generalize hl : s.cached ++ [e] = l at hfn
    split at hfn
    · match l, hl, hfn with
      | [], _, hfn => exact h fn (Or.inr hfn)
      | c :: rest, hl, hfn =>
        have hfn' : fn ∈ (if c.2.2 then s.disk else Dict.set s.disk c.1 c.2.1).map (·.1) := hfn
        split at hfn'
        · exact h fn (Or.inr hfn')
        · rcases Dict.mem_map_fst_set.1 hfn' with h1 | h1
          · exact h1 ▸ h0 _ hl c.1 (by simp)
          · exact h fn (Or.inr h1)
    · exact h fn (Or.inr hfn)

theorem noOverwrite_of_nodup (maxsize : Nat) (ops : List (Op F X)) (seen : List F) (s : Store F X)
    (hs : ∀ fn, fn ∈ s.cached.map (·.1) ∨ fn ∈ s.disk.map (·.1) → fn ∈ seen) (hn : (savedNames ops).Nodup)
    (hd : ∀ fn ∈ savedNames ops, fn ∉ seen) : NoOverwrite maxsize ops s := by
  induction ops generalizing s seen with
  | nil => trivial
  | cons op ops ih =>
    rcases op with ⟨fn, x⟩ | fn
    · rw [savedNames, List.nodup_cons] at hn
      have hnot : fn ∉ s.cached.map (·.1) := fun hm => hd fn (by simp [savedNames]) (hs fn (Or.inl hm))
      refine ⟨hnot, ih (fn :: seen) _ ?_ hn.2 ?_⟩
      · rw [Store.save, find_none hnot]
        exact known_push (List.mem_cons_self ..) fun fn' h => List.mem_cons_of_mem _ (hs fn' h)
      · intro fn' hfn' hmem
        rcases List.mem_cons.1 hmem with h1 | h1
        · exact hn.1 (h1 ▸ hfn')
        · exact hd fn' (by simp [savedNames, hfn']) h1
    · intro r hr
      refine ih seen _ ?_ hn hd
      rw [Store.load] at hr
      rcases hf : (s.cached.find? fun c => c.1 = fn) with _ | c
      · rw [hf] at hr
        obtain ⟨x, hx, rfl⟩ := Option.map_eq_some_iff.1 hr
        exact known_push (hs fn (Or.inr (List.mem_map.2 ⟨_, Dict.mem_of_get? hx, rfl⟩))) hs
      · rw [hf] at hr
        obtain rfl := Option.some.inj hr
        exact hs

/-- In particular for every history that saves no name twice. -/
theorem C34_names_once (maxsize : Nat) (ops : List (Op F X)) (h : (savedNames ops).Nodup) :
    (Store.run maxsize ops Store.empty).map Prod.fst = plain ops fun _ => none :=
  C34_holds maxsize ops (noOverwrite_of_nodup maxsize ops [] _ (fun fn h => by simp [Store.empty] at h) h fun _ _ => by simp)

theorem noOverwrite_zero (ops : List (Op F X)) (s : Store F X) (hs : s.cached = []) : NoOverwrite 0 ops s := by
  have hp : ∀ e : F × X × Bool, (s.push 0 e).cached = [] := by
    intro e
    rw [Store.push, hs]; rfl
  induction ops generalizing s with
  | nil => trivial
  | cons op ops ih =>
    rcases op with ⟨fn, x⟩ | fn
    · have hnot : fn ∉ s.cached.map (·.1) := by rw [hs]; simp
      refine ⟨hnot, ?_⟩
      have h1 : (s.save 0 fn x).cached = [] := by rw [Store.save, find_none hnot]; exact hp _
      exact ih _ h1 fun e => by rw [Store.push, h1]; rfl
    · intro r hr
      have h1 : r.2.cached = [] := by
        rw [Store.load, find_none (by rw [hs]; simp)] at hr
        obtain ⟨x, -, rfl⟩ := Option.map_eq_some_iff.1 hr
        exact hp _
      exact ih _ h1 fun e => by rw [Store.push, h1]; rfl

/-- And for all histories if nothing is kept in memory (`maxsize=0`). -/
theorem C34_no_memory (ops : List (Op F X)) :
    (Store.run 0 ops Store.empty).map Prod.fst = plain ops fun _ => none :=
  C34_holds 0 ops (noOverwrite_zero ops _ rfl)

/-- The full statement fails for every other size of the memory: a second save under the same name is lost. -/
theorem C34_lost (maxsize : Nat) (h : 1 ≤ maxsize) (fn : F) (x y : X) :
    (Store.run maxsize [.save fn x, .save fn y, .load fn] Store.empty).map Prod.fst = some [x] ∧
      plain [.save fn x, .save fn y, .load fn] (fun _ => none) = some [y] := by
  constructor
  · have h1 : (Store.empty : Store F X).save maxsize fn x = ⟨[(fn, x, false)], []⟩ := by
      show (if maxsize < 1 then _ else _) = _
      exact if_neg (by omega)
    have h2 : (⟨[(fn, x, false)], []⟩ : Store F X).save maxsize fn y = ⟨[(fn, x, false)], []⟩ := by
      simp [Store.save]
    have h3 : (⟨[(fn, x, false)], []⟩ : Store F X).load maxsize fn = some (x, ⟨[(fn, x, false)], []⟩) := by
      simp [Store.load]
    rw [Store.run, h1, Store.run, h2, Store.run, h3]
    rfl
  · simp [plain]

end

/-- The loss happens in an ordinary use of the library: three sites, `maxsize=3` (the default), a forward and a backward sweep over two-site
windows.  At the last window the object hands out the right environment 25, which belongs to the tensor 5 at the start; the tensor is 7 by
then and the environment computed from the present tensors, used by an object without storage, is 49. -/
theorem C34_stale_sweep : ∃ (s : CSys Int Int) (s' : Sys Int Int),
    [(0, 2, [2, 3]), (1, 3, [3, 7]), (1, 3, [3, 7])].foldlM
        (fun s (w : Nat × Nat × List Int) => (cbuildEnvs (numbers false) 3 w.1 w.2.1 s).bind fun s =>
          (cread (numbers false) 3 w.1 w.2.1 s).bind fun r => csetWindow (numbers false) 3 w.1 w.2.1 w.2.2 none r.2)
        (⟨fun i => [2, 3, 5].getD i 0, fun _ => 0, fun _ => none, fun _ => none, Store.empty⟩ : CSys Int Int) = some s ∧
      [(0, 2, [2, 3]), (1, 3, [3, 7]), (1, 3, [3, 7])].foldlM
        (fun s (w : Nat × Nat × List Int) => setWindow (numbers false) w.1 w.2.1 w.2.2 none s)
        (new (fun i => [2, 3, 5].getD i 0) fun _ => 0) = some s' ∧
      (List.range 3).map s.ket = [2, 3, 7] ∧ (List.range 3).map s'.ket = [2, 3, 7] ∧
      ((cbuildEnvs (numbers false) 3 0 2 s).bind (cread (numbers false) 3 0 2)).map (·.1) = some (1, 25) ∧
      (getWindow (numbers false) 0 2 s').map (fun r => (r.1, r.2.1)) = some (1, 49) ∧
      rightEnv (numbers false) s.ket (braOf (numbers false) s') 2 = 49 := by
  refine ⟨_, _, rfl, rfl, ?_⟩
  decide +kernel

/-- Concrete case of `C34_holds` that is not covered by `C34_names_once`: a name saved again after it left the memory. -/
example : NoOverwrite 1 [.save 1 10, .save 2 20, .save 1 11, .load 2, .load 1] (Store.empty : Store Nat Nat) ∧
    (Store.run 1 [.save 1 10, .save 2 20, .save 1 11, .load 2, .load 1] (Store.empty : Store Nat Nat)).map Prod.fst = some [20, 11] := by
  refine ⟨⟨by decide, by decide, by decide, ?_⟩, by decide⟩
  intro r _ r' _
  trivial

end Mpe
end Verif
