import Verif.Model.Linalg
import Mathlib.Tactic.Module
import Mathlib.Tactic.NormNum
import Mathlib.Tactic.Abel
import Mathlib.Tactic.FieldSimp
import Mathlib.Tactic.Ring
import Mathlib.Data.List.Basic
import Mathlib.Algebra.Field.Rat
import Mathlib.Algebra.Module.LinearMap.Basic
import Mathlib.Algebra.BigOperators.Group.List.Basic

/-!
Properties C35-C37: iterative solvers.
-/

set_option linter.unusedSectionVars false

namespace Verif
variable {K V : Type} [Field K] [AddCommGroup V] [Module K V]

/-! ### C37 -/

/-- C37: for a linear operator the Runge-Kutta step is the Taylor polynomial of degree four of `exp(a) b`. -/
theorem C37_rk4 [CharZero K] (a : V →ₗ[K] V) (b : V) :
    rk4Apply a b = b + a b + (1 / 2 : K) • a (a b) + (1 / 6 : K) • a (a (a b)) + (1 / 24 : K) • a (a (a (a b))) := by
  unfold rk4Apply
  simp only [map_add, map_smul]
  match_scalars <;> field_simp <;> norm_num

/-- Non-trivial case: multiplication by 2 on the rationals; 1 + 2 + 2 + 4/3 + 2/3. -/
example : rk4Apply ((2 : ℚ) • (LinearMap.id : ℚ →ₗ[ℚ] ℚ)) 1 = 7 := by
  rw [C37_rk4]; norm_num

/-! ### C36 -/

/-- The stored residual is the true residual. -/
theorem cgUpdate_residual (a : V →ₗ[K] V) (dot : V → V → K) (pre : V → V) (b : V) (st : CGState K V)
    (h : st.r = b - a st.x) :
    (cgUpdate a dot pre st).2.1 = b - a (cgUpdate a dot pre st).1 := by
  unfold cgUpdate
  simp only [map_add, map_smul, h]
  abel

theorem cgLoop_spec (a : V →ₗ[K] V) (dot : V → V → K) (pre : V → V) (small : K → Bool) (b : V) :
    ∀ (n xiter : Nat) (st : CGState K V) (func : Option K) (x : V) (f : Option K) (it : Nat),
      st.r = b - a st.x → cgLoop a dot pre small b n xiter st func = (x, f, it) →
        it = xiter + n ∨ (xiter < it ∧ f = some (dot x b) ∧ small (dot (pre (b - a x)) (b - a x)) = true) := by
  intro n
  induction n with
  | zero =>
    intro xiter st func x f it _ h
    simp only [cgLoop, Prod.mk.injEq] at h
    exact Or.inl h.2.2.symm
  | succ n ih =>
    intro xiter st func x f it hr h
    have hu := cgUpdate_residual a dot pre b st hr
    have hz : (cgUpdate a dot pre st).2.2.1 = pre (cgUpdate a dot pre st).2.1 := rfl
    have he : (cgUpdate a dot pre st).2.2.2 = dot (cgUpdate a dot pre st).2.2.1 (cgUpdate a dot pre st).2.1 := rfl
    rw [cgLoop] at h
    obtain ⟨⟨x', r', z', e'⟩, hc⟩ : ∃ y, cgUpdate a dot pre st = y := ⟨_, rfl⟩
    rw [hc] at hu hz he
    simp only [hc] at h hu hz he
    by_cases hs : small e' = true
    · rw [if_pos hs] at h
      simp only [Prod.mk.injEq] at h
      obtain ⟨rfl, rfl, rfl⟩ := h
      refine Or.inr ⟨by omega, rfl, ?_⟩
      rw [← hu, ← hz, ← he]
      exact hs
    · rw [if_neg hs] at h
      rcases ih _ _ _ _ _ _ hu h with h1 | h1
      · exact Or.inl (by omega)
      · exact Or.inr ⟨by omega, h1.2.1, h1.2.2⟩

/-- C36: when the solver returns, the returned vector passes the convergence test with its true residual `b - a x`, whatever
the preconditioner and whether or not the matrix is positive; the returned value is `⟨x, b⟩`. -/
theorem C36_residual (a : V →ₗ[K] V) (dot : V → V → K) (pre : V → V) (small : K → Bool) (maxIter : Nat) (x b x' : V)
    (f : K) (it : Nat) (h : conjugateGradient a dot pre small maxIter x b = some (f, x', it)) :
    small (dot (pre (b - a x')) (b - a x')) = true ∧ f = dot x' b ∧ it ≤ max 1 maxIter := by
  have h0 : - (a x) + b = b - a x := by abel
  unfold conjugateGradient at h
  simp only [h0] at h
  by_cases hs : small (dot (pre (b - a x)) (b - a x)) = true
  · rw [if_pos hs] at h
    simp only [Option.some.injEq, Prod.mk.injEq] at h
    obtain ⟨rfl, rfl, rfl⟩ := h
    exact ⟨hs, rfl, le_max_left _ _⟩
  · rw [if_neg hs] at h
    obtain ⟨⟨x1, f1, it1⟩, hc⟩ : ∃ y, cgLoop a dot pre small b maxIter 0
        { x := x, r := b - a x, p := pre (b - a x), oldError := dot (pre (b - a x)) (b - a x) } none = y := ⟨_, rfl⟩
    rw [hc] at h
    simp only at h
    split_ifs at h with hm
    have hsp := cgLoop_spec a dot pre small b maxIter 0 _ none x1 f1 it1 rfl hc
    rcases hsp with h1 | ⟨h1, h2, h3⟩
    · omega
    · rw [h2] at h
      simp only [Option.map_some, Option.some.injEq, Prod.mk.injEq] at h
      obtain ⟨rfl, rfl, rfl⟩ := h
      refine ⟨h3, rfl, ?_⟩
      have hle : ∀ (n xi : Nat) (st : CGState K V) (fu : Option K), (cgLoop a dot pre small b n xi st fu).2.2 ≤ xi + n := by
        intro n
        induction n with
        | zero => intro xi st fu; simp [cgLoop]
        | succ n ih =>
          intro xi st fu
          rw [cgLoop]
          obtain ⟨⟨x', r', z', e'⟩, hc'⟩ : ∃ y, cgUpdate a dot pre st = y := ⟨_, rfl⟩
          simp only [hc']
          split_ifs
          · simp only; omega
          · have := ih (xi + 1) { x := x', r := r', p := (e' / st.oldError) • st.p + z', oldError := e' } (some (dot x' b))
            omega
      have := hle maxIter 0 { x := x, r := b - a x, p := pre (b - a x), oldError := dot (pre (b - a x)) (b - a x) } none
      rw [hc] at this
      simp only at this
      omega

/-- C36: without preconditioner the test is on the residual norm itself. -/
theorem C36_residual_norm (a : V →ₗ[K] V) (dot : V → V → K) (small : K → Bool) (maxIter : Nat) (x b x' : V)
    (f : K) (it : Nat) (h : conjugateGradient a dot id small maxIter x b = some (f, x', it)) :
    small (dot (b - a x') (b - a x')) = true :=
  (C36_residual a dot id small maxIter x b x' f it h).1

/-- C36: the solver raises although the threshold is met, when this first happens in the last permitted iteration.  Witness:
the equation `1 * x = 1` with one permitted iteration: the first step gives the exact solution. -/
theorem C36_raises_although_converged :
    ∃ (a : ℚ →ₗ[ℚ] ℚ) (small : ℚ → Bool) (b : ℚ),
      (∀ y, small y = true ↔ y = 0) ∧
      conjugateGradient a (· * ·) id small 1 0 b = none ∧
      conjugateGradient a (· * ·) id small 2 0 b = some (1, 1, 2) ∧
      b - a 1 = 0 := by
  refine ⟨LinearMap.id, fun y => decide (y = 0), 1, by simp, ?_, ?_, by simp⟩
  · simp [conjugateGradient, cgLoop, cgUpdate]
  · simp [conjugateGradient, cgLoop, cgUpdate]

/-! ### C35 -/

theorem foldl_linear (a : V →ₗ[K] V) (l : List Nat) (c : Nat → K) (p : Nat → Prop) [DecidablePred p] (u w : Nat → V) (x y : V)
    (h0 : a x = y) (h : ∀ i ∈ l, a (u i) = w i) :
    a (l.foldl (fun z i => if p i then z + c i • u i else z) x) = l.foldl (fun z i => if p i then z + c i • w i else z) y := by
  induction l generalizing x y with
  | nil => exact h0
  | cons i t ih =>
    simp only [List.foldl_cons]
    apply ih
    · split_ifs
      · rw [map_add, map_smul, h0, h i List.mem_cons_self]
      · exact h0
    · intro j hj; exact h j (List.mem_cons_of_mem _ hj)

theorem davidsonRotate_length (m : Nat) (alpha : Nat → Nat → K) (b : List V) : (davidsonRotate m alpha b).length = b.length := by
  simp [davidsonRotate]

theorem davidsonRotate_getD (m : Nat) (alpha : Nat → Nat → K) (b : List V) (j : Nat) (hj : j < b.length) :
    (davidsonRotate m alpha b).getD j 0 =
      if j < m then (List.range m).foldl (fun w i => if i ≠ j then w + alpha i j • b.getD i 0 else w) (alpha j j • b.getD j 0)
      else b.getD j 0 := by
  simp [davidsonRotate, List.getD_eq_getElem?_getD, List.getElem?_map, List.getElem?_zipIdx, List.getElem?_eq_getElem hj]

/-- The stored images of the first `n` trial vectors are right. -/
def Images (a : V →ₗ[K] V) (b sigma : List V) (n : Nat) : Prop := ∀ i, i < n → a (b.getD i 0) = sigma.getD i 0

/-- Rotating vectors and images alike keeps the images right. -/
theorem images_rotate (a : V →ₗ[K] V) (m : Nat) (alpha : Nat → Nat → K) (b sigma : List V) (hl : sigma.length = b.length)
    (h : Images a b sigma m) : Images a (davidsonRotate m alpha b) (davidsonRotate m alpha sigma) m := by
  intro j hj
  by_cases hb : j < b.length
  · rw [davidsonRotate_getD m alpha b j hb, davidsonRotate_getD m alpha sigma j (by rw [hl]; exact hb), if_pos hj, if_pos hj]
    apply foldl_linear a (List.range m) (fun i => alpha i j) (fun i => i ≠ j) (fun i => b.getD i 0) (fun i => sigma.getD i 0)
    · rw [map_smul, h j hj]
    · intro i hi
      exact h i (List.mem_range.1 hi)
  · have h1 : (davidsonRotate m alpha b).getD j 0 = 0 := by
      rw [List.getD_eq_getElem?_getD, List.getElem?_eq_none (by rw [davidsonRotate_length]; omega)]; rfl
    have h2 : (davidsonRotate m alpha sigma).getD j 0 = 0 := by
      rw [List.getD_eq_getElem?_getD, List.getElem?_eq_none (by rw [davidsonRotate_length]; omega)]; rfl
    rw [h1, h2, map_zero]

theorem davidsonSigma_length (a : V →ₗ[K] V) (b sigma : List V) (msig m : Nat) :
    (davidsonSigma a b sigma msig m).length = sigma.length := by
  unfold davidsonSigma
  generalize List.range' msig (m - msig) = l
  induction l generalizing sigma with
  | nil => rfl
  | cons i t ih => rw [List.foldl_cons, ih, List.length_set]

theorem images_sigma (a : V →ₗ[K] V) (b sigma : List V) (msig m : Nat) (hl : sigma.length = b.length) (hm : m ≤ b.length)
    (h : Images a b sigma msig) : Images a b (davidsonSigma a b sigma msig m) m := by
  unfold davidsonSigma
  have gen : ∀ (n s : Nat) (sg : List V), sg.length = b.length → s + n ≤ b.length → Images a b sg s →
      Images a b ((List.range' s n).foldl (fun s i => s.set i (a (b.getD i 0))) sg) (s + n) := by
    intro n
    induction n with
    | zero => intro s sg _ _ h; simpa using h
    | succ n ih =>
      intro s sg hsg hle h
      rw [List.range'_succ, List.foldl_cons]
      have := ih (s + 1) (sg.set s (a (b.getD s 0))) (by simpa using hsg) (by omega) ?_
      · have e : s + 1 + n = s + (n + 1) := by omega
        rwa [e] at this
      · intro i hi
        by_cases hs : i = s
        · subst hs
          simp [List.getD_eq_getElem?_getD, List.getElem?_set, hsg, show i < b.length by omega]
        · rw [h i (by omega)]
          simp [List.getD_eq_getElem?_getD, List.getElem?_set, Ne.symm hs]
  by_cases hle : msig ≤ m
  · have := gen (m - msig) msig sigma hl (by omega) h
    rwa [show msig + (m - msig) = m by omega] at this
  · rw [show m - msig = 0 by omega]
    intro i hi
    exact h i (by omega)

/-- Invariant of the loop: lists of equal length, trial vectors present, and stored images right. -/
structure DavidsonInv (a : V →ₗ[K] V) (k minSize : Nat) (st : DavidsonState K V) : Prop where
  len : st.sigma.length = st.b.length
  m_le : st.m ≤ st.b.length
  msig_le : st.msig ≤ st.m
  images : Images a st.b st.sigma st.msig
  ck_lt : st.ck < k
  k_le : k ≤ st.m
  deflated : st.b.length = st.m ∨ minSize ≤ st.m

theorem davidsonCheck_le (E : DavidsonEnv K V) (st : DavidsonState K V) : davidsonCheck E st ≤ st.ck := by
  unfold davidsonCheck
  cases h : (List.range st.ck).find? fun i => !E.small (E.dot (davidsonResidual st i) (davidsonResidual st i)) with
  | none => simp
  | some i =>
    have := List.mem_of_find?_eq_some h
    simp only [Option.getD_some]
    exact Nat.le_of_lt (List.mem_range.1 this)

theorem davidsonCheck_small (E : DavidsonEnv K V) (st : DavidsonState K V) (i : Nat) (hi : i < davidsonCheck E st) :
    E.small (E.dot (davidsonResidual st i) (davidsonResidual st i)) = true := by
  unfold davidsonCheck at hi
  cases h : (List.range st.ck).find? fun i => !E.small (E.dot (davidsonResidual st i) (davidsonResidual st i)) with
  | none =>
    rw [h] at hi
    rw [List.find?_eq_none] at h
    have := h i (List.mem_range.2 hi)
    simpa using this
  | some c =>
    rw [h] at hi
    simp only [Option.getD_some] at hi
    have hc := List.mem_range.1 (List.mem_of_find?_eq_some h)
    rw [List.find?_eq_some_iff_append] at h
    obtain ⟨_, as, bs, he, has⟩ := h
    have hmem : i ∈ as := by
      have hlen : as.length = c := by
        have h1 := congrArg (fun l => l[as.length]?) he
        have h2 := congrArg List.length he
        simp only [List.length_range, List.length_append, List.length_cons] at h2
        simp only [List.getElem?_append_right (Nat.le_refl _), Nat.sub_self, List.getElem?_cons_zero] at h1
        rw [List.getElem?_range (by omega)] at h1
        simpa using h1
      have h1 := congrArg (fun l => l[i]?) he
      rw [List.getElem?_range (by omega), List.getElem?_append_left (by omega)] at h1
      exact List.mem_of_getElem? h1.symm
    have := has i hmem
    simpa using this

/-- What one projected eigenproblem establishes: images of all `m` vectors are right, and the roots below `ck` are converged. -/
theorem davidsonRitz_spec (a : V →ₗ[K] V) (E : DavidsonEnv K V) (k minSize : Nat) (st : DavidsonState K V)
    (h : DavidsonInv a k minSize st) :
    DavidsonInv a k minSize (davidsonRitz a E st) ∧ (davidsonRitz a E st).msig = (davidsonRitz a E st).m ∧
      ∀ i, i < (davidsonRitz a E st).ck →
        E.small (E.dot (davidsonResidual (davidsonRitz a E st) i) (davidsonResidual (davidsonRitz a E st) i)) = true := by
  have hmax : max st.msig st.m = st.m := max_eq_right h.msig_le
  refine ⟨⟨?_, ?_, ?_, ?_, ?_, h.k_le, ?_⟩, ?_, ?_⟩
  · simp [davidsonRitz, davidsonRotate_length, davidsonSigma_length, h.len]
  · simpa [davidsonRitz, davidsonRotate_length] using h.m_le
  · simpa [davidsonRitz] using h.msig_le
  · have h1 := images_sigma a st.b st.sigma st.msig st.m h.len h.m_le h.images
    simp only [davidsonRitz, hmax]
    exact images_rotate a st.m _ st.b _ (by rw [davidsonSigma_length, h.len]) h1
  · refine lt_of_le_of_lt ?_ h.ck_lt
    unfold davidsonRitz
    exact davidsonCheck_le E _
  · simpa [davidsonRitz, davidsonRotate_length] using h.deflated
  · simp [davidsonRitz, h.msig_le]
  · intro i hi
    have := davidsonCheck_small E
      { b := davidsonRotate st.m (E.eigh st.m (davidsonMatrix E st.b (davidsonSigma a st.b st.sigma st.msig st.m))).2 st.b
        sigma := davidsonRotate st.m (E.eigh st.m (davidsonMatrix E st.b (davidsonSigma a st.b st.sigma st.msig st.m))).2
          (davidsonSigma a st.b st.sigma st.msig st.m)
        ck := st.ck, m := st.m, msig := max st.msig st.m
        ld := (E.eigh st.m (davidsonMatrix E st.b (davidsonSigma a st.b st.sigma st.msig st.m))).1 } i hi
    exact this

theorem davidsonExpand_inv (a : V →ₗ[K] V) (E : DavidsonEnv K V) (k minSize maxSize : Nat) (hk : k ≤ minSize)
    (st st' : DavidsonState K V) (h : DavidsonInv a k minSize st) (hms : st.msig = st.m)
    (he : davidsonExpand E minSize maxSize st = some st') :
    DavidsonInv a k minSize st' := by
  have hd := h.deflated
  unfold davidsonExpand at he
  simp only at he
  split_ifs at he with h1 h2 h2 h2
  all_goals simp only [reduceCtorEq, Option.map_eq_some_iff] at he
  all_goals obtain ⟨q, -, rfl⟩ := he
  · exact ⟨by simp [h.len], by simp; omega, by simp, by
      intro i hi
      simp only at hi
      have := h.images i (by rw [hms]; omega)
      have e1 : i < st.b.length := by omega
      simpa [List.getD_eq_getElem?_getD, List.getElem?_set, List.getElem?_append_left e1,
        List.getElem?_append_left (h.len ▸ e1 : i < st.sigma.length), show ¬ minSize = i by omega] using this,
      h.ck_lt, by simp; omega, by simp⟩
  · exact ⟨by simp [h.len], by simp; omega, by simp, by
      intro i hi
      simp only at hi
      have := h.images i (by rw [hms]; omega)
      simpa [List.getD_eq_getElem?_getD, List.getElem?_set, show ¬ minSize = i by omega] using this,
      h.ck_lt, by simp; omega, by simp⟩
  · have hle := h.m_le
    exact ⟨by simp [h.len], by simp; omega, by simp [hms], by
      intro i hi
      simp only at hi
      have := h.images i hi
      have e1 : i < st.b.length := by omega
      simpa [List.getD_eq_getElem?_getD, List.getElem?_set, List.getElem?_append_left e1,
        List.getElem?_append_left (h.len ▸ e1 : i < st.sigma.length), show ¬ st.m = i by omega] using this,
      h.ck_lt, by have := h.k_le; simp; omega, by simp; omega⟩
  · have hle := h.m_le
    exact ⟨by simp [h.len], by simp; omega, by simp [hms], by
      intro i hi
      simp only at hi
      have := h.images i hi
      simpa [List.getD_eq_getElem?_getD, List.getElem?_set, show ¬ st.m = i by omega] using this,
      h.ck_lt, by have := h.k_le; simp; omega, by simp; omega⟩

theorem davidsonLoop_spec (a : V →ₗ[K] V) (E : DavidsonEnv K V) (k minSize maxSize : Nat) (hk : k ≤ minSize) :
    ∀ (n xiter : Nat) (st st' : DavidsonState K V) (it : Nat) (warn : Bool), 0 < n → DavidsonInv a k minSize st →
      davidsonLoop a E k minSize maxSize n xiter st = some (st', it, warn) →
        st'.ck = k ∧ k ≤ st'.b.length ∧ it ≤ xiter + n ∧ (warn = true → it = xiter + n) ∧
        (warn = false → Images a st'.b st'.sigma k ∧
          ∀ i, i < k → E.small (E.dot (davidsonResidual st' i) (davidsonResidual st' i)) = true) := by
  intro n
  induction n with
  | zero => intro _ _ _ _ _ h; omega
  | succ n ih =>
    intro xiter st st' it warn _ hinv h
    obtain ⟨hi, hms, hconv⟩ := davidsonRitz_spec a E k minSize st hinv
    rw [davidsonLoop] at h
    generalize davidsonRitz a E st = s1 at h hi hms hconv
    simp only at h
    by_cases hq : E.small (E.dot (davidsonResidual s1 s1.ck) (davidsonResidual s1 s1.ck)) = true
    · rw [if_pos hq] at h
      by_cases hck : s1.ck + 1 = k
      · rw [if_pos hck] at h
        simp only [Option.some.injEq, Prod.mk.injEq] at h
        obtain ⟨rfl, rfl, rfl⟩ := h
        refine ⟨hck, hi.k_le.trans hi.m_le, by omega, by simp, fun _ => ⟨?_, ?_⟩⟩
        · intro i hik
          exact hi.images i (by rw [hms]; exact lt_of_lt_of_le hik hi.k_le)
        · intro i hik
          change E.small (E.dot (davidsonResidual s1 i) (davidsonResidual s1 i)) = true
          by_cases he : i = s1.ck
          · rw [he]; exact hq
          · exact hconv i (by omega)
      · rw [if_neg hck] at h
        have hinv' : DavidsonInv a k minSize { s1 with ck := s1.ck + 1 } :=
          ⟨hi.len, hi.m_le, hi.msig_le, hi.images, by have := hi.ck_lt; simp only; omega, hi.k_le, hi.deflated⟩
        by_cases hn : n = 0
        · rw [if_pos hn] at h
          simp only [Option.some.injEq, Prod.mk.injEq] at h
          obtain ⟨rfl, rfl, rfl⟩ := h
          exact ⟨rfl, hi.k_le.trans hi.m_le, by omega, by omega, by simp⟩
        · rw [if_neg hn] at h
          have := ih _ _ _ _ _ (by omega) hinv' h
          refine ⟨this.1, this.2.1, by omega, fun hw => ?_, this.2.2.2.2⟩
          have := this.2.2.2.1 hw
          omega
    · rw [if_neg hq] at h
      cases hx : davidsonExpand E minSize maxSize s1 with
      | none => rw [hx] at h; cases h
      | some s2 =>
        rw [hx] at h
        simp only at h
        have hinv' := davidsonExpand_inv a E k minSize maxSize hk s1 s2 hi hms hx
        by_cases hn : n = 0
        · rw [if_pos hn] at h
          simp only [Option.some.injEq, Prod.mk.injEq] at h
          obtain ⟨rfl, rfl, rfl⟩ := h
          exact ⟨rfl, hinv'.k_le.trans hinv'.m_le, by omega, by omega, by simp⟩
        · rw [if_neg hn] at h
          have := ih _ _ _ _ _ (by omega) hinv' h
          refine ⟨this.1, this.2.1, by omega, fun hw => ?_, this.2.2.2.2⟩
          have := this.2.2.2.1 hw
          omega

theorem davidsonInit_length (E : DavidsonEnv K V) (done b : List V) {b' : List V} (h : davidsonInit E done b = some b') :
    b'.length = done.length + b.length := by
  induction b generalizing done with
  | nil => cases h; simp
  | cons v t ih =>
    rw [davidsonInit, Option.bind_eq_some_iff] at h
    obtain ⟨u, -, hu⟩ := h
    rw [ih _ hu]; simp; omega

/-- C35: when the solver returns without warning, it returns `k` pairs and each of them passes the convergence test with its
true residual `a v - λ v`.  Nothing is assumed about the dense eigensolver, the preconditioner or the normalisation. -/
theorem C35_residual (a : V →ₗ[K] V) (E : DavidsonEnv K V) (b : List V) (k maxIter minSize maxSize : Nat)
    (ld : List K) (vs : List V) (it : Nat)
    (h : davidson a E b k maxIter minSize maxSize = some (ld, vs, it, false)) :
    ld.length = k ∧ vs.length = k ∧ it ≤ maxIter ∧
      ∀ i, i < k → E.small (E.dot (a (vs.getD i 0) - ld.getD i 0 • vs.getD i 0) (a (vs.getD i 0) - ld.getD i 0 • vs.getD i 0)) =
        true := by
  unfold davidson at h
  by_cases h0 : b.length ≠ k ∨ k = 0 ∨ maxIter = 0
  · rw [if_pos h0] at h; cases h
  rw [if_neg h0] at h
  simp only [ne_eq, not_or, not_not] at h0
  obtain ⟨hb, hk, hm⟩ := h0
  simp only [Option.bind_eq_some_iff, Option.map_eq_some_iff] at h
  obtain ⟨b0, hb0, ⟨st, it', w⟩, hl, he⟩ := h
  simp only [Prod.mk.injEq] at he
  obtain ⟨rfl, rfl, rfl, rfl⟩ := he
  have hlen : b0.length = k := by rw [davidsonInit_length E _ _ hb0]; simp [hb]
  have hinv : DavidsonInv a k (if minSize < k then k else minSize)
      { b := b0, sigma := List.replicate k 0, ck := 0, m := k, msig := 0, ld := fun _ => 0 } :=
    ⟨by simp [hlen], by simp [hlen], by simp, fun i hi => by simp at hi, by simp only; omega, by simp, Or.inl hlen⟩
  have hs := davidsonLoop_spec a E k _ maxSize (by split_ifs <;> omega) maxIter 0 _ st it' false (by omega) hinv hl
  obtain ⟨h1, h2, h3, _, h5⟩ := hs
  obtain ⟨h6, h7⟩ := h5 rfl
  refine ⟨by simp [h1], by simp [h1, h2], by omega, fun i hi => ?_⟩
  have h8 := h7 i hi
  have e1 : (st.b.take st.ck).getD i 0 = st.b.getD i 0 := by
    simp [List.getD_eq_getElem?_getD, List.getElem?_take, h1, hi]
  have e2 : ((List.range st.ck).map st.ld).getD i 0 = st.ld i := by
    simp [List.getD_eq_getElem?_getD, h1, hi]
  rw [e1, e2, h6 i hi]
  have e3 : st.sigma.getD i 0 - st.ld i • st.b.getD i 0 = davidsonResidual st i := by
    unfold davidsonResidual; rw [neg_smul, sub_eq_add_neg]
  rw [e3]
  exact h8

/-- C35: the warning is issued only when all permitted iterations were used. -/
theorem C35_warning (a : V →ₗ[K] V) (E : DavidsonEnv K V) (b : List V) (k maxIter minSize maxSize : Nat)
    (ld : List K) (vs : List V) (it : Nat)
    (h : davidson a E b k maxIter minSize maxSize = some (ld, vs, it, true)) : it = maxIter := by
  unfold davidson at h
  by_cases h0 : b.length ≠ k ∨ k = 0 ∨ maxIter = 0
  · rw [if_pos h0] at h; cases h
  rw [if_neg h0] at h
  simp only [ne_eq, not_or, not_not] at h0
  obtain ⟨hb, hk, hm⟩ := h0
  simp only [Option.bind_eq_some_iff, Option.map_eq_some_iff] at h
  obtain ⟨b0, hb0, ⟨st, it', w⟩, hl, he⟩ := h
  simp only [Prod.mk.injEq] at he
  obtain ⟨rfl, rfl, rfl, rfl⟩ := he
  have hlen : b0.length = k := by rw [davidsonInit_length E _ _ hb0]; simp [hb]
  have hinv : DavidsonInv a k (if minSize < k then k else minSize)
      { b := b0, sigma := List.replicate k 0, ck := 0, m := k, msig := 0, ld := fun _ => 0 } :=
    ⟨by simp [hlen], by simp [hlen], by simp, fun i hi => by simp at hi, by simp only; omega, by simp, Or.inl hlen⟩
  have hs := davidsonLoop_spec a E k _ maxSize (by split_ifs <;> omega) maxIter 0 _ st it' true (by omega) hinv hl
  have := hs.2.2.2.1 rfl
  omega

/-- A one-dimensional problem `3 v = λ v`. -/
def exDavidsonEnv : DavidsonEnv ℚ ℚ :=
  { dot := (· * ·), conj := id, normalize := fun v => if v = 0 then none else some 1, eigh := fun _ M => (fun _ => M 0 0, fun _ _ => 1)
    precondition := none, small := fun y => decide (y = 0) }

example : davidson ((3 : ℚ) • (LinearMap.id : ℚ →ₗ[ℚ] ℚ)) exDavidsonEnv [2] 1 5 2 30 = some ([3], [1], 1, false) := by
  simp [davidson, davidsonLoop, davidsonInit, davidsonRitz, davidsonCheck, davidsonSigma, davidsonRotate, davidsonMatrix,
    davidsonResidual, exDavidsonEnv]

end Verif
