import Verif.Spec.BuildMpo
import Verif.Spec.Svd
import Verif.Proof.Dict
import Verif.Proof.Canon

/-!
Lemmas for the construction of matrix product operators: strings, sums of strings, dictionaries of symbols.
-/

set_option linter.unusedSectionVars false

namespace Verif
namespace BuildMpo
variable {N L K R V : Type} [CommRing K] [DecidableEq K] [DecidableEq N] [Ring R] [Algebra K R]

/-! ### Values made of strings -/

/-- A value as it comes out of a product of arrays: zero, a string or a sum. -/
def AccOK : OpVal N L K → Prop
  | .num c => c = 0
  | .elem _ => False
  | .str _ => True
  | .sum l => none ∉ l

theorem eval_strs (v : N → List Int → R) {val : OpVal N L K} (h : AccOK val) : evalVal v val = ((strs val).map (evalString v)).sum := by
  cases val with
  | num c => simp only [AccOK] at h; simp [evalVal, strs, h]
  | elem e => exact h.elim
  | str s => simp [evalVal, strs]
  | sum l =>
    simp only [evalVal, strs]
    clear h
    induction l with
    | nil => rfl
    | cons a l ih =>
      cases a with
      | none => simpa using ih
      | some s =>
        simp only [List.map_cons, List.sum_cons, Option.map_some, Option.getD_some, List.filterMap_cons, id]
        rw [ih]
        rfl

theorem ofOpt_acc (o : Option (OpString N L K)) : AccOK (OpVal.ofOpt o) := by cases o <;> simp [OpVal.ofOpt, AccOK]

theorem strs_ofOpt (o : Option (OpString N L K)) : strs (OpVal.ofOpt o) = o.toList := by cases o <;> rfl

theorem foldlM_add (xs : List (OpVal N L K)) (hx : ∀ x ∈ xs, ∃ o, x = OpVal.ofOpt o) : ∀ acc : OpVal N L K, AccOK acc →
    ∃ val, xs.foldlM OpVal.add acc = some val ∧ AccOK val ∧ strs val = strs acc ++ xs.flatMap strs := by
  induction xs with
  | nil => intro acc h; exact ⟨acc, rfl, h, by simp⟩
  | cons x xs ih =>
    intro acc h
    obtain ⟨o, rfl⟩ := hx x (by simp)
    have : ∃ a, OpVal.add acc (OpVal.ofOpt o) = some a ∧ AccOK a ∧ strs a = strs acc ++ strs (OpVal.ofOpt o) := by
      cases acc with
      | num c =>
        simp only [AccOK] at h
        subst h
        cases o with
        | none => exact ⟨.num 0, by simp [OpVal.ofOpt, OpVal.add, OpVal.addL], by simp [AccOK], rfl⟩
        | some s => exact ⟨.str s, by simp [OpVal.ofOpt, OpVal.add, OpVal.addL, OpVal.addR], trivial, rfl⟩
      | elem e => exact h.elim
      | str t =>
        cases o with
        | none => exact ⟨.str t, by simp [OpVal.ofOpt, OpVal.add, OpVal.addL], trivial, rfl⟩
        | some s => exact ⟨.sum [some t, some s], by simp [OpVal.ofOpt, OpVal.add, OpVal.addL], by simp [AccOK], rfl⟩
      | sum l =>
        cases o with
        | none => exact ⟨.sum l, by simp [OpVal.ofOpt, OpVal.add, OpVal.addL], h, by simp [strs, OpVal.ofOpt]⟩
        | some s => exact ⟨.sum (l ++ [some s]), by simp [OpVal.ofOpt, OpVal.add, OpVal.addL], by simpa [AccOK] using h, by simp [strs, OpVal.ofOpt]⟩
    obtain ⟨a, h1, h2, h3⟩ := this
    obtain ⟨val, h4, h5, h6⟩ := ih (fun x hx' => hx x (by simp [hx'])) a h2
    refine ⟨val, ?_, h5, ?_⟩
    · rw [List.foldlM_cons, h1]
      exact h4
    · rw [h6, h3, List.flatMap_cons, List.append_assoc]

theorem objDot_spec (xs : List (OpVal N L K)) (hx : ∀ x ∈ xs, ∃ o, x = OpVal.ofOpt o) :
    ∃ val, objDot xs = some val ∧ AccOK val ∧ strs val = xs.flatMap strs := by
  cases xs with
  | nil => exact ⟨.num 0, rfl, rfl, rfl⟩
  | cons x xs =>
    obtain ⟨o, rfl⟩ := hx x (by simp)
    obtain ⟨val, h1, h2, h3⟩ := foldlM_add xs (fun x hx' => hx x (by simp [hx'])) _ (ofOpt_acc o)
    exact ⟨val, h1, h2, by rw [h3, List.flatMap_cons]⟩

/-! ### Symbols -/

/-- A symbol as stored in a string: factor 1, a label that depends on name and site only, and a name other than `x`. -/
def Ok (x : N) (lab : N → List Int → Option L) (e : OpElement N L K) : Prop := e.factor = 1 ∧ lab e.name e.site = some e.label ∧ e.name ≠ x

variable {x : N} {lab : N → List Int → Option L}

theorem Ok.ext {a b : OpElement N L K} (ha : Ok x lab a) (hb : Ok x lab b) (h : key a = key b) : a = b := by
  obtain ⟨n, s, f, l⟩ := a
  obtain ⟨n', s', f', l'⟩ := b
  obtain ⟨h1, h2, h3⟩ := ha
  obtain ⟨h4, h5, h6⟩ := hb
  simp only [key, Prod.mk.injEq] at h h1 h2 h4 h5
  obtain ⟨rfl, rfl⟩ := h
  subst h1 h4
  rw [h2] at h5
  injection h5 with h5
  rw [h5]

theorem Ok.abs {a : OpElement N L K} (ha : Ok x lab a) : a.abs = a := by
  obtain ⟨n, s, f, l⟩ := a
  have := ha.1
  simp only at this
  subst this
  rfl

theorem map_abs {l : List (OpElement N L K)} (h : ∀ e ∈ l, Ok x lab e) : l.map OpElement.abs = l := by
  conv_rhs => rw [← List.map_id l]
  exact List.map_congr_left fun e he => (h e he).abs

theorem Ok.same {a b : OpElement N L K} (ha : Ok x lab a) (hb : Ok x lab b) : a.same b = true ↔ a = b := by
  constructor
  · intro h
    simp only [OpElement.same, decide_eq_true_eq] at h
    exact ha.ext hb (Prod.ext h.1 h.2.1)
  · rintro rfl
    simp [OpElement.same]

theorem sameOps_iff {a b : List (OpElement N L K)} (ha : ∀ e ∈ a, Ok x lab e) (hb : ∀ e ∈ b, Ok x lab e) : sameOps a b = true ↔ a = b := by
  unfold sameOps
  induction a generalizing b with
  | nil => cases b <;> simp
  | cons e a ih =>
    cases b with
    | nil => simp
    | cons f b =>
      have ih := ih (b := b) (fun e he => ha e (by simp [he])) (fun e he => hb e (by simp [he]))
      simp only [Bool.and_eq_true, decide_eq_true_eq] at ih
      simp only [List.length_cons, List.zip_cons_cons, List.all_cons, Bool.and_eq_true, decide_eq_true_eq, List.cons.injEq,
        (ha e (by simp)).same (hb f (by simp)), Nat.add_right_cancel_iff]
      tauto

theorem prod_mk' {l : List (OpElement N L K)} (h : ∀ e ∈ l, Ok x lab e) (f : K) : (OpString.mk' l f) = ⟨l, f⟩ := by
  unfold OpString.mk'
  rw [map_abs h]
  have : l.map (fun e => e.factor) = l.map fun _ => 1 := List.map_congr_left fun e he => (h e he).1
  rw [this]
  simp

theorem strNum_some {small : K → Bool} {s t : OpString N L K} {f : K} (h : ∀ e ∈ s.ops, Ok x lab e) (ht : OpVal.strNum small s f = some t) :
    t.ops = s.ops := by
  unfold OpVal.strNum at ht
  split_ifs at ht
  injection ht with ht
  rw [prod_mk' h] at ht
  rw [← ht]

theorem eval_strNum_toList (v : N → List Int → R) {small : K → Bool} (hsmall : ∀ x, small x = true → x = 0) (s : OpString N L K) (f : K) :
    ((OpVal.strNum small s f).toList.map (evalString v)).sum = evalString v s * algebraMap K R f := by
  rw [← eval_strNum v small hsmall]
  cases OpVal.strNum small s f <;> simp [evalOpt]

/-! ### Symbols placed in dictionaries -/

/-- The symbol `e`, with `w` in the dictionary, was made for the value `val`. -/
def Stands (x : N) (lab : N → List Int → Option L) (e : OpElement N L K) (w val : OpVal N L K) : Prop :=
  (e.factor = 1 ∧ w = val ∧ AccOK val ∧ ∀ a, val ≠ .num a) ∨ (∃ a f, val = .str ⟨[a], f⟩ ∧ Ok x lab a ∧ f ≠ 0 ∧ e = { a with factor := f } ∧ w = .elem a)

theorem Stands.eval (v : N → List Int → R) {e : OpElement N L K} {w val : OpVal N L K} (h : Stands x lab e w val) :
    algebraMap K R e.factor * evalVal v w = evalVal v val := by
  rcases h with ⟨h1, rfl, _⟩ | ⟨a, f, rfl, h1, _, rfl, rfl⟩
  · rw [h1, map_one, one_mul]
  · simp [evalVal, evalString]

theorem Stands.acc {e : OpElement N L K} {w val : OpVal N L K} (h : Stands x lab e w val) : AccOK val := by
  rcases h with ⟨_, _, h, _⟩ | ⟨a, f, rfl, _⟩
  · exact h
  · trivial

theorem Stands.plain {e : OpElement N L K} {w val : OpVal N L K} (h : Stands x lab e w val) : Plain w := by
  rcases h with ⟨_, rfl, h, h'⟩ | ⟨a, f, rfl, h1, _, _, rfl⟩
  · cases w with
    | num c => exact absurd rfl (h' c)
    | elem e => exact h.elim
    | str s => trivial
    | sum l => exact h
  · exact h1.1

/-- The strings of what a symbol stands for in the dictionary are those of the value it was made for, up to factors. -/
theorem Stands.ops {e : OpElement N L K} {w val : OpVal N L K} (h : Stands x lab e w val) : ∀ s ∈ strs w, ∃ t ∈ strs val, s.ops = t.ops := by
  rcases h with ⟨_, rfl, _⟩ | ⟨a, f, rfl, h1, _, _, rfl⟩
  · exact fun s hs => ⟨s, hs, rfl⟩
  · intro s hs
    simp only [strs, List.mem_singleton] at hs
    refine ⟨⟨[a], f⟩, by simp [strs], ?_⟩
    rw [hs]
    simp [OpString.mk', h1.abs]

theorem Stands.terms [Nontrivial K] (v : N → List Int → R) {small : K → Bool} (hsmall : ∀ x, small x = true → x = 0) {e : OpElement N L K} {w val : OpVal N L K}
    (h : Stands x lab e w val) (hok : ∀ s ∈ strs val, ∀ a ∈ s.ops, Ok x lab a) :
    ∃ ts, termsOf small e.factor w = some ts ∧ (∀ t ∈ ts.filterMap id, ∃ s ∈ strs val, t.ops = s.ops) ∧
      ((ts.filterMap id).map (evalString v)).sum = evalVal v val := by
  rcases h with ⟨h1, rfl, hacc, hnum⟩ | ⟨a, f, rfl, h1, hf, rfl, rfl⟩
  · cases w with
    | num c => exact absurd rfl (hnum c)
    | elem e => exact hacc.elim
    | str s =>
      refine ⟨_, rfl, ?_, ?_⟩
      · intro t ht
        simp only [List.filterMap_cons, id, List.filterMap_nil] at ht
        cases h2 : OpVal.strNum small s e.factor with
        | none => rw [h2] at ht; simp at ht
        | some u =>
          rw [h2] at ht
          simp only [List.mem_singleton] at ht
          exact ⟨s, by simp [strs], by rw [ht]; exact strNum_some (hok s (by simp [strs])) h2⟩
      · have := eval_strNum_toList v hsmall s e.factor
        rw [h1, map_one, mul_one] at this
        rw [evalVal, ← this, h1]
        cases OpVal.strNum small s 1 <;> rfl
    | sum l =>
      refine ⟨_, by rw [termsOf, if_neg (by rw [h1]; exact one_ne_zero)], ?_, ?_⟩
      · intro t ht
        simp only [List.mem_filterMap, List.mem_map, id] at ht
        obtain ⟨o, ⟨y, hy, rfl⟩, ht⟩ := ht
        cases y with
        | none => simp at ht
        | some s =>
          have hs : s ∈ strs (OpVal.sum l) := by simp [strs, hy]
          exact ⟨s, hs, strNum_some (hok s hs) ht⟩
      · rw [eval_strs v (val := .sum l) hacc]
        simp only [strs]
        clear hok hacc hnum
        induction l with
        | nil => rfl
        | cons y l ih =>
          cases y with
          | none => simpa using ih
          | some s =>
            have := eval_strNum_toList v hsmall s e.factor
            rw [h1, map_one, mul_one] at this
            simp only [List.map_cons, List.filterMap_cons, id, Option.bind_some, h1, List.sum_cons] at ih ⊢
            rw [← this, ← ih]
            cases OpVal.strNum small s 1 <;> simp
  · have ha : ∀ e ∈ (OpString.mk' [a]).ops, Ok x lab e := by
      rw [prod_mk' (x := x) (lab := lab) (by simpa using h1)]
      simpa using h1
    refine ⟨_, rfl, ?_, ?_⟩
    · intro t ht
      simp only [List.filterMap_cons, id, List.filterMap_nil] at ht
      cases h2 : OpVal.strNum small (OpString.mk' [a]) f with
      | none => rw [h2] at ht; simp at ht
      | some u =>
        rw [h2] at ht
        simp only [List.mem_singleton] at ht
        refine ⟨⟨[a], f⟩, by simp [strs], ?_⟩
        rw [ht, strNum_some ha h2, prod_mk' (x := x) (lab := lab) (by simpa using h1)]
    · have := eval_strNum_toList v hsmall (OpString.mk' [a]) f
      rw [evalVal]
      have h3 : evalString v (⟨[a], f⟩ : OpString N L K) = evalString v (OpString.mk' [a]) * algebraMap K R f := by
        rw [prod_mk' (x := x) (lab := lab) (by simpa using h1)]
        simp only [evalString, map_one, one_mul]
        rw [Algebra.commutes]
      rw [h3, ← this]
      simp only
      cases OpVal.strNum small (OpString.mk' [a]) f <;> rfl

/-- Keys of new symbols are numbered; other keys are symbols that stand for themselves. -/
def DictOK (x : N) (lab : N → List Int → Option L) (n : Nat) (ops : Dict (Key N) (OpVal N L K)) : Prop :=
  ∀ k w, Dict.get? ops k = some w → (k.1 = x ∧ ∃ i < n, k.2 = [(i : Int)]) ∨ ∃ a, w = .elem a ∧ Ok x lab a ∧ key a = k

/-- What became of a value: nothing if it is zero, or an entry that stands for it. -/
def Placed (x : N) (lab : N → List Int → Option L) (ops : Dict (Key N) (OpVal N L K)) (val : OpVal N L K) (o : Option (OpElement N L K)) : Prop :=
  match o with
  | none => val = .num 0
  | some e => ∃ w, Dict.get? ops (key e) = some w ∧ Stands x lab e w val

theorem place_spec {n : Nat} {ops : Dict (Key N) (OpVal N L K)} (q : L) {val : OpVal N L K} (hd : DictOK x lab n ops) (hacc : AccOK val)
    (hok : ∀ s ∈ strs val, s.factor ≠ 0 ∧ ∀ a ∈ s.ops, Ok x lab a) :
    ∃ o n' ops', place x n ops q val = some (o, n', ops') ∧ DictOK x lab n' ops' ∧ (∀ k w, Dict.get? ops k = some w → Dict.get? ops' k = some w) ∧
      Placed x lab ops' val o := by
  have hnew : (∀ a, val ≠ .num a) →
      DictOK x lab (n + 1) (Dict.set ops (x, [(n : Int)]) val) ∧ (∀ k w, Dict.get? ops k = some w → Dict.get? (Dict.set ops (x, [(n : Int)]) val) k = some w) ∧
      Placed x lab (Dict.set ops (x, [(n : Int)]) val) val (some ⟨x, [(n : Int)], 1, q⟩) := by
    intro hnum
    refine ⟨?_, ?_, ?_⟩
    · intro k w hk
      by_cases e : k = (x, [(n : Int)])
      · subst e
        exact Or.inl ⟨rfl, n, by omega, rfl⟩
      · rw [Dict.get?_set_ne _ (Ne.symm e)] at hk
        rcases hd k w hk with ⟨h1, i, hi, h2⟩ | h
        · exact Or.inl ⟨h1, i, by omega, h2⟩
        · exact Or.inr h
    · intro k w hk
      rw [Dict.get?_set_ne, hk]
      rintro rfl
      rcases hd _ w hk with ⟨_, i, hi, h2⟩ | ⟨a, _, h1, h2⟩
      · simp only [List.cons.injEq, and_true, Nat.cast_inj] at h2
        omega
      · exact h1.2.2 (congrArg Prod.fst h2)
    · refine ⟨val, ?_, Or.inl ⟨rfl, rfl, hacc, hnum⟩⟩
      exact Dict.get?_set_self ..
  cases val with
  | num c =>
    simp only [AccOK] at hacc
    subst hacc
    exact ⟨none, n, ops, by simp [place], hd, fun _ _ h => h, rfl⟩
  | elem e => exact hacc.elim
  | sum l =>
    obtain ⟨h1, h2, h3⟩ := hnew (by simp)
    exact ⟨_, _, _, rfl, h1, h2, h3⟩
  | str s =>
    obtain ⟨so, sf⟩ := s
    match so, hok with
    | [], hok =>
      obtain ⟨h1, h2, h3⟩ := hnew (by simp)
      exact ⟨_, _, _, rfl, h1, h2, h3⟩
    | e :: e' :: l, hok =>
      obtain ⟨h1, h2, h3⟩ := hnew (by simp)
      exact ⟨_, _, _, rfl, h1, h2, h3⟩
    | [a], hok =>
      obtain ⟨hf, ha⟩ := hok ⟨[a], sf⟩ (by simp [strs])
      have ha := ha a (by simp)
      simp only at hf
      have he : OpVal.elemNum a sf = .elem { a with factor := sf } := by
        rw [OpVal.elemNum, if_neg hf, ha.1, one_mul]
      have habs : OpElement.abs { a with factor := sf } = a := by
        have := ha.abs
        simpa [OpElement.abs] using this
      refine ⟨some { a with factor := sf }, n, Dict.set ops (key a) (.elem a), ?_, ?_, ?_, ?_⟩
      · simp only [place, he, habs]
        rfl
      · intro k w hk
        by_cases e : k = key a
        · subst e
          rw [Dict.get?_set_self] at hk
          injection hk with hk
          exact Or.inr ⟨a, hk.symm, ha, rfl⟩
        · rw [Dict.get?_set_ne _ (Ne.symm e)] at hk
          exact hd k w hk
      · intro k w hk
        by_cases e : k = key a
        · subst e
          rw [Dict.get?_set_self]
          rcases hd _ w hk with ⟨h1, _⟩ | ⟨a', rfl, h1, h2⟩
          · exact absurd h1 ha.2.2
          · rw [h1.ext ha h2]
        · rw [Dict.get?_set_ne _ (Ne.symm e), hk]
      · exact ⟨.elem a, Dict.get?_set_self .., Or.inr ⟨a, sf, rfl, ha, hf, rfl, rfl⟩⟩

theorem placeAll_spec (jobs : List (L × OpVal N L K)) (hacc : ∀ j ∈ jobs, AccOK j.2)
    (hok : ∀ j ∈ jobs, ∀ s ∈ strs j.2, s.factor ≠ 0 ∧ ∀ a ∈ s.ops, Ok x lab a) :
    ∀ (n : Nat) (ops : Dict (Key N) (OpVal N L K)), DictOK x lab n ops →
      ∃ es ops', placeAll x n ops jobs = some (es, ops') ∧ (∀ k w, Dict.get? ops k = some w → Dict.get? ops' k = some w) ∧
        List.Forall₂ (fun j o => Placed x lab ops' j.2 o) jobs es := by
  induction jobs with
  | nil => intro n ops _; exact ⟨[], ops, rfl, fun _ _ h => h, .nil⟩
  | cons j jobs ih =>
    intro n ops hd
    obtain ⟨o, n', ops', h1, h2, h3, h4⟩ := place_spec j.1 hd (hacc j (by simp)) (hok j (by simp))
    obtain ⟨es, ops'', h5, h6, h7⟩ := ih (fun j hj => hacc j (by simp [hj])) (fun j hj => hok j (by simp [hj])) n' ops' h2
    refine ⟨o :: es, ops'', ?_, fun k w h => h6 k w (h3 k w h), .cons ?_ h7⟩
    · simp only [placeAll, h1, h5, Option.map_some]
    · cases o with
      | none => exact h4
      | some e =>
        obtain ⟨w, hw, hs⟩ := h4
        exact ⟨w, h6 _ _ hw, hs⟩

end BuildMpo
end Verif
