import Verif.Model.Dict
import Mathlib.Data.List.Nodup
import Mathlib.Algebra.BigOperators.Group.List.Basic

/-! Lemmas about association-list dictionaries. -/

namespace Verif
namespace Dict
variable {α β : Type} [DecidableEq α]

@[simp] theorem get?_nil (k : α) : get? ([] : Dict α β) k = none := rfl

theorem get?_cons (k' : α) (v : β) (t : Dict α β) (k : α) :
    get? ((k', v) :: t) k = if k' = k then some v else get? t k := rfl

theorem get?_set (d : Dict α β) (k k' : α) (v : β) :
    get? (set d k v) k' = if k = k' then some v else get? d k' := by
  induction d with
  | nil => simp [set, get?]
  | cons p t ih =>
    obtain ⟨a, b⟩ := p
    by_cases h1 : a = k
    · subst h1
      by_cases h2 : a = k' <;> simp [set, get?, h2]
    · by_cases h2 : k = k'
      · subst h2; simp [set, get?, h1, ih]
      · simp [set, get?, h1, ih, h2]

@[simp] theorem get?_set_self (d : Dict α β) (k : α) (v : β) : get? (set d k v) k = some v := by
  simp [get?_set]

theorem get?_set_ne (d : Dict α β) {k k' : α} (h : k ≠ k') (v : β) :
    get? (set d k v) k' = get? d k' := by simp [get?_set, h]

theorem get?_eq_none_iff (d : Dict α β) (k : α) : get? d k = none ↔ k ∉ d.map Prod.fst := by
  induction d with
  | nil => simp
  | cons p t ih =>
    obtain ⟨a, b⟩ := p
    simp only [get?_cons, List.map_cons, List.mem_cons, not_or]
    split_ifs with h
    · simp [h]
    · rw [ih]
      constructor
      · intro h'; exact ⟨fun e => h e.symm, h'⟩
      · exact fun h' => h'.2

theorem mem_of_get? {d : Dict α β} {k : α} {v : β} (h : get? d k = some v) : (k, v) ∈ d := by
  induction d with
  | nil => simp at h
  | cons p t ih =>
    obtain ⟨a, b⟩ := p
    simp only [get?_cons] at h
    split_ifs at h with h'
    · simp_all
    · exact List.mem_cons_of_mem _ (ih h)

theorem get?_of_mem {d : Dict α β} (hd : WF d) {k : α} {v : β} (h : (k, v) ∈ d) :
    get? d k = some v := by
  induction d with
  | nil => simp at h
  | cons p t ih =>
    obtain ⟨a, b⟩ := p
    simp only [WF, List.map_cons, List.nodup_cons] at hd
    simp only [get?_cons]
    rcases List.mem_cons.1 h with h | h
    · simp_all
    · have : a ≠ k := by
        rintro rfl
        exact hd.1 (List.mem_map.2 ⟨(a, v), h, rfl⟩)
      simp only [this, if_false]
      exact ih hd.2 h

theorem get?_iff_mem {d : Dict α β} (hd : WF d) {k : α} {v : β} :
    get? d k = some v ↔ (k, v) ∈ d := ⟨mem_of_get?, get?_of_mem hd⟩

theorem mem_keys_iff {d : Dict α β} {k : α} : k ∈ d.map Prod.fst ↔ ∃ v, get? d k = some v := by
  have := get?_eq_none_iff d k
  cases h : get? d k with
  | none => simp [h] at this; simpa using this
  | some v =>
    simp only [Option.some.injEq, exists_eq']
    simp only [h, reduceCtorEq, false_iff, not_not] at this
    simp [this]

theorem has_iff {d : Dict α β} {k : α} : has d k = true ↔ k ∈ d.map Prod.fst := by
  rw [mem_keys_iff, has, Option.isSome_iff_exists]

theorem map_fst_set_of_mem (d : Dict α β) {k : α} (v : β) (h : k ∈ d.map Prod.fst) :
    (set d k v).map Prod.fst = d.map Prod.fst := by
  induction d with
  | nil => simp at h
  | cons p t ih =>
    obtain ⟨a, b⟩ := p
    simp only [set]
    split_ifs with h1
    · simp
    · have : k ∈ t.map Prod.fst := by
        rcases List.mem_cons.1 h with h | h
        · exact absurd h.symm h1
        · exact h
      simp [ih this]

theorem set_of_not_mem (d : Dict α β) {k : α} (v : β) (h : k ∉ d.map Prod.fst) :
    set d k v = d ++ [(k, v)] := by
  induction d with
  | nil => simp [set]
  | cons p t ih =>
    obtain ⟨a, b⟩ := p
    simp only [List.map_cons, List.mem_cons, not_or] at h
    simp [set, Ne.symm h.1, ih h.2]

theorem WF.set {d : Dict α β} (hd : WF d) (k : α) (v : β) : WF (set d k v) := by
  by_cases h : k ∈ d.map Prod.fst
  · unfold WF; rw [map_fst_set_of_mem d v h]; exact hd
  · unfold WF; rw [set_of_not_mem d v h]
    simp only [List.map_append, List.map_cons, List.map_nil]
    rw [List.nodup_append]
    refine ⟨hd, by simp, ?_⟩
    intro a ha b hb
    simp at hb; subst hb
    rintro rfl; exact h ha

omit [DecidableEq α] in
theorem WF.nil : WF ([] : Dict α β) := by simp [WF]

theorem mem_map_fst_set {d : Dict α β} {k k' : α} {v : β} :
    k' ∈ (set d k v).map Prod.fst ↔ k' = k ∨ k' ∈ d.map Prod.fst := by
  rw [mem_keys_iff, mem_keys_iff]
  simp only [get?_set]
  by_cases h : k = k'
  · simp [h]
  · simp [h, Ne.symm h]

end Dict

namespace Counter
variable {α : Type} [DecidableEq α]

@[simp] theorem count_nil (k : α) : count ([] : Counter α) k = 0 := rfl

theorem count_set (d : Counter α) (k k' : α) (n : Nat) :
    count (Dict.set d k n) k' = if k = k' then n else count d k' := by
  unfold count; rw [Dict.get?_set]; split_ifs <;> rfl

theorem count_incr (d : Counter α) (k k' : α) (n : Nat) :
    count (incr d k n) k' = count d k' + if k = k' then n else 0 := by
  unfold incr; rw [count_set]; split_ifs with h
  · rw [h]
  · rfl

theorem count_of_mem {d : Counter α} (hd : Dict.WF d) {k : α} {n : Nat} (h : (k, n) ∈ d) :
    count d k = n := by unfold count; rw [Dict.get?_of_mem hd h]; rfl

theorem count_of_not_mem {d : Counter α} {k : α} (h : k ∉ d.map Prod.fst) : count d k = 0 := by
  unfold count; rw [(Dict.get?_eq_none_iff d k).2 h]; rfl

theorem sum_values_set (d : Counter α) (k : α) (n : Nat) :
    (Dict.values (Dict.set d k n)).sum + count d k = (Dict.values d).sum + n := by
  induction d with
  | nil => simp [Dict.set, Dict.values, count]
  | cons p t ih =>
    obtain ⟨a, b⟩ := p
    unfold count at *
    simp only [Dict.set, Dict.get?_cons]
    split_ifs with h
    · simp only [Dict.values, List.map_cons, List.sum_cons, Option.getD_some]; omega
    · simp only [Dict.values, List.map_cons, List.sum_cons] at ih ⊢; omega

theorem sum_values_incr (d : Counter α) (k : α) (n : Nat) :
    (Dict.values (incr d k n)).sum = (Dict.values d).sum + n := by
  have := sum_values_set d k (count d k + n)
  unfold incr; omega

end Counter
end Verif
