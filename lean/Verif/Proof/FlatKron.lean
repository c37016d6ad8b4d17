import Verif.Model.FlatKron
import Verif.Proof.FlatCanon
import Verif.Proof.FunctorProd

/-! Direct sums of flat tensors. -/

set_option linter.unusedSectionVars false

namespace Verif

section dict
variable {α β γ : Type} [DecidableEq α] [BEq α] [LawfulBEq α] [BEq γ] [LawfulBEq γ]

theorem get?_zip (ks : List α) (ms : List β) (h : ks.length = ms.length) (k : α) : Dict.get? (ks.zip ms) k = ms[ks.idxOf k]? := by
  induction ks generalizing ms with
  | nil => cases ms with
    | nil => rfl
    | cons => simp at h
  | cons a ks ih => cases ms with
    | nil => simp at h
    | cons b ms =>
      simp only [List.zip_cons_cons, Dict.get?, List.idxOf_cons]
      by_cases e : a = k
      · simp [e]
      · rw [if_neg e, ih ms (by simpa using h), beq_false_of_ne e]
        simp

theorem set_zip (ks : List α) (ms : List β) (h : ks.length = ms.length) (k : α) (hk : k ∈ ks) (v : β) :
    Dict.set (ks.zip ms) k v = ks.zip (ms.set (ks.idxOf k) v) := by
  induction ks generalizing ms with
  | nil => simp at hk
  | cons a ks ih => cases ms with
    | nil => simp at h
    | cons b ms =>
      simp only [List.zip_cons_cons, Dict.set, List.idxOf_cons]
      by_cases e : a = k
      · simp [e]
      · have hk' : k ∈ ks := by
          rcases List.mem_cons.1 hk with h' | h'
          · exact absurd h'.symm e
          · exact h'
        rw [if_neg e, ih ms (by simpa using h) hk', beq_false_of_ne e]
        simp

theorem idxOf_map_inj (f : α → γ) (ks : List α) (q : α) (h : ∀ x ∈ ks, f x = f q → x = q) : (ks.map f).idxOf (f q) = ks.idxOf q := by
  induction ks with
  | nil => rfl
  | cons a ks ih =>
    simp only [List.map_cons, List.idxOf_cons]
    by_cases e : a = q
    · simp [e]
    · have : f a ≠ f q := fun e' => e (h a List.mem_cons_self e')
      rw [beq_false_of_ne e, beq_false_of_ne this, ih fun x hx => h x (List.mem_cons_of_mem _ hx)]

theorem map_inj_codes (f : α → γ) {q q' : List α} (h : ∀ c ∈ q, ∀ c' ∈ q', f c = f c' → c = c') (e : q.map f = q'.map f) : q = q' := by
  induction q generalizing q' with
  | nil => cases q' with
    | nil => rfl
    | cons => simp at e
  | cons a q ih => cases q' with
    | nil => simp at e
    | cons b q' =>
      simp only [List.map_cons, List.cons.injEq] at e
      rw [h a List.mem_cons_self b List.mem_cons_self e.1,
        ih (fun c hc c' hc' => h c (List.mem_cons_of_mem _ hc) c' (List.mem_cons_of_mem _ hc')) e.2]

end dict

namespace Flat
variable {C Q K : Type} [DecidableEq C] [DecidableEq Q] [Zero C] [Zero Q]

/-- `sub_mp` for a list of rows. -/
def firstOf (row : Nat → List C) (v : List Nat) : Dict (List C) Nat :=
  v.foldl (fun m i => if Dict.has m (row i) then m else Dict.set m (row i) i) []

theorem firstOf_append (row : Nat → List C) (v : List Nat) (i : Nat) : firstOf row (v ++ [i]) =
    if Dict.has (firstOf row v) (row i) then firstOf row v else Dict.set (firstOf row v) (row i) i := by
  unfold firstOf
  rw [List.foldl_append]; rfl

theorem firstOf_spec (row : Nat → List C) (v : List Nat) :
    (∀ e ∈ firstOf row v, e.1 = row e.2 ∧ e.2 ∈ v) ∧ ∀ i ∈ v, row i ∈ Dict.keys (firstOf row v) := by
  induction v using List.reverseRecOn with
  | nil => simp [firstOf]
  | append_singleton v i ih =>
    rw [firstOf_append]
    by_cases h : Dict.has (firstOf row v) (row i) = true
    · rw [if_pos h]
      refine ⟨fun e he => ⟨(ih.1 e he).1, by simp [(ih.1 e he).2]⟩, fun j hj => ?_⟩
      rcases List.mem_append.1 hj with hj | hj
      · exact ih.2 j hj
      · rw [List.mem_singleton.1 hj]
        exact Dict.has_iff.1 h
    · rw [if_neg h]
      refine ⟨fun e he => ?_, fun j hj => ?_⟩
      · rcases mem_setD he with rfl | he
        · simp
        · exact ⟨(ih.1 e he).1, by simp [(ih.1 e he).2]⟩
      · unfold Dict.keys
        rw [Dict.mem_map_fst_set]
        rcases List.mem_append.1 hj with hj | hj
        · exact Or.inr (ih.2 j hj)
        · left; rw [List.mem_singleton.1 hj]

/-- The new blocks of the block version. -/
theorem alloc_fold [Zero K] (dec : C → Q) (lb rb : BondInfo Q) (row : Nat → List C) (b : Nat → List Q × Arr K) (sh : Nat → List Nat) (v : List Nat)
    (hb : ∀ i ∈ v, (b i).1 = (row i).map dec)
    (hs : ∀ i ∈ v, ((b i).2.shape.set 0 (Counter.count lb ((b i).1.getD 0 0))).set ((b i).2.shape.length - 1)
      (Counter.count rb ((b i).1.getD ((b i).1.length - 1) 0)) = sh i)
    (hinj : ∀ i ∈ v, ∀ j ∈ v, (row i).map dec = (row j).map dec → row i = row j) :
    (v.map b).foldl (SpT.kronAlloc lb rb) [] = (firstOf row v).map fun e => (e.1.map dec, Arr.zeros (K := K) (sh e.2)) := by
  induction v using List.reverseRecOn with
  | nil => rfl
  | append_singleton v i ih =>
    have ih' := ih (fun j hj => hb j (by simp [hj])) (fun j hj => hs j (by simp [hj])) (fun j hj k hk => hinj j (by simp [hj]) k (by simp [hk]))
    rw [List.map_append, List.foldl_append, ih']
    simp only [List.map_cons, List.map_nil, List.foldl_cons, List.foldl_nil]
    have hm : ∀ p ∈ firstOf row v, p.1.map dec = (row i).map dec → p.1 = row i := by
      intro p hp e
      obtain ⟨h1, h2⟩ := (firstOf_spec row v).1 p hp
      rw [h1] at e ⊢
      exact hinj _ (by simp [h2]) i (by simp) e
    have hg := dict_get?_map (fun q : List C => q.map dec) (fun j => Arr.zeros (K := K) (sh j)) (firstOf row v) (row i) hm
    have hhas : Dict.has ((firstOf row v).map fun e => (e.1.map dec, Arr.zeros (K := K) (sh e.2))) (b i).1 = Dict.has (firstOf row v) (row i) := by
      unfold Dict.has
      rw [hb i (by simp), hg]
      simp
    unfold SpT.kronAlloc
    rw [hhas, firstOf_append]
    by_cases h : Dict.has (firstOf row v) (row i) = true
    · rw [if_pos h, if_pos h]
    · rw [if_neg h, if_neg h, hs i (by simp), hb i (by simp)]
      exact dict_set_map (fun q : List C => q.map dec) (fun j => Arr.zeros (K := K) (sh j)) (firstOf row v) (row i) i hm

/-- One block put into its place. -/
theorem place_step [Zero K] [Add K] (dec : C → Q) (high : Bool) (keys : List (List C)) (ms : List (Arr K)) (hlen : keys.length = ms.length)
    (q : List C) (hq : q ∈ keys) (hinj : ∀ x ∈ keys, x.map dec = q.map dec → x = q) (A : Flat C K) (i : Nat) :
    SpT.kronPlace high ((keys.map fun q => q.map dec).zip ms) (q.map dec, Arr.ofList (A.shs.getD i []) (A.block i)) =
      (keys.map fun q => q.map dec).zip (kronPut high keys A ms (q, i)) := by
  have hl : (keys.map fun q => q.map dec).length = ms.length := by simpa using hlen
  have hix := idxOf_map_inj (fun q : List C => q.map dec) keys q hinj
  have hlt : keys.idxOf q < ms.length := by rw [← hlen]; exact List.idxOf_lt_length_iff.2 hq
  unfold SpT.kronPlace
  simp only
  rw [get?_zip _ _ hl, hix, List.getElem?_eq_getElem hlt]
  simp only
  rw [set_zip _ _ hl _ (List.mem_map_of_mem hq), hix]
  congr 1
  unfold kronPut
  apply List.ext_getElem?
  intro j
  simp only [List.getElem?_set, List.getElem?_modify]
  by_cases hj : keys.idxOf q = j
  · subst hj
    rw [if_pos rfl, if_pos hlt, List.getElem?_eq_getElem hlt]
    simp
  · simp [hj]

theorem kronPut_shapes [Zero K] [Add K] (high : Bool) (keys : List (List C)) (A : Flat C K) (ms : List (Arr K)) (p : List C × Nat) :
    (kronPut high keys A ms p).map Arr.shape = ms.map Arr.shape := by
  unfold kronPut
  exact map_modify_same _ _ _ _ fun a => rfl

theorem kronPut_fold_shapes [Zero K] [Add K] (high : Bool) (keys : List (List C)) (A : Flat C K) (v : List (List C × Nat)) (ms : List (Arr K)) :
    (v.foldl (kronPut high keys A) ms).map Arr.shape = ms.map Arr.shape := by
  induction v generalizing ms with
  | nil => rfl
  | cons p v ih => rw [List.foldl_cons, ih, kronPut_shapes]

theorem place_fold [Zero K] [Add K] (dec : C → Q) (high : Bool) (keys : List (List C)) (A : Flat C K) (v : List (List C × Nat)) (ms : List (Arr K))
    (hlen : keys.length = ms.length) (hq : ∀ p ∈ v, p.1 ∈ keys) (hinj : ∀ p ∈ v, ∀ x ∈ keys, x.map dec = p.1.map dec → x = p.1) :
    (v.map fun p => (p.1.map dec, Arr.ofList (A.shs.getD p.2 []) (A.block p.2))).foldl (SpT.kronPlace high) ((keys.map fun q => q.map dec).zip ms) =
      (keys.map fun q => q.map dec).zip (v.foldl (kronPut high keys A) ms) := by
  induction v generalizing ms with
  | nil => rfl
  | cons p v ih =>
    simp only [List.map_cons, List.foldl_cons]
    rw [place_step dec high keys ms hlen p.1 (hq p List.mem_cons_self) (hinj p List.mem_cons_self) A p.2]
    have hl : (kronPut high keys A ms p).length = ms.length := by
      simpa using congrArg List.length (kronPut_shapes high keys A ms p)
    exact ih _ (by rw [hl, hlen]) (fun x hx => hq x (List.mem_cons_of_mem _ hx)) (fun x hx => hinj x (List.mem_cons_of_mem _ hx))

end Flat
end Verif
