import Verif.Model.FlatFermTrace
import Verif.Proof.FermTrace2
import Verif.Thm.FermAdd

set_option linter.unusedSectionVars false

/-!
The trace of a flat fermionic tensor: grouping and summing the blocks.
-/

namespace Verif
namespace FlatFermT
variable {Q C K : Type} [AddCommGroup Q] [DecidableEq Q] [DecidableEq C] [Zero C]

theorem sum_set {E M : Type} [AddCommMonoid M] (f : E → M) (m : Dict (List C) (List E)) (k : List C) (e : E) :
    ((Dict.set m k ((Dict.get? m k).getD [] ++ [e])).map fun g => (g.2.map f).sum).sum = (m.map fun g => (g.2.map f).sum).sum + f e := by
  induction m with
  | nil => simp [Dict.set, Dict.get?]
  | cons p t ih =>
    unfold Dict.set Dict.get?
    by_cases h : p.1 = k
    · simp only [h, if_true, Option.getD_some, List.map_cons, List.sum_cons, List.map_append, List.sum_append, List.map_nil, List.sum_nil, add_zero]
      abel
    · simp only [h, if_false, List.map_cons, List.sum_cons, ih, add_assoc]

theorem mem_set_group {E : Type} {m : Dict (List C) (List E)} {k : List C} {v : List E} {g : List C × List E} (h : g ∈ Dict.set m k v) :
    g ∈ m ∨ g = (k, v) := by
  induction m with
  | nil => simpa [Dict.set] using h
  | cons p t ih =>
    unfold Dict.set at h
    split_ifs at h with hk
    · rcases List.mem_cons.1 h with h | h
      · exact .inr (by rw [h, hk])
      · exact .inl (List.mem_cons_of_mem _ h)
    · rcases List.mem_cons.1 h with h | h
      · exact .inl (h ▸ List.mem_cons_self)
      · rcases ih h with h | h
        · exact .inl (List.mem_cons_of_mem _ h)
        · exact .inr h

theorem get_mem {E : Type} {m : Dict (List C) (List E)} {k : List C} {v : List E} (h : Dict.get? m k = some v) : (k, v) ∈ m := by
  induction m with
  | nil => simp [Dict.get?] at h
  | cons p t ih =>
    unfold Dict.get? at h
    split_ifs at h with hk
    · obtain ⟨a, b⟩ := p
      simp only [Option.some.injEq] at h
      simp only at hk
      rw [hk, h]
      exact List.mem_cons_self
    · exact List.mem_cons_of_mem _ (ih h)

/-- The groups: distinct keys, no empty group, each member carries the key; together they are all members. -/
theorem groupRows_spec {E : Type} (key : E → List C) (bs : List E) :
    Dict.WF (groupRows key bs) ∧ (∀ g ∈ groupRows key bs, g.2 ≠ [] ∧ ∀ e ∈ g.2, key e = g.1 ∧ e ∈ bs) ∧
    (∀ {M : Type} [AddCommMonoid M] (f : E → M), ((groupRows key bs).map fun g => (g.2.map f).sum).sum = (bs.map f).sum) := by
  have H : ∀ (l pre : List E) (m : Dict (List C) (List E)), Dict.WF m → (∀ g ∈ m, g.2 ≠ [] ∧ ∀ e ∈ g.2, key e = g.1 ∧ e ∈ pre) →
      (∀ {M : Type} [AddCommMonoid M] (f : E → M), (m.map fun g => (g.2.map f).sum).sum = (pre.map f).sum) →
      let r := l.foldl (fun m e => Dict.set m (key e) ((Dict.get? m (key e)).getD [] ++ [e])) m
      Dict.WF r ∧ (∀ g ∈ r, g.2 ≠ [] ∧ ∀ e ∈ g.2, key e = g.1 ∧ e ∈ pre ++ l) ∧
      (∀ {M : Type} [AddCommMonoid M] (f : E → M), (r.map fun g => (g.2.map f).sum).sum = ((pre ++ l).map f).sum) := by
    intro l
    induction l with
    | nil => intro pre m h1 h2 h3; simp only [List.foldl_nil, List.append_nil]; exact ⟨h1, h2, h3⟩
    | cons e t ih =>
      intro pre m h1 h2 h3
      simp only [List.foldl_cons]
      have := ih (pre ++ [e]) (Dict.set m (key e) ((Dict.get? m (key e)).getD [] ++ [e])) (Dict.WF.set h1 _ _) ?_ ?_
      · simpa using this
      · intro g hg
        rcases mem_set_group hg with h | h
        · exact ⟨(h2 g h).1, fun x hx => ⟨((h2 g h).2 x hx).1, List.mem_append_left _ ((h2 g h).2 x hx).2⟩⟩
        · subst h
          refine ⟨by simp, fun x hx => ?_⟩
          rcases List.mem_append.1 hx with h | h
          · cases hg : Dict.get? m (key e) with
            | none => rw [hg] at h; simp at h
            | some v =>
              rw [hg] at h
              obtain ⟨k1, k2⟩ := (h2 _ (get_mem hg)).2 x h
              exact ⟨k1, List.mem_append_left _ k2⟩
          · have : x = e := by simpa using h
            subst this
            exact ⟨rfl, by simp⟩
      · intro M _ f
        rw [sum_set, h3 f]
        simp
  have := H bs [] [] (by unfold Dict.WF; simp) (by simp) (by intro M _ f; simp)
  simpa [groupRows] using this

theorem groupRows_ne {E : Type} (key : E → List C) {bs : List E} (h : bs ≠ []) : groupRows key bs ≠ [] := by
  intro e
  have := (groupRows_spec key bs).2.2 (fun _ => (1 : Nat))
  rw [e] at this
  simp at this
  exact h (List.eq_nil_of_length_eq_zero this.symm)

theorem sumRows_spec [AddCommMonoid K] (n : Nat) (vs : List (List K)) (hne : vs ≠ []) (h : ∀ v ∈ vs, v.length = n) :
    (sumRows vs).length = n ∧ ∀ i, (sumRows vs).getD i 0 = (vs.map fun v => v.getD i 0).sum := by
  have H : ∀ (t : List (List K)) (v : List K), v.length = n → (∀ w ∈ t, w.length = n) →
      (t.foldl (List.zipWith (· + ·)) v).length = n ∧
      ∀ i, (t.foldl (List.zipWith (· + ·)) v).getD i 0 = v.getD i 0 + (t.map fun w => w.getD i 0).sum := by
    intro t
    induction t with
    | nil => intro v hv _; exact ⟨hv, by simp⟩
    | cons w t ih =>
      intro v hv hw
      have hwl := hw w (by simp)
      have := ih (List.zipWith (· + ·) v w) (by simp [hv, hwl]) (fun u hu => hw u (List.mem_cons_of_mem _ hu))
      refine ⟨this.1, fun i => ?_⟩
      rw [List.foldl_cons, this.2 i, List.map_cons, List.sum_cons, ← add_assoc]
      congr 1
      by_cases hi : i < n
      · simp [List.getD_eq_getElem?_getD, hv, hwl, hi]
      · simp [List.getD_eq_getElem?_getD, hv, hwl, hi]
  cases vs with
  | nil => exact absurd rfl hne
  | cons v t =>
    have := H t v (h v (by simp)) (fun w hw => h w (List.mem_cons_of_mem _ hw))
    exact ⟨this.1, fun i => by simpa [sumRows] using this.2 i⟩

theorem blockEntry_toList [AddCommMonoid K] (q : List Q) (a : Arr K) (x : List (Q × Nat)) :
    blockEntry (q, Arr.ofList a.shape a.toList) x = blockEntry (q, a) x := by
  unfold blockEntry
  by_cases h : q = x.map Prod.fst ∧ inBox a.shape (x.map Prod.snd) = true
  · rw [if_pos h, if_pos (by simpa [Arr.ofList] using h)]
    exact Arr.toList_getD a h.2
  · rw [if_neg h, if_neg (by simpa [Arr.ofList] using h)]

theorem blockEntry_pos [Zero K] {q : List Q} {sh : List Nat} {x : List (Q × Nat)} (hc : q = x.map Prod.fst ∧ inBox sh (x.map Prod.snd) = true) (v : List K) :
    blockEntry (q, Arr.ofList sh v) x = v.getD (ravel sh (x.map Prod.snd)) 0 := if_pos hc

theorem blockEntry_not [Zero K] {q : List Q} {sh : List Nat} {x : List (Q × Nat)} (hc : ¬ (q = x.map Prod.fst ∧ inBox sh (x.map Prod.snd) = true)) (v : List K) :
    blockEntry (q, Arr.ofList sh v) x = 0 := if_neg hc

theorem blockEntry_sumRows [AddCommMonoid K] (q : List Q) (sh : List Nat) (vs : List (List K)) (hne : vs ≠ []) (h : ∀ v ∈ vs, v.length = sh.prod)
    (x : List (Q × Nat)) :
    blockEntry (q, Arr.ofList sh (sumRows vs)) x = (vs.map fun v => blockEntry (q, Arr.ofList sh v) x).sum := by
  by_cases hc : q = x.map Prod.fst ∧ inBox sh (x.map Prod.snd) = true
  · rw [blockEntry_pos hc, (sumRows_spec _ vs hne h).2]
    congr 1
    apply List.map_congr_left
    intro v _
    rw [blockEntry_pos hc]
  · rw [blockEntry_not hc]
    symm
    apply List.sum_eq_zero
    intro y hy
    obtain ⟨v, _, rfl⟩ := List.mem_map.1 hy
    exact blockEntry_not hc v

theorem pick_map_in {α β : Type} [Zero α] [Zero β] (f : α → β) {ax : List Nat} {l : List α} (h : ∀ i ∈ ax, i < l.length) : pick ax (l.map f) = (pick ax l).map f := by
  unfold pick
  rw [List.map_map]
  apply List.map_congr_left
  intro i hi
  simp [h i hi]

theorem rows_pack {p : List Bool} {l : List (List C × List Nat × List K)} (h : Flat.Chunked l) : rows (⟨p, Flat.pack l⟩ : FlatFermT C K) = l := by
  unfold rows
  have : (Flat.pack l).qs.zip (Flat.pack l).shs = l.map fun e => (e.1, e.2.1) := by
    simp only [Flat.pack]
    rw [List.zip_map']
  simp only [this]
  refine (Flat.zipIdx_map_block h (fun e => (e.1, e.2.1)) fun a d => (a.1, a.2, d)).trans ?_
  simp

section
variable [CommRing K]

/-- One traced block of the flat tensor, decoded. -/
def contribution (par : Q → Nat) (dec : C → Q) (ps : List (Nat × Nat)) (out : List Nat) (e : List C × List Nat × List K) : List Q × Arr K :=
  (pick out (e.1.map dec), ((Arr.ofList e.2.1 e.2.2).traceAxes (ps.map Prod.fst) (ps.map Prod.snd) out).mapK
    (· * ((computePhase ((e.1.map dec).map par) (ps.flatMap fun p => [p.1, p.2]) false : Int) : K)))

/-- The groups, summed. -/
def partsOf (par : Q → Nat) (dec : C → Q) (ps : List (Nat × Nat)) (out : List Nat) (bs : List (List C × List Nat × List K)) : List (List C × List Nat × List K) :=
  (groupRows (fun e => pick out e.1) bs).map fun g =>
    (g.1, pick out ((g.2.map fun e => e.2.1).headD []), sumRows (g.2.map (rowTrace par dec ps out)))

theorem parts_spec (par : Q → Nat) (dec : C → Q) {legs : List (BondInfo Q)} (ps : List (Nat × Nat)) {out : List Nat} (hout : ∀ i ∈ out, i < legs.length)
    (bs : List (List C × List Nat × List K)) (hc : ∀ e ∈ bs, IsCombination legs (e.1.map dec) e.2.1)
    (hinj : ∀ e ∈ bs, ∀ e' ∈ bs, ∀ c ∈ e.1, ∀ c' ∈ e'.1, dec c = dec c' → c = c') :
    Flat.Chunked (partsOf par dec ps out bs) ∧
    Conforms (pick out legs) (Flat.toSparse dec (Flat.pack (partsOf par dec ps out bs))) ∧
    UniqueLabels (Flat.toSparse dec (Flat.pack (partsOf par dec ps out bs))) ∧
    ∀ x, entry (Flat.toSparse dec (Flat.pack (partsOf par dec ps out bs))) x = (bs.map fun e => blockEntry (contribution par dec ps out e) x).sum := by
  obtain ⟨w, gm, gs⟩ := groupRows_spec (fun e : List C × List Nat × List K => pick out e.1) bs
  set G := groupRows (fun e : List C × List Nat × List K => pick out e.1) bs with hG
  have hlen : ∀ e ∈ bs, e.1.length = legs.length := by
    intro e he
    have := (hc e he).lengths
    simp only [List.length_map] at this
    omega
  have hpk : ∀ e ∈ bs, (pick out e.1).map dec = pick out (e.1.map dec) := fun e he =>
    (pick_map_in dec (by intro i hi; rw [hlen e he]; exact hout i hi)).symm
  have hcomb : ∀ e ∈ bs, IsCombination (pick out legs) ((pick out e.1).map dec) (pick out e.2.1) := by
    intro e he
    rw [hpk e he]
    exact (hc e he).pick hout
  -- shapes agree within a group
  have hsh : ∀ g ∈ G, ∀ e ∈ g.2, pick out e.2.1 = pick out ((g.2.map fun e => e.2.1).headD []) := by
    intro g hg e he
    obtain ⟨hne, hm⟩ := gm g hg
    obtain ⟨e0, t, ht⟩ := List.exists_cons_of_ne_nil hne
    have h0 : e0 ∈ g.2 := by rw [ht]; simp
    have k1 := hcomb e (hm e he).2
    have k2 := hcomb e0 (hm e0 h0).2
    rw [(hm e he).1] at k1
    rw [(hm e0 h0).1] at k2
    rw [k1.shape_unique k2, ht]
    rfl
  have hrl : ∀ g ∈ G, ∀ v ∈ g.2.map (rowTrace par dec ps out), v.length = (pick out ((g.2.map fun e => e.2.1).headD [])).prod := by
    intro g hg v hv
    obtain ⟨e, he, rfl⟩ := List.mem_map.1 hv
    rw [← hsh g hg e he]
    unfold rowTrace
    simp only [Arr.toList_length]
    rfl
  have hvne : ∀ g ∈ G, g.2.map (rowTrace par dec ps out) ≠ [] := by
    intro g hg h
    exact (gm g hg).1 (by simpa using h)
  have hch : Flat.Chunked (partsOf par dec ps out bs) := by
    intro e he
    obtain ⟨g, hg, rfl⟩ := List.mem_map.1 he
    exact (sumRows_spec _ _ (hvne g hg) (hrl g hg)).1
  refine ⟨hch, ?_, ?_, ?_⟩
  · rw [Flat.toSparse_pack dec hch]
    intro b hb
    obtain ⟨e, he, rfl⟩ := List.mem_map.1 hb
    obtain ⟨g, hg, rfl⟩ := List.mem_map.1 he
    obtain ⟨hne, hm⟩ := gm g hg
    obtain ⟨e0, t, ht⟩ := List.exists_cons_of_ne_nil hne
    have h0 : e0 ∈ g.2 := by rw [ht]; simp
    have k := hcomb e0 (hm e0 h0).2
    rw [(hm e0 h0).1, hsh g hg e0 h0] at k
    exact k
  · rw [Flat.toSparse_pack dec hch]
    unfold UniqueLabels partsOf
    rw [List.map_map, List.map_map, show ((Prod.fst ∘ (fun e : List C × List Nat × List K => (e.1.map dec, Arr.ofList e.2.1 e.2.2))) ∘ fun g : List C × List (List C × List Nat × List K) =>
        (g.1, pick out ((g.2.map fun e => e.2.1).headD []), sumRows (g.2.map (rowTrace par dec ps out)))) = List.map dec ∘ Prod.fst from rfl, ← List.map_map]
    refine List.Nodup.map_on ?_ w
    intro a ha b hb hab
    obtain ⟨g, hg, rfl⟩ := List.mem_map.1 ha
    obtain ⟨g', hg', rfl⟩ := List.mem_map.1 hb
    obtain ⟨hne, hm⟩ := gm g hg
    obtain ⟨hne', hm'⟩ := gm g' hg'
    obtain ⟨e, he⟩ := List.exists_mem_of_ne_nil _ hne
    obtain ⟨e', he'⟩ := List.exists_mem_of_ne_nil _ hne'
    rw [← (hm e he).1, ← (hm' e' he').1] at hab ⊢
    unfold pick at hab ⊢
    simp only [List.map_map] at hab
    apply List.map_congr_left
    intro i hi
    have hab' := List.map_inj_left.1 hab i hi
    simp only [Function.comp] at hab'
    have l1 : i < e.1.length := by rw [hlen e (hm e he).2]; exact hout i hi
    have l2 : i < e'.1.length := by rw [hlen e' (hm' e' he').2]; exact hout i hi
    rw [List.getD_eq_getElem _ _ l1, List.getD_eq_getElem _ _ l2] at hab' ⊢
    exact hinj e (hm e he).2 e' (hm' e' he').2 _ (List.getElem_mem l1) _ (List.getElem_mem l2) hab'
  · intro x
    rw [Flat.entry_toSparse_pack dec hch, ← gs]
    unfold Flat.entryL partsOf
    rw [List.map_map]
    congr 1
    apply List.map_congr_left
    intro g hg
    simp only [Function.comp]
    rw [blockEntry_sumRows _ _ _ (hvne g hg) (hrl g hg), List.map_map]
    congr 1
    apply List.map_congr_left
    intro e he
    simp only [Function.comp]
    rw [← ((gm g hg).2 e he).1, hpk e ((gm g hg).2 e he).2, ← hsh g hg e he]
    exact blockEntry_toList (contribution par dec ps out e).1 (contribution par dec ps out e).2 x

end
end FlatFermT
end Verif
