import Verif.Model.FlatCanon
import Verif.Spec.FlatCanon
import Verif.Proof.Flat
import Verif.Proof.Canon

/-! Factorisations of flat tensors. -/

set_option linter.unusedSectionVars false

namespace Verif
variable {C Q K : Type}

/-! ### Lists -/

theorem foldl_pair {α β γ : Type} (G : List γ) (a : γ → α → α) (b : γ → β → β) (x : α) (y : β) :
    G.foldl (fun st g => (a g st.1, b g st.2)) (x, y) = (G.foldl (fun s g => a g s) x, G.foldl (fun s g => b g s) y) := by
  induction G generalizing x y with
  | nil => rfl
  | cons g G ih => simp only [List.foldl_cons]; exact ih _ _

theorem foldl_foldl_flatMap {α β γ : Type} (G : List γ) (w : γ → List β) (f : α → β → α) (x : α) :
    G.foldl (fun s g => (w g).foldl f s) x = (G.flatMap w).foldl f x := by
  induction G generalizing x with
  | nil => rfl
  | cons g G ih => simp only [List.foldl_cons, List.flatMap_cons, List.foldl_append]; exact ih _

theorem fold_modify_length {α : Type} (W : List ((α → α) × Nat)) (m : List α) :
    (W.foldl (fun m p => m.modify p.2 p.1) m).length = m.length := by
  induction W generalizing m with
  | nil => rfl
  | cons p W ih => simp only [List.foldl_cons]; rw [ih]; simp

theorem getD_modify_ne {α : Type} (m : List α) (i j : Nat) (f : α → α) (d : α) (h : i ≠ j) : (m.modify i f).getD j d = m.getD j d := by
  simp [List.getD_eq_getElem?_getD, List.getElem?_modify, h]

theorem getD_modify_eq {α : Type} (m : List α) (i : Nat) (f : α → α) (d : α) (h : i < m.length) : (m.modify i f).getD i d = f (m.getD i d) := by
  simp [List.getD_eq_getElem?_getD, List.getElem?_modify, h]

theorem fold_modify_ne {α : Type} (W : List ((α → α) × Nat)) (m : List α) (i : Nat) (d : α) (h : i ∉ W.map Prod.snd) :
    (W.foldl (fun m p => m.modify p.2 p.1) m).getD i d = m.getD i d := by
  induction W generalizing m with
  | nil => rfl
  | cons p W ih =>
    simp only [List.map_cons, List.mem_cons, not_or] at h
    simp only [List.foldl_cons]
    rw [ih _ h.2, getD_modify_ne _ _ _ _ _ (Ne.symm h.1)]

/-- Updates at different places do not interfere. -/
theorem fold_modify_getD {α : Type} (W : List ((α → α) × Nat)) (m : List α) (d : α) (hn : (W.map Prod.snd).Nodup)
    (hlt : ∀ p ∈ W, p.2 < m.length) : ∀ p ∈ W, (W.foldl (fun m p => m.modify p.2 p.1) m).getD p.2 d = p.1 (m.getD p.2 d) := by
  induction W generalizing m with
  | nil => simp
  | cons p W ih =>
    simp only [List.map_cons, List.nodup_cons] at hn
    intro p' hp'
    simp only [List.foldl_cons]
    rcases List.mem_cons.1 hp' with rfl | h
    · rw [fold_modify_ne _ _ _ _ hn.1, getD_modify_eq _ _ _ _ (hlt _ List.mem_cons_self)]
    · rw [ih _ hn.2 (fun q hq => by simpa using hlt q (List.mem_cons_of_mem _ hq)) p' h]
      rw [getD_modify_ne]
      intro e
      exact hn.1 (by rw [e]; exact List.mem_map_of_mem h)

theorem zip_map_eq {α β γ : Type} {ps : List α} {v : List β} {a : α → γ} {b : β → γ} (h : ps.map a = v.map b) :
    ∀ p ∈ ps.zip v, a p.1 = b p.2 := by
  induction ps generalizing v with
  | nil => simp
  | cons x ps ih =>
    cases v with
    | nil => simp
    | cons y v =>
      simp only [List.map_cons, List.cons.injEq] at h
      intro p hp
      simp only [List.zip_cons_cons, List.mem_cons] at hp
      rcases hp with rfl | hp
      · exact h.1
      · exact ih h.2 p hp

theorem zip_zipWith_map {α β γ δ ε : Type} (ps : List α) (v : List β) (h : ps.length = v.length) (a : β → γ) (b : β → δ) (f : α → δ → ε) :
    (v.map a).zip (List.zipWith f ps (v.map b)) = (ps.zip v).map fun p => (a p.2, f p.1 (b p.2)) := by
  induction ps generalizing v with
  | nil => cases v with
    | nil => rfl
    | cons => simp at h
  | cons x ps ih => cases v with
    | nil => simp at h
    | cons y v => simp [ih v (by simpa using h)]

theorem forall₂_flatMap_map {α β γ : Type} (R : β → γ → Prop) (l : List α) (f : α → List β) (g : α → List γ)
    (h : ∀ a ∈ l, List.Forall₂ R (f a) (g a)) : List.Forall₂ R (l.flatMap f) (l.flatMap g) := by
  induction l with
  | nil => exact .nil
  | cons a l ih =>
    simp only [List.flatMap_cons]
    exact List.rel_append (h a List.mem_cons_self) (ih fun x hx => h x (List.mem_cons_of_mem _ hx))

/-! ### Scattering pieces -/

namespace Flat

/-- The state of the loop over the groups. -/
def scatter (nf : Nat → List Nat → List Nat) (k : C × List Nat → Nat) (ps : C × List Nat → List (Arr K)) (G : List (C × List Nat))
    (shs : List (List Nat)) (ms : List (List K)) : List (List Nat) × List (List K) :=
  G.foldl (fun st g => (g.2.foldl (fun s ia => s.modify ia (nf (k g))) st.1, putMats (ps g) g.2 st.2)) (shs, ms)

theorem putMats_eq (ps : List (Arr K)) (v : List Nat) (ms : List (List K)) :
    putMats ps v ms = ((ps.zip v).map fun p => (((fun _ => p.1.toList) : List K → List K), p.2)).foldl (fun m p => m.modify p.2 p.1) ms := by
  unfold putMats
  rw [List.foldl_map]
  congr 1
  funext m p
  apply List.ext_getElem?
  intro i
  simp only [List.getElem?_set, List.getElem?_modify]
  by_cases h : p.2 = i
  · subst h
    by_cases h2 : p.2 < m.length
    · simp [h2]
    · simp [h2]
  · simp [h]

variable {nf : Nat → List Nat → List Nat} {k : C × List Nat → Nat} {ps : C × List Nat → List (Arr K)} {G : List (C × List Nat)}
  {shs : List (List Nat)} {ms : List (List K)}

theorem scatter_fst : (scatter nf k ps G shs ms).1 =
    (G.flatMap fun g => g.2.map fun i => (nf (k g), i)).foldl (fun m p => m.modify p.2 p.1) shs := by
  unfold scatter
  rw [foldl_pair G (fun g (s : List (List Nat)) => g.2.foldl (fun s ia => s.modify ia (nf (k g))) s) (fun g s => putMats (ps g) g.2 s)]
  simp only
  rw [← foldl_foldl_flatMap]
  congr 1
  funext s g
  rw [List.foldl_map]

theorem scatter_snd : (scatter nf k ps G shs ms).2 =
    (G.flatMap fun g => ((ps g).zip g.2).map fun p => (((fun _ => p.1.toList) : List K → List K), p.2)).foldl (fun m p => m.modify p.2 p.1) ms := by
  unfold scatter
  rw [foldl_pair G (fun g (s : List (List Nat)) => g.2.foldl (fun s ia => s.modify ia (nf (k g))) s) (fun g s => putMats (ps g) g.2 s)]
  simp only
  rw [← foldl_foldl_flatMap]
  congr 1
  funext s g
  rw [putMats_eq]

theorem scatter_spec (hlen : ∀ g ∈ G, (ps g).length = g.2.length) (hn : (G.flatMap Prod.snd).Nodup)
    (hlt : ∀ i ∈ G.flatMap Prod.snd, i < shs.length ∧ i < ms.length) :
    (scatter nf k ps G shs ms).1.length = shs.length ∧ (scatter nf k ps G shs ms).2.length = ms.length ∧
    ∀ g ∈ G, ∀ p ∈ (ps g).zip g.2, (scatter nf k ps G shs ms).1.getD p.2 [] = nf (k g) (shs.getD p.2 []) ∧
      (scatter nf k ps G shs ms).2.getD p.2 [] = p.1.toList := by
  refine ⟨by rw [scatter_fst, fold_modify_length], by rw [scatter_snd, fold_modify_length], ?_⟩
  intro g hg p hp
  have hp2 : p.2 ∈ g.2 := (List.of_mem_zip (show (p.1, p.2) ∈ _ from hp)).2
  constructor
  · rw [scatter_fst]
    refine fold_modify_getD _ _ _ ?_ ?_ (nf (k g), p.2) ?_
    · rw [List.map_flatMap]
      simpa using hn
    · intro q hq
      obtain ⟨g', hg', hq⟩ := List.mem_flatMap.1 hq
      obtain ⟨i, hi, rfl⟩ := List.mem_map.1 hq
      exact (hlt i (List.mem_flatMap.2 ⟨g', hg', hi⟩)).1
    · exact List.mem_flatMap.2 ⟨g, hg, List.mem_map.2 ⟨p.2, hp2, rfl⟩⟩
  · rw [scatter_snd]
    have := fold_modify_getD (G.flatMap fun g => ((ps g).zip g.2).map fun p => (((fun _ => p.1.toList) : List K → List K), p.2)) ms [] ?_ ?_
      (fun _ => p.1.toList, p.2) (List.mem_flatMap.2 ⟨g, hg, List.mem_map.2 ⟨p, hp, rfl⟩⟩)
    · exact this
    · rw [List.map_flatMap]
      have e : (G.flatMap fun g => (((ps g).zip g.2).map fun p => (((fun _ => p.1.toList) : List K → List K), p.2)).map Prod.snd) =
          G.flatMap Prod.snd := by
        apply List.flatMap_congr
        intro g hg
        rw [List.map_map]
        exact List.map_snd_zip (by rw [hlen g hg])
      rw [e]; exact hn
    · intro q hq
      obtain ⟨g', hg', hq⟩ := List.mem_flatMap.1 hq
      obtain ⟨i, hi, rfl⟩ := List.mem_map.1 hq
      have : i.2 ∈ g'.2 := (List.of_mem_zip (show (i.1, i.2) ∈ _ from hi)).2
      exact (hlt i.2 (List.mem_flatMap.2 ⟨g', hg', this⟩)).2

end Flat

/-! ### Grouping -/

section group
variable {α β : Type} [DecidableEq C] [DecidableEq Q]

theorem dict_set_map (δ : C → Q) (h : α → β) (m : Dict C α) (k : C) (v : α) (hinj : ∀ p ∈ m, δ p.1 = δ k → p.1 = k) :
    Dict.set (m.map fun p => (δ p.1, h p.2)) (δ k) (h v) = (Dict.set m k v).map fun p => (δ p.1, h p.2) := by
  induction m with
  | nil => rfl
  | cons p m ih =>
    obtain ⟨a, b⟩ := p
    simp only [List.map_cons, Dict.set]
    by_cases e : a = k
    · subst e; simp
    · have : δ a ≠ δ k := fun e' => e (hinj (a, b) List.mem_cons_self e')
      rw [if_neg this, if_neg e, List.map_cons, ih fun p hp => hinj p (List.mem_cons_of_mem _ hp)]

theorem dict_get?_map (δ : C → Q) (h : α → β) (m : Dict C α) (k : C) (hinj : ∀ p ∈ m, δ p.1 = δ k → p.1 = k) :
    Dict.get? (m.map fun p => (δ p.1, h p.2)) (δ k) = (Dict.get? m k).map h := by
  induction m with
  | nil => rfl
  | cons p m ih =>
    obtain ⟨a, b⟩ := p
    simp only [List.map_cons, Dict.get?]
    by_cases e : a = k
    · subst e; simp
    · have : δ a ≠ δ k := fun e' => e (hinj (a, b) List.mem_cons_self e')
      rw [if_neg this, if_neg e, ih fun p hp => hinj p (List.mem_cons_of_mem _ hp)]

/-- Grouping commutes with renaming of items and of labels. -/
theorem groupBy_rename (δ : C → Q) (φ : α → β) (key : α → C) (key' : β → Q) (l : List α) (hk : ∀ a ∈ l, key' (φ a) = δ (key a))
    (hinj : ∀ a ∈ l, ∀ b ∈ l, δ (key a) = δ (key b) → key a = key b) :
    groupBy key' (l.map φ) = (groupBy key l).map fun g => (δ g.1, g.2.map φ) := by
  induction l using List.reverseRecOn with
  | nil => rfl
  | append_singleton t x ih =>
    have ih' := ih (fun a ha => hk a (by simp [ha])) (fun a ha b hb => hinj a (by simp [ha]) b (by simp [hb]))
    have hm : ∀ p ∈ groupBy key t, δ p.1 = δ (key x) → p.1 = key x := by
      intro p hp e
      obtain ⟨h1, h2⟩ := mem_groupBy hp
      obtain ⟨b, hb⟩ := List.exists_mem_of_ne_nil _ h2
      rw [h1, List.mem_filter] at hb
      have hb2 : key b = p.1 := by simpa using hb.2
      rw [← hb2] at e ⊢
      exact hinj b (by simp [hb.1]) x (by simp) e
    have s1 : groupBy key' ((t ++ [x]).map φ) = Dict.set (groupBy key' (t.map φ)) (key' (φ x))
        ((Dict.get? (groupBy key' (t.map φ)) (key' (φ x))).getD [] ++ [φ x]) := by
      unfold groupBy; simp [List.foldl_append]
    have s2 : groupBy key (t ++ [x]) = Dict.set (groupBy key t) (key x) ((Dict.get? (groupBy key t) (key x)).getD [] ++ [x]) := by
      unfold groupBy; simp [List.foldl_append]
    rw [s1, s2, ih', hk x (by simp), dict_get?_map δ (List.map φ) _ _ hm, ← dict_set_map δ (List.map φ) _ _ _ hm]
    congr 1
    cases Dict.get? (groupBy key t) (key x) <;> simp

end group

/-! ### Arrays -/

theorem ravel_unravel_pos {s : List Nat} (hne : s ≠ []) (hp : ∀ d ∈ s, 0 < d) (k : Nat) : ravel s (unravel s k) = k := by
  induction s generalizing k with
  | nil => exact absurd rfl hne
  | cons a t ih =>
    simp only [unravel, ravel]
    cases t with
    | nil => simp [ravel]
    | cons b t =>
      rw [ih (by simp) (fun d hd => hp d (List.mem_cons_of_mem _ hd))]
      exact Nat.div_add_mod' _ _

theorem reshape_ofList [Zero K] {s : List Nat} (hne : s ≠ []) (hp : ∀ d ∈ s, 0 < d) (d : List K) (sh : List Nat) :
    (Arr.ofList s d).reshape sh = Arr.ofList sh d := by
  unfold Arr.reshape Arr.ofList
  congr 1
  funext ix
  simp only
  rw [ravel_unravel_pos hne hp]

theorem ofList_toList_reshape [Zero K] (p : Arr K) (sh : List Nat) (h : p.shape.prod = sh.prod) (ix : List Nat) (hix : inBox sh ix = true) :
    (Arr.ofList sh p.toList).get ix = (p.reshape sh).get ix := by
  have hl := ravel_lt hix
  unfold Arr.ofList Arr.toList Arr.reshape
  simp only
  rw [getD_map_range _ (by rw [h]; exact hl)]

theorem split_shapes (m : Nat) (u : Arr K) (ls : List Nat) (hne : ls ≠ []) (o : Nat) (h : u.shape.getD m 0 = o + ls.sum) :
    (u.split m o (accumulateFrom o ls.dropLast)).map Arr.shape = ls.map fun n => u.shape.set m n := by
  induction ls generalizing o with
  | nil => exact absurd rfl hne
  | cons a ls ih =>
    cases ls with
    | nil =>
      simp only [List.dropLast_singleton, accumulateFrom, Arr.split, List.map_cons, List.map_nil, Arr.sliceAxis]
      rw [h]; simp
    | cons b ls =>
      simp only [List.dropLast_cons_cons, accumulateFrom, Arr.split, List.map_cons]
      have := ih (by simp) (o + a) (by rw [h]; simp; omega)
      simp only [List.map_cons] at this
      rw [this]
      simp [Arr.sliceAxis]

/-! ### One factor of a flat tensor -/

namespace Flat
variable [Zero K]

/-- Triple number `i`. -/
def trip (l : List (List C × List Nat × List K)) (i : Nat) : List C × List Nat × List K := l.getD i ([], [], [])

/-- Block number `i` as a block. -/
def blk (dec : C → Q) (l : List (List C × List Nat × List K)) (i : Nat) : List Q × Arr K :=
  ((trip l i).1.map dec, Arr.ofList (trip l i).2.1 (trip l i).2.2)

theorem trip_eq {l : List (List C × List Nat × List K)} {i : Nat} (h : i < l.length) : trip l i = l[i] := by
  simp [trip, h]

theorem trip_mem {l : List (List C × List Nat × List K)} {i : Nat} (h : i < l.length) : trip l i ∈ l := by
  rw [trip_eq h]; exact List.getElem_mem h

theorem map_trip (l : List (List C × List Nat × List K)) : (List.range l.length).map (trip l) = l := by
  apply List.ext_getElem
  · simp
  · intro i h1 h2
    simp [trip_eq h2]

theorem toSparse_blk (dec : C → Q) {l : List (List C × List Nat × List K)} (h : Chunked l) :
    toSparse dec (pack l) = (List.range l.length).map (blk dec l) := by
  rw [toSparse_pack dec h]
  conv_lhs => rw [← map_trip l]
  rw [List.map_map]; rfl

theorem pack_qs_getD (l : List (List C × List Nat × List K)) (i : Nat) : (pack l).qs.getD i [] = (trip l i).1 := by
  unfold pack trip
  simp only [List.getD_eq_getElem?_getD, List.getElem?_map]
  cases l[i]? <;> rfl

theorem pack_shs_getD (l : List (List C × List Nat × List K)) (i : Nat) : (pack l).shs.getD i [] = (trip l i).2.1 := by
  unfold pack trip
  simp only [List.getD_eq_getElem?_getD, List.getElem?_map]
  cases l[i]? <;> rfl

theorem pack_block' {l : List (List C × List Nat × List K)} (h : Chunked l) {i : Nat} (hi : i < l.length) :
    (pack l).block i = (trip l i).2.2 := by rw [pack_block h i hi, trip_eq hi]

/-- A tensor assembled from chosen rows. -/
theorem mk'_pick (qs : List (List C)) (shs : List (List Nat)) (ms : List (List K)) (v : List Nat) :
    mk' (v.map fun i => qs.getD i []) (v.map fun i => shs.getD i []) (v.map fun i => ms.getD i []).flatten =
      pack (v.map fun i => (qs.getD i [], shs.getD i [], ms.getD i [])) := by
  unfold mk' pack
  simp [List.map_map, Function.comp_def]

theorem getD_range {α : Type} (l : List α) (d : α) : (List.range l.length).map (fun i => l.getD i d) = l := by
  apply List.ext_getElem
  · simp
  · intro i h1 h2
    simp [h2]

/-- Blocks whose entries are listed. -/
theorem sameBlocks_list {α : Type} (dec : C → Q) (G : List α) (lab : α → List C) (a : α → Arr K) (sh : α → List Nat)
    (hs : ∀ g ∈ G, sh g = (a g).shape) :
    (mk' (G.map lab) (G.map sh) (G.map fun g => (a g).toList).flatten).WellFormed ∧
    SameBlocks (toSparse dec (mk' (G.map lab) (G.map sh) (G.map fun g => (a g).toList).flatten))
      (G.map fun g => ((lab g).map dec, a g)) := by
  have e : mk' (G.map lab) (G.map sh) (G.map fun g => (a g).toList).flatten = pack (G.map fun g => (lab g, sh g, (a g).toList)) := by
    unfold mk' pack
    simp [List.map_map, Function.comp_def]
  have hch : Chunked (G.map fun g => (lab g, sh g, (a g).toList)) := by
    intro x hx
    obtain ⟨g, hg, rfl⟩ := List.mem_map.1 hx
    simp [hs g hg]
  rw [e]
  refine ⟨pack_wellFormed hch, ?_⟩
  rw [toSparse_pack dec hch, List.map_map]
  unfold SameBlocks
  rw [List.forall₂_map_left_iff, List.forall₂_map_right_iff, List.forall₂_same]
  intro g hg
  refine ⟨rfl, hs g hg, ?_⟩
  intro ix hix
  simp only [Function.comp, Arr.ofList] at hix ⊢
  rw [hs g hg] at hix ⊢
  exact Arr.toList_getD _ hix

variable {l : List (List C × List Nat × List K)} {nf : Nat → List Nat → List Nat} {k : C × List Nat → Nat}
  {ps : C × List Nat → List (Arr K)} {G : List (C × List Nat)}

/-- The pieces of one factor, in the order of the groups. -/
theorem scattered_same (dec : C → Q) (hperm : (G.flatMap Prod.snd).Perm (List.range l.length))
    (hlen : ∀ g ∈ G, (ps g).length = g.2.length)
    (hprod : ∀ g ∈ G, ∀ p ∈ (ps g).zip g.2, p.1.shape.prod = (nf (k g) (trip l p.2).2.1).prod) :
    let st := scatter nf k ps G (pack l).shs (List.replicate (pack l).qs.length [])
    let v := G.flatMap Prod.snd
    (mk' (v.map fun i => (pack l).qs.getD i []) (v.map fun i => st.1.getD i []) (v.map fun i => st.2.getD i []).flatten).WellFormed ∧
    SameBlocks (toSparse dec (mk' (v.map fun i => (pack l).qs.getD i []) (v.map fun i => st.1.getD i []) (v.map fun i => st.2.getD i []).flatten))
      (G.flatMap fun g => (g.2.map fun i => (blk dec l i).1).zip
        (List.zipWith (fun p a => p.reshape (nf (k g) a.shape)) (ps g) (g.2.map fun i => (blk dec l i).2))) ∧
    (mk' (pack l).qs st.1 st.2.flatten).WellFormed ∧
    (toSparse dec (mk' (v.map fun i => (pack l).qs.getD i []) (v.map fun i => st.1.getD i []) (v.map fun i => st.2.getD i []).flatten)).Perm
      (toSparse dec (mk' (pack l).qs st.1 st.2.flatten)) := by
  intro st v
  have hlt : ∀ i ∈ v, i < l.length := fun i hi => by simpa using hperm.mem_iff.1 hi
  obtain ⟨h1, h2, h3⟩ := scatter_spec (nf := nf) (k := k) (shs := (pack l).shs) (ms := List.replicate (pack l).qs.length []) hlen
    (hperm.nodup_iff.2 List.nodup_range) (fun i hi => by simpa [pack] using hlt i hi)
  have hch : Chunked (v.map fun i => ((pack l).qs.getD i [], st.1.getD i [], st.2.getD i [])) := by
    intro x hx
    obtain ⟨i, hi, rfl⟩ := List.mem_map.1 hx
    obtain ⟨g, hg, hi⟩ := List.mem_flatMap.1 hi
    have : i ∈ ((ps g).zip g.2).map Prod.snd := by rw [List.map_snd_zip (by rw [hlen g hg])]; exact hi
    obtain ⟨p, hp, rfl⟩ := List.mem_map.1 this
    obtain ⟨e1, e2⟩ := h3 g hg p hp
    show (st.2.getD p.2 []).length = (st.1.getD p.2 []).prod
    rw [show st.1.getD p.2 [] = _ from e1, show st.2.getD p.2 [] = _ from e2, Arr.toList_length, hprod g hg p hp, pack_shs_getD]
  have hv := mk'_pick (pack l).qs st.1 st.2 v
  have hqs : (pack l).qs.length = l.length := by simp [pack]
  have hr1 : st.1.length = l.length := by rw [show st.1.length = _ from h1]; simp [pack]
  have hr2 : st.2.length = l.length := by rw [show st.2.length = _ from h2]; simp [pack]
  have ho : mk' (pack l).qs st.1 st.2.flatten =
      pack ((List.range l.length).map fun i => ((pack l).qs.getD i [], st.1.getD i [], st.2.getD i [])) := by
    rw [← mk'_pick]
    conv_rhs => enter [1]; rw [← hqs, getD_range]
    conv_rhs => enter [2]; rw [← hr1, getD_range]
    conv_rhs => enter [3]; rw [← hr2, getD_range]
  have hpm : (v.map fun i => ((pack l).qs.getD i [], st.1.getD i [], st.2.getD i [])).Perm
      ((List.range l.length).map fun i => ((pack l).qs.getD i [], st.1.getD i [], st.2.getD i [])) := hperm.map _
  have hco : Chunked ((List.range l.length).map fun i => ((pack l).qs.getD i [], st.1.getD i [], st.2.getD i [])) :=
    fun x hx => hch x (hpm.mem_iff.2 hx)
  rw [hv, ho]
  refine ⟨pack_wellFormed hch, ?_, pack_wellFormed hco, ?_⟩
  · rw [toSparse_pack dec hch, List.map_map]
    show SameBlocks (v.map _) _
    have hmf : v.map ((fun e : List C × List Nat × List K => (e.1.map dec, Arr.ofList e.2.1 e.2.2)) ∘
        fun i => ((pack l).qs.getD i [], st.1.getD i [], st.2.getD i [])) = G.flatMap fun g => g.2.map fun i =>
          (((pack l).qs.getD i []).map dec, Arr.ofList (st.1.getD i []) (st.2.getD i [])) := by
      show (G.flatMap Prod.snd).map _ = _
      rw [List.map_flatMap]; rfl
    rw [hmf]
    refine forall₂_flatMap_map _ G _ _ ?_
    intro g hg
    have hz : ((ps g).zip g.2).map Prod.snd = g.2 := List.map_snd_zip (by rw [hlen g hg])
    have eR : (g.2.map fun i => (blk dec l i).1).zip
        (List.zipWith (fun p a => p.reshape (nf (k g) a.shape)) (ps g) (g.2.map fun i => (blk dec l i).2)) =
        ((ps g).zip g.2).map fun p => ((blk dec l p.2).1, p.1.reshape (nf (k g) (blk dec l p.2).2.shape)) :=
      zip_zipWith_map (ps g) g.2 (hlen g hg) (fun i => (blk dec l i).1) (fun i => (blk dec l i).2)
        (fun p a => p.reshape (nf (k g) a.shape))
    have eL : (g.2.map fun i => (((pack l).qs.getD i []).map dec, Arr.ofList (st.1.getD i []) (st.2.getD i []))) =
        ((ps g).zip g.2).map fun p => (((pack l).qs.getD p.2 []).map dec, Arr.ofList (st.1.getD p.2 []) (st.2.getD p.2 [])) := by
      conv_lhs => rw [← hz]
      rw [List.map_map]; rfl
    rw [eR, eL, List.forall₂_map_left_iff, List.forall₂_map_right_iff, List.forall₂_same]
    intro p hp
    obtain ⟨e1, e2⟩ := h3 g hg p hp
    have e1' : st.1.getD p.2 [] = nf (k g) (trip l p.2).2.1 := by rw [← pack_shs_getD]; exact e1
    have e2' : st.2.getD p.2 [] = p.1.toList := e2
    rw [e1', e2', pack_qs_getD]
    refine ⟨rfl, rfl, ?_⟩
    intro ix hix
    exact ofList_toList_reshape _ _ (hprod g hg p hp) ix hix
  · rw [toSparse_pack dec hch, toSparse_pack dec hco]
    exact hpm.map _

end Flat

end Verif
