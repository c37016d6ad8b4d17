import Verif.Proof.BuildMpoSvd
import Verif.Proof.MpsInfos

/-!
Lemmas for the construction of matrix product operators: one step over a site, and all steps.
-/

set_option linter.unusedSectionVars false

namespace Verif
namespace BuildMpo
variable {N L K R V : Type} [CommRing K] [DecidableEq K] [DecidableEq N] [Ring R] [Algebra K R] [AddCommGroup L] [DecidableEq L]
variable {x : N} {lab : N → List Int → Option L} {iop : OpElement N L K}

/-- The entries of the matrix of a site. -/
def entriesOf {γ : Type} (jobs : List (γ × Nat × Nat × Nat)) (es : List (Option (OpElement N L K))) : List ((Nat × Nat) × OpElement N L K) :=
  (jobs.zip es).filterMap fun p => p.2.map fun e => ((p.1.2.1, p.1.2.2.2), e)

theorem entries_sum {γ : Type} (v : N → List Int → R) (ops : Dict (Key N) (OpVal N L K)) (F : γ × Nat × Nat × Nat → OpVal N L K) (C : Nat → R) (ip : Nat)
    {jobs : List (γ × Nat × Nat × Nat)} {es : List (Option (OpElement N L K))} (h : List.Forall₂ (fun j o => Placed x lab ops (F j) o) jobs es) :
    (((entriesOf jobs es).filter fun p => decide (p.1.1 = ip)).map fun p => entryValue v ops p.2 * C p.1.2).sum =
      (jobs.map fun j => if j.2.1 = ip then evalVal v (F j) * C j.2.2.2 else 0).sum := by
  induction h with
  | nil => rfl
  | @cons j o jobs es h1 _ ih =>
    unfold entriesOf at ih ⊢
    simp only [List.zip_cons_cons, List.filterMap_cons, List.map_cons, List.sum_cons]
    cases o with
    | none =>
      simp only [Placed] at h1
      simp only [Option.map_none, ih, h1, evalVal, map_zero, zero_mul, ite_self, zero_add]
    | some e =>
      obtain ⟨w, hw, hs⟩ := h1
      simp only [Option.map_some, List.filter_cons, decide_eq_true_eq]
      have he : entryValue v ops e = evalVal v (F j) := by
        rw [entryValue, hw]
        exact hs.eval v
      split_ifs with h2
      · rw [List.map_cons, List.sum_cons, ih, he]
      · rw [ih, zero_add]

theorem mem_entriesOf {γ : Type} (ops : Dict (Key N) (OpVal N L K)) (F : γ × Nat × Nat × Nat → OpVal N L K)
    {jobs : List (γ × Nat × Nat × Nat)} {es : List (Option (OpElement N L K))} (h : List.Forall₂ (fun j o => Placed x lab ops (F j) o) jobs es) :
    ∀ p ∈ entriesOf jobs es, ∃ j ∈ jobs, p.1 = (j.2.1, j.2.2.2) ∧ Placed x lab ops (F j) (some p.2) := by
  induction h with
  | nil => intro p hp; simp [entriesOf] at hp
  | @cons j o jobs es h1 _ ih =>
    intro p hp
    unfold entriesOf at ih hp
    simp only [List.zip_cons_cons, List.filterMap_cons] at hp
    cases o with
    | none =>
      obtain ⟨j', h2, h3⟩ := ih p hp
      exact ⟨j', List.mem_cons_of_mem _ h2, h3⟩
    | some e =>
      simp only [Option.map_some, List.mem_cons] at hp
      rcases hp with rfl | hp
      · exact ⟨j, List.mem_cons_self, rfl, h1⟩
      · obtain ⟨j', h2, h3⟩ := ih p hp
        exact ⟨j', List.mem_cons_of_mem _ h2, h3⟩

/-- The entries of a new matrix in the order in which they are made. -/
def leftJobs (svd : Arr K → Arr K × Arr V × Arr K) (big : V → Bool) (rows : Nat) (gs : List (Group N L K)) : List (Group N L K × Nat × Nat × Nat) :=
  (columns svd big 0 gs).flatMap fun g => (List.range rows).flatMap fun ip => g.2.map fun t => (g.1, ip, t)

theorem leftJobs_sum (svd : Arr K → Arr K × Arr V × Arr K) (big : V → Bool) (rows : Nat) (gs : List (Group N L K)) (F : Group N L K → Nat → Nat × Nat → R)
    {ip : Nat} (hip : ip < rows) :
    ((leftJobs svd big rows gs).map fun j => if j.2.1 = ip then F j.1 j.2.1 j.2.2 else 0).sum = ((newCols svd big 0 gs).map fun j => F j.1 ip j.2).sum := by
  unfold leftJobs newCols
  rw [sum_flatMap', sum_flatMap']
  refine sum_map_congr' _ _ _ fun g _ => ?_
  rw [sum_flatMap']
  have e : ∀ ip', ((g.2.map fun t => (g.1, ip', t)).map fun j => if j.2.1 = ip then F j.1 j.2.1 j.2.2 else 0).sum =
      if ip' = ip then (g.2.map fun t => F g.1 ip' t).sum else 0 := by
    intro ip'
    rw [List.map_map]
    split_ifs with h
    · refine sum_map_congr' _ _ _ fun t _ => ?_
      simp [h]
    · refine sum_map_zero' _ _ fun t _ => ?_
      simp [h]
  simp only [e]
  rw [sum_map_ite_eq' _ List.nodup_range ip (fun ip' => (g.2.map fun t => F g.1 ip' t).sum), if_pos (List.mem_range.2 hip), List.map_map]
  rfl

theorem mem_leftJobs {svd : Arr K → Arr K × Arr V × Arr K} {big : V → Bool} {rows : Nat} {gs : List (Group N L K)} {j : Group N L K × Nat × Nat × Nat}
    (h : j ∈ leftJobs svd big rows gs) : j.2.1 < rows ∧ (j.1, j.2.2) ∈ newCols svd big 0 gs := by
  unfold leftJobs at h
  obtain ⟨g, hg, h⟩ := List.mem_flatMap.1 h
  obtain ⟨ip, hip, h⟩ := List.mem_flatMap.1 h
  obtain ⟨t, ht, rfl⟩ := List.mem_map.1 h
  exact ⟨List.mem_range.1 hip, List.mem_flatMap.2 ⟨g, hg, List.mem_map.2 ⟨t, ht, rfl⟩⟩⟩

/-- One step of the construction. -/
theorem rightSvd_spec [Nontrivial K] (names : N × N × N) (hx : names.1 = x) (hi : IdentOK x lab iop) {small : K → Bool} (hsmall : ∀ x, small x = true ↔ x = 0)
    {c : V → K} {svd : Arr K → Arr K × Arr V × Arr K} (hsvd : IsSvd c svd) {big : V → Bool} (hbig : ∀ s, big s = false → c s = 0) {n i : Int} {ne : Prop}
    {col : Column N L K} (hc : ColOK x lab iop n i ne col) :
    ∃ m col', rightSvd names small c svd big iop i col = some (m, col') ∧ ColOK x lab iop n (i + 1) True col' ∧ SiteOk lab iop i m ∧ m.lop = col.lop ∧
      (m.rop.map (·.label) = col'.lop.map fun e => -e.label) ∧
      ∀ v : N → List Int → R, v iop.name iop.site = 1 → ∀ C : Nat → R, (∀ k < col'.mat.length, C k = columnValue v col' k) → ∀ ip < col.mat.length,
        ((m.entries.filter fun p => decide (p.1.1 = ip)).map fun p => entryValue v m.ops p.2 * C p.1.2).sum = columnValue v col ip := by
  subst hx
  obtain ⟨gs, g1, g2, g3⟩ := collectAll_spec (R := R) hi (fun x h => (hsmall x).1 h) hc
  have hcols := getElem?_newCols svd big gs
  have hmem := mem_newCols svd big gs 0
  have hL : ∀ j ∈ leftJobs svd big col.mat.length gs, AccOK (leftV small c svd j.1 j.2.1 j.2.2.1) ∧ j.1.leftVal small c svd j.2.1 j.2.2.1 = some (leftV small c svd j.1 j.2.1 j.2.2.1) ∧
      ∀ s ∈ strs (leftV small c svd j.1 j.2.1 j.2.2.1), s.factor ≠ 0 ∧ (∀ e ∈ s.ops, Ok names.1 lab e ∧ AtSite iop i e) ∧ charge s.ops = j.1.ql + rowLabel col j.2.1 ∧ s.ops ≠ [] := by
    intro j hj
    obtain ⟨val, h1, h2, h3, _⟩ := leftVal_spec (R := R) hsmall c svd (g2 j.1 (hmem _ (mem_leftJobs hj).2)).1 j.2.1 j.2.2.1
    rw [leftV, h1]
    exact ⟨h2, rfl, h3⟩
  have hR : ∀ j ∈ newCols svd big 0 gs, AccOK (rightV small svd j.1 j.2.1) ∧ j.1.rightVal small svd j.2.1 = some (rightV small svd j.1 j.2.1) ∧
      ∀ s ∈ strs (rightV small svd j.1 j.2.1), s.factor ≠ 0 ∧ Later names.1 lab iop n (i + 1) s.ops ∧ charge s.ops = j.1.qr ∧ s.ops ≠ [] := by
    intro j hj
    obtain ⟨val, h1, h2, h3, _⟩ := rightVal_spec (R := R) hsmall svd (g2 j.1 (hmem _ hj)).1 j.2.1
    rw [rightV, h1]
    exact ⟨h2, rfl, h3⟩
  have hlefts : (leftJobs svd big col.mat.length gs).mapM (fun j => (j.1.leftVal small c svd j.2.1 j.2.2.1).map fun v => (j.1.ql + ((col.lop[j.2.1]?).map (·.label)).getD 0, v)) =
      some ((leftJobs svd big col.mat.length gs).map fun j => (j.1.ql + ((col.lop[j.2.1]?).map (·.label)).getD 0, leftV small c svd j.1 j.2.1 j.2.2.1)) := by
    refine mapM_some' _ _ _ fun j hj => ?_
    rw [(hL j hj).2.1]
    rfl
  have hrights : (newCols svd big 0 gs).mapM (fun j => (j.1.rightVal small svd j.2.1).map fun v => (j.1.qr, v)) =
      some ((newCols svd big 0 gs).map fun j => (j.1.qr, rightV small svd j.1 j.2.1)) := by
    refine mapM_some' _ _ _ fun j hj => ?_
    rw [(hR j hj).2.1]
    rfl
  have hd0 : DictOK names.1 lab 0 ([] : Dict (Key N) (OpVal N L K)) := by
    intro k w h
    simp [Dict.get?] at h
  obtain ⟨es, lops, e1, _, e2⟩ := placeAll_spec (x := names.1) (lab := lab) ((leftJobs svd big col.mat.length gs).map fun j => (j.1.ql + ((col.lop[j.2.1]?).map (·.label)).getD 0, leftV small c svd j.1 j.2.1 j.2.2.1)) (by
      intro y hy
      obtain ⟨j, hj, rfl⟩ := List.mem_map.1 hy
      exact (hL j hj).1) (by
      intro y hy s hs
      obtain ⟨j, hj, rfl⟩ := List.mem_map.1 hy
      obtain ⟨h1, h2, _⟩ := (hL j hj).2.2 s hs
      exact ⟨h1, fun a ha => (h2 a ha).1⟩) 0 [] hd0
  obtain ⟨fs, rops, f1, _, f2⟩ := placeAll_spec (x := names.1) (lab := lab) ((newCols svd big 0 gs).map fun j => (j.1.qr, rightV small svd j.1 j.2.1)) (by
      intro y hy
      obtain ⟨j, hj, rfl⟩ := List.mem_map.1 hy
      exact (hR j hj).1) (by
      intro y hy s hs
      obtain ⟨j, hj, rfl⟩ := List.mem_map.1 hy
      obtain ⟨h1, h2, _⟩ := (hR j hj).2.2 s hs
      exact ⟨h1, fun a ha => (h2.2 a ha).1⟩) 0 [] hd0
  have e2 := List.forall₂_map_left_iff.1 e2
  have f2 := List.forall₂_map_left_iff.1 f2
  have hlen : fs.length = (newCols svd big 0 gs).length := f2.length_eq.symm
  have hfs : ∀ (k : Nat) (o : Option (OpElement N L K)), fs[k]? = some o → ∃ j ∈ newCols svd big 0 gs, (newCols svd big 0 gs)[k]? = some j ∧ Placed names.1 lab rops (rightV small svd j.1 j.2.1) o := by
    intro k o hk
    obtain ⟨hk1, hk2⟩ := List.getElem?_eq_some_iff.1 hk
    have hk3 : k < (newCols svd big 0 gs).length := hlen ▸ hk1
    refine ⟨(newCols svd big 0 gs)[k], List.getElem_mem _, List.getElem?_eq_getElem hk3, ?_⟩
    have := f2.get hk3 hk1
    simp only [List.get_eq_getElem, hk2] at this
    exact this
  have hfs2 : ∀ j ∈ newCols svd big 0 gs, j.2.2 < fs.length ∧ ∃ o, fs[j.2.2]? = some o ∧ Placed names.1 lab rops (rightV small svd j.1 j.2.1) o := by
    intro j hj
    have h1 := hcols j hj
    have h2 : j.2.2 < fs.length := by
      obtain ⟨h, _⟩ := List.getElem?_eq_some_iff.1 h1
      rw [hlen]
      exact h
    refine ⟨h2, fs[j.2.2], List.getElem?_eq_getElem h2, ?_⟩
    obtain ⟨j', _, h3, h4⟩ := hfs j.2.2 _ (List.getElem?_eq_getElem h2)
    rw [h1] at h3
    injection h3 with h3
    subst h3
    exact h4
  refine ⟨⟨col.mat.length, (newCols svd big 0 gs).length, entriesOf (leftJobs svd big col.mat.length gs) es, lops, col.lop,
      (newCols svd big 0 gs).map fun j => ⟨names.2.2, [(j.2.2 : Int)], 1, j.1.ql⟩⟩,
    ⟨(newCols svd big 0 gs).map fun j => ⟨names.2.1, [(j.2.2 : Int)], 1, j.1.qr⟩, fs, rops⟩, ?_, ?_, ?_, rfl, ?_, ?_⟩
  · unfold rightSvd
    rw [g1]
    unfold leftJobs at hlefts e1 ⊢
    unfold newCols at hrights f1 ⊢
    simp only [hlefts, hrights, e1, f1]
    rfl
  · refine ⟨by simp [hlen], ?_⟩
    intro k e hk
    obtain ⟨j, hj, h1, w, hw, hs⟩ := hfs k _ hk
    refine ⟨⟨names.2.1, [(j.2.2 : Int)], 1, j.1.qr⟩, w, _, ?_, hw, hs, ?_⟩
    · simp only [List.getElem?_map, h1, Option.map_some]
    · intro s hs
      obtain ⟨_, h5, h6, h7⟩ := (hR j hj).2.2 s hs
      exact ⟨h5, h6, fun _ => h7⟩
  · refine ⟨hc.rows, by simp, ?_⟩
    intro p hp
    obtain ⟨j, hj, h1, w, hw, hs⟩ := mem_entriesOf lops _ e2 p hp
    obtain ⟨h2, h3⟩ := mem_leftJobs hj
    have h4 : j.2.1 < col.lop.length := by rw [hc.rows]; exact h2
    refine ⟨col.lop[j.2.1], ⟨names.2.2, [(j.2.2.2 : Int)], 1, j.1.ql⟩, w, ?_, ?_, hw, hs.plain, ?_⟩
    · rw [h1]
      exact List.getElem?_eq_getElem h4
    · rw [h1]
      simp only [List.getElem?_map, hcols _ h3, Option.map_some]
    · intro s hs'
      obtain ⟨t, ht, e⟩ := hs.ops s hs'
      obtain ⟨_, h5, h6, h7⟩ := (hL j hj).2.2 t ht
      rw [e]
      refine ⟨h7, fun a ha => ⟨(h5 a ha).1.1, (h5 a ha).1.2.1, (h5 a ha).2⟩, ?_⟩
      rw [h6, rowLabel, List.getElem?_eq_getElem h4, add_comm]
      rfl
  · simp only [List.map_map]
    refine List.map_congr_left fun j hj => ?_
    have := (g2 j.1 (hmem j hj)).1.zero
    simp only [Function.comp]
    exact eq_neg_of_add_eq_zero_left this
  · intro v hv C hC ip hip
    rw [entries_sum v lops _ C ip e2]
    simp only
    rw [leftJobs_sum svd big col.mat.length gs (fun g ip t => evalVal v (leftV small c svd g ip t.1) * C t.2) hip]
    have : ∀ j ∈ newCols svd big 0 gs, evalVal v (leftV small c svd j.1 ip j.2.1) * C j.2.2 = evalVal v (leftV small c svd j.1 ip j.2.1) * evalVal v (rightV small svd j.1 j.2.1) := by
      intro j hj
      obtain ⟨h1, o, h2, h3⟩ := hfs2 j hj
      rw [hC _ h1, columnValue, h2]
      cases o with
      | none =>
        simp only [Placed] at h3
        simp [h3, evalVal]
      | some e =>
        obtain ⟨w, hw, hs⟩ := h3
        simp only [entryValue, hw, Option.getD_some, hs.eval v]
    rw [sum_map_congr' _ _ _ this, sum_newCols svd big (fun g t => evalVal v (leftV small c svd g ip t) * evalVal v (rightV small svd g t)), ← g3 v hv ip hip]
    refine sum_map_congr' _ _ _ fun g hg => ?_
    obtain ⟨h1, h2, h3⟩ := g2 g hg
    exact group_sum hsmall hsvd hbig h1 h2 h3 v ip

theorem ColOK.mono {n i : Int} {p q : Prop} {col : Column N L K} (h : ColOK x lab iop n i p col) (hpq : q → p) : ColOK x lab iop n i q col := by
  refine ⟨h.rows, fun j e hj => ?_⟩
  obtain ⟨a, w, val, h1, h2, h3, h4⟩ := h.entries j e hj
  exact ⟨a, w, val, h1, h2, h3, fun s hs => ⟨(h4 s hs).1, (h4 s hs).2.1, fun hq => (h4 s hs).2.2 (hpq hq)⟩⟩

/-- All steps of the construction. -/
theorem split_chain [Nontrivial K] (names : N × N × N) (hx : names.1 = x) (hi : IdentOK x lab iop) {small : K → Bool} (hsmall : ∀ x, small x = true ↔ x = 0)
    {c : V → K} {svd : Arr K → Arr K × Arr V × Arr K} (hsvd : IsSvd c svd) {big : V → Bool} (hbig : ∀ s, big s = false → c s = 0) {n : Int} (k : Nat) :
    ∀ (i : Nat) (ne : Prop) (col : Column N L K), ColOK x lab iop n i ne col →
    ∃ ms col', split names small c svd big iop (List.range' i k) col = some (ms, col') ∧ ms.length = k ∧ ColOK x lab iop n (i + k : Nat) (0 < k ∨ ne) col' ∧
      (∀ (j : Nat) (m : SiteMatrix N L K), ms[j]? = some m → SiteOk lab iop (i + j : Nat) m) ∧ Bonded ms col' ∧ ((ms.head?.map (·.lop)).getD col'.lop = col.lop) ∧
      ∀ v : N → List Int → R, v iop.name iop.site = 1 → ∀ ip < col.mat.length, chainValue v ms col' ip = columnValue v col ip := by
  induction k with
  | zero =>
    intro i ne col hc
    exact ⟨[], col, rfl, rfl, hc.mono (by simp), by simp, trivial, rfl, fun v _ ip _ => rfl⟩
  | succ k ih =>
    intro i ne col hc
    obtain ⟨m, col1, h1, h2, h3, h4, h5, h6⟩ := rightSvd_spec (R := R) names hx hi hsmall hsvd hbig hc
    obtain ⟨ms, col2, r1, r2, r3, r4, r5, r6, r7⟩ := ih (i + 1) True col1 (by exact_mod_cast h2)
    refine ⟨m :: ms, col2, ?_, by simp [r2], ?_, ?_, ?_, h4, ?_⟩
    · rw [List.range'_succ, split, h1]
      simp only [r1, Option.map_some]
    · have : i + 1 + k = i + (k + 1) := by omega
      rw [← this]
      exact r3.mono (by simp)
    · intro j m' hj
      cases j with
      | zero =>
        simp only [List.getElem?_cons_zero, Option.some.injEq] at hj
        subst hj
        exact h3
      | succ j =>
        have := r4 j m' (by simpa using hj)
        have e : i + 1 + j = i + (j + 1) := by omega
        rw [← e]
        exact this
    · cases ms with
      | nil =>
        simp only [List.head?_nil, Option.map_none, Option.getD_none] at r6
        simp only [Bonded]
        rw [r6]
        exact h5
      | cons m' ms =>
        simp only [List.head?_cons, Option.map_some, Option.getD_some] at r6
        refine ⟨?_, r5⟩
        rw [r6]
        exact h5
    · intro v hv ip hip
      rw [chainValue]
      exact h6 v hv _ (fun k hk => r7 v hv k hk) ip hip

end BuildMpo
end Verif
