import Mathlib.Data.List.GetD
import Verif.Proof.BuildMpo

/-!
Lemmas for the construction of matrix product operators: collecting the terms in groups.
-/

set_option linter.unusedSectionVars false

namespace Verif
namespace BuildMpo
variable {N L K R V : Type} [CommRing K] [DecidableEq K] [DecidableEq N] [Ring R] [Algebra K R] [AddCommGroup L] [DecidableEq L]
variable {x : N} {lab : N → List Int → Option L} {iop : OpElement N L K}

/-- Symbols in order of their sites, none before site `i`. -/
def Later (x : N) (lab : N → List Int → Option L) (iop : OpElement N L K) (n i : Int) (ops : List (OpElement N L K)) : Prop :=
  (ops.Pairwise fun a b => tupleLe a.site b.site = true) ∧ ∀ e ∈ ops, Ok x lab e ∧ (e = iop ∨ ∃ s t, e.site = s :: t ∧ i ≤ s ∧ s < n)

theorem split_spec (hi : Ok x lab iop) (hs : iop.site = []) {n i : Int} {ops : List (OpElement N L K)} (h : Later x lab iop n i ops) :
    ∃ l r, splitOps i iop ops = some (l, r) ∧ ops = l ++ r ∧ (∀ e ∈ l, Ok x lab e ∧ AtSite iop i e) ∧ Later x lab iop n (i + 1) r := by
  induction ops with
  | nil => exact ⟨[], [], rfl, rfl, by simp, .nil, by simp⟩
  | cons op rest ih =>
    obtain ⟨hp, ho⟩ := h
    obtain ⟨hp1, hp2⟩ := List.pairwise_cons.1 hp
    obtain ⟨l, r, h1, h2, h3, h4⟩ := ih ⟨hp2, fun e he => ho e (by simp [he])⟩
    obtain ⟨hok, hop⟩ := ho op (by simp)
    by_cases e : op = iop
    · refine ⟨op :: l, r, ?_, by rw [h2]; rfl, ?_, h4⟩
      · rw [splitOps, if_pos ((hok.same hi).2 e), h1]
        rfl
      · intro a ha
        rcases List.mem_cons.1 ha with rfl | ha
        · exact ⟨hok, Or.inl e⟩
        · exact h3 a ha
    · obtain ⟨s, t, hst, hs1, hs2⟩ := hop.resolve_left e
      have hne : ¬ op.same iop = true := fun h => e ((hok.same hi).1 h)
      by_cases hsi : s ≤ i
      · refine ⟨op :: l, r, ?_, by rw [h2]; rfl, ?_, h4⟩
        · rw [splitOps, if_neg hne, hst, h1]
          simp [hsi]
        · intro a ha
          rcases List.mem_cons.1 ha with rfl | ha
          · exact ⟨hok, Or.inr (by rw [hst]; simp; omega)⟩
          · exact h3 a ha
      · refine ⟨[], op :: rest, ?_, rfl, by simp, hp, ?_⟩
        · rw [splitOps, if_neg hne, hst]
          simp [hsi]
        · intro a ha
          obtain ⟨ha1, ha2⟩ := ho a ha
          refine ⟨ha1, Or.inr ?_⟩
          rcases List.mem_cons.1 ha with rfl | ha
          · exact ⟨s, t, hst, by omega, hs2⟩
          · have hle := hp1 a ha
            rw [hst] at hle
            rcases ha2 with rfl | ⟨s', t', h5, h6, h7⟩
            · rw [hs] at hle
              simp [tupleLe] at hle
            · refine ⟨s', t', h5, ?_, h7⟩
              rw [h5] at hle
              simp only [tupleLe, Bool.or_eq_true, decide_eq_true_eq, Bool.and_eq_true] at hle
              omega

/-- The product of the values of a list of symbols. -/
def opsVal (v : N → List Int → R) (l : List (OpElement N L K)) : R := (l.map (evalElem v)).prod

theorem opsVal_orIdent (v : N → List Int → R) (hi : iop.factor = 1) (hv : v iop.name iop.site = 1) (l : List (OpElement N L K)) :
    opsVal v (orIdent iop l) = opsVal v l := by
  unfold orIdent
  split_ifs with h
  · subst h
    simp [opsVal, evalElem, hi, hv]
  · rfl

theorem charge_orIdent (hl : iop.label = 0) (l : List (OpElement N L K)) : charge (orIdent iop l) = charge l := by
  unfold orIdent
  split_ifs with h
  · subst h
    simp [charge, hl]
  · rfl

theorem orIdent_ne (iop : OpElement N L K) (l : List (OpElement N L K)) : orIdent iop l ≠ [] := by
  unfold orIdent
  split_ifs with h
  · simp
  · exact h

/-- What is known about a group. -/
structure GroupOK (x : N) (lab : N → List Int → Option L) (iop : OpElement N L K) (n i : Int) (rowLabel : Nat → L) (g : Group N L K) : Prop where
  left : ∀ y ∈ g.mpl, (∀ e ∈ y.2, Ok x lab e ∧ AtSite iop i e) ∧ charge y.2 = g.ql + rowLabel y.1 ∧ y.2 ≠ []
  right : ∀ r ∈ g.mpr, Later x lab iop n (i + 1) r ∧ charge r = g.qr ∧ r ≠ []
  bounds : ∀ t ∈ g.vals, t.1 < g.mpl.length ∧ t.2.1 < g.mpr.length
  zero : g.ql + g.qr = 0

/-- One value of a group, as a part of row `ip`. -/
def part (v : N → List Int → R) (ip : Nat) (f : K) (y : Nat × List (OpElement N L K)) (r : List (OpElement N L K)) : R :=
  if y.1 = ip then algebraMap K R f * opsVal v y.2 * opsVal v r else 0

/-- The part of row `ip` that a group holds. -/
def gval (v : N → List Int → R) (ip : Nat) (g : Group N L K) : R :=
  (g.vals.map fun t => part v ip t.2.2 (g.mpl.getD t.1 (0, [])) (g.mpr.getD t.2.1 [])).sum

theorem findOrAdd_spec {α : Type} (p : α → Bool) (y d : α) (l : List α) (hp : ∀ z ∈ l, p z = true → z = y) :
    (findOrAdd p y l).1 < (findOrAdd p y l).2.length ∧ (findOrAdd p y l).2.getD (findOrAdd p y l).1 d = y ∧
    (∀ z ∈ (findOrAdd p y l).2, z ∈ l ∨ z = y) ∧ (∀ j < l.length, j < (findOrAdd p y l).2.length ∧ (findOrAdd p y l).2.getD j d = l.getD j d) := by
  unfold findOrAdd
  cases h : l.findIdx? p with
  | some i =>
    obtain ⟨hi, h1, _⟩ := List.findIdx?_eq_some_iff_getElem.1 h
    refine ⟨hi, ?_, fun z hz => Or.inl hz, fun j hj => ⟨hj, rfl⟩⟩
    simp only
    rw [List.getD_eq_getElem _ _ hi]
    exact hp _ (List.getElem_mem hi) h1
  | none =>
    refine ⟨by simp, by simp [List.getD_append_right], fun z hz => by simpa using hz, fun j hj => ⟨by simp; omega, List.getD_append _ _ _ _ hj⟩⟩

theorem insert_spec {n i : Int} {rowLabel : Nat → L} {g : Group N L K} (hg : GroupOK x lab iop n i rowLabel g) (ip : Nat) {l r : List (OpElement N L K)} (f : K)
    (hl : ∀ e ∈ l, Ok x lab e ∧ AtSite iop i e) (hr : Later x lab iop n (i + 1) r) (hcl : charge l = g.ql + rowLabel ip) (hcr : charge r = g.qr)
    (hnl : l ≠ []) (hnr : r ≠ []) :
    GroupOK x lab iop n i rowLabel (g.insert ip l r f) ∧ (g.insert ip l r f).mpl ≠ [] ∧ (g.insert ip l r f).mpr ≠ [] ∧
      ∀ (v : N → List Int → R) ip', gval v ip' (g.insert ip l r f) = gval v ip' g + if ip = ip' then algebraMap K R f * opsVal v l * opsVal v r else 0 := by
  obtain ⟨a1, a2, a3, a4⟩ := findOrAdd_spec (fun y : Nat × List (OpElement N L K) => decide (y.1 = ip) && sameOps y.2 l) (ip, l) (0, []) g.mpl (by
    intro z hz h
    simp only [Bool.and_eq_true, decide_eq_true_eq] at h
    exact Prod.ext h.1 ((sameOps_iff (fun e he => ((hg.left z hz).1 e he).1) fun e he => (hl e he).1).1 h.2))
  obtain ⟨b1, b2, b3, b4⟩ := findOrAdd_spec (fun y => sameOps y r) r [] g.mpr (by
    intro z hz h
    exact (sameOps_iff (fun e he => ((hg.right z hz).1.2 e he).1) fun e he => (hr.2 e he).1).1 h)
  refine ⟨⟨?_, ?_, ?_, hg.zero⟩, ?_, ?_, ?_⟩
  · intro y hy
    rcases a3 y hy with h | rfl
    · exact hg.left y h
    · exact ⟨hl, hcl, hnl⟩
  · intro y hy
    rcases b3 y hy with h | rfl
    · exact hg.right y h
    · exact ⟨hr, hcr, hnr⟩
  · intro t ht
    simp only [Group.insert, List.mem_append, List.mem_singleton] at ht ⊢
    rcases ht with ht | rfl
    · exact ⟨(a4 _ (hg.bounds t ht).1).1, (b4 _ (hg.bounds t ht).2).1⟩
    · exact ⟨a1, b1⟩
  · intro h
    simp only [Group.insert] at h
    rw [h] at a1
    simp at a1
  · intro h
    simp only [Group.insert] at h
    rw [h] at b1
    simp at b1
  · intro v ip'
    unfold gval
    simp only [Group.insert, List.map_append, List.sum_append, List.map_cons, List.map_nil, List.sum_cons, List.sum_nil, add_zero]
    congr 1
    · refine congrArg List.sum (List.map_congr_left fun t ht => ?_)
      rw [(a4 _ (hg.bounds t ht).1).2, (b4 _ (hg.bounds t ht).2).2]
    · rw [a2, b2]
      rfl

/-- What is known about all groups. -/
def GroupsOK (x : N) (lab : N → List Int → Option L) (iop : OpElement N L K) (n i : Int) (rowLabel : Nat → L) (gs : List (Group N L K)) : Prop :=
  ∀ g ∈ gs, GroupOK x lab iop n i rowLabel g ∧ g.mpl ≠ [] ∧ g.mpr ≠ []

theorem addTerm_spec {n i : Int} {rowLabel : Nat → L} {gs : List (Group N L K)} (hg : GroupsOK x lab iop n i rowLabel gs) (ip : Nat)
    {l r : List (OpElement N L K)} (f : K) (hl : ∀ e ∈ l, Ok x lab e ∧ AtSite iop i e) (hr : Later x lab iop n (i + 1) r) {ql qr : L}
    (hcl : charge l = ql + rowLabel ip) (hcr : charge r = qr) (hz : ql + qr = 0) (hnl : l ≠ []) (hnr : r ≠ []) :
    GroupsOK x lab iop n i rowLabel (addTerm gs ql qr ip l r f) ∧
      ∀ (v : N → List Int → R) ip', ((addTerm gs ql qr ip l r f).map (gval v ip')).sum =
        (gs.map (gval v ip')).sum + if ip = ip' then algebraMap K R f * opsVal v l * opsVal v r else 0 := by
  induction gs with
  | nil =>
    have h0 : GroupOK x lab iop n i rowLabel (⟨ql, qr, [], [], []⟩ : Group N L K) := ⟨by simp, by simp, by simp, hz⟩
    obtain ⟨h1, h2, h3, h4⟩ := insert_spec (R := R) h0 ip f hl hr hcl hcr hnl hnr
    refine ⟨?_, fun v ip' => ?_⟩
    · intro g hg'
      rw [addTerm, List.mem_singleton] at hg'
      subst hg'
      exact ⟨h1, h2, h3⟩
    · simp only [addTerm, List.map_cons, List.map_nil, List.sum_cons, List.sum_nil, add_zero, zero_add, h4]
      simp [gval]
  | cons g gs ih =>
    obtain ⟨g1, g2, g3⟩ := hg g (by simp)
    have hgs : GroupsOK x lab iop n i rowLabel gs := fun g hg' => hg g (by simp [hg'])
    rw [addTerm]
    split_ifs with h
    · obtain ⟨h1, h2, h3, h4⟩ := insert_spec (R := R) g1 ip f hl hr (by rw [h.1]; exact hcl) (by rw [h.2]; exact hcr) hnl hnr
      refine ⟨?_, fun v ip' => ?_⟩
      · intro g' hg'
        rcases List.mem_cons.1 hg' with rfl | hg'
        · exact ⟨h1, h2, h3⟩
        · exact hgs g' hg'
      · simp only [List.map_cons, List.sum_cons, h4]
        abel
    · obtain ⟨h1, h2⟩ := ih hgs
      refine ⟨?_, fun v ip' => ?_⟩
      · intro g' hg'
        rcases List.mem_cons.1 hg' with rfl | hg'
        · exact ⟨g1, g2, g3⟩
        · exact h1 g' hg'
      · simp only [List.map_cons, List.sum_cons, h2]
        abel

/-- What is assumed of the identity symbol. -/
structure IdentOK (x : N) (lab : N → List Int → Option L) (iop : OpElement N L K) : Prop where
  ok : Ok x lab iop
  site : iop.site = []
  label : iop.label = 0

theorem later_orIdent (hi : IdentOK x lab iop) {n i : Int} {r : List (OpElement N L K)} (h : Later x lab iop n i r) : Later x lab iop n i (orIdent iop r) := by
  unfold orIdent
  split_ifs with e
  · exact ⟨by simp, by simpa using hi.ok⟩
  · exact h

theorem collectTerm_spec (hi : IdentOK x lab iop) {n i : Int} {rowLabel : Nat → L} {gs : List (Group N L K)} (hg : GroupsOK x lab iop n i rowLabel gs) (ip : Nat)
    (o : Option (OpString N L K)) (ho : ∀ s, o = some s → Later x lab iop n i s.ops ∧ charge s.ops = rowLabel ip) :
    ∃ gs', collectTerm i iop ip (rowLabel ip) gs o = some gs' ∧ GroupsOK x lab iop n i rowLabel gs' ∧
      ∀ v : N → List Int → R, v iop.name iop.site = 1 → ∀ ip',
        (gs'.map (gval v ip')).sum = (gs.map (gval v ip')).sum + if ip = ip' then (o.toList.map (evalString v)).sum else 0 := by
  cases o with
  | none => exact ⟨gs, rfl, hg, by simp⟩
  | some s =>
    obtain ⟨h1, h2⟩ := ho s rfl
    obtain ⟨l, r, h3, h4, h5, h6⟩ := split_spec hi.ok hi.site h1
    have hsum : charge l + charge r = rowLabel ip := by
      rw [← h2, h4]
      simp [charge]
    have hcl := charge_orIdent hi.label l
    have hcr := charge_orIdent hi.label r
    have hz : (-rowLabel ip + charge (orIdent iop l)) + charge (orIdent iop r) = 0 := by
      rw [hcl, hcr, add_assoc, hsum]
      simp
    obtain ⟨h7, h8⟩ := addTerm_spec (R := R) hg ip (l := orIdent iop l) (r := orIdent iop r) s.factor (by
        unfold orIdent
        split_ifs with e
        · intro e he
          rw [List.mem_singleton.1 he]
          exact ⟨hi.ok, Or.inl rfl⟩
        · exact h5) (later_orIdent hi h6) (ql := -rowLabel ip + charge (orIdent iop l)) (qr := charge (orIdent iop r)) (by abel) rfl hz (orIdent_ne _ _) (orIdent_ne _ _)
    refine ⟨_, ?_, h7, fun v hv ip' => ?_⟩
    · simp only [collectTerm, h3]
      exact if_pos (by rw [hi.label]; exact hz)
    · rw [h8 v ip']
      congr 1
      split_ifs
      · rw [opsVal_orIdent v hi.ok.1 hv, opsVal_orIdent v hi.ok.1 hv, mul_assoc]
        simp [evalString, h4, opsVal]
      · rfl

theorem collectTerms_spec (hi : IdentOK x lab iop) {n i : Int} {rowLabel : Nat → L} (ip : Nat) (ts : List (Option (OpString N L K))) :
    ∀ {gs : List (Group N L K)}, GroupsOK x lab iop n i rowLabel gs → (∀ s ∈ ts.filterMap id, Later x lab iop n i s.ops ∧ charge s.ops = rowLabel ip) →
    ∃ gs', ts.foldlM (collectTerm i iop ip (rowLabel ip)) gs = some gs' ∧ GroupsOK x lab iop n i rowLabel gs' ∧
      ∀ v : N → List Int → R, v iop.name iop.site = 1 → ∀ ip',
        (gs'.map (gval v ip')).sum = (gs.map (gval v ip')).sum + if ip = ip' then ((ts.filterMap id).map (evalString v)).sum else 0 := by
  induction ts with
  | nil => intro gs hg _; exact ⟨gs, rfl, hg, by simp⟩
  | cons o ts ih =>
    intro gs hg ho
    obtain ⟨gs1, h1, h2, h3⟩ := collectTerm_spec (R := R) hi hg ip o (by
      rintro s rfl
      exact ho s (by simp))
    obtain ⟨gs2, h4, h5, h6⟩ := ih h2 (fun s hs => ho s (by
      simp only [List.filterMap_cons, id]
      cases o with
      | none => exact hs
      | some t => exact List.mem_cons_of_mem _ hs))
    refine ⟨gs2, ?_, h5, fun v hv ip' => ?_⟩
    · rw [List.foldlM_cons, h1]
      exact h4
    · rw [h6 v hv, h3 v hv, add_assoc]
      congr 1
      split_ifs
      · cases o with
        | none => simp
        | some t => simp
      · simp

/-- What is known about a column before the step of site `i`; `ne` tells whether empty strings are excluded. -/
structure ColOK (x : N) (lab : N → List Int → Option L) (iop : OpElement N L K) (n i : Int) (ne : Prop) (col : Column N L K) : Prop where
  rows : col.lop.length = col.mat.length
  entries : ∀ (j : Nat) (e : OpElement N L K), col.mat[j]? = some (some e) → ∃ (a : OpElement N L K) (w val : OpVal N L K), col.lop[j]? = some a ∧
    Dict.get? col.ops (key e) = some w ∧ Stands x lab e w val ∧ ∀ s ∈ strs val, Later x lab iop n i s.ops ∧ charge s.ops = a.label ∧ (ne → s.ops ≠ [])

/-- The label of a row. -/
def rowLabel (col : Column N L K) (j : Nat) : L := ((col.lop[j]?).map (·.label)).getD 0

theorem collectRow_spec [Nontrivial K] (hi : IdentOK x lab iop) {small : K → Bool} (hsmall : ∀ x, small x = true → x = 0) {n i : Int} {ne : Prop} {col : Column N L K}
    (hc : ColOK x lab iop n i ne col) {gs : List (Group N L K)} (hg : GroupsOK x lab iop n i (rowLabel col) gs) {ip : Nat} (hip : ip < col.mat.length) :
    ∃ gs', collectRow small i iop col gs ip = some gs' ∧ GroupsOK x lab iop n i (rowLabel col) gs' ∧
      ∀ v : N → List Int → R, v iop.name iop.site = 1 → ∀ ip',
        (gs'.map (gval v ip')).sum = (gs.map (gval v ip')).sum + if ip = ip' then columnValue v col ip else 0 := by
  unfold collectRow
  rw [List.getElem?_eq_getElem hip]
  cases he : col.mat[ip] with
  | none =>
    refine ⟨gs, rfl, hg, fun v _ ip' => ?_⟩
    simp [columnValue, List.getElem?_eq_getElem hip, he]
  | some e =>
    obtain ⟨a, w, val, h1, h2, h3, h4⟩ := hc.entries ip e (by rw [List.getElem?_eq_getElem hip, he])
    have hra : rowLabel col ip = a.label := by simp [rowLabel, h1]
    obtain ⟨ts, t1, t2, _⟩ := h3.terms (R := R) (fun _ _ => 0) hsmall fun s hs a ha => ((h4 s hs).1.2 a ha).1
    obtain ⟨gs', g1, g2, g3⟩ := collectTerms_spec (R := R) hi ip ts hg (by
      intro s hs
      obtain ⟨t, ht, e⟩ := t2 s hs
      rw [e, hra]
      exact ⟨(h4 t ht).1, (h4 t ht).2.1⟩)
    refine ⟨gs', ?_, g2, fun v hv ip' => ?_⟩
    · simp only [h1, h2, t1, Option.bind_some, ← hra]
      exact g1
    · rw [g3 v hv]
      congr 1
      split_ifs
      · obtain ⟨ts', t1', _, t3⟩ := h3.terms (R := R) v hsmall fun s hs a ha => ((h4 s hs).1.2 a ha).1
        rw [t1] at t1'
        injection t1' with t1'
        subst t1'
        rw [t3, ← h3.eval v]
        simp [columnValue, List.getElem?_eq_getElem hip, he, entryValue, h2]
      · rfl

theorem collectAll_spec [Nontrivial K] (hi : IdentOK x lab iop) {small : K → Bool} (hsmall : ∀ x, small x = true → x = 0) {n i : Int} {ne : Prop} {col : Column N L K}
    (hc : ColOK x lab iop n i ne col) :
    ∃ gs, collectAll small i iop col = some gs ∧ GroupsOK x lab iop n i (rowLabel col) gs ∧
      ∀ v : N → List Int → R, v iop.name iop.site = 1 → ∀ ip < col.mat.length, (gs.map (gval v ip)).sum = columnValue v col ip := by
  have key : ∀ (ips : List Nat), (∀ ip ∈ ips, ip < col.mat.length) → ∀ {gs : List (Group N L K)}, GroupsOK x lab iop n i (rowLabel col) gs →
      ∃ gs', ips.foldlM (collectRow small i iop col) gs = some gs' ∧ GroupsOK x lab iop n i (rowLabel col) gs' ∧
        ∀ v : N → List Int → R, v iop.name iop.site = 1 → ∀ ip', (gs'.map (gval v ip')).sum =
          (gs.map (gval v ip')).sum + (ips.map fun ip => if ip = ip' then columnValue v col ip else 0).sum := by
    intro ips
    induction ips with
    | nil => intro _ gs hg; exact ⟨gs, rfl, hg, by simp⟩
    | cons ip ips ih =>
      intro hlt gs hg
      obtain ⟨gs1, h1, h2, h3⟩ := collectRow_spec (R := R) hi hsmall hc hg (hlt ip (by simp))
      obtain ⟨gs2, h4, h5, h6⟩ := ih (fun ip h => hlt ip (by simp [h])) h2
      refine ⟨gs2, ?_, h5, fun v hv ip' => ?_⟩
      · rw [List.foldlM_cons, h1]
        exact h4
      · rw [h6 v hv, h3 v hv, List.map_cons, List.sum_cons, add_assoc]
  obtain ⟨gs, h1, h2, h3⟩ := key (List.range col.mat.length) (fun ip h => List.mem_range.1 h) (gs := []) (by simp [GroupsOK])
  refine ⟨gs, h1, h2, fun v hv ip hip => ?_⟩
  rw [h3 v hv ip]
  simp only [List.map_nil, List.sum_nil, zero_add]
  rw [sum_map_ite_eq' (List.range col.mat.length) List.nodup_range ip (fun j => columnValue v col j), if_pos (List.mem_range.2 hip)]

end BuildMpo
end Verif
