import Verif.Model.FlatFermDot
import Verif.Proof.FlatFermTrace
import Verif.Thm.FermPhase
import Verif.Thm.Flat

set_option linter.unusedSectionVars false

/-!
The flat fermionic kernels are the plain flat kernels on rescaled blocks.
-/

namespace Verif
namespace FlatFermT
variable {Q C K : Type} [AddCommGroup Q] [DecidableEq Q] [DecidableEq C] [Zero C] [CommRing K]

/-- Multiply the data of each block by a factor that depends on its labels. -/
def scaleRows (f : List C → K) (l : List (List C × List Nat × List K)) : List (List C × List Nat × List K) :=
  l.map fun e => (e.1, e.2.1, e.2.2.map (f e.1 * ·))

theorem chunked_scaleRows (f : List C → K) {l : List (List C × List Nat × List K)} (h : Flat.Chunked l) : Flat.Chunked (scaleRows f l) := by
  intro e he
  obtain ⟨e', he', rfl⟩ := List.mem_map.1 he
  simpa using h e' he'

theorem ofList_scale (sh : List Nat) (d : List K) (c : K) : Arr.ofList sh (d.map (c * ·)) = (Arr.ofList sh d).mapK (c * ·) := by
  unfold Arr.ofList Arr.mapK
  simp only [Arr.mk.injEq, true_and]
  funext ix
  simp only [List.getD_eq_getElem?_getD, List.getElem?_map]
  cases d[ravel sh ix]? <;> simp

theorem toSparse_scale (dec : C → Q) (f : List C → K) (g : List Q → K) {l : List (List C × List Nat × List K)} (h : Flat.Chunked l)
    (hfg : ∀ e ∈ l, f e.1 = g (e.1.map dec)) :
    Flat.toSparse dec (Flat.pack (scaleRows f l)) = scaleBlocks g (Flat.toSparse dec (Flat.pack l)) := by
  rw [Flat.toSparse_pack dec (chunked_scaleRows f h), Flat.toSparse_pack dec h]
  unfold scaleRows scaleBlocks
  rw [List.map_map, List.map_map]
  apply List.map_congr_left
  intro e he
  simp only [Function.comp]
  rw [ofList_scale, hfg e he]
  congr 2
  funext x
  exact mul_comm _ _

theorem transpose_pack (par : Q → Nat) (dec : C → Q) (ax : List Nat) (p : List Bool) {l : List (List C × List Nat × List K)} (h : Flat.Chunked l)
    (hne : l ≠ []) :
    transpose par dec (some ax) ⟨p, Flat.pack l⟩ = ⟨ax.map fun i => p.getD i true, Flat.transpose ax
      (Flat.pack (scaleRows (fun q => ((FermPhase.phase1 (oddLegs par dec q) ax : Int) : K)) l))⟩ := by
  have h0 : ¬ (Flat.pack l).qs.length = 0 := by simpa [Flat.pack] using hne
  have h0' : ¬ (Flat.pack (scaleRows (fun q => ((FermPhase.phase1 (oddLegs par dec q) ax : Int) : K)) l)).qs.length = 0 := by
    simpa [Flat.pack, scaleRows] using hne
  unfold transpose Flat.transpose
  simp only [Option.getD_some]
  rw [if_neg h0, if_neg h0', rows_pack h]
  have h1 := Flat.zipIdx_map_block (chunked_scaleRows (fun q => ((FermPhase.phase1 (oddLegs par dec q) ax : Int) : K)) h) (fun e => e.2.1)
    fun a d => ((Arr.ofList a d).transpose ax).toList
  have hshs : (Flat.pack (scaleRows (fun q => ((FermPhase.phase1 (oddLegs par dec q) ax : Int) : K)) l)).shs =
    (scaleRows (fun q => ((FermPhase.phase1 (oddLegs par dec q) ax : Int) : K)) l).map fun e => e.2.1 := rfl
  rw [hshs, h1]
  simp only [FlatFermT.mk.injEq, true_and, Flat.mk.injEq]
  refine ⟨?_, ?_, ?_, ?_⟩
  · simp [Flat.pack, scaleRows, Function.comp_def]
  · simp [Flat.pack, scaleRows, Function.comp_def]
  · unfold scaleRows
    rw [List.map_map]
    congr 1
    apply List.map_congr_left
    intro e _
    simp only [Function.comp]
    rw [ofList_scale]
    rfl
  · simp [Flat.pack, scaleRows, Function.comp_def]

/-- One row of the plain kernel. -/
def plainRow (B : Flat C K) (mB : Dict (List C) (List Nat)) (idxa idxb outa outb : List Nat)
    (st : Flat.TdState C K) (e : List C × List Nat × List K) : Flat.TdState C K :=
  match Dict.get? mB (pick idxa e.1) with
  | none => st
  | some l => l.foldl (fun st ib =>
      Flat.tdStep st (pick outa e.1 ++ pick outb (B.qs.getD ib []))
        ((Arr.ofList e.2.1 e.2.2).tensordot (Arr.ofList (B.shs.getD ib []) (B.block ib)) idxa idxb outa outb)) st

theorem plain_foldl (A B : Flat C K) (p : List Bool) (mB : Dict (List C) (List Nat)) (idxa idxb outa outb : List Nat) (st : Flat.TdState C K) :
    (A.qs.zip A.shs).zipIdx.foldl (Flat.tdOuter A B mB idxa idxb outa outb) st =
      (rows (⟨p, A⟩ : FlatFermT C K)).foldl (plainRow B mB idxa idxb outa outb) st := by
  unfold rows
  rw [List.foldl_map]
  rfl

theorem pack_row {p : List Bool} {l : List (List C × List Nat × List K)} (h : Flat.Chunked l) (i : Nat) :
    ((Flat.pack l).qs.getD i [], (Flat.pack l).shs.getD i [], (Flat.pack l).block i) = l.getD i ([], [], []) := by
  by_cases hi : i < l.length
  · rw [Flat.pack_block h i hi]
    simp [Flat.pack, List.getD_eq_getElem?_getD, hi]
  · have h1 : (Flat.pack l).idxs.getD (i + 1) 0 = 0 := by
      have : (Flat.pack l).idxs.length = l.length + 1 := by simp [Flat.pack, offsets_length]
      rw [List.getD_eq_getElem?_getD, List.getElem?_eq_none (by omega)]; rfl
    have h2 : (Flat.pack l).block i = [] := by
      unfold Flat.block pySlice
      rw [h1]; simp
    rw [h2]
    simp [Flat.pack, List.getD_eq_getElem?_getD, List.getElem?_eq_none (Nat.le_of_not_lt hi)]

theorem tensordot_scale (a b : Arr K) (c d : K) (idxa idxb outa outb : List Nat) :
    (a.mapK (c * ·)).tensordot (b.mapK (d * ·)) idxa idxb outa outb = (a.tensordot b idxa idxb outa outb).mapK (c * d * ·) := by
  unfold Arr.tensordot Arr.mapK
  simp only [Arr.mk.injEq, true_and]
  funext ix
  rw [mul_comm (c * d), ← sum_map_mul_right']
  apply sum_map_congr'
  intro k _
  ring

theorem dotCore_pack (par : Q → Nat) (dec : C → Q) (p p' : List Bool) {l l' : List (List C × List Nat × List K)} (h : Flat.Chunked l)
    (h' : Flat.Chunked l') (idxa idxb outa outb : List Nat) (hne : l ≠ []) (hne' : l' ≠ []) :
    dotCore par dec ⟨p, Flat.pack l⟩ ⟨p', Flat.pack l'⟩ idxa idxb outa outb = Flat.tensordot
      (Flat.pack (scaleRows (fun q => ((FermPhase.phase2 (oddLegs par dec q) idxa : Int) : K)) l))
      (Flat.pack (scaleRows (fun q => ((FermPhase.phase3 (oddLegs par dec q) idxb : Int) : K)) l')) idxa idxb outa outb := by
  have g1 : ∀ l : List (List C × List Nat × List K), l ≠ [] → ¬ (Flat.pack l).qs.length = 0 := by
    intro l hl; simpa [Flat.pack] using hl
  have g2 : ∀ (f : List C → K) (l : List (List C × List Nat × List K)), l ≠ [] → ¬ (Flat.pack (scaleRows f l)).qs.length = 0 := by
    intro f l hl; simpa [Flat.pack, scaleRows] using hl
  unfold dotCore Flat.tensordot
  rw [if_neg (g1 l hne), if_neg (g1 l' hne'), if_neg (g2 _ l hne), if_neg (g2 _ l' hne')]
  set fA : List C → K := fun q => ((FermPhase.phase2 (oddLegs par dec q) idxa : Int) : K) with hfA
  set fB : List C → K := fun q => ((FermPhase.phase3 (oddLegs par dec q) idxb : Int) : K) with hfB
  have hq : (Flat.pack (scaleRows fB l')).qs = (Flat.pack l').qs := by simp [Flat.pack, scaleRows, Function.comp_def]
  have hfold : ∀ st, l.foldl (dotOuter par dec (⟨p', Flat.pack l'⟩ : FlatFermT C K) (Flat.mapIdxB (Flat.pack l').qs idxb) idxa idxb outa outb) st =
      (scaleRows fA l).foldl (plainRow (Flat.pack (scaleRows fB l')) (Flat.mapIdxB (Flat.pack l').qs idxb) idxa idxb outa outb) st := by
    intro st
    unfold scaleRows
    rw [List.foldl_map]
    congr 1
    funext st e
    unfold dotOuter plainRow
    simp only
    cases Dict.get? (Flat.mapIdxB (Flat.pack l').qs idxb) (pick idxa e.1) with
    | none => rfl
    | some v =>
      simp only
      congr 1
      funext st ib
      have hr := pack_row (p := p') (chunked_scaleRows fB h') ib
      have hr' : (scaleRows fB l').getD ib ([], [], []) = ((l'.getD ib ([], [], [])).1, (l'.getD ib ([], [], [])).2.1,
          (l'.getD ib ([], [], [])).2.2.map (fB (l'.getD ib ([], [], [])).1 * ·)) := by
        unfold scaleRows
        simp only [List.getD_eq_getElem?_getD, List.getElem?_map]
        cases l'[ib]? <;> simp
      rw [hr'] at hr
      simp only [Prod.mk.injEq] at hr
      obtain ⟨r1, r2, r3⟩ := hr
      unfold scaleRows at r1 r2 r3
      rw [rows_pack h', r1, r2, r3, ofList_scale, ofList_scale, tensordot_scale]
      push_cast
      rfl
  rw [rows_pack h, hq]
  have h2 := plain_foldl (Flat.pack (scaleRows fA l)) (Flat.pack (scaleRows fB l')) p (Flat.mapIdxB (Flat.pack l').qs idxb) idxa idxb outa outb
    ⟨[], [0], [], [], []⟩
  rw [rows_pack (chunked_scaleRows fA h), ← hfold] at h2
  simp only
  rw [h2]

end FlatFermT
end Verif
