import Verif.Proof.Index
import Verif.Proof.Mps

/-! Chains of functions with signs: the common form of amplitudes of states and of matrix elements of operators. -/

set_option linter.unusedSectionVars false

namespace Verif
section
variable {I J U M D K : Type} [CommRing K]

/-- Sum over the inner indices of the product of the site functions.  Each site function sees the parity `s` of everything to its left. -/
def sch (par : D → Bool) : List (Bool → I → U → D → I → K) → List (List I) → Bool → I → List U → List D → I → K
  | [f], [], s, x, [u], [d], y => f s x u d y
  | f :: fs, b :: bs, s, x, u :: us, d :: ds, y => (b.map fun z => f s x u d z * sch par fs bs (xor s (par d)) z us ds y).sum
  | _, _, _, _, _, _, _ => 0

theorem sch_one (par : D → Bool) (f : Bool → I → U → D → I → K) (s : Bool) (x : I) (u : U) (d : D) (y : I) :
    sch par [f] [] s x [u] [d] y = f s x u d y := by rw [sch]

theorem sch_cons (par : D → Bool) (f : Bool → I → U → D → I → K) (fs : List (Bool → I → U → D → I → K)) (b : List I) (bs : List (List I))
    (s : Bool) (x : I) (u : U) (us : List U) (d : D) (ds : List D) (y : I) :
    sch par (f :: fs) (b :: bs) s x (u :: us) (d :: ds) y = (b.map fun z => f s x u d z * sch par fs bs (xor s (par d)) z us ds y).sum := by
  rw [sch]

/-- Replacing the inner indices: `e` are the maps from the new to the old indices, correct on the lists of the new ones. -/
inductive Reindexed : List J → (J → I) → List (Bool → I → U → D → I → K) → List (List I) → List (Bool → J → U → D → J → K) → List (List J) →
    List J → (J → I) → Prop
  | one {L e f g R e'} : (∀ s, ∀ x ∈ L, ∀ u d, ∀ y ∈ R, f s (e x) u d (e' y) = g s x u d y) → Reindexed L e [f] [] [g] [] R e'
  | cons {L e f fs b bs g gs c cs R e' e1} :
      (∀ s, ∀ x ∈ L, ∀ u d (F : I → K) (G : J → K), (∀ z ∈ c, F (e1 z) = G z) →
        (b.map fun z => f s (e x) u d z * F z).sum = (c.map fun z => g s x u d z * G z).sum) →
      Reindexed c e1 fs bs gs cs R e' → Reindexed L e (f :: fs) (b :: bs) (g :: gs) (c :: cs) R e'

theorem sch_reindex (par : D → Bool) {L : List J} {e : J → I} {fs : List (Bool → I → U → D → I → K)} {bs : List (List I)}
    {gs : List (Bool → J → U → D → J → K)} {cs : List (List J)} {R : List J} {e' : J → I} (h : Reindexed L e fs bs gs cs R e')
    (s : Bool) (x : J) (hx : x ∈ L) (us : List U) (ds : List D) (y : J) (hy : y ∈ R) :
    sch par fs bs s (e x) us ds (e' y) = sch par gs cs s x us ds y := by
  induction h generalizing s x us ds with
  | one h =>
    rcases us with _ | ⟨u, _ | ⟨u', us⟩⟩ <;> rcases ds with _ | ⟨d, _ | ⟨d', ds⟩⟩ <;> try (rw [sch, sch] <;> simp)
    · rw [sch_one, sch_one]; exact h s x hx u d y hy
  | cons h _ ih =>
    rcases us with _ | ⟨u, us⟩ <;> rcases ds with _ | ⟨d, ds⟩ <;> try (rw [sch, sch] <;> simp)
    · rw [sch_cons, sch_cons]
      exact h s x hx u d _ _ fun z hz => ih _ z hz us ds hy

/-- The site functions of a product: the middle index is summed and the left factor sees the parity of the index of the right factor. -/
def prodSite (σ : J → Bool) (ms : List M) (f : Bool → I → U → M → I → K) (g : Bool → J → M → D → J → K) : Bool → I × J → U → D → I × J → K :=
  fun s x u d y => (ms.map fun m => f (xor s (σ x.2)) x.1 u m y.1 * g s x.2 m d y.2).sum

/-- The site functions of a product chain. -/
def prodSites (σ : J → Bool) : List (List M) → List (Bool → I → U → M → I → K) → List (Bool → J → M → D → J → K) →
    List (Bool → I × J → U → D → I × J → K)
  | ms :: mss, f :: fs, g :: gs => prodSite σ ms f g :: prodSites σ mss fs gs
  | _, _, _ => []

/-- All pairs. -/
def pairs (l : List I) (m : List J) : List (I × J) := l.flatMap fun x => m.map fun y => (x, y)

theorem sum_pairs (l : List I) (m : List J) (f : I × J → K) :
    ((pairs l m).map f).sum = (l.map fun x => (m.map fun y => f (x, y)).sum).sum := by
  unfold pairs
  rw [sum_flatMap']
  simp only [List.map_map]
  rfl

theorem mem_pairs {l : List I} {m : List J} {z : I × J} : z ∈ pairs l m ↔ z.1 ∈ l ∧ z.2 ∈ m := by
  unfold pairs
  simp only [List.mem_flatMap, List.mem_map]
  constructor
  · rintro ⟨x, hx, y, hy, rfl⟩; exact ⟨hx, hy⟩
  · rintro ⟨hx, hy⟩; exact ⟨z.1, hx, z.2, hy, rfl⟩

theorem sum_comm3' {α β γ : Type} (l : List α) (m : List β) (n : List γ) (f : α → β → γ → K) :
    (l.map fun a => (m.map fun b => (n.map fun c => f a b c).sum).sum).sum =
      (n.map fun c => (l.map fun a => (m.map fun b => f a b c).sum).sum).sum := by
  rw [sum_map_congr' l _ _ fun a _ => sum_comm' m n (f a)]
  exact sum_comm' l n _

theorem sch_prod (par : M → Bool) (par' : D → Bool) (σ : J → Bool) {mss : List (List M)} {fs : List (Bool → I → U → M → I → K)}
    {gs : List (Bool → J → M → D → J → K)} {bs : List (List I)} {cs : List (List J)} (hf : fs.length = bs.length + 1)
    (hg : gs.length = cs.length + 1) (hbc : bs.length = cs.length) (hm : mss.length = fs.length)
    (hpar : ∀ g ∈ gs.dropLast, ∀ s x m d y, g s x m d y ≠ 0 → xor (xor (σ x) (par m)) (par' d) = σ y)
    (s : Bool) (w : I) (x : J) (us : List U) (ds : List D) (hu : us.length = fs.length) (hd : ds.length = fs.length) (w' : I) (x' : J) :
    sch par' (prodSites σ mss fs gs) ((bs.zip cs).map fun z => pairs z.1 z.2) s (w, x) us ds (w', x') =
      ((cart mss).map fun ms => sch par fs bs (xor s (σ x)) w us ms w' * sch par' gs cs s x ms ds x').sum := by
  induction bs generalizing mss fs gs cs s w x us ds with
  | nil =>
    obtain rfl : cs = [] := List.length_eq_zero_iff.1 hbc.symm
    obtain ⟨f, rfl⟩ := List.length_eq_one_iff.1 hf
    obtain ⟨g, rfl⟩ := List.length_eq_one_iff.1 hg
    obtain ⟨ms, rfl⟩ := List.length_eq_one_iff.1 (hm.trans hf)
    obtain ⟨u, rfl⟩ := List.length_eq_one_iff.1 (hu.trans hf)
    obtain ⟨d, rfl⟩ := List.length_eq_one_iff.1 (hd.trans hf)
    show sch par' [prodSite σ ms f g] [] s (w, x) [u] [d] (w', x') = _
    rw [sch_one, cart, sum_flatMap']
    refine sum_map_congr' _ _ _ fun m _ => ?_
    simp [cart, sch_one]
  | cons b bs ih =>
    rcases cs with _ | ⟨c, cs⟩
    · simp at hbc
    rcases fs with _ | ⟨f, fs⟩
    · simp at hf
    rcases gs with _ | ⟨g, gs⟩
    · simp at hg
    rcases mss with _ | ⟨ms, mss⟩
    · simp at hm
    rcases us with _ | ⟨u, us⟩
    · simp at hu
    rcases ds with _ | ⟨d, ds⟩
    · simp at hd
    have hgs : gs ≠ [] := by
      rintro rfl
      simp at hg
    have hdl : (g :: gs).dropLast = g :: gs.dropLast := List.dropLast_cons_of_ne_nil hgs
    rw [hdl] at hpar
    show sch par' (prodSite σ ms f g :: prodSites σ mss fs gs) (pairs b c :: (bs.zip cs).map fun z => pairs z.1 z.2) s (w, x) (u :: us)
      (d :: ds) (w', x') = _
    rw [sch_cons, sum_pairs, cart, sum_flatMap']
    simp only [List.map_map, Function.comp_def, sch_cons]
    have key : ∀ z ∈ b, ∀ y ∈ c, prodSite σ ms f g s (w, x) u d (z, y) *
        sch par' (prodSites σ mss fs gs) ((bs.zip cs).map fun z => pairs z.1 z.2) (xor s (par' d)) (z, y) us ds (w', x') =
        (ms.map fun m => ((cart mss).map fun rest =>
          (f (xor s (σ x)) w u m z * sch par fs bs (xor (xor s (σ x)) (par m)) z us rest w') *
            (g s x m d y * sch par' gs cs (xor s (par' d)) y rest ds x')).sum).sum := by
      intro z _ y _
      rw [ih (by simpa using hf) (by simpa using hg) (by simpa using hbc) (by simpa using hm) (fun g' hg' => hpar g' (List.mem_cons_of_mem _ hg'))
        _ _ _ us ds (by simpa using hu) (by simpa using hd)]
      unfold prodSite
      rw [← sum_map_mul_right']
      refine sum_map_congr' _ _ _ fun m _ => ?_
      rw [← sum_map_mul_left']
      refine sum_map_congr' _ _ _ fun rest _ => ?_
      by_cases hz : g s x m d y = 0
      · simp only [hz, mul_zero, zero_mul]
      · have hσ : xor (xor s (par' d)) (σ y) = xor (xor s (σ x)) (par m) := by
          rw [← hpar g (by simp) s x m d y hz]
          cases s <;> cases par' d <;> cases σ x <;> cases par m <;> rfl
        simp only [hσ]
        ring
    rw [sum_map_congr' b _ _ fun z hz => sum_map_congr' c _ _ fun y hy => key z hz y hy]
    rw [sum_comm3']
    refine sum_map_congr' _ _ _ fun m _ => ?_
    rw [sum_comm3']
    refine sum_map_congr' _ _ _ fun rest _ => ?_
    rw [← sum_map_mul_right']
    refine sum_map_congr' _ _ _ fun z _ => ?_
    rw [← sum_map_mul_left']

end
end Verif
