import Verif.Spec.MpeSweep
import Verif.Proof.MpeRotate
import Verif.Proof.Apply
import Verif.Proof.Chain
import Verif.Thm.MpsProd

/-! A network of bra, operator and ket contracted site by site. -/

set_option linter.unusedSectionVars false

namespace Verif
section
variable {Q K : Type} [DecidableEq Q] [AddCommGroup Q] [CommRing K] [StarRing K]

/-- One site of a network, with its legs and the bonds to its right. -/
structure NSite (Q K : Type) where
  B : SpT Q K
  W : OpT Q K
  T : SpT Q K
  ups : List (BondInfo Q)
  downs : List (BondInfo Q)
  rb : BondInfo Q
  rm : BondInfo Q
  rk : BondInfo Q

/-- Contraction of sites from left to right; `F` is what stands to the right of them. -/
def net (isF : Q → Bool) (F : Bool → Q × Nat → Q × Nat → Q × Nat → K) : List (NSite Q K) → Bool → Q × Nat → Q × Nat → Q × Nat → K
  | [], s, b, m, k => F s b m k
  | σ :: rest, s, b, m, k =>
    ((legIndices σ.ups).map fun u => ((legBasis σ.rb).map fun b' => ((legIndices σ.downs).map fun d => ((legBasis σ.rk).map fun k' =>
      star (entry σ.B (b :: u ++ [b'])) * (((legBasis σ.rm).map fun m' => opEntry σ.W s (m :: u ++ d ++ [m']) *
        net isF F rest (xor s (fermParity isF (d.map Prod.fst))) b' m' k').sum * entry σ.T (k :: d ++ [k']))).sum).sum).sum).sum

theorem net_cons (isF : Q → Bool) (F : Bool → Q × Nat → Q × Nat → Q × Nat → K) (σ : NSite Q K) (rest : List (NSite Q K)) (s : Bool) (b m k : Q × Nat) :
    net isF F (σ :: rest) s b m k =
    ((legIndices σ.ups).map fun u => ((legBasis σ.rb).map fun b' => ((legIndices σ.downs).map fun d => ((legBasis σ.rk).map fun k' =>
      star (entry σ.B (b :: u ++ [b'])) * (((legBasis σ.rm).map fun m' => opEntry σ.W s (m :: u ++ d ++ [m']) *
        net isF F rest (xor s (fermParity isF (d.map Prod.fst))) b' m' k').sum * entry σ.T (k :: d ++ [k']))).sum).sum).sum).sum := by
  rw [net]

theorem net_append (isF : Q → Bool) (F : Bool → Q × Nat → Q × Nat → Q × Nat → K) (xs ys : List (NSite Q K)) (s : Bool) (b m k : Q × Nat) :
    net isF F (xs ++ ys) s b m k = net isF (net isF F ys) xs s b m k := by
  induction xs generalizing s b m k with
  | nil => rfl
  | cons σ xs ih => simp only [List.cons_append, net_cons, ih]

theorem net_congr (isF : Q → Bool) {F G : Bool → Q × Nat → Q × Nat → Q × Nat → K} (xs : List (NSite Q K))
    (h : ∀ s b m k, F s b m k = G s b m k) (s : Bool) (b m k : Q × Nat) : net isF F xs s b m k = net isF G xs s b m k := by
  have : F = G := by funext s b m k; exact h s b m k
  rw [this]

theorem star_listSum {α : Type} (l : List α) (f : α → K) : star (l.map f).sum = (l.map fun z => star (f z)).sum := by
  induction l with
  | nil => simp
  | cons z l ih => simp [ih]

/-! ### Sums -/

theorem sum_swap32 {α β γ δ ε : Type} (la : List α) (lb : List β) (lc : List γ) (ld : List δ) (le : List ε) (f : α → β → γ → δ → ε → K) :
    (la.map fun a => (lb.map fun b => (lc.map fun c => (ld.map fun d => (le.map fun e => f a b c d e).sum).sum).sum).sum).sum =
      (ld.map fun d => (le.map fun e => (la.map fun a => (lb.map fun b => (lc.map fun c => f a b c d e).sum).sum).sum).sum).sum := by
  have h1 : ∀ g : α → β → γ → δ × ε → K, (la.map fun a => (lb.map fun b => (lc.map fun c => ((pairs ld le).map fun x => g a b c x).sum).sum).sum).sum =
      ((pairs ld le).map fun x => (la.map fun a => (lb.map fun b => (lc.map fun c => g a b c x).sum).sum).sum).sum := by
    intro g
    rw [← sum_comm' la (pairs ld le)]
    refine sum_map_congr' _ _ _ fun a _ => ?_
    rw [← sum_comm' lb (pairs ld le)]
    exact sum_map_congr' _ _ _ fun b _ => sum_comm' _ _ _
  have := h1 fun a b c x => f a b c x.1 x.2
  simp only [sum_pairs] at this
  exact this

/-- The edges of a network: one basis vector on each. -/
def edge (b' m' k' : Q × Nat) : Bool → Q × Nat → Q × Nat → Q × Nat → K := fun _ b m k => if b = b' ∧ m = m' ∧ k = k' then 1 else 0

theorem legBasis_single (q : Q) : legBasis [(q, 1)] = [(q, 0)] := by
  simp [legBasis]

theorem cart_cons_sum {α : Type} (l : List α) (ls : List (List α)) (f : List α → K) :
    ((cart (l :: ls)).map f).sum = (l.map fun x => ((cart ls).map fun xs => f (x :: xs)).sum).sum := by
  rw [cart, sum_flatMap']
  simp only [List.map_map]
  rfl

theorem sandwich_one (isF : Q → Bool) (ph : List (BondInfo Q) × List (BondInfo Q)) (B : SpT Q K) (W : OpT Q K) (T : SpT Q K) (s : Bool)
    (b m k b' m' k' : Q × Nat) :
    sandwich isF [ph] [] [] [] [B] [W] [T] s b m k b' m' k' = ((legIndices ph.1).map fun u => ((legIndices ph.2).map fun d =>
      star (entry B (b :: u ++ [b'])) * opEntry W s (m :: u ++ d ++ [m']) * entry T (k :: d ++ [k'])).sum).sum := by
  unfold sandwich
  have c0 : cart ([] : List (List (List (Q × Nat)))) = [[]] := rfl
  rw [List.map_cons, List.map_cons, List.map_nil, List.map_nil, cart_cons_sum]
  refine sum_map_congr' _ _ _ fun u _ => ?_
  rw [c0, List.map_cons, List.map_nil, List.sum_cons, List.sum_nil, add_zero, cart_cons_sum]
  refine sum_map_congr' _ _ _ fun d _ => ?_
  rw [c0, List.map_cons, List.map_nil, List.sum_cons, List.sum_nil, add_zero]
  rfl

theorem sandwich_cons (isF : Q → Bool) (ph : List (BondInfo Q) × List (BondInfo Q)) (phys : List (List (BondInfo Q) × List (BondInfo Q)))
    (yb xb zb : BondInfo Q) (Y X Z : List (BondInfo Q)) (B : SpT Q K) (bs : List (SpT Q K)) (W : OpT Q K) (ws : List (OpT Q K)) (T : SpT Q K)
    (ks : List (SpT Q K)) (s : Bool) (b m k b' m' k' : Q × Nat) :
    sandwich isF (ph :: phys) (yb :: Y) (xb :: X) (zb :: Z) (B :: bs) (W :: ws) (T :: ks) s b m k b' m' k' =
    ((legIndices ph.1).map fun u => ((legBasis yb).map fun b1 => ((legIndices ph.2).map fun d => ((legBasis zb).map fun k1 =>
      star (entry B (b :: u ++ [b1])) * (((legBasis xb).map fun m1 => opEntry W s (m :: u ++ d ++ [m1]) *
        sandwich isF phys Y X Z bs ws ks (xor s (fermParity isF (d.map Prod.fst))) b1 m1 k1 b' m' k').sum * entry T (k :: d ++ [k1]))).sum).sum).sum).sum := by
  have l1 : sandwich isF (ph :: phys) (yb :: Y) (xb :: X) (zb :: Z) (B :: bs) (W :: ws) (T :: ks) s b m k b' m' k' =
      ((legIndices ph.1).map fun u => ((legIndices ph.2).map fun d => ((cart (phys.map fun ph => legIndices ph.1)).map fun us =>
        ((cart (phys.map fun ph => legIndices ph.2)).map fun ds => star (ampl (B :: bs) (yb :: Y) b (u :: us) b') *
          opAmpl isF (W :: ws) (xb :: X) s m (u :: us) (d :: ds) m' * ampl (T :: ks) (zb :: Z) k (d :: ds) k').sum).sum).sum).sum := by
    unfold sandwich
    rw [List.map_cons, List.map_cons, cart_cons_sum]
    refine sum_map_congr' _ _ _ fun u _ => ?_
    rw [sum_map_congr' _ _ _ fun us _ => cart_cons_sum _ _ _]
    exact sum_comm' _ _ _
  rw [l1]
  refine sum_map_congr' _ _ _ fun u _ => ?_
  rw [sum_comm' (legBasis yb)]
  refine sum_map_congr' _ _ _ fun d _ => ?_
  have l2 : ∀ us ds, star (ampl (B :: bs) (yb :: Y) b (u :: us) b') * opAmpl isF (W :: ws) (xb :: X) s m (u :: us) (d :: ds) m' *
      ampl (T :: ks) (zb :: Z) k (d :: ds) k' = ((legBasis yb).map fun b1 => ((legBasis zb).map fun k1 => ((legBasis xb).map fun m1 =>
        star (entry B (b :: u ++ [b1])) * (opEntry W s (m :: u ++ d ++ [m1]) * (star (ampl bs Y b1 us b') *
          opAmpl isF ws X (xor s (fermParity isF (d.map Prod.fst))) m1 us ds m' * ampl ks Z k1 ds k') * entry T (k :: d ++ [k1]))).sum).sum).sum := by
    intro us ds
    rw [ampl_cons, ampl_cons, opAmpl_cons, star_listSum, mul_assoc, ← sum_map_mul_right']
    refine sum_map_congr' _ _ _ fun b1 _ => ?_
    rw [← sum_map_mul_left', ← sum_map_mul_left']
    refine sum_map_congr' _ _ _ fun k1 _ => ?_
    rw [← sum_map_mul_right', ← sum_map_mul_left']
    refine sum_map_congr' _ _ _ fun m1 _ => ?_
    rw [star_mul']
    ring
  simp only [l2]
  rw [← sum_swap32]
  refine sum_map_congr' _ _ _ fun b1 _ => ?_
  refine sum_map_congr' _ _ _ fun k1 _ => ?_
  rw [← sum_map_mul_right', ← sum_map_mul_left']
  refine sum_map_congr' _ _ _ fun m1 _ => ?_
  unfold sandwich
  rw [← sum_map_mul_left', ← sum_map_mul_right', ← sum_map_mul_left']
  refine sum_map_congr' _ _ _ fun us _ => ?_
  rw [← sum_map_mul_left', ← sum_map_mul_right', ← sum_map_mul_left']

/-- The sites of a network with the given bonds to the right of each site. -/
def mkSites : List (BondInfo Q) → List (BondInfo Q) → List (BondInfo Q) → List (List (BondInfo Q) × List (BondInfo Q)) → List (SpT Q K) →
    List (OpT Q K) → List (SpT Q K) → List (NSite Q K)
  | y :: Y, x :: X, z :: Z, ph :: phys, B :: bs, W :: ws, T :: ks => ⟨B, W, T, ph.1, ph.2, y, x, z⟩ :: mkSites Y X Z phys bs ws ks
  | _, _, _, _, _, _, _ => []

theorem sandwich_eq_net (isF : Q → Bool) {qb qk qm : Q} : ∀ {phys : List (List (BondInfo Q) × List (BondInfo Q))} {Y X Z : List (BondInfo Q)}
    {bs : List (SpT Q K)} {ws : List (OpT Q K)} {ks : List (SpT Q K)} (s : Bool) (b m k : Q × Nat), X.length = Y.length → Z.length = Y.length →
    phys.length = Y.length + 1 → bs.length = Y.length + 1 → ws.length = Y.length + 1 → ks.length = Y.length + 1 →
    sandwich isF phys Y X Z bs ws ks s b m k (qb, 0) (qm, 0) (qk, 0) =
      net isF (edge (qb, 0) (qm, 0) (qk, 0)) (mkSites (Y ++ [[(qb, 1)]]) (X ++ [[(qm, 1)]]) (Z ++ [[(qk, 1)]]) phys bs ws ks) s b m k := by
  intro phys Y
  induction Y generalizing phys with
  | nil =>
    intro X Z bs ws ks s b m k h1 h2 h3 h4 h5 h6
    obtain rfl := List.length_eq_zero_iff.1 h1
    obtain rfl := List.length_eq_zero_iff.1 h2
    obtain ⟨ph, rfl⟩ := len1 h3
    obtain ⟨B, rfl⟩ := len1 h4
    obtain ⟨W, rfl⟩ := len1 h5
    obtain ⟨T, rfl⟩ := len1 h6
    rw [sandwich_one]
    simp only [List.nil_append, mkSites, net, legBasis_single, List.map_cons, List.map_nil, List.sum_cons, List.sum_nil, add_zero, edge, and_self,
      if_true, mul_one, one_mul, mul_assoc]
  | cons y Y ih =>
    intro X Z bs ws ks s b m k h1 h2 h3 h4 h5 h6
    rcases X with _ | ⟨x, X⟩
    · simp at h1
    rcases Z with _ | ⟨z, Z⟩
    · simp at h2
    rcases phys with _ | ⟨ph, phys⟩
    · simp at h3
    rcases bs with _ | ⟨B, bs⟩
    · simp at h4
    rcases ws with _ | ⟨W, ws⟩
    · simp at h5
    rcases ks with _ | ⟨T, ks⟩
    · simp at h6
    simp only [List.length_cons, Nat.add_right_cancel_iff] at h1 h2 h3 h4 h5 h6
    rw [sandwich_cons]
    simp only [List.cons_append, mkSites, net_cons, ih _ _ _ _ h1 h2 h3 h4 h5 h6]

/-! ### Environments -/

/-- The sites fit together; the bonds at the left of the first site are given. -/
def NOk (isF : Q → Bool) : BondInfo Q → BondInfo Q → BondInfo Q → List (NSite Q K) → Prop
  | lb, lm, lk, [] => Dict.WF lb ∧ Dict.WF lm ∧ Dict.WF lk
  | lb, lm, lk, σ :: rest => (Dict.WF lb ∧ Dict.WF lm ∧ Dict.WF lk ∧ Conforms (lb :: σ.ups ++ [σ.rb]) σ.B ∧ OpSite isF lm σ.ups σ.downs σ.rm σ.W ∧
    Conforms (lk :: σ.downs ++ [σ.rk]) σ.T ∧ EvenBlocks isF σ.B ∧ EvenBlocks isF σ.T ∧ σ.ups.length = σ.downs.length ∧
    ∀ c ∈ σ.ups ++ σ.downs, Dict.WF c) ∧ NOk isF σ.rb σ.rm σ.rk rest

theorem NOk.wf {isF : Q → Bool} {lb lm lk : BondInfo Q} {l : List (NSite Q K)} (h : NOk isF lb lm lk l) : Dict.WF lb ∧ Dict.WF lm ∧ Dict.WF lk := by
  rcases l with _ | ⟨σ, l⟩
  · exact h
  · exact ⟨h.1.1, h.1.2.1, h.1.2.2.1⟩

/-- A site tensor without blocks in bra or ket makes the contraction of the environment raise. -/
def NSite.full (σ : NSite Q K) : Prop := σ.B ≠ [] ∧ σ.T ≠ []

/-- A left environment next to the sites to its right. -/
def closeLeft (isF : Q → Bool) (F : Bool → Q × Nat → Q × Nat → Q × Nat → K) (lb lm lk : BondInfo Q) (L : OpT Q K) (e : Q × Nat)
    (l : List (NSite Q K)) : K :=
  ((legBasis lb).map fun b => ((legBasis lk).map fun k => ((legBasis lm).map fun m =>
    opEntry L false [e, b, k, m] * net isF F l (isF k.1) b m k).sum).sum).sum

theorem sum_swap33 {α β γ δ ε ζ : Type} (la : List α) (lb : List β) (lc : List γ) (ld : List δ) (le : List ε) (lf : List ζ)
    (f : α → β → γ → δ → ε → ζ → K) :
    (la.map fun a => (lb.map fun b => (lc.map fun c => (ld.map fun d => (le.map fun e => (lf.map fun g => f a b c d e g).sum).sum).sum).sum).sum).sum =
      (ld.map fun d => (le.map fun e => (lf.map fun g => (la.map fun a => (lb.map fun b => (lc.map fun c => f a b c d e g).sum).sum).sum).sum).sum).sum := by
  have := sum_swap32 la lb lc ld (pairs le lf) fun a b c d x => f a b c d x.1 x.2
  simp only [sum_pairs] at this
  exact this

theorem closeLeft_step (isF : Q → Bool) (F : Bool → Q × Nat → Q × Nat → Q × Nat → K) {wl lb lm lk : BondInfo Q} {L : OpT Q K} (e : Q × Nat)
    {σ : NSite Q K} {rest : List (NSite Q K)} (hL : OpSite isF wl [lb] [lk] lm L) (h : NOk isF lb lm lk (σ :: rest)) (hf : σ.full) :
    ∃ L', Mpe.leftRotate isF L σ.W σ.B σ.T = some L' ∧ OpSite isF wl [σ.rb] [σ.rk] σ.rm L' ∧
      closeLeft isF F lb lm lk L e (σ :: rest) = closeLeft isF F σ.rb σ.rm σ.rk L' e rest := by
  obtain ⟨⟨w1, w2, w3, hB, hW, hT, eB, eT, hlen, wl'⟩, hrest⟩ := h
  obtain ⟨L', a1, a2, a3⟩ := leftRotate_spec isF hL hW hB hT eB eT hf.1 hf.2 hlen w2
    (fun c hc => by
      rcases List.mem_cons.1 hc with rfl | hc
      · exact w1
      · exact wl' c (by simp [hc]))
    (fun c hc => by
      rcases List.mem_cons.1 hc with rfl | hc
      · exact w3
      · exact wl' c (by simp [hc]))
  refine ⟨L', a1, a2, ?_⟩
  unfold closeLeft
  -- everything outside
  have lhs : ∀ b k m, opEntry L false [e, b, k, m] * net isF F (σ :: rest) (isF k.1) b m k =
      ((legIndices σ.ups).map fun u => ((legIndices σ.downs).map fun d => ((legBasis σ.rb).map fun b' => ((legBasis σ.rk).map fun k' =>
        ((legBasis σ.rm).map fun m' => star (entry σ.B (b :: u ++ [b'])) * (opEntry L false [e, b, k, m] *
          opEntry σ.W (isF k.1) (m :: u ++ d ++ [m']) * entry σ.T (k :: d ++ [k'])) * net isF F rest (isF k'.1) b' m' k').sum).sum).sum).sum).sum := by
    intro b k m
    rw [net_cons, ← sum_map_mul_left']
    refine sum_map_congr' _ _ _ fun u _ => ?_
    rw [sum_comm' (legBasis σ.rb), ← sum_map_mul_left']
    refine sum_map_congr' _ _ _ fun d _ => ?_
    rw [← sum_map_mul_left']
    refine sum_map_congr' _ _ _ fun b' _ => ?_
    rw [← sum_map_mul_left']
    refine sum_map_congr' _ _ _ fun k' _ => ?_
    rw [← sum_map_mul_right', ← sum_map_mul_left', ← sum_map_mul_left']
    refine sum_map_congr' _ _ _ fun m' _ => ?_
    by_cases hz : entry σ.T (k :: d ++ [k']) = 0
    · rw [hz]; ring
    · have := eT.site (l := lk) (r := lk) (ph := []) hz
      unfold basisPar at this
      rw [this]
      ring
  have rhs : ∀ b' k' m', opEntry L' false [e, b', k', m'] * net isF F rest (isF k'.1) b' m' k' =
      ((legBasis lb).map fun b => ((legBasis lk).map fun k => ((legBasis lm).map fun m => ((legIndices σ.ups).map fun u => ((legIndices σ.downs).map fun d =>
        star (entry σ.B (b :: u ++ [b'])) * (opEntry L false [e, b, k, m] *
          opEntry σ.W (isF k.1) (m :: u ++ d ++ [m']) * entry σ.T (k :: d ++ [k'])) * net isF F rest (isF k'.1) b' m' k').sum).sum).sum).sum).sum := by
    intro b' k' m'
    rw [a3, legIndices_cons_sum, ← sum_map_mul_right']
    refine sum_map_congr' _ _ _ fun b _ => ?_
    have c1 : ((legIndices σ.ups).map fun u => ((legIndices (lk :: σ.downs)).map fun kd => star (entry σ.B (b :: u ++ [b'])) *
        (((legBasis lm).map fun m => opEntry L false [e, (b :: u).headD (0, 0), kd.headD (0, 0), m] *
          opEntry σ.W (xor false (isF (kd.headD (0, 0)).1)) (m :: (b :: u).tail ++ kd.tail ++ [m'])).sum * entry σ.T (kd ++ [k']))).sum).sum =
        ((legBasis lk).map fun k => ((legBasis lm).map fun m => ((legIndices σ.ups).map fun u => ((legIndices σ.downs).map fun d =>
          star (entry σ.B (b :: u ++ [b'])) * (opEntry L false [e, b, k, m] * opEntry σ.W (isF k.1) (m :: u ++ d ++ [m']) * entry σ.T (k :: d ++ [k']))).sum).sum).sum).sum := by
      simp only [List.headD_cons, List.tail_cons, Bool.false_xor]
      rw [sum_map_congr' _ _ _ fun u _ => legIndices_cons_sum _ _ _]
      rw [sum_comm']
      refine sum_map_congr' _ _ _ fun k _ => ?_
      rw [sum_comm3 (legBasis lm) (legIndices σ.ups) (legIndices σ.downs), sum_comm3 (legIndices σ.downs) (legBasis lm) (legIndices σ.ups)]
      refine sum_map_congr' _ _ _ fun u _ => ?_
      refine sum_map_congr' _ _ _ fun d _ => ?_
      simp only [List.headD_cons, List.tail_cons]
      rw [← sum_map_mul_right', ← sum_map_mul_left']
    rw [c1]
    simp only [← sum_map_mul_right']
  simp only [lhs, rhs]
  rw [sum_swap33 (legBasis σ.rb) (legBasis σ.rk) (legBasis σ.rm) (legBasis lb) (legBasis lk) (legBasis lm)]
  refine sum_map_congr' _ _ _ fun b _ => ?_
  refine sum_map_congr' _ _ _ fun k _ => ?_
  refine sum_map_congr' _ _ _ fun m _ => ?_
  exact (sum_swap32 (legBasis σ.rb) (legBasis σ.rk) (legBasis σ.rm) (legIndices σ.ups) (legIndices σ.downs) _).symm

theorem right_step (isF : Q → Bool) (F : Bool → Q × Nat → Q × Nat → Q × Nat → K) {wr lb lm lk : BondInfo Q} {R : OpT Q K} (e : Q × Nat)
    {σ : NSite Q K} {rest : List (NSite Q K)} (hR : OpSite isF σ.rm [σ.rb] [σ.rk] wr R) (h : NOk isF lb lm lk (σ :: rest)) (hf : σ.full)
    (hval : ∀ s b m k, opEntry R s [m, b, k, e] = net isF F rest s b m k) :
    ∃ R', Mpe.rightRotate isF R σ.W σ.B σ.T = some R' ∧ OpSite isF lm [lb] [lk] wr R' ∧
      ∀ s b m k, opEntry R' s [m, b, k, e] = net isF F (σ :: rest) s b m k := by
  obtain ⟨⟨w1, w2, w3, hB, hW, hT, eB, eT, hlen, wl'⟩, hrest⟩ := h
  obtain ⟨v1, v2, v3⟩ := hrest.wf
  obtain ⟨R', a1, a2, a3⟩ := rightRotate_spec isF hR hW hB hT eB eT hf.1 hf.2 hlen v2
    (fun c hc => by
      rcases List.mem_append.1 hc with hc | hc
      · exact wl' c (by simp [hc])
      · rw [List.mem_singleton.1 hc]; exact v1)
    (fun c hc => by
      rcases List.mem_append.1 hc with hc | hc
      · exact wl' c (by simp [hc])
      · rw [List.mem_singleton.1 hc]; exact v3)
  refine ⟨R', a1, a2, ?_⟩
  intro s b m k
  rw [a3, net_cons]
  simp only [hval]

end
end Verif
