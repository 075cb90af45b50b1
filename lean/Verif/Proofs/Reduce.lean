import Verif.Model.Reduce
import Verif.Proofs.Decompose
import Verif.Proofs.IntertwinerRep
import Verif.Proofs.ReducedSpec
import Verif.Proofs.PyMap
/-!
# Helper lemmas for `reduce`
-/
namespace LieNN

open Matrix Spec

variable {n h d : ℕ} {eps : ℝ}

/-- The columns of all intertwiners from the blocks. -/
def colSpan (X : Fin n → Matrix (Fin d) (Fin d) ℂ) (Ys : List (Block n)) : Submodule ℂ (Fin d → ℂ) :=
  Submodule.span ℂ {x | ∃ Y ∈ Ys, ∃ V ∈ intertwiners X Y.2, ∃ j, x = fun p => V p j}

/-- What `decomposeFrom` returns. -/
theorem decomposeFrom_blocks (heps : 0 < eps) (hd0 : d ≠ 0) (hd : d * eps ^ 2 < 1)
    (X : Fin n → Matrix (Fin d) (Fin d) ℂ) (M : Matrix (Fin d) (Fin d) ℂ) (eig : EigFn)
    (hcomm : ∀ a, X a * M = M * X a)
    (hev : ∀ k, M *ᵥ ((eig d M).2 k).ofLp = (eig d M).1 k • ((eig d M).2 k).ofLp)
    (hli : LinearIndependent ℂ (eig d M).2)
    (hgs : ∀ W : List (Vec d), W.Sublist (List.ofFn (eig d M).2) →
      lspan (gramSchmidt eps W) = lspan W)
    (hconj : (∀ a p q, (X a p q).im = 0) ∨
      ∀ (x : Fin d → ℂ) (μ : ℂ), M *ᵥ x = μ • x →
        M *ᵥ (fun i => starRingEnd ℂ (x i)) = μ • fun i => starRingEnd ℂ (x i))
    (fuel : ℕ) (hf : d < fuel) (Ys : List (Block n))
    (hrun : decomposeFrom eig eps X M fuel = some (.ok Ys)) :
    (∀ Y ∈ Ys, 0 < Y.1) ∧ colSpan X Ys = ⊤ := by
  unfold decomposeFrom at hrun
  cases hsp : eigenspaces eps (eig d M).1 (eig d M).2 fuel with
  | none => rw [hsp] at hrun; cases hrun
  | some res =>
    rw [hsp] at hrun
    cases res with
    | error e => cases hrun
    | ok out =>
      simp only [Option.some.injEq, Except.ok.injEq] at hrun
      obtain ⟨k, inv, first, hcl, rfl⟩ := eigenspaces_spec heps hd0 hf hsp
      have hinv : ∀ i j, (eig d M).1 i = (eig d M).1 j → inv i = inv j :=
        fun i j hij => clustering_eq hcl hij
      have hsub : ∀ c, (clusterCols (eig d M).2 inv c).Sublist (List.ofFn (eig d M).2) := by
        intro c
        have h1 := (List.filter_sublist (p := fun i => decide (inv i = c)) (l := List.finRange d)).map
          (eig d M).2
        rw [List.ofFn_eq_map]
        exact h1
      have hspan : ∀ c, lspan (blockRows eps (clusterCols (eig d M).2 inv c)) =
          lspan (clusterCols (eig d M).2 inv c) := by
        intro c
        rw [blockRows_span heps.le hd, hgs _ (hsub c)]
      have hO : ∀ c, OList (blockRows eps (clusterCols (eig d M).2 inv c)) :=
        fun c => blockRows_oList heps.le _
      have hmem : ∀ c < k, (⟨(blockRows eps (clusterCols (eig d M).2 inv c)).length,
          fun a => compress (X a) (blockRows eps (clusterCols (eig d M).2 inv c))⟩ : Block n) ∈ Ys := by
        intro c hc
        rw [← hrun, List.map_map]
        exact List.mem_map.2 ⟨c, List.mem_range.2 hc, rfl⟩
      have hint : ∀ c, blockCols (blockRows eps (clusterCols (eig d M).2 inv c)) ∈
          intertwiners X (fun a => compress (X a) (blockRows eps (clusterCols (eig d M).2 inv c))) := by
        intro c a
        refine compress_intertwines (hO c) ?_
        rw [hspan]
        rcases hconj with hreal | hconj
        · intro x hx
          have e : conjVec (WithLp.toLp 2 (X a *ᵥ (conjVec x).ofLp)) =
              (WithLp.toLp 2 (X a *ᵥ x.ofLp) : Vec d) := by
            ext p
            simp only [conjVec, mulVec, dotProduct, map_sum, map_mul, Complex.conj_conj]
            refine Finset.sum_congr rfl fun q _ => ?_
            rw [Complex.conj_eq_iff_im.2 (hreal a p q)]
          rw [e]
          exact cluster_invariant (hcomm a) hev hli hinv c x hx
        · have hc := cluster_conj hev hli hinv (fun x μ => hconj x.ofLp μ) c
          intro x hx
          exact hc _ (cluster_invariant (hcomm a) hev hli hinv c _ (hc x hx))
      refine ⟨?_, ?_⟩
      · intro Y hY
        rw [← hrun, List.map_map] at hY
        obtain ⟨c, hc, rfl⟩ := List.mem_map.1 hY
        show 0 < (blockRows eps (clusterCols (eig d M).2 inv c)).length
        rw [oList_length (hO c), hspan, finrank_clusterCols hli, Finset.card_pos]
        have hc' : c < k := List.mem_range.1 hc
        exact ⟨first ⟨c, hc'⟩, Finset.mem_filter.2 ⟨Finset.mem_univ _,
          (hcl.mem_iff _ ⟨c, hc'⟩).2 (by simpa using heps)⟩⟩
      · have h1 : ∀ c < k, ∀ y ∈ lspan (blockRows eps (clusterCols (eig d M).2 inv c)),
            (conjVec y).ofLp ∈ colSpan X Ys := by
          intro c hc y hy
          induction hy using Submodule.span_induction with
          | mem y hy =>
            obtain ⟨j, hj⟩ := List.mem_iff_get.1 hy
            refine Submodule.subset_span ⟨_, hmem c hc, _, hint c, j, ?_⟩
            funext p
            simp only [conjVec, blockCols]
            rw [hj]
          | zero =>
            have : (conjVec (0 : Vec d)).ofLp = 0 := by
              funext p; simp [conjVec]
            rw [this]
            exact Submodule.zero_mem _
          | add y z _ _ hy hz =>
            rw [conjVec_add]
            exact Submodule.add_mem _ hy hz
          | smul t y _ hy =>
            rw [conjVec_smul]
            exact Submodule.smul_mem _ _ hy
        have h2 : ∀ y : Vec d, (conjVec y).ofLp ∈ colSpan X Ys := by
          intro y
          have htop := hli.span_eq_top_of_card_eq_finrank' (by simp)
          have hy : y ∈ Submodule.span ℂ (Set.range (eig d M).2) := by rw [htop]; trivial
          induction hy using Submodule.span_induction with
          | mem y hy =>
            obtain ⟨i, rfl⟩ := hy
            refine h1 (inv i) (hcl.lt i) _ ?_
            rw [hspan]
            exact mem_lspan (mem_clusterCols.2 ⟨i, rfl, rfl⟩)
          | zero =>
            have : (conjVec (0 : Vec d)).ofLp = 0 := by
              funext p; simp [conjVec]
            rw [this]
            exact Submodule.zero_mem _
          | add y z _ _ hy hz =>
            rw [conjVec_add]
            exact Submodule.add_mem _ hy hz
          | smul t y _ hy =>
            rw [conjVec_smul]
            exact Submodule.smul_mem _ _ hy
        rw [eq_top_iff]
        intro x _
        have := h2 (conjVec (WithLp.toLp 2 x))
        have e : (conjVec (conjVec (WithLp.toLp 2 x : Vec d))).ofLp = x := by
          funext p
          simp [conjVec]
        rwa [e] at this

theorem allGens_blockIr (r : Rep n h d) (Y : Block (n + h)) : (blockIr r Y).allGens = Y.2 := by
  funext a
  refine Fin.addCases (fun a => ?_) (fun a => ?_) a
  · simp [Rep.allGens, blockIr]
  · simp [Rep.allGens, blockIr]

theorem allCloseA_refl (A : Fin n → Fin n → Fin n → ℂ) : AllCloseA A A := by
  intro i j k
  simp [IsClose]
  positivity

/-- What one turn of the loop does. -/
theorem reduceBlock_spec {eigh : EighFn} (he : EighSpec eigh) (hn : n + h ≠ 0) (r : Rep n h d)
    (Y : Block (n + h)) (hd : d * Y.1 < 10 ^ 8) (hgap : Gap (1 / 10 ^ 4) (icobMatrix r.allGens Y.2)) :
    (Module.finrank ℂ (intertwiners r.allGens Y.2) = 1 → ∃ Q,
      reduceBlock eigh r Y = .ok ⟨Y.1, blockIr r Y, Q⟩ ∧ Q ∈ intertwiners r.allGens Y.2 ∧
      ∀ V ∈ intertwiners r.allGens Y.2, ∃ c : ℂ, V = c • Q) ∧
    (Module.finrank ℂ (intertwiners r.allGens Y.2) ≠ 1 → d * Y.1 ≠ 0 →
      reduceBlock eigh r Y = .error .valueError) := by
  obtain ⟨S, h1, h2, h3, -⟩ := rep_infer_spec he hn (blockIr r Y) r (allCloseA_refl _) hd
    (by rw [allGens_blockIr]; exact hgap)
  rw [allGens_blockIr] at h2 h3
  constructor
  · intro h
    rw [h] at h3
    obtain ⟨Q, rfl⟩ := List.length_eq_one_iff.1 h3
    have hs : mspan [Q] = Submodule.span ℂ {Q} := by
      unfold mspan
      congr 1
      ext x
      simp
    refine ⟨Q, ?_, ?_, ?_⟩
    · rw [reduceBlock, h1]
      rfl
    · rw [← h2, hs]
      exact Submodule.mem_span_singleton_self Q
    · intro V hV
      rw [← h2, hs] at hV
      obtain ⟨c, hc⟩ := Submodule.mem_span_singleton.1 hV
      exact ⟨c, hc.symm⟩
  · intro h hne
    rw [reduceBlock, h1]
    match S, h3 with
    | [], h3 =>
      show (if d * Y.1 = 0 then _ else _) = _
      rw [if_neg hne]
    | [Q], h3 => exact absurd h3.symm h
    | _ :: _ :: _, h3 =>
      show (if d * Y.1 = 0 then _ else _) = _
      rw [if_neg hne]

/-- The generators of the pieces. -/
noncomputable def pieceGens (ps : List (Piece n h d)) (f : ∀ k, Rep n h k → Matrix (Fin k) (Fin k) ℂ) :
    Matrix (Fin (dimL (ps.map Piece.mulIr))) (Fin (dimL (ps.map Piece.mulIr))) ℂ :=
  diagMat (T := genericTable n h) (fun i => f i.1 i.2) (ps.map Piece.mulIr)

theorem hcat_mul_dsum {a b a' b' c : ℕ} (A : Matrix (Fin c) (Fin a) ℂ) (B : Matrix (Fin c) (Fin b) ℂ)
    (P : Matrix (Fin a) (Fin a') ℂ) (Q : Matrix (Fin b) (Fin b') ℂ) :
    hcat A B * dsum P Q = hcat (A * P) (B * Q) := by
  apply hcat_ext <;> intro i j <;> simp [Matrix.mul_apply, Fin.sum_univ_add]

theorem mul_hcat {a b c e : ℕ} (M : Matrix (Fin e) (Fin c) ℂ) (A : Matrix (Fin c) (Fin a) ℂ)
    (B : Matrix (Fin c) (Fin b) ℂ) : M * hcat A B = hcat (M * A) (M * B) := by
  apply hcat_ext <;> intro i j <;> simp [Matrix.mul_apply]

theorem kron_one_cast {k : ℕ} (M : Matrix (Fin k) (Fin k) ℂ) :
    kron (1 : Matrix (Fin 1) (Fin 1) ℂ) M =
      M.submatrix (Fin.cast (Nat.one_mul k)) (Fin.cast (Nat.one_mul k)) := by
  ext i j
  have hi : i.divNat = 0 := Subsingleton.elim _ _
  have hj : j.divNat = 0 := Subsingleton.elim _ _
  have ei : i.modNat = Fin.cast (Nat.one_mul k) i :=
    Fin.ext (Nat.mod_eq_of_lt (by have := i.2; omega))
  have ej : j.modNat = Fin.cast (Nat.one_mul k) j :=
    Fin.ext (Nat.mod_eq_of_lt (by have := j.2; omega))
  show (1 : Matrix (Fin 1) (Fin 1) ℂ) i.divNat j.divNat * M i.modNat j.modNat = _
  rw [hi, hj, ei, ej, Matrix.one_apply_eq, one_mul]
  rfl

theorem catQ_step {k m : ℕ} (M : Matrix (Fin d) (Fin d) ℂ) (Q : Matrix (Fin d) (Fin k) ℂ)
    (g : Matrix (Fin k) (Fin k) ℂ) (C : Matrix (Fin d) (Fin m) ℂ) (D : Matrix (Fin m) (Fin m) ℂ)
    (hQ : M * Q = Q * g) (hC : M * C = C * D) :
    M * hcat (Q.submatrix id (Fin.cast (Nat.one_mul k))) C =
      hcat (Q.submatrix id (Fin.cast (Nat.one_mul k))) C *
        dsum (kron (1 : Matrix (Fin 1) (Fin 1) ℂ) g) D := by
  rw [hcat_mul_dsum, mul_hcat, hC, kron_one_cast]
  congr 1
  have e : (Q.submatrix id (Fin.cast (Nat.one_mul k))) *
      g.submatrix (Fin.cast (Nat.one_mul k)) (Fin.cast (Nat.one_mul k)) =
      (Q * g).submatrix id (Fin.cast (Nat.one_mul k)) :=
    submatrix_mul_equiv Q g id (finCongr (Nat.one_mul k)) _
  rw [e, ← hQ]
  rfl

theorem catQ_intertwines (M : Matrix (Fin d) (Fin d) ℂ) (f : ∀ k, Rep n h k → Matrix (Fin k) (Fin k) ℂ)
    (ps : List (Piece n h d)) (hM : ∀ p ∈ ps, M * p.2.2 = p.2.2 * f p.1 p.2.1) :
    M * catQ ps = catQ ps * pieceGens ps f := by
  induction ps with
  | nil => ext i j; exact j.elim0
  | cons p ps ih =>
    exact catQ_step M p.2.2 (f p.1 p.2.1) (catQ ps) (pieceGens ps f) (hM p (by simp))
      (ih fun q hq => hM q (by simp [hq]))

theorem catQ_col (ps : List (Piece n h d)) (p : Piece n h d) (hp : p ∈ ps) (j : Fin p.1) :
    ∃ j', ∀ i, catQ ps i j' = p.2.2 i j := by
  induction ps with
  | nil => cases hp
  | cons q ps ih =>
    rcases List.mem_cons.1 hp with rfl | hp
    · exact ⟨Fin.castAdd _ (Fin.cast (Nat.one_mul p.1).symm j), fun i => by
        show hcat _ _ i _ = _
        rw [hcat_left]; rfl⟩
    · obtain ⟨j', hj'⟩ := ih hp
      exact ⟨Fin.natAdd _ j', fun i => by
        show hcat _ _ i _ = _
        rw [hcat_right]; exact hj' i⟩

theorem hasInv_of_span {a b : ℕ} (hab : a = b) (Q : Matrix (Fin a) (Fin b) ℂ)
    (hQ : Submodule.span ℂ (Set.range fun j => fun i => Q i j) = ⊤) : HasInv Q := by
  subst hab
  apply HasInv.of_isUnit
  rw [← Matrix.linearIndependent_cols_iff_isUnit]
  apply linearIndependent_of_top_le_span_of_card_eq_finrank
  · rw [← hQ]
    rfl
  · simp

/-- sum of the dimensions -/
theorem dimL_pieces (ps : List (Piece n h d)) :
    dimL (ps.map Piece.mulIr) = (ps.map fun p => p.1).sum := by
  rw [dimL_eq_sum, List.map_map]
  congr 1
  apply List.map_congr_left
  intro p _
  exact Nat.one_mul p.1

/-- The sum of pieces with the right intertwiners is the representation. -/
theorem pieces_act (hn : n ≠ 0) (r : Rep n h d) (ps : List (Piece n h d)) (hne : ps ≠ [])
    (hX : ∀ p ∈ ps, (∀ a, r.X a * p.2.2 = p.2.2 * p.2.1.X a) ∧ ∀ a, r.H a * p.2.2 = p.2.2 * p.2.1.H a)
    (hdim : (ps.map fun p => p.1).sum = d)
    (hspan : Submodule.span ℂ {x | ∃ p ∈ ps, ∃ j, x = fun i => p.2.2 i j} = ⊤) :
    Acts (⟨r.A, ps.map Piece.mulIr, some ⟨d, _, catQ ps⟩⟩ : ReducedRep (genericTable n h)) r := by
  refine acts_of_intertwines hn (by simpa using hne) ?_ (q := catQ ps) ?_ (Or.inr rfl) rfl ?_ ?_
  · intro m hm
    obtain ⟨p, _, rfl⟩ := List.mem_map.1 hm
    simp [Piece.mulIr]
  · refine hasInv_of_span (by rw [dimL_pieces, hdim]) _ ?_
    rw [eq_top_iff, ← hspan, Submodule.span_le]
    rintro x ⟨p, hp, j, rfl⟩
    obtain ⟨j', hj'⟩ := catQ_col ps p hp j
    refine Submodule.subset_span ⟨j', ?_⟩
    funext i
    exact hj' i
  · intro a
    exact catQ_intertwines (r.X a) (fun _ R => R.X a) ps fun p hp => (hX p hp).1 a
  · intro a
    exact catQ_intertwines (r.H a) (fun _ R => R.H a) ps fun p hp => (hX p hp).2 a

end LieNN
