import Verif.Proofs.Reduced
/-!
# Lemmas about the tensor products of `MulIrrep` and `ReducedRep`
-/
namespace LieNN

open Matrix

theorem bind_ok {α β : Type} {x : Py α} {f : α → Py β} {y : β} (h : x >>= f = .ok y) :
    ∃ a, x = .ok a ∧ f a = .ok y := by
  cases x with
  | error e => exact absurd h (by simp [bind, Except.bind])
  | ok a => exact ⟨a, rfl, h⟩

theorem pyAssert_ok {p : Prop} {_ : Decidable p} {u : Unit} (h : pyAssert p = .ok u) : p := by
  unfold pyAssert at h
  split_ifs at h with hp
  exact hp

theorem SMat.invP_rect {a b : ℕ} {M : Matrix (Fin a) (Fin b) ℂ} {B : SMat}
    (hB : SMat.invP ⟨a, b, M⟩ = .ok B) :
    ∃ P : Matrix (Fin b) (Fin a) ℂ, P * M = 1 ∧ M * P = 1 ∧ B = ⟨b, a, P⟩ := by
  have hab : a = b := by
    unfold SMat.invP at hB
    split_ifs at hB with h1 h2
    exact h1
  subst hab
  obtain ⟨d, N, hN, e1, e2⟩ := SMat.invP_ok hB
  obtain rfl : a = d := congrArg SMat.rows e1
  obtain rfl := SMat.mat_heq e1
  have hN' : IsUnit M.det := (isUnit_iff_isUnit_det _).1 hN
  exact ⟨M⁻¹, nonsing_inv_mul _ hN', mul_nonsing_inv _ hN', e2⟩

theorem SMat.mk_congr {p p' c c' : ℕ} (hp : p' = p) (hc : c' = c) (M : Matrix (Fin p) (Fin c) ℂ) :
    (⟨p, c, M⟩ : SMat) = ⟨p', c', M.submatrix (finCongr hp) (finCongr hc)⟩ := by
  subst hp hc
  rfl

/-! ## Index equivalences -/

/-- `((u, i), (v, j)) ↦ ((u, v), (i, j))` -/
def eRow (m₁ d₁ m₂ d₂ : ℕ) : Fin ((m₁ * d₁) * (m₂ * d₂)) ≃ Fin ((m₁ * m₂) * (d₁ * d₂)) :=
  finProdFinEquiv.symm.trans <| (finProdFinEquiv.symm.prodCongr finProdFinEquiv.symm).trans <|
    (Equiv.prodProdProdComm _ _ _ _).trans <|
      (finProdFinEquiv.prodCongr finProdFinEquiv).trans finProdFinEquiv

/-- `((x, s), k) ↦ (x, (s, k))` -/
def eCol (m mul d : ℕ) : Fin ((m * mul) * d) ≃ Fin (m * (mul * d)) :=
  finProdFinEquiv.symm.trans <| (finProdFinEquiv.symm.prodCongr (Equiv.refl _)).trans <|
    (Equiv.prodAssoc _ _ _).trans <|
      ((Equiv.refl _).prodCongr finProdFinEquiv).trans finProdFinEquiv

theorem eRow_apply {m₁ d₁ m₂ d₂ : ℕ} (u : Fin m₁) (i : Fin d₁) (v : Fin m₂) (j : Fin d₂) :
    eRow m₁ d₁ m₂ d₂ (finProdFinEquiv (finProdFinEquiv (u, i), finProdFinEquiv (v, j))) =
      finProdFinEquiv (finProdFinEquiv (u, v), finProdFinEquiv (i, j)) := by
  simp only [eRow, Equiv.trans_apply, Equiv.symm_apply_apply, Equiv.prodCongr_apply,
    Prod.map_apply, Equiv.prodProdProdComm_apply]

theorem eCol_apply {m mul d : ℕ} (x : Fin m) (s : Fin mul) (k : Fin d) :
    eCol m mul d (finProdFinEquiv (finProdFinEquiv (x, s), k)) =
      finProdFinEquiv (x, finProdFinEquiv (s, k)) := by
  simp only [eCol, Equiv.trans_apply, Equiv.symm_apply_apply, Equiv.prodCongr_apply,
    Prod.map_apply, Equiv.prodAssoc_apply, Equiv.refl_apply]

theorem fin_prod_cases {a b : ℕ} {P : Fin (a * b) → Prop}
    (hP : ∀ i j, P (finProdFinEquiv (i, j))) (x : Fin (a * b)) : P x := by
  have := hP (finProdFinEquiv.symm x).1 (finProdFinEquiv.symm x).2
  rwa [Prod.mk.eta, Equiv.apply_symm_apply] at this

theorem divNat_prod {a b : ℕ} (i : Fin a) (j : Fin b) : (finProdFinEquiv (i, j)).divNat = i :=
  congrArg Prod.fst (finProdFinEquiv.symm_apply_apply (i, j))

theorem modNat_prod {a b : ℕ} (i : Fin a) (j : Fin b) : (finProdFinEquiv (i, j)).modNat = j :=
  congrArg Prod.snd (finProdFinEquiv.symm_apply_apply (i, j))

theorem liftBlock_eq (m₁ m₂ : ℕ) {d₁ d₂ mul d : ℕ}
    (q : Matrix (Fin (d₁ * d₂)) (Fin (mul * d)) ℂ) :
    liftBlock m₁ m₂ q = (kron (1 : Matrix (Fin (m₁ * m₂)) (Fin (m₁ * m₂)) ℂ) q).submatrix
      (eRow m₁ d₁ m₂ d₂) (eCol (m₁ * m₂) mul d) := by
  ext r c
  revert r
  refine fin_prod_cases fun r₁ r₂ => ?_
  revert r₁ r₂
  refine fin_prod_cases fun u i => ?_
  refine fin_prod_cases fun v j => ?_
  revert c
  refine fin_prod_cases fun c k => ?_
  revert c
  refine fin_prod_cases fun c s => ?_
  revert c
  refine fin_prod_cases fun x y => ?_
  rw [submatrix_apply, eRow_apply, eCol_apply, kron_apply]
  unfold liftBlock
  repeat rw [divNat_prod]
  repeat rw [modNat_prod]
  repeat rw [divNat_prod]
  rw [← kron_one, kron_apply]
  ring

theorem kron_one_one (m₁ m₂ : ℕ) {d₁ d₂ : ℕ} (a : Matrix (Fin d₁) (Fin d₁) ℂ)
    (b : Matrix (Fin d₂) (Fin d₂) ℂ) :
    kron (kron (1 : Matrix (Fin m₁) (Fin m₁) ℂ) a) (kron (1 : Matrix (Fin m₂) (Fin m₂) ℂ) b) =
      (kron (1 : Matrix (Fin (m₁ * m₂)) (Fin (m₁ * m₂)) ℂ) (kron a b)).submatrix
        (eRow m₁ d₁ m₂ d₂) (eRow m₁ d₁ m₂ d₂) := by
  ext r c
  revert r c
  refine fin_prod_cases fun r₁ r₂ => ?_
  refine fin_prod_cases fun c₁ c₂ => ?_
  revert r₁ r₂ c₁ c₂
  refine fin_prod_cases fun u i => ?_
  refine fin_prod_cases fun v j => ?_
  refine fin_prod_cases fun u' i' => ?_
  refine fin_prod_cases fun v' j' => ?_
  rw [submatrix_apply, eRow_apply, eRow_apply]
  rw [← kron_one]
  simp only [kron_apply]
  ring

theorem kron_one_kron (m mul : ℕ) {d : ℕ} (D : Matrix (Fin d) (Fin d) ℂ) :
    kron (1 : Matrix (Fin (m * mul)) (Fin (m * mul)) ℂ) D =
      (kron (1 : Matrix (Fin m) (Fin m) ℂ) (kron (1 : Matrix (Fin mul) (Fin mul) ℂ) D)).submatrix
        (eCol m mul d) (eCol m mul d) := by
  ext r c
  revert r c
  refine fin_prod_cases fun r k => ?_
  refine fin_prod_cases fun c k' => ?_
  revert r c
  refine fin_prod_cases fun x s => ?_
  refine fin_prod_cases fun x' s' => ?_
  rw [submatrix_apply, eCol_apply, eCol_apply]
  rw [← kron_one]
  simp only [kron_apply]
  ring

variable {n h : ℕ} {T : Table n h}

/-- Equivalence of sums of index ranges. -/
def sumE {a b a' b' : ℕ} (e : Fin a ≃ Fin a') (f : Fin b ≃ Fin b') : Fin (a + b) ≃ Fin (a' + b') :=
  finSumFinEquiv.symm.trans ((e.sumCongr f).trans finSumFinEquiv)

/-- The columns of the block loop of `tensor_product(MulIrrep, MulIrrep)`. -/
def eCols (m₁ m₂ : ℕ) : (l : List (MulIr T)) →
    Fin (dimL (l.map (MulIr.scale m₁ m₂))) ≃ Fin (m₁ * m₂ * dimL l)
  | [] => finCongr (by simp)
  | m :: l => (sumE (eCol (m₁ * m₂) m.mul (T.dim m.ir)) (eCols m₁ m₂ l)).trans
      (eIn (m₁ * m₂) m.dim (dimL l)).symm

theorem hcat_ext {a b c : ℕ} {A B : Matrix (Fin c) (Fin (a + b)) ℂ}
    (h₁ : ∀ i j, A i (Fin.castAdd b j) = B i (Fin.castAdd b j))
    (h₂ : ∀ i j, A i (Fin.natAdd a j) = B i (Fin.natAdd a j)) : A = B := by
  ext i j
  refine Fin.addCases (fun j => ?_) (fun j => ?_) j
  · exact h₁ i j
  · exact h₂ i j

theorem vcat_ext {a b c : ℕ} {A B : Matrix (Fin (a + b)) (Fin c) ℂ}
    (h₁ : ∀ i j, A (Fin.castAdd b i) j = B (Fin.castAdd b i) j)
    (h₂ : ∀ i j, A (Fin.natAdd a i) j = B (Fin.natAdd a i) j) : A = B := by
  ext i j
  refine Fin.addCases (fun i => ?_) (fun i => ?_) i
  · exact h₁ i j
  · exact h₂ i j

@[simp] theorem hcat_left {a b c : ℕ} (A : Matrix (Fin c) (Fin a) ℂ) (B : Matrix (Fin c) (Fin b) ℂ)
    (i : Fin c) (j : Fin a) : hcat A B i (Fin.castAdd b j) = A i j := by simp [hcat]

@[simp] theorem hcat_right {a b c : ℕ} (A : Matrix (Fin c) (Fin a) ℂ) (B : Matrix (Fin c) (Fin b) ℂ)
    (i : Fin c) (j : Fin b) : hcat A B i (Fin.natAdd a j) = B i j := by simp [hcat]

@[simp] theorem vcat_left {a b c : ℕ} (A : Matrix (Fin a) (Fin c) ℂ) (B : Matrix (Fin b) (Fin c) ℂ)
    (i : Fin a) (j : Fin c) : vcat A B (Fin.castAdd b i) j = A i j := by simp [vcat]

@[simp] theorem vcat_right {a b c : ℕ} (A : Matrix (Fin a) (Fin c) ℂ) (B : Matrix (Fin b) (Fin c) ℂ)
    (i : Fin b) (j : Fin c) : vcat A B (Fin.natAdd a i) j = B i j := by simp [vcat]

theorem hcat_submatrix {a b c a' b' c' : ℕ} (A : Matrix (Fin c) (Fin a) ℂ)
    (B : Matrix (Fin c) (Fin b) ℂ) (r : Fin c' ≃ Fin c) (e : Fin a' ≃ Fin a) (f : Fin b' ≃ Fin b) :
    hcat (A.submatrix r e) (B.submatrix r f) = (hcat A B).submatrix r (sumE e f) := by
  apply hcat_ext <;> simp [sumE]

theorem hcat_slices {a b c : ℕ} (q : Matrix (Fin c) (Fin (a + b)) ℂ) :
    hcat (q.submatrix id (Fin.castAdd b)) (q.submatrix id (Fin.natAdd a)) = q := by
  apply hcat_ext <;> simp

theorem kron_hcat {m n a b c : ℕ} (M : Matrix (Fin m) (Fin n) ℂ) (A : Matrix (Fin c) (Fin a) ℂ)
    (B : Matrix (Fin c) (Fin b) ℂ) :
    kron M (hcat A B) = (hcat (kron M A) (kron M B)).submatrix id (eIn n a b) := by
  apply kron_ext
  intro i k j l
  refine Fin.addCases (fun l => ?_) (fun l => ?_) l <;> simp [kron_apply, eIn]

theorem dsum_mul_vcat {a b a' b' c : ℕ} (A : Matrix (Fin a) (Fin a') ℂ)
    (B : Matrix (Fin b) (Fin b') ℂ) (U : Matrix (Fin a') (Fin c) ℂ) (V : Matrix (Fin b') (Fin c) ℂ) :
    dsum A B * vcat U V = vcat (A * U) (B * V) := by
  apply vcat_ext <;> intro i j <;> simp [Matrix.mul_apply, Fin.sum_univ_add]

theorem vcat_mul {a b c d : ℕ} (A : Matrix (Fin a) (Fin c) ℂ) (B : Matrix (Fin b) (Fin c) ℂ)
    (C : Matrix (Fin c) (Fin d) ℂ) : vcat A B * C = vcat (A * C) (B * C) := by
  apply vcat_ext <;> intro i j <;> simp [Matrix.mul_apply]

theorem hcat_step {m D a b a' b' c : ℕ} (A : Matrix (Fin m) (Fin m) ℂ)
    (q : Matrix (Fin D) (Fin (a + b)) ℂ) (r : Fin c ≃ Fin (m * D)) (e : Fin a' ≃ Fin (m * a))
    (f : Fin b' ≃ Fin (m * b)) :
    hcat ((kron A (q.submatrix id (Fin.castAdd b))).submatrix r e)
      ((kron A (q.submatrix id (Fin.natAdd a))).submatrix r f) =
      (kron A q).submatrix r ((sumE e f).trans (eIn m a b).symm) := by
  conv_rhs => rw [← hcat_slices q, kron_hcat, submatrix_submatrix]
  rw [hcat_submatrix]
  congr 1
  funext x
  simp

theorem liftCols_eq (m₁ m₂ : ℕ) {d₁ d₂ : ℕ} (l : List (MulIr T))
    (q : Matrix (Fin (d₁ * d₂)) (Fin (dimL l)) ℂ) :
    liftCols m₁ m₂ l q = (kron (1 : Matrix (Fin (m₁ * m₂)) (Fin (m₁ * m₂)) ℂ) q).submatrix
      (eRow m₁ d₁ m₂ d₂) (eCols m₁ m₂ l) := by
  induction l with
  | nil => ext r c; exact Fin.elim0 c
  | cons m l ih =>
    rw [liftCols, liftBlock_eq, ih]
    exact hcat_step (a := m.dim) (b := dimL l) _ q _ _ _

theorem dsum_submatrix {a b a' b' c d c' d' : ℕ} (A : Matrix (Fin a) (Fin b) ℂ)
    (B : Matrix (Fin a') (Fin b') ℂ) (e : Fin c ≃ Fin a) (f : Fin d ≃ Fin b)
    (e' : Fin c' ≃ Fin a') (f' : Fin d' ≃ Fin b') :
    dsum (A.submatrix e f) (B.submatrix e' f') = (dsum A B).submatrix (sumE e e') (sumE f f') := by
  apply dsum_ext <;> simp [sumE]

theorem dsum_step {m a b a' b' : ℕ} (M : Matrix (Fin m) (Fin m) ℂ) (A : Matrix (Fin a) (Fin a) ℂ)
    (B : Matrix (Fin b) (Fin b) ℂ) (e : Fin a' ≃ Fin (m * a)) (f : Fin b' ≃ Fin (m * b)) :
    dsum ((kron M A).submatrix e e) ((kron M B).submatrix f f) =
      (kron M (dsum A B)).submatrix ((sumE e f).trans (eIn m a b).symm)
        ((sumE e f).trans (eIn m a b).symm) := by
  rw [kron_dsum_right, submatrix_submatrix, dsum_submatrix]
  congr 1 <;>
  · funext x
    simp

theorem diagMat_scale (Y : T.Mats) (m₁ m₂ : ℕ) (l : List (MulIr T)) :
    diagMat Y (l.map (MulIr.scale m₁ m₂)) =
      (kron (1 : Matrix (Fin (m₁ * m₂)) (Fin (m₁ * m₂)) ℂ) (diagMat Y l)).submatrix
        (eCols m₁ m₂ l) (eCols m₁ m₂ l) := by
  induction l with
  | nil => ext i; exact Fin.elim0 i
  | cons m l ih =>
    have e : diagMat Y ((m :: l).map (MulIr.scale m₁ m₂)) =
      dsum (kron (1 : Matrix (Fin (m₁ * m₂ * m.mul)) (Fin (m₁ * m₂ * m.mul)) ℂ) (Y m.ir))
      (diagMat Y (l.map (MulIr.scale m₁ m₂))) := rfl
    refine e.trans ?_
    rw [ih, kron_one_kron]
    exact dsum_step _ _ _ _ _

/-! ## Equivariance -/

/-- A family of pairs of operators on the factors of a tensor product and the operators on the
irreps in the result: continuous generators are the two pairs `(X, 1)`, `(1, X)`, discrete
generators the pair `(H, H)`. -/
structure Fam (T : Table n h) where
  /-- number of terms -/
  S : ℕ
  /-- operators on the first factor -/
  a : Fin S → T.Mats
  /-- operators on the second factor -/
  b : Fin S → T.Mats
  /-- operators on the result -/
  D : T.Mats

/-- The Clebsch-Gordan tensors of the table intertwine the family. -/
def Fam.Ok (F : Fam T) : Prop :=
  ∀ i j, ∀ k ∈ T.prod i j, ∀ C ∈ T.cg i j k, ∀ x y l,
    ∑ k', F.D k l k' * C x y k' = ∑ x', ∑ y', C x' y' l * ∑ s, F.a s i x' x * F.b s j y' y

theorem cgBlock_equivariant {d₁ d₂ d₃ S : ℕ} (L : List (Fin d₁ → Fin d₂ → Fin d₃ → ℂ))
    (D : Matrix (Fin d₃) (Fin d₃) ℂ) (a : Fin S → Matrix (Fin d₁) (Fin d₁) ℂ)
    (b : Fin S → Matrix (Fin d₂) (Fin d₂) ℂ)
    (hL : ∀ C ∈ L, ∀ x y l,
      ∑ k', D l k' * C x y k' = ∑ x', ∑ y', C x' y' l * ∑ s, a s x' x * b s y' y) :
    kron (1 : Matrix (Fin L.length) (Fin L.length) ℂ) D * cgBlock L =
      cgBlock L * ∑ s, kron (a s) (b s) := by
  have hT (x' x : Fin d₁) (y' y : Fin d₂) :
      (∑ s, kron (a s) (b s)) (finProdFinEquiv (x', y')) (finProdFinEquiv (x, y)) =
        ∑ s, a s x' x * b s y' y := by
    rw [Matrix.sum_apply]
    simp only [kron_apply]
  have hC (z : Fin L.length) (l : Fin d₃) (x : Fin d₁) (y : Fin d₂) :
      cgBlock L (finProdFinEquiv (z, l)) (finProdFinEquiv (x, y)) = L.get z x y l := by
    simp only [cgBlock, divNat_prod, modNat_prod]
  apply kron_ext
  intro z l x y
  rw [Matrix.mul_apply, Matrix.mul_apply, ← finProdFinEquiv.sum_comp, ← finProdFinEquiv.sum_comp,
    Fintype.sum_prod_type, Fintype.sum_prod_type]
  simp only [hT, hC, kron_apply]
  rw [Finset.sum_eq_single z]
  · have := hL _ (List.get_mem L z) x y l
    simpa using this
  · intro z' _ hz'
    simp [Matrix.one_apply_ne hz'.symm]
  · simp

theorem cgRows_equivariant {F : Fam T} (i j : T.Ir) (outs : List T.Ir)
    (hF : ∀ k ∈ outs, ∀ C ∈ T.cg i j k, ∀ x y l,
    ∑ k', F.D k l k' * C x y k' = ∑ x', ∑ y', C x' y' l * ∑ s, F.a s i x' x * F.b s j y' y) :
    diagMat F.D (cgBlocks i j outs) * cgRows i j outs =
      cgRows i j outs * ∑ s, kron (F.a s i) (F.b s j) := by
  induction outs with
  | nil => ext r; exact Fin.elim0 r
  | cons k outs ih =>
    have ih := ih fun k hk => hF k (by simp [hk])
    have key := cgBlock_equivariant (T.cg i j k) (F.D k) (fun s => F.a s i) (fun s => F.b s j)
      (hF k (by simp))
    have main : dsum (kron (1 : Matrix (Fin (T.cg i j k).length) (Fin (T.cg i j k).length) ℂ)
          (F.D k)) (diagMat F.D (cgBlocks i j outs)) *
          vcat (cgBlock (T.cg i j k)) (cgRows i j outs) =
        vcat (cgBlock (T.cg i j k)) (cgRows i j outs) * ∑ s, kron (F.a s i) (F.b s j) := by
      rw [dsum_mul_vcat, vcat_mul, ih, key]
    exact main

theorem tpTab_ok {i j : T.Ir} {r : ReducedRep T} (hr : tpTab i j = .ok r) :
    r.A = (T.rep i).A ∧ r.irreps = cgBlocks i j (T.prod i j) ∧ T.prod i j ≠ [] ∧
    ∃ q : Matrix (Fin (T.dim i * T.dim j)) (Fin (dimL r.irreps)) ℂ,
      r.Q = some ⟨_, _, q⟩ ∧ HasInv q ∧
      ∀ F : Fam T, F.Ok → (∑ s, kron (F.a s i) (F.b s j)) * q = q * diagMat F.D r.irreps := by
  unfold tpTab at hr
  obtain ⟨_, hA, hr⟩ := bind_ok hr
  split at hr
  · exact absurd hr (by simp)
  · rename_i k ks hk
    obtain ⟨Q, hQ, hr⟩ := bind_ok hr
    change Except.ok _ = _ at hr
    simp only [Except.ok.injEq] at hr
    subst hr
    obtain ⟨P, h1, h2, rfl⟩ := SMat.invP_rect hQ
    refine ⟨rfl, by rw [hk], by simp [hk], P, rfl, ⟨cgRows i j (k :: ks), h2, h1⟩, ?_⟩
    intro F hF
    have := cgRows_equivariant (F := F) i j (k :: ks) (by rw [← hk]; exact hF i j)
    calc (∑ s, kron (F.a s i) (F.b s j)) * P
        = P * (cgRows i j (k :: ks) * ∑ s, kron (F.a s i) (F.b s j)) * P := by
          rw [← Matrix.mul_assoc P, h1, Matrix.one_mul]
      _ = P * diagMat F.D (cgBlocks i j (k :: ks)) * (cgRows i j (k :: ks) * P) := by
          rw [← this]; simp only [Matrix.mul_assoc]
      _ = _ := by rw [h2, Matrix.mul_one]

theorem tpMul_ok {a b : MulIr T} {r : ReducedRep T} (hr : tpMul a b = .ok r) :
    r.A = (T.rep a.ir).A ∧
    r.irreps = (cgBlocks a.ir b.ir (T.prod a.ir b.ir)).map (MulIr.scale a.mul b.mul) ∧
    T.prod a.ir b.ir ≠ [] ∧
    ∃ q : Matrix (Fin (a.dim * b.dim)) (Fin (dimL r.irreps)) ℂ,
      r.Q = some ⟨_, _, q⟩ ∧ HasInv q ∧
      ∀ F : Fam T, F.Ok →
        (∑ s, kron (kron (1 : Matrix (Fin a.mul) (Fin a.mul) ℂ) (F.a s a.ir))
          (kron (1 : Matrix (Fin b.mul) (Fin b.mul) ℂ) (F.b s b.ir))) * q =
        q * diagMat F.D r.irreps := by
  unfold tpMul at hr
  obtain ⟨_, hA, hr⟩ := bind_ok hr
  obtain ⟨tp, htp, hr⟩ := bind_ok hr
  obtain ⟨-, hirr, hne, q, hQ, hq, hF⟩ := tpTab_ok htp
  rw [hQ] at hr
  obtain ⟨q', hq', hr⟩ := bind_ok hr
  rw [SMat.view_mk] at hq'
  simp only [Except.ok.injEq] at hq'
  subst hq'
  change Except.ok _ = _ at hr
  simp only [Except.ok.injEq] at hr
  subst hr
  refine ⟨rfl, congrArg _ hirr, hne, liftCols a.mul b.mul tp.irreps q, rfl, ?_, ?_⟩
  · rw [liftCols_eq]
    exact (HasInv.kron (HasInv.of_isUnit isUnit_one) hq).submatrix _ _
  · intro F hFo
    have e : ∑ s, kron (kron (1 : Matrix (Fin a.mul) (Fin a.mul) ℂ) (F.a s a.ir))
          (kron (1 : Matrix (Fin b.mul) (Fin b.mul) ℂ) (F.b s b.ir)) =
        (kron (1 : Matrix (Fin (a.mul * b.mul)) (Fin (a.mul * b.mul)) ℂ)
          (∑ s, kron (F.a s a.ir) (F.b s b.ir))).submatrix
          (eRow a.mul (T.dim a.ir) b.mul (T.dim b.ir))
          (eRow a.mul (T.dim a.ir) b.mul (T.dim b.ir)) := by
      simp only [kron_one_one]
      rw [kron_sum_right]
      ext x y
      simp [Matrix.sum_apply]
    show (_ : Matrix (Fin (a.mul * T.dim a.ir * (b.mul * T.dim b.ir)))
      (Fin (a.mul * T.dim a.ir * (b.mul * T.dim b.ir))) ℂ) * liftCols a.mul b.mul tp.irreps q = _
    rw [e, liftCols_eq, submatrix_mul_equiv, kron_mul, Matrix.one_mul, hF F hFo, diagMat_scale,
      submatrix_mul_equiv, kron_mul, Matrix.one_mul]

theorem sum_kron_dsum_right {m a b S : ℕ} (M : Fin S → Matrix (Fin m) (Fin m) ℂ)
    (A : Fin S → Matrix (Fin a) (Fin a) ℂ) (B : Fin S → Matrix (Fin b) (Fin b) ℂ) :
    ∑ s, kron (M s) (dsum (A s) (B s)) =
      (dsum (∑ s, kron (M s) (A s)) (∑ s, kron (M s) (B s))).submatrix (eIn m a b) (eIn m a b) := by
  simp only [kron_dsum_right, dsum_sum]
  ext i j
  simp [Matrix.sum_apply]

theorem sum_kron_dsum_left {m a b S : ℕ} (M : Fin S → Matrix (Fin m) (Fin m) ℂ)
    (A : Fin S → Matrix (Fin a) (Fin a) ℂ) (B : Fin S → Matrix (Fin b) (Fin b) ℂ) :
    ∑ s, kron (dsum (A s) (B s)) (M s) =
      (dsum (∑ s, kron (A s) (M s)) (∑ s, kron (B s) (M s))).submatrix
        (eOut a b m) (eOut a b m) := by
  simp only [kron_dsum_left, dsum_sum]
  ext i j
  simp [Matrix.sum_apply]

theorem diagMat_append (Y : T.Mats) (l₁ l₂ : List (MulIr T)) :
    diagMat Y (l₁ ++ l₂) = (dsum (diagMat Y l₁) (diagMat Y l₂)).submatrix
      (finCongr (dimL_append l₁ l₂)) (finCongr (dimL_append l₁ l₂)) := by
  have h := dsums_blocks Y (l₁ ++ l₂)
  rw [List.map_append, dsums_append, dsums_blocks, dsums_blocks] at h
  have e : SMat.dsum ⟨dimL l₁, dimL l₁, diagMat Y l₁⟩ ⟨dimL l₂, dimL l₂, diagMat Y l₂⟩ =
      ⟨dimL (l₁ ++ l₂), dimL (l₁ ++ l₂), (dsum (diagMat Y l₁) (diagMat Y l₂)).submatrix
      (finCongr (dimL_append l₁ l₂)) (finCongr (dimL_append l₁ l₂))⟩ :=
    SMat.mk_congr _ _ _
  rw [e] at h
  exact (SMat.mat_heq h).symm

/-- The columns found by the loops of `tensor_product(ReducedRep, ReducedRep)`, for the blocks
`l₁` and `l₂` of its arguments. -/
def TPGood (l₁ l₂ : List (MulIr T)) {d : ℕ} (t : Fam T → Matrix (Fin d) (Fin d) ℂ)
    (out : List (MulIr T)) (c : ℕ) (M : Matrix (Fin d) (Fin c) ℂ) : Prop :=
  (∀ m ∈ out, ∃ a ∈ l₁, ∃ b ∈ l₂, ∃ k ∈ T.prod a.ir b.ir,
    m = ⟨a.mul * b.mul * (T.cg a.ir b.ir k).length, k⟩) ∧
  ∃ q : Matrix (Fin d) (Fin (dimL out)) ℂ, (⟨d, c, M⟩ : SMat) = ⟨d, dimL out, q⟩ ∧ HasInv q ∧
    ∀ F : Fam T, F.Ok → t F * q = q * diagMat F.D out

theorem TPGood.mono {l₁ l₁' l₂ l₂' : List (MulIr T)} {d : ℕ}
    {t : Fam T → Matrix (Fin d) (Fin d) ℂ} {out : List (MulIr T)} {c : ℕ}
    {M : Matrix (Fin d) (Fin c) ℂ} (hg : TPGood l₁ l₂ t out c M) (h₁ : l₁ ⊆ l₁') (h₂ : l₂ ⊆ l₂') :
    TPGood l₁' l₂' t out c M := by
  obtain ⟨g1, g2⟩ := hg
  refine ⟨fun m hm => ?_, g2⟩
  obtain ⟨a, ha, b, hb, k, hk, e⟩ := g1 m hm
  exact ⟨a, h₁ ha, b, h₂ hb, k, hk, e⟩

theorem TPGood.append {l₁ l₂ : List (MulIr T)} {d d' e : ℕ}
    {t : Fam T → Matrix (Fin d) (Fin d) ℂ} {t' : Fam T → Matrix (Fin d') (Fin d') ℂ}
    {out out' : List (MulIr T)} {c c' : ℕ} {M : Matrix (Fin d) (Fin c) ℂ}
    {M' : Matrix (Fin d') (Fin c') ℂ} (hg : TPGood l₁ l₂ t out c M)
    (hg' : TPGood l₁ l₂ t' out' c' M') (eq : Fin e ≃ Fin (d + d')) :
    TPGood l₁ l₂ (fun F => (dsum (t F) (t' F)).submatrix eq eq) (out ++ out') (c + c')
      ((dsum M M').submatrix eq id) := by
  obtain ⟨g1, q, hq, hi, hF⟩ := hg
  obtain ⟨g1', q', hq', hi', hF'⟩ := hg'
  obtain rfl : c = dimL out := congrArg SMat.cols hq
  obtain rfl : c' = dimL out' := congrArg SMat.cols hq'
  obtain rfl := SMat.mat_heq hq
  obtain rfl := SMat.mat_heq hq'
  refine ⟨?_, (dsum M M').submatrix eq (finCongr (dimL_append out out')), ?_, ?_, ?_⟩
  · intro m hm
    rcases List.mem_append.1 hm with hm | hm
    · exact g1 m hm
    · exact g1' m hm
  · rw [SMat.mk_congr_cols (dimL_append out out')]
    rfl
  · exact (hi.dsum hi').submatrix _ _
  · intro F hFo
    beta_reduce
    rw [submatrix_mul_equiv, dsum_mul, hF F hFo, hF' F hFo, ← dsum_mul, diagMat_append,
      submatrix_mul_equiv]

theorem tpInner_ok {a : MulIr T} {l : List (MulIr T)} {out : List (MulIr T)} {c : ℕ}
    {M : Matrix (Fin (a.dim * dimL l)) (Fin c) ℂ} (hr : tpInner a l = .ok (out, ⟨c, M⟩)) :
    TPGood [a] l (fun F => ∑ s, kron
      (kron (1 : Matrix (Fin a.mul) (Fin a.mul) ℂ) (F.a s a.ir) : Matrix (Fin a.dim) (Fin a.dim) ℂ)
      (diagMat (F.b s) l)) out c M := by
  induction l generalizing out c with
  | nil =>
    change Except.ok _ = _ at hr
    simp only [Except.ok.injEq, Prod.mk.injEq] at hr
    obtain ⟨rfl, h2⟩ := hr
    cases h2
    refine ⟨by simp, 0, ?_, ?_, ?_⟩
    · congr
      ext i j
      exact Fin.elim0 j
    · refine ⟨0, ?_, ?_⟩
      · ext i; exact Fin.elim0 i
      · ext i; exact Fin.elim0 i
    · intro F _
      ext i j
      exact Fin.elim0 j
  | cons b l ih =>
    rw [tpInner] at hr
    obtain ⟨r, hrr, hr⟩ := bind_ok hr
    obtain ⟨-, hirr, hne, q, hQ, hq, hF⟩ := tpMul_ok hrr
    rw [hQ] at hr
    obtain ⟨q', hq', hr⟩ := bind_ok hr
    rw [SMat.view_mk] at hq'
    simp only [Except.ok.injEq] at hq'
    subst hq'
    obtain ⟨⟨out', c', M'⟩, hin, hr⟩ := bind_ok hr
    change Except.ok _ = _ at hr
    simp only [Except.ok.injEq, Prod.mk.injEq] at hr
    obtain ⟨rfl, h2⟩ := hr
    cases h2
    have g2 := (ih hin).mono (List.Subset.refl _) (List.subset_cons_self b l)
    have g1 : TPGood [a] (b :: l) (fun F =>
        ∑ s, kron (kron (1 : Matrix (Fin a.mul) (Fin a.mul) ℂ) (F.a s a.ir) :
            Matrix (Fin a.dim) (Fin a.dim) ℂ)
          (kron (1 : Matrix (Fin b.mul) (Fin b.mul) ℂ) (F.b s b.ir) :
            Matrix (Fin b.dim) (Fin b.dim) ℂ)) r.irreps r.dim q := by
      refine ⟨?_, q, rfl, hq, hF⟩
      intro m hm
      rw [hirr] at hm
      simp only [cgBlocks, List.map_map, List.mem_map, Function.comp] at hm
      obtain ⟨k, hk, rfl⟩ := hm
      exact ⟨a, by simp, b, by simp, k, hk, rfl⟩
    have := g1.append g2 (eIn a.dim b.dim (dimL l))
    have e : (fun F : Fam T => (dsum (∑ s, kron (kron (1 : Matrix (Fin a.mul) (Fin a.mul) ℂ)
        (F.a s a.ir)) (kron (1 : Matrix (Fin b.mul) (Fin b.mul) ℂ) (F.b s b.ir)))
        (∑ s, kron (kron (1 : Matrix (Fin a.mul) (Fin a.mul) ℂ) (F.a s a.ir))
          (diagMat (F.b s) l))).submatrix (eIn a.dim b.dim (dimL l)) (eIn a.dim b.dim (dimL l))) =
        fun F => ∑ s, kron (kron (1 : Matrix (Fin a.mul) (Fin a.mul) ℂ) (F.a s a.ir))
          (diagMat (F.b s) (b :: l)) := by
      funext F
      exact (sum_kron_dsum_right _ _ _).symm
    rw [e] at this
    exact this

theorem tpOuter_ok {l₂ l : List (MulIr T)} {out : List (MulIr T)} {c : ℕ}
    {M : Matrix (Fin (dimL l * dimL l₂)) (Fin c) ℂ} (hr : tpOuter l₂ l = .ok (out, ⟨c, M⟩)) :
    TPGood l l₂ (fun F => ∑ s, kron (diagMat (F.a s) l) (diagMat (F.b s) l₂)) out c M := by
  induction l generalizing out c with
  | nil =>
    change Except.ok _ = _ at hr
    simp only [Except.ok.injEq, Prod.mk.injEq] at hr
    obtain ⟨rfl, h2⟩ := hr
    cases h2
    refine ⟨by simp, 0, ?_, ?_, ?_⟩
    · congr
      ext i j
      exact Fin.elim0 j
    · refine ⟨0, ?_, ?_⟩
      · ext i; exact Fin.elim0 i
      · ext i; exact Fin.elim0 (finCongr (Nat.zero_mul _) i)
    · intro F _
      ext i j
      exact Fin.elim0 j
  | cons a l ih =>
    rw [tpOuter] at hr
    obtain ⟨⟨out₁, c₁, M₁⟩, h₁, hr⟩ := bind_ok hr
    obtain ⟨⟨out₂, c₂, M₂⟩, h₂, hr⟩ := bind_ok hr
    change Except.ok _ = _ at hr
    simp only [Except.ok.injEq, Prod.mk.injEq] at hr
    obtain ⟨rfl, h2⟩ := hr
    cases h2
    have g₁ := (tpInner_ok h₁).mono (l₁' := a :: l) (by simp) (List.Subset.refl _)
    have g₂ := (ih h₂).mono (List.subset_cons_self a l) (List.Subset.refl _)
    have := g₁.append g₂ (eOut a.dim (dimL l) (dimL l₂))
    have e : (fun F : Fam T => (dsum (∑ s, kron (kron (1 : Matrix (Fin a.mul) (Fin a.mul) ℂ)
        (F.a s a.ir)) (diagMat (F.b s) l₂))
        (∑ s, kron (diagMat (F.a s) l) (diagMat (F.b s) l₂))).submatrix
          (eOut a.dim (dimL l) (dimL l₂)) (eOut a.dim (dimL l) (dimL l₂))) =
        fun F => ∑ s, kron (diagMat (F.a s) (a :: l)) (diagMat (F.b s) l₂) := by
      funext F
      exact (sum_kron_dsum_left _ _ _).symm
    rw [e] at this
    exact this

theorem tpRedRaw_ok {r₁ r₂ : ReducedRep T} {out : List (MulIr T)}
    {Q : Matrix (Fin (r₁.dim * r₂.dim)) (Fin (r₁.dim * r₂.dim)) ℂ}
    (hr : tpRedRaw r₁ r₂ = .ok (out, Q)) :
    ∃ q₁ q₂, r₁.q = .ok q₁ ∧ r₂.q = .ok q₂ ∧
    (∀ m ∈ out, ∃ a ∈ r₁.irreps, ∃ b ∈ r₂.irreps, ∃ k ∈ T.prod a.ir b.ir,
      m = ⟨a.mul * b.mul * (T.cg a.ir b.ir k).length, k⟩) ∧
    dimL out = r₁.dim * r₂.dim ∧
    ∃ q : Matrix (Fin (r₁.dim * r₂.dim)) (Fin (dimL out)) ℂ, HasInv q ∧
      (⟨_, _, Q⟩ : SMat) = ⟨_, _, kron q₁ q₂ * q⟩ ∧
      ∀ F : Fam T, F.Ok →
        (∑ s, kron (diagMat (F.a s) r₁.irreps) (diagMat (F.b s) r₂.irreps)) * q =
        q * diagMat F.D out := by
  unfold tpRedRaw at hr
  obtain ⟨q₁, hq₁, hr⟩ := bind_ok hr
  obtain ⟨q₂, hq₂, hr⟩ := bind_ok hr
  obtain ⟨⟨out', c, M⟩, ho, hr⟩ := bind_ok hr
  refine ⟨q₁, q₂, hq₁, hq₂, ?_⟩
  obtain ⟨g1, q, hq, hi, hF⟩ := tpOuter_ok ho
  obtain rfl : c = dimL out' := congrArg SMat.cols hq
  obtain rfl := SMat.mat_heq hq
  by_cases hc : r₁.dim * r₂.dim = dimL out'
  · simp only [dif_pos hc] at hr
    change Except.ok _ = _ at hr
    simp only [Except.ok.injEq, Prod.mk.injEq] at hr
    obtain ⟨rfl, rfl⟩ := hr
    refine ⟨g1, hc.symm, M, hi, ?_, hF⟩
    rw [SMat.mk_congr_cols hc]
    rfl
  · simp only [dif_neg hc] at hr
    exact absurd hr (by simp)

end LieNN
