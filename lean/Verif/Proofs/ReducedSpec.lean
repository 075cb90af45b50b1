import Verif.Proofs.ReducedTP
import Verif.Proofs.IntertwinerRep
import Verif.Spec.Reduced
import Verif.Spec.Rep
/-!
# From the lemmas about blocks to the specifications of `ReducedRep`
-/
namespace LieNN

open Matrix

variable {n h : ℕ} {T : Table n h}

theorem offset_eq (l : List (MulIr T)) : Spec.offset l = dimL l := (dimL_eq_sum l).symm

theorem SMat.get_mk {p q : ℕ} (M : Matrix (Fin p) (Fin q) ℂ) (i : Fin p) (j : Fin q) :
    SMat.get ⟨p, q, M⟩ i j = M i j := SMat.get_of_lt ⟨p, q, M⟩ i.2 j.2

theorem prod_val {a b : ℕ} (x : Fin a) (k : Fin b) :
    (finProdFinEquiv (x, k) : ℕ) = x * b + k := by
  simp [finProdFinEquiv]; ring

theorem get_copies {mul d : ℕ} (Y : Matrix (Fin d) (Fin d) ℂ) {x y k k' : ℕ} (hx : x < mul)
    (hy : y < mul) (hk : k < d) (hk' : k' < d) :
    SMat.get ⟨mul * d, mul * d, kron (1 : Matrix (Fin mul) (Fin mul) ℂ) Y⟩ (x * d + k)
      (y * d + k') = if x = y then Y ⟨k, hk⟩ ⟨k', hk'⟩ else 0 := by
  have e := SMat.get_mk (kron (1 : Matrix (Fin mul) (Fin mul) ℂ) Y)
    (finProdFinEquiv (⟨x, hx⟩, ⟨k, hk⟩)) (finProdFinEquiv (⟨y, hy⟩, ⟨k', hk'⟩))
  rw [prod_val, prod_val, kron_apply] at e
  rw [e]
  by_cases hxy : x = y
  · subst hxy; rw [Matrix.one_apply_eq, one_mul, if_pos rfl]
  · rw [Matrix.one_apply_ne (by simpa using hxy), if_neg hxy, zero_mul]

theorem lt_copies {mul d x k : ℕ} (hx : x < mul) (hk : k < d) : x * d + k < mul * d :=
  calc x * d + k < x * d + d := by omega
    _ = (x + 1) * d := by ring
    _ ≤ mul * d := Nat.mul_le_mul_right _ hx

theorem isBlockDiag_diagMat (Y : T.Mats) (l : List (MulIr T)) :
    Spec.IsBlockDiag l Y ⟨dimL l, dimL l, diagMat Y l⟩ := by
  have hmap (l : List (MulIr T)) : ((l.map fun m => (⟨m.dim, m.dim,
      kron (1 : Matrix (Fin m.mul) (Fin m.mul) ℂ) (Y m.ir)⟩ : SMat)).map SMat.rows).sum =
      dimL l := by
    rw [← dsums_rows, dsums_blocks]
  have hmap' (l : List (MulIr T)) : ((l.map fun m => (⟨m.dim, m.dim,
      kron (1 : Matrix (Fin m.mul) (Fin m.mul) ℂ) (Y m.ir)⟩ : SMat)).map SMat.cols).sum =
      dimL l := by
    rw [← dsums_cols, dsums_blocks]
  have hblock (l₁ : List (MulIr T)) (m : MulIr T) (l₂ : List (MulIr T)) {i j : ℕ} (hi : i < m.dim)
      (hj : j < m.dim) : SMat.get ⟨_, _, diagMat Y (l₁ ++ m :: l₂)⟩ (Spec.offset l₁ + i)
        (Spec.offset l₁ + j) = SMat.get ⟨m.dim, m.dim,
          kron (1 : Matrix (Fin m.mul) (Fin m.mul) ℂ) (Y m.ir)⟩ i j := by
    rw [← dsums_blocks, List.map_append, List.map_cons, offset_eq]
    conv_lhs => rw [← hmap l₁]
    conv_lhs =>
      arg 3
      rw [hmap l₁, ← hmap' l₁]
    exact dsums_get_block _ _ _ hi hj
  refine ⟨(offset_eq l).symm, (offset_eq l).symm, ?_, ?_, ?_⟩
  · rintro l₁ m l₂ rfl x hx k k'
    rw [hblock l₁ m l₂ (lt_copies hx k.2) (lt_copies hx k'.2), get_copies _ hx hx k.2 k'.2,
      if_pos rfl]
  · rintro l₁ m l₂ rfl x hx y hy hxy k hk k' hk'
    rw [hblock l₁ m l₂ (lt_copies hx hk) (lt_copies hy hk'), get_copies _ hx hy hk hk', if_neg hxy]
  · rintro l₁ m l₂ m' l₃ rfl i hi j hj
    have e : dimL (l₁ ++ m :: l₂) = dimL l₁ + (m.dim + dimL l₂) := by rw [dimL_append]
    rw [offset_eq, offset_eq, e, ← dsums_blocks, List.append_assoc, List.map_append, dsums_append,
      dsums_blocks]
    simp only [SMat.get_dsum]
    rw [if_neg (by omega), if_neg (by omega), if_neg (by omega), if_neg (by omega)]
    rw [List.cons_append, List.map_cons]
    show SMat.get (SMat.dsum _ (dsums _)) _ _ = 0 ∧ SMat.get (SMat.dsum _ (dsums _)) _ _ = 0
    simp only [SMat.get_dsum]
    change i < m.dim at hi
    rw [if_pos (by omega), if_neg (by omega), if_neg (by omega), if_pos (by omega)]
    exact ⟨rfl, rfl⟩

/-- The representation of `MulIrrep(mul, rep)`. -/
noncomputable def copies (mul : ℕ) {d : ℕ} (r : Rep n h d) : Rep n h (mul * d) where
  A := r.A
  X := fun a => kron 1 (r.X a)
  H := fun a => kron 1 (r.H a)

theorem isCopies_iff {mul d : ℕ} {r : Rep n h d} {R : Rep n h (mul * d)} :
    Spec.IsCopies mul r R ↔ R = copies mul r := by
  constructor
  · rintro ⟨h1, h2, h3⟩
    apply Rep.ext
    · exact h1
    · funext a
      apply kron_ext
      intro x k y k'
      rw [h2]
      show _ = kron 1 (r.X a) _ _
      rw [kron_apply]
      by_cases hxy : x = y
      · subst hxy; rw [Matrix.one_apply_eq, one_mul, if_pos rfl]
      · rw [if_neg hxy, Matrix.one_apply_ne hxy, zero_mul]
    · funext a
      apply kron_ext
      intro x k y k'
      rw [h3]
      show _ = kron 1 (r.H a) _ _
      rw [kron_apply]
      by_cases hxy : x = y
      · subst hxy; rw [Matrix.one_apply_eq, one_mul, if_pos rfl]
      · rw [if_neg hxy, Matrix.one_apply_ne hxy, zero_mul]
  · rintro rfl
    refine ⟨rfl, fun a x k y k' => ?_, fun a x k y k' => ?_⟩
    · show kron 1 (r.X a) _ _ = _
      rw [kron_apply]
      by_cases hxy : x = y
      · subst hxy; rw [Matrix.one_apply_eq, one_mul, if_pos rfl]
      · rw [if_neg hxy, Matrix.one_apply_ne hxy, zero_mul]
    · show kron 1 (r.H a) _ _ = _
      rw [kron_apply]
      by_cases hxy : x = y
      · subst hxy; rw [Matrix.one_apply_eq, one_mul, if_pos rfl]
      · rw [if_neg hxy, Matrix.one_apply_ne hxy, zero_mul]

/-- The representation `q (⊕ blocks) q⁻¹`. -/
noncomputable def blockRep (A : Fin n → Fin n → Fin n → ℂ) (l : List (MulIr T))
    (q : Matrix (Fin (dimL l)) (Fin (dimL l)) ℂ) : Rep n h (dimL l) where
  A := A
  X := fun a => q * diagMat (fun ir => (T.rep ir).X a) l * q⁻¹
  H := fun a => q * diagMat (fun ir => (T.rep ir).H a) l * q⁻¹

theorem acts_of {r : ReducedRep T} (hn : n ≠ 0) (hne : r.irreps ≠ [])
    (hmul : ∀ m ∈ r.irreps, m.mul ≠ 0) {q : Matrix (Fin r.dim) (Fin r.dim) ℂ}
    (hQ : r.q = .ok q) (hq : IsUnit q) : Spec.Acts r (blockRep r.A r.irreps q) :=
  ⟨rfl, r.continuousGenerators_ok hn hne hmul hQ hq, r.discreteGenerators_ok hne hmul hQ hq⟩

theorem genAt_unit {p : ℕ} {r : ReducedRep T} {Y : T.Gens p} {i : ℕ} (hi : i < p) {X : SMat}
    (hX : r.genAt Y i = .ok X) : ∃ q, r.q = .ok q ∧ IsUnit q := by
  obtain ⟨hne, hmul⟩ := ReducedRep.genAt_ok_mul hi hX
  unfold ReducedRep.q
  cases hQ : r.Q with
  | none => exact ⟨1, rfl, isUnit_one⟩
  | some Q =>
    unfold ReducedRep.genAt at hX
    rw [ReducedRep.sumAt_ok hne hmul Y hi, hQ] at hX
    obtain ⟨X', e, hX⟩ := bind_ok hX
    cases e
    obtain ⟨QX, h1, hX⟩ := bind_ok hX
    obtain ⟨iQ, h2, hX⟩ := bind_ok hX
    obtain ⟨d, M, hM, rfl, rfl⟩ := SMat.invP_ok h2
    have hd : d = r.dim := by
      unfold SMat.mulP at h1
      split_ifs at h1 with h3
      exact h3
    subst hd
    exact ⟨M, SMat.view_mk M, hM⟩

theorem acts_inv {r : ReducedRep T} {d : ℕ} {R : Rep n h d} (hr : Spec.Acts r R) :
    n ≠ 0 ∧ r.irreps ≠ [] ∧ (∀ m ∈ r.irreps, m.mul ≠ 0) ∧
      ∃ q, r.q = .ok q ∧ IsUnit q := by
  obtain ⟨h1, h2, h3⟩ := hr
  unfold ReducedRep.continuousGenerators at h2
  obtain ⟨Xs, hXs, h2⟩ := bind_ok h2
  have hn : n ≠ 0 := by
    rintro rfl
    change Except.ok [] = _ at hXs
    simp only [Except.ok.injEq] at hXs
    subst hXs
    exact absurd h2 (by simp)
  obtain ⟨X, hX⟩ := mapM_ok_inv hXs 0 (by simpa using Nat.pos_of_ne_zero hn)
  obtain ⟨a, b⟩ := ReducedRep.genAt_ok_mul (Nat.pos_of_ne_zero hn) hX
  exact ⟨hn, a, b, genAt_unit (Nat.pos_of_ne_zero hn) hX⟩

theorem acts_unique {r : ReducedRep T} {d d' : ℕ} {R : Rep n h d} {R' : Rep n h d'}
    (hr : Spec.Acts r R) (hr' : Spec.Acts r R') : ∃ e : d = d', e ▸ R = R' := by
  obtain ⟨hn, -⟩ := acts_inv hr
  obtain ⟨h1, h2, h3⟩ := hr
  obtain ⟨h1', h2', h3'⟩ := hr'
  rw [h2] at h2'
  rw [h3] at h3'
  simp only [Except.ok.injEq] at h2' h3'
  have h2' := List.ofFn_inj.1 h2'
  have h3' := List.ofFn_inj.1 h3'
  have e : d = d' := congrArg SMat.rows (congrFun h2' ⟨0, Nat.pos_of_ne_zero hn⟩)
  subst e
  refine ⟨rfl, Rep.ext (h1.symm.trans h1') ?_ ?_⟩
  · funext a; exact SMat.mat_heq (congrFun h2' a)
  · funext a; exact SMat.mat_heq (congrFun h3' a)

/-! ## The families of the continuous and discrete generators -/

/-- `(X ⊗ 1) + (1 ⊗ X)` -/
noncomputable def famX (T : Table n h) (a : Fin n) : Fam T where
  S := 2
  a := ![fun i => (T.rep i).X a, fun _ => 1]
  b := ![fun _ => 1, fun i => (T.rep i).X a]
  D := fun i => (T.rep i).X a

/-- `H ⊗ H` -/
noncomputable def famH (T : Table n h) (a : Fin h) : Fam T where
  S := 1
  a := ![fun i => (T.rep i).H a]
  b := ![fun i => (T.rep i).H a]
  D := fun i => (T.rep i).H a

theorem famX_sum {M : Type*} [AddCommMonoid M] (a : Fin n) (g : T.Mats → T.Mats → M) :
    ∑ s, g ((famX T a).a s) ((famX T a).b s) =
      g (fun i => (T.rep i).X a) (fun _ => 1) + g (fun _ => 1) (fun i => (T.rep i).X a) :=
  Fin.sum_univ_two _

theorem famH_sum {M : Type*} [AddCommMonoid M] (a : Fin h) (g : T.Mats → T.Mats → M) :
    ∑ s, g ((famH T a).a s) ((famH T a).b s) =
      g (fun i => (T.rep i).H a) (fun i => (T.rep i).H a) :=
  Fin.sum_univ_one _

theorem famX_ok (hCG : ∀ i j, ∀ k ∈ T.prod i j, ∀ C ∈ T.cg i j k,
    Spec.IsCG (T.rep i) (T.rep j) (T.rep k) C) (a : Fin n) : (famX T a).Ok := by
  intro i j k hk C hC x y l
  have := (hCG i j k hk C hC).1 a x y l
  have hs (x' : Fin (T.dim i)) (y' : Fin (T.dim j)) :
      ∑ s, (famX T a).a s i x' x * (famX T a).b s j y' y =
        (T.rep i).X a x' x * (1 : Matrix (Fin (T.dim j)) (Fin (T.dim j)) ℂ) y' y +
        (1 : Matrix (Fin (T.dim i)) (Fin (T.dim i)) ℂ) x' x * (T.rep j).X a y' y :=
    Fin.sum_univ_two _
  refine Eq.trans ?_ (Finset.sum_congr rfl fun x' _ => Finset.sum_congr rfl fun y' _ =>
    congrArg (C x' y' l * ·) (hs x' y').symm)
  show ∑ k', (T.rep k).X a l k' * C x y k' = _
  calc ∑ k', (T.rep k).X a l k' * C x y k' = ∑ k', C x y k' * (T.rep k).X a l k' := by
        exact Finset.sum_congr rfl fun _ _ => mul_comm _ _
    _ = _ := this
    _ = _ := by
      simp only [mul_add, Finset.sum_add_distrib]
      congr 1
      · apply Finset.sum_congr rfl
        intro x' _
        rw [Finset.sum_eq_single y]
        · rw [Matrix.one_apply_eq]; ring
        · intro y' _ hy
          rw [Matrix.one_apply_ne hy]; ring
        · simp
      · rw [Finset.sum_eq_single x]
        · apply Finset.sum_congr rfl
          intro y' _
          rw [Matrix.one_apply_eq]; ring
        · intro x' _ hx
          apply Finset.sum_eq_zero
          intro y' _
          rw [Matrix.one_apply_ne hx]; ring
        · simp

theorem famH_ok (hCG : ∀ i j, ∀ k ∈ T.prod i j, ∀ C ∈ T.cg i j k,
    Spec.IsCG (T.rep i) (T.rep j) (T.rep k) C) (a : Fin h) : (famH T a).Ok := by
  intro i j k hk C hC x y l
  have := (hCG i j k hk C hC).2 a x y l
  have hs (x' : Fin (T.dim i)) (y' : Fin (T.dim j)) :
      ∑ s, (famH T a).a s i x' x * (famH T a).b s j y' y =
        (T.rep i).H a x' x * (T.rep j).H a y' y :=
    Fin.sum_univ_one _
  refine Eq.trans ?_ (Finset.sum_congr rfl fun x' _ => Finset.sum_congr rfl fun y' _ =>
    congrArg (C x' y' l * ·) (hs x' y').symm)
  show ∑ k', (T.rep k).H a l k' * C x y k' = _
  calc ∑ k', (T.rep k).H a l k' * C x y k' = ∑ k', C x y k' * (T.rep k).H a l k' := by
        exact Finset.sum_congr rfl fun _ _ => mul_comm _ _
    _ = _ := this
    _ = _ := by
      apply Finset.sum_congr rfl; intro x' _
      apply Finset.sum_congr rfl; intro y' _
      ring

theorem acts_of_intertwines {r : ReducedRep T} (hn : n ≠ 0) (hne : r.irreps ≠ [])
    (hmul : ∀ m ∈ r.irreps, m.mul ≠ 0) {d : ℕ} {q : Matrix (Fin d) (Fin (dimL r.irreps)) ℂ}
    (hq : HasInv q)
    (hQ : (∃ (hd : d = dimL r.irreps), r.Q = none ∧ q = (1 : Matrix (Fin d) (Fin d) ℂ).submatrix
      id (finCongr hd.symm)) ∨ r.Q = some ⟨_, _, q⟩) {R : Rep n h d} (hA : r.A = R.A)
    (hX : ∀ a, R.X a * q = q * diagMat (fun ir => (T.rep ir).X a) r.irreps)
    (hH : ∀ a, R.H a * q = q * diagMat (fun ir => (T.rep ir).H a) r.irreps) :
    Spec.Acts r R := by
  obtain rfl := hq.dim_eq
  have hu := hq.isUnit
  have hrq : r.q = .ok q := by
    unfold ReducedRep.q
    rcases hQ with ⟨hd, h1, h2⟩ | h1
    · rw [h1, h2]; rfl
    · rw [h1]; exact SMat.view_mk q
  have := acts_of hn hne hmul hrq hu
  have hu' := (isUnit_iff_isUnit_det q).1 hu
  have e : blockRep r.A r.irreps q = R := by
    apply Rep.ext
    · exact hA
    · funext a
      show q * diagMat (fun ir => (T.rep ir).X a) r.irreps * q⁻¹ = _
      rw [← hX a, Matrix.mul_assoc, mul_nonsing_inv _ hu', Matrix.mul_one]
    · funext a
      show q * diagMat (fun ir => (T.rep ir).H a) r.irreps * q⁻¹ = _
      rw [← hH a, Matrix.mul_assoc, mul_nonsing_inv _ hu', Matrix.mul_one]
  rw [e] at this
  exact this

theorem tpTab_acts (hn : n ≠ 0) (hCG : ∀ i j, ∀ k ∈ T.prod i j, ∀ C ∈ T.cg i j k,
    Spec.IsCG (T.rep i) (T.rep j) (T.rep k) C) {i j : T.Ir}
    (hcg : ∀ k ∈ T.prod i j, T.cg i j k ≠ []) {r : ReducedRep T} (hr : tpTab i j = .ok r) :
    Spec.Acts r ((T.rep i).tensorProduct (T.rep j)) := by
  obtain ⟨hA, hirr, hne, q, hQ, hq, hF⟩ := tpTab_ok hr
  refine acts_of_intertwines hn ?_ ?_ hq (Or.inr hQ) hA ?_ ?_
  · rw [hirr]; simpa [cgBlocks] using hne
  · rw [hirr]
    intro m hm
    simp only [cgBlocks, List.mem_map] at hm
    obtain ⟨k, hk, rfl⟩ := hm
    simpa using hcg k hk
  · intro a
    have := hF _ (famX_ok hCG a)
    rw [famX_sum a fun u v => kron (u i) (v j)] at this
    exact this
  · intro a
    have := hF _ (famH_ok hCG a)
    rw [famH_sum a fun u v => kron (u i) (v j)] at this
    exact this

/-- The discrete generators of the result of `tensor_product`, also without Lie algebra (`n = 0`). -/
theorem tpTab_discrete (hCG : ∀ i j, ∀ k ∈ T.prod i j, ∀ C ∈ T.cg i j k,
    Spec.IsCG (T.rep i) (T.rep j) (T.rep k) C) {i j : T.Ir}
    (hcg : ∀ k ∈ T.prod i j, T.cg i j k ≠ []) {r : ReducedRep T} (hr : tpTab i j = .ok r) :
    r.discreteGenerators = .ok (List.ofFn fun a =>
      ⟨_, _, ((T.rep i).tensorProduct (T.rep j)).H a⟩) := by
  obtain ⟨hA, hirr, hne, q, hQ, hq, hF⟩ := tpTab_ok hr
  have hne' : r.irreps ≠ [] := by rw [hirr]; simpa [cgBlocks] using hne
  have hmul : ∀ m ∈ r.irreps, m.mul ≠ 0 := by
    rw [hirr]
    intro m hm
    simp only [cgBlocks, List.mem_map] at hm
    obtain ⟨k, hk, rfl⟩ := hm
    simpa using hcg k hk
  have hH : ∀ a, ((T.rep i).tensorProduct (T.rep j)).H a * q =
      q * diagMat (fun ir => (T.rep ir).H a) r.irreps := by
    intro a
    have := hF _ (famH_ok hCG a)
    rw [famH_sum a fun u v => kron (u i) (v j)] at this
    exact this
  clear hF
  generalize ((T.rep i).tensorProduct (T.rep j)).H = F at hH ⊢
  obtain e := hq.dim_eq
  clear hA hirr hne
  revert q F
  generalize T.dim i * T.dim j = d at *
  intro q hQ hq F hH
  subst e
  have hu := hq.isUnit
  have hrq : r.q = .ok q := by
    unfold ReducedRep.q
    rw [hQ]; exact SMat.view_mk q
  rw [r.discreteGenerators_ok hne' hmul hrq hu]
  have hu' := (isUnit_iff_isUnit_det q).1 hu
  congr 2
  funext a
  congr 1
  rw [← hH a, Matrix.mul_assoc, mul_nonsing_inv _ hu', Matrix.mul_one]

theorem tpMul_acts (hn : n ≠ 0) (hCG : ∀ i j, ∀ k ∈ T.prod i j, ∀ C ∈ T.cg i j k,
    Spec.IsCG (T.rep i) (T.rep j) (T.rep k) C) {a b : MulIr T} (ha : a.mul ≠ 0) (hb : b.mul ≠ 0)
    (hcg : ∀ k ∈ T.prod a.ir b.ir, T.cg a.ir b.ir k ≠ []) {r : ReducedRep T}
    (hr : tpMul a b = .ok r) :
    Spec.Acts r ((copies a.mul (T.rep a.ir)).tensorProduct (copies b.mul (T.rep b.ir))) := by
  obtain ⟨hA, hirr, hne, q, hQ, hq, hF⟩ := tpMul_ok hr
  refine acts_of_intertwines hn ?_ ?_ hq (Or.inr hQ) hA ?_ ?_
  · rw [hirr]; simpa [cgBlocks] using hne
  · rw [hirr]
    intro m hm
    simp only [cgBlocks, List.map_map, List.mem_map] at hm
    obtain ⟨k, hk, rfl⟩ := hm
    have := hcg k hk
    simp [ha, hb, this]
  · intro c
    have := hF _ (famX_ok hCG c)
    rw [famX_sum c fun u v => kron (kron (1 : Matrix (Fin a.mul) (Fin a.mul) ℂ) (u a.ir))
      (kron (1 : Matrix (Fin b.mul) (Fin b.mul) ℂ) (v b.ir))] at this
    have e : kron (kron (1 : Matrix (Fin a.mul) (Fin a.mul) ℂ) ((T.rep a.ir).X c))
          (kron (1 : Matrix (Fin b.mul) (Fin b.mul) ℂ) (1 : Matrix (Fin (T.dim b.ir)) _ ℂ)) +
        kron (kron (1 : Matrix (Fin a.mul) (Fin a.mul) ℂ) (1 : Matrix (Fin (T.dim a.ir)) _ ℂ))
          (kron (1 : Matrix (Fin b.mul) (Fin b.mul) ℂ) ((T.rep b.ir).X c)) =
        ((copies a.mul (T.rep a.ir)).tensorProduct (copies b.mul (T.rep b.ir))).X c := by
      rw [kron_one, kron_one]; rfl
    rw [← e]
    exact this
  · intro c
    have := hF _ (famH_ok hCG c)
    rw [famH_sum c fun u v => kron (kron (1 : Matrix (Fin a.mul) (Fin a.mul) ℂ) (u a.ir))
      (kron (1 : Matrix (Fin b.mul) (Fin b.mul) ℂ) (v b.ir))] at this
    exact this

theorem diag_step {m d e p : ℕ} (A : Fin p → ℂ) (x y : Matrix (Fin d) (Fin d) ℂ)
    (z : Fin p → Matrix (Fin d) (Fin d) ℂ) (M N : Matrix (Fin e) (Fin e) ℂ)
    (Z : Fin p → Matrix (Fin e) (Fin e) ℂ) (h : M * N - N * M = ∑ k, A k • Z k)
    (h' : x * y - y * x = ∑ k, A k • z k) :
    dsum (kron (1 : Matrix (Fin m) (Fin m) ℂ) x) M * dsum (kron 1 y) N -
      dsum (kron 1 y) N * dsum (kron 1 x) M = ∑ k, A k • dsum (kron 1 (z k)) (Z k) := by
  rw [dsum_mul, dsum_mul, ← dsum_sub, kron_mul, kron_mul, Matrix.one_mul, ← kron_sub_right, h, h',
    kron_sum_right]
  simp only [kron_smul_right, ← dsum_smul]
  rw [dsum_sum]

end LieNN
