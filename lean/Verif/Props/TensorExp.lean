import Verif.Proofs.TFOrth
import Verif.Props.TensorFront
import Verif.Props.SO3
/-!
# Reduced tensor products and group elements
-/
namespace LieNN.Props

open Matrix LieNN.Spec LieNN.TFront LieNN.TBasis

variable {n h m : ℕ} {T : Table n h}

/-- **C75.** The array of a reduced tensor product intertwines the group elements: for all parameters of
`exp_map`, continuous and discrete, moving `D_out` onto the last axis is the same as moving `D_in` onto
all the other axes, both transposed. -/
theorem C75_group [LinearOrder T.Ir] {δ : Fin m → ℕ} {R : ∀ i, Rep n h (δ i)} {G : Set (SignedPerm m)}
    {x : RepArray T m} (hx : IsReducedArray δ (fun i => NRep.of (R i)) G x) {S : Rep n h x.rep.dim}
    (hS : ActsG x.rep S) {c : Fin n → ℂ} {k : Fin h → ℤ} {Dout : Matrix (Fin x.rep.dim) (Fin x.rep.dim) ℂ}
    {Din : ∀ i, Matrix (Fin (δ i)) (Fin (δ i)) ℂ}
    (h1 : S.expMap c k = .ok Dout) (h2 : ∀ i, (R i).expMap c k = .ok (Din i))
    (p : ∀ i, Fin (δ i)) (z : Fin x.rep.dim) :
    ∑ z' : Fin x.rep.dim, (x.array fun i => p i).getD z' 0 * Dout z z' =
      ∑ q : ∀ i, Fin (δ i), (∏ i, Din i (q i) (p i)) * (x.array fun i => q i).getD z 0 := by
  have := congrFun (congrFun (twist_arr hx hS h1 h2) p) z
  simpa [Matrix.mul_apply, arrMat, TFront.tens] using this

/-- **C75.** If the irreps of the table and the representations are orthogonal then for all parameters
`exp_map` of the result and of the representations exist and satisfy the relation that the test of the
repository checks: `einsum("ijkx,xy->ijky", array, D_out) = einsum("ijkx,li,mj,nk->lmnx", array, D_in,
D_in, D_in)`, for any number of axes. -/
theorem C75_orthogonal [LinearOrder T.Ir] (hT : ∀ i, Spec.Orthogonal (T.rep i)) {δ : Fin m → ℕ}
    {R : ∀ i, Rep n h (δ i)} (hR : ∀ i, Spec.Orthogonal (R i)) {G : Set (SignedPerm m)}
    {x : RepArray T m} (hx : IsReducedArray δ (fun i => NRep.of (R i)) G x) (hne : x.list ≠ [])
    (c : Fin n → ℂ) (k : Fin h → ℤ) :
    ∃ (S : Rep n h x.rep.dim) (Dout : Matrix (Fin x.rep.dim) (Fin x.rep.dim) ℂ)
      (Din : ∀ i, Matrix (Fin (δ i)) (Fin (δ i)) ℂ), ActsG x.rep S ∧ S.expMap c k = .ok Dout ∧
      (∀ i, (R i).expMap c k = .ok (Din i)) ∧
      ∀ (p : ∀ i, Fin (δ i)) (y : Fin x.rep.dim),
        ∑ z : Fin x.rep.dim, (x.array fun i => p i).getD z 0 * Dout z y =
          ∑ q : ∀ i, Fin (δ i), (∏ i, Din i (p i) (q i)) * (x.array fun i => q i).getD y 0 := by
  obtain ⟨S, hS, _, _⟩ := hx.acts
  have hne' : x.rep.irreps ≠ [] := by rw [hx.irreps]; simpa using hne
  have hmul : ∀ m ∈ x.rep.irreps, m.mul ≠ 0 := by
    rw [hx.irreps]
    intro m hm
    obtain ⟨b, hb, rfl⟩ := List.mem_map.1 hm
    exact hx.blocks.mul b hb
  have hSO := orth_of_table hT hne' hmul hx.Q hS
  obtain ⟨Dout, h1, o1⟩ := hSO.expMap c k
  choose Din h2 o2 using fun i => (hR i).expMap c k
  refine ⟨S, Dout, Din, hS, h1, h2, fun p y => ?_⟩
  have ht : arrMat δ x * Doutᵀ = (tens Din)ᵀ * arrMat δ x := twist_arr hx hS h1 h2
  have o3 : tens Din * (tens Din)ᵀ = 1 := by
    have : (tens Din)ᵀ = tens fun i => (Din i)ᵀ := by
      ext q p; simp [TFront.tens]
    rw [this, tens_mul, ← tens_one]
    congr 1
    funext i
    exact mul_eq_one_comm.1 (o2 i)
  have key : arrMat δ x * Dout = tens Din * arrMat δ x := by
    calc arrMat δ x * Dout = tens Din * (tens Din)ᵀ * arrMat δ x * Dout := by rw [o3, Matrix.one_mul]
      _ = tens Din * (arrMat δ x * Doutᵀ) * Dout := by rw [ht]; simp only [Matrix.mul_assoc]
      _ = tens Din * arrMat δ x * (Doutᵀ * Dout) := by simp only [Matrix.mul_assoc]
      _ = _ := by rw [o1, Matrix.mul_one]
  have := congrFun (congrFun key p) y
  simpa [Matrix.mul_apply, arrMat, TFront.tens] using this

theorem so3_orthogonal (l : SO3.table.Ir) : Spec.Orthogonal (SO3.table.rep l) := by
  obtain ⟨X, _, h1, _, _, _, _, h2⟩ := C37_representation l
  constructor
  · intro a
    show ((SO3.rep l).X a)ᵀ = -(SO3.rep l).X a
    rw [h2]
    show ((X a).map Complex.ofReal)ᵀ = -(X a).map Complex.ofReal
    ext i j
    have := congrFun (congrFun (h1 a) i) j
    simp only [Matrix.transpose_apply, Matrix.neg_apply] at this
    simp [this]
  · intro a; exact Fin.elim0 a

/-- **C75.** The test of the repository, `test_tensor_product_basis_equivariance`, for every direct sum of
irreps of `SO3`, every positive order and all parameters. -/
theorem C75_so3 [LinearOrder SO3.table.Ir] {eigh : EighFn} (he : EighSpec eigh) (hr : EighReal eigh)
    {ord : SetOrder} {order : ℕ} (hord : SortedOrder order ord) (hm : 1 ≤ order)
    (r : ReducedRep SO3.table) (hQ : r.Q = none) (hne : r.irreps ≠ []) (hmul : ∀ m ∈ r.irreps, m.mul ≠ 0) :
    ∃ K x e, 0 < e ∧ (∀ eps, 0 < eps → eps < e → ∀ fuel ≥ K,
        symmetricBasis (interEps eigh eps) ord fuel (fun _ => r) (.reduced 0) order = some (.ok x)) ∧
      ∃ (S : Rep 3 0 x.rep.dim) (R : Rep 3 0 r.dim), ActsG x.rep S ∧ ActsG r R ∧ ∀ (c : Fin 3 → ℂ),
      ∃ (Dout : Matrix (Fin x.rep.dim) (Fin x.rep.dim) ℂ) (Din : Matrix (Fin r.dim) (Fin r.dim) ℂ),
        S.expMap c Fin.elim0 = .ok Dout ∧ R.expMap c Fin.elim0 = .ok Din ∧
        ∀ (p : Fin order → Fin r.dim) (y : Fin x.rep.dim),
          ∑ z : Fin x.rep.dim, (x.array fun i => p i).getD z 0 * Dout z y =
            ∑ q : Fin order → Fin r.dim, (∏ i, Din (p i) (q i)) * (x.array fun i => q i).getD y 0 := by
  have hgood : GoodRed r := ⟨hne, hmul, by rw [hQ]; intro Q hQ; cases hQ⟩
  obtain ⟨R, hR⟩ := good_acts hgood
  obtain ⟨K, x, e, h0, h1, h2, h3⟩ := C74_symmetric he hr hord so3_goodTable hm (fun _ => r) (.reduced 0) r
    rfl hgood R hR
  obtain ⟨S, hS, _⟩ := h2.acts
  refine ⟨K, x, e, h0, h1, S, R, hS, hR, fun c => ?_⟩
  have hRO := orth_of_table so3_orthogonal hne hmul hQ hR
  have hlist : x.list ≠ [] := by
    intro hl
    have hd : 0 < r.dim := by
      obtain ⟨m, l, hl⟩ := List.exists_cons_of_ne_nil hne
      show 0 < dimL r.irreps
      rw [hl]
      show 0 < m.mul * SO3.table.dim m.ir + _
      have := Nat.pos_of_ne_zero (hmul m (by rw [hl]; simp))
      have := so3_goodTable.pos m.ir
      positivity
    have : 0 < x.rep.dim := by
      rw [h3]; exact Nat.choose_pos (by omega)
    have h4 : x.rep.dim = dimL x.rep.irreps := rfl
    rw [h4, h2.irreps, hl] at this
    simp [dimL] at this
  obtain ⟨S', Dout, Din, hS', g1, g2, g3⟩ := C75_orthogonal so3_orthogonal (fun _ => hRO) h2 hlist c Fin.elim0
  obtain ⟨e1, e2⟩ := actsG_unique hS hS'
  have h5 : 0 < order := hm
  refine ⟨Dout, Din ⟨0, h5⟩, ?_, g2 _, fun p y => ?_⟩
  · rw [← g1]
    unfold Rep.expMap
    rw [e1, e2]
  · have : Din = fun _ => Din ⟨0, h5⟩ := by
      funext i
      exact Except.ok.inj ((g2 i).symm.trans (g2 _))
    rw [this] at g3
    exact g3 p y

/-- The call of the test of the repository: `0+1+2+0` of `SO3`, order 3. -/
example [LinearOrder SO3.table.Ir] : scalars.Q = none ∧ scalars.irreps ≠ [] ∧
    (∀ m ∈ scalars.irreps, m.mul ≠ 0) ∧ scalars.dim = 10 ∧
    ∃ eigh, EighSpec eigh ∧ EighReal eigh ∧ ∃ ord, SortedOrder 3 ord := by
  obtain ⟨eigh, h1, h2⟩ := exists_eigh_real
  obtain ⟨ord, h3⟩ := exists_order 3
  exact ⟨rfl, scalars_good.ne, scalars_good.mul, rfl, eigh, h1, h2, ord, h3⟩

/-- A non-trivial group element of an orthogonal representation: the spin one representation of `SO3`. -/
example : Spec.Orthogonal (SO3.rep 1) ∧ ∃ a, (SO3.rep 1).X a ≠ 0 := by
  refine ⟨so3_orthogonal (1 : ℕ), ?_⟩
  by_contra h0
  push Not at h0
  obtain ⟨c, hc⟩ := so3_goodTable.schur.scalar (1 : ℕ) (Matrix.of fun i j => if i.1 = 0 ∧ j.1 = 1 then 1 else 0)
    (by
      intro a
      have : (SO3.table.rep (1 : ℕ)).X a = 0 := h0 a
      rw [this, Matrix.zero_mul, Matrix.mul_zero]) (fun a => Fin.elim0 a)
  have h1 := congrFun (congrFun hc ⟨0, by decide⟩) ⟨1, by decide⟩
  simp at h1

end LieNN.Props
