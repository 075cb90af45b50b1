import Verif.Proofs.DtypeReduced
import Verif.Props.Jax
import Verif.Model.SO3
/-!
# C112: dtypes
-/
namespace LieNN.Props

open Matrix Jax Spec Dt

variable {n h d n₁ n₂ h₁ h₂ d₁ d₂ d' : ℕ}

/-- C112: an assignment keeps the number exactly when the dtype of the array can hold it. -/
theorem C112_store (t : Dtype) (z : ℂ) : store t z = z ↔ Holds t z := by
  refine ⟨fun hz => ?_, fun hz => store_of_mem (mem_sub.2 hz)⟩
  rw [← hz]
  cases t
  · simp only [store]
    split_ifs
    · exact ⟨_, rfl⟩
    · exact ⟨_, rfl⟩
  · exact Complex.ofReal_im _
  · trivial

/-- C112: `group_product` loses nothing: the arrays that it fills hold the numbers of the model
without dtypes, whatever the dtypes of the factors are. -/
theorem C112_group_product (r₁ : TRep n₁ h₁ d₁) (r₂ : TRep n₂ h₂ d₂) (w₁ : WellTyped r₁) (w₂ : WellTyped r₂) :
    (groupProduct r₁ r₂).rep = r₁.rep.groupProduct r₂.rep ∧ WellTyped (groupProduct r₁ r₂) ∧
    (groupProduct r₁ r₂).tX ≠ .int ∧ (groupProduct r₁ r₂).tH ≠ .int ∧
    (r₁.tX ≠ .complex → r₂.tX ≠ .complex → (groupProduct r₁ r₂).tX = .float) ∧
    (r₁.tH ≠ .complex → r₂.tH ≠ .complex → (groupProduct r₁ r₂).tH = .float) := by
  have key : ∀ a b : Dtype, getDtype [a, b] ≠ .int ∧ (a ≠ .complex → b ≠ .complex → getDtype [a, b] = .float) := by
    intro a b; cases a <;> cases b <;> simp [getDtype, promote]
  exact ⟨groupProduct_rep w₁ w₂, groupProduct_typed w₁ w₂, (key _ _).1, (key _ _).1, (key _ _).2, (key _ _).2⟩

/-- C112: the same for the arrays of a `TabulatedIrrepProduct`. -/
theorem C112_tabulated_product (r₁ : TRep n₁ h₁ d₁) (r₂ : TRep n₂ h₂ d₂) (w₁ : WellTyped r₁) (w₂ : WellTyped r₂) :
    (tabulatedProduct r₁ r₂).rep = r₁.rep.tabulatedProduct r₂.rep ∧ WellTyped (tabulatedProduct r₁ r₂) ∧
    (tabulatedProduct r₁ r₂).tX ≠ .int ∧ (tabulatedProduct r₁ r₂).tH ≠ .int ∧
    (r₁.tX ≠ .complex → r₂.tX ≠ .complex → (tabulatedProduct r₁ r₂).tX = .float) ∧
    (r₁.tH ≠ .complex → r₂.tH ≠ .complex → (tabulatedProduct r₁ r₂).tH = .float) := by
  have key : ∀ a b : Dtype, getDtype [a, b] ≠ .int ∧ (a ≠ .complex → b ≠ .complex → getDtype [a, b] = .float) := by
    intro a b; cases a <;> cases b <;> simp [getDtype, promote]
  exact ⟨tabulatedProduct_rep w₁ w₂, tabulatedProduct_typed w₁ w₂, (key _ _).1, (key _ _).1, (key _ _).2, (key _ _).2⟩

/-- C112: `direct_sum`, `tensor_product`, `conjugate`, `create_trivial`, `change_basis` and
`change_algebra` return arrays whose dtypes hold their entries; `direct_sum` loses nothing. -/
theorem C112_constructions (r : TRep n h d₁) (s : TRep n h d₂) (w : WellTyped r) (v : WellTyped s) :
    (directSum r s).rep = r.rep.directSum s.rep ∧ WellTyped (directSum r s) ∧
    WellTyped (tensorProduct r s) ∧ WellTyped (conjugate r) ∧ WellTyped (createTrivial r) ∧
    (∀ (d' : ℕ) (t : Dtype) (Q : Matrix (Fin d') (Fin d₁) ℂ) (iQ : Matrix (Fin d₁) (Fin d') ℂ), IsPinv Q iQ →
      (∀ i j, Holds t (Q i j)) → WellTyped (changeBasis r t Q iQ)) ∧
    (∀ (n' : ℕ) (t : Dtype) (Q : Matrix (Fin n') (Fin n) ℂ) (iQ : Matrix (Fin n) (Fin n') ℂ), IsPinv Q iQ →
      (∀ i j, Holds t (Q i j)) → WellTyped (changeAlgebra r t Q iQ)) := by
  refine ⟨rfl, ⟨w.A, fun _ _ _ => trivial, fun _ _ _ => trivial⟩, tensorProduct_typed w v,
    ⟨w.A, fun a i j => conj_mem (w.X a i j), fun a i j => conj_mem (w.H a i j)⟩,
    ⟨w.A, fun _ _ _ => Complex.zero_im, fun _ _ _ => Complex.one_im⟩,
    fun _ _ _ _ hP hQ => changeBasis_typed w hP hQ, fun _ _ _ _ hP hQ => changeAlgebra_typed w hP hQ⟩

/-- C112: real (float) representations stay real under tensor products, real changes of basis,
conjugation and group products. -/
theorem C112_stays_float (r : TRep n h d₁) (s : TRep n h d₂) (hr : r.tX = .float ∧ r.tH = .float)
    (hs : s.tX = .float ∧ s.tH = .float) :
    ((tensorProduct r s).tX = .float ∧ (tensorProduct r s).tH = .float) ∧
    ((groupProduct r s).tX = .float ∧ (groupProduct r s).tH = .float) ∧
    ((conjugate r).tX = .float ∧ (conjugate r).tH = .float) ∧
    (∀ (d' : ℕ) (t : Dtype) (Q : Matrix (Fin d') (Fin d₁) ℂ) (iQ : Matrix (Fin d₁) (Fin d') ℂ), t ≠ .complex →
      (changeBasis r t Q iQ).tX = .float ∧ (changeBasis r t Q iQ).tH = .float) := by
  refine ⟨⟨?_, ?_⟩, ⟨?_, ?_⟩, hr, ?_⟩
  · simp [tensorProduct, hr, hs, promote]
  · simp [tensorProduct, hr, hs, promote]
  · simp [groupProduct, hr, hs, getDtype, promote]
  · simp [groupProduct, hr, hs, getDtype, promote]
  · intro d' t Q iQ ht
    cases t <;> simp_all [changeBasis, promote, invType]

/-- C112 finding: `jax_utils.exp_map` raises `TypeError` on every `direct_sum`, because the sum is
stored as a complex array even if both terms are real; this includes representations without
discrete generators. -/
theorem C112_jax_direct_sum (r : TRep n h d₁) (s : TRep n h d₂)
    (empty : Fin h → ℕ → Matrix (Fin (d₁ + d₂)) (Fin (d₁ + d₂)) ℂ) (c : Fin n → ℂ) (k : Fin h → ℤ) :
    jaxExpMap empty (directSum r s) c k = .error .typeError := by
  simp [jaxExpMap, directSum, Jax.expMap, throw, throwThe, MonadExceptOf.throw, bind, Except.bind]

/-- C112: on group products of representations whose discrete generators are not complex, and on
tensor products of representations with float discrete generators, `jax_utils.exp_map` returns what
`Rep.exp_map` returns for the exponents in `[0, 2 ^ 32)`. -/
theorem C112_jax_products (r : TRep n h d₁) (s : TRep n h d₂) (r' : TRep n₁ h₁ d₁) (s' : TRep n₂ h₂ d₂)
    (wr : WellTyped r') (ws : WellTyped s') (hr : r.tH = .float) (hs : s.tH = .float)
    (hr' : r'.tH ≠ .complex) (hs' : s'.tH ≠ .complex)
    (e : Fin h → ℕ → Matrix (Fin (d₁ * d₂)) (Fin (d₁ * d₂)) ℂ)
    (e' : Fin (h₁ + h₂) → ℕ → Matrix (Fin (d₁ * d₂)) (Fin (d₁ * d₂)) ℂ)
    (c : Fin n → ℂ) (c' : Fin (n₁ + n₂) → ℂ) (k : Fin h → ℤ) (k' : Fin (h₁ + h₂) → ℤ)
    (hk : ∀ i, 0 ≤ k i ∧ k i < 2 ^ 32) (hk' : ∀ i, 0 ≤ k' i ∧ k' i < 2 ^ 32) :
    jaxExpMap e (tensorProduct r s) c k = (r.rep.tensorProduct s.rep).expMap c k ∧
    jaxExpMap e' (groupProduct r' s') c' k' = (r'.rep.groupProduct s'.rep).expMap c' k' := by
  constructor
  · have : (tensorProduct r s).tH = .float := by simp [tensorProduct, hr, hs, promote]
    rw [jaxExpMap, this]
    exact C55_exp_map e _ c k hk
  · obtain ⟨h1, -, -, -, -, h2⟩ := C112_group_product r' s' wr ws
    rw [jaxExpMap, h2 hr' hs', h1]
    exact C55_exp_map e' _ c' k' hk'

/-- C112: whenever `ReducedRep.discrete_generators()` returns, the dtype of the result holds all its
entries. -/
theorem C112_reduced {T : Table n h} (ty : T.Ir → Dtype)
    (hty : ∀ ir a i j, Holds (ty ir) ((T.rep ir).H a i j)) (r : ReducedRep T) (tQ : Option Dtype)
    (hQ : QTyped r.Q tQ) (L : List SMat) (hL : r.discreteGenerators = .ok L) :
    ∃ t, reducedType ty r.irreps tQ = .ok t ∧ ∀ M ∈ L, ∀ i j, Holds t (M.mat i j) := by
  unfold ReducedRep.discreteGenerators at hL
  cases hi : r.irreps with
  | nil => rw [hi] at hL; simp at hL
  | cons m l =>
    rw [hi] at hL
    simp only at hL
    cases hg : m.gens fun ir => (T.rep ir).H with
    | error e => rw [hg] at hL; exact absurd hL (by simp [bind, Except.bind])
    | ok H₀ =>
    rw [hg] at hL
    simp only [bind, Except.bind, pure, Except.pure] at hL
    by_cases hp : h = 0
    · have : H₀ = [] := by
        unfold MulIr.gens at hg
        rw [if_pos hp] at hg
        exact (Except.ok.inj hg).symm
      rw [if_pos (by rw [this]; rfl)] at hL
      cases hL
      exact ⟨.float, by simp [reducedType, hp], by simp⟩
    · have hlen : H₀.length = h := by
        unfold MulIr.gens at hg
        rw [if_neg hp] at hg
        have := (forall₂_of_mapM hg).length_eq
        simpa using this.symm
      rw [if_neg (by rw [hlen]; exact hp)] at hL
      have hf := forall₂_of_mapM hL
      have key : ∀ M ∈ L, ∃ t, reducedType ty r.irreps tQ = .ok t ∧ In t M := by
        intro M hM
        obtain ⟨i, hi'⟩ := mem_of_mapM hf hM
        obtain ⟨t, ht, hM⟩ := genAt_type hp hty hQ hi'
        refine ⟨t, ?_, hM⟩
        rw [hi] at ht ⊢
        simpa only [reducedType, if_neg hp] using ht
      have hLne : L ≠ [] := by
        intro h0
        have := hf.length_eq
        rw [h0] at this
        simp [hlen] at this
        exact hp this
      obtain ⟨M₀, l', rfl⟩ := List.exists_cons_of_ne_nil hLne
      obtain ⟨t, ht, -⟩ := key M₀ (by simp)
      rw [← hi]
      refine ⟨t, ht, fun M hM i j => ?_⟩
      obtain ⟨t', ht', hM'⟩ := key M hM
      rw [ht] at ht'
      cases ht'
      exact mem_sub.1 (hM' i j)

/-- C112: the same for `ReducedRep.continuous_generators()`. -/
theorem C112_reduced_continuous {T : Table n h} (ty : T.Ir → Dtype)
    (hty : ∀ ir a i j, Holds (ty ir) ((T.rep ir).X a i j)) (r : ReducedRep T) (tQ : Option Dtype)
    (hQ : QTyped r.Q tQ) (L : List SMat) (hL : r.continuousGenerators = .ok L) :
    ∃ t, reducedTypeX ty r.irreps tQ = .ok t ∧ ∀ M ∈ L, ∀ i j, Holds t (M.mat i j) := by
  unfold ReducedRep.continuousGenerators at hL
  cases hx : (List.range n).mapM fun i => r.genAt (fun ir => (T.rep ir).X) i with
  | error e => rw [hx] at hL; exact absurd hL (by simp [bind, Except.bind])
  | ok Xs =>
  rw [hx] at hL
  cases Xs with
  | nil => exact absurd hL (by simp [bind, Except.bind])
  | cons M₀ l' =>
  have hL' : M₀ :: l' = L := by simpa [bind, Except.bind, pure, Except.pure] using hL
  subst hL'
  have hf := forall₂_of_mapM hx
  have hp : n ≠ 0 := by
    have := hf.length_eq
    simp only [List.length_range, List.length_cons] at this
    omega
  have key : ∀ M ∈ M₀ :: l', ∃ t, reducedTypeX ty r.irreps tQ = .ok t ∧ In t M := by
    intro M hM
    obtain ⟨i, hi⟩ := mem_of_mapM hf hM
    obtain ⟨t, ht, hM⟩ := genAt_type hp hty hQ hi
    exact ⟨t, by rw [reducedTypeX, if_neg hp, ht], hM⟩
  obtain ⟨t, ht, -⟩ := key M₀ (by simp)
  refine ⟨t, ht, fun M hM i j => ?_⟩
  obtain ⟨t', ht', hM'⟩ := key M hM
  rw [ht] at ht'
  cases ht'
  exact mem_sub.1 (hM' i j)

/-- C112 finding: with at least one discrete generator, a `ReducedRep` that is more than a single
irrep has complex discrete generators, whatever the dtypes of its irreps and of `Q` are; and
`matrix_power` raises `TypeError` on them.  A single irrep without `Q` keeps its dtype. -/
theorem C112_reduced_complex {T : Table n h} (hh : h ≠ 0) (ty : T.Ir → Dtype) (m : MulIr T) (l : List (MulIr T))
    (hm : ∀ x ∈ m :: l, 1 ≤ x.mul) (tQ : Option Dtype) (ir : T.Ir) :
    (l ≠ [] ∨ 2 ≤ m.mul → reducedType ty (m :: l) tQ = .ok .complex ∧
      ∀ (d : ℕ) (empty : ℕ → Matrix (Fin d) (Fin d) ℂ) (F : Matrix (Fin d) (Fin d) ℂ) (k : ℤ),
        Jax.matrixPower .complex empty F k = .error .typeError) ∧
    reducedType ty [⟨1, ir⟩] none = .ok (ty ir) := by
  have hmul : ∀ (k : ℕ) (t : Dtype), 1 ≤ k → mulType h k t = .ok (if k = 1 then t else .complex) := by
    intro k t hk
    rw [mulType, if_neg hh]
    obtain _ | _ | k := k
    · omega
    · rfl
    · rw [if_neg (by omega)]; rfl
  have hts : ∀ l : List (MulIr T), (∀ x ∈ l, 1 ≤ x.mul) → l.mapM (fun m => mulType h m.mul (ty m.ir)) =
      .ok (l.map fun m => if m.mul = 1 then ty m.ir else .complex) := by
    intro l
    induction l with
    | nil => intro _; rfl
    | cons x l ih =>
      intro hl
      rw [List.mapM_cons, hmul _ _ (hl x (by simp)), ih fun y hy => hl y (by simp [hy])]
      rfl
  constructor
  · intro hcase
    refine ⟨?_, fun d empty F k => C55_matrix_power_dtype _ (by simp) empty F k⟩
    have hd : directSumType ((m :: l).map fun m => if m.mul = 1 then ty m.ir else .complex) = .ok .complex := by
      cases l with
      | nil =>
        have h2 : 2 ≤ m.mul := by simpa using hcase
        simp only [List.map, if_neg (show ¬ m.mul = 1 by omega)]
        rfl
      | cons x l => rfl
    simp only [reducedType, if_neg hh]
    unfold blockType
    rw [hts _ hm]
    simp only [bind, Except.bind]
    rw [hd]
    cases tQ with
    | none => rfl
    | some q => cases q <;> rfl
  · simp only [reducedType, if_neg hh]
    unfold blockType
    rw [hts _ (by simp)]
    rfl

/-! ## Examples -/

/-- A real representation with one continuous and one discrete generator. -/
noncomputable def realRep : TRep 1 1 2 :=
  ⟨⟨fun _ _ _ => 0, fun _ => !![0, -1; 1, 0], fun _ => !![-1, 0; 0, -1]⟩, .float, .float, .int⟩

/-- A complex one. -/
noncomputable def phaseRep : TRep 1 1 1 :=
  ⟨⟨fun _ _ _ => 0, fun _ => !![Complex.I], fun _ => !![-1]⟩, .float, .complex, .float⟩

theorem realRep_typed : WellTyped realRep := by
  refine ⟨fun _ _ _ => Complex.zero_im, fun a i j => ?_, fun a i j => ?_⟩
  · fin_cases i <;> fin_cases j <;> simp [realRep, Holds]
  · fin_cases i <;> fin_cases j
    · exact ⟨-1, by simp [realRep]⟩
    · exact ⟨0, by simp [realRep]⟩
    · exact ⟨0, by simp [realRep]⟩
    · exact ⟨-1, by simp [realRep]⟩

theorem phaseRep_typed : WellTyped phaseRep := by
  refine ⟨fun _ _ _ => Complex.zero_im, fun _ _ _ => trivial, fun a i j => ?_⟩
  fin_cases i; fin_cases j
  simp [phaseRep, Holds]

/-- The hypotheses of `C112_group_product` hold for a real and a complex factor, and the dtype of the
first factor alone would lose the generator of the second. -/
example : (groupProduct realRep phaseRep).rep = realRep.rep.groupProduct phaseRep.rep ∧
    (groupProduct realRep phaseRep).tX = .complex ∧
    storeM realRep.tX (kron (1 : Matrix (Fin 2) (Fin 2) ℂ) (phaseRep.rep.X 0)) ≠ kron 1 (phaseRep.rep.X 0) := by
  refine ⟨(C112_group_product _ _ realRep_typed phaseRep_typed).1, rfl, fun hh => ?_⟩
  have := congrArg Complex.im (congrFun (congrFun hh 0) 0)
  simp [storeM, store, kron, realRep, phaseRep] at this

/-- The irreps of `O3` have float discrete generators, as `C112_reduced` assumes. -/
theorem O3_float (r : O3) (a : Fin 1) (i j : Fin r.dim) : Holds .float ((O3.rep r).H a i j) := by
  rw [← mem_sub]
  simp only [O3.rep, Matrix.smul_apply, smul_eq_mul]
  exact mul_mem (mem_sub.2 (Complex.intCast_im _)) (one_mem_mat _ _ _)

/-- The `ReducedRep` `1x0e + 1x1o` of `O3`: the discrete generator is complex although both irreps
are real. -/
example : reducedType (T := O3.table) (fun _ => .float) [⟨1, (⟨0, 1⟩ : O3)⟩, ⟨1, (⟨1, -1⟩ : O3)⟩] none = .ok .complex :=
  ((C112_reduced_complex (T := O3.table) (by norm_num) (fun _ => .float) ⟨1, (⟨0, 1⟩ : O3)⟩ [⟨1, (⟨1, -1⟩ : O3)⟩]
    (by simp) none (⟨0, 1⟩ : O3)).1 (Or.inl (by simp))).1

example : (tabulatedProduct realRep phaseRep).rep = realRep.rep.tabulatedProduct phaseRep.rep ∧
    (tabulatedProduct realRep phaseRep).tH = .float :=
  ⟨(C112_tabulated_product _ _ realRep_typed phaseRep_typed).1, rfl⟩

example : ¬ Holds .float Complex.I := by simp [Holds]

end LieNN.Props
