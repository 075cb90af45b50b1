import Verif.Proofs.IterTriv
import Verif.Props.SL2C
import Verif.Props.SO3
import Verif.Props.SU2
/-!
# C40, C41, C65, C66: iterators, selection rules, products of irreps, `SU2Real`
-/
namespace LieNN.Props

open Matrix LieNN.Spec

/-! ## C40 -/

/-- C40 for `Z2`: both irreps, in the order `1`, `-1`. -/
theorem C40_z2 : Enumerates (fun p : ℤ => p = 1 ∨ p = -1) Z2.lt 1 Z2.iterator.out ∧
    (Z2.rep 1).isTrivial := ⟨Z2.enumerates, Z2.trivial_rep⟩

/-- C40 for `SU2`. -/
theorem C40_su2 : Enumerates (fun _ : ℕ => True) SU2.lt 0 SU2.iterator.out ∧
    (SU2.rep 0).isTrivial := ⟨SU2.enumerates, SU2.trivial_rep⟩

/-- C40 for `SO3`. -/
theorem C40_so3 : Enumerates (fun l : ℤ => 0 ≤ l) SO3.lt 0 SO3.iterator.out ∧
    (SO3.rep 0).isTrivial := ⟨SO3.enumerates, SO3.trivial_rep⟩

/-- C40 for `O3`. -/
theorem C40_o3 : Enumerates (fun r : O3 => r.p = 1 ∨ r.p = -1) O3.lt ⟨0, 1⟩ O3.iterator.out ∧
    (O3.rep ⟨0, 1⟩).isTrivial := ⟨O3.enumerates, O3.trivial_rep⟩

/-- C40 for `SU2Real`: the labels are the non-negative half integers. -/
theorem C40_su2real : Enumerates (fun j : ℚ => ∃ n : ℕ, 2 * j = n) SU2Real.lt 0 SU2Real.iterator.out ∧
    ∃ X, SU2Real.gens 0 = .ok ⟨1, X⟩ ∧ X = 0 := by
  refine ⟨SU2Real.enumerates, ?_⟩
  obtain ⟨X, h1, h2, -⟩ := SU2Real.gens_even (j := 0) (l := 0) (by simp)
  refine ⟨X, h2, ?_⟩
  funext a
  ext i j
  have := SO3.trivial_rep.2.1 a i j
  unfold SO3.rep at this
  simp only [h1] at this
  exact Complex.ofReal_eq_zero.1 this

/-- C40 for `SL2C`. -/
theorem C40_sl2c : Enumerates (fun _ : SL2C => True) SL2C.lt ⟨0, 0⟩ SL2C.iterator.out ∧
    (SL2C.rep ⟨0, 0⟩).isTrivial := ⟨SL2C.enumerates, SL2C.trivial_rep⟩

/-- C40 for `SO13`: the labels of even sum. -/
theorem C40_so13 : Enumerates (fun r : ℕ × ℕ => (r.1 + r.2) % 2 = 0) SO13.lt (0, 0) SO13.iterator.out :=
  SO13.enumerates

/-- C40: the generators of the first element of `SO13.iterator()` are zero matrices of size one. -/
theorem C40_so13_trivial {eigh : EighFn} (he : EighSpec eigh)
    {sqrtm : {d : ℕ} → Matrix (Fin d) (Fin d) ℂ → Matrix (Fin d) (Fin d) ℂ} (hs : SqrtmInvSpec sqrtm) :
    (⟨0, 0⟩ : SL2C).dim = 1 ∧
    ∃ X, SO13.gens eigh (1 / 10 ^ 4) sqrtm ⟨0, 0⟩ = .ok X ∧ ∀ i, X i = 0 := by
  refine ⟨rfl, ?_⟩
  obtain ⟨X, h1, h2, -⟩ := C39_so13 he hs ⟨0, 0⟩ (by norm_num)
  exact ⟨X, h1, one_dim_zero rfl h2 SO13.algebra_perfect⟩

/-- C40 for `SU2_`, `SU3`, `SU4`: the labels are the non-increasing sequences ending with zero. -/
theorem C40_sun : Enumerates (SUN.valid 2) SUN.lt [0, 0] SUN.iterator2.out ∧
    Enumerates (SUN.valid 3) SUN.lt [0, 0, 0] SUN.iterator3.out ∧
    Enumerates (SUN.valid 4) SUN.lt [0, 0, 0, 0] SUN.iterator4.out :=
  ⟨SUN.enumerates2, SUN.enumerates3, SUN.enumerates4⟩

/-- C40: these labels are exactly those the constructor of `SUN` accepts. -/
theorem C40_sun_labels (S T : List ℤ) : SUN.make S = .ok T ↔ S = T ∧
    S.Pairwise (· ≥ ·) ∧ S.getLast? = some 0 := by
  rw [SUN.make_ok_iff]
  exact and_congr Iff.rfl ⟨fun h => h.2, fun h => ⟨rfl, h⟩⟩

/-- C40: `create_trivial` of the classes returns the trivial irrep. -/
theorem C40_create_trivial : Z2.iterator.createTrivial = .ok 1 ∧ SU2.iterator.createTrivial = .ok 0 ∧
    SO3.iterator.createTrivial = .ok 0 ∧ O3.iterator.createTrivial = .ok ⟨0, 1⟩ ∧
    SU2Real.iterator.createTrivial = .ok 0 ∧ SL2C.iterator.createTrivial = .ok ⟨0, 0⟩ ∧
    SO13.iterator.createTrivial = .ok (0, 0) ∧ SUN.iterator2.createTrivial = .ok [0, 0] ∧
    SUN.iterator3.createTrivial = .ok [0, 0, 0] ∧ SUN.iterator4.createTrivial = .ok [0, 0, 0, 0] := by
  decide +kernel

/-- C40 finding: `SU3.__post_init__` replaces the checks of `SUN` by a check of the length, so labels
that are not weights are accepted by `SU3` though `SUN` refuses them. -/
theorem C40_su3_unchecked : SUN.makeLen 3 [0, 5, 1] = .ok [0, 5, 1] ∧
    SUN.make [0, 5, 1] = .error .assertionError := by
  decide +kernel

/-- C40: comparison of product irreps is a strict total order when those of the factors are; there
is no iterator. -/
theorem C40_product {α β : Type} {v₁ : α → Prop} {v₂ : β → Prop} {lt₁ : α → α → Prop}
    {lt₂ : β → β → Prop} (h₁ : StrictTotal v₁ lt₁) (h₂ : StrictTotal v₂ lt₂) :
    StrictTotal (fun r : α × β => v₁ r.1 ∧ v₂ r.2) (IrProduct.lt lt₁ lt₂) ∧
    (IrProduct.iterator : Py (PyIter (α × β))) = .error .notImplemented :=
  ⟨IrProduct.strictTotal h₁ h₂, rfl⟩

example : O3.iterator.out 2 = .ok [⟨0, 1⟩, ⟨0, -1⟩, ⟨1, -1⟩, ⟨1, 1⟩] := by decide +kernel
example : SO13.iterator.out 2 = .ok [(0, 0), (0, 2), (1, 1), (2, 0)] := by decide +kernel
example : SUN.iterator4.out 2 = .ok [[0, 0, 0, 0], [1, 0, 0, 0], [1, 1, 0, 0], [1, 1, 1, 0]] := by
  decide +kernel
example : StrictTotal (fun r : O3 × ℕ => (r.1.p = 1 ∨ r.1.p = -1) ∧ True) (IrProduct.lt O3.lt SU2.lt) :=
  (C40_product O3.enumerates.order SU2.enumerates.order).1

/-! ## C41 -/

/-- C41 for `SU2`. -/
theorem C41_su2 : SelectionRule (fun _ : ℕ => True) SU2.dim 0 SU2.mul := SU2.selection

/-- C41 for `SO3`. -/
theorem C41_so3 : SelectionRule (fun l : ℤ => 0 ≤ l) (fun l => SO3.dim l.toNat) 0
    (fun l₁ l₂ => .ok (SO3.mul l₁.toNat l₂.toNat)) := SO3.selection

/-- C41 for `O3`. -/
theorem C41_o3 : SelectionRule (fun r : O3 => r.p = 1 ∨ r.p = -1) O3.dim ⟨0, 1⟩
    (fun r₁ r₂ => .ok (O3.mul r₁ r₂)) := O3.selection

/-- C41 for `Z2`. -/
theorem C41_z2 : SelectionRule (fun p : ℤ => p = 1 ∨ p = -1) (fun _ => 1) 1
    (fun p₁ p₂ => .ok (Z2.mul p₁ p₂)) := Z2.selection

/-- C41 for `SL2C`. -/
theorem C41_sl2c : SelectionRule (fun _ : SL2C => True) SL2C.dim ⟨0, 0⟩ SL2C.mul := SL2C.selection

/-- C41 for `SO13`: the constructor is never given labels of odd sum. -/
theorem C41_so13 : SelectionRule (fun r : ℕ × ℕ => (r.1 + r.2) % 2 = 0)
    (fun r => (⟨r.1, r.2⟩ : SL2C).dim) (0, 0) SO13.mul := SO13.selection

/-- C41 for products of irreps. -/
theorem C41_product {α β : Type} {v₁ : α → Prop} {v₂ : β → Prop} {d₁ : α → ℕ} {d₂ : β → ℕ}
    {t₁ : α} {t₂ : β} {mul₁ : α → α → Py (List α)} {mul₂ : β → β → Py (List β)}
    (h₁ : SelectionRule v₁ d₁ t₁ mul₁) (h₂ : SelectionRule v₂ d₂ t₂ mul₂) :
    SelectionRule (fun r : α × β => v₁ r.1 ∧ v₂ r.2) (IrProduct.dim d₁ d₂) (t₁, t₂)
      (IrProduct.mul mul₁ mul₂) := IrProduct.selection h₁ h₂

example : SU2.mul 2 3 = .ok [1, 3, 5] := by decide +kernel
example : O3.mul ⟨1, -1⟩ ⟨1, 1⟩ = [⟨0, -1⟩, ⟨1, -1⟩, ⟨2, -1⟩] := by decide +kernel
example : SO13.mul (1, 1) (1, 1) = .ok [(0, 0), (0, 2), (2, 0), (2, 2)] := by decide +kernel
example : IrProduct.mul SO13.mul SU2.mul ((1, 1), 1) ((0, 0), 1) = .ok [((1, 1), 0), ((1, 1), 2)] := by
  decide +kernel
example : SelectionRule (fun r : (SL2C × ℕ) × ℕ => (True ∧ True) ∧ True)
    (IrProduct.dim (IrProduct.dim SL2C.dim SU2.dim) SU2.dim) ((⟨0, 0⟩, 0), 0)
    (IrProduct.mul (IrProduct.mul SL2C.mul SU2.mul) SU2.mul) :=
  C41_product (C41_product C41_sl2c C41_su2) C41_su2

/-! ## C65 -/

/-- C65: the Clebsch-Gordan coefficients of a product of irreps are equivariant when those of the
factors are. -/
theorem C65_equivariant {n₁ h₁ n₂ h₂ : ℕ} {T₁ : Table n₁ h₁} {T₂ : Table n₂ h₂} (H₁ : Equivariant T₁)
    (H₂ : Equivariant T₂) : Equivariant (T₁.product T₂) := product_equivariant H₁ H₂

/-- C65: they are jointly invertible when those of the factors are. -/
theorem C65_complete {n₁ h₁ n₂ h₂ : ℕ} {T₁ : Table n₁ h₁} {T₂ : Table n₂ h₂} (i j : (T₁.product T₂).Ir)
    (H₁ : GoodPair (T := T₁) i.1 j.1) (H₂ : GoodPair (T := T₂) i.2 j.2) :
    GoodPair (T := T₁.product T₂) i j := product_goodPair H₁ H₂

/-- C65: hence `tensor_product` of two product irreps runs and acts as the tensor product of the
representations. -/
theorem C65_tensor_product {n₁ h₁ n₂ h₂ : ℕ} {T₁ : Table n₁ h₁} {T₂ : Table n₂ h₂} (hn : n₁ + n₂ ≠ 0)
    (H₁ : Equivariant T₁) (H₂ : Equivariant T₂) (i j : (T₁.product T₂).Ir)
    (G₁ : GoodPair (T := T₁) i.1 j.1) (G₂ : GoodPair (T := T₂) i.2 j.2) :
    ∃ r, tpTab (T := T₁.product T₂) i j = .ok r ∧
      Acts r (((T₁.product T₂).rep i).tensorProduct ((T₁.product T₂).rep j)) := by
  obtain ⟨r, hr⟩ := GoodPair.run (product_goodPair G₁ G₂)
  exact ⟨r, hr, tpTab_acts hn (product_equivariant H₁ H₂) (product_goodPair G₁ G₂).sols hr⟩

/-- C65: a product of irreps is irreducible, in the sense of a scalar commutant: if only scalars
commute with the generators of each factor then only scalars commute with those of the product. -/
theorem C65_irreducible {n₁ h₁ n₂ h₂ d₁ d₂ : ℕ} (r₁ : Rep n₁ h₁ d₁) (r₂ : Rep n₂ h₂ d₂)
    (H₁ : ∀ S, (∀ a, r₁.X a * S = S * r₁.X a) → (∀ a, r₁.H a * S = S * r₁.H a) → ∃ c : ℂ, S = c • 1)
    (H₂ : ∀ S, (∀ a, r₂.X a * S = S * r₂.X a) → (∀ a, r₂.H a * S = S * r₂.H a) → ∃ c : ℂ, S = c • 1)
    (S : Matrix (Fin (d₁ * d₂)) (Fin (d₁ * d₂)) ℂ)
    (hX : ∀ a, (r₁.tabulatedProduct r₂).X a * S = S * (r₁.tabulatedProduct r₂).X a)
    (hH : ∀ a, (r₁.tabulatedProduct r₂).H a * S = S * (r₁.tabulatedProduct r₂).H a) :
    ∃ c : ℂ, S = c • 1 := by
  refine commutant_kron (ι := Fin n₁ ⊕ Fin h₁) (κ := Fin n₂ ⊕ Fin h₂) (Sum.elim r₁.X r₁.H)
    (Sum.elim r₂.X r₂.H) (fun T hT => H₁ T (fun a => hT (Sum.inl a)) fun a => hT (Sum.inr a))
    (fun T hT => H₂ T (fun a => hT (Sum.inl a)) fun a => hT (Sum.inr a)) ?_ ?_
  · rintro (a | a)
    · have := hX (Fin.castAdd _ a)
      simpa [Rep.tabulatedProduct] using this
    · have := hH (Fin.castAdd _ a)
      simpa [Rep.tabulatedProduct] using this
  · rintro (a | a)
    · have := hX (Fin.natAdd _ a)
      simpa [Rep.tabulatedProduct] using this
    · have := hH (Fin.natAdd _ a)
      simpa [Rep.tabulatedProduct] using this

/-- The hypotheses of C65 hold for products of `SU2` and `O3`, for instance. -/
example (j₁ j₂ : ℕ) (r₁ r₂ : O3) : ∃ r, tpTab (T := SU2.table.product O3.table) (j₁, r₁) (j₂, r₂) = .ok r ∧
    Acts r (((SU2.table.product O3.table).rep (j₁, r₁)).tensorProduct
      ((SU2.table.product O3.table).rep (j₂, r₂))) :=
  C65_tensor_product (by norm_num) SU2.table_equivariant O3.table_equivariant _ _
    (SU2.table_good j₁ j₂) (O3.table_good r₁ r₂)

/-! ## C66 -/

/-- C66: `round` in `is_integer` and `is_half_integer` goes to the nearest integer, ties to the even one; the
two tests accept exactly the integers and the half integers. -/
theorem C66_round (x : ℚ) : (|x - pyRound x| ≤ 1 / 2 ∧ (|x - pyRound x| = 1 / 2 → Even (pyRound x))) ∧
    (isInteger x ↔ ∃ n : ℤ, x = n) ∧ (isHalfInteger x ↔ ∃ n : ℤ, 2 * x = n) := by
  refine ⟨?_, isInteger_iff, isInteger_iff (x := 2 * x)⟩
  have h0 := Int.floor_le x
  have h1 := Int.lt_floor_add_one x
  unfold pyRound
  split_ifs with h2 h3 h4
  · rw [abs_of_nonneg (by linarith)]
    exact ⟨h2.le, fun h => absurd h h2.ne⟩
  · push_cast
    rw [abs_of_nonpos (by linarith)]
    exact ⟨by linarith, fun h => by linarith⟩
  · rw [abs_of_nonneg (by linarith)]
    exact ⟨by linarith, fun _ => Int.even_iff.2 h4⟩
  · push_cast
    rw [abs_of_nonpos (by linarith)]
    exact ⟨by linarith, fun _ => Int.even_iff.2 (by omega)⟩

example : pyRound (5 / 2) = 2 ∧ pyRound (7 / 2) = 4 ∧ isHalfInteger (3 / 2) ∧ ¬ isInteger (3 / 2) := by
  decide +kernel

/-- C66: the constructor accepts exactly the non-negative half integers. -/
theorem C66_labels (j : ℚ) : ((∃ n : ℕ, 2 * j = n) → SU2Real.make j = .ok j) ∧
    ((¬ ∃ n : ℕ, 2 * j = n) → SU2Real.make j = .error .assertionError) := by
  refine ⟨fun ⟨n, h⟩ => SU2Real.make_of h, fun hn => ?_⟩
  unfold SU2Real.make
  by_cases h : isHalfInteger j
  · rw [pyAssert_of h]
    show (pyAssert (0 ≤ j) >>= _) = _
    rw [pyAssert, if_neg]
    · rfl
    · intro h0
      obtain ⟨z, hz⟩ := (isInteger_iff (x := 2 * j)).1 h
      have hz0 : (0 : ℚ) ≤ z := by linarith
      have hz1 : 0 ≤ z := by exact_mod_cast hz0
      obtain ⟨k, rfl⟩ := Int.eq_ofNat_of_zero_le hz1
      exact hn ⟨k, by simpa using hz⟩
  · rw [pyAssert, if_neg h]
    rfl

example : (∃ n : ℕ, 2 * (3 / 2 : ℚ) = n) ∧ (¬ ∃ n : ℕ, 2 * (-1 / 2 : ℚ) = n) := by
  refine ⟨⟨3, by norm_num⟩, ?_⟩
  rintro ⟨n, hn⟩
  have : (0 : ℚ) ≤ n := Nat.cast_nonneg n
  linarith

/-- C66: for every half integer `j`, the generators of `SU2Real(j)` are computed without an
exception; they are real antisymmetric matrices of size `dim` satisfying the brackets of `su(2)`. -/
theorem C66_generators (j : ℚ) (hj : ∃ n : ℕ, 2 * j = n) : ∃ X, SU2Real.gens j = .ok ⟨SU2Real.dim j, X⟩ ∧
    (∀ a, (X a)ᵀ = -X a) ∧ X 0 * X 1 - X 1 * X 0 = X 2 ∧ X 1 * X 2 - X 2 * X 1 = X 0 ∧
    X 2 * X 0 - X 0 * X 2 = X 1 := by
  obtain ⟨n, hn⟩ := hj
  obtain ⟨l, rfl | rfl⟩ := n.even_or_odd'
  · obtain ⟨X, h1, h2, h3⟩ := SU2Real.gens_even (j := j) (l := l) (by push_cast at hn; linarith)
    obtain ⟨Y, h4, h5, h6, h7, h8, -⟩ := C37_representation l
    obtain rfl := Except.ok.inj (h1.symm.trans h4)
    rw [h3]
    exact ⟨X, h2, h5, h6, h7, h8⟩
  · obtain ⟨h1, h2⟩ := SU2Real.gens_odd hn
    rw [h2]
    refine ⟨_, h1, fun a => ?_, ?_, ?_, ?_⟩
    · rw [← SU2Real.realify_star, SU2.skew, SU2Real.realify_neg]
    · rw [← SU2Real.realify_mul, ← SU2Real.realify_mul, ← SU2Real.realify_sub, SU2.comm01]
    · rw [← SU2Real.realify_mul, ← SU2Real.realify_mul, ← SU2Real.realify_sub, SU2.comm12]
    · rw [← SU2Real.realify_mul, ← SU2Real.realify_mul, ← SU2Real.realify_sub, SU2.comm20]

/-- C66: on half integers that are not integers the matrices are the complex ones of `SU2(2 * j)`
read over the reals: the entry `x + i y` becomes the block `[[x, -y], [y, x]]`. -/
theorem C66_blocks (j : ℚ) (l : ℕ) (hj : 2 * j = ((2 * l + 1 : ℕ) : ℚ)) :
    SU2Real.dim j = (2 * l + 1 + 1) * 2 ∧
    ∃ X : Fin 3 → Matrix (Fin ((2 * l + 1 + 1) * 2)) (Fin ((2 * l + 1 + 1) * 2)) ℝ,
      SU2Real.gens j = .ok ⟨_, X⟩ ∧ ∀ a r c,
        X a (finProdFinEquiv (r, 0)) (finProdFinEquiv (c, 0)) = (SU2.gens (2 * l + 1) a r c).re ∧
        X a (finProdFinEquiv (r, 0)) (finProdFinEquiv (c, 1)) = -(SU2.gens (2 * l + 1) a r c).im ∧
        X a (finProdFinEquiv (r, 1)) (finProdFinEquiv (c, 0)) = (SU2.gens (2 * l + 1) a r c).im ∧
        X a (finProdFinEquiv (r, 1)) (finProdFinEquiv (c, 1)) = (SU2.gens (2 * l + 1) a r c).re := by
  obtain ⟨h1, h2⟩ := SU2Real.gens_odd hj
  exact ⟨h2, _, h1, fun a r c => by simp [SU2Real.realify_prod]⟩

/-- C66: the selection rule of `SU2Real` never raises on half integers and lists `j₃` exactly when
`j₁, j₂, j₃` satisfy the triangle inequalities and have an integer sum. -/
theorem C66_selection {j₁ j₂ : ℚ} {n₁ n₂ : ℕ} (h₁ : 2 * j₁ = n₁) (h₂ : 2 * j₂ = n₂) :
    ∃ L, SU2Real.mul j₁ j₂ = .ok L ∧ L.Nodup ∧ ∀ j₃, j₃ ∈ L ↔ ∃ n₃ : ℕ, 2 * j₃ = n₃ ∧ Triangle n₁ n₂ n₃ := by
  refine ⟨_, SU2Real.mul_eq h₁ h₂, ?_, ?_⟩
  · exact (SU2.mulL_nodup _ _).map fun a b h => by
      have : (a : ℚ) = b := by linarith [show (a : ℚ) / 2 = b / 2 from h]
      exact_mod_cast this
  · intro j₃
    rw [List.mem_map]
    constructor
    · rintro ⟨k, hk, rfl⟩
      exact ⟨k, by ring, triangle_iff.1 hk⟩
    · rintro ⟨k, h, hk⟩
      exact ⟨k, triangle_iff.2 hk, by linarith⟩

/-- C66 finding: unlike for the classes of C41, the list `rep1 * rep2` does not show the multiplicity
of the irreps of half integer spin, which have real dimension `2 * (2 j + 1)`: its dimensions do not
sum to the product. -/
theorem C66_multiplicity_hidden : SU2Real.mul (1 / 2) (1 / 2) = .ok [0, 1] ∧
    ([0, 1].map SU2Real.dim).sum = 4 ∧ SU2Real.dim (1 / 2) * SU2Real.dim (1 / 2) = 16 := by
  decide +kernel

example : ∃ n : ℕ, 2 * (3 / 2 : ℚ) = n := ⟨3, by norm_num⟩
example : SU2Real.dim (3 / 2) = 8 := by decide +kernel

end LieNN.Props
