import Verif.Proofs.TensorPowerSU2
import Verif.Proofs.TensorPowerChar
import Verif.Proofs.TensorPowerExample
import Verif.Model.Iter
/-!
# C96: `tensor_power` of irreps, `MulIrrep`s and `ReducedRep`s
-/
namespace LieNN.Props

open Spec IrRep

variable {n h : ℕ} {T : Table n h}

/-! ## Any table -/

/-- C96: for every exponent `N ≥ 0` `tensor_power` returns, and when the tolerances of
`tensor_product` only fire on exact equalities the object acts by the `N`-fold Kronecker power. The
overloads that exchange their arguments (C35) do no harm here. -/
theorem C96_power (hn : n ≠ 0) (hT : Equivariant T) (hg : ∀ i j : T.Ir, GoodPair i j) {t : T.Ir}
    (ht : IsTrivialLabel t) {x : IrRep T} {d : ℕ} {R : Rep n h d} (hx : ActsAs x d R)
    (hA : (T.rep t).A = R.A) (he : PowExact x (tab t)) (N : ℕ) :
    ∃ fuel s, ∃ S : Rep n h (d ^ N), tensorPower fuel (.ok t) x N = some (.ok s) ∧
      ActsAs s (d ^ N) S ∧ S.A = R.A ∧ (IsRep R → IsRep S) ∧
      ∀ c k g, R.expMap c k = .ok g →
        ∃ g', S.expMap c k = .ok g' ∧ (⟨d ^ N, d ^ N, g'⟩ : SMat) = kronPow ⟨d, d, g⟩ N := by
  obtain ⟨s, hs, e, S, hS, hp⟩ := loop_pow hn hT hg he N N (isPow_one hx) (isPow_zero ht hA)
    Nat.lt_two_pow_self
  obtain ⟨e', S', heq, he', hA', hr, -, hg'⟩ := hp
  cases heq
  subst he'
  refine ⟨N + 1, s, S, ?_, hS, hA', hr, hg'⟩
  rw [tensorPower, createTrivial_ok (acts_shaped (actsAs_asRed hn hx))]
  exact hs

/-- C96 (multiplicities): for every function on labels that is multiplicative on the products of the
table, the sum over the blocks of the `N`-th power is the `N`-th power of the sum; no hypothesis on
the tolerances. -/
theorem C96_multiplicative (hg : ∀ i j : T.Ir, GoodPair i j) {M : Type*} [CommSemiring M]
    (f : T.Ir → M)
    (hf : ∀ i j, f i * f j = ((T.prod i j).map fun k => ((T.cg i j k).length : M) * f k).sum)
    {t : T.Ir} (ht : f t = 1) {x : IrRep T} (hx : Shaped x) (N : ℕ) :
    ∃ fuel s, tensorPower fuel (.ok t) x N = some (.ok s) ∧ total s f = total x f ^ N := by
  obtain ⟨s, hs, -, h⟩ := loop_total hf hg hx (t := tab t) trivial (by simp [total, blocksOf, ht]) N N
    Nat.lt_two_pow_self
  refine ⟨N + 1, s, ?_, h⟩
  rw [tensorPower, createTrivial_ok hx]
  exact hs

/-- C96 (zero): the zeroth power is the trivial irrep, whatever the argument. -/
theorem C96_zero {x : IrRep T} (hx : Shaped x) (t : T.Ir) :
    tensorPower 1 (.ok t) x 0 = some (.ok (tab t)) := by
  rw [tensorPower, createTrivial_ok hx]
  simp [tensorPowerLoop]

/-- C96 (classes): every power but the zeroth is a `ReducedRep`, also of a `TabulatedIrrep`. -/
theorem C96_classes (hg : ∀ i j : T.Ir, GoodPair i j) (t : T.Ir) {x : IrRep T} (hx : Shaped x)
    (N : ℕ) (hN : N ≠ 0) : ∃ fuel r, tensorPower fuel (.ok t) x N = some (.ok (red r)) := by
  have step (a b : ℕ) (y s : IrRep T) (hy : Shaped y) (hs : Shaped s) :
      ∃ r, tensorProduct y s = .ok r ∧ Shaped (red r) ∧ (a + b = 0 ∨ ∃ r', red r = red r') := by
    obtain ⟨r, hr, hsh⟩ := tp_run hg hy hs
    exact ⟨r, hr, hsh, .inr ⟨r, rfl⟩⟩
  obtain ⟨s, hs, -, h⟩ := loop_spec (fun _ y => Shaped y)
    (fun b y => Shaped y ∧ (b = 0 ∨ ∃ r, y = red r))
    (fun a b y s hy hs => step a b y s hy hs.1)
    (fun a y hy => tp_run hg hy hy) N x (tab t) 1 0 N hx ⟨trivial, .inl rfl⟩ Nat.lt_two_pow_self
  obtain ⟨r, rfl⟩ := h.resolve_left (by omega)
  refine ⟨N + 1, r, ?_⟩
  rw [tensorPower, createTrivial_ok hx]
  exact hs

/-- C96 (negative exponents): the loop never returns. -/
theorem C96_negative (hg : ∀ i j : T.Ir, GoodPair i j) (t : T.Ir) {x : IrRep T} (hx : Shaped x)
    (N : ℤ) (hN : N < 0) (fuel : ℕ) : tensorPower fuel (.ok t) x N = none := by
  rw [tensorPower, createTrivial_ok hx]
  exact loop_neg Shaped (fun x y hx hy => tp_run hg hx hy) fuel _ _ hN hx trivial

/-- C96 (no blocks): a `ReducedRep` without blocks raises `IndexError` for every exponent, zero
included, before any product. -/
theorem C96_no_blocks (triv : Py T.Ir) (r : ReducedRep T) (hr : r.irreps = []) (N : ℤ) (fuel : ℕ) :
    tensorPower fuel triv (red r) N = some (.error .indexError) := by
  rw [tensorPower, createTrivial_nil _ _ hr]

/-- C96 (trivial irrep): an exception in `create_trivial` of the table is the exception of
`tensor_power`. -/
theorem C96_trivial_error (e : PyErr) {x : IrRep T} (hx : Shaped x) (N : ℤ) (fuel : ℕ) :
    tensorPower fuel (.error e) x N = some (.error e) := by
  cases x with
  | tab i => rfl
  | mul m => rfl
  | red r => rw [tensorPower, createTrivial_red _ _ hx.1]; rfl

/-- C96 (the tolerances, violated): without exactness the first power of an object need not act as
the object. All hypotheses of `C96_power` but `PowExact` hold. -/
theorem C96_first_power_false : ∃ (x s : IrRep charT) (R : Rep 1 1 2),
    Equivariant charT ∧ (∀ i j : ℤ, GoodPair (T := charT) i j) ∧
    IsTrivialLabel (T := charT) (0 : ℤ) ∧ (charT.rep (0 : ℤ)).A = R.A ∧ ActsAs x 2 R ∧
    tensorPower 1 (.ok (0 : ℤ)) x 1 = some (.ok s) ∧ ¬ ActsAs s 2 R := by
  refine ⟨red charN, red charR, charNR, fun i j => charT_isCG i j, charT_good, ⟨rfl, ?_, ?_⟩, rfl,
    charN_acts, charN_power, fun hbad => ?_⟩
  · intro a
    funext i j
    show Complex.I * ((0 : ℤ) : ℂ) = 0
    simp
  · intro a
    ext i j
    rw [Subsingleton.elim (α := Fin 1) i j]
    refine Eq.trans ?_ (Matrix.one_apply_eq _).symm
    show (((0 : ℤ).negOnePow : ℤ) : ℂ) = 1
    simp
  · obtain ⟨e, he⟩ := acts_unique charRR_acts hbad
    have hX := congrArg (fun (R : Rep 1 1 2) => R.X 0 0 1) he
    change (0 : ℂ) = Complex.I / 10 ^ 9 at hX
    have h10 : (10 : ℂ) ^ 9 ≠ 0 := by norm_num
    have := (div_eq_zero_iff.1 hX.symm).resolve_right h10
    exact Complex.I_ne_zero this

/-! ## `SU2`, without hypotheses -/

/-- C96 (`SU2`): for every `j ≥ 1` the roundings in all powers of `SU2(j)` are exact, so that
`tensor_power(SU2(j), N)` returns for every `N ≥ 0` an object that acts by the `N`-fold Kronecker
power of `SU2(j)`. -/
theorem C96_su2 (j : ℕ) (hj : 1 ≤ j) (N : ℕ) :
    ∃ fuel s, ∃ S : Rep 3 0 ((j + 1) ^ N),
      tensorPower (T := SU2.table) fuel SU2.iterator.createTrivial (tab j) N = some (.ok s) ∧
      ActsAs s ((j + 1) ^ N) S ∧ IsRep S ∧
      ∀ c k g, (SU2.rep j).expMap c k = .ok g →
        ∃ g', S.expMap c k = .ok g' ∧
          (⟨(j + 1) ^ N, (j + 1) ^ N, g'⟩ : SMat) = kronPow ⟨j + 1, j + 1, g⟩ N := by
  have ht : SU2.iterator.createTrivial = .ok 0 := by decide +kernel
  rw [ht]
  obtain ⟨fuel, s, S, h1, h2, -, h3, h4⟩ := C96_power (T := SU2.table) (by norm_num)
    SU2.table_equivariant SU2.table_good SU2.triv_label (x := tab j) (R := SU2.rep j) rfl rfl
    (SU2.powExact (by omega) (SU2.pRep_tab j) (SU2.pRes_triv rfl j)) N
  exact ⟨fuel, s, S, h1, h2, h3 (SU2.isRep j), h4⟩

/-- C96 (`SU2`, with multiplicity): the same for `MulIrrep(m, SU2(j))`, `m ≥ 1`. -/
theorem C96_su2_mul (m j : ℕ) (hj : 1 ≤ j) {d : ℕ} {R : Rep 3 0 d}
    (hR : ActsAs (T := SU2.table) (mul ⟨m, j⟩) d R) (N : ℕ) :
    ∃ fuel s, ∃ S : Rep 3 0 (d ^ N),
      tensorPower (T := SU2.table) fuel SU2.iterator.createTrivial (mul ⟨m, j⟩) N = some (.ok s) ∧
      ActsAs s (d ^ N) S ∧ (IsRep R → IsRep S) ∧
      ∀ c k g, R.expMap c k = .ok g →
        ∃ g', S.expMap c k = .ok g' ∧ (⟨d ^ N, d ^ N, g'⟩ : SMat) = kronPow ⟨d, d, g⟩ N := by
  have ht : SU2.iterator.createTrivial = .ok 0 := by decide +kernel
  rw [ht]
  have hA : SU2.algebra = R.A := hR.1
  obtain ⟨fuel, s, S, h1, h2, -, h3, h4⟩ := C96_power (T := SU2.table) (by norm_num)
    SU2.table_equivariant SU2.table_good SU2.triv_label hR hA
    (SU2.powExact (by omega) (SU2.pRep_mul hR) (SU2.pRes_triv hA j)) N
  exact ⟨fuel, s, S, h1, h2, h3, h4⟩

/-- C96 (`SU2`, multiplicities): in the `N`-th power of any object `x` the label `k` occurs as often
as the weight `k` minus the weight `k + 2` in the `N`-th power of the character of `x`. -/
theorem C96_su2_multiplicity {x : IrRep SU2.table} (hx : Shaped x) (N : ℕ) :
    ∃ fuel s, tensorPower fuel SU2.iterator.createTrivial x N = some (.ok s) ∧
      ∀ k : ℕ, (timesIn (T := SU2.table) k s : ℤ) =
        (total x su2Char ^ N).coeff (k : ℤ) - (total x su2Char ^ N).coeff ((k : ℤ) + 2) := by
  have ht : SU2.iterator.createTrivial = .ok 0 := by decide +kernel
  rw [ht]
  have hf := SU2.mult_chi
  unfold Mult at hf
  have h0 := SU2.chi_zero
  generalize hc : su2Char = f at hf h0
  obtain ⟨fuel, s, h1, h2⟩ := C96_multiplicative (T := SU2.table) SU2.table_good
    (M := LaurentPolynomial ℤ) f hf (t := (0 : ℕ)) h0 hx N
  subst hc
  refine ⟨fuel, s, h1, fun k => ?_⟩
  rw [SU2.timesIn_eq, h2]

/-- C96 (spin one half): `SU2(k)` occurs `C(N, (N+k)/2) - C(N, (N+k)/2 + 1)` times in the `N`-th
power of `SU2(1)` when `N + k` is even, and not at all when it is odd. -/
theorem C96_su2_one (N : ℕ) :
    ∃ fuel s, tensorPower (T := SU2.table) fuel SU2.iterator.createTrivial (tab (1 : ℕ)) N =
        some (.ok s) ∧
      ∀ k : ℕ, (timesIn (T := SU2.table) k s : ℤ) =
        if (N + k) % 2 = 0 then (N.choose ((N + k) / 2) : ℤ) - N.choose ((N + k) / 2 + 1) else 0 := by
  obtain ⟨fuel, s, h1, h2⟩ := C96_su2_multiplicity (x := tab (1 : ℕ)) trivial N
  refine ⟨fuel, s, h1, fun k => ?_⟩
  rw [h2 k]
  have e : total (tab (1 : ℕ) : IrRep SU2.table) su2Char = su2Char 1 := by
    show ((1 : ℕ) : LaurentPolynomial ℤ) * su2Char 1 + 0 = _
    rw [Nat.cast_one, one_mul, add_zero]
  rw [e, SU2.coeff_chi_one_pow]
  have := SU2.coeff_chi_one_pow N (k + 2)
  push_cast at this
  rw [this]
  have e1 : (N + (k + 2)) % 2 = (N + k) % 2 := by omega
  have e2 : (N + (k + 2)) / 2 = (N + k) / 2 + 1 := by omega
  rw [e1, e2]
  split_ifs <;> simp

/-- C96 (invariants): the trivial irrep occurs in the even powers of `SU2(1)` as often as the Catalan
numbers tell. -/
theorem C96_catalan (m : ℕ) :
    ∃ fuel s, tensorPower (T := SU2.table) fuel SU2.iterator.createTrivial (tab (1 : ℕ))
        ((2 * m : ℕ) : ℤ) = some (.ok s) ∧ timesIn (T := SU2.table) (0 : ℕ) s = catalan m := by
  obtain ⟨fuel, s, h1, h2⟩ := C96_su2_one (2 * m)
  refine ⟨fuel, s, h1, ?_⟩
  have := h2 0
  rw [if_pos (by omega), show (2 * m + 0) / 2 = m by omega, ← SU2.catalan_eq] at this
  exact_mod_cast this

/-! ## Instances -/

/-- The hypotheses of `C96_power` hold for the cube of `SU2(2)`, with a `MulIrrep` for `C96_su2_mul`. -/
example : PowExact (tab (2 : ℕ) : IrRep SU2.table) (tab (0 : ℕ)) ∧
    IsTrivialLabel (T := SU2.table) (0 : ℕ) ∧
    ActsAs (T := SU2.table) (mul ⟨3, (2 : ℕ)⟩) (3 * 3) (copies 3 (SU2.rep 2)) :=
  ⟨SU2.powExact (by omega) (SU2.pRep_tab 2) (SU2.pRes_triv rfl 2), SU2.triv_label,
    rfl, (MulIr.gens_ok (by norm_num) (by norm_num) _).trans
      (congrArg _ (List.ofFn_eq_map (f := _)).symm), rfl⟩

/-- Four spins one half: two singlets, three triplets, one quintuplet. -/
example : ∃ fuel s, tensorPower (T := SU2.table) fuel SU2.iterator.createTrivial (tab (1 : ℕ)) 4 =
      some (.ok s) ∧ timesIn (T := SU2.table) (0 : ℕ) s = 2 ∧ timesIn (T := SU2.table) (2 : ℕ) s = 3 ∧
      timesIn (T := SU2.table) (4 : ℕ) s = 1 ∧ timesIn (T := SU2.table) (1 : ℕ) s = 0 := by
  obtain ⟨fuel, s, h1, h2⟩ := C96_su2_one 4
  refine ⟨fuel, s, h1, ?_, ?_, ?_, ?_⟩
  · have := h2 0; norm_num [Nat.choose] at this; exact_mod_cast this
  · have := h2 2; norm_num [Nat.choose] at this; exact_mod_cast this
  · have := h2 4; norm_num [Nat.choose] at this; exact_mod_cast this
  · have := h2 1; norm_num [Nat.choose] at this; exact_mod_cast this

/-- A multiplicative function on `SU2`, with natural numbers as values: the dimension. The `N`-th
power of `2 x SU2(3)` has dimension `8 ^ N`. -/
example (N : ℕ) : ∃ fuel s, tensorPower (T := SU2.table) fuel (.ok (0 : ℕ)) (mul ⟨2, (3 : ℕ)⟩) N =
    some (.ok s) ∧ total s (fun j : ℕ => j + 1) = 8 ^ N := by
  obtain ⟨fuel, s, h1, h2⟩ := C96_multiplicative (T := SU2.table) SU2.table_good (M := ℕ)
    (fun j : ℕ => j + 1) (by
      intro i j
      have e : ((SU2.table.prod i j).map fun k : ℕ => (SU2.table.cg i j k).length * (k + 1)) =
          (SU2.mulL i j).map fun k => k + 1 := by
        rw [SU2.table_prod i j]
        refine List.map_congr_left fun k hk => ?_
        have : (SU2.table.cg i j k).length = 1 := by rw [SU2.table_cg hk]; rfl
        rw [this, one_mul]
      refine Eq.trans ?_ (congrArg List.sum e).symm
      exact (SU2.mulL_sum i j).symm) (t := (0 : ℕ)) rfl (x := mul ⟨2, (3 : ℕ)⟩) trivial N
  exact ⟨fuel, s, h1, h2⟩

end LieNN.Props
