import Verif.Model.ChangeBasis
import Verif.Spec.TensorBasis
import Verif.Proofs.TFOrth
import Verif.Model.SO3
import Mathlib.Data.Matrix.Basis
/-!
# The overloads of `change_basis`
-/
namespace LieNN.Props

open Matrix LieNN.Spec

variable {n h : ℕ} {T : Table n h}

/-- **C76.** `change_basis` of a `ReducedRep` by an invertible matrix does not raise, keeps algebra and
irreps, and the generators of the result are those of the generic overload. -/
theorem C76_reduced {r : ReducedRep T} (hne : r.irreps ≠ []) (hmul : ∀ m ∈ r.irreps, m.mul ≠ 0)
    {q : Matrix (Fin r.dim) (Fin r.dim) ℂ} (hQ : r.q = .ok q) (hq : IsUnit q)
    {R : Rep n h r.dim} (hR : ActsG r R) {P : Matrix (Fin r.dim) (Fin r.dim) ℂ} (hP : IsUnit P) :
    ∃ r', r.changeBasis ⟨r.dim, r.dim, P⟩ = .ok r' ∧ r'.A = r.A ∧ r'.irreps = r.irreps ∧
      ActsG r' (R.changeBasis P P⁻¹) := by
  have hA : ActsG r (blockRep r.A r.irreps q) :=
    ⟨fun hn => r.continuousGenerators_ok hn hne hmul hQ hq, r.discreteGenerators_ok hne hmul hQ hq⟩
  obtain ⟨e1, e2⟩ := actsG_unique hR hA
  have key : r.changeBasis ⟨r.dim, r.dim, P⟩ = .ok ⟨r.A, r.irreps, some ⟨r.dim, r.dim, P * q⟩⟩ := by
    unfold ReducedRep.changeBasis
    unfold ReducedRep.q at hQ
    cases hr : r.Q with
    | none =>
      rw [hr] at hQ
      obtain rfl : (1 : Matrix (Fin r.dim) (Fin r.dim) ℂ) = q := Except.ok.inj hQ
      rw [Matrix.mul_one]
    | some Q₀ =>
      rw [hr] at hQ
      rw [SMat.view_ok hQ]
      show (SMat.mulP _ _ >>= fun Q => _) = _
      rw [SMat.mulP_mk]
      rfl
  refine ⟨_, key, rfl, rfl, ?_⟩
  set r' : ReducedRep T := ⟨r.A, r.irreps, some ⟨r.dim, r.dim, P * q⟩⟩ with hr'
  have hq' : r'.q = .ok (P * q) := SMat.view_mk _
  have hu : IsUnit (P * q) := hP.mul hq
  have hinv : (P * q)⁻¹ = q⁻¹ * P⁻¹ := Matrix.mul_inv_rev _ _
  constructor
  · intro hn
    refine (r'.continuousGenerators_ok hn hne hmul hq' hu).trans ?_
    congr 2
    funext a
    congr 1
    show P * q * diagMat _ r.irreps * (P * q)⁻¹ = P * R.X a * P⁻¹
    rw [hinv, e1]
    simp only [blockRep, Matrix.mul_assoc]
  · refine (r'.discreteGenerators_ok hne hmul hq' hu).trans ?_
    congr 2
    funext a
    congr 1
    show P * q * diagMat _ r.irreps * (P * q)⁻¹ = P * R.H a * P⁻¹
    rw [hinv, e2]
    simp only [blockRep, Matrix.mul_assoc]

/-- **C76.** Two changes of basis of a `ReducedRep` are one change of basis by the product. -/
theorem C76_compose (r : ReducedRep T) {a b : ℕ} (P₁ : Matrix (Fin a) (Fin r.dim) ℂ)
    (P₂ : Matrix (Fin b) (Fin a) ℂ) {r₁ : ReducedRep T} (h1 : r.changeBasis ⟨a, r.dim, P₁⟩ = .ok r₁) :
    r₁.changeBasis ⟨b, a, P₂⟩ = r.changeBasis ⟨b, r.dim, P₂ * P₁⟩ := by
  unfold ReducedRep.changeBasis at h1 ⊢
  cases hr : r.Q with
  | none =>
    rw [hr] at h1
    obtain rfl := Except.ok.inj h1
    show (SMat.mulP _ _ >>= fun Q => _) = _
    rw [SMat.mulP_mk]
    rfl
  | some Q₀ =>
    rw [hr] at h1
    obtain ⟨Q₁, g1, g2⟩ := IArr.bind_ok_inv h1
    obtain rfl := Except.ok.inj g2
    unfold SMat.mulP at g1
    split_ifs at g1 with hc
    obtain rfl := Except.ok.inj g1
    obtain ⟨p, c, M⟩ := Q₀
    dsimp only at hc
    subst hc
    show (SMat.mulP ⟨b, a, P₂⟩ ⟨a, c, P₁ * M.submatrix (Fin.cast rfl) id⟩ >>= fun Q => _) =
      (SMat.mulP ⟨b, _, P₂ * P₁⟩ ⟨_, c, M⟩ >>= fun Q => _)
    rw [SMat.mulP_mk, SMat.mulP_mk]
    have : M.submatrix (Fin.cast (rfl : r.dim = r.dim)) id = M := by ext; rfl
    rw [this, Matrix.mul_assoc]

/-- **C76.** `change_basis` of a `ReducedRep` does not check the matrix.  In the standard basis the
generators of the result can be computed exactly when the matrix is square, of the dimension of the
representation, and invertible; otherwise they raise `LinAlgError` or `ValueError`. -/
theorem C76_unchecked {r : ReducedRep T} (hn : n ≠ 0) (hne : r.irreps ≠ []) (hmul : ∀ m ∈ r.irreps, m.mul ≠ 0)
    (hQ : r.Q = none) (P : SMat) :
    ∃ r', r.changeBasis P = .ok r' ∧
      ((∃ p, P = ⟨r.dim, r.dim, p⟩ ∧ IsUnit p) → ∃ L, r'.continuousGenerators = .ok L) ∧
      ((¬ ∃ p, P = ⟨r.dim, r.dim, p⟩ ∧ IsUnit p) → r'.continuousGenerators = .error .valueError) := by
  refine ⟨⟨r.A, r.irreps, some P⟩, by unfold ReducedRep.changeBasis; rw [hQ], ?_, ?_⟩
  · rintro ⟨p, rfl, hp⟩
    exact ⟨_, ReducedRep.continuousGenerators_ok (r := ⟨r.A, r.irreps, some ⟨r.dim, r.dim, p⟩⟩) hn hne hmul
      (SMat.view_mk _) hp⟩
  · intro hP
    set r' : ReducedRep T := ⟨r.A, r.irreps, some P⟩ with hr'
    have hg : ∀ i, i < n → r'.genAt (fun ir => (T.rep ir).X) i = .error .valueError := by
      intro i hi
      unfold ReducedRep.genAt
      rw [show r'.irreps = r.irreps from rfl, ReducedRep.sumAt_ok hne hmul _ hi]
      show (SMat.mulP P _ >>= fun QX => _) = _
      unfold SMat.mulP
      split_ifs with hc
      · show (SMat.invP P >>= fun iQ => _) = _
        unfold SMat.invP
        split_ifs with h1 h2
        · exfalso
          apply hP
          obtain ⟨a, b, M⟩ := P
          dsimp only at hc h1 h2
          subst hc
          subst h1
          exact ⟨M, rfl, h2⟩
        · rfl
        · rfl
      · rfl
    unfold ReducedRep.continuousGenerators
    have : (List.range n).mapM (fun i => r'.genAt (fun ir => (T.rep ir).X) i) = .error .valueError := by
      obtain ⟨k, rfl⟩ := Nat.exists_eq_succ_of_ne_zero hn
      rw [List.range_succ_eq_map, List.mapM_cons, hg 0 (by omega)]
      rfl
    rw [this]
    rfl

theorem stack_ofFn {k : ℕ} (hk : k ≠ 0) (f : Fin k → SMat) : ((do
    let Xs ← (.ok (List.ofFn f) : Py (List SMat))
    match Xs with
    | [] => .error .valueError
    | Xs => pure Xs) : Py (List SMat)) = .ok (List.ofFn f) := by
  obtain ⟨k, rfl⟩ := Nat.exists_eq_succ_of_ne_zero hk
  rw [List.ofFn_succ]
  rfl

/-- The block of one copy is the irrep. -/
theorem sumAt_one {p : ℕ} (ir : T.Ir) (Y : T.Gens p) {i : ℕ} (hi : i < p) :
    ReducedRep.sumAt [(⟨1, ir⟩ : MulIr T)] Y i = .ok ⟨T.dim ir, T.dim ir, Y ir ⟨i, hi⟩⟩ := by
  have hg : (⟨1, ir⟩ : MulIr T).genI Y i = .ok ⟨T.dim ir, T.dim ir, Y ir ⟨i, hi⟩⟩ := by
    unfold MulIr.genI MulIr.gens
    rw [if_neg (by omega)]
    have : (List.finRange p).mapM (fun a => directSumMats (List.replicate 1
        (⟨T.dim ir, T.dim ir, Y ir a⟩ : SMat))) =
        .ok ((List.finRange p).map fun a => (⟨T.dim ir, T.dim ir, Y ir a⟩ : SMat)) := mapM_ok fun a _ => rfl
    rw [this]
    simp only [bind, Except.bind, List.getElem?_map]
    rw [List.getElem?_eq_getElem (by simpa using hi)]
    simp
    rfl
  unfold ReducedRep.sumAt
  rw [List.mapM_cons, hg]
  rfl

/-- **C76.** `change_basis` of a tabulated irrep by an invertible matrix: the generators of the result are
those of the generic overload, the algebra is the one of the irrep. -/
theorem C76_irrep (ir : T.Ir) {P : Matrix (Fin (T.dim ir)) (Fin (T.dim ir)) ℂ} (hP : IsUnit P) :
    (T.changeBasis ir ⟨_, _, P⟩).A = (T.rep ir).A ∧
      ActsG (T.changeBasis ir ⟨_, _, P⟩) ((T.rep ir).changeBasis P P⁻¹) := by
  have hg : ∀ {p : ℕ} (Y : T.Gens p) {i : ℕ} (hi : i < p), (T.changeBasis ir ⟨_, _, P⟩).genAt Y i =
      .ok ⟨T.dim ir, T.dim ir, P * Y ir ⟨i, hi⟩ * P⁻¹⟩ := by
    intro p Y i hi
    unfold ReducedRep.genAt
    rw [show (T.changeBasis ir ⟨_, _, P⟩).irreps = [⟨1, ir⟩] from rfl, sumAt_one ir Y hi]
    show (SMat.mulP _ _ >>= fun QX => _) = _
    rw [SMat.mulP_mk]
    show (SMat.invP _ >>= fun iQ => _) = _
    rw [SMat.invP_mk hP]
    exact SMat.mulP_mk _ _
  refine ⟨rfl, ?_, ?_⟩
  · intro hn
    unfold ReducedRep.continuousGenerators
    have : (List.range n).mapM (fun i => (T.changeBasis ir ⟨_, _, P⟩).genAt (fun ir => (T.rep ir).X) i) =
        .ok (List.ofFn fun a : Fin n => (⟨_, _, P * (T.rep ir).X a * P⁻¹⟩ : SMat)) := by
      rw [← List.map_coe_finRange_eq_range, List.mapM_map, List.ofFn_eq_map]
      exact mapM_ok fun a _ => hg _ a.2
    rw [this]
    exact stack_ofFn hn _
  · unfold ReducedRep.discreteGenerators
    have e : (T.changeBasis ir ⟨_, _, P⟩).irreps = [⟨1, ir⟩] := rfl
    rw [e]
    dsimp only
    rcases Nat.eq_zero_or_pos h with h0 | h0
    · subst h0
      simp [MulIr.gens, bind, Except.bind]
      rfl
    · rw [MulIr.gens_ok (by omega) (by simp)]
      show (if _ then _ else _) = _
      rw [if_neg (by simp; omega), List.length_map, List.length_finRange,
        ← List.map_coe_finRange_eq_range, List.mapM_map, List.ofFn_eq_map]
      exact mapM_ok fun a _ => hg _ a.2

/-- **C76.** `change_basis` of a `MulIrrep` by an invertible matrix: the generators are `Q (1 ⊗ X) Q⁻¹`. -/
theorem C76_mul (m : MulIr T) (hm : m.mul ≠ 0) {P : Matrix (Fin m.dim) (Fin m.dim) ℂ} (hP : IsUnit P) :
    (m.changeBasis ⟨_, _, P⟩).A = (T.rep m.ir).A ∧
      ActsG (m.changeBasis ⟨_, _, P⟩) (⟨(T.rep m.ir).A, fun a => P * kron 1 ((T.rep m.ir).X a) * P⁻¹,
        fun a => P * kron 1 ((T.rep m.ir).H a) * P⁻¹⟩ : Rep n h m.dim) := by
  have hg : ∀ {p : ℕ} (Y : T.Gens p) {i : ℕ} (hi : i < p), (m.changeBasis ⟨_, _, P⟩).genAt Y i =
      .ok ⟨m.dim, m.dim, P * kron 1 (Y m.ir ⟨i, hi⟩) * P⁻¹⟩ := by
    intro p Y i hi
    unfold ReducedRep.genAt
    have : ReducedRep.sumAt (m.changeBasis ⟨_, _, P⟩).irreps Y i =
        .ok ⟨m.dim, m.dim, kron 1 (Y m.ir ⟨i, hi⟩)⟩ := by
      show ReducedRep.sumAt [m] Y i = _
      unfold ReducedRep.sumAt
      rw [List.mapM_cons, MulIr.genI_ok hm Y hi]
      rfl
    rw [this]
    show (SMat.mulP _ _ >>= fun QX => _) = _
    rw [SMat.mulP_mk]
    show (SMat.invP _ >>= fun iQ => _) = _
    rw [SMat.invP_mk hP]
    exact SMat.mulP_mk _ _
  refine ⟨rfl, ?_, ?_⟩
  · intro hn
    unfold ReducedRep.continuousGenerators
    have : (List.range n).mapM (fun i => (m.changeBasis ⟨_, _, P⟩).genAt (fun ir => (T.rep ir).X) i) =
        .ok (List.ofFn fun a : Fin n => (⟨_, _, P * kron 1 ((T.rep m.ir).X a) * P⁻¹⟩ : SMat)) := by
      rw [← List.map_coe_finRange_eq_range, List.mapM_map, List.ofFn_eq_map]
      exact mapM_ok fun a _ => hg _ a.2
    rw [this]
    exact stack_ofFn hn _
  · unfold ReducedRep.discreteGenerators
    have e : (m.changeBasis ⟨_, _, P⟩).irreps = [m] := rfl
    rw [e]
    dsimp only
    rcases Nat.eq_zero_or_pos h with h0 | h0
    · subst h0
      simp [MulIr.gens, bind, Except.bind]
      rfl
    · rw [MulIr.gens_ok (by omega) hm]
      show (if _ then _ else _) = _
      rw [if_neg (by simp; omega), List.length_map, List.length_finRange,
        ← List.map_coe_finRange_eq_range, List.mapM_map, List.ofFn_eq_map]
      exact mapM_ok fun a _ => hg _ a.2

/-! ## The hypotheses can be met -/

/-- A shear of the spin one irrep of `SO3` is invertible, not orthogonal, and changes the generators of
`1 + 1`, written with the block `2x1`, in a basis that is not the standard one. -/
example : ∃ (r : ReducedRep SO3.table) (q : Matrix (Fin r.dim) (Fin r.dim) ℂ), r.irreps ≠ [] ∧
    (∀ m ∈ r.irreps, m.mul ≠ 0) ∧ r.q = .ok q ∧ IsUnit q ∧ q ≠ 1 ∧ r.dim = 6 ∧
    ∃ R : Rep 3 0 r.dim, ActsG r R := by
  let q : Matrix (Fin 6) (Fin 6) ℂ := 1 + Matrix.single 0 1 1
  have hq : IsUnit q := by
    have : q * (1 - Matrix.single 0 1 1) = 1 := by
      show (1 + Matrix.single 0 1 1) * (1 - Matrix.single 0 1 1) = 1
      have hs : (Matrix.single 0 1 1 : Matrix (Fin 6) (Fin 6) ℂ) * Matrix.single 0 1 1 = 0 :=
        Matrix.single_mul_single_of_ne _ _ _ _ (by decide) _
      rw [mul_sub, mul_one, add_mul, hs, one_mul, add_zero, add_sub_cancel_right]
    exact ⟨⟨q, 1 - Matrix.single 0 1 1, this, mul_eq_one_comm.1 this⟩, rfl⟩
  let r : ReducedRep SO3.table := ⟨(SO3.rep 1).A, [⟨2, (1 : ℕ)⟩], some ⟨6, 6, q⟩⟩
  refine ⟨r, q, by simp [r], by simp [r], SMat.view_mk (p := 6) (q := 6) q, hq, ?_, rfl, blockRep r.A r.irreps q, ?_⟩
  · intro h
    have h' : q = (1 : Matrix (Fin 6) (Fin 6) ℂ) := h
    have := congrFun (congrFun h' 0) 1
    simp [q] at this
  · exact ⟨fun hn => ReducedRep.continuousGenerators_ok (r := r) hn (by simp [r]) (by simp [r])
      (SMat.view_mk (p := 6) (q := 6) q) hq, ReducedRep.discreteGenerators_ok (r := r) (by simp [r]) (by simp [r])
      (SMat.view_mk (p := 6) (q := 6) q) hq⟩

end LieNN.Props
