import Verif.Model.Stub
import Verif.Props.Scalar
import Verif.Props.SONAdj
import Verif.Proofs.Parse
import Mathlib.Data.List.Lex
/-!
# C101: the placeholders of `SON`, `SPN` and `SON_adjoint`
-/
namespace LieNN.Props

open Spec

/-- C101 (`is_trivial`, negative): whatever the labels, `is_trivial` of `SON` and `SPN` never answers `True`. -/
theorem C101_never_trivial (dimf : List ℤ → Py ℤ) (S : List ℤ) : Stub.isTrivial dimf S ≠ .ok true := by
  unfold Stub.isTrivial
  cases dimf S with
  | error e => simp [bind, Except.bind]
  | ok d =>
    simp only [bind, Except.bind, Stub.continuousGenerators, Stub.allEq]
    split <;> simp [pure, Except.pure]

/-- C101 (`SPN`): for the trivial representation, `is_scalar` answers `True`, `dim` is one, and `is_trivial` answers
`False`, without any exception. -/
theorem C101_spn_trivial (n : ℕ) (hn : 2 ≤ n) :
    Roots.isScalar (List.replicate n 0) = true ∧ Roots.dimSP (List.replicate n 0) = .ok 1 ∧
      Stub.isTrivial Roots.dimSP (List.replicate n 0) = .ok false := by
  have h1 : Roots.isScalar (List.replicate n 0) = true := by simp [Roots.isScalar]
  have h2 := (C97_spn (List.replicate n 0) (by simpa) (by simp [List.mem_replicate])).1 h1
  refine ⟨h1, h2, ?_⟩
  simp [Stub.isTrivial, h2, bind, Except.bind, Stub.continuousGenerators, Stub.allEq, pure, Except.pure]

/-- C101 for `SON`. -/
theorem C101_son_trivial (n : ℕ) (hn : 2 ≤ n) :
    Roots.isScalar (List.replicate n 0) = true ∧ Roots.dimSO (List.replicate n 0) = .ok 1 ∧
      Stub.isTrivial Roots.dimSO (List.replicate n 0) = .ok false := by
  have h1 : Roots.isScalar (List.replicate n 0) = true := by simp [Roots.isScalar]
  have h2 := (C97_son (List.replicate n 0) (by simpa) (by simp [List.mem_replicate])).1 h1
  refine ⟨h1, h2, ?_⟩
  simp [Stub.isTrivial, h2, bind, Except.bind, Stub.continuousGenerators, Stub.allEq, pure, Except.pure]

/-- C101 (what raises): reading `lie_dim` or a shape is an `AttributeError`, going through a product is a `TypeError`;
the exception `NotImplementedError` that the methods are about is raised only by `create_trivial`. -/
theorem C101_raises (S S' S'' : List ℤ) (k : ℕ) :
    Stub.lieDim (Stub.algebra S) = .error .attributeError ∧
    Stub.shapeAt (Stub.continuousGenerators S) k = .error .attributeError ∧
    Stub.shapeAt (Stub.clebschGordan S S' S'') k = .error .attributeError ∧
    Stub.iter (Stub.mul S S') = .error .typeError ∧
    Stub.createTrivial = .error .notImplemented :=
  ⟨rfl, rfl, rfl, rfl, rfl⟩

/-- C101 (`from_rep`): `GenericRep.from_rep` accepts every such irrep whose dimension is a non-negative number; the
result has neither a dimension nor a text. -/
theorem C101_from_rep (dimf : List ℤ → Py ℤ) (S : List ℤ) (d : ℕ) (hd : dimf S = .ok d) :
    ∃ r, Stub.fromRep dimf S = .ok r ∧ r.H = .val ⟨[0, d, d], []⟩ ∧ r.dim = .error .attributeError ∧
      r.repr = .error .attributeError ∧ r.isTrivial = .error .attributeError := by
  refine ⟨⟨.notImplementedClass, .notImplementedClass, .val ⟨[0, d, d], []⟩⟩, ?_, rfl, rfl, rfl, rfl⟩
  simp [Stub.fromRep, Stub.discreteGenerators, hd, bind, Except.bind, pure, Except.pure, pyAssert,
    Stub.algebra, Stub.continuousGenerators]

/-- C101 (`SON_adjoint`, negative): `repr(SON_adjoint(n))` raises for every `n`. -/
theorem C101_adjoint_repr (n : ℕ) : ∃ e, Stub.adjointRepr n = .error e := by
  unfold Stub.adjointRepr
  cases SONAdj.generators n with
  | error e => exact ⟨e, rfl⟩
  | ok X => exact ⟨_, rfl⟩

/-- C101: for every even `n` from four, where the generators themselves are fine, it is an `AttributeError`. -/
theorem C101_adjoint_repr_even (m : ℕ) (hm : 2 ≤ m) : Stub.adjointRepr (2 * m) = .error .attributeError := by
  obtain ⟨L, hL, -⟩ := C68_even hm
  rw [Stub.adjointRepr, hL]
  rfl

/-- C101 (`SON_adjoint.create_trivial`, negative): the result is not trivial: it has dimension `n`, and `is_trivial`
answers `False`. -/
theorem C101_adjoint_create_trivial (n : ℕ) (hn : 3 ≤ n) :
    ∃ r, Stub.adjointCreateTrivial n = .ok r ∧ r.dim = .ok n ∧ r.isTrivial = .ok false := by
  refine ⟨⟨Stub.algebra [], .val ⟨[0, n, n], []⟩, .val ⟨[0, n, n], []⟩⟩, ?_, rfl, ?_⟩
  · simp [Stub.adjointCreateTrivial, pyAssert, hn, bind, Except.bind, pure, Except.pure]
  · have h : n ≠ 1 := by omega
    simp [Stub.Generic.isTrivial, Stub.Generic.dim, Stub.shapeAt, Stub.shape, h, bind, Except.bind, pure,
      Except.pure]

/-- C101 (`__eq__`): two labels are equal exactly if they are the same tuple. -/
theorem C101_eq (S S' : List ℤ) : Stub.eq S S' = true ↔ S = S' := by
  induction S generalizing S' with
  | nil => cases S' <;> simp [Stub.eq]
  | cons a S ih => cases S' <;> simp [Stub.eq, ih]

/-- C101 (`__lt__`): the order is the lexicographic one. -/
theorem C101_lt (S S' : List ℤ) : Stub.lt S S' = true ↔ S < S' := by
  induction S generalizing S' with
  | nil => cases S' <;> simp [Stub.lt]
  | cons a S ih =>
    cases S' with
    | nil => simp [Stub.lt]
    | cons b S' =>
      rw [List.cons_lt_cons_iff, Stub.lt]
      split
      · next h => simp [ih, h]
      · next h => simp [h]

/-- C101 (`__lt__`, `__eq__`): a strict total order: exactly one of `<`, `==`, `>` holds, and `<` is transitive. -/
theorem C101_order (S S' S'' : List ℤ) :
    (Stub.lt S S' = true ∨ Stub.eq S S' = true ∨ Stub.lt S' S = true) ∧
    ¬ (Stub.lt S S' = true ∧ Stub.eq S S' = true) ∧ ¬ (Stub.lt S S' = true ∧ Stub.lt S' S = true) ∧
    (Stub.lt S S' = true → Stub.lt S' S'' = true → Stub.lt S S'' = true) := by
  simp only [C101_lt, C101_eq]
  refine ⟨lt_trichotomy S S', ?_, ?_, lt_trans⟩
  · rintro ⟨h, rfl⟩
    exact lt_irrefl _ h
  · rintro ⟨h, h'⟩
    exact lt_asymm h h'

/-- C101 (`from_string`): numerals between parentheses, separated by commas, are read as the tuple of the numbers,
whatever follows the closing parenthesis; unlike for `SUN` any numbers will do. -/
theorem C101_from_string {S : List ℤ} (hS : S ≠ []) {ts : List (List Char)} (hts : List.Forall₂ LabelInt S ts)
    (z : List Char) : Stub.fromString ('(' :: ([','].intercalate ts) ++ ')' :: z) = .ok S := by
  have hne : ts ≠ [] := by
    rintro rfl
    cases hts
    exact hS rfl
  have hr := Parse.reTuple_eq ts hne (fun t ht => by
    obtain ⟨j, -, hj⟩ := Parse.forall₂_right hts t ht
    exact (Parse.pyInt_label hj).2.2) z
  rw [Stub.fromString, hr.1]
  simp only [hr.2.1]
  exact Parse.mapM_of_forall₂ (f := Parse.pyInt) (fun a b h => (Parse.pyInt_label h).1) hts

example : Stub.isTrivial Roots.dimSP [0, 0] = .ok false := (C101_spn_trivial 2 (by decide)).2.2

example : Stub.lt [1, 2] [1, 3] = true ∧ Stub.lt [1] [1, 0] = true ∧ Stub.lt [2] [1, 5] = false := by decide

example : (Stub.fromString "(0,10)".toList).toOption = some [0, 10] ∧
    (Stub.fromString "0,1".toList).toOption = none := by decide

example : ∃ r, Stub.fromRep Roots.dimSP [0, 0] = .ok r ∧ r.dim = .error .attributeError := by
  obtain ⟨r, h1, -, h2, -⟩ := C101_from_rep Roots.dimSP [0, 0] 1 (C101_spn_trivial 2 (by decide)).2.1
  exact ⟨r, h1, h2⟩

end LieNN.Props
