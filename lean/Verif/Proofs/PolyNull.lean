import Mathlib.Algebra.MvPolynomial.Equiv
import Mathlib.Algebra.MvPolynomial.Funext
import Mathlib.MeasureTheory.Constructions.Pi
import Mathlib.MeasureTheory.Measure.Lebesgue.Basic
import Mathlib.Topology.Algebra.MvPolynomial
import Mathlib.Analysis.Complex.Basic
/-!
# The real zeros of a non-zero complex polynomial have Lebesgue measure zero
-/
namespace LieNN

open MeasureTheory

theorem measurableSet_zeros {N : ℕ} (P : MvPolynomial (Fin N) ℂ) :
    MeasurableSet {w : Fin N → ℝ | MvPolynomial.eval (fun l => ((w l : ℝ) : ℂ)) P = 0} := by
  apply IsClosed.measurableSet
  refine isClosed_eq ?_ continuous_const
  exact (MvPolynomial.continuous_eval P).comp
    (continuous_pi fun l => Complex.continuous_ofReal.comp (continuous_apply l))

theorem volume_zeros {N : ℕ} (P : MvPolynomial (Fin N) ℂ) (hP : P ≠ 0) :
    volume {w : Fin N → ℝ | MvPolynomial.eval (fun l => ((w l : ℝ) : ℂ)) P = 0} = 0 := by
  induction N with
  | zero =>
    have : {w : Fin 0 → ℝ | MvPolynomial.eval (fun l => ((w l : ℝ) : ℂ)) P = 0} = ∅ := by
      ext w
      simp only [Set.mem_setOf_eq, Set.mem_empty_iff_false, iff_false]
      intro h
      apply hP
      rw [MvPolynomial.eq_C_of_isEmpty P] at h ⊢
      rw [MvPolynomial.eval_C] at h
      rw [h, map_zero]
    rw [this, measure_empty]
  | succ N ih =>
    set S := {w : Fin (N + 1) → ℝ | MvPolynomial.eval (fun l => ((w l : ℝ) : ℂ)) P = 0} with hS
    set Q := MvPolynomial.finSuccEquiv ℂ N P with hQ
    have hQ0 : Q ≠ 0 := by
      rw [hQ]
      exact (EmbeddingLike.map_ne_zero_iff).2 hP
    let e := MeasurableEquiv.piFinSuccAbove (fun _ : Fin (N + 1) => ℝ) 0
    have he : MeasurePreserving e volume volume :=
      volume_preserving_piFinSuccAbove (fun _ : Fin (N + 1) => ℝ) 0
    have hev : ∀ (x : ℝ) (y : Fin N → ℝ),
        MvPolynomial.eval (fun l => (((Fin.cons x y : Fin (N + 1) → ℝ) l : ℝ) : ℂ)) P =
          MvPolynomial.eval (fun l => ((y l : ℝ) : ℂ)) (Q.eval (MvPolynomial.C (x : ℂ))) := by
      intro x y
      have h1 : (fun l => (((Fin.cons x y : Fin (N + 1) → ℝ) l : ℝ) : ℂ)) =
          Fin.cons (x : ℂ) (fun l => ((y l : ℝ) : ℂ)) := by
        funext l
        refine Fin.cases ?_ (fun l => ?_) l <;> simp
      rw [h1, MvPolynomial.eval_eq_eval_mv_eval', Polynomial.eval_map, Polynomial.eval,
        Polynomial.hom_eval₂, ← hQ]
      simp
    have hpre : S = e ⁻¹' (e.symm ⁻¹' S) := by
      ext w; simp
    have hm : MeasurableSet (e.symm ⁻¹' S) := e.symm.measurable (measurableSet_zeros P)
    rw [hpre, he.measure_preimage hm.nullMeasurableSet]
    show (volume.prod volume) _ = 0
    rw [Measure.measure_prod_null hm]
    have hfin : ({x : ℝ | Q.eval (MvPolynomial.C (x : ℂ)) = 0}).Finite := by
      have h1 : (Q.roots.toFinset : Set (MvPolynomial (Fin N) ℂ)).Finite := Finset.finite_toSet _
      refine (h1.preimage (f := fun x : ℝ => (MvPolynomial.C (x : ℂ) : MvPolynomial (Fin N) ℂ))
        ?_).subset ?_
      · intro x _ y _ hxy
        exact Complex.ofReal_injective (MvPolynomial.C_injective _ _ hxy)
      · intro x hx
        simpa [Polynomial.mem_roots hQ0] using hx
    have hae : ∀ᵐ x : ℝ, Q.eval (MvPolynomial.C (x : ℂ)) ≠ 0 := by
      rw [ae_iff]
      simpa using hfin.measure_zero volume
    filter_upwards [hae] with x hx
    have h2 := ih _ hx
    refine Eq.trans ?_ h2
    congr 1
    ext y
    simp only [Set.mem_preimage, Set.mem_setOf_eq, hS]
    rw [← hev x y]
    have : e.symm (x, y) = (Fin.cons x y : Fin (N + 1) → ℝ) := by
      funext l
      refine Fin.cases ?_ (fun l => ?_) l
      · simp [e, MeasurableEquiv.piFinSuccAbove]
      · simp [e, MeasurableEquiv.piFinSuccAbove]
    rw [this]

end LieNN
