import Verif.Model.SONAdj
import Verif.Proofs.PyMap
import Verif.Spec.SONAdj
import Mathlib.LinearAlgebra.Finsupp.LinearCombination
import Mathlib.Tactic.Linarith
import Mathlib.Data.Matrix.Basis
import Mathlib.LinearAlgebra.Span.Basic
import Mathlib.Tactic.Abel
import Mathlib.Tactic.Module
import Mathlib.Tactic.FinCases
/-!
# The matrices of `SON_adjoint`
-/
namespace LieNN.SONAdj

open Matrix Finset

/-- The matrix with the entry one at `(i, j)`. -/
def U (n i j : ℕ) : Matrix (Fin n) (Fin n) ℝ := Matrix.of fun a b => if (a : ℕ) = i ∧ (b : ℕ) = j then 1 else 0

theorem diff_ok {n i j k l : ℕ} (hi : i < n) (hj : j < n) (hk : k < n) (hl : l < n) :
    diff n i j k l = .ok (U n i j - U n k l) := by
  unfold diff E
  rw [if_pos ⟨hi, hj⟩, if_pos ⟨hk, hl⟩]
  rfl

theorem mapM_id_map {α β : Type} (f : α → Py β) (g : α → β) : ∀ L : List α, (∀ x ∈ L, f x = .ok (g x)) →
    (L.map f).mapM id = .ok (L.map g)
  | [], _ => rfl
  | x :: L, h => by
    rw [List.map_cons, List.mapM_cons, h x List.mem_cons_self,
      mapM_id_map f g L fun y hy => h y (List.mem_cons_of_mem _ hy)]
    rfl

theorem stack_ok {α β : Type} (f : α → Py β) (g : α → β) (L : List α) (h : ∀ x ∈ L, f x = .ok (g x)) (hne : L ≠ []) :
    stack (L.map f) = .ok (L.map g) := by
  unfold stack
  rw [mapM_id_map f g L h]
  cases L with
  | nil => exact absurd rfl hne
  | cons x L => rfl

theorem mem_offDiag {m i j : ℕ} : (i, j) ∈ offDiag m ↔ i < m ∧ j < m ∧ i ≠ j := by
  unfold offDiag
  simp only [List.mem_flatMap, List.mem_range, List.mem_map, List.mem_filter, Prod.mk.injEq, decide_eq_true_eq]
  constructor
  · rintro ⟨a, ha, b, ⟨hb, hab⟩, rfl, rfl⟩
    exact ⟨ha, hb, hab⟩
  · rintro ⟨h1, h2, h3⟩
    exact ⟨i, h1, j, ⟨h2, h3⟩, rfl, rfl⟩

theorem length_offDiag (m : ℕ) : (offDiag m).length = m * (m - 1) := by
  unfold offDiag
  rw [List.length_flatMap]
  have : ∀ i ∈ List.range m, (((List.range m).filter fun j => i ≠ j).map fun j => (i, j)).length = m - 1 := by
    intro i hi
    rw [List.length_map]
    have h1 : ((List.range m).filter fun j => i ≠ j) = (List.range m).erase i := by
      rw [List.nodup_range.erase_eq_filter]
      refine List.filter_congr fun x _ => ?_
      simp [bne_iff_ne, eq_comm, bne, Bool.beq_eq_decide_eq]
    rw [h1, List.length_erase_of_mem hi, List.length_range]
  rw [List.map_congr_left this]
  simp

/-- The list that `common` returns. -/
def commonL (n m : ℕ) : List (Matrix (Fin n) (Fin n) ℝ) :=
  ((List.range m).map fun i => U n i i - U n (i + m) (i + m)) ++
  ((offDiag m).map fun p => U n p.1 p.2 - U n (m + p.2) (m + p.1)) ++
  ((offDiag m).map fun p => U n p.1 (m + p.2) - U n p.2 (m + p.1)) ++
  ((offDiag m).map fun p => U n (m + p.1) p.2 - U n (m + p.2) p.1)

theorem common_ok {n m : ℕ} (hm : 2 ≤ m) (hn : 2 * m ≤ n) : common n m = .ok (commonL n m) := by
  have hne : offDiag m ≠ [] := by
    intro h
    have := mem_offDiag.2 (show 0 < m ∧ 1 < m ∧ 0 ≠ 1 from ⟨by omega, by omega, by omega⟩)
    rw [h] at this
    cases this
  have hr : List.range m ≠ [] := by
    intro h
    rw [List.range_eq_nil] at h
    omega
  unfold common
  rw [stack_ok _ (fun i => U n i i - U n (i + m) (i + m)) _ (fun i hi => by
      rw [List.mem_range] at hi
      exact diff_ok (by omega) (by omega) (by omega) (by omega)) hr,
    stack_ok _ (fun p => U n p.1 p.2 - U n (m + p.2) (m + p.1)) _ (fun p hp => by
      obtain ⟨h1, h2, -⟩ := mem_offDiag.1 hp
      exact diff_ok (by omega) (by omega) (by omega) (by omega)) hne,
    stack_ok _ (fun p => U n p.1 (m + p.2) - U n p.2 (m + p.1)) _ (fun p hp => by
      obtain ⟨h1, h2, -⟩ := mem_offDiag.1 hp
      exact diff_ok (by omega) (by omega) (by omega) (by omega)) hne,
    stack_ok _ (fun p => U n (m + p.1) p.2 - U n (m + p.2) p.1) _ (fun p hp => by
      obtain ⟨h1, h2, -⟩ := mem_offDiag.1 hp
      exact diff_ok (by omega) (by omega) (by omega) (by omega)) hne]
  rfl

/-- The list for odd `n`. -/
def oddL (m : ℕ) : List (Matrix (Fin (2 * m + 1)) (Fin (2 * m + 1)) ℝ) :=
  commonL (2 * m + 1) m ++
  ((List.range (2 * m + 1)).map fun i => U (2 * m + 1) i (2 * m) - U (2 * m + 1) (2 * m) i) ++
  ((List.range m).map fun i => U (2 * m + 1) (m + i) (2 * m) - U (2 * m + 1) (2 * m) i)

theorem generators_even {m : ℕ} (hm : 2 ≤ m) : generators (2 * m) = .ok (commonL (2 * m) m) := by
  unfold generators pyAssert
  rw [if_pos (by omega), if_pos (by omega), Nat.mul_div_cancel_left _ (by omega)]
  exact common_ok hm le_rfl

theorem generators_odd {m : ℕ} (hm : 2 ≤ m) : generators (2 * m + 1) = .ok (oddL m) := by
  unfold generators pyAssert
  rw [if_pos (by omega), if_neg (by omega)]
  have e : (2 * m + 1 - 1) / 2 = m := by omega
  rw [e, Nat.add_sub_cancel]
  dsimp only
  rw [common_ok hm (by omega)]
  have h1 := stack_ok (fun i => diff (2 * m + 1) i (2 * m) (2 * m) i)
    (fun i => U (2 * m + 1) i (2 * m) - U (2 * m + 1) (2 * m) i) (List.range (2 * m + 1)) (fun i hi => by
      rw [List.mem_range] at hi
      exact diff_ok (by omega) (by omega) (by omega) (by omega)) (by simp)
  have h2 := stack_ok (fun i => diff (2 * m + 1) (m + i) (2 * m) (2 * m) i)
    (fun i => U (2 * m + 1) (m + i) (2 * m) - U (2 * m + 1) (2 * m) i) (List.range m) (fun i hi => by
      rw [List.mem_range] at hi
      exact diff_ok (by omega) (by omega) (by omega) (by omega)) (by
        intro h
        rw [List.range_eq_nil] at h
        omega)
  rw [h1, h2]
  rfl

/-- The other half. -/
def sw (m a : ℕ) : ℕ := if a < m then a + m else a - m

/-- All differences of the common form are in the span. -/
theorem mem_span_common {n m : ℕ} {a b : ℕ} (ha : a < 2 * m) (hb : b < 2 * m) :
    U n a b - U n (sw m b) (sw m a) ∈ Submodule.span ℝ {G | G ∈ commonL n m} := by
  have hH : ∀ i, i < m → U n i i - U n (i + m) (i + m) ∈ Submodule.span ℝ {G | G ∈ commonL n m} := fun i hi =>
    Submodule.subset_span (by
      simp only [Set.mem_ofPred_eq, commonL, List.mem_append, List.mem_map, List.mem_range]
      exact Or.inl (Or.inl (Or.inl ⟨i, hi, rfl⟩)))
  have hX : ∀ i j, i < m → j < m → i ≠ j → U n i j - U n (m + j) (m + i) ∈ Submodule.span ℝ {G | G ∈ commonL n m} :=
    fun i j hi hj hij => Submodule.subset_span (by
      simp only [Set.mem_ofPred_eq, commonL, List.mem_append, List.mem_map]
      exact Or.inl (Or.inl (Or.inr ⟨(i, j), mem_offDiag.2 ⟨hi, hj, hij⟩, rfl⟩)))
  have hY : ∀ i j, i < m → j < m → i ≠ j → U n i (m + j) - U n j (m + i) ∈ Submodule.span ℝ {G | G ∈ commonL n m} :=
    fun i j hi hj hij => Submodule.subset_span (by
      simp only [Set.mem_ofPred_eq, commonL, List.mem_append, List.mem_map]
      exact Or.inl (Or.inr ⟨(i, j), mem_offDiag.2 ⟨hi, hj, hij⟩, rfl⟩))
  have hZ : ∀ i j, i < m → j < m → i ≠ j → U n (m + i) j - U n (m + j) i ∈ Submodule.span ℝ {G | G ∈ commonL n m} :=
    fun i j hi hj hij => Submodule.subset_span (by
      simp only [Set.mem_ofPred_eq, commonL, List.mem_append, List.mem_map]
      exact Or.inr ⟨(i, j), mem_offDiag.2 ⟨hi, hj, hij⟩, rfl⟩)
  rcases Nat.lt_or_ge a m with h1 | h1
  · rcases Nat.lt_or_ge b m with h2 | h2
    · rw [sw, if_pos h2, sw, if_pos h1]
      by_cases e : a = b
      · subst e
        exact hH a h1
      · rw [Nat.add_comm b, Nat.add_comm a]
        exact hX a b h1 h2 e
    · rw [sw, if_neg (by omega), sw, if_pos h1]
      by_cases e : a = b - m
      · have : b = a + m := by omega
        subst this
        rw [Nat.add_sub_cancel, sub_self]
        exact Submodule.zero_mem _
      · have := hY a (b - m) h1 (by omega) e
        rwa [Nat.add_sub_cancel' h2, Nat.add_comm m a] at this
  · rcases Nat.lt_or_ge b m with h2 | h2
    · rw [sw, if_pos h2, sw, if_neg (by omega)]
      by_cases e : a - m = b
      · have : a = b + m := by omega
        subst this
        rw [Nat.add_sub_cancel, sub_self]
        exact Submodule.zero_mem _
      · have := hZ (a - m) b (by omega) h2 e
        rwa [Nat.add_sub_cancel' h1, Nat.add_comm m b] at this
    · rw [sw, if_neg (by omega), sw, if_neg (by omega)]
      rw [← neg_sub]
      refine Submodule.neg_mem _ ?_
      by_cases e : b - m = a - m
      · have : b = a := by omega
        subst this
        have := hH (b - m) (by omega)
        rwa [Nat.sub_add_cancel h2] at this
      · have := hX (b - m) (a - m) (by omega) (by omega) e
        rwa [Nat.add_sub_cancel' h1, Nat.add_sub_cancel' h2] at this

theorem common_form {n m : ℕ} {G : Matrix (Fin n) (Fin n) ℝ} (h : G ∈ commonL n m) :
    ∃ a b, a < 2 * m ∧ b < 2 * m ∧ G = U n a b - U n (sw m b) (sw m a) := by
  simp only [commonL, List.mem_append, List.mem_map, List.mem_range] at h
  rcases h with ((⟨i, hi, rfl⟩ | ⟨⟨i, j⟩, hp, rfl⟩) | ⟨⟨i, j⟩, hp, rfl⟩) | ⟨⟨i, j⟩, hp, rfl⟩
  · exact ⟨i, i, by omega, by omega, by rw [sw, if_pos hi]⟩
  · obtain ⟨h1, h2, -⟩ := mem_offDiag.1 hp
    exact ⟨i, j, by omega, by omega, by rw [sw, if_pos h2, sw, if_pos h1, Nat.add_comm j, Nat.add_comm i]⟩
  · obtain ⟨h1, h2, -⟩ := mem_offDiag.1 hp
    exact ⟨i, m + j, by omega, by omega, by
      rw [sw, if_neg (by omega), sw, if_pos h1, Nat.add_sub_cancel_left, Nat.add_comm i]⟩
  · obtain ⟨h1, h2, -⟩ := mem_offDiag.1 hp
    exact ⟨m + i, j, by omega, by omega, by
      rw [sw, if_pos h2, sw, if_neg (by omega), Nat.add_sub_cancel_left, Nat.add_comm j]⟩

theorem sw_lt {m a : ℕ} (h : a < 2 * m) : sw m a < 2 * m := by
  unfold sw
  split_ifs <;> omega

theorem sw_sw {m a : ℕ} (h : a < 2 * m) : sw m (sw m a) = a := by
  unfold sw
  split_ifs <;> omega

/-- The other half, as an index. -/
def fsw {m : ℕ} (a : Fin (2 * m)) : Fin (2 * m) := ⟨sw m a, sw_lt a.2⟩

theorem fsw_fsw {m : ℕ} (a : Fin (2 * m)) : fsw (fsw a) = a := Fin.ext (sw_sw a.2)

theorem splitForm_apply {m : ℕ} (a b : Fin (2 * m)) : Spec.splitForm m a b = if b = fsw a then 1 else 0 := by
  have ha := a.2
  have hb := b.2
  have : ((a : ℕ) + m = b ∨ (b : ℕ) + m = a) ↔ b = fsw a := by
    rw [Fin.ext_iff]
    change _ ↔ (b : ℕ) = sw m a
    unfold sw
    split_ifs <;> omega
  rw [Spec.splitForm, Matrix.of_apply]
  exact if_congr this rfl rfl

theorem splitForm_apply' {m : ℕ} (a b : Fin (2 * m)) : Spec.splitForm m a b = if a = fsw b then 1 else 0 := by
  rw [splitForm_apply]
  refine if_congr ?_ rfl rfl
  constructor
  · rintro rfl
    rw [fsw_fsw]
  · rintro rfl
    rw [fsw_fsw]

theorem preserves_iff {m : ℕ} (G : Matrix (Fin (2 * m)) (Fin (2 * m)) ℝ) :
    Spec.PreservesForm (Spec.splitForm m) G ↔ ∀ a b, G (fsw b) a + G (fsw a) b = 0 := by
  have e : ∀ a b, (Gᵀ * Spec.splitForm m + Spec.splitForm m * G) a b = G (fsw b) a + G (fsw a) b := by
    intro a b
    rw [Matrix.add_apply, Matrix.mul_apply, Matrix.mul_apply]
    congr 1
    · simp [splitForm_apply']
    · simp [splitForm_apply]
  unfold Spec.PreservesForm
  constructor
  · intro h a b
    rw [← e, h]
    rfl
  · intro h
    ext a b
    rw [e, h]
    rfl

theorem U_fin {n : ℕ} (a b : Fin n) : U n a b = Matrix.single a b 1 := by
  ext i j
  rw [U, Matrix.of_apply, Matrix.single_apply]
  refine if_congr ?_ rfl rfl
  rw [Fin.ext_iff, Fin.ext_iff]
  exact ⟨fun h => ⟨h.1.symm, h.2.symm⟩, fun h => ⟨h.1.symm, h.2.symm⟩⟩

theorem span_even {m : ℕ} (G : Matrix (Fin (2 * m)) (Fin (2 * m)) ℝ) :
    G ∈ Submodule.span ℝ {G | G ∈ commonL (2 * m) m} ↔ Spec.PreservesForm (Spec.splitForm m) G := by
  constructor
  · intro h
    induction h using Submodule.span_induction with
    | mem x hx =>
      obtain ⟨a, b, ha, hb, rfl⟩ := common_form hx
      rw [preserves_iff]
      intro c d
      have key : ∀ i j : ℕ, ∀ x y : Fin (2 * m), U (2 * m) i j x y = if (x : ℕ) = i ∧ (y : ℕ) = j then 1 else 0 :=
        fun i j x y => rfl
      rw [Matrix.sub_apply, Matrix.sub_apply, key, key, key, key]
      have h1 : ((fsw d : Fin (2 * m)) : ℕ) = a ∧ (c : ℕ) = b ↔ ((fsw c : Fin (2 * m)) : ℕ) = sw m b ∧ (d : ℕ) = sw m a := by
        constructor
        · rintro ⟨rfl, rfl⟩
          exact ⟨rfl, (sw_sw d.2).symm⟩
        · rintro ⟨e1, e2⟩
          refine ⟨?_, ?_⟩
          · change sw m d = a
            rw [e2, sw_sw ha]
          · rw [← sw_sw c.2, ← sw_sw hb, ← e1]
            rfl
      have h2 : ((fsw c : Fin (2 * m)) : ℕ) = a ∧ (d : ℕ) = b ↔ ((fsw d : Fin (2 * m)) : ℕ) = sw m b ∧ (c : ℕ) = sw m a := by
        constructor
        · rintro ⟨rfl, rfl⟩
          exact ⟨rfl, (sw_sw c.2).symm⟩
        · rintro ⟨e1, e2⟩
          refine ⟨?_, ?_⟩
          · change sw m c = a
            rw [e2, sw_sw ha]
          · rw [← sw_sw d.2, ← sw_sw hb, ← e1]
            rfl
      rw [if_congr h1 rfl rfl, if_congr h2 rfl rfl]
      ring
    | zero => simp [Spec.PreservesForm]
    | add x y _ _ hx hy =>
      unfold Spec.PreservesForm at *
      rw [Matrix.transpose_add, Matrix.add_mul, Matrix.mul_add, add_add_add_comm, hx, hy, add_zero]
    | smul c x _ hx =>
      unfold Spec.PreservesForm at *
      rw [Matrix.transpose_smul, Matrix.smul_mul, Matrix.mul_smul, ← smul_add, hx, smul_zero]
  · intro h
    rw [preserves_iff] at h
    have e : G = ∑ a, ∑ b, (G a b / 2) • (U (2 * m) a b - U (2 * m) (sw m b) (sw m a)) := by
      have h1 : ∑ a, ∑ b, (G a b / 2) • U (2 * m) a b = (1 / 2 : ℝ) • G := by
        conv_rhs => rw [Matrix.matrix_eq_sum_single G]
        rw [Finset.smul_sum]
        refine sum_congr rfl fun a _ => ?_
        rw [Finset.smul_sum]
        refine sum_congr rfl fun b _ => ?_
        rw [U_fin, Matrix.smul_single, Matrix.smul_single, smul_eq_mul, smul_eq_mul]
        congr 1
        ring
      have h2 : ∑ a, ∑ b, (G a b / 2) • U (2 * m) (sw m b) (sw m a) = -((1 / 2 : ℝ) • G) := by
        rw [← h1, ← Finset.sum_neg_distrib, Finset.sum_comm]
        let s : Equiv.Perm (Fin (2 * m)) := ⟨fsw, fsw, fsw_fsw, fsw_fsw⟩
        rw [← Equiv.sum_comp s]
        refine sum_congr rfl fun a _ => ?_
        rw [← Equiv.sum_comp s, ← Finset.sum_neg_distrib]
        refine sum_congr rfl fun b _ => ?_
        have e1 : sw m (s a : Fin (2 * m)) = a := sw_sw a.2
        have e2 : sw m (s b : Fin (2 * m)) = b := sw_sw b.2
        rw [e1, e2, ← neg_smul]
        congr 1
        have := h b (fsw a)
        rw [fsw_fsw] at this
        change G (fsw b) (fsw a) / 2 = _
        linarith
      simp only [smul_sub, Finset.sum_sub_distrib]
      rw [h1, h2]
      module
    rw [e]
    exact Submodule.sum_mem _ fun a _ => Submodule.sum_mem _ fun b _ => Submodule.smul_mem _ _ (mem_span_common a.2 b.2)

theorem length_commonL (n m : ℕ) : (commonL n m).length = m + 3 * (m * (m - 1)) := by
  unfold commonL
  simp only [List.length_append, List.length_map, List.length_range, length_offDiag]
  ring

/-- Closed families. -/
theorem closed_iff {n : ℕ} (L : List (Matrix (Fin n) (Fin n) ℝ)) :
    Spec.ClosedFamily (fun i : Fin L.length => L.get i) ↔
      ∀ G ∈ L, ∀ H ∈ L, G * H - H * G ∈ Submodule.span ℝ {G | G ∈ L} := by
  have hr : {G | G ∈ L} = Set.range (fun i : Fin L.length => L.get i) := by
    ext G
    rw [Set.mem_ofPred_eq, List.mem_iff_get, Set.mem_range]
  constructor
  · rintro ⟨A, hA⟩ G hG H hH
    obtain ⟨i, rfl⟩ := List.mem_iff_get.1 hG
    obtain ⟨j, rfl⟩ := List.mem_iff_get.1 hH
    rw [hA i j]
    exact Submodule.sum_mem _ fun k _ => Submodule.smul_mem _ _ (Submodule.subset_span (List.get_mem _ _))
  · intro h
    have : ∀ i j : Fin L.length, ∃ c : Fin L.length → ℝ, L.get i * L.get j - L.get j * L.get i = ∑ k, c k • L.get k := by
      intro i j
      have := h _ (List.get_mem L i) _ (List.get_mem L j)
      rw [hr, Submodule.mem_span_range_iff_exists_fun] at this
      obtain ⟨c, hc⟩ := this
      exact ⟨c, hc.symm⟩
    choose A hA using this
    exact ⟨A, hA⟩

end LieNN.SONAdj
