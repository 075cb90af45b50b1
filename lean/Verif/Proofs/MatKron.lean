import Verif.Proofs.MatList
/-!
# Helper lemmas for the `kron` of several arguments
-/
namespace LieNN

/-- the Kronecker product of a list, from the right -/
noncomputable def krons : List SMat → SMat
  | [] => SMat.unit
  | A :: l => SMat.kron A (krons l)

theorem kronMats_ok {l : List SMat} (hl : l ≠ []) : kronMats l = .ok (krons l) := by
  induction l with
  | nil => exact absurd rfl hl
  | cons A l ih =>
    cases l with
    | nil => simp [kronMats, krons, SMat.kron_unit]
    | cons B l =>
      rw [kronMats, ih (by simp)]
      rfl

theorem krons_append (l₁ l₂ : List SMat) : krons (l₁ ++ l₂) = SMat.kron (krons l₁) (krons l₂) := by
  induction l₁ with
  | nil => simp [krons, SMat.unit_kron]
  | cons A l ih => simp [krons, ih, SMat.kron_assoc]

theorem krons_rows (l : List SMat) : (krons l).rows = (l.map SMat.rows).prod := by
  induction l with
  | nil => rfl
  | cons A l ih => simp [krons, SMat.kron, ih]

theorem krons_cols (l : List SMat) : (krons l).cols = (l.map SMat.cols).prod := by
  induction l with
  | nil => rfl
  | cons A l ih => simp [krons, SMat.kron, ih]

theorem krons_get (l : List (SMat × ℕ × ℕ)) (h : ∀ t ∈ l, t.2.1 < t.1.rows ∧ t.2.2 < t.1.cols) :
    (krons (l.map fun t => t.1)).get (l.foldl (fun a t => a * t.1.rows + t.2.1) 0)
      (l.foldl (fun a t => a * t.1.cols + t.2.2) 0) = (l.map fun t => t.1.get t.2.1 t.2.2).prod := by
  induction l using List.reverseRecOn with
  | nil =>
    rw [List.map_nil, krons, SMat.get_of_lt _ (by simp [SMat.unit]) (by simp [SMat.unit])]
    simp [SMat.unit]
  | append_singleton l t ih =>
    obtain ⟨hr, hc⟩ := h t (by simp)
    rw [List.map_append, krons_append, List.foldl_append, List.foldl_append]
    simp only [List.map_cons, List.map_nil, List.foldl_cons, List.foldl_nil, krons, SMat.kron_unit,
      SMat.get_kron, List.map_append, List.prod_append, List.prod_cons, List.prod_nil, mul_one]
    rw [← ih fun s hs => h s (by simp [hs])]
    have e (a b c : ℕ) (hb : b < c) : (a * c + b) / c = a ∧ (a * c + b) % c = b := by
      constructor
      · rw [mul_comm, Nat.mul_add_div (by omega), Nat.div_eq_of_lt hb, add_zero]
      · rw [mul_comm, Nat.mul_add_mod, Nat.mod_eq_of_lt hb]
    rw [(e _ _ _ hr).1, (e _ _ _ hr).2, (e _ _ _ hc).1, (e _ _ _ hc).2]

end LieNN
