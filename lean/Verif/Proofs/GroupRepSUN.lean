import Verif.Proofs.GroupRep
import Verif.Props.SUNGen
import Verif.Props.SUNIrr
import Verif.Props.SUNLR
/-!
# The irreps of `SUN` are polynomial representations of the special unitary group
-/
namespace LieNN.SUN

open Spec LR Props Finset

/-- Every label that is not zero occurs in the product of the defining label and a smaller one. -/
theorem pieri {n : ℕ} (hn : 2 ≤ n) {S : List ℤ} (hm : make S = .ok S) (hl : S.length = n) (hne : ∃ s ∈ S, s ≠ 0) :
    ∃ S', make S' = .ok S' ∧ S'.length = n ∧ S'.sum + 1 = S.sum ∧ ∃ R, mulRep (defining n) S' = .ok R ∧ S ∈ R := by
  obtain ⟨hS, h0, hlast⟩ := make_weight hm
  rw [hl] at hlast
  set f : ℕ → ℤ := fun k => S.getD k 0 with hf
  have hanti : ∀ i j, i ≤ j → j < n → f j ≤ f i := by
    intro i j hij hj
    rcases eq_or_lt_of_le hij with rfl | hij
    · exact le_rfl
    have := List.pairwise_iff_getElem.1 hS.2 i j (by omega) (by omega) hij
    simp only [hf]
    rw [List.getD_eq_getElem _ _ (by omega), List.getD_eq_getElem _ _ (by omega)]
    exact this
  have hpos : ∀ k, 0 ≤ f k := fun k => getD_nonneg h0 k
  have hbig : ∀ k, n ≤ k → f k = 0 := fun k hk => by
    simp only [hf]
    rw [List.getD_eq_default _ _ (by omega)]
  have h00 : 0 < f 0 := by
    obtain ⟨s, hs, hs0⟩ := hne
    obtain ⟨i, hi, rfl⟩ := List.getElem_of_mem hs
    have h1 : f i = S[i] := List.getD_eq_getElem _ _ hi
    have h2 := hanti 0 i (Nat.zero_le _) (by omega)
    have h3 := hpos i
    omega
  classical
  set t := Nat.findGreatest (fun k => 0 < f k) n with ht
  have ht0 : 0 < f t := Nat.findGreatest_spec (P := fun k => 0 < f k) (Nat.zero_le n) h00
  have htn : t < n - 1 := by
    by_contra h
    rcases Nat.lt_or_ge t n with h1 | h1
    · have : t = n - 1 := by omega
      rw [this] at ht0
      change 0 < S.getD (n - 1) 0 at ht0
      omega
    · rw [hbig t h1] at ht0
      omega
  have hgt : ∀ k, t < k → f k = 0 := by
    intro k hk
    rcases Nat.lt_or_ge n k with h1 | h1
    · exact hbig k h1.le
    · have := Nat.findGreatest_is_greatest hk h1
      have := hpos k
      omega
  set g : ℕ → ℤ := fun k => f k - if k = t then 1 else 0 with hg
  set S' := List.ofFn fun k : Fin n => g k with hS'
  have hgd : ∀ k, k < n → S'.getD k 0 = g k := fun k hk => getD_ofFn g hk
  have hganti : ∀ i j, i ≤ j → j < n → g j ≤ g i := by
    intro i j hij hj
    have h1 := hanti i j hij hj
    simp only [hg]
    by_cases hi : i = t
    · by_cases hj' : j = t
      · rw [hi, hj']
      · rw [if_pos hi, if_neg hj', hgt j (by omega), hi]
        omega
    · rw [if_neg hi]
      split_ifs <;> omega
  have hm' : make S' = .ok S' := by
    refine (make_ok_iff _ _).2 ⟨rfl, rfl, ?_, ?_⟩
    · rw [hS', List.pairwise_ofFn]
      intro i j hij
      exact hganti i j hij.le j.2
    · rw [List.getLast?_eq_getElem?, List.getElem?_eq_getElem (by simp [hS']; omega)]
      simp only [hS', List.getElem_ofFn, List.length_ofFn, hg]
      rw [if_neg (by omega)]
      rw [show f (n - 1) = 0 from hlast, sub_zero]
  have hl' : S'.length = n := by simp [hS']
  have hsum : S'.sum + 1 = S.sum := by
    have e : S = List.ofFn fun k : Fin n => f k := by
      refine List.ext_getElem (by simp [hl]) fun k h1 h2 => ?_
      rw [List.getElem_ofFn]
      exact (List.getD_eq_getElem _ _ h1).symm
    conv_rhs => rw [e]
    rw [hS', List.sum_ofFn, List.sum_ofFn]
    simp only [hg, sum_sub_distrib]
    have : ∑ k : Fin n, (if (k : ℕ) = t then (1 : ℤ) else 0) = 1 := by
      rw [Finset.sum_eq_single ⟨t, by omega⟩]
      · simp
      · intro b _ hb
        rw [if_neg fun h => hb (Fin.ext h)]
      · simp
    rw [this]
    ring
  refine ⟨S', hm', hl', hsum, _, mulRep_eq (SUNPair.toTwo ⟨hn, defining_make n hn, hm', length_defining n (by omega), hl'⟩), ?_⟩
  have hD := length_defining n (by omega)
  obtain ⟨wD, pD, -⟩ := make_weight (defining_make n hn)
  set x : ℕ → ℕ → ℤ := fun k i => if i = 0 ∧ t < k then 1 else 0 with hx
  have hGTF : GTF n (fun i => (defining n).getD i 0) x := by
    refine ⟨fun i => ?_, fun k i hki _ => ?_, fun k i _ => ?_, fun k i _ => ?_⟩
    · cases i with
      | zero => simp [hx, defining]; omega
      | succ i =>
        have : (defining n).getD (i + 1) 0 = 0 := by
          unfold defining
          rw [List.getD_cons_succ]
          rcases Nat.lt_or_ge i (n - 1) with h | h
          · rw [List.getD_eq_getElem _ _ (by simpa using h), List.getElem_replicate]
          · rw [List.getD_eq_default _ _ (by simpa using h)]
        rw [this]
        exact if_neg (by omega)
    · simp only [hx]
      rw [if_neg (by omega)]
    · simp only [hx]
      split_ifs <;> omega
    · simp only [hx]
      rw [if_neg (by omega)]
      split_ifs <;> omega
  have hxs : ∀ k ≤ n, ∀ i, xs n (ofXs n x) k i = x k i := fun k hk i => xs_ofXs hGTF hk i
  have hsx : ∀ k l, ∑ i ∈ range (l + 1), x k i = if t < k then 1 else 0 := by
    intro k l
    rw [Finset.sum_eq_single 0]
    · simp [hx]
    · intro b _ hb
      simp [hx, hb]
    · simp
  refine List.mem_map.2 ⟨ofXs n x, List.mem_filter.2 ⟨(mem_pats _ wD _).2 (isGT_ofXs hD wD hGTF), ?_⟩, ?_⟩
  · rw [decide_eq_true_eq]
    intro k hk l hln
    beta_reduce
    rw [hgd _ (by omega), hgd _ (by omega)]
    rw [sum_congr rfl fun i _ => by rw [hxs (k + 2) hk i, hxs (k + 1) (by omega) i], sum_sub_distrib, hsx, hsx]
    have h1 := hganti k (k + 1) (by omega) (by omega)
    have hr : 0 ≤ ∑ i ∈ range l, (xs n (ofXs n x) (k + 1) i - xs n (ofXs n x) k i) := by
      refine sum_nonneg fun i _ => ?_
      rw [hxs _ (by omega), hxs _ (by omega)]
      simp only [hx]
      split_ifs <;> omega
    have h2 := hanti k (k + 1) (by omega) (by omega)
    simp only [hg] at h1 ⊢
    split_ifs at h1 ⊢ <;> omega
  · have hlab : lab n S' (ofXs n x) = S := by
      refine List.ext_getElem (by simp [lab, hl]) fun k h1 h2 => ?_
      have e := lab_getD (n := n) (S₂ := S') (M := ofXs n x) (k := k) (by omega)
      rw [List.getD_eq_getElem _ _ h1] at e
      rw [e, hgd k (by omega), wt_congr hxs (by omega)]
      unfold wt rsum
      rw [hsx, hsx, ← List.getD_eq_getElem _ 0 h2]
      change f k - _ + _ = f k
      split_ifs <;> omega
    rw [hlab]
    unfold LR.norm
    rw [hl, hlast]
    simp

theorem IsLabel.irreducible {n : ℕ} (hn : 2 ≤ n) {S : List ℤ} {d : ℕ} {r : Rep (n ^ 2 - 1) 0 d} (h : IsLabel n S r) :
    IrreducibleFamily r.X := by
  obtain ⟨L, hL, e⟩ := h.g
  have := C72_irreducible h.m (by rw [h.l]; exact hn) h.d hL
  rw [e]
  rw [h.l] at this
  exact this

theorem exists_label {n : ℕ} (hn : 2 ≤ n) {S : List ℤ} (hm : make S = .ok S) (hl : S.length = n) :
    IsLabel n S (labelRep n S) := by
  obtain ⟨w, p, -⟩ := make_weight hm
  exact ⟨hm, hl, dim_eq _ w, ⟨_, generators_eq w p (by omega), rfl⟩⟩

theorem polyOf_aux {n d₀ : ℕ} (hn : 2 ≤ n) {r₀ : Rep (n ^ 2 - 1) 0 d₀} (h0 : IsLabel n (defining n) r₀) (k : ℕ) :
    ∀ {S : List ℤ} {d : ℕ} {r : Rep (n ^ 2 - 1) 0 d}, IsLabel n S r → S.sum = k → PolyOf r₀ r k := by
  induction k with
  | zero =>
    intro S d r h hk
    obtain ⟨w, p, -⟩ := make_weight h.m
    have hz : ∀ s ∈ S, s = 0 := fun s hs => le_antisymm (by
      have := List.single_le_sum p s hs
      rw [hk] at this
      exact_mod_cast this) (p s hs)
    have hsc : isScalar S := hz
    obtain ⟨hd, L, hL, -, hL0⟩ := C69_scalar h.m (by rw [h.l]; exact hn) hsc
    obtain rfl : d = 1 := by
      have := h.d.symm.trans hd
      injection this with e
      exact_mod_cast e
    obtain ⟨L', hL', e⟩ := h.g
    rw [hL] at hL'
    cases hL'
    refine PolyOf.trivial _ (fun a => ?_) fun a => a.elim0
    rw [e]
    unfold genFn
    rcases Nat.lt_or_ge a L.length with ha | ha
    · rw [List.getD_eq_getElem _ _ ha]
      exact hL0 _ (List.getElem_mem _)
    · rw [List.getD_eq_default _ _ ha]
  | succ k ih =>
    intro S d r h hk
    obtain ⟨S', hm', hl', hs, R, hR, hmem⟩ := pieri hn h.m h.l (by
      by_contra hc
      push Not at hc
      have : S.sum = 0 := List.sum_eq_zero hc
      rw [this] at hk
      push_cast at hk
      omega)
    have h' := exists_label hn hm' hl'
    have ht : SUNTriple n (defining n) S' S r₀ (labelRep n S') r :=
      ⟨hn, h0.m, hm', h.m, h0.l, hl', h.l, h0.d, h'.d, h.d, h0.g, h'.g, h.g⟩
    obtain ⟨R', hR', hiff⟩ := C77_mem_iff ht
    obtain ⟨C, hC0, hC⟩ := hiff.1 (by
      obtain ⟨L, Q, a, b, -, e, -⟩ := mul_ok ht.labels.w₁ ht.labels.p₁ (ht.l₂.trans ht.l₁.symm)
      rw [hR] at a
      rw [hR'] at b
      cases a
      cases b
      exact (e S).2 hmem)
    exact add_comm 1 k ▸ (PolyOf.refl r₀).of_irreducible (ih h' (by omega)) (h.irreducible hn) hC hC0

/-- The dimension of the defining representation. -/
theorem dim_defining {n : ℕ} (hn : 2 ≤ n) : dim (defining n) = .ok (n : ℤ) := by
  obtain ⟨w, -, -⟩ := make_weight (defining_make n hn)
  rw [dim_eq _ w]
  congr 2
  have h := dimProd_eq _ w
  have hz : ∀ i, 0 < i → (defining n).getD i 0 = 0 := by
    intro i hi
    obtain ⟨i, rfl⟩ : ∃ j, i = j + 1 := ⟨i - 1, by omega⟩
    unfold defining
    rw [List.getD_cons_succ]
    rcases Nat.lt_or_ge i (n - 1) with h | h
    · rw [List.getD_eq_getElem _ _ (by simpa using h), List.getElem_replicate]
    · rw [List.getD_eq_default _ _ (by simpa using h)]
  have h0 : (defining n).getD 0 0 = 1 := rfl
  have key : dimProd (defining n) = n := by
    rw [dimProd_prod, length_defining n (by omega), Finset.prod_eq_single 0]
    · have hm : ∀ m, ∏ j ∈ Finset.Ico (0 + 1) (m + 1),
          (1 + (((defining n).getD 0 0 - (defining n).getD j 0 : ℤ) : ℚ) / (((j : ℤ) - (0 : ℕ) : ℤ) : ℚ)) = (m + 1 : ℕ) := by
        intro m
        induction m with
        | zero => simp
        | succ m ih =>
          rw [Finset.prod_Ico_succ_top (by omega), ih, h0, hz _ (by omega)]
          push_cast
          field_simp
          ring
      obtain ⟨m, rfl⟩ : ∃ m, n = m + 1 := ⟨n - 1, by omega⟩
      exact hm m
    · intro i _ hi
      refine Finset.prod_eq_one fun j hj => ?_
      rw [Finset.mem_Ico] at hj
      rw [hz i (by omega), hz j (by omega)]
      simp
    · intro h
      exact absurd (Finset.mem_range.2 (by omega)) h
  rw [h] at key
  exact_mod_cast key

/-- The generators have trace zero. -/
theorem IsLabel.trace {n : ℕ} (hn : 2 ≤ n) {S : List ℤ} {d : ℕ} {r : Rep (n ^ 2 - 1) 0 d} (h : IsLabel n S r) (a : Fin (n ^ 2 - 1)) :
    (r.X a).trace = 0 := by
  obtain ⟨L, hL, e⟩ := h.g
  have h2 : 2 ≤ S.length := by rw [h.l]; exact hn
  obtain ⟨f, hf, hlie, -⟩ := C69_generators h.m h2 h.d
  rw [hL] at hf
  cases hf
  rw [e]
  have h0' : ∀ x y, (f (x * y - y * x)).trace = 0 := fun x y => by
    rw [hlie, Matrix.trace_sub, Matrix.trace_mul_comm, sub_self]
  have hoff : ∀ k l, k ≠ l → k < S.length → l < S.length → (f (unit S.length k l)).trace = 0 := by
    intro k l hkl hk hl
    have := h0' (unit S.length k k) (unit S.length k l)
    rwa [unit_mul_unit _ _ _ _ _ hk, unit_mul_unit _ _ _ _ _ hl, if_pos rfl, if_neg (Ne.symm hkl), sub_zero] at this
  have hall : ∀ x ∈ (suBasis S.length).map f, x.trace = 0 := by
    intro x hx
    obtain ⟨y, hy, rfl⟩ := List.mem_map.1 hx
    rcases mem_suBasis hy with ⟨k, l, h, h', rfl⟩ | ⟨k, l, h, h', rfl⟩ | ⟨t, h, rfl⟩
    · rw [map_smul, map_add, Matrix.trace_smul, Matrix.trace_add, hoff _ _ (by omega) (by omega) h',
        hoff _ _ (by omega) h' (by omega), add_zero, smul_zero]
    · rw [map_sub, Matrix.trace_sub, hoff _ _ (by omega) (by omega) h', hoff _ _ (by omega) h' (by omega), sub_zero]
    · have := h0' (unit S.length t (t + 1)) (unit S.length (t + 1) t)
      rw [unit_mul_unit _ _ _ _ _ h, unit_mul_unit _ _ _ _ _ (by omega), if_pos rfl, if_pos rfl] at this
      rw [map_smul, Matrix.trace_smul, this, smul_zero]
  unfold genFn
  rcases Nat.lt_or_ge a ((suBasis S.length).map f).length with ha | ha
  · rw [List.getD_eq_getElem _ _ ha]
    exact hall _ (List.getElem_mem _)
  · rw [List.getD_eq_default _ _ ha, Matrix.trace_zero]

theorem IsLabel.unitary {n : ℕ} (hn : 2 ≤ n) {S : List ℤ} {d : ℕ} {r : Rep (n ^ 2 - 1) 0 d} (h : IsLabel n S r) :
    IsUnitaryRep r := by
  refine ⟨fun a => a.elim0, fun a => ?_⟩
  obtain ⟨L, hL, e⟩ := h.g
  have h2 : 2 ≤ S.length := by rw [h.l]; exact hn
  obtain ⟨f, hf, -, hstar⟩ := C69_generators h.m h2 h.d
  rw [hL] at hf
  cases hf
  have hl := length_suBasis' S.length
  rw [e, genFn_map, ← hstar, suBasis_skew (getD_mem (by rw [hl, h.l]; exact a.2)), map_neg]

theorem IsLabel.indep {n : ℕ} {S : List ℤ} {d : ℕ} {r : Rep (n ^ 2 - 1) 0 d} (h : IsLabel n S r) (hne : ∃ s ∈ S, s ≠ 0) :
    LinearIndependent ℂ r.X := by
  obtain ⟨L, hL, e⟩ := h.g
  have := C69_faithful h.m hne h.d hL
  rw [e]
  rwa [h.l] at this

/-- The generators are the image of the basis of `su(n)` under a homomorphism of Lie algebras. -/
theorem IsLabel.lie {n : ℕ} (hn : 2 ≤ n) {S : List ℤ} {d : ℕ} {r : Rep (n ^ 2 - 1) 0 d} (h : IsLabel n S r) :
    ∃ f : Matrix (Fin n) (Fin n) ℂ →ₗ[ℂ] Matrix (Fin d) (Fin d) ℂ, (∀ a, r.X a = f ((suBasis n).getD a 0)) ∧
      ∀ x y, f (x * y - y * x) = f x * f y - f y * f x := by
  obtain ⟨hm, hl, hd, L, hL, e⟩ := h
  subst hl
  obtain ⟨f, hf, hlie, -⟩ := C69_generators hm hn hd
  rw [hL] at hf
  cases hf
  exact ⟨f, fun a => by rw [e, genFn_map], hlie⟩

/-- Structure constants of the basis of `su(n)`. -/
theorem exists_structure (n : ℕ) : ∃ A : Fin (n ^ 2 - 1) → Fin (n ^ 2 - 1) → Fin (n ^ 2 - 1) → ℂ, ∀ i j : Fin (n ^ 2 - 1),
    (suBasis n).getD i 0 * (suBasis n).getD j 0 - (suBasis n).getD j 0 * (suBasis n).getD i 0 =
      ∑ k : Fin (n ^ 2 - 1), A i j k • (suBasis n).getD k 0 := by
  obtain ⟨hl, -, hs, hex⟩ := C69_basis n
  have hex' : ∀ m, (suBasis n).length = m → ∀ y : Matrix (Fin n) (Fin n) ℂ, y.conjTranspose = -y → y.trace = 0 →
      ∃ c : Fin m → ℝ, y = ∑ k, (c k : ℂ) • (suBasis n).getD k 0 := by
    rintro _ rfl
    exact hex
  have hb : ∀ i j : Fin (n ^ 2 - 1), ∃ c : Fin (n ^ 2 - 1) → ℝ,
      (suBasis n).getD i 0 * (suBasis n).getD j 0 - (suBasis n).getD j 0 * (suBasis n).getD i 0 =
        ∑ k, (c k : ℂ) • (suBasis n).getD k 0 := by
    intro i j
    have hi := (hs _ (getD_mem (d := 0) (by rw [hl]; exact i.2 : (i : ℕ) < _))).1
    have hj := (hs _ (getD_mem (d := 0) (by rw [hl]; exact j.2 : (j : ℕ) < _))).1
    refine hex' _ hl _ ?_ ?_
    · rw [Matrix.conjTranspose_sub, Matrix.conjTranspose_mul, Matrix.conjTranspose_mul, hi, hj, neg_mul_neg, neg_mul_neg, neg_sub]
    · rw [Matrix.trace_sub, Matrix.trace_mul_comm, sub_self]
  choose A hA using hb
  exact ⟨fun i j k => A i j k, hA⟩

theorem IsLabel.isRep {n : ℕ} (hn : 2 ≤ n) {S : List ℤ} {d : ℕ} {r : Rep (n ^ 2 - 1) 0 d} (h : IsLabel n S r)
    {A : Fin (n ^ 2 - 1) → Fin (n ^ 2 - 1) → Fin (n ^ 2 - 1) → ℂ} (hA : ∀ i j : Fin (n ^ 2 - 1),
      (suBasis n).getD i 0 * (suBasis n).getD j 0 - (suBasis n).getD j 0 * (suBasis n).getD i 0 =
        ∑ k : Fin (n ^ 2 - 1), A i j k • (suBasis n).getD k 0) : IsRep (⟨A, r.X, r.H⟩ : Rep (n ^ 2 - 1) 0 d) := by
  obtain ⟨f, hf, hlie⟩ := h.lie hn
  intro i j
  change r.X i * r.X j - r.X j * r.X i = ∑ k, A i j k • r.X k
  simp only [hf]
  rw [← hlie, hA, map_sum]
  exact Finset.sum_congr rfl fun k _ => map_smul _ _ _

end LieNN.SUN
