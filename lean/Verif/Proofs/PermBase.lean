import Verif.Proofs.PermRepr
import Verif.Proofs.PyMap
import Mathlib.LinearAlgebra.Dimension.Constructions
import Mathlib.Algebra.BigOperators.Fin
import Mathlib.Data.Fintype.BigOperators
import Mathlib.Tactic.Linarith
import Mathlib.Tactic.FieldSimp

/-! # Index symmetric tensors: `reduce_permutation_base` and `reduce_permutation_matrix` -/
namespace LieNN.PermRepr
open LieNN.Spec LieNN.Perm

variable {n : ℕ}

/-! ### Row-major indices -/

theorem rowMajor_succ (δ ξ : Fin (n + 1) → ℕ) :
    rowMajor δ ξ = ξ 0 * ∏ k, δ (Fin.succ k) + rowMajor (fun k => δ k.succ) fun k => ξ k.succ := by
  simp only [rowMajor, Fin.sum_univ_succ, Finset.prod_filter, Fin.prod_univ_succ]
  simp

theorem flat_aux (δ ξ : Fin n → ℕ) (j0 : ℕ) :
    ((List.ofFn ξ).zip (List.ofFn δ)).foldl (fun j kd => j * kd.2 + kd.1) j0 =
      j0 * ∏ k, δ k + rowMajor δ ξ := by
  induction n generalizing j0 with
  | zero => simp [rowMajor]
  | succ n ih =>
    rw [List.ofFn_succ, List.ofFn_succ, List.zip_cons_cons, List.foldl_cons, ih, rowMajor_succ,
      Fin.prod_univ_succ]
    ring

theorem flat_ofFn (δ ξ : Fin n → ℕ) : flat (List.ofFn ξ) (List.ofFn δ) = rowMajor δ ξ := by
  rw [flat, flat_aux]; simp

theorem mem_box {δ ξ : Fin n → ℕ} :
    ξ ∈ Fintype.piFinset (fun k => Finset.range (δ k)) ↔ ∀ k, ξ k < δ k := by
  simp [Fintype.mem_piFinset]

theorem rowMajor_lt {δ ξ : Fin n → ℕ} (h : ∀ k, ξ k < δ k) : rowMajor δ ξ < ∏ k, δ k := by
  induction n with
  | zero => simp [rowMajor]
  | succ n ih =>
    rw [rowMajor_succ, Fin.prod_univ_succ]
    have := ih (δ := fun k => δ k.succ) (ξ := fun k => ξ k.succ) fun k => h k.succ
    have h0 := h 0
    calc _ < ξ 0 * ∏ k, δ (Fin.succ k) + ∏ k, δ (Fin.succ k) := by omega
      _ = (ξ 0 + 1) * ∏ k, δ (Fin.succ k) := by ring
      _ ≤ _ := Nat.mul_le_mul_right _ h0

theorem rowMajor_inj {δ ξ η : Fin n → ℕ} (h : ∀ k, ξ k < δ k) (h' : ∀ k, η k < δ k)
    (he : rowMajor δ ξ = rowMajor δ η) : ξ = η := by
  induction n with
  | zero => exact Subsingleton.elim _ _
  | succ n ih =>
    rw [rowMajor_succ, rowMajor_succ] at he
    have h1 := rowMajor_lt (δ := fun k => δ k.succ) (ξ := fun k => ξ k.succ) fun k => h k.succ
    have h2 := rowMajor_lt (δ := fun k => δ k.succ) (ξ := fun k => η k.succ) fun k => h' k.succ
    set P := ∏ k, δ (Fin.succ k)
    have hP : 0 < P := by omega
    have hd := congrArg (· / P) he
    have hm := congrArg (· % P) he
    simp only [Nat.mul_comm _ P, Nat.mul_add_div hP, Nat.mul_add_mod, Nat.div_eq_of_lt h1,
      Nat.div_eq_of_lt h2, Nat.mod_eq_of_lt h1, Nat.mod_eq_of_lt h2, add_zero] at hd hm
    have := ih (fun k => h k.succ) (fun k => h' k.succ) hm
    funext k
    refine Fin.cases hd (fun i => congrFun this i) k

theorem sum_rowMajor {δ : Fin n → ℕ} (f : ℕ → ℝ) :
    ∑ k ∈ Finset.range (∏ k, δ k), f k = ∑ ξ : Box δ, f (rowMajor δ ξ.1) := by
  have hinj : Function.Injective fun ξ : Box δ => rowMajor δ ξ.1 := fun a b h =>
    Subtype.ext (rowMajor_inj (mem_box.1 a.2) (mem_box.1 b.2) h)
  have himg : Finset.univ.image (fun ξ : Box δ => rowMajor δ ξ.1) = Finset.range (∏ k, δ k) := by
    apply Finset.eq_of_subset_of_card_le
    · intro j hj
      obtain ⟨ξ, _, rfl⟩ := Finset.mem_image.1 hj
      exact Finset.mem_range.2 (rowMajor_lt (mem_box.1 ξ.2))
    · rw [Finset.card_image_of_injective _ hinj, Finset.card_univ, Fintype.card_coe,
        Fintype.card_piFinset]
      simp
  rw [← himg, Finset.sum_image (fun a _ b _ h => hinj h)]

theorem mem_fullBase (δ : Fin n → ℕ) (l : List ℕ) :
    l ∈ fullBase (List.ofFn δ) ↔ ∃ ξ : Box δ, l = List.ofFn ξ.1 := by
  induction n generalizing l with
  | zero =>
    simp only [List.ofFn_zero, fullBase, List.mem_singleton]
    exact ⟨fun h => ⟨⟨fun k => k.elim0, mem_box.2 fun k => k.elim0⟩, h⟩, fun ⟨_, h⟩ => h⟩
  | succ n ih =>
    rw [List.ofFn_succ, fullBase]
    simp only [List.mem_flatMap, List.mem_range, List.mem_map]
    constructor
    · rintro ⟨i, hi, x, hx, rfl⟩
      obtain ⟨ξ, rfl⟩ := (ih _ x).1 hx
      refine ⟨⟨Fin.cons i ξ.1, mem_box.2 fun k => ?_⟩, ?_⟩
      · refine Fin.cases ?_ (fun j => ?_) k
        · simpa using hi
        · simpa using mem_box.1 ξ.2 j
      · rw [List.ofFn_succ]; simp
    · rintro ⟨ξ, rfl⟩
      refine ⟨ξ.1 0, mem_box.1 ξ.2 0, List.ofFn fun k => ξ.1 k.succ, (ih _ _).2
        ⟨⟨fun k => ξ.1 k.succ, mem_box.2 fun k => mem_box.1 ξ.2 k.succ⟩, rfl⟩, ?_⟩
      rw [List.ofFn_succ]

theorem permute_tup (ξ : Fin n → ℕ) (σ : Equiv.Perm (Fin n)) :
    permute (List.ofFn ξ) (tup σ) = .ok (List.ofFn (ξ ∘ σ)) := by
  have : permute (List.ofFn ξ) (tup σ) = .ok ((tup σ).map fun i => (List.ofFn ξ).getD i 0) := by
    apply mapM_ok
    intro i hi
    obtain ⟨k, rfl⟩ := List.mem_ofFn.1 hi
    simp
  rw [this, tup, List.map_ofFn]
  congr 2
  funext k
  simp

/-! ### Orbits -/

/-- The signed orbit of a multi-index. -/
def orb (Gf : Finset (SignedPerm n)) (ξ : Fin n → ℕ) : Finset SP :=
  Gf.image fun g => ((g.1 : ℤ), List.ofFn (ξ ∘ g.2))

theorem orbit_stup (Gf : Finset (SignedPerm n)) (ξ : Fin n → ℕ) :
    orbit (Gf.image stup) (List.ofFn ξ) = .ok (orb Gf ξ) := by
  apply imagePy_image
  rintro ⟨u, σ⟩ _
  simp only [stup, permute_tup]
  rfl

/-- The unordered pair of the orbit and its negative. -/
def opair (Gf : Finset (SignedPerm n)) (ξ : Fin n → ℕ) : Finset (Finset SP) :=
  {orb Gf ξ, negate (orb Gf ξ)}

/-- No element of the group fixes `ξ` with the sign `-1`. -/
def Adm (G : Subgroup (SignedPerm n)) (ξ : Fin n → ℕ) : Prop :=
  ∀ g ∈ G, ξ ∘ g.2 = ξ → g.1 = 1

variable {G : Subgroup (SignedPerm n)} {Gf : Finset (SignedPerm n)} (hG : ∀ g, g ∈ Gf ↔ g ∈ G)

include hG in
theorem mem_orb {ξ η : Fin n → ℕ} {s : ℤ} :
    (s, List.ofFn η) ∈ orb Gf ξ ↔ ∃ g ∈ G, s = (g.1 : ℤ) ∧ η = ξ ∘ g.2 := by
  simp only [orb, Finset.mem_image, Prod.mk.injEq]
  constructor
  · rintro ⟨g, hg, h1, h2⟩
    exact ⟨g, (hG g).1 hg, h1.symm, (List.ofFn_injective h2).symm⟩
  · rintro ⟨g, hg, rfl, rfl⟩
    exact ⟨g, (hG g).2 hg, rfl, rfl⟩

include hG in
theorem adm_iff {ξ : Fin n → ℕ} : (-1, List.ofFn ξ) ∉ orb Gf ξ ↔ Adm G ξ := by
  rw [mem_orb hG]
  constructor
  · intro h g hg hx
    rcases Int.units_eq_one_or g.1 with h1 | h1
    · exact h1
    · exact absurd ⟨g, hg, by simp [h1], hx.symm⟩ h
  · rintro h ⟨g, hg, h1, h2⟩
    have := h g hg h2.symm
    rw [this] at h1
    simp at h1

theorem baseLoop_spec (M : List (List ℕ)) (hM : ∀ x ∈ M, ∃ ξ : Fin n → ℕ, x = List.ofFn ξ)
    (hG : ∀ g, g ∈ Gf ↔ g ∈ G) (b : Finset (Finset (Finset SP))) :
    ∃ b', baseLoop (Gf.image stup) M b = .ok b' ∧
      ∀ y, y ∈ b' ↔ y ∈ b ∨ ∃ ξ, List.ofFn ξ ∈ M ∧ Adm G ξ ∧ y = opair Gf ξ := by
  induction M generalizing b with
  | nil => exact ⟨b, rfl, by simp⟩
  | cons x M ih =>
    obtain ⟨ξ, rfl⟩ := hM x (by simp)
    have hM' := fun x hx => hM x (List.mem_cons_of_mem _ hx)
    rw [baseLoop, orbit_stup]
    show ∃ b', baseLoop (Gf.image stup) M (if (-1, List.ofFn ξ) ∉ orb Gf ξ then
      insert {orb Gf ξ, negate (orb Gf ξ)} b else b) = _ ∧ _
    by_cases ha : Adm G ξ
    · rw [if_pos ((adm_iff hG).2 ha)]
      obtain ⟨b', h1, h2⟩ := ih hM' (insert {orb Gf ξ, negate (orb Gf ξ)} b)
      refine ⟨b', h1, fun y => ?_⟩
      rw [h2, Finset.mem_insert]
      constructor
      · rintro ((rfl | h) | ⟨η, h, h3⟩)
        · exact Or.inr ⟨ξ, by simp, ha, rfl⟩
        · exact Or.inl h
        · exact Or.inr ⟨η, List.mem_cons_of_mem _ h, h3⟩
      · rintro (h | ⟨η, h, h3, rfl⟩)
        · exact Or.inl (Or.inr h)
        · rcases List.mem_cons.1 h with h | h
          · rw [List.ofFn_injective h]; exact Or.inl (Or.inl rfl)
          · exact Or.inr ⟨η, h, h3, rfl⟩
    · rw [if_neg (fun h => ha ((adm_iff hG).1 h))]
      obtain ⟨b', h1, h2⟩ := ih hM' b
      refine ⟨b', h1, fun y => ?_⟩
      rw [h2]
      constructor
      · rintro (h | ⟨η, h, h3⟩)
        · exact Or.inl h
        · exact Or.inr ⟨η, List.mem_cons_of_mem _ h, h3⟩
      · rintro (h | ⟨η, h, h3, rfl⟩)
        · exact Or.inl h
        · rcases List.mem_cons.1 h with h | h
          · rw [List.ofFn_injective h] at h3; exact absurd h3 ha
          · exact Or.inr ⟨η, h, h3, rfl⟩

theorem base_spec (hG : ∀ g, g ∈ Gf ↔ g ∈ G) (δ : Fin n → ℕ) :
    ∃ b, base (Gf.image stup) (List.ofFn δ) = .ok b ∧
      ∀ y, y ∈ b ↔ ∃ ξ : Box δ, Adm G ξ.1 ∧ y = opair Gf ξ.1 := by
  obtain ⟨b, h1, h2⟩ := baseLoop_spec (fullBase (List.ofFn δ))
    (fun x hx => (let ⟨ξ, h⟩ := (mem_fullBase δ x).1 hx; ⟨ξ.1, h⟩)) hG ∅
  refine ⟨b, h1, fun y => ?_⟩
  rw [h2]
  constructor
  · rintro (h | ⟨ξ, h, h3⟩)
    · simp at h
    · obtain ⟨η, h⟩ := (mem_fullBase δ _).1 h
      rw [List.ofFn_injective h] at h3
      exact ⟨η, h3⟩
  · rintro ⟨ξ, h⟩
    exact Or.inr ⟨ξ.1, (mem_fullBase δ _).2 ⟨ξ, rfl⟩, h⟩

theorem units_sq (u : ℤˣ) : (u : ℤ) * u = 1 := by
  rcases Int.units_eq_one_or u with rfl | rfl <;> rfl

theorem negate_negate (X : Finset SP) : negate (negate X) = X := by
  rw [negate, negate, Finset.image_image]
  have : ((fun y : SP => (-y.1, y.2)) ∘ fun y : SP => (-y.1, y.2)) = id := by
    funext y; simp
  rw [this, Finset.image_id]

theorem mem_negate {X : Finset SP} {s : ℤ} {y : List ℕ} : (s, y) ∈ negate X ↔ (-s, y) ∈ X := by
  simp only [negate, Finset.mem_image, Prod.mk.injEq, Prod.exists]
  constructor
  · rintro ⟨a, b, h, rfl, rfl⟩; simpa using h
  · intro h; exact ⟨-s, y, h, by simp, rfl⟩

theorem orb_elem {ξ : Fin n → ℕ} {x : SP} (hx : x ∈ orb Gf ξ) :
    ∃ s η, x = (s, List.ofFn (n := n) η) := by
  obtain ⟨g, _, rfl⟩ := Finset.mem_image.1 hx
  exact ⟨_, _, rfl⟩

include hG in
theorem orb_comp {ξ : Fin n → ℕ} {g : SignedPerm n} (hg : g ∈ G) (s : ℤ) (η : Fin n → ℕ) :
    (s, List.ofFn η) ∈ orb Gf (ξ ∘ g.2) ↔ (g.1 * s, List.ofFn η) ∈ orb Gf ξ := by
  rw [mem_orb hG, mem_orb hG]
  constructor
  · rintro ⟨h, hh, rfl, rfl⟩
    exact ⟨g * h, mul_mem hg hh, by simp, by rfl⟩
  · rintro ⟨h, hh, h1, rfl⟩
    refine ⟨g⁻¹ * h, mul_mem (inv_mem hg) hh, ?_, ?_⟩
    · simp only [Prod.fst_mul, Prod.fst_inv, Units.val_mul, Int.units_inv_eq_self]
      rw [← h1, ← mul_assoc, units_sq, one_mul]
    · funext k; simp

include hG in
theorem opair_comp {ξ : Fin n → ℕ} {g : SignedPerm n} (hg : g ∈ G) :
    opair Gf (ξ ∘ g.2) = opair Gf ξ := by
  rcases Int.units_eq_one_or g.1 with h1 | h1
  · have : orb Gf (ξ ∘ g.2) = orb Gf ξ := by
      ext x
      constructor
      · intro hx
        obtain ⟨s, η, rfl⟩ := orb_elem hx
        simpa [h1] using (orb_comp hG hg s η).1 hx
      · intro hx
        obtain ⟨s, η, rfl⟩ := orb_elem hx
        exact (orb_comp hG hg s η).2 (by simpa [h1] using hx)
    rw [opair, opair, this]
  · have : orb Gf (ξ ∘ g.2) = negate (orb Gf ξ) := by
      ext x
      constructor
      · intro hx
        obtain ⟨s, η, rfl⟩ := orb_elem hx
        rw [mem_negate]
        simpa [h1] using (orb_comp hG hg s η).1 hx
      · intro hx
        obtain ⟨s, y⟩ := x
        rw [mem_negate] at hx
        obtain ⟨s', η, h⟩ := orb_elem hx
        obtain ⟨rfl, rfl⟩ := Prod.mk.inj h
        exact (orb_comp hG hg s η).2 (by simpa [h1] using hx)
    rw [opair, opair, this, negate_negate, Finset.pair_comm]

include hG in
theorem self_mem_orb (ξ : Fin n → ℕ) : (1, List.ofFn ξ) ∈ orb Gf ξ :=
  (mem_orb hG).2 ⟨1, one_mem _, rfl, rfl⟩

include hG in
theorem opair_eq_iff {ξ ξ' : Fin n → ℕ} :
    opair Gf ξ = opair Gf ξ' ↔ ∃ g ∈ G, ξ' = ξ ∘ g.2 := by
  constructor
  · intro h
    have : orb Gf ξ' ∈ opair Gf ξ := by rw [h]; simp [opair]
    rw [opair, Finset.mem_insert, Finset.mem_singleton] at this
    have h1 := self_mem_orb hG ξ'
    rcases this with h2 | h2
    · rw [h2, mem_orb hG] at h1
      obtain ⟨g, hg, _, h3⟩ := h1
      exact ⟨g, hg, h3⟩
    · rw [h2, mem_negate, mem_orb hG] at h1
      obtain ⟨g, hg, _, h3⟩ := h1
      exact ⟨g, hg, h3⟩
  · rintro ⟨g, hg, rfl⟩
    exact (opair_comp hG hg).symm

theorem adm_sign {ξ : Fin n → ℕ} (ha : Adm G ξ) {g h : SignedPerm n} (hg : g ∈ G) (hh : h ∈ G)
    (he : ξ ∘ g.2 = ξ ∘ h.2) : g.1 = h.1 := by
  have := ha (g * h⁻¹) (mul_mem hg (inv_mem hh)) (by
    funext k
    have := congrFun he (h.2⁻¹ k)
    simpa using this)
  simp only [Prod.fst_mul, Prod.fst_inv] at this
  exact mul_inv_eq_one.1 this

theorem adm_comp {ξ : Fin n → ℕ} (ha : Adm G ξ) {g : SignedPerm n} (hg : g ∈ G) :
    Adm G (ξ ∘ g.2) := by
  intro h hh he
  have := adm_sign ha (mul_mem hg hh) hg he
  simpa using this

/-! ### Rows -/

theorem row_aux (dims : List ℕ) (c : ℝ) (x : List SPL) (q0 : ℕ → ℝ)
    (hb : ∀ y ∈ x, flat (ofLex y).2 dims < dims.prod)
    (hnd : (x.map fun y => flat (ofLex y).2 dims).Nodup) :
    ∃ q, (x.foldlM (fun q y =>
        if flat (ofLex y).2 dims < dims.prod then
          .ok (Function.update q (flat (ofLex y).2 dims) ((ofLex y).1 / c))
        else .error .indexError) q0 : Py (ℕ → ℝ)) = .ok q ∧
      (∀ y ∈ x, q (flat (ofLex y).2 dims) = (ofLex y).1 / c) ∧
      ∀ j, (∀ y ∈ x, flat (ofLex y).2 dims ≠ j) → q j = q0 j := by
  induction x generalizing q0 with
  | nil => exact ⟨q0, rfl, by simp, by simp⟩
  | cons y x ih =>
    rw [List.map_cons, List.nodup_cons] at hnd
    obtain ⟨q, h1, h2, h3⟩ := ih (Function.update q0 (flat (ofLex y).2 dims) ((ofLex y).1 / c))
      (fun z hz => hb z (by simp [hz])) hnd.2
    refine ⟨q, ?_, ?_, ?_⟩
    · rw [List.foldlM_cons, if_pos (hb y (by simp))]
      exact h1
    · intro z hz
      rcases List.mem_cons.1 hz with rfl | hz
      · rw [h3 _ (fun w hw he => hnd.1 (List.mem_map.2 ⟨w, hw, he⟩))]
        simp
      · exact h2 z hz
    · intro j hj
      rw [h3 j (fun z hz => hj z (by simp [hz])), Function.update_of_ne]
      exact (hj y (by simp)).symm

/-- The entries of a row add up to the sum of the signs. -/
theorem row_sum (dims : List ℕ) (c : ℝ) (x : List SPL) (q0 q : ℕ → ℝ)
    (hnd : (x.map fun y => flat (ofLex y).2 dims).Nodup)
    (h0 : ∀ y ∈ x, q0 (flat (ofLex y).2 dims) = 0)
    (h : (x.foldlM (fun q y =>
        if flat (ofLex y).2 dims < dims.prod then
          .ok (Function.update q (flat (ofLex y).2 dims) ((ofLex y).1 / c))
        else .error .indexError) q0 : Py (ℕ → ℝ)) = .ok q) :
    ∑ k ∈ Finset.range dims.prod, q k = ∑ k ∈ Finset.range dims.prod, q0 k + signSum x / c := by
  induction x generalizing q0 with
  | nil =>
    have h : (Except.ok q0 : Py (ℕ → ℝ)) = .ok q := h
    rw [Except.ok.inj h]
    simp [signSum]
  | cons y x ih =>
    rw [List.map_cons, List.nodup_cons] at hnd
    rw [List.foldlM_cons] at h
    split_ifs at h with hb
    · rw [ih (Function.update q0 (flat (ofLex y).2 dims) ((ofLex y).1 / c)) hnd.2 (fun z hz => by
        rw [Function.update_of_ne (fun he => hnd.1 (List.mem_map.2 ⟨z, hz, he⟩))]
        exact h0 z (by simp [hz])) h,
        Finset.sum_update_of_mem (Finset.mem_range.2 hb),
        ← Finset.sum_sdiff (Finset.singleton_subset_iff.2 (Finset.mem_range.2 hb)) (f := q0),
        Finset.sum_singleton, h0 y (by simp)]
      simp only [signSum, List.map_cons, List.sum_cons]
      push_cast
      ring
    · exact absurd h (by simp [bind, Except.bind])

theorem pick_max {l : List (List SPL)} {m : List SPL} (h : pick l = .ok m) :
    ∀ b ∈ l, signSum b ≤ signSum m := by
  cases l with
  | nil => simp [pick] at h
  | cons a l =>
    simp only [pick, Except.ok.injEq] at h
    subst h
    induction l generalizing a with
    | nil => simp
    | cons b l ih =>
      rw [List.foldl_cons]
      intro x hx
      split_ifs with hab
      · have := ih b
        rcases List.mem_cons.1 hx with rfl | hx
        · exact hab.le.trans (this b (by simp))
        · exact this x hx
      · have := ih a
        rcases List.mem_cons.1 hx with rfl | hx
        · exact this x (by simp)
        · rcases List.mem_cons.1 hx with rfl | hx
          · exact (not_lt.1 hab).trans (this a (by simp))
          · exact this x (by simp [hx])

theorem pick_mem {a : List SPL} {l : List (List SPL)} :
    ∃ m ∈ a :: l, pick (a :: l) = .ok m := by
  refine ⟨_, ?_, rfl⟩
  induction l generalizing a with
  | nil => simp
  | cons b l ih =>
    rw [List.foldl_cons]
    split_ifs
    · exact List.mem_cons_of_mem _ ih
    · have := ih (a := a)
      rcases List.mem_cons.1 this with h | h
      · rw [h]; simp
      · exact List.mem_cons_of_mem _ (List.mem_cons_of_mem _ h)

theorem mem_sortSet {X : Finset SP} {y : SPL} : y ∈ sortSet X ↔ ofLex y ∈ X := by
  simp only [sortSet, Finset.mem_sort, Finset.mem_image]
  constructor
  · rintro ⟨a, h, rfl⟩; exact h
  · intro h; exact ⟨_, h, rfl⟩

theorem length_sortSet (X : Finset SP) : (sortSet X).length = X.card := by
  rw [sortSet, Finset.length_sort, Finset.card_image_of_injective _ toLex.injective]

theorem card_negate (X : Finset SP) : (negate X).card = X.card := by
  apply Finset.card_image_of_injective
  rintro ⟨a, b⟩ ⟨c, d⟩ h
  simp only [Prod.mk.injEq, neg_inj] at h
  exact Prod.ext h.1 h.2

theorem signSum_sortSet (X : Finset SP) : signSum (sortSet X) = ∑ x ∈ X, x.1 := by
  have h : (sortSet X).toFinset = X.image toLex := Finset.sort_toFinset _ _
  have hn : (sortSet X).Nodup := Finset.sort_nodup _ _
  rw [signSum, ← List.sum_toFinset _ hn, h,
    Finset.sum_image toLex.injective.injOn]
  rfl

theorem signSum_negate (X : Finset SP) : signSum (sortSet (negate X)) = -signSum (sortSet X) := by
  rw [signSum_sortSet, signSum_sortSet, negate, Finset.sum_image, Finset.sum_neg_distrib]
  rintro ⟨a, b⟩ - ⟨c, d⟩ - h
  simp only [Prod.mk.injEq, neg_inj] at h
  exact Prod.ext h.1 h.2

theorem mem_sortPair {x : Finset (Finset SP)} {l : List SPL} :
    l ∈ sortPair x ↔ ∃ X ∈ x, l = sortSet X := by
  rw [sortPair, (List.mergeSort_perm _ _).mem_iff]
  simp only [List.mem_map, Finset.mem_toList]
  exact ⟨fun ⟨X, h, e⟩ => ⟨X, h, e.symm⟩, fun ⟨X, h, e⟩ => ⟨X, h, e.symm⟩⟩

theorem sortSet_injective : Function.Injective sortSet := by
  intro X Y h
  ext x
  have := congrArg (toLex x ∈ ·) h
  simpa [mem_sortSet] using this

theorem sortPair_injective : Function.Injective sortPair := by
  intro x y h
  ext X
  have := congrArg (sortSet X ∈ ·) h
  simp only [mem_sortPair, eq_iff_iff] at this
  constructor
  · intro hX
    obtain ⟨Y, hY, e⟩ := this.1 ⟨X, hX, rfl⟩
    rwa [sortSet_injective e]
  · intro hX
    obtain ⟨Y, hY, e⟩ := this.2 ⟨X, hX, rfl⟩
    rwa [sortSet_injective e]

/-- `v` is the normalised indicator of the orbit of `ξ`, with the signs of the group. -/
def IsVec (G : Subgroup (SignedPerm n)) (Gf : Finset (SignedPerm n)) {δ : Fin n → ℕ}
    (ξ : Fin n → ℕ) (v : Box δ → ℝ) : Prop :=
  ∃ ε : ℤˣ, (∀ g ∈ G, ∀ η : Box δ, η.1 = ξ ∘ g.2 →
      v η = ((ε : ℤ) : ℝ) * ((g.1 : ℤ) : ℝ) / Real.sqrt (orb Gf ξ).card) ∧
    ∀ η : Box δ, (∀ g ∈ G, η.1 ≠ ξ ∘ g.2) → v η = 0

theorem prod_ofFn' (δ : Fin n → ℕ) : (List.ofFn δ).prod = ∏ k, δ k := List.prod_ofFn

theorem comp_mem {δ : Fin n → ℕ} (hδ : ∀ g ∈ G, δ ∘ g.2 = δ) {ξ : Fin n → ℕ} (h : ∀ k, ξ k < δ k)
    {g : SignedPerm n} (hg : g ∈ G) : ∀ k, (ξ ∘ g.2) k < δ k := by
  intro k
  have := h (g.2 k)
  rwa [show δ (g.2 k) = δ k from congrFun (hδ g hg) k] at this

include hG in
theorem row_signed {δ : Fin n → ℕ} (hδ : ∀ g ∈ G, δ ∘ g.2 = δ) (ξ : Box δ) (ha : Adm G ξ.1)
    (ε : ℤˣ) (X : Finset SP) (hX : ∀ s η, (s, List.ofFn (n := n) η) ∈ X ↔ (ε * s, List.ofFn η) ∈ orb Gf ξ.1)
    (hX' : ∀ x ∈ X, ∃ s η, x = (s, List.ofFn (n := n) η)) (hc : X.card = (orb Gf ξ.1).card) :
    ∃ q, row (List.ofFn δ) (sortSet X) = .ok q ∧
      (IsVec G Gf ξ.1 fun η : Box δ => q (rowMajor δ η.1)) ∧
      ∑ k ∈ Finset.range (List.ofFn δ).prod, q k =
        signSum (sortSet X) / Real.sqrt (sortSet X).length := by
  have hbox : ∀ y ∈ sortSet X, ∃ g ∈ G, ofLex y = ((ε : ℤ) * g.1, List.ofFn (ξ.1 ∘ g.2)) := by
    intro y hy
    have hy := mem_sortSet.1 hy
    obtain ⟨s, η, h⟩ := hX' _ hy
    rw [h, hX, mem_orb hG] at hy
    obtain ⟨g, hg, h1, rfl⟩ := hy
    refine ⟨g, hg, ?_⟩
    rw [h, ← h1, ← mul_assoc, units_sq, one_mul]
  have hnd : ((sortSet X).map fun y => flat (ofLex y).2 (List.ofFn δ)).Nodup := by
    apply List.Nodup.map_on _ (Finset.sort_nodup _ _)
    intro y hy z hz he
    obtain ⟨g, hg, h⟩ := hbox y hy
    obtain ⟨g', hg', h'⟩ := hbox z hz
    rw [h, h', flat_ofFn, flat_ofFn] at he
    have := rowMajor_inj (comp_mem hδ (mem_box.1 ξ.2) hg) (comp_mem hδ (mem_box.1 ξ.2) hg') he
    have hs := adm_sign ha hg hg' this
    apply ofLex.injective
    rw [h, h', hs, this]
  obtain ⟨q, h1, h2, h3⟩ := row_aux (List.ofFn δ) (Real.sqrt (sortSet X).length) (sortSet X) (fun _ => 0)
    (by
      intro y hy
      obtain ⟨g, hg, h⟩ := hbox y hy
      rw [h, flat_ofFn, prod_ofFn']
      exact rowMajor_lt (comp_mem hδ (mem_box.1 ξ.2) hg)) hnd
  refine ⟨q, h1, ⟨ε, ?_, ?_⟩, by
    rw [row_sum _ _ _ _ q hnd (fun _ _ => rfl) h1, Finset.sum_const_zero, zero_add]⟩
  · intro g hg η hη
    have hm : toLex (((ε : ℤ) * g.1, List.ofFn η.1) : SP) ∈ sortSet X := by
      rw [mem_sortSet]
      show ((ε : ℤ) * g.1, List.ofFn η.1) ∈ X
      rw [hX, ← mul_assoc, units_sq, one_mul, mem_orb hG]
      exact ⟨g, hg, rfl, hη⟩
    have := h2 _ hm
    simp only [ofLex_toLex, flat_ofFn, length_sortSet, hc] at this
    show q (rowMajor δ η.1) = _
    rw [this]
    push_cast
    ring
  · intro η hη
    apply h3
    intro y hy he
    obtain ⟨g, hg, h⟩ := hbox y hy
    rw [h, flat_ofFn] at he
    exact hη g hg (rowMajor_inj (comp_mem hδ (mem_box.1 ξ.2) hg) (mem_box.1 η.2) he).symm

include hG in
theorem row_pair {δ : Fin n → ℕ} (hδ : ∀ g ∈ G, δ ∘ g.2 = δ) (ξ : Box δ) (ha : Adm G ξ.1) :
    ∃ q, (do row (List.ofFn δ) (← pick (sortPair (opair Gf ξ.1)))) = .ok q ∧
      (IsVec G Gf ξ.1 fun η : Box δ => q (rowMajor δ η.1)) ∧
      0 ≤ ∑ k ∈ Finset.range (List.ofFn δ).prod, q k := by
  have hne : sortPair (opair Gf ξ.1) ≠ [] := by
    intro h
    have : sortSet (orb Gf ξ.1) ∈ sortPair (opair Gf ξ.1) :=
      mem_sortPair.2 ⟨_, by simp [opair], rfl⟩
    rw [h] at this
    simp at this
  obtain ⟨a, l, hal⟩ := List.exists_cons_of_ne_nil hne
  obtain ⟨m, hm, hp⟩ := pick_mem (a := a) (l := l)
  rw [← hal] at hm hp
  have hmax := pick_max hp
  have hm1 : sortSet (orb Gf ξ.1) ∈ sortPair (opair Gf ξ.1) :=
    mem_sortPair.2 ⟨_, by simp [opair], rfl⟩
  have hm2 : sortSet (negate (orb Gf ξ.1)) ∈ sortPair (opair Gf ξ.1) :=
    mem_sortPair.2 ⟨_, by simp [opair], rfl⟩
  have hge : 0 ≤ signSum m := by
    have a1 := hmax _ hm1
    have a2 := hmax _ hm2
    rw [signSum_negate] at a2
    omega
  rw [hp]
  show ∃ q, row _ m = _ ∧ _
  suffices h : ∃ q, row (List.ofFn δ) m = .ok q ∧
      (IsVec G Gf ξ.1 fun η : Box δ => q (rowMajor δ η.1)) ∧
      ∑ k ∈ Finset.range (List.ofFn δ).prod, q k = signSum m / Real.sqrt m.length by
    obtain ⟨q, h1, h2, h3⟩ := h
    refine ⟨q, h1, h2, ?_⟩
    rw [h3]
    exact div_nonneg (by exact_mod_cast hge) (Real.sqrt_nonneg _)
  obtain ⟨X, hX, rfl⟩ := mem_sortPair.1 hm
  rw [opair, Finset.mem_insert, Finset.mem_singleton] at hX
  rcases hX with rfl | rfl
  · exact row_signed hG hδ ξ ha 1 _ (by simp) (fun x hx => orb_elem hx) rfl
  · refine row_signed hG hδ ξ ha (-1) _ (by simp [mem_negate]) ?_ (card_negate _)
    rintro ⟨s, y⟩ hx
    rw [mem_negate] at hx
    obtain ⟨s', η, h⟩ := orb_elem hx
    exact ⟨s, η, by rw [(Prod.mk.inj h).2]⟩

include hG in
theorem card_orb {δ : Fin n → ℕ} (hδ : ∀ g ∈ G, δ ∘ g.2 = δ) (ξ : Box δ) (ha : Adm G ξ.1) :
    (orb Gf ξ.1).card = Nat.card {η : Box δ // ∃ g ∈ G, η.1 = ξ.1 ∘ g.2} := by
  classical
  rw [Nat.card_eq_fintype_card, Fintype.card_subtype]
  have h1 : ((orb Gf ξ.1).image Prod.snd).card = (orb Gf ξ.1).card := by
    apply Finset.card_image_of_injOn
    intro x hx y hy he
    obtain ⟨s, η, rfl⟩ := orb_elem hx
    obtain ⟨s', η', rfl⟩ := orb_elem hy
    simp only at he
    have he := List.ofFn_injective he
    subst he
    obtain ⟨g, hg, rfl, h1⟩ := (mem_orb hG).1 (Finset.mem_coe.1 hx)
    obtain ⟨g', hg', rfl, h2⟩ := (mem_orb hG).1 (Finset.mem_coe.1 hy)
    rw [adm_sign ha hg hg' (h1.symm.trans h2)]
  have h2 : (orb Gf ξ.1).image Prod.snd =
      (Finset.univ.filter fun η : Box δ => ∃ g ∈ G, η.1 = ξ.1 ∘ g.2).image fun η => List.ofFn η.1 := by
    ext y
    simp only [Finset.mem_image, Finset.mem_filter, Finset.mem_univ, true_and]
    constructor
    · rintro ⟨x, hx, rfl⟩
      obtain ⟨s, η, rfl⟩ := orb_elem hx
      obtain ⟨g, hg, rfl, rfl⟩ := (mem_orb hG).1 hx
      exact ⟨⟨_, mem_box.2 (comp_mem hδ (mem_box.1 ξ.2) hg)⟩, ⟨g, hg, rfl⟩, rfl⟩
    · rintro ⟨η, ⟨g, hg, h⟩, rfl⟩
      exact ⟨(g.1, List.ofFn η.1), (mem_orb hG).2 ⟨g, hg, rfl, h⟩, rfl⟩
  rw [← h1, h2, Finset.card_image_of_injective]
  intro a b h
  exact Subtype.ext (List.ofFn_injective h)

include hG in
theorem orb_pos (ξ : Fin n → ℕ) : 0 < ((orb Gf ξ).card : ℝ) := by
  exact_mod_cast Finset.card_pos.2 ⟨_, self_mem_orb hG ξ⟩

theorem unit_sq_real (u : ℤˣ) : ((u : ℤ) : ℝ) * ((u : ℤ) : ℝ) = 1 := by exact_mod_cast units_sq u

include hG in
theorem isVec_norm {δ : Fin n → ℕ} (hδ : ∀ g ∈ G, δ ∘ g.2 = δ) (ξ : Box δ) (ha : Adm G ξ.1)
    {v : Box δ → ℝ} (hv : IsVec G Gf ξ.1 v) : ∑ η, v η * v η = 1 := by
  classical
  obtain ⟨ε, h1, h2⟩ := hv
  have hN := orb_pos hG ξ.1
  have : ∀ η, v η * v η = if ∃ g ∈ G, η.1 = ξ.1 ∘ g.2 then 1 / ((orb Gf ξ.1).card : ℝ) else 0 := by
    intro η
    split_ifs with h
    · obtain ⟨g, hg, h⟩ := h
      rw [h1 g hg η h, div_mul_div_comm, Real.mul_self_sqrt hN.le]
      congr 1
      linear_combination ((g.1 : ℤ) : ℝ) * ((g.1 : ℤ) : ℝ) * unit_sq_real ε + unit_sq_real g.1
    · push Not at h
      rw [h2 η h, mul_zero]
  rw [Finset.sum_congr rfl fun η _ => this η, ← Finset.sum_filter, Finset.sum_const, nsmul_eq_mul,
    ← Fintype.card_subtype, ← Nat.card_eq_fintype_card, ← card_orb hG hδ ξ ha]
  field_simp

theorem isVec_orth {δ : Fin n → ℕ} {ξ ξ' : Fin n → ℕ} {v v' : Box δ → ℝ} (hv : IsVec G Gf ξ v)
    (hv' : IsVec G Gf ξ' v') (hne : ¬ ∃ g ∈ G, ξ' = ξ ∘ g.2) (η : Box δ) : v η * v' η = 0 := by
  obtain ⟨ε, h1, h2⟩ := hv
  obtain ⟨ε', h1', h2'⟩ := hv'
  by_cases h : ∃ g ∈ G, η.1 = ξ ∘ g.2
  · by_cases h' : ∃ g ∈ G, η.1 = ξ' ∘ g.2
    · obtain ⟨g, hg, he⟩ := h
      obtain ⟨g', hg', he'⟩ := h'
      exfalso
      refine hne ⟨g * g'⁻¹, mul_mem hg (inv_mem hg'), ?_⟩
      funext k
      have := congrFun (he'.symm.trans he) (g'.2⁻¹ k)
      simpa using this
    · push Not at h'
      rw [h2' η h', mul_zero]
  · push Not at h
    rw [h2 η h, zero_mul]

theorem isVec_sym {δ : Fin n → ℕ} {ξ : Fin n → ℕ} {v : Box δ → ℝ} (hv : IsVec G Gf ξ v) :
    v ∈ symTensors (G : Set (SignedPerm n)) δ := by
  obtain ⟨ε, h1, h2⟩ := hv
  intro g hg a c hc
  by_cases h : ∃ h ∈ G, a.1 = ξ ∘ h.2
  · obtain ⟨h, hh, he⟩ := h
    rw [h1 h hh a he, h1 (h * g) (mul_mem hh hg) c (by rw [hc, he]; rfl)]
    simp only [Prod.fst_mul, Units.val_mul]
    push_cast
    ring
  · have h' : ¬ ∃ h ∈ G, c.1 = ξ ∘ h.2 := by
      rintro ⟨h', hh', he⟩
      refine h ⟨h' * g⁻¹, mul_mem hh' (inv_mem hg), ?_⟩
      funext k
      have := congrFun (hc.symm.trans he) (g.2⁻¹ k)
      simpa using this
    push Not at h h'
    rw [h2 a h, h2 c h', mul_zero]

/-- The statement about `Q`, for a group given as a finite set; the rows have disjoint supports. -/
theorem matrix_spec_disj (hG : ∀ g, g ∈ Gf ↔ g ∈ G) (δ : Fin n → ℕ) (hδ : ∀ g ∈ G, δ ∘ g.2 = δ) :
    ∃ b Q, base (Gf.image stup) (List.ofFn δ) = .ok b ∧ matrix b (List.ofFn δ) = .ok Q ∧
      Q.length = b.card ∧
      (∀ i j (hi : i < Q.length) (hj : j < Q.length),
        ∑ ξ : Box δ, Q[i] (rowMajor δ ξ.1) * Q[j] (rowMajor δ ξ.1) = if i = j then 1 else 0) ∧
      Submodule.span ℝ (Set.range fun i : Fin Q.length => fun ξ : Box δ => Q[i] (rowMajor δ ξ.1)) =
        symTensors (G : Set (SignedPerm n)) δ ∧
      (∀ i j (hi : i < Q.length) (hj : j < Q.length), i ≠ j →
        ∀ ξ : Box δ, Q[i] (rowMajor δ ξ.1) * Q[j] (rowMajor δ ξ.1) = 0) ∧
      ∀ i (hi : i < Q.length), 0 ≤ ∑ ξ : Box δ, Q[i] (rowMajor δ ξ.1) := by
  classical
  obtain ⟨b, hb, hmem⟩ := base_spec hG δ
  have hnodup : (sortBase b).Nodup := by
    rw [sortBase, (List.mergeSort_perm _ _).nodup_iff]
    exact (Finset.nodup_toList b).map sortPair_injective
  have hmemb : ∀ x, x ∈ sortBase b ↔ ∃ y ∈ b, x = sortPair y := by
    intro x
    rw [sortBase, (List.mergeSort_perm _ _).mem_iff]
    simp only [List.mem_map, Finset.mem_toList]
    exact ⟨fun ⟨X, h, e⟩ => ⟨X, h, e.symm⟩, fun ⟨X, h, e⟩ => ⟨X, h, e.symm⟩⟩
  obtain ⟨Q, hQ, hF⟩ := mapM_forall₂ (fun x => do row (List.ofFn δ) (← pick x))
    (fun x q => ∃ ξ : Box δ, Adm G ξ.1 ∧ x = sortPair (opair Gf ξ.1) ∧
      (IsVec G Gf ξ.1 fun η : Box δ => q (rowMajor δ η.1)) ∧
      0 ≤ ∑ k ∈ Finset.range (List.ofFn δ).prod, q k) (sortBase b) (by
      intro x hx
      obtain ⟨y, hy, rfl⟩ := (hmemb x).1 hx
      obtain ⟨ξ, ha, rfl⟩ := (hmem y).1 hy
      obtain ⟨q, h1, h2⟩ := row_pair hG hδ ξ ha
      exact ⟨q, h1, ξ, ha, rfl, h2⟩)
  have hlen := hF.length_eq
  have hspec : ∀ i : Fin Q.length, ∃ ξ : Box δ, Adm G ξ.1 ∧
      (sortBase b)[(i : ℕ)]'(by rw [hlen]; exact i.2) = sortPair (opair Gf ξ.1) ∧
      (IsVec G Gf ξ.1 fun η : Box δ => Q[i] (rowMajor δ η.1)) ∧
      0 ≤ ∑ k ∈ Finset.range (List.ofFn δ).prod, Q[i] k := fun i => by
    have := List.Forall₂.get hF (i := (i : ℕ)) (by rw [hlen]; exact i.2) i.2
    simpa using this
  choose ξ hadm hsp hvec hsum using hspec
  have hdis : ∀ i j, i ≠ j → ¬ ∃ g ∈ G, (ξ j).1 = (ξ i).1 ∘ g.2 := by
    intro i j hij h
    rw [← opair_eq_iff hG] at h
    apply hij
    have h1 := hsp i
    rw [h, ← hsp j] at h1
    exact Fin.ext ((hnodup.getElem_inj_iff).1 h1)
  have horth : ∀ i j (hi : i < Q.length) (hj : j < Q.length),
      ∑ ξ : Box δ, Q[i] (rowMajor δ ξ.1) * Q[j] (rowMajor δ ξ.1) = if i = j then 1 else 0 := by
    intro i j hi hj
    split_ifs with hij
    · subst hij
      exact isVec_norm hG hδ (ξ ⟨i, hi⟩) (hadm ⟨i, hi⟩) (hvec ⟨i, hi⟩)
    · apply Finset.sum_eq_zero
      intro η _
      exact isVec_orth (hvec ⟨i, hi⟩) (hvec ⟨j, hj⟩) (hdis _ _ (by simpa using hij)) η
  refine ⟨b, Q, hb, ?_, ?_, horth, ?_, fun i j hi hj hij η =>
    isVec_orth (hvec ⟨i, hi⟩) (hvec ⟨j, hj⟩) (hdis _ _ (by simpa using hij)) η, fun i hi => by
      have := hsum ⟨i, hi⟩
      rwa [prod_ofFn', sum_rowMajor] at this⟩
  · rw [matrix, rows, hQ]
    show (pyAssert _ >>= _) = _
    rw [pyAssert, if_pos]
    · rfl
    · intro i j hi hj
      rw [prod_ofFn', sum_rowMajor (fun k => Q[i] k * Q[j] k), horth i j hi hj]
      rw [sub_self, abs_zero]
      positivity
  · rw [← hlen, sortBase, List.length_mergeSort, List.length_map, Finset.length_toList]
  · apply le_antisymm
    · rw [Submodule.span_le]
      rintro _ ⟨i, rfl⟩
      exact isVec_sym (hvec i)
    · intro T hT
      choose ε hε1 hε2 using hvec
      beta_reduce at hε1 hε2
      have : T = ∑ i : Fin Q.length, (T (ξ i) * ((ε i : ℤ) : ℝ) * Real.sqrt (orb Gf (ξ i).1).card) •
          fun η : Box δ => Q[i] (rowMajor δ η.1) := by
        funext η
        rw [Finset.sum_apply]
        simp only [Pi.smul_apply, smul_eq_mul]
        by_cases ha : Adm G η.1
        · have : sortPair (opair Gf η.1) ∈ sortBase b :=
            (hmemb _).2 ⟨_, (hmem _).2 ⟨η, ha, rfl⟩, rfl⟩
          obtain ⟨i, hi, he⟩ := List.getElem_of_mem this
          have hi' : i < Q.length := hlen ▸ hi
          have h2 : opair Gf (ξ ⟨i, hi'⟩).1 = opair Gf η.1 := by
            apply sortPair_injective
            rw [← he, ← hsp ⟨i, hi'⟩]
          obtain ⟨g, hg, h3⟩ := (opair_eq_iff hG).1 h2
          rw [Finset.sum_eq_single ⟨i, hi'⟩]
          · rw [hε1 _ g hg η h3, hT g hg _ _ h3]
            have hN := orb_pos hG (ξ ⟨i, hi'⟩).1
            have hs : Real.sqrt (orb Gf (ξ ⟨i, hi'⟩).1).card ≠ 0 := (Real.sqrt_pos.2 hN).ne'
            field_simp
            linear_combination (-1) * T (ξ ⟨i, hi'⟩) * unit_sq_real (ε ⟨i, hi'⟩)
          · intro j _ hj
            rw [hε2 j η, mul_zero]
            intro h hh h4
            refine hdis j ⟨i, hi'⟩ hj ⟨h * g⁻¹, mul_mem hh (inv_mem hg), ?_⟩
            funext k
            have := congrFun (h3.symm.trans h4) (g.2⁻¹ k)
            simpa using this
          · intro h; exact absurd (Finset.mem_univ _) h
        · have h0 : T η = 0 := by
            unfold Adm at ha
            push Not at ha
            obtain ⟨g, hg, h1, h2⟩ := ha
            have h3 := hT g hg η η h1.symm
            have : g.1 = -1 := (Int.units_eq_one_or g.1).resolve_left h2
            rw [this] at h3
            simp at h3
            linarith
          rw [h0, Finset.sum_eq_zero]
          intro i _
          rw [hε2 i η, mul_zero]
          intro g hg h
          apply ha
          rw [h]
          exact adm_comp (hadm i) hg
      rw [this]
      exact Submodule.sum_mem _ fun i _ => Submodule.smul_mem _ _ (Submodule.subset_span ⟨i, rfl⟩)

/-- The statement about `Q`, for a group given as a finite set. -/
theorem matrix_spec (hG : ∀ g, g ∈ Gf ↔ g ∈ G) (δ : Fin n → ℕ) (hδ : ∀ g ∈ G, δ ∘ g.2 = δ) :
    ∃ b Q, base (Gf.image stup) (List.ofFn δ) = .ok b ∧ matrix b (List.ofFn δ) = .ok Q ∧
      Q.length = b.card ∧
      (∀ i j (hi : i < Q.length) (hj : j < Q.length),
        ∑ ξ : Box δ, Q[i] (rowMajor δ ξ.1) * Q[j] (rowMajor δ ξ.1) = if i = j then 1 else 0) ∧
      Submodule.span ℝ (Set.range fun i : Fin Q.length => fun ξ : Box δ => Q[i] (rowMajor δ ξ.1)) =
        symTensors (G : Set (SignedPerm n)) δ := by
  obtain ⟨b, Q, h1, h2, h3, h4, h5, _⟩ := matrix_spec_disj hG δ hδ
  exact ⟨b, Q, h1, h2, h3, h4, h5⟩

/-- Orthonormal families are linearly independent. -/
theorem finrank_of_orthonormal {ι κ : Type} [Fintype ι] [DecidableEq ι] [Fintype κ] (v : ι → κ → ℝ)
    (h : ∀ i j, ∑ k, v i k * v j k = if i = j then 1 else 0) :
    Module.finrank ℝ (Submodule.span ℝ (Set.range v)) = Fintype.card ι := by
  apply finrank_span_eq_card
  rw [Fintype.linearIndependent_iff]
  intro c hc j
  have : ∑ k, (∑ i, c i • v i) k * v j k = c j := by
    simp only [Finset.sum_apply, Pi.smul_apply, smul_eq_mul, Finset.sum_mul]
    rw [Finset.sum_comm]
    simp only [mul_assoc, ← Finset.mul_sum, h]
    simp
  rw [hc] at this
  simpa using this.symm

theorem exists_finset {Gs : Finset SP} (h : (Gs : Set SP) = stup '' (G : Set (SignedPerm n))) :
    ∃ Gf : Finset (SignedPerm n), (∀ g, g ∈ Gf ↔ g ∈ G) ∧ Gs = Gf.image stup := by
  classical
  refine ⟨Finset.univ.filter (· ∈ G), by simp, ?_⟩
  apply Finset.coe_injective
  rw [h]
  ext x
  simp

end LieNN.PermRepr
