import Verif.Proofs.SU2CG
import Verif.Proofs.Reduced
/-!
# The arrays returned by `SU2.__mul__`, `clebsch_gordanSU2mat` and `SU2.clebsch_gordan`
-/
namespace LieNN.SU2

open Finset

theorem make_natCast (n : ℕ) : make (n : ℤ) = .ok n := by
  unfold make pyAssert
  rw [if_pos (by positivity)]
  rfl

theorem pyRange_two (lo : ℤ) (n : ℕ) :
    pyRange lo (lo + 2 * n + 1) 2 = (List.range (n + 1)).map fun t : ℕ => lo + 2 * (t : ℤ) := by
  unfold pyRange
  rw [show (lo + 2 * n + 1 - lo).toNat = 2 * n + 1 by omega, show (2 * n + 1) / 2 = n by omega,
    if_neg (by omega)]
  rfl

/-- The list `rep1 * rep2`. -/
def mulL (j₁ j₂ : ℕ) : List ℕ :=
  (List.range (min j₁ j₂ + 1)).map fun t => max j₁ j₂ - min j₁ j₂ + 2 * t

theorem mul_eq (j₁ j₂ : ℕ) : mul j₁ j₂ = .ok (mulL j₁ j₂) := by
  unfold mul mulL
  have e : pyRange |(j₁ : ℤ) - j₂| (j₁ + j₂ + 1) 2 =
      (List.range (min j₁ j₂ + 1)).map fun t : ℕ => |(j₁ : ℤ) - j₂| + 2 * (t : ℤ) := by
    rw [← pyRange_two]
    congr 1
    rcases le_total j₁ j₂ with h | h
    · have : (j₁ : ℤ) ≤ j₂ := by exact_mod_cast h
      rw [abs_of_nonpos (by omega), min_eq_left h]; ring
    · have : (j₂ : ℤ) ≤ j₁ := by exact_mod_cast h
      rw [abs_of_nonneg (by omega), min_eq_right h]; ring
  rw [e, LieNN.mapM_ok (g := Int.toNat)]
  · rw [List.map_map]
    congr 1
    refine List.map_congr_left fun t _ => ?_
    rcases le_total j₁ j₂ with h | h
    · have : (j₁ : ℤ) ≤ j₂ := by exact_mod_cast h
      simp only [Function.comp, abs_of_nonpos (show (j₁ : ℤ) - j₂ ≤ 0 by omega), min_eq_left h,
        max_eq_right h]
      omega
    · have : (j₂ : ℤ) ≤ j₁ := by exact_mod_cast h
      simp only [Function.comp, abs_of_nonneg (show 0 ≤ (j₁ : ℤ) - j₂ by omega), min_eq_right h,
        max_eq_left h]
      omega
  · intro z hz
    obtain ⟨t, -, rfl⟩ := List.mem_map.1 hz
    have : 0 ≤ |(j₁ : ℤ) - j₂| + 2 * (t : ℤ) := by positivity
    obtain ⟨n, hn⟩ := Int.eq_ofNat_of_zero_le this
    rw [hn]; exact make_natCast n

theorem mem_mulL {j₁ j₂ j₃ : ℕ} :
    j₃ ∈ mulL j₁ j₂ ↔ ∃ p q r, j₁ = q + r ∧ j₂ = p + r ∧ j₃ = p + q := by
  unfold mulL
  constructor
  · intro h
    obtain ⟨t, ht, rfl⟩ := List.mem_map.1 h
    have := List.mem_range.1 ht
    rcases le_total j₁ j₂ with hle | hle
    · exact ⟨j₂ - (j₁ - t), t, j₁ - t, by omega, by omega, by omega⟩
    · exact ⟨t, j₁ - (j₂ - t), j₂ - t, by omega, by omega, by omega⟩
  · rintro ⟨p, q, r, rfl, rfl, rfl⟩
    exact List.mem_map.2 ⟨min p q, List.mem_range.2 (by omega), by omega⟩

theorem readWrites_eq {w : List ((ℤ × ℤ × ℤ) × ℝ)} {F : ℤ × ℤ × ℤ → ℝ}
    (h : ∀ e ∈ w, e.2 = F e.1) (i : ℤ × ℤ × ℤ) :
    (i ∈ w.map Prod.fst → readWrites w i = F i) ∧ (i ∉ w.map Prod.fst → readWrites w i = 0) := by
  unfold readWrites
  constructor
  · intro hi
    cases hf : w.reverse.find? (fun e => e.1 == i) with
    | none =>
      obtain ⟨e, he, rfl⟩ := List.mem_map.1 hi
      have := List.find?_eq_none.1 hf e (List.mem_reverse.2 he)
      simp at this
    | some e =>
      have h1 : e.1 = i := by simpa using List.find?_some hf
      have h2 := List.mem_reverse.1 (List.mem_of_find?_eq_some hf)
      simp only
      rw [h e h2, h1]
  · intro hi
    cases hf : w.reverse.find? (fun e => e.1 == i) with
    | none => rfl
    | some e =>
      have h1 : e.1 = i := by simpa using List.find?_some hf
      have h2 := List.mem_reverse.1 (List.mem_of_find?_eq_some hf)
      exact absurd (List.mem_map.2 ⟨e, h2, h1⟩) hi

theorem pyRange_sym (j : ℕ) {x : ℚ} (hx : x = (j : ℚ) / 2) :
    pyRange (-trunc (2 * x)) (trunc (2 * x) + 1) 2 =
      (List.range (j + 1)).map fun t : ℕ => -(j : ℤ) + 2 * (t : ℤ) := by
  rw [trunc_of (j : ℤ) (by rw [hx]; push_cast; ring), ← pyRange_two]
  congr 1; ring

/-- The assignments made by `clebsch_gordanSU2mat`. -/
noncomputable def writesL (p q r : ℕ) : List ((ℤ × ℤ × ℤ) × ℝ) :=
  ((List.range (q + r + 1)).map fun a : ℕ =>
    ((List.range (p + r + 1)).filter fun b : ℕ => decide (r ≤ a + b ∧ a + b ≤ p + q + r)).map fun b : ℕ =>
      (((a : ℤ), (b : ℤ), ((a + b - r : ℕ) : ℤ)), cgVal p q r a b (a + b - r))).flatten

theorem filter_cond (p q r a b : ℕ) :
    |(((-((q + r : ℕ) : ℤ) + 2 * (a : ℤ) : ℤ) : ℚ) / 2
      + ((-((p + r : ℕ) : ℤ) + 2 * (b : ℤ) : ℤ) : ℚ) / 2)| ≤ (p + q : ℚ) / 2 ↔
    r ≤ a + b ∧ a + b ≤ p + q + r := by
  rw [abs_le]
  push_cast
  constructor
  · rintro ⟨h1, h2⟩
    constructor
    · have : (r : ℚ) ≤ a + b := by linarith
      exact_mod_cast this
    · have : (a + b : ℚ) ≤ p + q + r := by linarith
      exact_mod_cast this
  · rintro ⟨h1, h2⟩
    have h1' : (r : ℚ) ≤ a + b := by exact_mod_cast h1
    have h2' : (a + b : ℚ) ≤ p + q + r := by exact_mod_cast h2
    constructor <;> linarith

theorem cgWrites_eq (p q r : ℕ) :
    cgWrites ((q + r : ℚ) / 2) ((p + r : ℚ) / 2) ((p + q : ℚ) / 2) = .ok (writesL p q r) := by
  unfold cgWrites
  rw [pyRange_sym (q + r) (x := (q + r : ℚ) / 2) (by push_cast; ring), pyRange_sym (p + r) (x := (p + r : ℚ) / 2) (by push_cast; ring)]
  rw [LieNN.mapM_ok (g := fun x₁ : ℤ =>
    ((List.range (p + r + 1)).filter fun b : ℕ =>
      decide (r ≤ ((x₁ + (q + r)) / 2).toNat + b ∧ ((x₁ + (q + r)) / 2).toNat + b ≤ p + q + r)).map
      fun b : ℕ => (((((x₁ + (q + r)) / 2).toNat : ℤ), (b : ℤ),
        ((((x₁ + (q + r)) / 2).toNat + b - r : ℕ) : ℤ)),
        cgVal p q r ((x₁ + (q + r)) / 2).toNat b (((x₁ + (q + r)) / 2).toNat + b - r)))]
  · rw [ok_bind', List.map_map]
    have : ((fun x₁ : ℤ =>
        ((List.range (p + r + 1)).filter fun b : ℕ =>
          decide (r ≤ ((x₁ + (q + r)) / 2).toNat + b ∧
            ((x₁ + (q + r)) / 2).toNat + b ≤ p + q + r)).map
          fun b : ℕ => (((((x₁ + (q + r)) / 2).toNat : ℤ), (b : ℤ),
            ((((x₁ + (q + r)) / 2).toNat + b - r : ℕ) : ℤ)),
            cgVal p q r ((x₁ + (q + r)) / 2).toNat b (((x₁ + (q + r)) / 2).toNat + b - r))) ∘
        fun t : ℕ => -((q + r : ℕ) : ℤ) + 2 * (t : ℤ)) = fun a =>
      ((List.range (p + r + 1)).filter fun b : ℕ => decide (r ≤ a + b ∧ a + b ≤ p + q + r)).map fun b : ℕ =>
        (((a : ℤ), (b : ℤ), ((a + b - r : ℕ) : ℤ)), cgVal p q r a b (a + b - r)) := by
      funext t
      simp only [Function.comp]
      rw [show ((-((q + r : ℕ) : ℤ) + 2 * (t : ℤ) + (q + r)) / 2).toNat = t by push_cast; omega]
    rw [this]
    rfl
  · intro x₁ hx
    obtain ⟨a, ha, rfl⟩ := List.mem_map.1 hx
    have ha := List.mem_range.1 ha
    rw [show ((-((q + r : ℕ) : ℤ) + 2 * (a : ℤ) + (q + r)) / 2).toNat = a by push_cast; omega]
    rw [List.filter_map, LieNN.mapM_ok (g := fun x₂ : ℤ =>
      (((a : ℤ), (((x₂ + (p + r)) / 2).toNat : ℤ), ((a + ((x₂ + (p + r)) / 2).toNat - r : ℕ) : ℤ)),
        cgVal p q r a ((x₂ + (p + r)) / 2).toNat (a + ((x₂ + (p + r)) / 2).toNat - r)))]
    · rw [List.map_map]
      congr 1
      rw [List.filter_congr (q := fun b : ℕ => decide (r ≤ a + b ∧ a + b ≤ p + q + r))]
      · refine List.map_congr_left fun b _ => ?_
        simp only [Function.comp]
        rw [show ((-((p + r : ℕ) : ℤ) + 2 * (b : ℤ) + (p + r)) / 2).toNat = b by push_cast; omega]
      · intro b _
        simp only [Function.comp]
        exact decide_eq_decide.2 (filter_cond p q r a b)
    · intro x₂ hx₂
      obtain ⟨b, hb, rfl⟩ := List.mem_map.1 hx₂
      obtain ⟨hb1, hb2⟩ := List.mem_filter.1 hb
      have hb1 := List.mem_range.1 hb1
      simp only [Function.comp] at hb2
      have hb2 := (filter_cond p q r a b).1 (of_decide_eq_true hb2)
      rw [show ((-((p + r : ℕ) : ℤ) + 2 * (b : ℤ) + (p + r)) / 2).toNat = b by push_cast; omega]
      have hpos : Pos p q r a b (a + b - r) := ⟨by omega, by omega, by omega, by omega⟩
      have key := cgCoeff_eq hpos
      have e1 : (((-((q + r : ℕ) : ℤ) + 2 * (a : ℤ) : ℤ) : ℚ) / 2) = a - (q + r : ℚ) / 2 := by
        push_cast; ring
      have e2 : (((-((p + r : ℕ) : ℤ) + 2 * (b : ℤ) : ℤ) : ℚ) / 2) = b - (p + r : ℚ) / 2 := by
        push_cast; ring
      have e3 : (a - (q + r : ℚ) / 2) + (b - (p + r : ℚ) / 2) =
          ((a + b - r : ℕ) : ℚ) - (p + q : ℚ) / 2 := by
        rw [Nat.cast_sub hb2.1]; push_cast; ring
      simp only [e1, e2, e3, key, ok_bind']
      rw [trunc_of (a : ℤ) (by push_cast; ring), trunc_of (b : ℤ) (by push_cast; ring),
        trunc_of ((a + b - r : ℕ) : ℤ) (by rw [Int.cast_natCast, add_assoc, e3]; ring)]
      rfl

/-- The array of Clebsch-Gordan coefficients. -/
theorem cgMat_eq (p q r : ℕ) :
    ∃ M, cgMat ((q + r : ℚ) / 2) ((p + r : ℚ) / 2) ((p + q : ℚ) / 2) = .ok M ∧
      ∀ a b c : ℕ, a ≤ q + r → b ≤ p + r → c ≤ p + q →
        M a b c = if c + r = a + b then cgVal p q r a b c else 0 := by
  have hin : trunc (2 * ((p + q : ℚ) / 2)) ∈ pyRange
      (trunc (2 * |((q + r : ℚ) / 2) - ((p + r : ℚ) / 2)|))
      (trunc (2 * (((q + r : ℚ) / 2) + ((p + r : ℚ) / 2))) + 1) 2 := by
    rw [trunc_of (x := 2 * ((p + q : ℚ) / 2)) ((p + q : ℕ) : ℤ) (by push_cast; ring),
      trunc_of (x := 2 * (((q + r : ℚ) / 2) + ((p + r : ℚ) / 2))) ((p + q + 2 * r : ℕ) : ℤ)
        (by push_cast; ring),
      trunc_of (x := 2 * |((q + r : ℚ) / 2) - ((p + r : ℚ) / 2)|) (|(q : ℤ) - p|) (by
        rw [show (q + r : ℚ) / 2 - (p + r : ℚ) / 2 = (q - p) / 2 by ring, abs_div]
        push_cast; rw [abs_of_pos (by norm_num : (0 : ℚ) < 2)]; ring)]
    have e : pyRange |(q : ℤ) - p| (((p + q + 2 * r : ℕ) : ℤ) + 1) 2 =
      (List.range (min p q + r + 1)).map fun t : ℕ => |(q : ℤ) - p| + 2 * (t : ℤ) := by
      rw [← pyRange_two]
      congr 1
      rcases le_total p q with h | h
      · rw [abs_of_nonneg (by omega), min_eq_left h]; push_cast; ring
      · rw [abs_of_nonpos (by omega), min_eq_right h]; push_cast; ring
    rw [e]
    refine List.mem_map.2 ⟨min p q, List.mem_range.2 (by omega), ?_⟩
    rcases le_total p q with h | h
    · rw [abs_of_nonneg (by omega), min_eq_left h]; push_cast; ring
    · rw [abs_of_nonpos (by omega), min_eq_right h]; push_cast; ring
  refine ⟨fun a b c => readWrites (writesL p q r) (a, b, c), ?_, ?_⟩
  · unfold cgMat
    rw [if_pos hin, cgWrites_eq]; rfl
  · intro a b c ha hb hc
    have hw : ∀ e ∈ writesL p q r, e.2 =
        cgVal p q r e.1.1.toNat e.1.2.1.toNat e.1.2.2.toNat := by
      intro e he
      obtain ⟨l, hl, he⟩ := List.mem_flatten.1 he
      obtain ⟨a', -, rfl⟩ := List.mem_map.1 hl
      obtain ⟨b', -, rfl⟩ := List.mem_map.1 he
      simp
    have h := readWrites_eq (F := fun i => cgVal p q r i.1.toNat i.2.1.toNat i.2.2.toNat) hw ((a : ℤ), (b : ℤ), (c : ℤ))
    have hmem : ((a : ℤ), (b : ℤ), (c : ℤ)) ∈ (writesL p q r).map Prod.fst ↔ c + r = a + b := by
      constructor
      · intro hh
        obtain ⟨e, he, hei⟩ := List.mem_map.1 hh
        obtain ⟨l, hl, he⟩ := List.mem_flatten.1 he
        obtain ⟨a', -, rfl⟩ := List.mem_map.1 hl
        obtain ⟨b', hb', rfl⟩ := List.mem_map.1 he
        have hb2 := of_decide_eq_true (List.mem_filter.1 hb').2
        simp only [Prod.mk.injEq, Nat.cast_inj] at hei
        omega
      · intro hh
        refine List.mem_map.2 ⟨(((a : ℤ), (b : ℤ), ((a + b - r : ℕ) : ℤ)),
          cgVal p q r a b (a + b - r)), List.mem_flatten.2 ⟨_, List.mem_map.2
          ⟨a, List.mem_range.2 (by omega), rfl⟩, List.mem_map.2 ⟨b, List.mem_filter.2
          ⟨List.mem_range.2 (by omega), decide_eq_true (by omega)⟩, rfl⟩⟩, ?_⟩
        simp only [Prod.mk.injEq, true_and, Nat.cast_inj]
        omega
    split_ifs with hh
    · have := h.1 (hmem.2 hh)
      simpa using this
    · exact h.2 fun hx => hh (hmem.1 hx)

/-- The coefficient array on indices of the right size. -/
noncomputable def cgT (p q r : ℕ) (a : Fin (q + r + 1)) (b : Fin (p + r + 1)) (c : Fin (p + q + 1)) :
    ℝ :=
  if (c : ℕ) + r = a + b then cgVal p q r a b c else 0

theorem cg_eq (p q r : ℕ) : cg (q + r) (p + r) (p + q) = .ok [cgT p q r] := by
  unfold cg
  rw [mul_eq, ok_bind', if_pos (mem_mulL.2 ⟨p, q, r, rfl, rfl, rfl⟩)]
  obtain ⟨M, hM, hM'⟩ := cgMat_eq p q r
  push_cast
  rw [hM, ok_bind']
  change Except.ok _ = _
  congr 2
  funext a b c
  exact hM' a b c (Nat.lt_succ_iff.1 a.2) (Nat.lt_succ_iff.1 b.2) (Nat.lt_succ_iff.1 c.2)

theorem cg_eq_nil {j₁ j₂ j₃ : ℕ} (h : j₃ ∉ mulL j₁ j₂) : cg j₁ j₂ j₃ = .ok [] := by
  unfold cg
  rw [mul_eq, ok_bind', if_neg h]; rfl

end LieNN.SU2
