import Verif.Model.Iter
import Verif.Spec.Iter
import Verif.Proofs.SL2CCG
import Verif.Proofs.SO3Table
/-!
# Iterators over irreps
-/
namespace LieNN

open Spec

theorem PyIter.out_eq {α : Type} {g : PyIter α} {o : ℕ → List α} (h : ∀ s, g s = .ok (o s)) (N : ℕ) :
    g.out N = .ok ((List.range N).flatMap o) := by
  unfold PyIter.out
  rw [LieNN.mapM_ok (g := o) (fun s _ => h s)]
  rfl

/-- What has to be checked for an iterator: every turn is sorted, and turns follow each other. -/
theorem enumerates_of {α : Type} {valid : α → Prop} {lt : α → α → Prop} {triv : α} {g : PyIter α}
    {o : ℕ → List α} (h : ∀ s, g s = .ok (o s)) (ord : StrictTotal valid lt)
    (h0 : ∃ L, o 0 = triv :: L) (hs : ∀ s, (o s).Pairwise lt)
    (hst : ∀ s t, s < t → ∀ x ∈ o s, ∀ y ∈ o t, lt x y) (hv : ∀ s, ∀ x ∈ o s, valid x)
    (he : ∀ x, valid x → ∃ s, x ∈ o s) : Enumerates valid lt triv g.out := by
  have hp : ∀ N, ((List.range N).flatMap o).Pairwise lt := by
    intro N
    rw [List.pairwise_flatMap]
    refine ⟨fun s _ => hs s, ?_⟩
    exact List.pairwise_lt_range.imp fun {s t} hlt => hst s t hlt
  refine ⟨ord, ?_, ?_, ?_, ?_, ?_, ?_⟩
  · rintro N hN
    obtain ⟨L, hL⟩ := h0
    obtain ⟨M, rfl⟩ : ∃ M, N = M + 1 := ⟨N - 1, by omega⟩
    refine ⟨L ++ ((List.range M).map Nat.succ).flatMap o, ?_⟩
    rw [PyIter.out_eq h, List.range_succ_eq_map, List.flatMap_cons, hL]
    rfl
  · intro N
    refine ⟨_, o N, PyIter.out_eq h N, ?_⟩
    rw [PyIter.out_eq h, List.range_succ, List.flatMap_append]
    simp
  · intro N L hL
    rw [PyIter.out_eq h] at hL
    cases hL; exact hp N
  · intro N L hL x hx
    rw [PyIter.out_eq h] at hL
    cases hL
    obtain ⟨s, _, hs⟩ := List.mem_flatMap.1 hx
    exact hv s x hs
  · intro x hx
    obtain ⟨s, hs⟩ := he x hx
    exact ⟨s + 1, _, PyIter.out_eq h _, List.mem_flatMap.2 ⟨s, List.mem_range.2 (by omega), hs⟩⟩
  · intro N L hL
    rw [PyIter.out_eq h] at hL
    cases hL
    refine (hp N).imp ?_
    rintro x y hlt rfl
    exact ord.irrefl x hlt

theorem pyRange_zero (n : ℕ) : SU2.pyRange 0 ((n : ℤ) + 1) 1 = (List.range (n + 1)).map fun t : ℕ => (t : ℤ) := by
  have := SU2.pyRange_step_one 0 (n + 1)
  rw [show (0 : ℤ) + ((n + 1 : ℕ) : ℤ) = (n : ℤ) + 1 by push_cast; ring] at this
  rw [this]
  exact List.map_congr_left fun t _ => zero_add _

/-! ### The classes -/

theorem Z2.enumerates : Enumerates (fun p : ℤ => p = 1 ∨ p = -1) Z2.lt 1 Z2.iterator.out := by
  refine enumerates_of (o := fun s => if s = 0 then [1, -1] else []) (fun s => rfl)
    ⟨fun x => lt_irrefl _, fun x y z h1 h2 => lt_trans h2 h1, fun x y _ _ h => (lt_or_gt_of_ne h).symm⟩
    ⟨[-1], rfl⟩ ?_ ?_ ?_ ?_
  · intro s; split_ifs <;> simp [Z2.lt]
  · intro s t hst x _ y hy
    rw [if_neg (by omega)] at hy
    simp at hy
  · intro s x hx
    split_ifs at hx <;> simp at hx
    exact hx
  · intro x hx
    exact ⟨0, by simpa using hx⟩

theorem SU2.enumerates : Enumerates (fun _ : ℕ => True) SU2.lt 0 SU2.iterator.out := by
  refine enumerates_of (o := fun s => [s]) (fun s => ?_)
    ⟨fun x => lt_irrefl x, fun _ _ _ => lt_trans, fun _ _ _ _ h => lt_or_gt_of_ne h⟩
    ⟨[], rfl⟩ (fun s => by simp) ?_ (fun _ _ _ => trivial) (fun x _ => ⟨x, by simp⟩)
  · unfold SU2.iterator SU2.make
    rw [pyAssert_of (by omega)]
    rfl
  · intro s t h x hx y hy
    simp at hx hy
    subst hx hy
    exact h

theorem SO3.enumerates : Enumerates (fun l : ℤ => 0 ≤ l) SO3.lt 0 SO3.iterator.out := by
  refine enumerates_of (o := fun s => [(s : ℤ)]) (fun s => rfl)
    ⟨fun x => lt_irrefl x, fun _ _ _ => lt_trans, fun _ _ _ _ h => lt_or_gt_of_ne h⟩
    ⟨[], rfl⟩ (fun s => by simp) ?_ ?_ (fun x hx => ⟨x.toNat, by simp; omega⟩)
  · intro s t h x hx y hy
    simp at hx hy
    subst hx hy
    show (s : ℤ) < t
    exact_mod_cast h
  · intro s x hx; simp at hx; omega

/-- An order read off two keys. -/
theorem strictTotal_key {α : Type} {valid : α → Prop} (k₁ : α → ℕ) (k₂ : α → ℤ)
    (hk : ∀ x y, valid x → valid y → k₁ x = k₁ y → k₂ x = k₂ y → x = y) :
    StrictTotal valid fun x y => pairLt (· < ·) (· < ·) (k₁ x, k₂ x) (k₁ y, k₂ y) := by
  refine ⟨?_, ?_, ?_⟩
  · intro x; simp [pairLt]
  · intro x y z
    simp only [pairLt]
    omega
  · intro x y hx hy hne
    have : k₁ x ≠ k₁ y ∨ k₂ x ≠ k₂ y := by
      by_contra h
      push Not at h
      exact hne (hk x y hx hy h.1 h.2)
    simp only [pairLt]
    omega

theorem O3.enumerates :
    Enumerates (fun r : O3 => r.p = 1 ∨ r.p = -1) O3.lt ⟨0, 1⟩ O3.iterator.out := by
  have hpm : ∀ l : ℕ, ((-1 : ℤ)) ^ l = 1 ∨ ((-1 : ℤ)) ^ l = -1 := fun l => neg_one_pow_eq_or ℤ l
  refine enumerates_of (o := fun l => [⟨l, (-1) ^ l⟩, ⟨l, -(-1) ^ l⟩]) (fun s => rfl)
    ?_ ⟨[⟨0, -1⟩], rfl⟩ ?_ ?_ ?_ ?_
  · refine strictTotal_key (fun r : O3 => r.l) (fun r => -((-1) ^ r.l) * r.p) ?_
    intro x y hx hy h1 h2
    obtain ⟨l, p⟩ := x
    obtain ⟨l', p'⟩ := y
    simp only at h1 h2
    subst h1
    rcases hpm l with h | h <;> rw [h] at h2 <;> simp at h2 <;> rw [h2]
  · intro s
    simp only [List.pairwise_cons, List.mem_singleton, forall_eq, O3.lt, pairLt]
    rcases hpm s with h | h <;> rw [h] <;> simp
  · intro s t hst x hx y hy
    have h1 : x.l = s := by simp at hx; rcases hx with rfl | rfl <;> rfl
    have h2 : y.l = t := by simp at hy; rcases hy with rfl | rfl <;> rfl
    right
    simp only [h1, h2]
    exact ⟨by omega, hst⟩
  · intro s x hx
    simp at hx
    rcases hpm s with h | h <;> rw [h] at hx <;> rcases hx with rfl | rfl <;> simp
  · rintro ⟨l, p⟩ hp
    refine ⟨l, ?_⟩
    simp only at hp
    rcases hpm l with h | h <;> rcases hp with rfl | rfl <;> simp [h]

theorem isInteger_iff {x : ℚ} : isInteger x ↔ ∃ n : ℤ, x = n := by
  constructor
  · intro h; exact ⟨_, h⟩
  · rintro ⟨n, rfl⟩
    unfold isInteger pyRound
    rw [if_pos (by simp), Int.floor_intCast]

theorem SU2Real.make_of {n : ℕ} {j : ℚ} (h : 2 * j = n) : SU2Real.make j = .ok j := by
  unfold SU2Real.make
  rw [pyAssert_of (by exact (isInteger_iff (x := 2 * j)).2 ⟨n, by rw [h]; rfl⟩),
    pyAssert_of (by have : (0 : ℚ) ≤ n := Nat.cast_nonneg n
                    linarith)]
  rfl

theorem SU2Real.enumerates :
    Enumerates (fun j : ℚ => ∃ n : ℕ, 2 * j = n) SU2Real.lt 0 SU2Real.iterator.out := by
  refine enumerates_of (o := fun s => [(s : ℚ) / 2]) (fun s => ?_)
    ⟨fun x => lt_irrefl x, fun _ _ _ => lt_trans, fun _ _ _ _ h => lt_or_gt_of_ne h⟩
    ⟨[], by simp⟩ (fun s => by simp) ?_ ?_ ?_
  · unfold SU2Real.iterator
    rw [SU2Real.make_of (n := s) (by ring)]
    rfl
  · intro s t h x hx y hy
    simp at hx hy
    subst hx hy
    show (s : ℚ) / 2 < t / 2
    have : (s : ℚ) < t := by exact_mod_cast h
    linarith
  · intro s x hx; simp at hx; exact ⟨s, by rw [hx]; ring⟩
  · rintro x ⟨n, hn⟩
    exact ⟨n, by simp; linarith⟩

theorem SL2C.make_nat (l k : ℕ) : SL2C.make l k = .ok ⟨l, k⟩ := by
  unfold SL2C.make
  rw [pyAssert_of (by omega), pyAssert_of (by omega)]
  simp
  rfl

theorem SL2C.enumerates : Enumerates (fun _ : SL2C => True) SL2C.lt ⟨0, 0⟩ SL2C.iterator.out := by
  refine enumerates_of (o := fun s => (List.range (s + 1)).map fun l => ⟨l, s - l⟩) (fun s => ?_)
    ?_ ⟨[], rfl⟩ ?_ ?_ (fun _ _ _ => trivial) ?_
  · unfold SL2C.iterator
    rw [pyRange_zero, List.mapM_map]
    refine (LieNN.mapM_ok (g := fun l : ℕ => (⟨l, s - l⟩ : SL2C)) fun l hl => ?_)
    have := List.mem_range.1 hl
    simp only [Function.comp]
    rw [show (s : ℤ) - l = ((s - l : ℕ) : ℤ) by omega, SL2C.make_nat]
  · have := strictTotal_key (valid := fun _ : SL2C => True) (fun r => r.l + r.k) (fun r => (r.l : ℤ))
      (by rintro ⟨a, b⟩ ⟨c, d⟩ _ _ h1 h2; simp at h1 h2; subst h2; simp at h1; rw [h1])
    convert this using 3 with x y
    simp [SL2C.lt, pairLt]
  · intro s
    rw [List.pairwise_map]
    refine List.Pairwise.imp_of_mem ?_ List.pairwise_lt_range
    intro a b ha hb hab
    have := List.mem_range.1 ha
    have := List.mem_range.1 hb
    simp only [SL2C.lt, pairLt]
    omega
  · intro s t hst x hx y hy
    obtain ⟨a, ha, rfl⟩ := List.mem_map.1 hx
    obtain ⟨b, hb, rfl⟩ := List.mem_map.1 hy
    have := List.mem_range.1 ha
    have := List.mem_range.1 hb
    simp only [SL2C.lt, pairLt]
    omega
  · rintro ⟨l, k⟩ _
    exact ⟨l + k, List.mem_map.2 ⟨l, List.mem_range.2 (by omega), by simp⟩⟩

theorem SO13.make_nat {l k : ℕ} (h : (l + k) % 2 = 0) : SO13.make l k = .ok (l, k) := by
  unfold SO13.make
  rw [pyAssert_of (by omega), pyAssert_of (by omega), pyAssert_of (by omega)]
  simp
  rfl

theorem SO13.enumerates :
    Enumerates (fun r : ℕ × ℕ => (r.1 + r.2) % 2 = 0) SO13.lt (0, 0) SO13.iterator.out := by
  refine enumerates_of (o := fun s => (List.range (2 * s + 1)).map fun l => (l, 2 * s - l)) (fun s => ?_)
    ?_ ⟨[], rfl⟩ ?_ ?_ ?_ ?_
  · unfold SO13.iterator
    dsimp only
    rw [show (2 * (s : ℤ)) = ((2 * s : ℕ) : ℤ) by push_cast; ring, pyRange_zero, List.mapM_map]
    refine (LieNN.mapM_ok (g := fun l : ℕ => ((l, 2 * s - l) : ℕ × ℕ)) fun l hl => ?_)
    have := List.mem_range.1 hl
    simp only [Function.comp]
    rw [show ((2 * s : ℕ) : ℤ) - l = ((2 * s - l : ℕ) : ℤ) by omega, SO13.make_nat (by omega)]
  · have := strictTotal_key (valid := fun r : ℕ × ℕ => (r.1 + r.2) % 2 = 0) (fun r => r.1 + r.2) (fun r => (r.1 : ℤ))
      (by rintro ⟨a, b⟩ ⟨c, d⟩ _ _ h1 h2; simp at h1 h2; subst h2; simp at h1; rw [h1])
    convert this using 3 with x y
    simp [SO13.lt, pairLt]
  · intro s
    rw [List.pairwise_map]
    refine List.Pairwise.imp_of_mem ?_ List.pairwise_lt_range
    intro a b ha hb hab
    have := List.mem_range.1 ha
    have := List.mem_range.1 hb
    simp only [SO13.lt, pairLt]
    omega
  · intro s t hst x hx y hy
    obtain ⟨a, ha, rfl⟩ := List.mem_map.1 hx
    obtain ⟨b, hb, rfl⟩ := List.mem_map.1 hy
    have := List.mem_range.1 ha
    have := List.mem_range.1 hb
    simp only [SO13.lt, pairLt]
    omega
  · intro s x hx
    obtain ⟨a, ha, rfl⟩ := List.mem_map.1 hx
    have := List.mem_range.1 ha
    simp only
    omega
  · rintro ⟨l, k⟩ h
    simp only at h
    exact ⟨(l + k) / 2, List.mem_map.2 ⟨l, List.mem_range.2 (by omega), by simp; omega⟩⟩

/-! ### `SU2_`, `SU3`, `SU4` -/

namespace SUN

theorem strictTotal (valid : List ℤ → Prop) : StrictTotal valid SUN.lt :=
  ⟨fun x => lt_irrefl x, fun _ _ _ => lt_trans, fun _ _ _ _ h => lt_or_gt_of_ne h⟩

theorem makeLen_of {N : ℕ} {S : List ℤ} (h : S.length = N) : makeLen N S = .ok S := by
  unfold makeLen
  rw [pyAssert_of h]
  rfl

/-- A weight of `SU(N)` in the normal form of the code: non-increasing, ending with zero. -/
def valid (N : ℕ) (S : List ℤ) : Prop := S.length = N ∧ S.Pairwise (· ≥ ·) ∧ S.getLast? = some 0

theorem enumerates2 : Enumerates (valid 2) SUN.lt [0, 0] iterator2.out := by
  refine enumerates_of (o := fun s => [[(s : ℤ), 0]]) (fun s => ?_) (strictTotal _) ⟨[], rfl⟩
    (fun s => by simp) ?_ ?_ ?_
  · unfold iterator2
    rw [makeLen_of (N := 2) rfl]
    rfl
  · intro s t h x hx y hy
    simp at hx hy
    subst hx hy
    show [(s : ℤ), 0] < [(t : ℤ), 0]
    rw [List.cons_lt_cons_iff]
    left; exact_mod_cast h
  · intro s x hx
    simp at hx
    subst hx
    exact ⟨rfl, by simp, rfl⟩
  · rintro x ⟨h1, h2, h3⟩
    match x, h1 with
    | [a, b], _ =>
      simp at h2 h3
      subst h3
      exact ⟨a.toNat, by simp; omega⟩

theorem enumerates3 : Enumerates (valid 3) SUN.lt [0, 0, 0] iterator3.out := by
  refine enumerates_of (o := fun s => (List.range (s + 1)).map fun t : ℕ => [(s : ℤ), (t : ℤ), 0])
    (fun s => ?_) (strictTotal _) ⟨[], rfl⟩ ?_ ?_ ?_ ?_
  · unfold iterator3
    rw [pyRange_zero, List.mapM_map]
    exact (LieNN.mapM_ok (g := fun t : ℕ => [(s : ℤ), (t : ℤ), 0]) fun l hl => makeLen_of rfl)
  · intro s
    rw [List.pairwise_map]
    refine List.pairwise_lt_range.imp ?_
    intro a b hab
    show [(s : ℤ), (a : ℤ), 0] < [(s : ℤ), (b : ℤ), 0]
    rw [List.cons_lt_cons_iff, List.cons_lt_cons_iff]
    right; exact ⟨rfl, Or.inl (by exact_mod_cast hab)⟩
  · intro s t h x hx y hy
    obtain ⟨a, ha, rfl⟩ := List.mem_map.1 hx
    obtain ⟨b, hb, rfl⟩ := List.mem_map.1 hy
    show [(s : ℤ), (a : ℤ), 0] < [(t : ℤ), (b : ℤ), 0]
    rw [List.cons_lt_cons_iff]
    left; exact_mod_cast h
  · intro s x hx
    obtain ⟨a, ha, rfl⟩ := List.mem_map.1 hx
    have := List.mem_range.1 ha
    refine ⟨rfl, ?_, rfl⟩
    simp
    omega
  · rintro x ⟨h1, h2, h3⟩
    match x, h1 with
    | [a, b, c], _ =>
      simp at h2 h3
      subst h3
      exact ⟨a.toNat, List.mem_map.2 ⟨b.toNat, List.mem_range.2 (by omega), by simp; omega⟩⟩

theorem enumerates4 : Enumerates (valid 4) SUN.lt [0, 0, 0, 0] iterator4.out := by
  refine enumerates_of (o := fun s => (List.range (s + 1)).flatMap fun t : ℕ =>
      (List.range (t + 1)).map fun u : ℕ => [(s : ℤ), (t : ℤ), (u : ℤ), 0])
    (fun s => ?_) (strictTotal _) ⟨[], rfl⟩ ?_ ?_ ?_ ?_
  · unfold iterator4
    rw [LieNN.mapM_ok (g := fun p : ℤ × ℤ => [(s : ℤ), p.1, p.2, 0]) fun l hl => makeLen_of (N := 4) rfl]
    rw [pyRange_zero, List.flatMap_map, List.map_flatMap]
    congr 1
    simp only [List.flatMap]
    congr 1
    refine List.map_congr_left fun t _ => ?_
    rw [pyRange_zero, List.map_map, List.map_map]
    rfl
  · intro s
    rw [List.pairwise_flatMap]
    refine ⟨?_, ?_⟩
    · intro t _
      rw [List.pairwise_map]
      refine List.pairwise_lt_range.imp ?_
      intro a b hab
      show [(s : ℤ), (t : ℤ), (a : ℤ), 0] < [(s : ℤ), (t : ℤ), (b : ℤ), 0]
      rw [List.cons_lt_cons_iff, List.cons_lt_cons_iff, List.cons_lt_cons_iff]
      right; exact ⟨rfl, Or.inr ⟨rfl, Or.inl (by exact_mod_cast hab)⟩⟩
    · refine List.pairwise_lt_range.imp ?_
      intro a b hab x hx y hy
      obtain ⟨u, _, rfl⟩ := List.mem_map.1 hx
      obtain ⟨v, _, rfl⟩ := List.mem_map.1 hy
      show [(s : ℤ), (a : ℤ), (u : ℤ), 0] < [(s : ℤ), (b : ℤ), (v : ℤ), 0]
      rw [List.cons_lt_cons_iff, List.cons_lt_cons_iff]
      right; exact ⟨rfl, Or.inl (by exact_mod_cast hab)⟩
  · intro s t h x hx y hy
    obtain ⟨a, ha, hx⟩ := List.mem_flatMap.1 hx
    obtain ⟨b, hb, hy⟩ := List.mem_flatMap.1 hy
    obtain ⟨u, _, rfl⟩ := List.mem_map.1 hx
    obtain ⟨v, _, rfl⟩ := List.mem_map.1 hy
    show [(s : ℤ), (a : ℤ), (u : ℤ), 0] < [(t : ℤ), (b : ℤ), (v : ℤ), 0]
    rw [List.cons_lt_cons_iff]
    left; exact_mod_cast h
  · intro s x hx
    obtain ⟨a, ha, hx⟩ := List.mem_flatMap.1 hx
    obtain ⟨u, hu, rfl⟩ := List.mem_map.1 hx
    have := List.mem_range.1 ha
    have := List.mem_range.1 hu
    refine ⟨rfl, ?_, rfl⟩
    simp
    omega
  · rintro x ⟨h1, h2, h3⟩
    match x, h1 with
    | [a, b, c, d], _ =>
      simp at h2 h3
      subst h3
      exact ⟨a.toNat, List.mem_flatMap.2 ⟨b.toNat, List.mem_range.2 (by omega),
        List.mem_map.2 ⟨c.toNat, List.mem_range.2 (by omega), by simp; omega⟩⟩⟩

theorem zip_tail_iff (S : List ℤ) : (∀ p ∈ S.zip S.tail, p.2 ≤ p.1) ↔ S.Pairwise (· ≥ ·) := by
  rw [← List.isChain_iff_pairwise]
  induction S with
  | nil => simp
  | cons a S ih =>
    cases S with
    | nil => simp
    | cons b S =>
      rw [List.isChain_cons_cons, ← ih]
      simp

/-- The constructor of `SUN` accepts exactly the normal forms. -/
theorem make_ok_iff (S T : List ℤ) : make S = .ok T ↔ S = T ∧ valid S.length S := by
  unfold make
  by_cases h1 : isValidS S
  · rw [pyAssert_of h1]
    by_cases h2 : S.getLast? = some 0
    · rw [pyAssert_of h2]
      constructor
      · intro h; cases h; exact ⟨rfl, rfl, (zip_tail_iff S).1 h1.2, h2⟩
      · rintro ⟨rfl, _⟩; rfl
    · constructor
      · intro h; simp [pyAssert, h2, bind, Except.bind] at h
      · rintro ⟨_, _, _, h⟩; exact absurd h h2
  · constructor
    · intro h; simp [pyAssert, h1, bind, Except.bind] at h
    · rintro ⟨_, _, h, h'⟩
      refine absurd ⟨?_, (zip_tail_iff S).2 h⟩ h1
      cases S
      · simp at h'
      · simp

end SUN
end LieNN
