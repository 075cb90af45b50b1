import Verif.Model.SUN
import Verif.Spec.SUN
import Verif.Proofs.Iter
import Verif.Proofs.IterTriv
import Verif.Proofs.SUNWeyl
import Mathlib.Data.List.GetD
/-!
# Enumeration of the Gelfand-Tsetlin patterns
-/
namespace LieNN.SUN

open Spec

theorem isWeight_iff (S : List ℤ) : isValidS S ↔ IsWeight S := by
  unfold isValidS IsWeight
  rw [zip_tail_iff, List.length_pos_iff]

/-- The rows that interlace with `S`, in lexicographic order. -/
def nextsL : List ℤ → List (List ℤ)
  | [] => [[]]
  | [_] => [[]]
  | a :: b :: S => ((List.range ((a - b).toNat + 1)).map fun t : ℕ => b + (t : ℤ)).flatMap fun t =>
      (nextsL (b :: S)).map fun T => t :: T

/-- `T` interlaces with `S`. -/
def Inter (S T : List ℤ) : Prop :=
  T.length + 1 = S.length ∧
    ∀ j < T.length, S.getD (j + 1) 0 ≤ T.getD j 0 ∧ T.getD j 0 ≤ S.getD j 0

theorem inter_single (a : ℤ) (T : List ℤ) : Inter [a] T ↔ T = [] := by
  constructor
  · rintro ⟨h, -⟩
    simp at h
    exact h
  · rintro rfl
    exact ⟨rfl, by simp⟩

theorem inter_cons (a b : ℤ) (S T : List ℤ) :
    Inter (a :: b :: S) T ↔ ∃ t T', T = t :: T' ∧ b ≤ t ∧ t ≤ a ∧ Inter (b :: S) T' := by
  constructor
  · rintro ⟨h, h2⟩
    cases T with
    | nil => simp at h
    | cons t T =>
      refine ⟨t, T, rfl, by simpa using (h2 0 (by simp)).1, by simpa using (h2 0 (by simp)).2,
        by simpa using h, fun j hj => ?_⟩
      simpa using h2 (j + 1) (by simpa using hj)
  · rintro ⟨t, T, rfl, h1, h2, h3, h4⟩
    refine ⟨by simpa using h3, fun j hj => ?_⟩
    cases j with
    | zero => simpa using ⟨h1, h2⟩
    | succ j => simpa using h4 j (by simpa using hj)

theorem mem_nextsL (S : List ℤ) (hS : IsWeight S) (T : List ℤ) : T ∈ nextsL S ↔ Inter S T := by
  match S, hS with
  | [], h => exact absurd rfl h.1
  | [a], _ => rw [inter_single, nextsL]; simp
  | a :: b :: S, h =>
    have hab : b ≤ a := by have := h.2; simp at this; omega
    have hb : IsWeight (b :: S) := ⟨by simp, (List.pairwise_cons.1 h.2).2⟩
    rw [inter_cons, nextsL]
    simp only [List.mem_flatMap, List.mem_map, List.mem_range]
    constructor
    · rintro ⟨t, ⟨u, hu, rfl⟩, T', hT', rfl⟩
      exact ⟨_, _, rfl, by omega, by omega, (mem_nextsL _ hb T').1 hT'⟩
    · rintro ⟨t, T', rfl, h1, h2, h3⟩
      exact ⟨t, ⟨(t - b).toNat, by omega, by omega⟩, T', (mem_nextsL _ hb T').2 h3, rfl⟩

theorem nextsL_sorted (S : List ℤ) : (nextsL S).Pairwise (· < ·) := by
  match S with
  | [] => simp [nextsL]
  | [a] => simp [nextsL]
  | a :: b :: S =>
    rw [nextsL, List.pairwise_flatMap]
    constructor
    · intro t _
      rw [List.pairwise_map]
      exact (nextsL_sorted (b :: S)).imp fun {x y} h => List.cons_lt_cons_iff.2 (Or.inr ⟨rfl, h⟩)
    · rw [List.pairwise_map]
      refine (List.pairwise_lt_range).imp fun {x y} h => ?_
      intro u hu v hv
      obtain ⟨_, _, rfl⟩ := List.mem_map.1 hu
      obtain ⟨_, _, rfl⟩ := List.mem_map.1 hv
      exact List.cons_lt_cons_iff.2 (Or.inl (by omega))

theorem inter_weight {S T : List ℤ} (hS : IsWeight S) (h : Inter S T) (h2 : 2 ≤ S.length) :
    IsWeight T := by
  refine ⟨fun e => ?_, ?_⟩
  · subst e; have := h.1; simp at this; omega
  · rw [List.pairwise_iff_getElem]
    intro i j hi hj hij
    have hi' := h.2 i hi
    have hj' := h.2 j hj
    have := h.1
    have h3 := List.pairwise_iff_getElem.1 hS.2
    have h4 : S.getD j 0 ≤ S.getD (i + 1) 0 := by
      rw [List.getD_eq_getElem _ _ (by omega), List.getD_eq_getElem _ _ (by omega)]
      rcases Nat.lt_or_ge (i + 1) j with h | h
      · exact h3 _ _ _ _ h
      · have : i + 1 = j := by omega
        subst this; exact le_rfl
    rw [List.getD_eq_getElem _ _ hi] at hi'
    rw [List.getD_eq_getElem _ _ hj] at hj'
    exact le_trans hj'.2 (le_trans h4 hi'.1)

/-! ## The code produces these rows -/

theorem itProduct_map (S : List ℤ) (hS : IsWeight S) :
    (itProduct (((S.zip S.tail).map fun p => p.1 - p.2).map
      fun s => (SU2.pyRange 0 (s + 1) 1).reverse)).map (fun x =>
        (List.range (S.length - 1)).map fun i => S.getD i 0 - x.getD i 0) = nextsL S := by
  match S, hS with
  | [], h => exact absurd rfl h.1
  | [a], _ => simp [itProduct, nextsL]
  | a :: b :: S, h =>
    have hab : b ≤ a := by have := h.2; simp at this; omega
    have hb : IsWeight (b :: S) := ⟨by simp, (List.pairwise_cons.1 h.2).2⟩
    have hr : (SU2.pyRange 0 (a - b + 1) 1).reverse.map (fun x => a - x) =
        (List.range ((a - b).toNat + 1)).map fun t : ℕ => b + (t : ℤ) := by
      obtain ⟨m, hm⟩ : ∃ m : ℕ, a - b = m := ⟨(a - b).toNat, by omega⟩
      rw [hm, pyRange_zero, Int.toNat_natCast, ← List.map_reverse, List.map_map]
      apply List.ext_getElem
      · simp
      · intro i h1 h2
        simp at h1 ⊢
        omega
    rw [nextsL, ← hr, ← itProduct_map (b :: S) hb]
    simp only [List.tail_cons, List.zip_cons_cons, List.map_cons, itProduct, List.map_flatMap,
      List.map_map, List.flatMap_map]
    refine List.flatMap_congr fun x _ => List.map_congr_left fun xs _ => ?_
    simp only [Function.comp, List.length_cons, Nat.add_sub_cancel]
    rw [List.range_succ_eq_map]
    simp [List.map_map, Function.comp_def]

theorem sToSs_eq {S : List ℤ} (hS : IsWeight S) :
    sToSs S = .ok (if S.length = 1 then [] else nextsL S) := by
  unfold sToSs
  rw [pyAssert_of ((isWeight_iff S).2 hS)]
  simp only [SU2.ok_bind']
  split_ifs with h
  · rfl
  · rw [itProduct_map S hS]
    rfl

/-- The patterns. -/
def patsAux : ℕ → List ℤ → List Pat
  | 0, _ => []
  | n + 1, S => if S.length = 1 then [[S]]
      else (nextsL S).flatMap fun T => (patsAux n T).map fun M => S :: M

/-- The patterns. -/
def pats (S : List ℤ) : List Pat := patsAux S.length S

theorem pats_single (a : ℤ) : pats [a] = [[[a]]] := by simp [pats, patsAux]

theorem pats_cons {S : List ℤ} (hS : IsWeight S) (h2 : 2 ≤ S.length) :
    pats S = (nextsL S).flatMap fun T => (pats T).map fun M => S :: M := by
  obtain ⟨n, hn⟩ : ∃ n, S.length = n + 1 := ⟨S.length - 1, by omega⟩
  rw [pats, hn, patsAux, if_neg (by omega)]
  refine List.flatMap_congr fun T hT => ?_
  have := ((mem_nextsL S hS T).1 hT).1
  rw [pats, show T.length = n by omega]

theorem length_induction {P : List ℤ → Prop} (h1 : ∀ a, P [a])
    (h2 : ∀ S, IsWeight S → 2 ≤ S.length → (∀ T ∈ nextsL S, IsWeight T → P T) → P S) :
    ∀ S, IsWeight S → P S := by
  have : ∀ n (S : List ℤ), S.length = n → IsWeight S → P S := by
    intro n
    induction n with
    | zero => intro S hn hS; exact absurd (List.length_eq_zero_iff.1 hn) hS.1
    | succ n ih =>
      intro S hn hS
      by_cases h : 2 ≤ S.length
      · refine h2 S hS h fun T hT hw => ih T ?_ hw
        have := ((mem_nextsL S hS T).1 hT).1
        omega
      · obtain ⟨a, rfl⟩ := List.length_eq_one_iff.1 (show S.length = 1 by omega)
        exact h1 a
  exact fun S hS => this _ S rfl hS

theorem sToMs_eq (S : List ℤ) (hS : IsWeight S) : sToMs S = .ok (pats S) := by
  revert hS
  revert S
  refine length_induction ?_ ?_
  · intro a
    rw [pats_single, sToMs]
    simp only [List.length_singleton, sToMsAux]
    rw [pyAssert_of ((isWeight_iff _).2 ⟨by simp, by simp⟩)]
    rw [sToSs_eq ⟨by simp, by simp⟩]
    rfl
  · intro S hS h2 ih
    obtain ⟨n, hn⟩ : ∃ n, S.length = n + 1 := ⟨S.length - 1, by omega⟩
    rw [pats_cons hS h2, sToMs, hn, sToMsAux, pyAssert_of ((isWeight_iff _).2 hS), sToSs_eq hS,
      if_neg (by omega), if_neg (by omega)]
    simp only [SU2.ok_bind']
    rw [LieNN.mapM_ok (g := fun T => (pats T).map fun M => S :: M)]
    · simp only [SU2.ok_bind', List.nil_append]
      rw [← List.flatMap_def]
      rfl
    · intro T hT
      have hI := (mem_nextsL S hS T).1 hT
      have := hI.1
      have := ih T hT (inter_weight hS hI h2)
      rw [sToMs, show T.length = n by omega] at this
      rw [this]
      rfl

/-! ## They are the patterns -/

theorem isGT_single (a : ℤ) (M : Pat) : IsGT [a] M ↔ M = [[a]] := by
  constructor
  · rintro ⟨⟨h1, _⟩, h2, _⟩
    match M, h1 with
    | [R], _ => simp at h2; rw [h2]
  · rintro rfl
    refine ⟨⟨rfl, ?_⟩, rfl, ?_⟩
    · intro i hi
      have : i = 0 := by simpa using hi
      subst this; rfl
    · intro i j h; simp at h

theorem isGT_cons {S : List ℤ} (h2 : 2 ≤ S.length) (M : Pat) :
    IsGT S M ↔ ∃ T M', M = S :: M' ∧ Inter S T ∧ IsGT T M' := by
  constructor
  · rintro ⟨⟨h1, h3⟩, h4, h5⟩
    match M, h1 with
    | [], h1 => simp at h1; omega
    | [R], h1 => simp at h1; omega
    | R :: T :: M', h1 =>
      simp at h4
      subst h4
      have hT : T.length = R.length - 1 := by simpa using h3 1 (by omega)
      refine ⟨T, T :: M', rfl, ⟨by omega, fun j hj => ?_⟩, ⟨by simp at h1 ⊢; omega, fun i hi => ?_⟩, rfl, ?_⟩
      · simpa [ent] using h5 0 j (by simp at h1 ⊢; omega)
      · have := h3 (i + 1) (by omega)
        simp at this ⊢
        omega
      · intro i j h
        simpa [ent] using h5 (i + 1) j (by simp at h ⊢; omega)
  · rintro ⟨T, M', rfl, ⟨hI1, hI2⟩, ⟨h1, h3⟩, h4, h5⟩
    match M', h4 with
    | R :: M'', h4 =>
      simp at h4
      subst h4
      refine ⟨⟨by simp at h1 ⊢; omega, fun i hi => ?_⟩, rfl, ?_⟩
      · cases i with
        | zero => simp
        | succ i =>
          have := h3 i (by omega)
          simp at this ⊢
          omega
      · intro i j h
        cases i with
        | zero => simpa [ent] using hI2 j (by simp at h h1; omega)
        | succ i => simpa [ent] using h5 i j (by simp at h ⊢; omega)

theorem mem_pats (S : List ℤ) (hS : IsWeight S) : ∀ M, M ∈ pats S ↔ IsGT S M := by
  revert hS
  revert S
  refine length_induction ?_ ?_
  · intro a M
    rw [pats_single, isGT_single]
    simp
  · intro S hS h2 ih M
    rw [pats_cons hS h2, isGT_cons h2]
    simp only [List.mem_flatMap, List.mem_map]
    constructor
    · rintro ⟨T, hT, M', hM', rfl⟩
      have hI := (mem_nextsL S hS T).1 hT
      exact ⟨T, M', rfl, hI, (ih T hT (inter_weight hS hI h2) M').1 hM'⟩
    · rintro ⟨T, M', rfl, hI, hM'⟩
      have hT := (mem_nextsL S hS T).2 hI
      exact ⟨T, hT, M', (ih T hT (inter_weight hS hI h2) M').2 hM', rfl⟩

theorem pats_head (S : List ℤ) (hS : IsWeight S) {M : Pat} (h : M ∈ pats S) : ∃ M', M = S :: M' := by
  have := ((mem_pats S hS M).1 h).2.1
  match M, this with
  | R :: M', h => simp at h; exact ⟨M', by rw [h]⟩

theorem pats_sorted (S : List ℤ) (hS : IsWeight S) : (pats S).Pairwise (· < ·) := by
  revert hS
  revert S
  refine length_induction ?_ ?_
  · intro a
    rw [pats_single]
    simp
  · intro S hS h2 ih
    rw [pats_cons hS h2, List.pairwise_flatMap]
    have hw : ∀ T ∈ nextsL S, IsWeight T := fun T hT =>
      inter_weight hS ((mem_nextsL S hS T).1 hT) h2
    constructor
    · intro T hT
      rw [List.pairwise_map]
      exact (ih T hT (hw T hT)).imp
        fun {x y} h => List.cons_lt_cons_iff.2 (Or.inr ⟨rfl, h⟩)
    · refine (nextsL_sorted S).imp_of_mem fun {T T'} hT hT' h => ?_
      intro u hu v hv
      obtain ⟨M, hM, rfl⟩ := List.mem_map.1 hu
      obtain ⟨M', hM', rfl⟩ := List.mem_map.1 hv
      obtain ⟨N, rfl⟩ := pats_head T (hw T hT) hM
      obtain ⟨N', rfl⟩ := pats_head T' (hw T' hT') hM'
      exact List.cons_lt_cons_iff.2 (Or.inr ⟨rfl, List.cons_lt_cons_iff.2 (Or.inl h)⟩)

end LieNN.SUN
