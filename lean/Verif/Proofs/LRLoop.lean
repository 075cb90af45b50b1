import Verif.Proofs.LRCount
import Verif.Proofs.SUNMul
/-!
# What the loop of `mul_rep` computes
-/
namespace LieNN.LR

open Finset Spec SUN

/-- The increment of a step of the loop. -/
def inc (n : ℕ) (M : Pat) (p : ℕ × ℕ) : ℤ := xs n M (n - p.2) p.1 - xs n M (n - p.2 - 1) p.1

/-- The sum of the increments of the entry `q`. -/
def tot (n : ℕ) (M : Pat) (a : List (ℕ × ℕ)) (q : ℕ) : ℤ :=
  ((a.filter fun p => n - p.2 - 1 = q).map (inc n M)).sum

theorem tot_nil (n : ℕ) (M : Pat) (q : ℕ) : tot n M [] q = 0 := rfl

theorem tot_cons (n : ℕ) (M : Pat) (p : ℕ × ℕ) (a : List (ℕ × ℕ)) (q : ℕ) :
    tot n M (p :: a) q = (if q = n - p.2 - 1 then inc n M p else 0) + tot n M a q := by
  unfold tot
  rw [List.filter_cons]
  by_cases h : n - p.2 - 1 = q
  · rw [if_pos (by simpa using h), if_pos h.symm]; simp
  · rw [if_neg (by simpa using h), if_neg (Ne.symm h), zero_add]

/-- No `break` happens. -/
def NoBreak (n : ℕ) (M : Pat) (ps : List (ℕ × ℕ)) (t : List ℤ) : Prop :=
  ∀ a p b, ps = a ++ p :: b → 1 ≤ n - p.2 - 1 →
    t.getD (n - p.2 - 1) 0 + tot n M (a ++ [p]) (n - p.2 - 1) ≤ t.getD (n - p.2 - 2) 0 + tot n M a (n - p.2 - 2)

variable {n : ℕ} {S : List ℤ} {M : Pat}

theorem mulIncr_eq (hn : S.length = n) (hw : IsWeight S) (h0 : ∀ s ∈ S, 0 ≤ s) (hM : IsGT S M) {l k : ℕ} (h : k + l < n) :
    mulIncr M l k = .ok (inc n M (l, k)) := by
  have hT : Triangular n M := by rw [← hn]; exact hM.1
  have hg := gtf_of hn hw h0 hM
  unfold mulIncr inc
  rw [get2_ok hT h]
  have e1 : xs n M (n - k) l = ent M k l := by rw [xs, show n - (n - k) = k by omega]
  by_cases h' : k + 1 + l < n
  · rw [get2_ok hT h']
    have e2 : xs n M (n - k - 1) l = ent M (k + 1) l := by rw [xs, show n - (n - k - 1) = k + 1 by omega]
    dsimp only
    rw [e1, e2]
  · rw [get2_error hT (by omega)]
    have e2 : xs n M (n - k - 1) l = 0 := hg.zero _ _ (by omega) (by omega)
    dsimp only
    rw [e1, e2, sub_zero]

theorem mulLoop_eq (hn : S.length = n) (hw : IsWeight S) (h0 : ∀ s ∈ S, 0 ≤ s) (hM : IsGT S M) (ps : List (ℕ × ℕ))
    (hp : ∀ p ∈ ps, p.2 + p.1 < n) (t : List ℤ) (ht : t.length = n) :
    ∃ t', mulLoop n M ps t = .ok t' ∧
      ((NoBreak n M ps t ∧ t'.length = n ∧ ∀ q < n, t'.getD q 0 = t.getD q 0 + tot n M ps q) ∨
        (¬ NoBreak n M ps t ∧ t' = [])) := by
  induction ps generalizing t with
  | nil =>
    refine ⟨t, rfl, Or.inl ⟨fun a p b e => ?_, ht, fun q _ => by rw [tot_nil, add_zero]⟩⟩
    have := congrArg List.length e
    simp at this
  | cons p ps ih =>
    obtain ⟨l, k⟩ := p
    have hkl : k + l < n := hp (l, k) (by simp)
    have he := mulIncr_eq hn hw h0 hM hkl
    have hq : n - k - 1 < t.length := by omega
    rw [mulLoop, List.getElem?_eq_getElem hq]
    simp only [he, SU2.ok_bind']
    set c := inc n M (l, k) with hc
    set t1 := t.set (n - k - 1) (t[n - k - 1] + c) with ht1
    have hl1 : t1.length = n := by simp [ht1, ht]
    have g : ∀ i, i < n → t1.getD i 0 = t.getD i 0 + if i = n - k - 1 then c else 0 := by
      intro i hi
      rw [List.getD_eq_getElem _ _ (by omega), List.getD_eq_getElem _ _ (by omega)]
      simp only [ht1, List.getElem_set]
      by_cases e : n - k - 1 = i
      · subst e; simp
      · rw [if_neg e, if_neg (Ne.symm e), add_zero]
    by_cases hb : n - k - 1 ≥ 1 ∧ t1.getD (n - k - 1) 0 > t1.getD (n - k - 2) 0
    · rw [if_pos hb]
      refine ⟨[], rfl, Or.inr ⟨fun hno => ?_, rfl⟩⟩
      have := hno [] (l, k) ps rfl hb.1
      rw [List.nil_append, tot_cons, tot_nil, tot_nil] at this
      dsimp only at this
      rw [if_pos rfl] at this
      have h2 := hb.2
      rw [g _ (by omega), g _ (by omega), if_pos rfl, if_neg (by omega)] at h2
      omega
    · rw [if_neg hb]
      have hiff : NoBreak n M ((l, k) :: ps) t ↔ NoBreak n M ps t1 := by
        constructor
        · intro hno a p b e h1
          have hpm : p ∈ (l, k) :: ps := by rw [e]; simp
          have := hno ((l, k) :: a) p b (by rw [e]; rfl) h1
          have hpn := hp p hpm
          rw [List.cons_append, tot_cons, tot_cons] at this
          rw [g _ (by omega), g _ (by omega)]
          dsimp only at this
          omega
        · intro hno a p b e h1
          match a, e with
          | [], e =>
            rw [List.nil_append, List.cons.injEq] at e
            obtain ⟨rfl, rfl⟩ := e
            rw [List.nil_append, tot_cons, tot_nil, tot_nil]
            dsimp only at h1 ⊢
            rw [if_pos rfl]
            have h2 : ¬ t1.getD (n - k - 1) 0 > t1.getD (n - k - 2) 0 := fun h => hb ⟨h1, h⟩
            rw [g _ (by omega), g _ (by omega), if_pos rfl, if_neg (by omega)] at h2
            omega
          | p' :: a, e =>
            rw [List.cons_append, List.cons.injEq] at e
            obtain ⟨rfl, rfl⟩ := e
            have hpn := hp p (by simp)
            have := hno a p b rfl h1
            rw [List.cons_append, tot_cons, tot_cons]
            rw [g _ (by omega), g _ (by omega)] at this
            dsimp only
            omega
      obtain ⟨t', h1, h2⟩ := ih (fun p hp' => hp p (by simp [hp'])) t1 hl1
      refine ⟨t', h1, ?_⟩
      rw [hiff]
      refine h2.imp (fun h2 => ⟨h2.1, h2.2.1, fun q hq => ?_⟩) id
      rw [h2.2.2 q hq, g q hq, tot_cons, add_assoc]

/-! ## The order of the steps -/

/-- The order of the steps. -/
def Before (a b : ℕ × ℕ) : Prop := a.1 < b.1 ∨ (a.1 = b.1 ∧ a.2 < b.2)

theorem uniquePairs_pairwise (n : ℕ) : (uniquePairs n).Pairwise Before := by
  unfold uniquePairs
  rw [List.pairwise_flatMap]
  refine ⟨fun l _ => ?_, ?_⟩
  · rw [List.pairwise_map]
    exact List.pairwise_lt_range.imp fun h => Or.inr ⟨rfl, h⟩
  · refine List.pairwise_lt_range.imp fun {a b} h x hx y hy => ?_
    obtain ⟨_, _, rfl⟩ := List.mem_map.1 hx
    obtain ⟨_, _, rfl⟩ := List.mem_map.1 hy
    exact Or.inl h

theorem Before.irrefl (a : ℕ × ℕ) : ¬ Before a a := by unfold Before; omega
theorem Before.asymm {a b : ℕ × ℕ} (h : Before a b) : ¬ Before b a := by unfold Before at *; omega

theorem mem_prefix {a b : List (ℕ × ℕ)} {p : ℕ × ℕ} (e : uniquePairs n = a ++ p :: b) (x : ℕ × ℕ) :
    x ∈ a ↔ x.2 + x.1 < n ∧ Before x p := by
  have hpw := uniquePairs_pairwise n
  rw [e] at hpw
  obtain ⟨_, h2, h3⟩ := List.pairwise_append.1 hpw
  constructor
  · intro hx
    exact ⟨mem_uniquePairs.1 (by rw [e]; simp [hx]), h3 x hx p (by simp)⟩
  · rintro ⟨h1, hb⟩
    have hx : x ∈ uniquePairs n := mem_uniquePairs.2 h1
    rw [e, List.mem_append, List.mem_cons] at hx
    rcases hx with hx | rfl | hx
    · exact hx
    · exact absurd hb (Before.irrefl _)
    · exact absurd ((List.pairwise_cons.1 h2).1 x hx) (hb.asymm)

/-- The sum of the increments of `q` in a list without repetitions. -/
theorem tot_eq_sum {a : List (ℕ × ℕ)} (hnd : a.Nodup) {q c : ℕ} (hq : q < n)
    (hm : ∀ l k, (l, k) ∈ a ∧ n - k - 1 = q ↔ k = n - 1 - q ∧ l < c) :
    tot n M a q = ∑ l ∈ range c, (xs n M (q + 1) l - xs n M q l) := by
  unfold tot
  rw [← List.sum_toFinset _ (hnd.filter _)]
  symm
  refine sum_nbij (fun l => (l, n - 1 - q)) ?_ ?_ ?_ ?_
  · intro l hl
    have := (hm l (n - 1 - q)).2 ⟨rfl, mem_range.1 hl⟩
    rw [List.mem_toFinset, List.mem_filter]
    exact ⟨this.1, by simpa using this.2⟩
  · intro l _ l' _ e
    exact (Prod.mk.inj e).1
  · rintro ⟨l, k⟩ hx
    rw [mem_coe, List.mem_toFinset, List.mem_filter] at hx
    obtain ⟨h1, h2⟩ := (hm l k).1 ⟨hx.1, by simpa using hx.2⟩
    exact ⟨l, mem_coe.2 (mem_range.2 h2), by rw [h1]⟩
  · intro l _
    unfold inc
    dsimp only
    rw [show n - (n - 1 - q) = q + 1 by omega, show q + 1 - 1 = q by omega]

theorem nodup_uniquePairs (n : ℕ) : (uniquePairs n).Nodup :=
  (uniquePairs_pairwise n).imp fun {a b} h (e : a = b) => Before.irrefl b (by rw [e] at h; exact h)

theorem tot_all {q : ℕ} (hq : q < n) :
    tot n M (uniquePairs n) q = ∑ l ∈ range (q + 1), (xs n M (q + 1) l - xs n M q l) := by
  refine tot_eq_sum (nodup_uniquePairs n) hq fun l k => ?_
  rw [mem_uniquePairs]
  dsimp only
  omega

theorem noBreak_iff (hn : S.length = n) (hw : IsWeight S) (h0 : ∀ s ∈ S, 0 ≤ s) (hM : IsGT S M) (t : List ℤ) :
    NoBreak n M (uniquePairs n) t ↔ Row n (fun i => t.getD i 0) (xs n M) := by
  have hg := gtf_of hn hw h0 hM
  have key : ∀ a p b, uniquePairs n = a ++ p :: b → 1 ≤ n - p.2 - 1 →
      tot n M (a ++ [p]) (n - p.2 - 1) =
        ∑ i ∈ range (p.1 + 1), (xs n M (n - p.2 - 1 + 1) i - xs n M (n - p.2 - 1) i) ∧
      tot n M a (n - p.2 - 2) = ∑ i ∈ range p.1, (xs n M (n - p.2 - 2 + 1) i - xs n M (n - p.2 - 2) i) := by
    rintro a ⟨l, k⟩ b e h1
    have hmem := mem_prefix e
    have hnd := nodup_uniquePairs n
    have hpin : k + l < n := by
      have : (l, k) ∈ uniquePairs n := by rw [e]; simp
      exact mem_uniquePairs.1 this
    have hsub : (a ++ [(l, k)]).Nodup := by
      rw [e] at hnd
      refine hnd.sublist ?_
      rw [show (l, k) :: b = [(l, k)] ++ b from rfl, ← List.append_assoc]
      exact List.sublist_append_left _ _
    dsimp only at *
    constructor
    · refine tot_eq_sum hsub (by omega) fun l' k' => ?_
      rw [List.mem_append, List.mem_singleton, hmem, Prod.mk.injEq]
      unfold Before
      dsimp only
      omega
    · refine tot_eq_sum (hsub.sublist (List.sublist_append_left _ _)) (by omega) fun l' k' => ?_
      rw [hmem]
      unfold Before
      dsimp only
      omega
  constructor
  · intro hno k hk l hl
    have main : ∀ l, l ≤ k + 1 → t.getD (k + 1) 0 + ∑ i ∈ range (l + 1), (xs n M (k + 2) i - xs n M (k + 1) i) ≤
        t.getD k 0 + ∑ i ∈ range l, (xs n M (k + 1) i - xs n M k i) := by
      intro l hl
      have hin : (l, n - 2 - k) ∈ uniquePairs n := mem_uniquePairs.2 (by dsimp only; omega)
      obtain ⟨a, b, e⟩ := List.append_of_mem hin
      have h1 := hno a _ b e (by dsimp only; omega)
      obtain ⟨e1, e2⟩ := key a _ b e (by dsimp only; omega)
      rw [e1, e2] at h1
      dsimp only at h1
      rw [show n - (n - 2 - k) - 1 = k + 1 by omega, show n - (n - 2 - k) - 2 = k by omega] at h1
      exact h1
    rcases Nat.lt_or_ge l (k + 2) with h1 | h1
    · exact main l (by omega)
    · have h2 := main (k + 1) le_rfl
      have e1 : ∑ i ∈ range (l + 1), (xs n M (k + 2) i - xs n M (k + 1) i) =
          ∑ i ∈ range (k + 1 + 1), (xs n M (k + 2) i - xs n M (k + 1) i) := by
        refine (sum_subset (range_subset_range.2 (by omega)) fun i hi hi' => ?_).symm
        rw [mem_range] at hi hi'
        rw [hg.zero (k + 2) i (by omega) (by omega), hg.zero (k + 1) i (by omega) (by omega), sub_zero]
      have e2 : ∑ i ∈ range l, (xs n M (k + 1) i - xs n M k i) =
          ∑ i ∈ range (k + 1), (xs n M (k + 1) i - xs n M k i) := by
        refine (sum_subset (range_subset_range.2 (by omega)) fun i hi hi' => ?_).symm
        rw [mem_range] at hi hi'
        rw [hg.zero (k + 1) i (by omega) (by omega), hg.zero k i (by omega) (by omega), sub_zero]
      rw [e1, e2]
      exact h2
  · intro hr a p b e h1
    obtain ⟨e1, e2⟩ := key a p b e h1
    have hpin : p.2 + p.1 < n := mem_uniquePairs.1 (by rw [e]; simp)
    rw [e1, e2]
    have := hr (n - p.2 - 2) (by omega) p.1 (by omega)
    rw [show n - p.2 - 2 + 1 = n - p.2 - 1 by omega, show n - p.2 - 2 + 2 = n - p.2 - 1 + 1 by omega] at this
    rw [show n - p.2 - 2 + 1 = n - p.2 - 1 by omega]
    exact this

open Classical in
/-- The loop: `[]` if the row conditions fail, the sum of the weights otherwise. -/
theorem mulLoop_row (hn : S.length = n) (hw : IsWeight S) (h0 : ∀ s ∈ S, 0 ≤ s) (hM : IsGT S M) {t : List ℤ}
    (ht : t.length = n) : mulLoop n M (uniquePairs n) t =
      .ok (if Row n (fun i => t.getD i 0) (xs n M) then lab n t M else []) := by
  have hg := gtf_of hn hw h0 hM
  obtain ⟨t', h1, h2⟩ := mulLoop_eq hn hw h0 hM (uniquePairs n) (fun p hp => mem_uniquePairs.1 hp) t ht
  rw [h1, ← noBreak_iff hn hw h0 hM t]
  rcases h2 with ⟨a, b, c⟩ | ⟨a, b⟩
  · rw [if_pos a]
    congr 1
    refine List.ext_getElem (by rw [b, lab_length]) fun q h3 h4 => ?_
    have hq : q < n := by omega
    have := c q hq
    rw [List.getD_eq_getElem _ _ h3, tot_all hq] at this
    have e := lab_getD (S₂ := t) (M := M) hq
    rw [List.getD_eq_getElem _ _ h4] at e
    rw [this, e, wt, rsum, rsum, ← sum_sub_distrib]
    congr 1
    refine sum_subset (range_subset_range.2 (by omega)) fun i hi hi' => ?_
    rw [mem_range] at hi hi'
    rw [hg.zero (q + 1) i (by omega) (by omega), hg.zero q i (by omega) (by omega), sub_zero]
  · rw [if_neg a, b]

end LieNN.LR
