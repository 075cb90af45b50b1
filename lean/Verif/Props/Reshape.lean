import Verif.Proofs.TBShape

/-!
# Properties of `IrrepsArray.reshape` (C53)

The entries of the leading shape are natural numbers; the last entry is `-1` (`none`) or a natural number.
-/
namespace LieNN.Props
open LieNN.Spec LieNN.IArr LieNN.TBasis

variable {n h : ℕ} {T : Table n h} {m m' : ℕ}

/-- **C53.** `reshape` to a leading shape with the same number of entries keeps the irreps, the
multiplicities and, in row-major order, the arrays; the last size may be `-1` or the sum of the
multiplicities. -/
theorem C53_reshape (l : List (Blk T m')) (hne : l ≠ []) (s : Fin m' → ℕ) (hs : ∀ b ∈ l, b.shape = s)
    (t : Fin m → ℕ) (ht : ∏ k, s k = ∏ k, t k) (last : Option ℕ)
    (hl : last = none ∨ last = some (l.map Blk.mul).sum) :
    ∃ r, TBasis.reshape t last l = .ok r ∧
      r.map (fun b => (b.mul, b.ir)) = l.map (fun b => (b.mul, b.ir)) ∧ (∀ b ∈ r, b.shape = t) ∧
      ∀ (q : Fin m' → ℕ) (p : Fin m → ℕ), (∀ k, q k < s k) → (∀ k, p k < t k) →
        rowMajor s q = rowMajor t p → array r p = array l q := by
  let R : Blk T m' → Blk T m := fun b =>
    { mul := b.mul, ir := b.ir, shape := t, x := fun p u k => b.x (unravel b.shape (ravel t p)) u k }
  have hsh : ∀ b ∈ l.map R, b.shape = t := by
    intro b hb
    obtain ⟨b, _, rfl⟩ := List.mem_map.1 hb
    rfl
  have hne' : l.map R ≠ [] := by simpa using hne
  refine ⟨l.map R, ?_, ?_, hsh, ?_⟩
  · rw [TBasis.reshape]
    show (pyAssert _ >>= _) = _
    rw [pyAssert, if_pos (by rcases hl with rfl | rfl <;> simp)]
    have h1 : l.mapM (fun b : Blk T m' =>
        if (∏ k, b.shape k) * (b.mul * T.dim b.ir) = (∏ k, t k) * (b.mul * T.dim b.ir) then
          (Except.ok (R b) : Py (Blk T m)) else .error .valueError) = .ok (l.map R) := by
      refine LieNN.mapM_ok fun b hb => ?_
      rw [if_pos]
      rw [hs b hb, ht]
    show (l.mapM _ >>= fun l' => IArr.mk l') = _
    refine Eq.trans (congrArg (· >>= fun l' => IArr.mk l') h1) ?_
    exact mk_ok hne' hsh
  · rw [List.map_map]; rfl
  · intro q p hq _ he
    simp only [array, List.flatMap_map]
    refine List.flatMap_congr fun b hb => ?_
    have : unravel b.shape (ravel t p) = q := by
      rw [hs b hb, ravel_eq, ← he, unravel_rowMajor hq]
    show (List.finRange b.mul).flatMap (fun u => (List.finRange (T.dim b.ir)).map fun k =>
      b.x (unravel b.shape (ravel t p)) u k) = _
    rw [this]

/-- **C53.** A leading shape with another number of entries raises `ValueError`, unless the blocks
are empty. -/
theorem C53_reshape_size (l : List (Blk T m')) (s : Fin m' → ℕ) (hs : ∀ b ∈ l, b.shape = s)
    (hb : ∃ b ∈ l, b.mul * T.dim b.ir ≠ 0) (t : Fin m → ℕ) (ht : ∏ k, s k ≠ ∏ k, t k) :
    TBasis.reshape t none l = .error .valueError := by
  rw [TBasis.reshape]
  show (pyAssert _ >>= _) = _
  rw [pyAssert, if_pos (by simp)]
  show (l.mapM _ >>= fun l' => IArr.mk l') = _
  suffices h : ∀ f : Blk T m' → Py (Blk T m), (∀ b, f b = .error .valueError ∨ ∃ c, f b = .ok c) →
      (∃ b ∈ l, f b = .error .valueError) → l.mapM f = .error .valueError by
    refine Eq.trans (congrArg (· >>= fun l' => IArr.mk l') (h _ (fun b => ?_) ?_)) rfl
    · split_ifs
      · exact Or.inr ⟨_, rfl⟩
      · exact Or.inl rfl
    · obtain ⟨b, hb, h0⟩ := hb
      refine ⟨b, hb, if_neg fun he => ht ?_⟩
      rw [hs b hb] at he
      exact Nat.eq_of_mul_eq_mul_right (Nat.pos_of_ne_zero h0) he
  intro f hf hx
  clear hs hb
  induction l with
  | nil => obtain ⟨b, hb, _⟩ := hx; simp at hb
  | cons a l ih =>
    rw [List.mapM_cons]
    rcases hf a with h | ⟨c, h⟩
    · rw [h]; rfl
    · rw [h]
      obtain ⟨b, hb, hb'⟩ := hx
      rcases List.mem_cons.1 hb with rfl | hb
      · rw [h] at hb'; simp at hb'
      · have := ih ⟨b, hb, hb'⟩
        show (l.mapM f >>= _) = _
        rw [this]
        rfl

/-- **C53 (defect).** The explicit last size is compared with the sum of the multiplicities, not with the
length of the last axis of `array`: the actual length is rejected whenever the two differ. -/
theorem C53_reshape_last_false (l : List (Blk T m')) (t : Fin m → ℕ) (d : ℕ)
    (hd : d = (l.map fun b => b.mul * T.dim b.ir).sum) (hne : d ≠ (l.map Blk.mul).sum) :
    (∀ p, (array l p).length = d) ∧ TBasis.reshape t (some d) l = .error .assertionError := by
  constructor
  · intro p
    rw [hd]
    simp [array, List.length_flatMap]
  · rw [TBasis.reshape]
    show (pyAssert _ >>= _) = _
    rw [pyAssert, if_neg (by simpa using hne)]
    rfl

/-- A table with one irrep of dimension 3. -/
def threeTable : Table 0 0 where
  Ir := Unit
  dim := fun _ => 3
  rep := fun _ => { A := fun i => i.elim0, X := fun i => i.elim0, H := fun i => i.elim0 }
  prod := fun _ _ => []
  cg := fun _ _ _ => []

/-- Two copies of it with the leading shape `(2, 3)`, reshaped to `(6,)` or not to `(5,)`; the last axis has
length 6, the sum of the multiplicities is 2. -/
example : let b : Blk threeTable 2 := ⟨2, (), ![2, 3], fun p u k => p 0 + u.1 + k.1⟩
    (∀ c ∈ [b], c.shape = ![2, 3]) ∧ ∏ k, (![2, 3] : Fin 2 → ℕ) k = ∏ k, (![6] : Fin 1 → ℕ) k ∧
    ∏ k, (![2, 3] : Fin 2 → ℕ) k ≠ ∏ k, (![5] : Fin 1 → ℕ) k ∧
    (∃ c ∈ [b], c.mul * threeTable.dim c.ir ≠ 0) ∧ rowMajor ![2, 3] ![1, 2] = rowMajor ![6] ![5] ∧
    6 = ([b].map fun c => c.mul * threeTable.dim c.ir).sum ∧ 6 ≠ ([b].map Blk.mul).sum := by
  refine ⟨by simp, by decide, by decide, ⟨_, List.mem_singleton_self _, by simp [threeTable]⟩, by decide, by simp [threeTable], by simp⟩

end LieNN.Props
