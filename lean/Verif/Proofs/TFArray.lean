import Verif.Spec.TensorFront
import Verif.Proofs.TBError
import Mathlib.Data.List.GetD

/-!
# The array of a list of blocks
-/
namespace LieNN.TFront

open Matrix LieNN.PermRepr LieNN.IArr LieNN.Spec LieNN.TBasis

variable {n h : ℕ} {T : Table n h} {m : ℕ}

/-- The irreps of the blocks. -/
abbrev mirs (l : List (Blk T m)) : List (MulIr T) := l.map fun b => ⟨b.mul, b.ir⟩

theorem length_array (l : List (Blk T m)) (p : Fin m → ℕ) : (IArr.array l p).length = dimL (mirs l) := by
  induction l with
  | nil => rfl
  | cons b l ih =>
    have : IArr.array (b :: l) p = ((List.finRange b.mul).flatMap fun u =>
      (List.finRange (T.dim b.ir)).map fun k => b.x p u k) ++ IArr.array l p := rfl
    rw [this, List.length_append, ih]
    simp [List.length_flatMap, dimL, MulIr.dim]

theorem getD_block {mul d : ℕ} (f : Fin mul → Fin d → ℂ) (u : Fin mul) (k : Fin d) (L : List ℂ) :
    (((List.finRange mul).flatMap fun u => (List.finRange d).map fun k => f u k) ++ L).getD (u * d + k) 0 =
      f u k := by
  induction mul with
  | zero => exact u.elim0
  | succ mul ih =>
    rw [List.finRange_succ, List.flatMap_cons, List.append_assoc]
    refine Fin.cases ?_ (fun u => ?_) u
    · simp only [Fin.val_zero, Nat.zero_mul, Nat.zero_add]
      rw [List.getD_append _ _ _ _ (by simp)]
      simp [List.getD_eq_getElem?_getD]
    · have := ih (fun u k => f u.succ k) u
      rw [List.getD_append_right _ _ _ _ (by
        simp only [List.length_map, List.length_finRange, Fin.val_succ, Nat.add_mul]; omega)]
      rw [← this, List.flatMap_map]
      congr 1
      simp only [List.length_map, List.length_finRange, Fin.val_succ, Nat.add_mul]
      omega

theorem getD_array (l₁ : List (Blk T m)) (b : Blk T m) (l₂ : List (Blk T m)) (p : Fin m → ℕ)
    (u : Fin b.mul) (k : Fin (T.dim b.ir)) :
    (IArr.array (l₁ ++ b :: l₂) p).getD (offset (mirs l₁) + (u * T.dim b.ir + k)) 0 = b.x p u k := by
  have happ : IArr.array (l₁ ++ b :: l₂) p = IArr.array l₁ p ++ IArr.array (b :: l₂) p := by
    simp only [IArr.array, List.flatMap_append]
  rw [happ, List.getD_append_right _ _ _ _ (by rw [length_array, dimL_offset]; omega),
    length_array, dimL_offset, Nat.add_sub_cancel_left]
  exact getD_block (fun u k => b.x p u k) u k (IArr.array l₂ p)

/-- Position of a column on the last axis. -/
theorem exists_position (l : List (Blk T m)) : ∃ e : Cols l ≃ Fin (dimL (mirs l)),
    ∀ c p, (IArr.array l p).getD (e c) 0 = l[c.1].x p c.2.1 c.2.2 := by
  classical
  have hsplit : ∀ i : Fin l.length, l = l.take i ++ l[i] :: l.drop (i + 1) := by
    intro i
    rw [Fin.getElem_fin, List.cons_getElem_drop_succ, List.take_append_drop]
  have hval : ∀ (c : Cols l) p, (IArr.array l p).getD
      (offset (mirs (l.take c.1)) + (c.2.1 * T.dim l[c.1].ir + c.2.2)) 0 = l[c.1].x p c.2.1 c.2.2 := by
    intro c p
    have := getD_array (l.take c.1) l[c.1] (l.drop (c.1 + 1)) p c.2.1 c.2.2
    rw [← hsplit c.1] at this
    exact this
  have hlt : ∀ c : Cols l, offset (mirs (l.take c.1)) + (c.2.1 * T.dim l[c.1].ir + c.2.2) < dimL (mirs l) := by
    intro c
    have h1 : dimL (mirs l) = dimL (mirs (l.take c.1 ++ l[c.1] :: l.drop (c.1 + 1))) := by rw [← hsplit c.1]
    have h4 : mirs (l.take c.1 ++ l[c.1] :: l.drop (c.1 + 1)) = mirs (l.take c.1) ++
        (⟨l[c.1].mul, l[c.1].ir⟩ : MulIr T) :: mirs (l.drop (c.1 + 1)) := by
      rw [mirs, List.map_append, List.map_cons]
    rw [h1, h4, dimL_append, dimL_offset]
    simp only [dimL, MulIr.dim]
    have h2 := c.2.1.2
    have h3 := c.2.2.2
    have : (c.2.1 + 1) * T.dim l[c.1].ir ≤ l[c.1].mul * T.dim l[c.1].ir := Nat.mul_le_mul_right _ h2
    rw [Nat.add_mul] at this
    omega
  let f : Cols l → Fin (dimL (mirs l)) := fun c => ⟨_, hlt c⟩
  have hsurj : Function.Surjective f := by
    intro c
    obtain ⟨k₁, mi, k₂, hk, u, k, hc⟩ := exists_col (l := mirs l) c.2
    obtain ⟨l₁, l₂', hl, h1, h2⟩ := List.map_eq_append_iff.1 hk
    obtain ⟨b, l₂, rfl, h3, h4⟩ := List.map_eq_cons_iff.1 h2
    subst hl
    subst h3
    subst h1
    have hi : (l₁ ++ b :: l₂)[l₁.length]'(by simp) = b := by simp
    refine ⟨⟨⟨l₁.length, by simp⟩, ⟨u, by simp only [Fin.getElem_fin, hi]; exact u.2⟩,
      ⟨k, by simp only [Fin.getElem_fin, hi]; exact k.2⟩⟩, Fin.ext ?_⟩
    simp only [f, Fin.getElem_fin, hi, List.take_left, hc]
  have hcard : Fintype.card (Cols l) = Fintype.card (Fin (dimL (mirs l))) := by
    rw [card_cols, Fintype.card_fin, dimL_offset, tot, offset, mirs, List.map_map]
    rfl
  exact ⟨Equiv.ofBijective f ((Fintype.bijective_iff_surjective_and_card f).2 ⟨hsurj, hcard⟩), hval⟩

/-- The array of a reduced basis. -/
theorem repArray_spec [LinearOrder T.Ir] (hT : GoodTable T) {δ : Fin m → ℕ} {N : Fin m → NRep n h}
    {G : Set (SignedPerm m)} {out : List (Blk T m)} (hne : out ≠ []) (hb : IsReducedBasis δ N G out) :
    ∃ x, repArray out = .ok x ∧ x.list = out ∧ x.array = IArr.array out ∧ IsReducedArray δ N G x := by
  obtain ⟨b, l, rfl⟩ := List.exists_cons_of_ne_nil hne
  have hfrom : ReducedRep.fromIrreps (⟨b.mul, b.ir⟩ : MulIr T) (mirs l) none =
      .ok ⟨(T.rep b.ir).A, mirs (b :: l), none⟩ := by
    rw [ReducedRep.fromIrreps, pyAssert, if_pos, pyAssert, if_pos]
    · rfl
    · simp
    · intro m' _
      exact (hT.pair _ _).algebra
  refine ⟨⟨⟨(T.rep b.ir).A, mirs (b :: l), none⟩, IArr.array (b :: l), b :: l⟩, ?_, rfl, rfl, ?_⟩
  · show (ReducedRep.fromIrreps (⟨b.mul, b.ir⟩ : MulIr T) (mirs l) none >>= _) = _
    rw [hfrom]
    rfl
  obtain ⟨e, he⟩ := exists_position (b :: l)
  have hmul : ∀ mi ∈ mirs (b :: l), mi.mul ≠ 0 := by
    intro mi hmi
    obtain ⟨c, hc, rfl⟩ := List.mem_map.1 hmi
    exact hb.mul c hc
  let r : ReducedRep T := ⟨(T.rep b.ir).A, mirs (b :: l), none⟩
  have hequi : ∀ (Y : T.Mats) (Z : (Fin m → ℕ) → (Fin m → ℕ) → ℂ),
      (∀ c ∈ b :: l, ∀ p ∈ box δ, ∀ u k, ∑ k', c.x p u k' * Y c.ir k k' = ∑ q ∈ box δ, Z q p * c.x q u k) →
      ∀ p ∈ box δ, ∀ c : Fin (dimL (mirs (b :: l))),
        ∑ c' : Fin (dimL (mirs (b :: l))), (IArr.array (b :: l) p).getD c' 0 * diagMat Y (mirs (b :: l)) c c' =
        ∑ q ∈ box δ, Z q p * (IArr.array (b :: l) q).getD c 0 := by
    intro Y Z hY p hp c
    obtain ⟨k₁, mi, k₂, hk, u, k, hc⟩ := exists_col (l := mirs (b :: l)) c.2
    obtain ⟨l₁, l₂', hl, h1, h2⟩ := List.map_eq_append_iff.1 hk
    obtain ⟨b', l₂, rfl, h3, h4⟩ := List.map_eq_cons_iff.1 h2
    subst h3
    subst h1
    have hget := fun q (k : Fin (T.dim b'.ir)) => getD_array l₁ b' l₂ q u k
    have h5 : ∀ (L : List (MulIr T)) (hL : L = mirs l₁ ++ ⟨b'.mul, b'.ir⟩ :: k₂) (c : Fin (dimL L)),
        c.val = offset (mirs l₁) + (u * T.dim b'.ir + k) → ∀ f : ℕ → ℂ,
        ∑ c', diagMat Y L c c' * f c' =
          ∑ k', Y b'.ir k k' * f (offset (mirs l₁) + (u * T.dim b'.ir + k')) := by
      rintro L rfl c hc f
      exact diag_row Y (mirs l₁) ⟨b'.mul, b'.ir⟩ k₂ u k f c hc
    have h6 := h5 _ hk c hc fun i => (IArr.array (b :: l) p).getD i 0
    have h7 := hY b' (by rw [hl]; simp) p hp u k
    calc _ = ∑ c', diagMat Y (mirs (b :: l)) c c' * (IArr.array (b :: l) p).getD c' 0 :=
          Finset.sum_congr rfl fun _ _ => mul_comm _ _
      _ = ∑ k', b'.x p u k' * Y b'.ir k k' := by
          rw [h6]
          refine Finset.sum_congr rfl fun k' _ => ?_
          rw [mul_comm]
          congr 1
          rw [hl]
          exact hget p k'
      _ = _ := by
          rw [h7]
          refine Finset.sum_congr rfl fun q _ => ?_
          congr 1
          rw [hc, hl]
          exact (hget q k).symm
  have hsl : ∀ c : Cols (b :: l), (fun p : Box δ => (IArr.array (b :: l) p.1).getD (e c) 0) =
      col δ (b :: l) c := fun c => funext fun p => he c p.1
  refine ⟨hb, rfl, rfl, fun p => length_array _ p, ⟨blockRep r.A r.irreps 1,
    ⟨fun hn => r.continuousGenerators_ok hn (by simp [r]) hmul rfl isUnit_one,
      r.discreteGenerators_ok (by simp [r]) hmul rfl isUnit_one⟩, ?_, ?_⟩, ?_, ?_⟩
  · intro a p hp c
    simp only [blockRep, inv_one, Matrix.mul_one, Matrix.one_mul]
    exact hequi (fun ir => (T.rep ir).X a) _ (fun c hc p hp u k => (hb.equi c hc).X a p hp u k) p hp c
  · intro a p hp c
    simp only [blockRep, inv_one, Matrix.mul_one, Matrix.one_mul]
    exact hequi (fun ir => (T.rep ir).H a) _ (fun c hc p hp u k => (hb.equi c hc).H a p hp u k) p hp c
  · have := (linearIndependent_equiv e (f := fun c : Fin (dimL (mirs (b :: l))) =>
      (fun p : Box δ => (IArr.array (b :: l) p.1).getD c 0))).1 (by
        have : (fun c : Fin (dimL (mirs (b :: l))) => (fun p : Box δ => (IArr.array (b :: l) p.1).getD c 0)) ∘ e
          = col δ (b :: l) := funext hsl
        rw [this]
        exact hb.indep)
    exact this
  · rw [← hb.span]
    congr 1
    ext t
    constructor
    · rintro ⟨c, rfl⟩
      refine ⟨e.symm c, ?_⟩
      rw [← hsl, Equiv.apply_symm_apply]
      rfl
    · rintro ⟨c, rfl⟩
      exact ⟨e c, hsl c⟩

end LieNN.TFront
