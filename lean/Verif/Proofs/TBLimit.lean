import Verif.Proofs.TBLoop
import Verif.Props.BasisInter
import Mathlib.Topology.Order.Basic
import Mathlib.Topology.Instances.Real.Lemmas

/-!
# Fuel and tolerance in `_reduced_tensor_product_basis`
-/
namespace LieNN.TBasis

open LieNN.PermRepr LieNN.IArr LieNN.Spec Filter

variable {n h : ℕ} {T : Table n h} {m : ℕ}

theorem loop_step [LinearOrder T.Ir] (inter : InterFn) (ord : SetOrder) : ∀ (fuel : ℕ) {m : ℕ}
    (irs : Fin m → ReducedRep T) (G : Finset SP) (bases : List (Finset (Fin m) × List (Blk T m))) (r),
    loop inter ord fuel irs G bases = some r → loop inter ord (fuel + 1) irs G bases = some r := by
  intro fuel
  induction fuel with
  | zero => intro m irs G bases r hr; simp [loop] at hr
  | succ fuel ih =>
    intro m irs G bases r hr
    rw [loop.eq_def] at hr ⊢
    revert hr
    dsimp only
    split
    · exact id
    · exact id
    · split
      · exact id
      · exact id
      · split
        · exact id
        · rename_i sub hsub
          split
          · intro hr; simp at hr
          · rename_i e he
            rw [ih _ _ _ _ he]
            exact id
          · rename_i ab hab
            rw [ih _ _ _ _ hab]
            dsimp only
            split
            · exact id
            · exact ih _ _ _ _

theorem loop_mono [LinearOrder T.Ir] {inter : InterFn} {ord : SetOrder} {fuel fuel' : ℕ} (hf : fuel ≤ fuel')
    {irs : Fin m → ReducedRep T} {G : Finset SP} {bases : List (Finset (Fin m) × List (Blk T m))} {r}
    (hr : loop inter ord fuel irs G bases = some r) : loop inter ord fuel' irs G bases = some r := by
  induction hf with
  | refl => exact hr
  | step _ ih => exact loop_step _ _ _ _ _ _ _ ih

section congr
variable {ι : Type} {F : Filter ι} {I : ι → InterFn} {I0 : InterFn}

theorem mapM_eventually {α β : Type} {f : ι → α → Py β} {f0 : α → Py β}
    (hf : ∀ a, ∀ᶠ e in F, f e a = f0 a) (l : List α) : ∀ᶠ e in F, l.mapM (f e) = l.mapM f0 := by
  induction l with
  | nil => exact .of_forall fun _ => rfl
  | cons a l ih =>
    filter_upwards [hf a, ih] with e h1 h2
    rw [List.mapM_cons, List.mapM_cons, h1, h2]

theorem constrainBlk_eventually
    (hI : ∀ n₁ n₂ D B₁ B₂, ∀ᶠ e in F, I e n₁ n₂ D B₁ B₂ = I0 n₁ n₂ D B₁ B₂) (perm : List (ℕ → ℝ))
    (b : Blk T m) : ∀ᶠ e in F, constrainBlk (I e) perm b = constrainBlk I0 perm b := by
  unfold constrainBlk
  rcases hR : rotMatrix b with e | R
  · exact .of_forall fun _ => rfl
  · filter_upwards [hI _ _ _ R (rowArray _ (permOpt R perm))] with e he
    simp only [Bind.bind, Except.bind, he]

theorem constrain_eventually
    (hI : ∀ n₁ n₂ D B₁ B₂, ∀ᶠ e in F, I e n₁ n₂ D B₁ B₂ = I0 n₁ n₂ D B₁ B₂) (perm : List ℕ × List (ℕ → ℝ))
    (l : List (Blk T m)) : ∀ᶠ e in F, constrain (I e) l perm = constrain I0 l perm := by
  filter_upwards [mapM_eventually (constrainBlk_eventually (T := T) (m := m) hI perm.2) l] with e he
  rw [constrain, constrain, he]

theorem finish_eventually [LinearOrder T.Ir]
    (hI : ∀ n₁ n₂ D B₁ B₂, ∀ᶠ e in F, I e n₁ n₂ D B₁ B₂ = I0 n₁ n₂ D B₁ B₂) (ord : SetOrder)
    (G : Finset SP) (dims : Fin m → ℕ) (fa : Finset (Fin m)) (a : List (Blk T m))
    (fb : Finset (Fin m)) (b : List (Blk T m)) :
    ∀ᶠ e in F, finish (I e) ord G dims fa a fb b = finish I0 ord G dims fa a fb b := by
  unfold finish
  rcases reduceBasisProduct a b with e | ab
  · exact .of_forall fun _ => rfl
  · rcases hp : subgroupBasis ord (fa ∪ fb) G dims with e | p
    · exact .of_forall fun _ => by simp only [Bind.bind, Except.bind, hp]
    · filter_upwards [constrain_eventually (T := T) hI p ab] with e he
      simp only [Bind.bind, Except.bind, hp, he]

theorem loop_eventually [LinearOrder T.Ir]
    (hI : ∀ n₁ n₂ D B₁ B₂, ∀ᶠ e in F, I e n₁ n₂ D B₁ B₂ = I0 n₁ n₂ D B₁ B₂) (ord : SetOrder) :
    ∀ (fuel : ℕ) {m : ℕ} (irs : Fin m → ReducedRep T) (G : Finset SP)
      (bases : List (Finset (Fin m) × List (Blk T m))),
    ∀ᶠ e in F, loop (I e) ord fuel irs G bases = loop I0 ord fuel irs G bases := by
  intro fuel
  induction fuel with
  | zero => intro m irs G bases; exact .of_forall fun _ => rfl
  | succ fuel ih =>
    intro m irs G bases
    have e1 : ∀ J : InterFn, loop J ord (fuel + 1) irs G bases = _ := fun J => loop.eq_def J ord (fuel + 1) m irs G bases
    simp only [e1]
    split
    · exact .of_forall fun _ => rfl
    · rename_i fa a fb b
      filter_upwards [finish_eventually (T := T) hI ord G (fun i => (irs i).dim) fa a fb b] with e he
      rw [he]
    · split
      · exact .of_forall fun _ => rfl
      · exact .of_forall fun _ => rfl
      · rename_i f hgr
        split
        · exact .of_forall fun _ => rfl
        · rename_i sub hsub
          have h1 := ih (fun k => irs (ord m f k)) (subrepr (f.image Fin.val) G) sub
          rcases hl : loop I0 ord fuel (fun k => irs (ord m f k)) (subrepr (f.image Fin.val) G) sub with _ | _ | ab
          · filter_upwards [h1] with e he
            rw [he, hl]
          · filter_upwards [h1] with e he
            rw [he, hl]
          · rcases hr : reshape (padShape f fun i => (irs i).dim) none ab with _ | ab'
            · filter_upwards [h1] with e he
              rw [he, hl]
              simp only [hr]
            · filter_upwards [h1, ih irs G ((f, ab') :: (bases.eraseIdx _).eraseIdx _)] with e he he2
              rw [he, hl]
              simp only [hr]
              exact he2

end congr

theorem interLim_spec {eigh : EighFn} (he : EighSpec eigh) (hr : EighReal eigh) :
    InterSpec (fun _ _ _ B₁ B₂ => interLim eigh B₁ B₂) := by
  constructor
  · intro n₁ n₂ D B₁ B₂ h₁ h₂ hn₁ hn₂
    obtain ⟨e, he0, P₁, P₂, h1, h2⟩ := Props.C73_small he hr B₁ B₂ h₁ h₂ hn₁ hn₂
    obtain ⟨e', he', hlim⟩ := inter_small (eigh := eigh) B₁ B₂
    refine ⟨P₁, P₂, ?_, h2⟩
    have hp : 0 < min e e' / 2 := by positivity
    have hl : min e e' / 2 < min e e' := by linarith
    rw [← hlim _ hp (hl.trans_le (min_le_right _ _)), h1 _ hp (hl.trans_le (min_le_left _ _))]
  · intro n₁ n₂ D B₁ B₂ hz
    obtain ⟨e, he0, hlim⟩ := inter_small (eigh := eigh) B₁ B₂
    show interLim eigh B₁ B₂ = _
    rw [← hlim (e / 2) (by positivity) (by linarith)]
    exact Props.C73_empty B₁ B₂ hz

theorem interLim_eventually (eigh : EighFn) {n₁ n₂ D : ℕ} (B₁ : Matrix (Fin n₁) (Fin D) ℂ)
    (B₂ : Matrix (Fin n₂) (Fin D) ℂ) :
    ∀ᶠ eps in nhdsWithin (0 : ℝ) (Set.Ioi 0), basisIntersection eigh eps B₁ B₂ = interLim eigh B₁ B₂ := by
  obtain ⟨e, he, hlim⟩ := inter_small (eigh := eigh) B₁ B₂
  filter_upwards [Ioo_mem_nhdsGT he] with eps heps
  exact hlim eps heps.1 heps.2

/-- The result of the loop for all small enough tolerances. -/
theorem loop_small [LinearOrder T.Ir] (eigh : EighFn) (ord : SetOrder) (fuel : ℕ)
    (irs : Fin m → ReducedRep T) (G : Finset SP) (bases : List (Finset (Fin m) × List (Blk T m))) :
    ∃ e : ℝ, 0 < e ∧ ∀ eps, 0 < eps → eps < e →
      loop (fun _ _ _ B₁ B₂ => basisIntersection eigh eps B₁ B₂) ord fuel irs G bases =
      loop (fun _ _ _ B₁ B₂ => interLim eigh B₁ B₂) ord fuel irs G bases := by
  have := loop_eventually (T := T) (F := nhdsWithin (0 : ℝ) (Set.Ioi 0))
    (I := fun eps _ _ _ B₁ B₂ => basisIntersection eigh eps B₁ B₂)
    (I0 := fun _ _ _ B₁ B₂ => interLim eigh B₁ B₂) (fun _ _ _ B₁ B₂ => interLim_eventually eigh B₁ B₂)
    ord fuel irs G bases
  obtain ⟨e, he, h⟩ := (mem_nhdsGT_iff_exists_Ioo_subset).1 this
  exact ⟨e, he, fun eps h0 h1 => h ⟨h0, h1⟩⟩

end LieNN.TBasis
