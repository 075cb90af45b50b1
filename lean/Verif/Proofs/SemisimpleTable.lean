import Verif.Proofs.Semisimple
import Verif.Spec.Multiplicity
import Verif.Proofs.Reduce
import Verif.Proofs.ReducedSpec
import Verif.Spec.TensorBasis
/-!
# Semisimple representations as `ReducedRep`s, and multiplicities
-/
namespace LieNN.Semi

open Matrix LieNN LieNN.Spec Module

variable {n h d : ℕ} {T : Table n h}

/-- A label with a map into the space. -/
abbrev Pc (T : Table n h) (d : ℕ) : Type := (i : T.Ir) × Matrix (Fin d) (Fin (T.dim i)) ℂ

/-- One copy of the label. -/
def Pc.mulIr (p : Pc T d) : MulIr T := ⟨1, p.1⟩

/-- The maps side by side. -/
def catT : (l : List (Pc T d)) → Matrix (Fin d) (Fin (dimL (l.map Pc.mulIr))) ℂ
  | [] => fun _ j => j.elim0
  | p :: l => hcat (p.2.submatrix id (Fin.cast (Nat.one_mul (T.dim p.1)))) (catT l)

theorem catT_intertwines (M : Matrix (Fin d) (Fin d) ℂ) (f : T.Mats) (l : List (Pc T d))
    (hM : ∀ p ∈ l, M * p.2 = p.2 * f p.1) : M * catT l = catT l * diagMat f (l.map Pc.mulIr) := by
  induction l with
  | nil => ext i j; exact j.elim0
  | cons p l ih =>
    exact catQ_step M p.2 (f p.1) (catT l) (diagMat f (l.map Pc.mulIr)) (hM p (by simp)) (ih fun q hq => hM q (by simp [hq]))

theorem catT_col (l : List (Pc T d)) (p : Pc T d) (hp : p ∈ l) (j : Fin (T.dim p.1)) :
    ∃ j', ∀ i, catT l i j' = p.2 i j := by
  induction l with
  | nil => cases hp
  | cons q l ih =>
    rcases List.mem_cons.1 hp with rfl | hp
    · exact ⟨Fin.castAdd _ (Fin.cast (Nat.one_mul _).symm j), fun i => by
        show hcat _ _ i _ = _
        rw [hcat_left]; rfl⟩
    · obtain ⟨j', hj'⟩ := ih hp
      exact ⟨Fin.natAdd _ j', fun i => by
        show hcat _ _ i _ = _
        rw [hcat_right]; exact hj' i⟩

theorem dimL_pc (l : List (Pc T d)) : dimL (l.map Pc.mulIr) = (l.map fun p => T.dim p.1).sum := by
  rw [dimL_eq_sum, List.map_map]
  congr 1
  apply List.map_congr_left
  intro p _
  exact Nat.one_mul _

/-- The labels fill the space. -/
structure Fills (r : Rep n h d) (l : List (Pc T d)) : Prop where
  inter : ∀ p ∈ l, ∀ a, r.allGens a * p.2 = p.2 * (T.rep p.1).allGens a
  dim : (l.map fun p => T.dim p.1).sum = d
  span : Submodule.span ℂ {x | ∃ p ∈ l, ∃ j, x = fun i => p.2 i j} = ⊤

theorem Fills.hasInv {r : Rep n h d} {l : List (Pc T d)} (hl : Fills r l) : HasInv (catT l) := by
  refine hasInv_of_span (by rw [dimL_pc, hl.dim]) _ ?_
  rw [eq_top_iff, ← hl.span, Submodule.span_le]
  rintro x ⟨p, hp, j, rfl⟩
  obtain ⟨j', hj'⟩ := catT_col l p hp j
  exact Submodule.subset_span ⟨j', funext fun i => hj' i⟩

theorem Fills.eq {r : Rep n h d} {l : List (Pc T d)} (hl : Fills r l) (a : Fin (n + h)) :
    r.allGens a * catT l = catT l * diagMat (fun i => (T.rep i).allGens a) (l.map Pc.mulIr) :=
  catT_intertwines _ _ _ fun p hp => hl.inter p hp a

theorem allGens_left (r : Rep n h d) (a : Fin n) : r.allGens (Fin.castAdd h a) = r.X a := by
  unfold Rep.allGens
  rw [Fin.append_left]

theorem allGens_right (r : Rep n h d) (a : Fin h) : r.allGens (Fin.natAdd n a) = r.H a := by
  unfold Rep.allGens
  rw [Fin.append_right]

theorem Fills.acts {r : Rep n h d} {l : List (Pc T d)} (hl : Fills r l) (hn : n ≠ 0) (hd : 0 < d) :
    Acts (⟨r.A, l.map Pc.mulIr, some ⟨d, _, catT l⟩⟩ : ReducedRep T) r := by
  refine acts_of_intertwines hn ?_ ?_ (q := catT l) hl.hasInv (Or.inr rfl) rfl ?_ ?_
  · rintro h0
    have h0 : l.map Pc.mulIr = [] := h0
    rw [List.map_eq_nil_iff] at h0
    have := hl.dim
    rw [h0] at this
    simp at this
    omega
  · intro m hm
    obtain ⟨p, _, rfl⟩ := List.mem_map.1 hm
    simp [Pc.mulIr]
  · intro a
    have := hl.eq (Fin.castAdd h a)
    simpa only [allGens_left] using this
  · intro a
    have := hl.eq (Fin.natAdd n a)
    simpa only [allGens_right] using this

/-- A semisimple representation all of whose irreducible subspaces have labels is filled by labels. -/
theorem exists_fills {r : Rep n h d} (ok : T.Ir → Prop) (hss : Semisimple r.allGens)
    (hc : ∀ {k : ℕ} (V : Matrix (Fin d) (Fin k) ℂ) (P : Matrix (Fin k) (Fin d) ℂ) (Y : Fin (n + h) → Matrix (Fin k) (Fin k) ℂ),
      P * V = 1 → (∀ a, r.allGens a * V = V * Y a) → IrreducibleFamily Y →
        ∃ i : T.Ir, ok i ∧ Equivalent Y (T.rep i).allGens) :
    ∃ l : List (Pc T d), Fills r l ∧ ∀ p ∈ l, ok p.1 := by
  obtain ⟨l, h1, h2, h3⟩ := exists_summands hss ⊤ fun _ _ _ => Submodule.mem_top
  have key : ∀ U ∈ l, ∃ p : Pc T d, (∀ a, r.allGens a * p.2 = p.2 * (T.rep p.1).allGens a) ∧ T.dim p.1 = finrank ℂ U ∧
      LinearMap.range p.2.mulVecLin = U ∧ ok p.1 := by
    intro U hU
    obtain ⟨V, P, Y, e1, e2, e3, e4⟩ := (h1 U hU).block
    obtain ⟨i, hok, Q, Q', q1, q2, q3⟩ := hc V P Y e1 e2 e4
    have hdim : finrank ℂ U = T.dim i := Equivalent.dim_eq ⟨Q, Q', q1, q2, q3⟩
    refine ⟨⟨i, V * Q⟩, fun a => ?_, hdim.symm, ?_, hok⟩
    · rw [← Matrix.mul_assoc, e2, Matrix.mul_assoc, q3, Matrix.mul_assoc]
    · refine Eq.trans ?_ e3
      refine le_antisymm ?_ ?_
      · rintro _ ⟨x, rfl⟩
        exact ⟨Q *ᵥ x, by rw [mulVecLin_apply, mulVecLin_apply, mulVec_mulVec]⟩
      · rintro _ ⟨x, rfl⟩
        refine ⟨Q' *ᵥ x, ?_⟩
        rw [mulVecLin_apply, mulVecLin_apply, mulVec_mulVec, Matrix.mul_assoc, q1, Matrix.mul_one]
  clear h1
  have key2 : ∃ m : List (Pc T d), (∀ p ∈ m, ∀ a, r.allGens a * p.2 = p.2 * (T.rep p.1).allGens a) ∧
      (m.map fun p => T.dim p.1).sum = (l.map fun U : Submodule ℂ (Fin d → ℂ) => finrank ℂ U).sum ∧
      l.foldr (· ⊔ ·) ⊥ ≤ Submodule.span ℂ {x | ∃ p ∈ m, ∃ j, x = fun i => p.2 i j} ∧ ∀ p ∈ m, ok p.1 := by
    clear h2 h3
    induction l with
    | nil => exact ⟨[], by simp, rfl, bot_le, by simp⟩
    | cons U l ih =>
      obtain ⟨m, m1, m2, m3, m4⟩ := ih fun U hU => key U (by simp [hU])
      obtain ⟨p, p1, p2, p3, p4⟩ := key U (by simp)
      refine ⟨p :: m, ?_, ?_, ?_, ?_⟩
      · intro q hq
        rcases List.mem_cons.1 hq with rfl | hq
        · exact p1
        · exact m1 q hq
      · rw [List.map_cons, List.sum_cons, List.map_cons, List.sum_cons, m2, p2]
      · rw [List.foldr_cons]
        refine sup_le ?_ (m3.trans (Submodule.span_mono ?_))
        · rw [← p3]
          rintro _ ⟨x, rfl⟩
          have : p.2.mulVecLin x = ∑ j, x j • (fun i => p.2 i j) := by
            funext i
            simp [mulVec, dotProduct, mul_comm]
          rw [this]
          exact Submodule.sum_mem _ fun j _ => Submodule.smul_mem _ _ (Submodule.subset_span ⟨p, by simp, j, rfl⟩)
        · rintro x ⟨q, hq, j, rfl⟩
          exact ⟨q, by simp [hq], j, rfl⟩
      · intro q hq
        rcases List.mem_cons.1 hq with rfl | hq
        · exact p4
        · exact m4 q hq
  obtain ⟨m, m1, m2, m3, m4⟩ := key2
  refine ⟨m, ⟨m1, ?_, ?_⟩, m4⟩
  · rw [m2, h2, finrank_top]
    simp
  · rw [h3] at m3
    exact top_le_iff.1 m3

/-! ## Multiplicities -/

variable {N e k k' : ℕ}

/-- Maps out of a direct sum. -/
noncomputable def dsumEquiv (P : Fin N → Matrix (Fin k) (Fin k) ℂ) (Q : Fin N → Matrix (Fin k') (Fin k') ℂ)
    (Y : Fin N → Matrix (Fin e) (Fin e) ℂ) :
    intertwiners (fun a => dsum (P a) (Q a)) Y ≃ₗ[ℂ] intertwiners P Y × intertwiners Q Y where
  toFun S := (⟨S.1.submatrix (Fin.castAdd k') id, fun a => by
      have := S.2 a
      ext i j
      have := congrFun (congrFun this (Fin.castAdd k' i)) j
      simpa [Matrix.mul_apply, Fin.sum_univ_add] using this⟩,
    ⟨S.1.submatrix (Fin.natAdd k) id, fun a => by
      have := S.2 a
      ext i j
      have := congrFun (congrFun this (Fin.natAdd k i)) j
      simpa [Matrix.mul_apply, Fin.sum_univ_add] using this⟩)
  map_add' _ _ := rfl
  map_smul' _ _ := rfl
  invFun S := ⟨vcat S.1.1 S.2.1, fun a => by
    rw [dsum_mul_vcat, S.1.2 a, S.2.2 a]
    apply vcat_ext <;> intro i j <;> simp [Matrix.mul_apply]⟩
  left_inv S := by
    apply Subtype.ext
    apply vcat_ext <;> intro i j <;> simp
  right_inv S := by
    refine Prod.ext (Subtype.ext ?_) (Subtype.ext ?_) <;> ext i j <;> simp

theorem kron_one_mul (m : ℕ) (P : Matrix (Fin k) (Fin k) ℂ) (S : Matrix (Fin (m * k)) (Fin e) ℂ) (x : Fin m) (i : Fin k) (j : Fin e) :
    (kron (1 : Matrix (Fin m) (Fin m) ℂ) P * S) (finProdFinEquiv (x, i)) j =
      (P * Matrix.of fun i j => S (finProdFinEquiv (x, i)) j) i j := by
  rw [Matrix.mul_apply, ← finProdFinEquiv.sum_comp, Fintype.sum_prod_type, Finset.sum_eq_single x]
  · rw [Matrix.mul_apply]
    refine Finset.sum_congr rfl fun y _ => ?_
    rw [kron_apply, Matrix.one_apply_eq, one_mul]
    rfl
  · intro y _ hy
    refine Finset.sum_eq_zero fun z _ => ?_
    rw [kron_apply, Matrix.one_apply_ne hy.symm, zero_mul, zero_mul]
  · simp

/-- Maps out of copies. -/
noncomputable def copiesEquiv (m : ℕ) (P : Fin N → Matrix (Fin k) (Fin k) ℂ) (Y : Fin N → Matrix (Fin e) (Fin e) ℂ) :
    intertwiners (fun a => kron (1 : Matrix (Fin m) (Fin m) ℂ) (P a)) Y ≃ₗ[ℂ] (Fin m → intertwiners P Y) where
  toFun S x := ⟨Matrix.of fun i j => S.1 (finProdFinEquiv (x, i)) j, fun a => by
    ext i j
    rw [← kron_one_mul, S.2 a]
    rfl⟩
  map_add' _ _ := rfl
  map_smul' _ _ := rfl
  invFun S := ⟨Matrix.of fun i j => (S i.divNat).1 i.modNat j, fun a => by
    ext i j
    obtain ⟨⟨x, i⟩, rfl⟩ := finProdFinEquiv.surjective i
    rw [kron_one_mul]
    have := congrFun (congrFun ((S x).2 a) i) j
    have e1 : ∀ i : Fin k, (finProdFinEquiv (x, i)).divNat = x := fun i => congrArg Prod.fst (finProdFinEquiv.symm_apply_apply (x, i))
    have e2 : ∀ i : Fin k, (finProdFinEquiv (x, i)).modNat = i := fun i => congrArg Prod.snd (finProdFinEquiv.symm_apply_apply (x, i))
    simp only [Matrix.mul_apply, Matrix.of_apply, e1, e2] at this ⊢
    exact this⟩
  left_inv S := by
    apply Subtype.ext
    ext i j
    exact congrArg (fun t => S.1 t j) (finProdFinEquiv.apply_symm_apply i)
  right_inv S := by
    funext x
    apply Subtype.ext
    ext i j
    have e1 : (finProdFinEquiv (x, i)).divNat = x := congrArg Prod.fst (finProdFinEquiv.symm_apply_apply (x, i))
    have e2 : (finProdFinEquiv (x, i)).modNat = i := congrArg Prod.snd (finProdFinEquiv.symm_apply_apply (x, i))
    simp only [Matrix.of_apply, e1, e2]

/-- Maps out of equivalent families. -/
theorem finrank_equivalent {X : Fin N → Matrix (Fin k) (Fin k) ℂ} {X' : Fin N → Matrix (Fin k') (Fin k') ℂ}
    (H : Equivalent X X') (Y : Fin N → Matrix (Fin e) (Fin e) ℂ) :
    finrank ℂ (intertwiners X Y) = finrank ℂ (intertwiners X' Y) := by
  obtain ⟨Q, P, h1, h2, h3⟩ := H
  have h4 : ∀ a, X' a * P = P * X a := fun a => by
    calc X' a * P = P * (Q * X' a) * P := by rw [← Matrix.mul_assoc, h2, Matrix.one_mul]
      _ = _ := by rw [← h3, Matrix.mul_assoc, Matrix.mul_assoc, h1, Matrix.mul_one]
  exact LinearEquiv.finrank_eq
    { toFun := fun S => ⟨P * S.1, fun a => by rw [← Matrix.mul_assoc, h4, Matrix.mul_assoc, S.2 a, Matrix.mul_assoc]⟩
      map_add' := fun S S' => Subtype.ext (Matrix.mul_add _ _ _)
      map_smul' := fun c S => Subtype.ext (Matrix.mul_smul _ _ _)
      invFun := fun S => ⟨Q * S.1, fun a => by rw [← Matrix.mul_assoc, h3, Matrix.mul_assoc, S.2 a, Matrix.mul_assoc]⟩
      left_inv := fun S => Subtype.ext (by change Q * (P * S.1) = S.1; rw [← Matrix.mul_assoc, h1, Matrix.one_mul])
      right_inv := fun S => Subtype.ext (by change P * (Q * S.1) = S.1; rw [← Matrix.mul_assoc, h2, Matrix.one_mul]) }

open Classical in
theorem finrank_schur (hT : Schur T) (hpos : ∀ i, 0 < T.dim i) (i j : T.Ir) :
    finrank ℂ (intertwiners (T.rep i).allGens (T.rep j).allGens) = if i = j then 1 else 0 := by
  have hsplit : ∀ {i j : T.Ir} {M : Matrix (Fin (T.dim i)) (Fin (T.dim j)) ℂ},
      M ∈ intertwiners (T.rep i).allGens (T.rep j).allGens →
      (∀ a, (T.rep i).X a * M = M * (T.rep j).X a) ∧ ∀ a, (T.rep i).H a * M = M * (T.rep j).H a := by
    intro i j M hM
    refine ⟨fun a => ?_, fun a => ?_⟩
    · have := hM (Fin.castAdd h a)
      rwa [allGens_left, allGens_left] at this
    · have := hM (Fin.natAdd n a)
      rwa [allGens_right, allGens_right] at this
  split_ifs with hij
  · subst hij
    rw [finrank_eq_one_iff']
    refine ⟨⟨1, one_mem_intertwiners _⟩, fun h0 => ?_, fun M => ?_⟩
    · have := congrFun (congrFun (congrArg Subtype.val h0) ⟨0, hpos i⟩) ⟨0, hpos i⟩
      simp at this
    · obtain ⟨c, hc⟩ := hT.scalar i M.1 (hsplit M.2).1 (hsplit M.2).2
      exact ⟨c, Subtype.ext hc.symm⟩
  · have : intertwiners (T.rep i).allGens (T.rep j).allGens = ⊥ := by
      rw [Submodule.eq_bot_iff]
      intro M hM
      exact hT.differ i j hij M (hsplit hM).1 (hsplit hM).2
    rw [this, finrank_bot]

theorem finrank_diag (hT : Schur T) (hpos : ∀ i, 0 < T.dim i) (l : List (MulIr T)) (i : T.Ir) :
    finrank ℂ (intertwiners (fun a => diagMat (fun j => (T.rep j).allGens a) l) (T.rep i).allGens) = mult l i := by
  induction l with
  | nil =>
    have : Subsingleton (intertwiners (fun a => diagMat (fun j => (T.rep j).allGens a) ([] : List (MulIr T))) (T.rep i).allGens) :=
      ⟨fun S S' => Subtype.ext (Matrix.ext fun x => x.elim0)⟩
    rw [finrank_zero_of_subsingleton]
    rfl
  | cons m l ih =>
    have h1 := (dsumEquiv (fun a => kron (1 : Matrix (Fin m.mul) (Fin m.mul) ℂ) ((T.rep m.ir).allGens a))
      (fun a => diagMat (fun j => (T.rep j).allGens a) l) (T.rep i).allGens).finrank_eq
    rw [finrank_prod, ih, (copiesEquiv m.mul (T.rep m.ir).allGens (T.rep i).allGens).finrank_eq, finrank_pi_fintype,
      Finset.sum_const, Finset.card_univ, Fintype.card_fin, smul_eq_mul, finrank_schur hT hpos] at h1
    refine h1.trans ?_
    unfold mult
    rw [List.map_cons, List.sum_cons]
    congr 1
    split_ifs <;> simp

/-- The generators of a `ReducedRep` are equivalent to the diagonal blocks. -/
theorem acts_equivalent {R : ReducedRep T} {r : Rep n h d} (hR : Acts R r) :
    Equivalent r.allGens (fun a => diagMat (fun j => (T.rep j).allGens a) R.irreps) := by
  obtain ⟨hn, hne, hmul, q, hq, hu⟩ := acts_inv hR
  obtain ⟨e, rfl⟩ := acts_unique (acts_of hn hne hmul hq hu) hR
  subst e
  have hu' := (isUnit_iff_isUnit_det q).1 hu
  refine ⟨q, q⁻¹, mul_nonsing_inv _ hu', nonsing_inv_mul _ hu', fun a => ?_⟩
  refine Fin.addCases (fun a => ?_) (fun a => ?_) a
  · change (blockRep R.A R.irreps q).allGens _ * q = _
    rw [allGens_left]
    simp only [allGens_left]
    change q * _ * q⁻¹ * q = _
    rw [Matrix.mul_assoc, nonsing_inv_mul _ hu', Matrix.mul_one]
  · change (blockRep R.A R.irreps q).allGens _ * q = _
    rw [allGens_right]
    simp only [allGens_right]
    change q * _ * q⁻¹ * q = _
    rw [Matrix.mul_assoc, nonsing_inv_mul _ hu', Matrix.mul_one]

/-- The multiplicity of a label is the dimension of the space of maps to it. -/
theorem mult_eq (hT : Schur T) (hpos : ∀ i, 0 < T.dim i) {R : ReducedRep T} {r : Rep n h d} (hR : Acts R r) (i : T.Ir) :
    mult R.irreps i = finrank ℂ (intertwiners r.allGens (T.rep i).allGens) := by
  rw [finrank_equivalent (acts_equivalent hR), finrank_diag hT hpos]

/-! ## The multiplicities determine the representation -/

/-- The columns of one block after the other, one copy at a time. -/
def pieces : (L : List (MulIr T)) → Matrix (Fin d) (Fin (dimL L)) ℂ → List (Pc T d)
  | [], _ => []
  | m :: L, q => (List.finRange m.mul).map (fun x => ⟨m.ir, Matrix.of fun i j => q i (Fin.castAdd (dimL L) (finProdFinEquiv (x, j)))⟩) ++
      pieces L (Matrix.of fun i j => q i (Fin.natAdd m.dim j))

theorem pieces_inter {M : Matrix (Fin d) (Fin d) ℂ} {f : T.Mats} (L : List (MulIr T)) (q : Matrix (Fin d) (Fin (dimL L)) ℂ)
    (h : M * q = q * diagMat f L) : ∀ p ∈ pieces L q, M * p.2 = p.2 * f p.1 := by
  induction L with
  | nil => intro p hp; cases hp
  | cons m L ih =>
    intro p hp
    rcases List.mem_append.1 hp with hp | hp
    · obtain ⟨x, -, rfl⟩ := List.mem_map.1 hp
      ext i j
      have := congrFun (congrFun h i) (Fin.castAdd (dimL L) (finProdFinEquiv (x, j)))
      change (M * q) i _ = (q * dsum (kron (1 : Matrix (Fin m.mul) (Fin m.mul) ℂ) (f m.ir)) (diagMat f L)) i _ at this
      rw [Matrix.mul_apply, Matrix.mul_apply, Fin.sum_univ_add] at this
      simp only [dsum_ll, dsum_rl, mul_zero, Finset.sum_const_zero, add_zero] at this
      rw [← finProdFinEquiv.sum_comp, Fintype.sum_prod_type, Finset.sum_eq_single x] at this
      · simp only [kron_apply, Matrix.one_apply_eq, one_mul] at this
        simpa [Matrix.mul_apply] using this
      · intro y _ hy
        refine Finset.sum_eq_zero fun z _ => ?_
        rw [kron_apply, Matrix.one_apply_ne hy, zero_mul, mul_zero]
      · simp
    · refine ih _ ?_ p hp
      ext i j
      have := congrFun (congrFun h i) (Fin.natAdd m.dim j)
      change (M * q) i _ = (q * dsum (kron (1 : Matrix (Fin m.mul) (Fin m.mul) ℂ) (f m.ir)) (diagMat f L)) i _ at this
      rw [Matrix.mul_apply, Matrix.mul_apply, Fin.sum_univ_add] at this
      simp only [dsum_lr, dsum_rr, mul_zero, Finset.sum_const_zero, zero_add] at this
      simpa [Matrix.mul_apply] using this

theorem pieces_dim (L : List (MulIr T)) (q : Matrix (Fin d) (Fin (dimL L)) ℂ) : ((pieces L q).map fun p => T.dim p.1).sum = dimL L := by
  induction L with
  | nil => rfl
  | cons m L ih =>
    unfold pieces
    rw [List.map_append, List.sum_append, ih, List.map_map]
    congr 1
    simp [Function.comp_def]

theorem pieces_col (L : List (MulIr T)) (q : Matrix (Fin d) (Fin (dimL L)) ℂ) (j : Fin (dimL L)) :
    ∃ p ∈ pieces L q, ∃ j', (fun i => q i j) = fun i => p.2 i j' := by
  induction L with
  | nil => exact j.elim0
  | cons m L ih =>
    refine Fin.addCases (m := m.dim) (n := dimL L) (fun j => ?_) (fun j => ?_) j
    · obtain ⟨⟨x, j⟩, rfl⟩ := finProdFinEquiv.surjective j
      exact ⟨_, List.mem_append_left _ (List.mem_map.2 ⟨x, List.mem_finRange x, rfl⟩), j, rfl⟩
    · obtain ⟨p, hp, j', hj⟩ := ih (Matrix.of fun i j => q i (Fin.natAdd m.dim j)) j
      exact ⟨p, List.mem_append_right _ hp, j', hj⟩

open Classical in
theorem pieces_count (L : List (MulIr T)) (q : Matrix (Fin d) (Fin (dimL L)) ℂ) (i : T.Ir) :
    ((pieces L q).map Sigma.fst).count i = mult L i := by
  induction L with
  | nil => rfl
  | cons m L ih =>
    unfold pieces
    rw [List.map_append, List.count_append, ih, List.map_map]
    unfold mult
    rw [List.map_cons, List.sum_cons]
    congr 1
    have : (List.finRange m.mul).map (Sigma.fst ∘ fun x => (⟨m.ir, Matrix.of fun i j => q i (Fin.castAdd (dimL L) (finProdFinEquiv (x, j)))⟩ : Pc T d)) =
        List.replicate m.mul m.ir := by
      rw [List.eq_replicate_iff]
      refine ⟨by simp, fun b hb => ?_⟩
      obtain ⟨x, -, rfl⟩ := List.mem_map.1 hb
      rfl
    rw [this, List.count_replicate]
    simp

theorem acts_fills {R : ReducedRep T} {r : Rep n h d} (hR : Acts R r) :
    ∃ l : List (Pc T d), Fills r l ∧ ∃ q, l = pieces R.irreps q := by
  obtain ⟨Q, P, h1, h2, h3⟩ := acts_equivalent hR
  have hd : d = dimL R.irreps := Equivalent.dim_eq ⟨Q, P, h1, h2, h3⟩
  refine ⟨pieces R.irreps Q, ⟨fun p hp a => pieces_inter _ _ (h3 a) p hp, by rw [pieces_dim, hd], ?_⟩, Q, rfl⟩
  rw [eq_top_iff]
  intro x _
  have : x = ∑ j, (P *ᵥ x) j • (fun i => Q i j) := by
    have e : Q *ᵥ (P *ᵥ x) = x := by rw [mulVec_mulVec, h1, one_mulVec]
    conv_lhs => rw [← e]
    funext i
    simp [mulVec, dotProduct, mul_comm]
  rw [this]
  refine Submodule.sum_mem _ fun j _ => Submodule.smul_mem _ _ (Submodule.subset_span ?_)
  obtain ⟨p, hp, j', hj⟩ := pieces_col R.irreps Q j
  exact ⟨p, hp, j', hj⟩

theorem Fills.perm {r : Rep n h d} {l l' : List (Pc T d)} (hl : Fills r l) (hp : l.Perm l') : Fills r l' := by
  refine ⟨fun p hp' => hl.inter p (hp.mem_iff.2 hp'), ?_, ?_⟩
  · rw [← (hp.map _).sum_eq, hl.dim]
  · rw [← hl.span]
    congr 1
    ext x
    simp only [Set.mem_ofPred_eq, hp.mem_iff]

theorem perm_lift {α β : Type*} (f : α → β) (l : List α) : ∀ {m : List β}, (l.map f).Perm m → ∃ l', l.Perm l' ∧ l'.map f = m := by
  intro m hm
  generalize hk : l.map f = k at hm
  induction hm generalizing l with
  | nil => exact ⟨l, .refl _, hk⟩
  | cons x _ ih =>
    obtain ⟨a, l, rfl, rfl, h⟩ := List.map_eq_cons_iff.1 hk
    obtain ⟨l', h1, h2⟩ := ih l h
    exact ⟨a :: l', h1.cons a, by rw [List.map_cons, h2]⟩
  | swap x y _ =>
    obtain ⟨a, l, rfl, rfl, h⟩ := List.map_eq_cons_iff.1 hk
    obtain ⟨b, l, rfl, rfl, h'⟩ := List.map_eq_cons_iff.1 h
    exact ⟨b :: a :: l, .swap _ _ _, by simp [h']⟩
  | trans _ _ ih1 ih2 =>
    obtain ⟨l', h1, h2⟩ := ih1 l hk
    obtain ⟨l'', h3, h4⟩ := ih2 l' h2
    exact ⟨l'', h1.trans h3, h4⟩

theorem Fills.equivalent {r : Rep n h d} {l : List (Pc T d)} (hl : Fills r l) :
    Equivalent r.allGens (fun a => diagMat (fun j => (T.rep j).allGens a) (l.map Pc.mulIr)) := by
  obtain ⟨P, h1, h2⟩ := hl.hasInv
  exact ⟨catT l, P, h2, h1, hl.eq⟩

theorem equivalent_of_mult {d' : ℕ} {R R' : ReducedRep T} {r : Rep n h d} {r' : Rep n h d'} (hR : Acts R r) (hR' : Acts R' r')
    (hm : ∀ i, mult R.irreps i = mult R'.irreps i) : Equivalent r.allGens r'.allGens := by
  classical
  obtain ⟨l, hl, q, rfl⟩ := acts_fills hR
  obtain ⟨l', hl', q', rfl⟩ := acts_fills hR'
  have hp : ((pieces R.irreps q).map Sigma.fst).Perm ((pieces R'.irreps q').map Sigma.fst) := by
    rw [List.perm_iff_count]
    intro i
    rw [pieces_count, pieces_count, hm]
  obtain ⟨l₂, h1, h2⟩ := perm_lift _ _ hp
  have e1 := (hl.perm h1).equivalent
  have e2 := hl'.equivalent
  have e3 : l₂.map Pc.mulIr = (pieces R'.irreps q').map Pc.mulIr := by
    have : ∀ {d : ℕ} (l : List (Pc T d)), l.map Pc.mulIr = (l.map Sigma.fst).map fun i => (⟨1, i⟩ : MulIr T) := by
      intro d l
      rw [List.map_map]
      rfl
    rw [this, this, h2]
  rw [e3] at e1
  exact e1.trans e2.symm

end LieNN.Semi
