import Verif.Spec.TensorMult
import Mathlib.LinearAlgebra.FiniteDimensional.Basic
import Mathlib.LinearAlgebra.Dimension.Constructions
import Mathlib.Data.Complex.Basic
import Mathlib.Algebra.BigOperators.Module

/-!
# The multiplicities of a reduced tensor product
-/
namespace LieNN.TMult

open LieNN.Spec LieNN.IArr Matrix Module

variable {n h m : ℕ} {T : Table n h} {δ : Fin m → ℕ}

/-- The slice of a family of blocks at a position of the last axis. -/
def slc {ι : Type} (δ : Fin m → ℕ) (F : ι → Blk T m) (c : Σ b, Fin (F b).mul × Fin (T.dim (F b).ir)) : Box δ → ℂ :=
  fun p => (F c.1).x p.1 c.2.1 c.2.2

variable {ι : Type} [Fintype ι] {F : ι → Blk T m}

/-- Equivariance of a combination of equivariant slices passes to the coefficients. -/
theorem coeff_intertwine (hi : LinearIndependent ℂ (slc δ F)) {d : ℕ}
    (Y : (Fin m → ℕ) → (Fin m → ℕ) → ℂ) (A : Matrix (Fin d) (Fin d) ℂ)
    (ρ : ∀ j : T.Ir, Matrix (Fin (T.dim j)) (Fin (T.dim j)) ℂ)
    (hb : ∀ b, ∀ p : Box δ, ∀ u k, ∑ k', (F b).x p.1 u k' * ρ (F b).ir k k' =
      ∑ q : Box δ, Y q.1 p.1 * (F b).x q.1 u k)
    (B : Box δ → Fin d → ℂ)
    (hB : ∀ p k, ∑ k', B p k' * A k k' = ∑ q : Box δ, Y q.1 p.1 * B q k)
    (c : Fin d → (Σ b, Fin (F b).mul × Fin (T.dim (F b).ir)) → ℂ) (hc : ∀ p k, B p k = ∑ x, c k x * slc δ F x p)
    (b : ι) (u : Fin (F b).mul) :
    A * (Matrix.of fun k j => c k ⟨b, u, j⟩) = (Matrix.of fun k j => c k ⟨b, u, j⟩) * ρ (F b).ir := by
  ext k j
  have key : ∑ x : (Σ b, Fin (F b).mul × Fin (T.dim (F b).ir)), ((∑ k', c k' x * A k k') -
      ∑ j', c k ⟨x.1, x.2.1, j'⟩ * ρ (F x.1).ir j' x.2.2) • slc δ F x = 0 := by
    funext p
    simp only [Finset.sum_apply, Pi.smul_apply, smul_eq_mul, sub_mul, Finset.sum_sub_distrib, Pi.zero_apply]
    have h1 : ∑ x : (Σ b, Fin (F b).mul × Fin (T.dim (F b).ir)), (∑ k', c k' x * A k k') * slc δ F x p =
        ∑ k', B p k' * A k k' := by
      simp only [hc, Finset.sum_mul]
      rw [Finset.sum_comm]
      refine Finset.sum_congr rfl fun k' _ => Finset.sum_congr rfl fun x _ => ?_
      ring
    have h2 : ∑ x : (Σ b, Fin (F b).mul × Fin (T.dim (F b).ir)),
        (∑ j', c k ⟨x.1, x.2.1, j'⟩ * ρ (F x.1).ir j' x.2.2) * slc δ F x p =
        ∑ q : Box δ, Y q.1 p.1 * B q k := by
      simp only [hc, Finset.mul_sum]
      rw [Finset.sum_comm (s := (Finset.univ : Finset (Box δ)))]
      have h3 : ∀ x : (Σ b, Fin (F b).mul × Fin (T.dim (F b).ir)),
          ∑ q : Box δ, Y q.1 p.1 * (c k x * slc δ F x q) =
          c k x * ∑ k', (F x.1).x p.1 x.2.1 k' * ρ (F x.1).ir x.2.2 k' := by
        intro x
        rw [hb, Finset.mul_sum]
        refine Finset.sum_congr rfl fun q _ => ?_
        simp only [slc]
        ring
      simp only [h3]
      rw [Fintype.sum_sigma, Fintype.sum_sigma]
      refine Finset.sum_congr rfl fun b' _ => ?_
      rw [Fintype.sum_prod_type, Fintype.sum_prod_type]
      refine Finset.sum_congr rfl fun u' _ => ?_
      simp only [Finset.sum_mul, Finset.mul_sum, slc]
      have hsw : ∀ (d : ℕ) (f : Fin d → Fin d → ℂ), ∑ y, ∑ i, f i y = ∑ i, ∑ y, f i y :=
        fun _ _ => Finset.sum_comm
      refine (hsw _ fun i y => c k ⟨b', u', i⟩ * ρ (F b').ir i y * (F b').x p.1 u' y).trans ?_
      refine Finset.sum_congr rfl fun j' _ => Finset.sum_congr rfl fun k' _ => ?_
      ring
    rw [h1, h2, hB, sub_self]
  have h0 := Fintype.linearIndependent_iff.1 hi _ key ⟨b, u, j⟩
  rw [Matrix.mul_apply, Matrix.mul_apply]
  simp only [Matrix.of_apply]
  have h4 := sub_eq_zero.1 h0
  simp only [mul_comm (A k _)]
  exact h4

variable {Y : LeadRep n h m} {G : Set (SignedPerm m)}

/-- An equivariant map is a combination of slices with coefficients that commute with the generators. -/
theorem coeff_exists (hi : LinearIndependent ℂ (slc δ F))
    (hs : Submodule.span ℂ (Set.range (slc δ F)) = symC G δ)
    (hF : ∀ b u, (fun (p : Box δ) k => (F b).x p.1 u k) ∈ equiMaps T δ Y G (F b).ir) {i : T.Ir}
    {B : Box δ → Fin (T.dim i) → ℂ} (hB : B ∈ equiMaps T δ Y G i) :
    ∃ M : ∀ b : ι, Fin (F b).mul → Matrix (Fin (T.dim i)) (Fin (T.dim (F b).ir)) ℂ,
      (∀ p k, B p k = ∑ b, ∑ u, ∑ j, M b u k j * (F b).x p.1 u j) ∧
      (∀ b u a, (T.rep i).X a * M b u = M b u * (T.rep (F b).ir).X a) ∧
      ∀ b u a, (T.rep i).H a * M b u = M b u * (T.rep (F b).ir).H a := by
  obtain ⟨h1, h2, h3⟩ := hB
  have hex : ∀ k, ∃ c : (Σ b, Fin (F b).mul × Fin (T.dim (F b).ir)) → ℂ,
      ∑ x, c x • slc δ F x = fun p => B p k := by
    intro k
    have := h1 k
    rw [← hs] at this
    exact (Submodule.mem_span_range_iff_exists_fun ℂ).1 this
  choose c hc using hex
  have hc' : ∀ p k, B p k = ∑ x, c k x * slc δ F x p := by
    intro p k
    have := congrFun (hc k) p
    simp only [Finset.sum_apply, Pi.smul_apply, smul_eq_mul] at this
    exact this.symm
  refine ⟨fun b u => Matrix.of fun k j => c k ⟨b, u, j⟩, fun p k => ?_, fun b u a => ?_, fun b u a => ?_⟩
  · rw [hc', Fintype.sum_sigma]
    refine Finset.sum_congr rfl fun b _ => ?_
    rw [Fintype.sum_prod_type]
    rfl
  · exact coeff_intertwine hi (Y.X a) ((T.rep i).X a) (fun j => (T.rep j).X a)
      (fun b p u k => (hF b u).2.1 a p k) B (h2 a) c hc' b u
  · exact coeff_intertwine hi (Y.H a) ((T.rep i).H a) (fun j => (T.rep j).H a)
      (fun b p u k => (hF b u).2.2 a p k) B (h3 a) c hc' b u

theorem equiMaps_bot (hT : Schur T) (hi : LinearIndependent ℂ (slc δ F))
    (hs : Submodule.span ℂ (Set.range (slc δ F)) = symC G δ)
    (hF : ∀ b u, (fun (p : Box δ) k => (F b).x p.1 u k) ∈ equiMaps T δ Y G (F b).ir) {i : T.Ir}
    (hn : ∀ b, (F b).ir ≠ i) : equiMaps T δ Y G i = ⊥ := by
  rw [Submodule.eq_bot_iff]
  intro B hB
  obtain ⟨M, h1, h2, h3⟩ := coeff_exists hi hs hF hB
  funext p k
  rw [h1]
  refine Finset.sum_eq_zero fun b _ => Finset.sum_eq_zero fun u _ => Finset.sum_eq_zero fun j _ => ?_
  rw [hT.differ _ _ (hn b).symm (M b u) (h2 b u) (h3 b u)]
  simp

/-- The copies of a block form a basis of the equivariant maps from its irrep. -/
theorem finrank_block (hT : Schur T) (hpos : ∀ i, 0 < T.dim i) (hi : LinearIndependent ℂ (slc δ F))
    (hs : Submodule.span ℂ (Set.range (slc δ F)) = symC G δ)
    (hF : ∀ b u, (fun (p : Box δ) k => (F b).x p.1 u k) ∈ equiMaps T δ Y G (F b).ir)
    (hinj : ∀ b c, (F b).ir = (F c).ir → b = c) (b : ι) :
    finrank ℂ (equiMaps T δ Y G (F b).ir) = (F b).mul := by
  classical
  let v : Fin (F b).mul → (Box δ → Fin (T.dim (F b).ir) → ℂ) := fun u p k => (F b).x p.1 u k
  have hind : LinearIndependent ℂ v := by
    rw [Fintype.linearIndependent_iff]
    intro g hg u
    exact Fintype.linearIndependent_iff.1
      (hi.comp (fun u : Fin (F b).mul => (⟨b, u, ⟨0, hpos _⟩⟩ : Σ b, Fin (F b).mul × Fin (T.dim (F b).ir)))
        (by intro u u' h; simpa using h)) g (by
          funext p
          have := congrFun (congrFun hg p) ⟨0, hpos _⟩
          simpa [v, slc, Finset.sum_apply] using this) u
  have hspan : Submodule.span ℂ (Set.range v) = equiMaps T δ Y G (F b).ir := by
    apply le_antisymm
    · rw [Submodule.span_le]
      rintro _ ⟨u, rfl⟩
      exact hF b u
    · intro B hB
      obtain ⟨M, h1, h2, h3⟩ := coeff_exists hi hs hF hB
      have hsc : ∀ u, ∃ c : ℂ, M b u = c • (1 : Matrix _ _ ℂ) := fun u =>
        hT.scalar _ (M b u) (h2 b u) (h3 b u)
      choose c hc using hsc
      rw [Submodule.mem_span_range_iff_exists_fun]
      refine ⟨c, ?_⟩
      funext p k
      rw [h1, Finset.sum_eq_single b]
      · simp only [Finset.sum_apply, Pi.smul_apply, smul_eq_mul, v]
        refine Finset.sum_congr rfl fun u _ => ?_
        rw [Finset.sum_eq_single k]
        · rw [hc]; simp
        · intro j _ hj; rw [hc]; simp [Matrix.one_apply_ne hj.symm]
        · simp
      · intro b' _ hb'
        refine Finset.sum_eq_zero fun u _ => Finset.sum_eq_zero fun j _ => ?_
        rw [hT.differ _ _ (fun he => hb' (hinj _ _ he).symm) (M b' u) (h2 b' u) (h3 b' u)]
        simp
      · simp
  rw [← hspan, finrank_span_eq_card hind, Fintype.card_fin]

variable [LinearOrder T.Ir] {N : Fin m → NRep n h} {l : List (Blk T m)}

theorem block_equi (hl : IsReducedBasis δ N G l) (b : Fin l.length) (u : Fin l[b].mul) :
    (fun (p : Box δ) k => l[b].x p.1 u k) ∈ equiMaps T δ (tensorRep Finset.univ N) G l[b].ir := by
  have he := hl.equi l[b] (List.getElem_mem _)
  refine ⟨fun k => ?_, fun a p k => ?_, fun a p k => ?_⟩
  · rw [← hl.span]
    exact Submodule.subset_span ⟨(⟨b, u, k⟩ : Cols l), rfl⟩
  · rw [he.X a p.1 p.2 u k, ← Finset.sum_coe_sort]
    rfl
  · rw [he.H a p.1 p.2 u k, ← Finset.sum_coe_sort]
    rfl

theorem ir_inj (hl : IsReducedBasis δ N G l) (b c : Fin l.length) (hbc : l[b].ir = l[c].ir) : b = c := by
  rcases lt_trichotomy b c with h | h | h
  · exact absurd hbc (List.pairwise_iff_getElem.1 hl.sorted b c b.2 c.2 h).ne
  · exact h
  · exact absurd hbc.symm (List.pairwise_iff_getElem.1 hl.sorted c b c.2 b.2 h).ne

theorem multOf_block (hl : l.Pairwise fun a b => a.ir < b.ir) {b : Blk T m} (hb : b ∈ l) :
    multOf l b.ir = b.mul := by
  induction l with
  | nil => cases hb
  | cons a l ih =>
    rw [List.pairwise_cons] at hl
    rcases List.mem_cons.1 hb with rfl | hb'
    · have : l.filter (fun c => c.ir = b.ir) = [] := by
        rw [List.filter_eq_nil_iff]
        intro c hc
        simpa using (hl.1 c hc).ne'
      simp [multOf, this]
    · have : a.ir ≠ b.ir := (hl.1 b hb').ne
      have h2 := ih hl.2 hb'
      rw [multOf] at h2 ⊢
      rw [List.filter_cons_of_neg (by simpa using this), h2]

theorem multOf_not {i : T.Ir} (hi : ∀ b ∈ l, b.ir ≠ i) : multOf l i = 0 := by
  have : l.filter (fun c => c.ir = i) = [] := by
    rw [List.filter_eq_nil_iff]
    intro c hc
    simpa using hi c hc
  simp [multOf, this]

/-- The multiplicity is the dimension of the space of equivariant maps. -/
theorem finrank_mult (hT : Schur T) (hpos : ∀ i, 0 < T.dim i) (hl : IsReducedBasis δ N G l) (i : T.Ir) :
    multOf l i = finrank ℂ (equiMaps T δ (tensorRep Finset.univ N) G i) := by
  by_cases hi : ∀ b ∈ l, b.ir ≠ i
  · rw [multOf_not hi, equiMaps_bot (F := fun b : Fin l.length => l[b]) hT hl.indep hl.span (block_equi hl)
      (fun b => hi _ (List.getElem_mem _)), finrank_bot]
  · push Not at hi
    obtain ⟨b, hb, rfl⟩ := hi
    rw [multOf_block hl.sorted hb]
    obtain ⟨k, hk, rfl⟩ := List.getElem_of_mem hb
    exact (finrank_block (F := fun b : Fin l.length => l[b]) hT hpos hl.indep hl.span (block_equi hl)
      (ir_inj hl) ⟨k, hk⟩).symm

/-- Sorted lists of nonzero multiplicities are determined by the multiplicity function. -/
theorem irreps_unique {l l' : List (Blk T m)} (hl : l.Pairwise fun a b => a.ir < b.ir)
    (hl' : l'.Pairwise fun a b => a.ir < b.ir) (h0 : ∀ b ∈ l, b.mul ≠ 0) (h0' : ∀ b ∈ l', b.mul ≠ 0)
    (he : ∀ i, multOf l i = multOf l' i) :
    (l.map fun b => (b.mul, b.ir)) = l'.map fun b => (b.mul, b.ir) := by
  have mem : ∀ {l l' : List (Blk T m)}, l.Pairwise (fun a b => a.ir < b.ir) →
      l'.Pairwise (fun a b => a.ir < b.ir) → (∀ b ∈ l, b.mul ≠ 0) → (∀ i, multOf l i = multOf l' i) →
      ∀ x ∈ l.map (fun b => (b.mul, b.ir)), x ∈ l'.map fun b => (b.mul, b.ir) := by
    intro l l' hl hl' h0 he x hx
    obtain ⟨b, hb, rfl⟩ := List.mem_map.1 hx
    by_cases hi : ∀ c ∈ l', c.ir ≠ b.ir
    · have := he b.ir
      rw [multOf_block hl hb, multOf_not hi] at this
      exact absurd this (h0 b hb)
    · push Not at hi
      obtain ⟨c, hc, hcb⟩ := hi
      refine List.mem_map.2 ⟨c, hc, ?_⟩
      have := he b.ir
      rw [multOf_block hl hb, ← hcb, multOf_block hl' hc] at this
      rw [this, hcb]
  have p1 : (l.map fun b => (b.mul, b.ir)).Pairwise fun a b => a.2 < b.2 := List.pairwise_map.2 hl
  have p2 : (l'.map fun b => (b.mul, b.ir)).Pairwise fun a b => a.2 < b.2 := List.pairwise_map.2 hl'
  have n1 : (l.map fun b => (b.mul, b.ir)).Nodup := p1.imp fun h e => by rw [e] at h; exact lt_irrefl _ h
  have n2 : (l'.map fun b => (b.mul, b.ir)).Nodup := p2.imp fun h e => by rw [e] at h; exact lt_irrefl _ h
  have hp : (l.map fun b => (b.mul, b.ir)).Perm (l'.map fun b => (b.mul, b.ir)) :=
    (List.perm_ext_iff_of_nodup n1 n2).2 fun x =>
      ⟨mem hl hl' h0 he x, mem hl' hl h0' (fun i => (he i).symm) x⟩
  exact hp.eq_of_pairwise (fun a b _ _ h1 h2 => absurd (h1.trans h2) (lt_irrefl _)) p1 p2

end LieNN.TMult
