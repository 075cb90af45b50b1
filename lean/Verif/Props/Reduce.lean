import Verif.Props.Decompose
import Verif.Proofs.Reduce
/-!
# C59: `reduce`
-/
namespace LieNN.Props

open Matrix Spec

variable {n h d : ℕ} {eps : ℝ}

/-- C20 (continued): the blocks exhaust the representation: the images of the homomorphisms from the
blocks to the representation span the whole space; and no block is empty. -/
theorem C20_decompose_spans {eigh : EighFn} (he : EighSpec eigh) (heps : 0 < eps) (hn : n ≠ 0)
    (hd0 : d ≠ 0) (X : Fin n → Matrix (Fin d) (Fin d) ℂ) (hd : (d * d : ℕ) * eps ^ 2 < 1)
    (hgap : Gap eps (icobMatrix X X)) (eig : EigFn) (w : ℕ → ℝ)
    (heig : ∀ Q, inferChangeOfBasis eigh eps X X = .ok Q →
      GoodEig eig eps X (∑ l : Fin Q.length, ((w l : ℝ) : ℂ) • Q.get l))
    (fuel : ℕ) (hf : d < fuel) (Ys : List (Block n))
    (hrun : decomposeRep eigh eig w eps X fuel = some (.ok Ys)) :
    (∀ Y ∈ Ys, 0 < Y.1) ∧
    Submodule.span ℂ {x : Fin d → ℂ | ∃ Y ∈ Ys, ∃ V : Matrix (Fin d) (Fin Y.1) ℂ,
      (∀ a, X a * V = V * Y.2 a) ∧ ∃ j, x = fun p => V p j} = ⊤ := by
  obtain ⟨Q, h1, h2, _, _⟩ := inferChangeOfBasis_spec he heps hn X X hd hgap
  unfold decomposeRep at hrun
  rw [h1] at hrun
  have hM : (∑ l : Fin Q.length, ((w l : ℝ) : ℂ) • Q.get l) ∈ intertwiners X X := by
    refine Submodule.sum_mem _ fun l _ => Submodule.smul_mem _ _ ?_
    rw [← h2]
    exact Submodule.subset_span (List.get_mem Q l)
  have hd' : (d : ℝ) * eps ^ 2 < 1 := by
    refine lt_of_le_of_lt ?_ hd
    gcongr
    exact_mod_cast Nat.le_mul_of_pos_left d (Nat.pos_of_ne_zero hd0)
  obtain ⟨e1, e2, e3, e4⟩ := heig _ h1
  exact decomposeFrom_blocks heps hd0 hd' X _ eig hM e1 e2 e3 e4 fuel hf Ys hrun

section C59

variable {eigh : EighFn} {eig : EigFn} {w : ℕ → ℝ} {r : Rep n h d} {fuel : ℕ} {Ys : List (Block (n + h))}

/-- C59: `reduce(rep)` succeeds when every block of the decomposition occurs once in `rep`.  The result
is then exactly the given representation: same algebra, same generators; every irrep has multiplicity
one, they are the blocks, in order of dimension. -/
theorem C59_reduce (he : EighSpec eigh) (heps : 0 < eps) (hn : n ≠ 0) (hd0 : d ≠ 0)
    (hd : (d * d : ℕ) * eps ^ 2 < 1) (hd' : d * d < 10 ^ 8)
    (hgap : Gap eps (icobMatrix r.allGens r.allGens))
    (heig : ∀ Q, inferChangeOfBasis eigh eps r.allGens r.allGens = .ok Q →
      GoodEig eig eps r.allGens (∑ l : Fin Q.length, ((w l : ℝ) : ℂ) • Q.get l))
    (hf : d < fuel) (hrun : decomposeRep eigh eig w eps r.allGens fuel = some (.ok Ys))
    (hgaps : ∀ Y ∈ Ys, Gap (1 / 10 ^ 4) (icobMatrix r.allGens Y.2))
    (hone : ∀ Y ∈ Ys, Module.finrank ℂ (intertwiners r.allGens Y.2) = 1) :
    ∃ R : ReducedRep (genericTable n h), reduceRep eigh eig w eps r fuel = some (.ok R) ∧
      Acts R r ∧ (∀ m ∈ R.irreps, m.mul = 1) ∧
      (R.irreps.map fun m => m.ir.1).Pairwise (· ≤ ·) ∧
      (R.irreps.map fun m => (⟨m.ir.1, m.ir.2.allGens⟩ : Block (n + h))).Perm Ys := by
  have hnh : n + h ≠ 0 := by omega
  obtain ⟨hV, hsum⟩ := C20_decompose_rep he heps hnh hd0 r.allGens hd hgap eig w heig fuel hf Ys hrun
  obtain ⟨hpos, hspan⟩ := C20_decompose_spans he heps hnh hd0 r.allGens hd hgap eig w heig fuel hf Ys hrun
  set Zs := Ys.mergeSort fun Y Z => decide (Y.1 ≤ Z.1) with hZs
  have hperm : Zs.Perm Ys := List.mergeSort_perm _ _
  have hmem : ∀ Y, Y ∈ Zs ↔ Y ∈ Ys := fun Y => hperm.mem_iff
  have hsum' : (Zs.map fun Y => Y.1).sum = d := by rw [(hperm.map _).sum_eq, hsum]
  have hle : ∀ Y ∈ Zs, Y.1 ≤ d := by
    intro Y hY
    rw [← hsum']
    exact List.single_le_sum (fun _ _ => Nat.zero_le _) _ (List.mem_map_of_mem hY)
  have hblk : ∀ Y ∈ Zs, ∃ p : Piece n h d, reduceBlock eigh r Y = .ok p ∧
      (⟨p.1, p.2.1⟩ : Σ k, Rep n h k) = ⟨Y.1, blockIr r Y⟩ ∧
      (∀ a, r.allGens a * p.2.2 = p.2.2 * p.2.1.allGens a) ∧
      ∀ V ∈ intertwiners r.allGens Y.2, ∀ j, ∃ (c : ℂ) (j' : Fin p.1),
        (fun i => V i j) = c • fun i => p.2.2 i j' := by
    intro Y hY
    have hY' := (hmem Y).1 hY
    obtain ⟨Q, h1, h2, h3⟩ := (reduceBlock_spec he hnh r Y
      (lt_of_le_of_lt (Nat.mul_le_mul_left d (hle Y hY)) hd') (hgaps Y hY')).1 (hone Y hY')
    refine ⟨_, h1, rfl, ?_, ?_⟩
    · intro a
      rw [allGens_blockIr]
      exact h2 a
    · intro V hV j
      obtain ⟨c, hc⟩ := h3 V hV
      exact ⟨c, j, by rw [hc]; rfl⟩
  have : Nonempty (Piece n h d) := ⟨⟨0, ⟨r.A, 0, 0⟩, 0⟩⟩
  choose! g hg1 hg2 hg3 hg4 using hblk
  have hmap : Zs.mapM (reduceBlock eigh r) = .ok (Zs.map g) := by
    clear_value Zs
    clear hZs hperm hmem hsum' hle hg2 hg3 hg4
    induction Zs with
    | nil => rfl
    | cons Y Zs ih =>
      rw [List.mapM_cons, hg1 Y (by simp), ih fun Z hZ => hg1 Z (by simp [hZ])]
      rfl
  have hne : Zs.map g ≠ [] := by
    intro h0
    rw [List.map_eq_nil_iff] at h0
    rw [h0] at hsum'
    exact hd0 hsum'.symm
  have hk : ∀ Y ∈ Zs, (g Y).1 = Y.1 := fun Y hY => congrArg Sigma.fst (hg2 Y hY)
  have hred : reduceRep eigh eig w eps r fuel =
      some (.ok ⟨r.A, (Zs.map g).map Piece.mulIr, some ⟨d, _, catQ (Zs.map g)⟩⟩) := by
    unfold reduceRep
    rw [hrun]
    simp only
    rw [← hZs, hmap]
    match hm : Zs.map g, hne with
    | [], hne => exact absurd rfl hne
    | p :: ps, _ => rfl
  refine ⟨_, hred, ?_, ?_, ?_, ?_⟩
  · refine pieces_act hn r _ hne ?_ ?_ ?_
    · intro p hp
      obtain ⟨Y, hY, rfl⟩ := List.mem_map.1 hp
      exact (allGens_iff _).1 (hg3 Y hY)
    · rw [List.map_map]
      refine Eq.trans ?_ hsum'
      congr 1
      exact List.map_congr_left fun Y hY => hk Y hY
    · rw [eq_top_iff, ← hspan, Submodule.span_le]
      rintro x ⟨Y, hY, V, hV, j, rfl⟩
      obtain ⟨c, j', e⟩ := hg4 Y ((hmem Y).2 hY) V hV j
      rw [SetLike.mem_coe, e]
      exact Submodule.smul_mem _ _ (Submodule.subset_span
        ⟨g Y, List.mem_map_of_mem ((hmem Y).2 hY), j', rfl⟩)
  · intro m hm
    obtain ⟨p, _, rfl⟩ := List.mem_map.1 hm
    rfl
  · have e : ((Zs.map g).map Piece.mulIr).map (fun m => m.ir.1) = Zs.map fun Y => Y.1 := by
      rw [List.map_map, List.map_map]
      exact List.map_congr_left fun Y hY => hk Y hY
    rw [e, List.pairwise_map]
    have := List.pairwise_mergeSort (le := fun Y Z : Block (n + h) => decide (Y.1 ≤ Z.1))
      (by intro a b c; simp; omega) (by intro a b; simp; omega) Ys
    exact this.imp (by simp)
  · have e : ((Zs.map g).map Piece.mulIr).map
        (fun m => (⟨m.ir.1, m.ir.2.allGens⟩ : Block (n + h))) = Zs := by
      rw [List.map_map, List.map_map]
      conv_rhs => rw [← List.map_id Zs]
      refine List.map_congr_left fun Y hY => ?_
      show (fun s : Σ k, Rep n h k => (⟨s.1, s.2.allGens⟩ : Block (n + h))) ⟨(g Y).1, (g Y).2.1⟩ = Y
      rw [hg2 Y hY]
      show (⟨Y.1, (blockIr r Y).allGens⟩ : Block (n + h)) = Y
      rw [allGens_blockIr]
    rw [e]
    exact hperm

/-- C59 (defect): `reduce(rep)` raises `ValueError` as soon as some block occurs more than once. -/
theorem C59_reduce_fails (he : EighSpec eigh) (heps : 0 < eps) (hn : n ≠ 0) (hd0 : d ≠ 0)
    (hd : (d * d : ℕ) * eps ^ 2 < 1) (hd' : d * d < 10 ^ 8)
    (hgap : Gap eps (icobMatrix r.allGens r.allGens))
    (heig : ∀ Q, inferChangeOfBasis eigh eps r.allGens r.allGens = .ok Q →
      GoodEig eig eps r.allGens (∑ l : Fin Q.length, ((w l : ℝ) : ℂ) • Q.get l))
    (hf : d < fuel) (hrun : decomposeRep eigh eig w eps r.allGens fuel = some (.ok Ys))
    (hgaps : ∀ Y ∈ Ys, Gap (1 / 10 ^ 4) (icobMatrix r.allGens Y.2))
    (hmult : ∃ Y ∈ Ys, Module.finrank ℂ (intertwiners r.allGens Y.2) ≠ 1) :
    reduceRep eigh eig w eps r fuel = some (.error .valueError) := by
  have hnh : n + h ≠ 0 := by omega
  obtain ⟨hV, hsum⟩ := C20_decompose_rep he heps hnh hd0 r.allGens hd hgap eig w heig fuel hf Ys hrun
  obtain ⟨hpos, -⟩ := C20_decompose_spans he heps hnh hd0 r.allGens hd hgap eig w heig fuel hf Ys hrun
  have hperm : (Ys.mergeSort fun Y Z => decide (Y.1 ≤ Z.1)).Perm Ys := List.mergeSort_perm _ _
  have hle : ∀ Y ∈ Ys, Y.1 ≤ d := by
    intro Y hY
    rw [← hsum]
    exact List.single_le_sum (fun _ _ => Nat.zero_le _) _ (List.mem_map_of_mem hY)
  have hspec := fun Y (hY : Y ∈ Ys) => reduceBlock_spec he hnh r Y
      (lt_of_le_of_lt (Nat.mul_le_mul_left d (hle Y hY)) hd') (hgaps Y hY)
  have key : ∀ Zs : List (Block (n + h)), (∀ Y ∈ Zs, Y ∈ Ys) →
      (∃ Y ∈ Zs, Module.finrank ℂ (intertwiners r.allGens Y.2) ≠ 1) →
      Zs.mapM (reduceBlock eigh r) = .error .valueError := by
    intro Zs
    induction Zs with
    | nil => rintro - ⟨Y, hY, -⟩; cases hY
    | cons Y Zs ih =>
      intro hsub hex
      have hY := hsub Y (by simp)
      rw [List.mapM_cons]
      by_cases h1 : Module.finrank ℂ (intertwiners r.allGens Y.2) = 1
      · obtain ⟨Q, hQ, -, -⟩ := (hspec Y hY).1 h1
        obtain ⟨Z, hZ, hZ1⟩ := hex
        have hZ' : Z ∈ Zs := by
          rcases List.mem_cons.1 hZ with rfl | hZ
          · exact absurd h1 hZ1
          · exact hZ
        rw [hQ, ih (fun Z hZ => hsub Z (by simp [hZ])) ⟨Z, hZ', hZ1⟩]
        rfl
      · rw [(hspec Y hY).2 h1 (Nat.mul_ne_zero hd0 (hpos Y hY).ne')]
        rfl
  unfold reduceRep
  rw [hrun]
  simp only
  rw [key _ (fun Y hY => hperm.mem_iff.1 hY)
    (by obtain ⟨Y, hY, h⟩ := hmult; exact ⟨Y, hperm.mem_iff.2 hY, h⟩)]
  rfl

/-- C59 (defect): `reduce(rep)` raises `ValueError`, whatever the random numbers, when two matrices
commuting with the representation do not commute with each other, that is when some irrep occurs
more than once. -/
theorem C59_reduce_multiplicity (he : EighSpec eigh) (heps : 0 < eps) (hn : n ≠ 0) (hd0 : d ≠ 0)
    (hd : (d * d : ℕ) * eps ^ 2 < 1) (hd' : d * d < 10 ^ 8)
    (hgap : Gap eps (icobMatrix r.allGens r.allGens))
    (heig : ∀ Q, inferChangeOfBasis eigh eps r.allGens r.allGens = .ok Q →
      GoodEig eig eps r.allGens (∑ l : Fin Q.length, ((w l : ℝ) : ℂ) • Q.get l))
    (hf : d < fuel) (hrun : decomposeRep eigh eig w eps r.allGens fuel = some (.ok Ys))
    (hgaps : ∀ Y ∈ Ys, Gap (1 / 10 ^ 4) (icobMatrix r.allGens Y.2))
    (hmult : ∃ S T : Matrix (Fin d) (Fin d) ℂ, (∀ a, r.allGens a * S = S * r.allGens a) ∧
      (∀ a, r.allGens a * T = T * r.allGens a) ∧ S * T ≠ T * S) :
    reduceRep eigh eig w eps r fuel = some (.error .valueError) := by
  have hnh : n + h ≠ 0 := by omega
  refine C59_reduce_fails he heps hn hd0 hd hd' hgap heig hf hrun hgaps ?_
  by_contra hcon
  push Not at hcon
  obtain ⟨S, T, hS, hT, hne⟩ := hmult
  obtain ⟨-, hspan⟩ := C20_decompose_spans he heps hnh hd0 r.allGens hd hgap eig w heig fuel hf Ys hrun
  apply hne
  -- every commuting matrix is a scalar on the image of a block
  have hscal : ∀ P : Matrix (Fin d) (Fin d) ℂ, (∀ a, r.allGens a * P = P * r.allGens a) →
      ∀ Y ∈ Ys, ∃ c : ℂ, ∀ V ∈ intertwiners r.allGens Y.2, P * V = c • V := by
    intro P hP Y hY
    obtain ⟨Q, hQ0, hQ⟩ := finrank_eq_one_iff'.1 (hcon Y hY)
    have hPQ : P * Q.1 ∈ intertwiners r.allGens Y.2 := by
      intro a
      rw [← Matrix.mul_assoc, hP a, Matrix.mul_assoc, Q.2 a, Matrix.mul_assoc]
    obtain ⟨c, hc⟩ := hQ ⟨_, hPQ⟩
    have hc' : c • Q.1 = P * Q.1 := congrArg Subtype.val hc
    refine ⟨c, fun V hV => ?_⟩
    obtain ⟨e, he⟩ := hQ ⟨V, hV⟩
    have he' : e • Q.1 = V := congrArg Subtype.val he
    rw [← he', Matrix.mul_smul, ← hc', smul_comm]
  have hvec : ∀ x : Fin d → ℂ, (S * T) *ᵥ x = (T * S) *ᵥ x := by
    intro x
    have hx : x ∈ Submodule.span ℂ {x : Fin d → ℂ | ∃ Y ∈ Ys, ∃ V : Matrix (Fin d) (Fin Y.1) ℂ,
      (∀ a, r.allGens a * V = V * Y.2 a) ∧ ∃ j, x = fun p => V p j} := by rw [hspan]; trivial
    induction hx using Submodule.span_induction with
    | mem x hx =>
      obtain ⟨Y, hY, V, hV, j, rfl⟩ := hx
      obtain ⟨s, hs⟩ := hscal S hS Y hY
      obtain ⟨t, ht⟩ := hscal T hT Y hY
      have e : S * T * V = T * S * V := by
        rw [Matrix.mul_assoc, Matrix.mul_assoc, ht V hV, hs V hV, Matrix.mul_smul, Matrix.mul_smul,
          hs V hV, ht V hV, smul_comm]
      funext i
      exact congrFun (congrFun e i) j
    | zero => simp
    | add x y _ _ hx hy => rw [Matrix.mulVec_add, Matrix.mulVec_add, hx, hy]
    | smul c x _ hx => rw [Matrix.mulVec_smul, Matrix.mulVec_smul, hx]
  exact Matrix.mulVec_injective (funext hvec)

/-- C59: for a unitary representation (anti-hermitian continuous and unitary discrete generators) the
blocks with one homomorphism are irreducible, so the irreps of a successful `reduce` are irreducible. -/
theorem C59_irreducible {N : ℕ} (X : Fin N → Matrix (Fin d) (Fin d) ℂ) (Y : Block N)
    (hX : ∀ a, (X a)ᴴ = -X a ∨ (X a)ᴴ * X a = 1)
    (V : Matrix (Fin d) (Fin Y.1) ℂ) (hV : Vᴴ * V = 1) (hXV : ∀ a, X a * V = V * Y.2 a)
    (hone : Module.finrank ℂ (intertwiners X Y.2) = 1) : IrreducibleFamily Y.2 := by
  have hY : ∀ a, Y.2 a = Vᴴ * X a * V := by
    intro a
    rw [Matrix.mul_assoc, hXV a, ← Matrix.mul_assoc, hV, Matrix.one_mul]
  apply irreducible_of_finrank
  · intro a
    rcases hX a with h | h
    · left
      rw [hY a]
      simp only [conjTranspose_mul, conjTranspose_conjTranspose, h]
      simp [Matrix.mul_assoc]
    · right
      have e : (Y.2 a)ᴴ * Vᴴ = Vᴴ * (X a)ᴴ := by
        rw [← conjTranspose_mul, ← hXV a, conjTranspose_mul]
      calc (Y.2 a)ᴴ * Y.2 a = (Y.2 a)ᴴ * (Vᴴ * V) * Y.2 a := by rw [hV, Matrix.mul_one]
        _ = (Y.2 a)ᴴ * Vᴴ * (V * Y.2 a) := by simp only [Matrix.mul_assoc]
        _ = Vᴴ * ((X a)ᴴ * X a) * V := by rw [e, ← hXV a]; simp only [Matrix.mul_assoc]
        _ = 1 := by rw [h, Matrix.mul_one, hV]
  · -- `P ↦ V P` embeds the endomorphisms of the block
    have hk : ∀ P : Matrix (Fin Y.1) (Fin Y.1) ℂ, Vᴴ * (V * P) = P := by
      intro P; rw [← Matrix.mul_assoc, hV, Matrix.one_mul]
    obtain ⟨Q, hQ0, -⟩ := finrank_eq_one_iff'.1 hone
    have : Nonempty (Fin Y.1) := by
      by_contra hne
      rw [not_nonempty_iff] at hne
      apply hQ0
      ext i j
      exact hne.elim j
    have hV0 : (⟨V, hXV⟩ : intertwiners X Y.2) ≠ 0 := by
      intro h0
      have h0' : V = 0 := congrArg Subtype.val h0
      rw [h0', Matrix.mul_zero] at hV
      exact zero_ne_one hV
    rw [finrank_eq_one_iff']
    refine ⟨⟨1, fun a => by rw [Matrix.mul_one, Matrix.one_mul]⟩, ?_, ?_⟩
    · intro h0
      exact one_ne_zero (congrArg Subtype.val h0)
    · rintro ⟨P, hP⟩
      obtain ⟨c, hc⟩ := (finrank_eq_one_iff_of_nonzero' _ hV0).1 hone ⟨V * P, fun a => by
        rw [← Matrix.mul_assoc, hXV a, Matrix.mul_assoc, hP a, Matrix.mul_assoc]⟩
      have hc' : c • V = V * P := congrArg Subtype.val hc
      refine ⟨c, Subtype.ext ?_⟩
      show c • (1 : Matrix (Fin Y.1) (Fin Y.1) ℂ) = P
      rw [← hk P, ← hc', Matrix.mul_smul, hV]

/-- C59: errors of the decomposition are passed on. -/
theorem C59_reduce_error {e : PyErr}
    (hrun : decomposeRep eigh eig w eps r.allGens fuel = some (.error e)) :
    reduceRep eigh eig w eps r fuel = some (.error e) := by
  unfold reduceRep
  rw [hrun]

end C59

/-- C59: the overload for `MulIrrep`: one block, no change of basis, same generators. -/
theorem C59_reduce_mul_irrep {T : Table n h} (m : MulIr T) (hn : n ≠ 0) (hm : m.mul ≠ 0) :
    Acts (reduceMulIrrep m) (⟨(T.rep m.ir).A, fun a => kron (1 : Matrix (Fin m.mul) (Fin m.mul) ℂ)
      ((T.rep m.ir).X a), fun a => kron 1 ((T.rep m.ir).H a)⟩ : Rep n h (m.mul * T.dim m.ir)) := by
  have key : ∀ (k : ℕ) (M : Matrix (Fin k) (Fin k) ℂ) (Z : Matrix (Fin 0) (Fin 0) ℂ), dsum M Z = M := by
    intro k M Z
    apply dsum_ext
    · intro i j; rw [dsum_ll]; rfl
    · intro i j; exact j.elim0
    · intro i j; exact i.elim0
    · intro i j; exact j.elim0
  have key2 : ∀ (k : ℕ) (M : Matrix (Fin k) (Fin k) ℂ) (Z : Matrix (Fin 0) (Fin 0) ℂ),
      M * (1 : Matrix (Fin k) (Fin k) ℂ) = (1 : Matrix (Fin k) (Fin k) ℂ) * dsum M Z := by
    intro k M Z
    rw [key, Matrix.mul_one, Matrix.one_mul]
  refine acts_of_intertwines (r := reduceMulIrrep m) hn (by simp [reduceMulIrrep]) ?_
    (q := (1 : Matrix (Fin (m.mul * T.dim m.ir)) (Fin (m.mul * T.dim m.ir)) ℂ))
    (HasInv.of_isUnit isUnit_one) (Or.inl ⟨rfl, rfl, rfl⟩) rfl ?_ ?_
  · intro m' hm'
    simp only [reduceMulIrrep, List.mem_singleton] at hm'
    rw [hm']; exact hm
  · intro a
    exact key2 _ _ 0
  · intro a
    exact key2 _ _ 0

/-- C59: the overload for `ReducedRep` is the identity, so reducing twice is reducing once. -/
theorem C59_reduce_reduced {T : Table n h} (r : ReducedRep T) : reduceReduced r = r := rfl

/-! ### Non-vacuity -/

theorem fin_one_zero (a : Fin (1 + 0)) : a = Fin.castAdd 0 0 := Subsingleton.elim (α := Fin 1) _ _

/-- `np.linalg.eig` on diagonal matrices. -/
noncomputable def diagEig : EigFn := fun _ M => (fun k => M k k, fun k => EuclideanSpace.single k 1)

theorem diagEig_good (hle : eps < 1) {N : ℕ} (X : Fin N → Matrix (Fin d) (Fin d) ℂ)
    (hX : ∀ a p q, (X a p q).im = 0) (M : Matrix (Fin d) (Fin d) ℂ) (hM : ∀ i j, i ≠ j → M i j = 0) :
    GoodEig diagEig eps X M := by
  have ho : Orthonormal ℂ (diagEig d M).2 := EuclideanSpace.orthonormal_single
  refine ⟨?_, ho.linearIndependent, fun W hW => C20_gram_schmidt_orthonormal hle ho W hW, Or.inl hX⟩
  intro k
  funext p
  by_cases h : p = k
  · subst h
    simp [diagEig, mulVec, dotProduct]
  · simp [diagEig, mulVec, dotProduct, h, hM p k h]

/-- The representation `diag(0, 1)` of a one-dimensional algebra. -/
noncomputable def diagRep : Rep 1 0 2 := ⟨0, fun _ => !![0, 0; 0, 1], fun a => a.elim0⟩

theorem diagRep_gens (a : Fin (1 + 0)) : diagRep.allGens a = !![0, 0; 0, 1] := by
  obtain rfl := fin_one_zero a
  simp [Rep.allGens, diagRep]

theorem mem_diag (M : Matrix (Fin 2) (Fin 2) ℂ) :
    M ∈ intertwiners diagRep.allGens diagRep.allGens ↔ M 0 1 = 0 ∧ M 1 0 = 0 := by
  constructor
  · intro h
    have h := h (Fin.castAdd 0 0)
    rw [diagRep_gens] at h
    have h1 := congrFun (congrFun h 0) 1
    have h2 := congrFun (congrFun h 1) 0
    simp [Matrix.mul_apply, vecMul, dotProduct] at h1 h2
    exact ⟨by linear_combination -h1, by linear_combination h2⟩
  · rintro ⟨h1, h2⟩ a
    rw [diagRep_gens]
    ext i j
    fin_cases i <;> fin_cases j <;> simp [Matrix.mul_apply, h1, h2] <;> ring

theorem diagRep_gap (hle : eps ≤ 1) : Gap eps (icobMatrix diagRep.allGens diagRep.allGens) := by
  apply gap_icob
  intro μ S hS hev hμ
  simp only [diagRep_gens, Finset.sum_const, Finset.card_univ, Fintype.card_fin] at hev
  have h00 := congrFun (congrFun hev 0) 0
  have h01 := congrFun (congrFun hev 0) 1
  have h10 := congrFun (congrFun hev 1) 0
  have h11 := congrFun (congrFun hev 1) 1
  simp [Matrix.mul_apply, vecMul, dotProduct] at h00 h01 h10 h11
  have hμ' : (μ : ℂ) ≠ 0 := by exact_mod_cast hμ.ne'
  have hmu : μ = 1 := by
    by_contra hne
    have hne' : (μ : ℂ) - 1 ≠ 0 := by
      intro h0
      apply hne
      have : (μ : ℂ) = 1 := by linear_combination h0
      exact_mod_cast this
    apply hS
    have e00 : S 0 0 = 0 := by
      exact h00.resolve_left hμ.ne'
    have e11 : S 1 1 = 0 := by
      exact h11.resolve_left hμ.ne'
    have e01 : S 0 1 = 0 :=
      (mul_eq_zero.1 (show ((μ : ℂ) - 1) * S 0 1 = 0 by linear_combination -h01)).resolve_left hne'
    have e10 : S 1 0 = 0 :=
      (mul_eq_zero.1 (show ((μ : ℂ) - 1) * S 1 0 = 0 by linear_combination -h10)).resolve_left hne'
    ext i j
    fin_cases i <;> fin_cases j <;> assumption
  rw [hmu]; exact hle

theorem le_of_length (l : List ℕ) (hl : ∀ x ∈ l, 0 < x) : ∀ x ∈ l, l.length + x ≤ l.sum + 1 := by
  have h0 : l.length ≤ l.sum := by
    clear * - hl
    induction l with
    | nil => simp
    | cons a l ih =>
      have := hl a (by simp)
      have := ih fun x hx => hl x (by simp [hx])
      simp; omega
  induction l with
  | nil => simp
  | cons a l ih =>
    have ha := hl a (by simp)
    have h1 : l.length ≤ l.sum := by
      clear * - hl
      induction l with
      | nil => simp
      | cons b l ih =>
        have := hl b (by simp)
        have := ih fun x hx => hl x (by simp at hx ⊢; tauto)
        simp; omega
    intro x hx
    rcases List.mem_cons.1 hx with rfl | hx
    · simp; omega
    · have := ih (fun x hx => hl x (by simp [hx])) h1 x hx
      simp; omega

theorem diag_block {c : ℝ} (hc : c ≤ 1) (Y : Block (1 + 0)) (h1 : Y.1 = 1)
    (hV : ∃ V : Matrix (Fin 2) (Fin Y.1) ℂ, Vᴴ * V = 1 ∧ ∀ a, diagRep.allGens a * V = V * Y.2 a) :
    Gap c (icobMatrix diagRep.allGens Y.2) ∧
      Module.finrank ℂ (intertwiners diagRep.allGens Y.2) = 1 := by
  obtain ⟨k, Y⟩ := Y
  simp only at h1 hV ⊢
  subst h1
  obtain ⟨V, hV1, hV2⟩ := hV
  have hYc : ∀ a, Y a = Y (Fin.castAdd 0 0) := fun a => congrArg Y (fin_one_zero a)
  set y := Y (Fin.castAdd 0 0) 0 0 with hy
  have hyY : ∀ a, Y a = !![y] := by
    intro a
    rw [hYc a]
    ext i j
    fin_cases i; fin_cases j; rfl
  clear_value y
  have h := hV2 (Fin.castAdd 0 0)
  rw [diagRep_gens, hyY] at h
  have e0 := congrFun (congrFun h 0) 0
  have e1 := congrFun (congrFun h 1) 0
  have e2 := congrFun (congrFun hV1 0) 0
  simp [Matrix.mul_apply, vecMul, dotProduct] at e0 e1 e2
  have hy12 : y = 0 ∨ y = 1 := by
    by_contra hne
    push Not at hne
    have v0 : V 0 0 = 0 := e0.resolve_right hne.1
    have v1 : V 1 0 = 0 := by
      have : (y - 1) * V 1 0 = 0 := by linear_combination -e1
      exact (mul_eq_zero.1 this).resolve_left (sub_ne_zero.2 hne.2)
    simp [v0, v1] at e2
  constructor
  · apply gap_icob
    intro μ S hS hev hμ
    simp only [diagRep_gens, hyY, Finset.sum_const, Finset.card_univ, Fintype.card_fin] at hev
    have h0 := congrFun (congrFun hev 0) 0
    have h1 := congrFun (congrFun hev 1) 0
    have hμ' : (μ : ℂ) ≠ 0 := by exact_mod_cast hμ.ne'
    have hmu : μ = 1 := by
      by_contra hne
      have hne' : (μ : ℂ) - 1 ≠ 0 := by
        intro h0
        apply hne
        have : (μ : ℂ) = 1 := by linear_combination h0
        exact_mod_cast this
      apply hS
      rcases hy12 with hy | hy <;> rw [hy] at h0 h1 <;> simp [Matrix.mul_apply, vecMul, dotProduct] at h0 h1
      · have e0 : S 0 0 = 0 := h0.resolve_left hμ.ne'
        have e1 : S 1 0 = 0 :=
          (mul_eq_zero.1 (show ((μ : ℂ) - 1) * S 1 0 = 0 by linear_combination -h1)).resolve_left hne'
        ext i j
        fin_cases i <;> fin_cases j <;> assumption
      · have e1 : S 1 0 = 0 :=
          h1.resolve_left hμ.ne'
        have e0 : S 0 0 = 0 :=
          (mul_eq_zero.1 (show ((μ : ℂ) - 1) * S 0 0 = 0 by linear_combination -h0)).resolve_left hne'
        ext i j
        fin_cases i <;> fin_cases j <;> assumption
    rw [hmu]; exact hc
  · have hv0 : (⟨V, hV2⟩ : intertwiners diagRep.allGens Y) ≠ 0 := by
      intro h0
      have h0' : V = 0 := congrArg Subtype.val h0
      simp [h0'] at e2
    rw [finrank_eq_one_iff_of_nonzero' _ hv0]
    rintro ⟨W, hW⟩
    have hW := hW (Fin.castAdd 0 0)
    rw [diagRep_gens, hyY] at hW
    have w0 := congrFun (congrFun hW 0) 0
    have w1 := congrFun (congrFun hW 1) 0
    simp [Matrix.mul_apply, vecMul, dotProduct] at w0 w1
    rcases hy12 with hy | hy
    · have v1 : V 1 0 = 0 := by rw [hy] at e1; linear_combination e1
      have z1 : W 1 0 = 0 := by rw [hy] at w1; linear_combination w1
      have v0 : V 0 0 ≠ 0 := by
        intro v0
        simp [v0, v1] at e2
      refine ⟨W 0 0 / V 0 0, Subtype.ext ?_⟩
      ext i j
      fin_cases i <;> fin_cases j
      · simp [v0]
      · simp [v1, z1]
    · have v1 : V 0 0 = 0 := by rw [hy] at e0; first | linear_combination -e0 | simpa using e0
      have z1 : W 0 0 = 0 := by rw [hy] at w0; first | linear_combination -w0 | simpa using w0
      have v0 : V 1 0 ≠ 0 := by
        intro v0
        simp [v0, v1] at e2
      refine ⟨W 1 0 / V 1 0, Subtype.ext ?_⟩
      ext i j
      fin_cases i <;> fin_cases j
      · simp [v1, z1]
      · simp [v0]

/-- Non-vacuity of `C59_reduce`: `diag(0, 1)` is reduced to its two blocks. -/
example : ∃ (eigh : EighFn) (eig : EigFn) (w : ℕ → ℝ) (R : ReducedRep (genericTable 1 0)),
    reduceRep eigh eig w (1 / 10 ^ 10) diagRep 3 = some (.ok R) ∧ Acts R diagRep ∧
      R.irreps.length = 2 := by
  have hd : ((2 * 2 : ℕ) : ℝ) * (1 / 10 ^ 10) ^ 2 < 1 := by norm_num
  have hgap : Gap (1 / 10 ^ 10) (icobMatrix diagRep.allGens diagRep.allGens) :=
    diagRep_gap (by norm_num)
  obtain ⟨Q, h1, h2, -, -⟩ := inferChangeOfBasis_spec exactEigh_spec (eps := 1 / 10 ^ 10)
    (by norm_num) (by norm_num) diagRep.allGens diagRep.allGens hd hgap
  -- a basis matrix with different diagonal entries
  obtain ⟨l, hl⟩ : ∃ l : Fin Q.length, Q.get l 0 0 - Q.get l 1 1 ≠ 0 := by
    by_contra hcon
    push Not at hcon
    have hall : ∀ M ∈ mspan Q, M 0 0 - M 1 1 = 0 := by
      intro M hM
      induction hM using Submodule.span_induction with
      | mem M hM =>
        obtain ⟨l, rfl⟩ := List.mem_iff_get.1 hM
        exact hcon l
      | zero => simp
      | add M N _ _ h1 h2 =>
        simp only [Matrix.add_apply]
        linear_combination h1 + h2
      | smul c M _ h =>
        simp only [Matrix.smul_apply, smul_eq_mul]
        linear_combination c * h
    have := hall !![1, 0; 0, 0] (by rw [h2, mem_diag]; simp)
    simp at this
  set δ := Q.get l 0 0 - Q.get l 1 1 with hδ
  let w : ℕ → ℝ := fun k => if k = l then ‖δ‖⁻¹ else 0
  have hM : (∑ k : Fin Q.length, ((w k : ℝ) : ℂ) • Q.get k) = ((‖δ‖⁻¹ : ℝ) : ℂ) • Q.get l := by
    rw [Finset.sum_eq_single l]
    · simp [w]
    · intro k _ hk
      have : (k : ℕ) ≠ l := fun h => hk (Fin.ext h)
      simp [w, this]
    · simp
  set M := ((‖δ‖⁻¹ : ℝ) : ℂ) • Q.get l with hMd
  have hMdiag : M 0 1 = 0 ∧ M 1 0 = 0 := by
    rw [← mem_diag, ← h2]
    exact Submodule.smul_mem _ _ (Submodule.subset_span (List.get_mem Q l))
  have hM1 : ‖M 0 0 - M 1 1‖ = 1 := by
    have : M 0 0 - M 1 1 = ((‖δ‖⁻¹ : ℝ) : ℂ) * δ := by
      simp only [hMd, Matrix.smul_apply, smul_eq_mul]; ring
    rw [this, norm_mul, Complex.norm_real, norm_inv, norm_norm, inv_mul_cancel₀ (norm_ne_zero_iff.2 hl)]
  have hcl : IsClustering (1 / 10 ^ 10) (diagEig 2 M).1 2 ![0, 1] ![0, 1] := by
    have hM2 : ‖M 1 1 - M 0 0‖ = 1 := by rw [norm_sub_rev]; exact hM1
    refine ⟨?_, ?_, ?_, ?_⟩
    · intro j; fin_cases j <;> simp
    · intro j c
      fin_cases j <;> fin_cases c <;> simp [diagEig, hM1, hM2] <;> norm_num
    · intro c c' h
      fin_cases c <;> fin_cases c' <;> simp_all
    · intro j c
      fin_cases j <;> fin_cases c <;> simp
  obtain ⟨k, hk, hrun⟩ := decomposeFrom_run (eps := 1 / 10 ^ 10) (by norm_num) (by norm_num)
    diagRep.allGens M diagEig hcl 3 (by norm_num)
  have hrun' : decomposeRep exactEigh diagEig w (1 / 10 ^ 10) diagRep.allGens 3 =
      decomposeFrom diagEig (1 / 10 ^ 10) diagRep.allGens M 3 := by
    unfold decomposeRep
    rw [h1]
    simp only
    rw [hM]
  rw [hrun] at hrun'
  have heig : ∀ Q', inferChangeOfBasis exactEigh (1 / 10 ^ 10) diagRep.allGens diagRep.allGens = .ok Q' →
      GoodEig diagEig (1 / 10 ^ 10) diagRep.allGens
        (∑ l : Fin Q'.length, ((w l : ℝ) : ℂ) • Q'.get l) := by
    intro Q' hQ'
    rw [h1] at hQ'
    obtain rfl : Q = Q' := Except.ok.inj hQ'
    rw [hM]
    refine diagEig_good (by norm_num) _ ?_ _ ?_
    · intro a p q
      rw [diagRep_gens]
      fin_cases p <;> fin_cases q <;> simp
    · intro i j hij
      fin_cases i <;> fin_cases j <;> simp_all
  have hA := C20_decompose_rep exactEigh_spec (by norm_num) (by norm_num) (by norm_num) _ hd hgap
    diagEig w heig 3 (by norm_num) _ hrun'
  have hB := C20_decompose_spans exactEigh_spec (by norm_num) (by norm_num) (by norm_num) _ hd hgap
    diagEig w heig 3 (by norm_num) _ hrun'
  have hk2 : 2 ≤ k := by simpa using Nat.succ_le_of_lt (hk 1)
  generalize hYs : ((List.range k).map fun c => (⟨(blockRows (1 / 10 ^ 10)
    (clusterCols (diagEig 2 M).2 ![0, 1] c)).length, fun a => compress (diagRep.allGens a)
      (blockRows (1 / 10 ^ 10) (clusterCols (diagEig 2 M).2 ![0, 1] c))⟩ : Block (1 + 0))) = Ys
      at hA hB hrun'
  have hlen : Ys.length = k := by rw [← hYs]; simp
  have hdim : ∀ Y ∈ Ys, Ys.length + Y.1 ≤ 2 + 1 := by
    intro Y hY
    have := le_of_length (Ys.map fun Y => Y.1) (by
      intro x hx
      obtain ⟨Y, hY, rfl⟩ := List.mem_map.1 hx
      exact hB.1 Y hY) _ (List.mem_map_of_mem hY)
    rw [hA.2] at this
    simpa using this
  have hone : ∀ Y ∈ Ys, Y.1 = 1 := by
    intro Y hY
    have := hdim Y hY
    have := hB.1 Y hY
    omega
  have hl2 : Ys.length = 2 := by
    have hne : Ys ≠ [] := by
      intro h0
      rw [h0] at hlen
      simp at hlen
      omega
    obtain ⟨Y, hY⟩ := List.exists_mem_of_ne_nil _ hne
    have := hdim Y hY
    have := hB.1 Y hY
    omega
  have hblk := fun Y hY => diag_block (c := 1 / 10 ^ 4) (by norm_num) Y (hone Y hY) (hA.1 Y hY)
  obtain ⟨R, hR, hact, -, -, hp⟩ := C59_reduce exactEigh_spec (by norm_num) (by norm_num) (by norm_num) hd
    (by norm_num) hgap heig (by norm_num) hrun' (fun Y hY => (hblk Y hY).1) (fun Y hY => (hblk Y hY).2)
  exact ⟨_, _, _, R, hR, hact, by simpa [hl2] using hp.length_eq⟩

/-- The trivial representation, twice. -/
noncomputable def zeroRep : Rep 1 0 2 := ⟨0, fun _ => 0, fun a => a.elim0⟩

/-- Non-vacuity of `C59_reduce_multiplicity`: two copies of the trivial representation. -/
example : ∃ (eigh : EighFn) (eig : EigFn) (w : ℕ → ℝ),
    reduceRep eigh eig w (1 / 10 ^ 10) zeroRep 3 = some (.error .valueError) := by
  have hz : zeroRep.allGens = 0 := by
    funext a
    obtain rfl := fin_one_zero a
    simp [Rep.allGens, zeroRep]
  have hgap0 : ∀ (eps : ℝ) (k : ℕ) (Y : Fin (1 + 0) → Matrix (Fin k) (Fin k) ℂ), Y = 0 →
      Gap eps (icobMatrix zeroRep.allGens Y) := by
    intro eps k Y hY
    rw [hz, hY]
    apply gap_icob
    intro μ S hS hev hμ
    have hμ' : (μ : ℂ) ≠ 0 := by exact_mod_cast hμ.ne'
    have h0 : (μ : ℂ) • S = 0 := by rw [← hev]; simp
    exact absurd ((smul_eq_zero.1 h0).resolve_left hμ') hS
  have hd : ((2 * 2 : ℕ) : ℝ) * (1 / 10 ^ 10) ^ 2 < 1 := by norm_num
  have hgap := hgap0 (1 / 10 ^ 10) 2 zeroRep.allGens hz
  obtain ⟨Q, h1, h2, -, -⟩ := inferChangeOfBasis_spec exactEigh_spec (eps := 1 / 10 ^ 10)
    (by norm_num) (by norm_num) zeroRep.allGens zeroRep.allGens hd hgap
  have hcl : IsClustering (1 / 10 ^ 10) (diagEig 2 0).1 1 ![0, 0] ![0] := by
    refine ⟨?_, ?_, ?_, ?_⟩
    · intro j; fin_cases j <;> simp
    · intro j c
      fin_cases j <;> fin_cases c <;> simp [diagEig]
    · intro c c' h
      fin_cases c <;> fin_cases c' <;> simp_all
    · intro j c
      fin_cases j <;> fin_cases c <;> simp
  obtain ⟨k, hk, hrun⟩ := decomposeFrom_run (eps := 1 / 10 ^ 10) (by norm_num) (by norm_num)
    zeroRep.allGens 0 diagEig hcl 3 (by norm_num)
  have hrun' : decomposeRep exactEigh diagEig (fun _ => 0) (1 / 10 ^ 10) zeroRep.allGens 3 =
      decomposeFrom diagEig (1 / 10 ^ 10) zeroRep.allGens 0 3 := by
    unfold decomposeRep
    rw [h1]
    simp only [Complex.ofReal_zero, zero_smul, Finset.sum_const_zero]
  rw [hrun] at hrun'
  refine ⟨_, _, _, C59_reduce_multiplicity exactEigh_spec (by norm_num) (by norm_num) (by norm_num) hd
    (by norm_num) hgap ?_ (by norm_num) hrun' ?_ ⟨!![0, 1; 0, 0], !![0, 0; 1, 0], ?_, ?_, ?_⟩⟩
  · intro Q' hQ'
    simp only [Complex.ofReal_zero, zero_smul, Finset.sum_const_zero]
    refine diagEig_good (by norm_num) _ ?_ _ ?_
    · intro a p q; rw [hz]; simp
    · simp
  · intro Y hY
    obtain ⟨c, _, rfl⟩ := List.mem_map.1 hY
    apply hgap0
    funext a
    ext i j
    simp [hz, compress]
  · intro a; simp [hz]
  · intro a; simp [hz]
  · intro h
    have := congrFun (congrFun h 0) 0
    simp [Matrix.mul_apply, vecMul, dotProduct] at this

end LieNN.Props
