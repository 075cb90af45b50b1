import Verif.Proofs.LRMul
import Verif.Props.SUNCG
/-!
# C77: the product of two labels of `SU(N)` is the decomposition of the tensor product
-/
namespace LieNN.Props

open LieNN.Spec LieNN.SUN LieNN.LR

section
variable {n d₁ d₂ d₃ : ℕ} {S₁ S₂ S₃ : List ℤ}

/-- Two accepted labels of the same length. -/
structure SUNPair (n : ℕ) (S₁ S₂ : List ℤ) : Prop where
  two : 2 ≤ n
  m₁ : SUN.make S₁ = .ok S₁
  m₂ : SUN.make S₂ = .ok S₂
  l₁ : S₁.length = n
  l₂ : S₂.length = n

theorem SUNPair.toTwo (h : SUNPair n S₁ S₂) : Two n S₁ S₂ := by
  obtain ⟨w₁, p₁, -⟩ := make_weight h.m₁
  obtain ⟨w₂, p₂, -⟩ := make_weight h.m₂
  exact ⟨h.two, w₁, w₂, p₁, p₂, h.l₁, h.l₂⟩

theorem SUNPair.symm (h : SUNPair n S₁ S₂) : SUNPair n S₂ S₁ := ⟨h.two, h.m₂, h.m₁, h.l₂, h.l₁⟩

theorem SUNTriple.toPair {r₁ : Rep (n ^ 2 - 1) 0 d₁} {r₂ : Rep (n ^ 2 - 1) 0 d₂} {r₃ : Rep (n ^ 2 - 1) 0 d₃}
    (h : SUNTriple n S₁ S₂ S₃ r₁ r₂ r₃) : SUNPair n S₁ S₂ := ⟨h.two, h.m₁, h.m₂, h.l₁, h.l₂⟩

/-- C77: `mul_rep` yields every label as often as the representation occurs in the tensor product: as
often as there are linearly independent equivariant arrays. -/
theorem C77_multiplicity {r₁ : Rep (n ^ 2 - 1) 0 d₁} {r₂ : Rep (n ^ 2 - 1) 0 d₂} {r₃ : Rep (n ^ 2 - 1) 0 d₃}
    (h : SUNTriple n S₁ S₂ S₃ r₁ r₂ r₃) :
    ∃ L, mulRep S₁ S₂ = .ok L ∧ L.count S₃ = Module.finrank ℂ (cgSpace r₁ r₂ r₃) := by
  obtain rfl := dim_pats h.labels.w₁ h.d₁
  obtain rfl := dim_pats h.labels.w₂ h.d₂
  obtain rfl := dim_pats h.labels.w₃ h.d₃
  have ht := h.toPair.toTwo
  obtain ⟨w₃, p₃, z₃⟩ := make_weight h.m₃
  refine ⟨_, mulRep_eq ht, ?_⟩
  rw [finrank_HW ht ⟨w₃, p₃, h.l₃⟩ (cgSpace r₁ r₂ r₃) h.isCG]
  obtain ⟨m, rfl⟩ : ∃ m, n = m + 1 := ⟨n - 1, by have := h.two; omega⟩
  refine count_good ht h.l₃ ?_
  rw [h.l₃] at z₃
  exact z₃

/-- C77: the labels of `rep1 * rep2` are those of the representations with an equivariant array. -/
theorem C77_mem_iff {r₁ : Rep (n ^ 2 - 1) 0 d₁} {r₂ : Rep (n ^ 2 - 1) 0 d₂} {r₃ : Rep (n ^ 2 - 1) 0 d₃}
    (h : SUNTriple n S₁ S₂ S₃ r₁ r₂ r₃) :
    ∃ R, mul S₁ S₂ = .ok R ∧ (S₃ ∈ R ↔ ∃ C, C ≠ 0 ∧ IsCG r₁ r₂ r₃ C) := by
  obtain ⟨L, R, a, b, -, d, -⟩ := mul_ok h.labels.w₁ h.labels.p₁ (h.l₂.trans h.l₁.symm)
  obtain ⟨L', a', e⟩ := C77_multiplicity h
  obtain rfl : L = L' := by rw [a] at a'; exact Except.ok.inj a'
  refine ⟨R, b, ?_⟩
  rw [d, ← List.count_pos_iff, e, Module.finrank_pos_iff_exists_ne_zero]
  constructor
  · rintro ⟨C, hC⟩
    exact ⟨C.1, fun h0 => hC (Subtype.ext h0), C.2⟩
  · rintro ⟨C, h0, hC⟩
    exact ⟨⟨C, hC⟩, fun e => h0 (congrArg Subtype.val e)⟩

/-- C77: `clebsch_gordan` returns as many arrays as `mul_rep` yields the label. -/
theorem C77_arrays {r₁ : Rep (n ^ 2 - 1) 0 d₁} {r₂ : Rep (n ^ 2 - 1) 0 d₂} {r₃ : Rep (n ^ 2 - 1) 0 d₃}
    (h : SUNTriple n S₁ S₂ S₃ r₁ r₂ r₃) {rnd : ℝ → ℝ} (hr₁ : KeepsLadder rnd S₁)
    (hr₂ : KeepsLadder rnd S₂) {null : ∀ m n : ℕ, Matrix (Fin m) (Fin n) ℝ → List (Fin n → ℝ)}
    (hn : NullExact rnd null d₁ d₂ S₁ S₂ S₃) {fuel : ℕ} (hf : d₃ ≤ fuel + 1) :
    ∃ Cs L, clebschGordanMatrix rnd null fuel d₁ d₂ d₃ S₁ S₂ S₃ = some (.ok Cs) ∧ mulRep S₁ S₂ = .ok L ∧
      Cs.length = L.count S₃ := by
  obtain ⟨Cs, e, h1⟩ := C49_number h hr₁ hr₂ hn hf
  obtain ⟨L, e', h2⟩ := C77_multiplicity h
  exact ⟨Cs, L, e, e', h1.trans h2.symm⟩

/-- C77: the dimensions of the labels of `mul_rep` add up to the product of the dimensions. -/
theorem C77_dims (h : SUNPair n S₁ S₂) (hd₁ : dim S₁ = .ok (d₁ : ℤ)) (hd₂ : dim S₂ = .ok (d₂ : ℤ)) :
    ∃ L ds, mulRep S₁ S₂ = .ok L ∧ L.mapM dim = .ok ds ∧ ds.sum = d₁ * d₂ := by
  have ht := h.toTwo
  obtain rfl := dim_pats ht.w₁ hd₁
  obtain rfl := dim_pats ht.w₂ hd₂
  obtain ⟨L, hL, hv⟩ := mulRep_ok ht.w₁ ht.p₁ (h.l₂.trans h.l₁.symm)
  refine ⟨L, L.map fun S => ((pats S).length : ℤ), hL, ?_, ?_⟩
  · refine LieNN.mapM_ok fun S hS => dim_eq S ⟨?_, (hv S hS).2.1⟩
    rintro rfl
    have := (hv _ hS).2.2
    simp at this
  · obtain ⟨m, rfl⟩ : ∃ m, n = m + 1 := ⟨n - 1, by have := h.two; omega⟩
    have := mulRep_eq ht
    rw [hL] at this
    rw [Except.ok.inj this, ← Nat.cast_mul, ← sum_dim ht]
    push_cast
    simp only [List.map_map, Function.comp_def]

/-- C77: the order of the factors does not change the labels and how often they are yielded. -/
theorem C77_perm (h : SUNPair n S₁ S₂) :
    ∃ L L', mulRep S₁ S₂ = .ok L ∧ mulRep S₂ S₁ = .ok L' ∧ L.Perm L' := by
  have ht := h.toTwo
  have ht' := h.symm.toTwo
  obtain ⟨m, rfl⟩ : ∃ m, n = m + 1 := ⟨n - 1, by have := h.two; omega⟩
  obtain ⟨L, hL, hv⟩ := mulRep_ok ht.w₁ ht.p₁ (h.l₂.trans h.l₁.symm)
  obtain ⟨L', hL', hv'⟩ := mulRep_ok ht'.w₁ ht'.p₁ (h.l₁.trans h.l₂.symm)
  refine ⟨L, L', hL, hL', ?_⟩
  have e := mulRep_eq ht
  have e' := mulRep_eq ht'
  rw [hL] at e
  rw [hL'] at e'
  rw [h.l₁] at hv
  rw [h.l₂] at hv'
  rw [List.perm_iff_count]
  intro S
  by_cases hS : S.length = m + 1 ∧ S.getD m 0 = 0
  · rw [Except.ok.inj e, Except.ok.inj e', count_good ht hS.1 hS.2, count_good ht' hS.1 hS.2]
    exact finrank_HW_comm S
  · have key : ∀ K : List (List ℤ), (∀ S ∈ K, valid (m + 1) S) → K.count S = 0 := by
      intro K hK
      rw [List.count_eq_zero]
      intro hmem
      obtain ⟨a, -, b⟩ := hK S hmem
      refine hS ⟨a, ?_⟩
      rw [List.getLast?_eq_getElem?, a, Nat.add_sub_cancel] at b
      rw [List.getD_eq_getElem?_getD, b]
      rfl
    rw [key L hv, key L' hv']

/-- C77: `rep1 * rep2` is `rep2 * rep1`. -/
theorem C77_comm (h : SUNPair n S₁ S₂) : mul S₁ S₂ = mul S₂ S₁ := by
  obtain ⟨L, L', a, b, hp⟩ := C77_perm h
  obtain ⟨K, R, k, r, hs, hm, -⟩ := mul_ok h.toTwo.w₁ h.toTwo.p₁ (h.l₂.trans h.l₁.symm)
  obtain ⟨K', R', k', r', hs', hm', -⟩ := mul_ok h.toTwo.w₂ h.toTwo.p₂ (h.l₁.trans h.l₂.symm)
  obtain rfl : L = K := by rw [a] at k; exact Except.ok.inj k
  obtain rfl : L' = K' := by rw [b] at k'; exact Except.ok.inj k'
  rw [r, r']
  congr 1
  have hnd : R.Nodup := hs.imp fun h => ne_of_lt h
  have hnd' : R'.Nodup := hs'.imp fun h => ne_of_lt h
  refine ((List.perm_ext_iff_of_nodup hnd hnd').2 fun S => ?_).eq_of_pairwise (le := (· < ·))
    (fun a b _ _ h1 h2 => absurd h2 (not_lt_of_gt h1)) hs hs'
  rw [hm, hm', hp.mem_iff]

/-- C77: the trivial label is neutral. -/
theorem C77_one (h : SUNPair n (List.replicate n 0) S₂) : mulRep (List.replicate n 0) S₂ = .ok [S₂] ∧
    mulRep S₂ (List.replicate n 0) = .ok [S₂] := by
  have ht := h.toTwo
  obtain ⟨w₂, p₂, z₂⟩ := make_weight h.m₂
  have key : mulRep (List.replicate n 0) S₂ = .ok [S₂] := by
    rw [mulRep_eq ht]
    obtain ⟨m, rfl⟩ : ∃ m, n = m + 1 := ⟨n - 1, by have := h.two; omega⟩
    have h0 : ∀ M ∈ good (m + 1) (List.replicate (m + 1) 0) S₂, lab (m + 1) S₂ M = S₂ := by
      intro M hM
      have hM' := (mem_pats _ ht.w₁ M).1 (List.mem_of_mem_filter hM)
      have hsum := sum_wt ht.l₁ ht.w₁ ht.p₁ hM'
      have hz : ∑ k ∈ Finset.range (m + 1), (List.replicate (m + 1) (0 : ℤ)).getD k 0 = 0 := by
        refine Finset.sum_eq_zero fun k hk => ?_
        rw [List.getD_eq_getElem?_getD, List.getElem?_replicate]
        split_ifs <;> rfl
      rw [hz, Finset.sum_eq_zero_iff_of_nonneg fun k hk =>
        wt_nonneg ht.l₁ ht.w₁ ht.p₁ hM' (Finset.mem_range.1 hk)] at hsum
      refine List.ext_getElem ((lab_length M).trans ht.l₂.symm) fun k h3 h4 => ?_
      have hk : k < m + 1 := by rw [← ht.l₂]; exact h4
      have := lab_getD (S₂ := S₂) (M := M) hk
      rw [hsum k (Finset.mem_range.2 hk), add_zero, List.getD_eq_getElem _ _ h3, List.getD_eq_getElem _ _ h4] at this
      exact this
    have hn : norm S₂ = S₂ := by
      unfold LR.norm
      rw [z₂]
      simp
    have hmap : (good (m + 1) (List.replicate (m + 1) 0) S₂).map (fun M => norm (lab (m + 1) S₂ M)) =
        List.replicate (good (m + 1) (List.replicate (m + 1) 0) S₂).length S₂ := by
      rw [List.eq_replicate_iff]
      refine ⟨by simp, fun S hS => ?_⟩
      obtain ⟨M, hM, rfl⟩ := List.mem_map.1 hS
      rw [h0 M hM, hn]
    have hd := sum_dim ht
    have hone : (pats (List.replicate (m + 1) 0)).length = 1 := by
      have h1 := dimProd_eq _ ht.w₁
      have h2 : dimProd (List.replicate (m + 1) 0) = 1 := by
        unfold dimProd
        have : ∀ l : List (ℕ × ℕ), l.foldl (fun d p => d * (1 + (((List.replicate (m + 1) (0 : ℤ)).getD p.1 0 -
            (List.replicate (m + 1) (0 : ℤ)).getD p.2 0 : ℤ) : ℚ) / (((p.2 : ℤ) - p.1 : ℤ) : ℚ))) 1 = 1 := by
          have hg : ∀ k, (List.replicate (m + 1) (0 : ℤ)).getD k 0 = 0 := by
            intro k
            rw [List.getD_eq_getElem?_getD, List.getElem?_replicate]
            split_ifs <;> rfl
          intro l
          induction l with
          | nil => rfl
          | cons p l ih =>
            rw [List.foldl_cons]
            rw [hg, hg, sub_zero, Int.cast_zero, zero_div, add_zero, mul_one]
            exact ih
        exact this _
      rw [h2] at h1
      exact_mod_cast h1.symm
    rw [hmap, hone, one_mul, List.map_replicate, List.sum_replicate, smul_eq_mul] at hd
    have hpos : 0 < (pats S₂).length := List.length_pos_of_mem (List.getElem_mem (topIdx w₂).2)
    have : (good (m + 1) (List.replicate (m + 1) 0) S₂).length = 1 := by
      exact Nat.eq_of_mul_eq_mul_right hpos (by rw [hd, one_mul])
    rw [hmap, this]
    rfl
  refine ⟨key, ?_⟩
  obtain ⟨L, L', a, b, hp⟩ := C77_perm h
  rw [key] at a
  obtain rfl := Except.ok.inj a
  rw [b, List.singleton_perm.1 hp]

end

/-! Examples: quarks, antiquarks and octets of `SU(3)`. -/

example : SUNPair 3 [2, 1, 0] [2, 1, 0] := ⟨by decide, by decide +kernel, by decide +kernel, rfl, rfl⟩
example : SUNPair 3 (List.replicate 3 0) [2, 1, 0] := ⟨by decide, by decide +kernel, by decide +kernel, rfl, rfl⟩
example : dim [2, 1, 0] = .ok ((8 : ℕ) : ℤ) := by decide +kernel

/-- The octet occurs twice in the product of two octets. -/
theorem C77_octets : Module.finrank ℂ (cgSpace (labelRep 3 [2, 1, 0]) (labelRep 3 [2, 1, 0]) (labelRep 3 [2, 1, 0])) = 2 := by
  obtain ⟨L, h1, h2⟩ := C77_multiplicity (labelRep_triple (n := 3) (S₁ := [2, 1, 0]) (S₂ := [2, 1, 0]) (S₃ := [2, 1, 0])
    (by decide) (by decide +kernel) (by decide +kernel) (by decide +kernel) rfl rfl rfl)
  have h3 : mulRep [2, 1, 0] [2, 1, 0] = .ok [[0, 0, 0], [2, 1, 0], [2, 1, 0], [3, 0, 0], [3, 3, 0], [4, 2, 0]] := by
    decide +kernel
  rw [h3] at h1
  rw [← h2, ← Except.ok.inj h1]
  decide +kernel

/-- There is no quark in the product of two quarks. -/
theorem C77_quarks : ∀ C, IsCG (labelRep 3 [1, 0, 0]) (labelRep 3 [1, 0, 0]) (labelRep 3 [1, 0, 0]) C → C = 0 := by
  obtain ⟨L, h1, h2⟩ := C77_multiplicity (labelRep_triple (n := 3) (S₁ := [1, 0, 0]) (S₂ := [1, 0, 0]) (S₃ := [1, 0, 0])
    (by decide) (by decide +kernel) (by decide +kernel) (by decide +kernel) rfl rfl rfl)
  have h3 : mulRep [1, 0, 0] [1, 0, 0] = .ok [[1, 1, 0], [2, 0, 0]] := by decide +kernel
  rw [h3] at h1
  rw [← Except.ok.inj h1] at h2
  intro C hC
  have h4 : List.count [1, 0, 0] [[(1 : ℤ), 1, 0], [2, 0, 0]] = 0 := by decide +kernel
  rw [h4] at h2
  have h5 := Submodule.finrank_eq_zero.1 h2.symm
  exact (Submodule.mem_bot ℂ).1 (h5 ▸ (show C ∈ cgSpace _ _ _ from hC))

end LieNN.Props
