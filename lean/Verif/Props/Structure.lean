import Verif.Proofs.Dynkin
import Verif.Props.Roots
/-!
# C88: `structure_algebra` and the Dynkin diagrams
-/
namespace LieNN.Props

open LieNN.Spec LieNN.Roots

/-- C88 (exceptions): the outcome is an exception exactly for an unknown letter (`UnboundLocalError`, since
no branch sets `rootWeight`) and for the ranks on which the functions of C56 fail. -/
theorem C88_errors (g : List Char) (r : ℕ) :
    (structureAlgebra g r = .error .unboundLocal ↔ g ∉ [['A'], ['B'], ['C'], ['D']]) ∧
    ((∃ s, structureAlgebra g r = .ok s) ↔
      (g = ['A'] ∧ 1 ≤ r) ∨ (g ∈ [['B'], ['C'], ['D']] ∧ 2 ≤ r)) := by
  have hA : (∃ w, rootsA r = .ok w) ↔ 1 ≤ r := by
    unfold rootsA; split_ifs with h <;> simp <;> omega
  have hB : (∃ w, rootsB r = .ok w) ↔ 2 ≤ r := by
    unfold rootsB; split_ifs with h <;> simp <;> omega
  have hC : (∃ w, rootsC r = .ok w) ↔ 2 ≤ r := by
    unfold rootsC; split_ifs with h <;> simp <;> omega
  have hD : (∃ w, rootsD r = .ok w) ↔ 2 ≤ r := by
    unfold rootsD; split_ifs with h <;> simp <;> omega
  have key : ∀ {m : ℕ} (t : List Char) (x : Py (RW m)), structOf r t x ≠ .error .unboundLocal ∧
      ((∃ s, structOf r t x = .ok s) ↔ ∃ w, x = .ok w) := by
    intro m t x
    rcases x with e | w <;> simp [structOf]
  unfold structureAlgebra
  by_cases h1 : g = ['A']
  · subst h1
    simp [key, hA]
  by_cases h2 : g = ['B']
  · subst h2
    simp [key, hB]
  by_cases h3 : g = ['C']
  · subst h3
    simp [key, hC]
  by_cases h4 : g = ['D']
  · subst h4
    simp [key, hD]
  · simp [h1, h2, h3, h4]

/-- C88: for every letter and rank without exception the entries of the dictionary are those of the
functions of C56; `"tsDim"` is the length of the text of the Dynkin diagram. -/
theorem C88_fields (r : ℕ) :
    (1 ≤ r → ∃ w, rootsA r = .ok w ∧ structureAlgebra ['A'] r = .ok ⟨r + 1, (dynkinA r).length, w, weylVector w.pos,
      cartanMatrix w.roots, dynkinA r, r + 1⟩) ∧
    (2 ≤ r → ∃ w, rootsB r = .ok w ∧ structureAlgebra ['B'] r = .ok ⟨r, (dynkinB r).length, w, weylVector w.pos,
      cartanMatrix w.roots, dynkinB r, 2 * r⟩) ∧
    (2 ≤ r → ∃ w, rootsC r = .ok w ∧ structureAlgebra ['C'] r = .ok ⟨r, (dynkinC r).length, w, weylVector w.pos,
      cartanMatrix w.roots, dynkinC r, 2 * r⟩) ∧
    (2 ≤ r → ∃ w, rootsD r = .ok w ∧ structureAlgebra ['D'] r = .ok ⟨r, (dynkinD r).length, w, weylVector w.pos,
      cartanMatrix w.roots, dynkinD r, 2 * (r - 1)⟩) := by
  obtain ⟨hA, hB, hC, hD⟩ := C56_coxeter r
  refine ⟨fun h => ?_, fun h => ?_, fun h => ?_, fun h => ?_⟩
  · obtain ⟨w, hw, hc⟩ := hA h
    refine ⟨w, hw, ?_⟩
    simp [structureAlgebra, hw, structOf, hc]
  · obtain ⟨w, hw, hc⟩ := hB h
    refine ⟨w, hw, ?_⟩
    simp [structureAlgebra, hw, structOf, hc]
  · obtain ⟨w, hw, hc⟩ := hC h
    refine ⟨w, hw, ?_⟩
    simp [structureAlgebra, hw, structOf, hc]
  · obtain ⟨w, hw, hc⟩ := hD h
    refine ⟨w, hw, ?_⟩
    simp [structureAlgebra, hw, structOf, hc]

/-- C88 finding: `"tsDim"` is for no algebra the length of its vectors: it is larger, being the number of
characters of the drawing. -/
theorem C88_tsDim_wrong (g : List Char) (r : ℕ) (s : Struct) (h : structureAlgebra g r = .ok s) :
    s.tsDim = s.dynkin.length ∧ s.m < s.tsDim := by
  obtain ⟨hA, hB, hC, hD⟩ := C88_fields r
  have hg := (C88_errors g r).2.1 ⟨s, h⟩
  have hl : ∀ k, k ≤ (labelRow k).length := by
    intro k
    rcases k with _ | k
    · simp
    · unfold labelRow
      rw [labels_length]
      have : ∑ j ∈ Finset.range (k + 1), 1 ≤ ∑ j ∈ Finset.range (k + 1), (pyStr (1 + j)).length :=
        Finset.sum_le_sum fun j _ => pyStr_pos _
      simp at this
      omega
  have hn : ∀ k, k ≤ (nodeRow k).length := by
    intro k
    rcases k with _ | k
    · simp
    · rw [nodeRow_length]; omega
  simp only [List.mem_cons, List.not_mem_nil, or_false] at hg
  rcases hg with ⟨rfl, hr⟩ | ⟨rfl | rfl | rfl, hr⟩
  · obtain ⟨w, -, hw⟩ := hA hr
    rw [hw] at h; cases h
    refine ⟨rfl, ?_⟩
    have := hl r; have := hn r
    simp only [dynkinA, List.length_append, List.length_cons, List.length_nil]; omega
  · obtain ⟨w, -, hw⟩ := hB hr
    rw [hw] at h; cases h
    refine ⟨rfl, ?_⟩
    have := hl r
    simp only [dynkinB, List.length_append, List.length_cons, List.length_nil]; omega
  · obtain ⟨w, -, hw⟩ := hC hr
    rw [hw] at h; cases h
    refine ⟨rfl, ?_⟩
    have := hl r
    simp only [dynkinC, List.length_append, List.length_cons, List.length_nil]; omega
  · obtain ⟨w, -, hw⟩ := hD hr
    rw [hw] at h; cases h
    refine ⟨rfl, ?_⟩
    have := hn (r - 1)
    simp only [dynkinD, List.length_append, List.length_cons, List.length_nil]; omega

/-- C88: the Dynkin diagrams of types A, B and C.  For every rank the text is a chain of `rank` nodes, the
bond between neighbours is the one prescribed by the computed Cartan matrix (a double bond with the arrow
towards the shorter root at the end), and the numbers `1, …, rank` stand below. -/
theorem C88_dynkin_ABC (g : Char) (hg : g ∈ ['A', 'B', 'C']) (r : ℕ) (s : Struct)
    (h : structureAlgebra [g] r = .ok s) : ∃ e : r = s.rw.roots.length,
      DrawnChain r (fun i j => s.cartan (Fin.cast e i) (Fin.cast e j)) s.dynkin := by
  obtain ⟨hA, hB, hC, -⟩ := C88_fields r
  have hr := (C88_errors [g] r).2.1 ⟨s, h⟩
  simp only [List.mem_cons, List.not_mem_nil, or_false] at hg
  have hrow : ∀ (c : Char), c ≠ '0' → c ≠ '\n' → ∀ k, '\n' ∉ nodeRow (k + 1) ++ ['=', c, '=', '0'] ∧
      ∀ x, Node [nodeRow (k + 1) ++ ['=', c, '=', '0']] 0 x ↔ ∃ i : Fin (k + 2), x = 4 * i.1 := by
    intro c hc hc' k
    refine ⟨?_, fun x => ?_⟩
    · have := nodeRow_nl (k + 1)
      simp [this, hc'.symm]
    · simp only [Node, charAt, List.getD_cons_zero]
      rw [rowEnd_get]
      constructor
      · intro hx
        refine ⟨⟨x / 4, ?_⟩, ?_⟩ <;> (try dsimp only) <;> split_ifs at hx <;> first | omega | simp_all
      · rintro ⟨i, rfl⟩
        have := i.2
        split_ifs <;> first | omega | rfl
  rcases hg with rfl | rfl | rfl
  · have hr' : 1 ≤ r := by simpa using hr
    obtain ⟨w, hw, hs⟩ := hA hr'
    obtain ⟨w', hw', e, hc⟩ := C56_cartan_A r hr'
    obtain rfl : w = w' := by rw [hw] at hw'; exact Except.ok.inj hw'
    rw [hs] at h; cases h
    refine ⟨e, ?_⟩
    simp only [hc]
    obtain ⟨k, rfl⟩ : ∃ k, r = k + 1 := ⟨r - 1, by omega⟩
    refine ⟨fun i j hij => ?_, nodeRow (k + 1), labelRow (k + 1), lines_two _ _ (nodeRow_nl _) (labelRow_nl _),
      fun x => ?_, fun i j hij => ?_, fun i hi => labelRow_at _ i hi⟩
    · simp only [CartanMatrix.A, Matrix.of_apply, Fin.ext_iff]
      constructor <;> split_ifs <;> first | omega | norm_num
    · simp only [Node, charAt, List.getD_cons_zero]
      rw [nodeRow_get]
      constructor
      · intro hx
        refine ⟨⟨x / 4, ?_⟩, ?_⟩ <;> (try dsimp only) <;> split_ifs at hx <;> first | omega | simp_all
      · rintro ⟨i, rfl⟩
        have := i.2
        split_ifs <;> first | omega | rfl
    · have := j.2
      simp only [rightOf, charAt, List.getD_cons_zero, nodeRow_get]
      rw [if_pos (by omega), if_neg (by omega), if_pos (by omega), if_neg (by omega), if_pos (by omega), if_neg (by omega)]
      simp only [CartanMatrix.A, Matrix.of_apply, Fin.ext_iff]
      rw [if_neg (by omega), if_pos (by omega), if_neg (by omega), if_pos (by omega)]
      simp [bond]
  · have hr' : 2 ≤ r := by simpa using hr
    obtain ⟨w, hw, hs⟩ := hB hr'
    obtain ⟨w', hw', e, hc⟩ := C56_cartan_B r hr'
    obtain rfl : w = w' := by rw [hw] at hw'; exact Except.ok.inj hw'
    rw [hs] at h; cases h
    refine ⟨e, ?_⟩
    simp only [hc]
    obtain ⟨k, rfl⟩ : ∃ k, r = k + 2 := ⟨r - 2, by omega⟩
    refine ⟨fun i j hij => ?_, nodeRow (k + 1) ++ ['=', '>', '=', '0'], labelRow (k + 2), ?_,
      (hrow '>' (by decide) (by decide) k).2, fun i j hij => ?_, fun i hi => labelRow_at _ i hi⟩
    · simp only [CartanMatrix.B, Matrix.of_apply, Fin.ext_iff]
      constructor <;> split_ifs <;> first | omega | norm_num
    · have := lines_two _ _ (hrow '>' (by decide) (by decide) k).1 (labelRow_nl (k + 2))
      simpa [dynkinB] using this
    · have := j.2
      simp only [rightOf, charAt, List.getD_cons_zero, rowEnd_get]
      simp only [CartanMatrix.B, Matrix.of_apply, Fin.ext_iff]
      by_cases hj : j.1 = k + 1
      · rw [if_neg (by omega), if_neg (by omega), if_pos (by omega), if_neg (by omega), if_pos (by omega), if_pos (by omega),
          if_neg (by omega), if_pos (by omega), if_neg (by omega), if_neg (by omega), if_pos (by omega),
          if_neg (by omega), if_neg (by omega), if_neg (by omega), if_pos (by omega)]
        norm_num [bond]
      · rw [if_neg (by omega), if_neg (by omega), if_pos (by omega), if_neg (by omega), if_pos (by omega), if_neg (by omega),
          if_pos (by omega), if_neg (by omega), if_pos (by omega), if_neg (by omega), if_pos (by omega), if_neg (by omega)]
        norm_num [bond]
  · have hr' : 2 ≤ r := by simpa using hr
    obtain ⟨w, hw, hs⟩ := hC hr'
    obtain ⟨w', hw', e, hc⟩ := C56_cartan_C r hr'
    obtain rfl : w = w' := by rw [hw] at hw'; exact Except.ok.inj hw'
    rw [hs] at h; cases h
    refine ⟨e, ?_⟩
    simp only [hc]
    obtain ⟨k, rfl⟩ : ∃ k, r = k + 2 := ⟨r - 2, by omega⟩
    refine ⟨fun i j hij => ?_, nodeRow (k + 1) ++ ['=', '<', '=', '0'], labelRow (k + 2), ?_,
      (hrow '<' (by decide) (by decide) k).2, fun i j hij => ?_, fun i hi => labelRow_at _ i hi⟩
    · simp only [CartanMatrix.C, Matrix.of_apply, Fin.ext_iff]
      constructor <;> split_ifs <;> first | omega | norm_num
    · have := lines_two _ _ (hrow '<' (by decide) (by decide) k).1 (labelRow_nl (k + 2))
      simpa [dynkinC] using this
    · have := j.2
      simp only [rightOf, charAt, List.getD_cons_zero, rowEnd_get]
      simp only [CartanMatrix.C, Matrix.of_apply, Fin.ext_iff]
      by_cases hj : j.1 = k + 1
      · rw [if_neg (by omega), if_neg (by omega), if_pos (by omega), if_pos (by omega), if_neg (by omega), if_pos (by omega),
          if_neg (by omega), if_pos (by omega), if_neg (by omega), if_neg (by omega), if_pos (by omega),
          if_neg (by omega), if_neg (by omega), if_neg (by omega), if_pos (by omega)]
        norm_num [bond]
      · rw [if_neg (by omega), if_neg (by omega), if_pos (by omega), if_neg (by omega), if_neg (by omega), if_pos (by omega),
          if_pos (by omega), if_neg (by omega), if_pos (by omega), if_neg (by omega), if_pos (by omega), if_neg (by omega)]
        norm_num [bond]

/-- C88: the label of a node stands below the node exactly for the first ten nodes; later ones are shifted to
the right, because the blanks between two labels do not depend on the number of digits. -/
theorem C88_label_column (i : ℕ) : labelColumn i = 4 * i ↔ i ≤ 9 := labelColumn_eq_iff i

/-- C88 finding: the drawing of type D and rank `r` (without its line of labels) is the Dynkin diagram of
rank `r + 1`: its places with a node are in bijection with `Fin (r + 1)`, and they are joined exactly as the
Cartan matrix of type D and rank `r + 1` says.  In particular it has one node too many. -/
theorem C88_dynkin_D_wrong (r : ℕ) (s : Struct) (h : structureAlgebra ['D'] r = .ok s) :
    ∃ l₀ l₁ l₂ l₃ l₄ l₅, Lines s.dynkin [l₀, l₁, l₂, l₃, l₄, l₅, []] ∧
      ∃ pos : Fin (r + 1) → ℕ × ℕ, pos.Injective ∧
        (∀ p, Node [l₀, l₁, l₂, l₄, l₅] p.1 p.2 ↔ ∃ i, pos i = p) ∧
        ∀ i j, i ≠ j → (Bonded [l₀, l₁, l₂, l₄, l₅] (pos i) (pos j) ∨ Bonded [l₀, l₁, l₂, l₄, l₅] (pos j) (pos i) ↔
          CartanMatrix.D (r + 1) i j ≠ 0) := by
  have hr : 2 ≤ r := by simpa using (C88_errors ['D'] r).2.1 ⟨s, h⟩
  obtain ⟨-, -, -, hD⟩ := C88_fields r
  obtain ⟨w, hw, hs⟩ := hD hr
  rw [hs] at h; cases h
  obtain ⟨k, rfl⟩ : ∃ k, r = k + 2 := ⟨r - 2, by omega⟩
  refine ⟨_, _, _, _, _, _, lines_D (k + 2), fun i => if i.1 < k + 1 then (2, 4 * i.1) else
    if i.1 = k + 1 then (0, 4 * k) else (4, 4 * k), ?_, ?_, ?_⟩
  · intro i j hij
    have := i.2; have := j.2
    rw [Fin.ext_iff]
    dsimp only at hij
    split_ifs at hij <;> simp only [Prod.mk.injEq] at hij <;> omega
  · rintro ⟨y, x⟩
    simp only [Node, charAt, Nat.add_sub_cancel]
    have e1 : k + 2 - 1 = k + 1 := rfl
    rw [e1]
    constructor
    · intro hx
      rcases y with _ | _ | _ | _ | _ | y
      · simp only [List.getD_cons_zero, blank_get] at hx
        split_ifs at hx with hx'
        · exact ⟨⟨k + 1, by omega⟩, by simp [hx']⟩
        · simp at hx
      · simp only [List.getD_cons_zero, List.getD_cons_succ, blank_get] at hx
        split_ifs at hx <;> simp at hx
      · simp only [List.getD_cons_zero, List.getD_cons_succ, nodeRow_get] at hx
        split_ifs at hx with h1 h2
        · exact ⟨⟨x / 4, by omega⟩, by rw [if_pos (by simp only; omega)]; simp; omega⟩
        · simp at hx
        · simp at hx
      · simp only [List.getD_cons_zero, List.getD_cons_succ, blank_get] at hx
        split_ifs at hx <;> simp at hx
      · simp only [List.getD_cons_zero, List.getD_cons_succ, blank_get] at hx
        split_ifs at hx with hx'
        · exact ⟨⟨k + 2, by omega⟩, by simp [hx']⟩
        · simp at hx
      · simp at hx
    · rintro ⟨i, hi⟩
      split_ifs at hi <;> simp only [Prod.mk.injEq] at hi <;> obtain ⟨rfl, rfl⟩ := hi
      · simp only [List.getD_cons_zero, List.getD_cons_succ, nodeRow_get]
        rw [if_pos (by omega), if_pos (by omega)]
      · simp only [List.getD_cons_zero, blank_get, if_true]
      · simp only [List.getD_cons_zero, List.getD_cons_succ, blank_get, if_true]
  · intro i j hij
    have hi := i.2; have hj := j.2
    rw [ne_eq, Fin.ext_iff] at hij
    have hb : ∀ p q, Bonded [List.replicate (4 * (k + 2 - 2)) ' ' ++ ['0'], List.replicate (4 * (k + 2 - 2)) ' ' ++ ['|'],
        nodeRow (k + 2 - 1), List.replicate (4 * (k + 2 - 2)) ' ' ++ ['|'], List.replicate (4 * (k + 2 - 2)) ' ' ++ ['0']] p q ↔
        (q = (p.1, p.2 + 4) ∧ p.1 = 2 ∧ p.2 + 4 ≤ 4 * k ∧ p.2 % 4 = 0) ∨
          (q = (p.1 + 2, p.2) ∧ (p.1 = 0 ∨ p.1 = 2) ∧ p.2 = 4 * k) := by
      rintro ⟨y, x⟩ q
      have e1 : k + 2 - 1 = k + 1 := rfl
      rw [Nat.add_sub_cancel, e1]
      refine or_congr (and_congr_right fun _ => ?_) (and_congr_right fun _ => ?_)
      · simp only [rightOf, charAt]
        rcases y with _ | _ | _ | _ | _ | y
        · simp only [List.getD_cons_zero, blank_get]
          split_ifs <;> simp
        · simp only [List.getD_cons_zero, List.getD_cons_succ, blank_get]
          split_ifs <;> simp
        · simp only [List.getD_cons_zero, List.getD_cons_succ, nodeRow_get]
          split_ifs <;> simp <;> omega
        · simp only [List.getD_cons_zero, List.getD_cons_succ, blank_get]
          split_ifs <;> simp
        · simp only [List.getD_cons_zero, List.getD_cons_succ, blank_get]
          split_ifs <;> simp
        · simp
      · simp only [charAt]
        rcases y with _ | _ | _ | _ | _ | y
        · simp only [List.getD_cons_zero, List.getD_cons_succ, blank_get]
          split_ifs <;> simp_all
        · simp only [List.getD_cons_zero, List.getD_cons_succ, nodeRow_get]
          split_ifs <;> simp
        · simp only [List.getD_cons_zero, List.getD_cons_succ, blank_get]
          split_ifs <;> simp_all
        · simp only [List.getD_cons_zero, List.getD_cons_succ, blank_get]
          split_ifs <;> simp
        · simp
        · simp
    have hd : CartanMatrix.D (k + 2 + 1) i j ≠ 0 ↔ (i.1 + 1 = j.1 ∧ j.1 < k + 1) ∨ (j.1 + 1 = i.1 ∧ i.1 < k + 1) ∨
        (i.1 = k ∧ (j.1 = k + 1 ∨ j.1 = k + 2)) ∨ (j.1 = k ∧ (i.1 = k + 1 ∨ i.1 = k + 2)) := by
      simp only [CartanMatrix.D, Matrix.of_apply, Fin.ext_iff]
      split_ifs <;> simp <;> omega
    rw [hd, hb, hb]
    dsimp only
    clear hd hb hs hw hD
    split_ifs <;> simp only [Prod.mk.injEq, true_and, false_and, and_true, and_false, or_false, false_or, or_true] <;> omega

/-- C88: for type D and rank at least 3 the maximal root is a positive root above all the positive roots (see
`C56_max_root`); for rank 2, where the root system is reducible, it is not above `(1, -1)`. -/
theorem C88_max_root_D (r : ℕ) :
    (3 ≤ r → ∃ w, rootsD r = .ok w ∧ w.max ∈ w.pos ∧ ∀ v ∈ w.pos, ∀ f ∈ w.fund, 0 ≤ f ⬝ᵥ (w.max - v)) ∧
    ∃ w, rootsD 2 = .ok w ∧ w.max ∈ w.pos ∧ ∃ v ∈ w.pos, ∃ f ∈ w.fund, f ⬝ᵥ (w.max - v) < 0 := by
  constructor
  · intro hr
    obtain ⟨w, hw, -, hp, hm, -, hf⟩ := rootsD_ok r (by omega)
    refine ⟨w, hw, ?_, ?_⟩
    · rw [hm, hp, List.mem_append]
      exact .inl ((mem_pairs _ _).2 ⟨1, 0, by omega, by omega, add_comm _ _⟩)
    · intro v hv f hfm
      have hf' : ∃ a < r, f = fD r a := by
        rw [hf hr] at hfm
        simp only [List.mem_append, List.mem_map, List.mem_range, List.mem_singleton] at hfm
        rcases hfm with ⟨a, ha, rfl⟩ | ⟨a, ha, rfl⟩ | rfl
        · exact ⟨a, by omega, rfl⟩
        · exact ⟨a, by omega, rfl⟩
        · exact ⟨r - 1, by omega, rfl⟩
      obtain ⟨a, ha, rfl⟩ := hf'
      have hD : fD r a = if a + 2 < r then psum r (a + 1) else if a + 2 = r then
        (1 / 2 : ℚ) • psum r r - e r (r - 1) else (1 / 2 : ℚ) • psum r r := rfl
      rw [hm]
      rw [hp, List.mem_append] at hv
      rcases (by omega : a + 2 < r ∨ a + 2 = r ∨ a + 1 = r) with h | h | h
      · rw [hD, if_pos h]
        rcases hv with hv | hv <;> obtain ⟨i, j, h1, h2, rfl⟩ := (mem_pairs _ _).1 hv <;>
          simp only [dotProduct_sub, dotProduct_add, pe'] <;> split_ifs <;> first | omega | norm_num
      · rw [hD, if_neg (by omega), if_pos h]
        rcases hv with hv | hv <;> obtain ⟨i, j, h1, h2, rfl⟩ := (mem_pairs _ _).1 hv <;>
          simp only [dotProduct_sub, dotProduct_add, sub_dotProduct, smul_dotProduct, pe', ee', smul_eq_mul] <;>
          split_ifs <;> first | omega | norm_num
      · rw [hD, if_neg (by omega), if_neg (by omega)]
        rcases hv with hv | hv <;> obtain ⟨i, j, h1, h2, rfl⟩ := (mem_pairs _ _).1 hv <;>
          simp only [dotProduct_sub, dotProduct_add, smul_dotProduct, pe', smul_eq_mul] <;>
          split_ifs <;> first | omega | norm_num
  · obtain ⟨w, hw, -, hp, hm, hf, -⟩ := rootsD_ok 2 le_rfl
    refine ⟨w, hw, ?_, e 2 0 - e 2 1, ?_, fD 2 0, ?_, ?_⟩
    · rw [hm, hp, List.mem_append]
      exact .inl ((mem_pairs _ _).2 ⟨1, 0, by omega, by omega, add_comm _ _⟩)
    · rw [hp, List.mem_append]
      exact .inr ((mem_pairs _ _).2 ⟨1, 0, by omega, by omega, rfl⟩)
    · rw [hf rfl]; exact List.mem_map.2 ⟨0, by simp, rfl⟩
    · rw [hm]
      norm_num [fD, dotProduct_sub, dotProduct_add, sub_dotProduct, smul_dotProduct, pe', ee']

/-! ## Concrete cases -/

example : ∃ s, structureAlgebra ['D'] 4 = .ok s ∧
    s.dynkin = "        0\n        |\n0---0---0\n1   2   4        \n        |\n        0\n".toList ∧ s.tsDim = 68 := by
  refine ⟨_, rfl, ?_, ?_⟩ <;> decide +kernel
example : ∃ s, structureAlgebra ['B'] 3 = .ok s ∧ s.dynkin = "0---0=>=0\n1   2   3".toList ∧ s.tsDim = 19 ∧ s.m = 3 ∧ s.coxeter = 6 := by
  refine ⟨_, rfl, ?_, ?_, rfl, ?_⟩ <;> decide +kernel
example : structureAlgebra ['E'] 8 = .error .unboundLocal := rfl
example : labelColumn 10 = 41 := by decide +kernel
example : ¬ Lines "a\nb".toList ["a\nb".toList] ∧ Lines "a\nb".toList ["a".toList, "b".toList] := by
  refine ⟨fun h => ?_, by decide +kernel, by decide +kernel⟩
  exact h.2 _ (List.mem_singleton.2 rfl) (by decide +kernel)

end LieNN.Props
