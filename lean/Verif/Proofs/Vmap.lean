import Verif.Model.Vmap
/-!
# Helper lemmas on `vmap`
-/
namespace LieNN.VmapProof

open LieNN

theorem mapM_map {α β : Type} {f : α → Py β} {g : α → β} : ∀ {l : List α},
    (∀ x ∈ l, f x = .ok (g x)) → l.mapM f = .ok (l.map g)
  | [], _ => rfl
  | x :: l, h => by
    rw [List.mapM_cons, h x (by simp), mapM_map fun y hy => h y (by simp [hy])]
    rfl

theorem mapM_first_error {α β : Type} {f : α → Py β} {e : PyErr} :
    ∀ {l₁ l₂ : List α} {a : α}, (∀ x ∈ l₁, ∃ y, f x = .ok y) → f a = .error e →
      (l₁ ++ a :: l₂).mapM f = .error e
  | [], _, _, _, ha => by rw [List.nil_append, List.mapM_cons, ha]; rfl
  | x :: l₁, l₂, a, h, ha => by
    obtain ⟨y, hy⟩ := h x (by simp)
    rw [List.cons_append, List.mapM_cons, hy,
      mapM_first_error (l₂ := l₂) (fun z hz => h z (by simp [hz])) ha]
    rfl

/-- All mapped axes have length `m`. -/
theorem vmapDims_const {m : ℕ} : ∀ {l : List (NDArr × Option ℕ)},
    (∀ p ∈ l, ∀ k, p.2 = some k → p.1.shape[k]? = some m) →
    ∃ c, vmapDims l = .ok (List.replicate c m) ∧ ((∃ p ∈ l, p.2 ≠ none) → c ≠ 0)
  | [], _ => ⟨0, rfl, by simp⟩
  | (a, none) :: l, h => by
    obtain ⟨c, hc, hc'⟩ := vmapDims_const (l := l) fun p hp => h p (by simp [hp])
    refine ⟨c, by rw [vmapDims, hc], fun hex => hc' ?_⟩
    obtain ⟨p, hp, hp'⟩ := hex
    rcases List.mem_cons.1 hp with rfl | hp
    · exact absurd rfl hp'
    · exact ⟨p, hp, hp'⟩
  | (a, some k) :: l, h => by
    obtain ⟨c, hc, _⟩ := vmapDims_const (l := l) fun p hp => h p (by simp [hp])
    refine ⟨c + 1, ?_, by simp⟩
    rw [vmapDims, h (a, some k) (by simp) k rfl, hc]
    rfl

/-- All axes are in range: the lengths, in order. -/
theorem vmapDims_ok : ∀ {l : List (NDArr × Option ℕ)},
    (∀ p ∈ l, ∀ k, p.2 = some k → k < p.1.shape.length) →
    ∃ D, vmapDims l = .ok D ∧ ∀ m, m ∈ D ↔ ∃ p ∈ l, ∃ k, p.2 = some k ∧ p.1.shape[k]? = some m
  | [], _ => ⟨[], rfl, by simp⟩
  | (a, none) :: l, h => by
    obtain ⟨D, hD, hm⟩ := vmapDims_ok (l := l) fun p hp => h p (by simp [hp])
    exact ⟨D, by rw [vmapDims, hD], fun m => by rw [hm m]; simp⟩
  | (a, some k) :: l, h => by
    obtain ⟨D, hD, hm⟩ := vmapDims_ok (l := l) fun p hp => h p (by simp [hp])
    have hk := h (a, some k) (by simp) k rfl
    refine ⟨a.shape[k] :: D, ?_, fun m => ?_⟩
    · rw [vmapDims, List.getElem?_eq_getElem hk, hD]; rfl
    · rw [List.mem_cons, hm m]
      constructor
      · rintro (rfl | ⟨p, hp, k', h1, h2⟩)
        · exact ⟨(a, some k), by simp, k, rfl, List.getElem?_eq_getElem hk⟩
        · exact ⟨p, by simp [hp], k', h1, h2⟩
      · rintro ⟨p, hp, k', h1, h2⟩
        rcases List.mem_cons.1 hp with rfl | hp
        · left
          obtain rfl := Option.some.inj h1
          rw [List.getElem?_eq_getElem hk] at h2
          exact (Option.some.inj h2).symm
        · exact Or.inr ⟨p, hp, k', h1, h2⟩

/-- An axis out of range. -/
theorem vmapDims_error : ∀ {l : List (NDArr × Option ℕ)},
    (∃ p ∈ l, ∃ k, p.2 = some k ∧ p.1.shape.length ≤ k) → vmapDims l = .error .indexError
  | [], h => by simp at h
  | (a, none) :: l, ⟨p, hp, k, h1, h2⟩ => by
    rcases List.mem_cons.1 hp with rfl | hp
    · cases h1
    · rw [vmapDims, vmapDims_error ⟨p, hp, k, h1, h2⟩]
  | (a, some k') :: l, ⟨p, hp, k, h1, h2⟩ => by
    rw [vmapDims]
    by_cases hk : k' < a.shape.length
    · rw [List.getElem?_eq_getElem hk]
      rcases List.mem_cons.1 hp with rfl | hp
      · obtain rfl := Option.some.inj h1
        exact absurd hk (not_lt.2 h2)
      · rw [vmapDims_error ⟨p, hp, k, h1, h2⟩]; rfl
    · rw [List.getElem?_eq_none (not_lt.1 hk)]

theorem npStack_range {n : ℕ} (hn : 0 < n) {out : ℕ → NDArr} {s : List ℕ}
    (hs : ∀ i < n, (out i).shape = s) {k : ℕ} (hk : k ≤ s.length) :
    ∃ R, npStack ((List.range n).map out) k = .ok R ∧ R.shape = s.insertIdx k n ∧
      ∀ i < n, ∀ idx : List ℕ, k ≤ idx.length → R.get (idx.insertIdx k i) = (out i).get idx := by
  obtain ⟨m, rfl⟩ := Nat.exists_eq_succ_of_ne_zero hn.ne'
  have h0 : (List.range (m + 1)).map out = out 0 :: ((List.range m).map fun i => out (i + 1)) := by
    rw [List.range_succ_eq_map, List.map_cons, List.map_map]; rfl
  have hall : ((List.range (m + 1)).map out).all (fun b => b.shape == (out 0).shape) = true := by
    rw [List.all_eq_true]
    intro b hb
    obtain ⟨i, hi, rfl⟩ := List.mem_map.1 hb
    rw [beq_iff_eq, hs i (List.mem_range.1 hi), hs 0 (by omega)]
  refine ⟨⟨(out 0).shape.insertIdx k ((List.range (m + 1)).map out).length, fun idx =>
    match ((List.range (m + 1)).map out)[idx.getD k 0]? with
    | some b => b.get (idx.eraseIdx k)
    | none => 0⟩, ?_, ?_, ?_⟩
  · rw [npStack.eq_def]
    conv_lhs => rw [h0]
    simp only
    rw [← h0, if_pos hall, if_pos (by rw [hs 0 (by omega)]; exact hk)]
    rfl
  · simp [hs 0 (by omega)]
  · intro i hi idx hidx
    have h1 : (idx.insertIdx k i).getD k 0 = i := by
      rw [List.getD_eq_getElem?_getD, List.getElem?_insertIdx_self]
      simp [hidx]
    simp only [h1, List.getElem?_map, List.getElem?_range hi, Option.map_some,
      List.eraseIdx_insertIdx_self]

theorem zipWith_ofFn {c : ℕ} {β : Type} (u : Fin c → NDArr) (v : Fin c → β)
    (g : NDArr → β → β) : List.zipWith g (List.ofFn u) (List.ofFn v) =
      List.ofFn fun a => g (u a) (v a) := by
  refine List.ext_getElem (by simp) fun i h1 h2 => ?_
  simp

theorem zipStar_ofFn_aux {c : ℕ} : ∀ (n : ℕ) (out : ℕ → Fin c → NDArr),
    zipStar ((List.range (n + 1)).map fun i => List.ofFn (out i)) =
      List.ofFn fun a => (List.range (n + 1)).map fun i => out i a
  | 0, out => by
    simp [zipStar, List.map_ofFn, Function.comp_def]
  | n + 1, out => by
    have h := zipStar_ofFn_aux n fun i => out (i + 1)
    have e : ∀ {β : Type} (g : ℕ → β), (List.range (n + 1 + 1)).map g =
        g 0 :: ((List.range (n + 1)).map fun i => g (i + 1)) := by
      intro β g
      rw [List.range_succ_eq_map, List.map_cons, List.map_map]; rfl
    have e' : ∀ {β : Type} (g : ℕ → β), (List.range (n + 1)).map g =
        g 0 :: ((List.range n).map fun i => g (i + 1)) := by
      intro β g
      rw [List.range_succ_eq_map, List.map_cons, List.map_map]; rfl
    rw [e, e' fun i => List.ofFn (out (i + 1)), zipStar,
      ← e' fun i => List.ofFn (out (i + 1)), h, zipWith_ofFn]
    · congr 1; funext a
      rw [e fun i => out i a]
    · intro h; cases h

theorem zipStar_ofFn {c n : ℕ} (hn : 0 < n) (out : ℕ → Fin c → NDArr) :
    zipStar ((List.range n).map fun i => List.ofFn (out i)) =
      List.ofFn fun a => (List.range n).map fun i => out i a := by
  obtain ⟨m, rfl⟩ := Nat.exists_eq_succ_of_ne_zero hn.ne'
  exact zipStar_ofFn_aux m out

theorem take_cons_drop : ∀ {k : ℕ} {s : List ℕ}, k ≤ s.length →
    s.take k ++ 0 :: s.drop k = s.insertIdx k 0
  | 0, _, _ => rfl
  | k + 1, [], h => by simp at h
  | k + 1, x :: s, h => by
    have := take_cons_drop (k := k) (s := s) (by simpa using h)
    simp [this]

end LieNN.VmapProof
