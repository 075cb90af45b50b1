import Verif.Proofs.Vmap
import Verif.Model.SL2C
/-!
# C86: `vmap` applies the function to the slices and stacks the results
-/
namespace LieNN.Props

open LieNN LieNN.VmapProof

/-- The axes that `in_axes` means for `m` arguments. -/
def inAxesOf (m : ℕ) : InAxes → List (Option ℕ)
  | .int k => List.replicate m (some k)
  | .tuple l => l

private theorem vmap_eq (E : Py VOut) (f : List NDArr → Py VOut) (ia : InAxes) (k : ℕ)
    (os : Option (List ℕ)) (args : List NDArr) :
    vmap E f ia k os args = vmap E f (.tuple (inAxesOf args.length ia)) k os args := by
  cases ia <;> rfl

/-- Same-length mapped axes: the loop. -/
private theorem vmap_loop (E : Py VOut) (f : List NDArr → Py VOut) (ia : InAxes) (k : ℕ)
    (os : Option (List ℕ)) (args : List NDArr) {n : ℕ}
    (hlen : (inAxesOf args.length ia).length = args.length)
    (hex : ∃ p ∈ args.zip (inAxesOf args.length ia), p.2 ≠ none)
    (hn : ∀ p ∈ args.zip (inAxesOf args.length ia), ∀ k, p.2 = some k → p.1.shape[k]? = some n) :
    vmap E f ia k os args = (do
      let output ← (List.range n).mapM fun i =>
        f (vmapArgs (args.zip (inAxesOf args.length ia)) i)
      match output with
      | [] =>
        match os with
        | none => E
        | some s => .ok (.arr ⟨s.take k ++ 0 :: s.drop k, fun _ => 0⟩)
      | .tup _ :: _ => do
        let l ← output.mapM VOut.asTup
        let r ← (zipStar l).mapM fun l => npStack l k
        .ok (.tup r)
      | .arr _ :: _ => do
        let l ← output.mapM VOut.asArr
        let r ← npStack l k
        .ok (.arr r)) := by
  obtain ⟨c, hc, hc0⟩ := vmapDims_const hn
  have hd : (List.replicate c n).dedup = [n] := List.replicate_dedup (hc0 hex)
  rw [vmap_eq]
  generalize inAxesOf args.length ia = ax at *
  unfold vmap
  simp only [hlen, pyAssert, if_true, hc, bind, Except.bind, hd]
  rfl

/-- **C86 (arrays).**  For any number of arguments, all mapped axes of length `n > 0`, and a function
that returns on the `i`-th slices an array `out i`, all of one shape `s`: the result has shape `s` with
`n` inserted at `out_axes`, and its slice `i` along that axis is `out i`. -/
theorem C86_vmap (E : Py VOut) (f : List NDArr → Py VOut) (ia : InAxes) (k : ℕ)
    (os : Option (List ℕ)) (args : List NDArr) {n : ℕ} (hn0 : 0 < n)
    (hlen : (inAxesOf args.length ia).length = args.length)
    (hex : ∃ p ∈ args.zip (inAxesOf args.length ia), p.2 ≠ none)
    (hn : ∀ p ∈ args.zip (inAxesOf args.length ia), ∀ k, p.2 = some k → p.1.shape[k]? = some n)
    (out : ℕ → NDArr) (s : List ℕ) (hs : ∀ i < n, (out i).shape = s) (hk : k ≤ s.length)
    (hf : ∀ i < n, f (List.zipWith (fun (a : NDArr) (ax : Option ℕ) =>
        match ax with
        | none => a
        | some k => ⟨a.shape.eraseIdx k, fun idx => a.get (idx.insertIdx k i)⟩)
      args (inAxesOf args.length ia)) = .ok (.arr (out i))) :
    ∃ R, vmap E f ia k os args = .ok (.arr R) ∧ R.shape = s.insertIdx k n ∧
      ∀ i < n, ∀ idx : List ℕ, idx.length = s.length →
        R.get (idx.insertIdx k i) = (out i).get idx := by
  obtain ⟨R, hR, hRs, hRg⟩ := npStack_range hn0 hs hk
  refine ⟨R, ?_, hRs, fun i hi idx hidx => hRg i hi idx (hidx ▸ hk)⟩
  have hf' : (List.range n).mapM (fun i => f (vmapArgs (args.zip (inAxesOf args.length ia)) i)) =
      .ok ((List.range n).map fun i => VOut.arr (out i)) := by
    refine mapM_map fun i hi => ?_
    rw [← hf i (List.mem_range.1 hi), vmapArgs, List.zip, List.map_zipWith]
    rfl
  rw [vmap_loop E f ia k os args hlen hex hn, hf']
  obtain ⟨m, rfl⟩ := Nat.exists_eq_succ_of_ne_zero hn0.ne'
  have h0 : (List.range (m + 1)).map (fun i => VOut.arr (out i)) =
      .arr (out 0) :: ((List.range m).map fun i => VOut.arr (out (i + 1))) := by
    rw [List.range_succ_eq_map, List.map_cons, List.map_map]; rfl
  have hA : ((List.range (m + 1)).map fun i => VOut.arr (out i)).mapM VOut.asArr =
      .ok ((List.range (m + 1)).map out) := by
    rw [List.mapM_map]
    exact mapM_map fun i _ => rfl
  simp only [bind, Except.bind]
  rw [h0] at hA ⊢
  simp only [hA, hR]

/-- **C86 (tuples).**  The same when the function returns tuples of `c` arrays: the result is the tuple
of the `c` stacks. -/
theorem C86_tuple (E : Py VOut) (f : List NDArr → Py VOut) (ia : InAxes) (k : ℕ)
    (os : Option (List ℕ)) (args : List NDArr) {n : ℕ} (hn0 : 0 < n)
    (hlen : (inAxesOf args.length ia).length = args.length)
    (hex : ∃ p ∈ args.zip (inAxesOf args.length ia), p.2 ≠ none)
    (hn : ∀ p ∈ args.zip (inAxesOf args.length ia), ∀ k, p.2 = some k → p.1.shape[k]? = some n)
    {c : ℕ} (out : ℕ → Fin c → NDArr) (s : Fin c → List ℕ)
    (hs : ∀ i < n, ∀ a, (out i a).shape = s a) (hk : ∀ a, k ≤ (s a).length)
    (hf : ∀ i < n, f (List.zipWith (fun (a : NDArr) (ax : Option ℕ) =>
        match ax with
        | none => a
        | some k => ⟨a.shape.eraseIdx k, fun idx => a.get (idx.insertIdx k i)⟩)
      args (inAxesOf args.length ia)) = .ok (.tup (List.ofFn (out i)))) :
    ∃ R : Fin c → NDArr, vmap E f ia k os args = .ok (.tup (List.ofFn R)) ∧
      ∀ a, (R a).shape = (s a).insertIdx k n ∧
        ∀ i < n, ∀ idx : List ℕ, idx.length = (s a).length →
          (R a).get (idx.insertIdx k i) = (out i a).get idx := by
  have hst := fun a => npStack_range hn0 (fun i hi => hs i hi a) (hk a)
  choose R hR hRs hRg using hst
  refine ⟨R, ?_, fun a => ⟨hRs a, fun i hi idx hidx => hRg a i hi idx (hidx ▸ hk a)⟩⟩
  have hf' : (List.range n).mapM (fun i => f (vmapArgs (args.zip (inAxesOf args.length ia)) i)) =
      .ok ((List.range n).map fun i => VOut.tup (List.ofFn (out i))) := by
    refine mapM_map fun i hi => ?_
    rw [← hf i (List.mem_range.1 hi), vmapArgs, List.zip, List.map_zipWith]
    rfl
  rw [vmap_loop E f ia k os args hlen hex hn, hf']
  have hA : ((List.range n).map fun i => VOut.tup (List.ofFn (out i))).mapM VOut.asTup =
      .ok ((List.range n).map fun i => List.ofFn (out i)) := by
    rw [List.mapM_map]
    exact mapM_map fun i _ => rfl
  have hZ := zipStar_ofFn (n := n) hn0 out
  have hS : (List.ofFn fun a => (List.range n).map fun i => out i a).mapM (fun l => npStack l k) =
      .ok (List.ofFn R) := by
    rw [List.ofFn_eq_map, List.ofFn_eq_map, List.mapM_map]
    exact mapM_map fun a _ => hR a
  obtain ⟨m, rfl⟩ := Nat.exists_eq_succ_of_ne_zero hn0.ne'
  have h0 : (List.range (m + 1)).map (fun i => VOut.tup (List.ofFn (out i))) =
      .tup (List.ofFn (out 0)) ::
        ((List.range m).map fun i => VOut.tup (List.ofFn (out (i + 1)))) := by
    rw [List.range_succ_eq_map, List.map_cons, List.map_map]; rfl
  simp only [bind, Except.bind]
  rw [h0] at hA ⊢
  simp only [hA, hZ, hS]

/-- **C86 (errors).**  The number of axes must be the number of arguments; every mapped axis must
exist; there must be a mapped axis and all must have one length; the first exception of the function
comes out. -/
theorem C86_errors (E : Py VOut) (f : List NDArr → Py VOut) (ia : InAxes) (k : ℕ)
    (os : Option (List ℕ)) (args : List NDArr) :
    ((inAxesOf args.length ia).length ≠ args.length →
      vmap E f ia k os args = .error .assertionError) ∧
    ((inAxesOf args.length ia).length = args.length →
      ((∃ p ∈ args.zip (inAxesOf args.length ia), ∃ k, p.2 = some k ∧ p.1.shape.length ≤ k) →
        vmap E f ia k os args = .error .indexError) ∧
      ((∀ p ∈ args.zip (inAxesOf args.length ia), ∀ k, p.2 = some k → k < p.1.shape.length) →
        ((∀ p ∈ args.zip (inAxesOf args.length ia), p.2 = none) →
          vmap E f ia k os args = .error .assertionError) ∧
        ((∃ p ∈ args.zip (inAxesOf args.length ia), ∃ p' ∈ args.zip (inAxesOf args.length ia),
            ∃ a a', p.2 = some a ∧ p'.2 = some a' ∧ p.1.shape[a]? ≠ p'.1.shape[a']?) →
          vmap E f ia k os args = .error .assertionError) ∧
        (∀ n i e, (∃ p ∈ args.zip (inAxesOf args.length ia), p.2 ≠ none) →
          (∀ p ∈ args.zip (inAxesOf args.length ia), ∀ k, p.2 = some k →
            p.1.shape[k]? = some n) → i < n →
          (∀ j < i, ∃ y, f (vmapArgs (args.zip (inAxesOf args.length ia)) j) = .ok y) →
          f (vmapArgs (args.zip (inAxesOf args.length ia)) i) = .error e →
          vmap E f ia k os args = .error e))) := by
  refine ⟨fun h => ?_, fun hlen => ⟨fun h => ?_, fun hax => ⟨fun h => ?_, ?_, ?_⟩⟩⟩
  · rw [vmap_eq]
    generalize inAxesOf args.length ia = ax at *
    unfold vmap
    simp only [h, pyAssert, if_false, bind, Except.bind]
  · have hd := vmapDims_error h
    rw [vmap_eq]
    generalize inAxesOf args.length ia = ax at *
    unfold vmap
    simp only [hlen, pyAssert, if_true, hd, bind, Except.bind]
  · obtain ⟨D, hD, hm⟩ := vmapDims_ok hax
    have : D = [] := List.eq_nil_iff_forall_not_mem.2 fun m hmD => by
      obtain ⟨p, hp, k, hk, _⟩ := (hm m).1 hmD
      rw [h p hp] at hk; cases hk
    subst this
    rw [vmap_eq]
    generalize inAxesOf args.length ia = ax at *
    unfold vmap
    simp only [hlen, pyAssert, if_true, hD, bind, Except.bind, List.dedup_nil]
  · rintro ⟨p, hp, p', hp', a, a', ha, ha', hne⟩
    obtain ⟨D, hD, hm⟩ := vmapDims_ok hax
    have h1 := (hm _).2 ⟨p, hp, a, ha, List.getElem?_eq_getElem (hax p hp a ha)⟩
    have h2 := (hm _).2 ⟨p', hp', a', ha', List.getElem?_eq_getElem (hax p' hp' a' ha')⟩
    rw [List.getElem?_eq_getElem (hax p hp a ha), List.getElem?_eq_getElem (hax p' hp' a' ha')]
      at hne
    rw [vmap_eq]
    generalize inAxesOf args.length ia = ax at *
    unfold vmap
    simp only [hlen, pyAssert, if_true, hD, bind, Except.bind]
    split
    · rename_i dim hdd
      rw [← List.mem_dedup, hdd, List.mem_singleton] at h1 h2
      exact absurd (by rw [h1, h2]) hne
    · rfl
  · intro n i e hex hn hi hok he
    rw [vmap_loop E f ia k os args hlen hex hn]
    have : List.range n = List.range i ++ i :: (List.range' (i + 1) (n - i - 1)) := by
      rw [List.range_eq_range', List.range_eq_range', ← List.range'_succ,
        show n - i - 1 + 1 = n - i by omega]
      have := List.range'_append_1 (s := 0) (m := i) (n := n - i)
      rw [zero_add, show i + (n - i) = n by omega] at this
      exact this.symm
    rw [this, mapM_first_error (fun x hx => hok x (List.mem_range.1 hx)) he]
    rfl

/-- **C86 (unequal results).**  Two results of different shapes: `np.stack` raises. -/
theorem C86_shapes (E : Py VOut) (f : List NDArr → Py VOut) (ia : InAxes) (k : ℕ)
    (os : Option (List ℕ)) (args : List NDArr) {n : ℕ}
    (hlen : (inAxesOf args.length ia).length = args.length)
    (hex : ∃ p ∈ args.zip (inAxesOf args.length ia), p.2 ≠ none)
    (hn : ∀ p ∈ args.zip (inAxesOf args.length ia), ∀ k, p.2 = some k → p.1.shape[k]? = some n)
    (out : ℕ → NDArr)
    (hf : ∀ i < n, f (vmapArgs (args.zip (inAxesOf args.length ia)) i) = .ok (.arr (out i)))
    {i j : ℕ} (hi : i < n) (hj : j < n) (hne : (out i).shape ≠ (out j).shape) :
    vmap E f ia k os args = .error .valueError := by
  have hf' : (List.range n).mapM (fun i => f (vmapArgs (args.zip (inAxesOf args.length ia)) i)) =
      .ok ((List.range n).map fun i => VOut.arr (out i)) :=
    mapM_map fun i hi => hf i (List.mem_range.1 hi)
  rw [vmap_loop E f ia k os args hlen hex hn, hf']
  obtain ⟨m, rfl⟩ := Nat.exists_eq_succ_of_ne_zero (Nat.ne_zero_of_lt hi)
  have h0 : (List.range (m + 1)).map (fun i => VOut.arr (out i)) =
      .arr (out 0) :: ((List.range m).map fun i => VOut.arr (out (i + 1))) := by
    rw [List.range_succ_eq_map, List.map_cons, List.map_map]; rfl
  have hA : ((List.range (m + 1)).map fun i => VOut.arr (out i)).mapM VOut.asArr =
      .ok ((List.range (m + 1)).map out) := by
    rw [List.mapM_map]
    exact mapM_map fun i _ => rfl
  have hS : npStack ((List.range (m + 1)).map out) k = .error .valueError := by
    have h1 : (List.range (m + 1)).map out =
        out 0 :: ((List.range m).map fun i => out (i + 1)) := by
      rw [List.range_succ_eq_map, List.map_cons, List.map_map]; rfl
    have hall : ¬ ((List.range (m + 1)).map out).all (fun b => b.shape == (out 0).shape) = true := by
      rw [List.all_eq_true]
      intro h
      have e : ∀ l < m + 1, (out l).shape = (out 0).shape := fun l hl =>
        beq_iff_eq.1 (h _ (List.mem_map.2 ⟨l, List.mem_range.2 hl, rfl⟩))
      exact hne ((e i hi).trans (e j hj).symm)
    rw [npStack.eq_def]
    conv_lhs => rw [h1]
    simp only
    rw [← h1, if_neg hall]
  simp only [bind, Except.bind]
  rw [h0] at hA ⊢
  simp only [hA, hS]

/-- **C86 (no elements).**  Mapped axes of length zero: the function is never called; with an
`out_shape` the result is the array without elements, with a zero inserted at `out_axes`; without it the
result is that of `np.empty(None)`. -/
theorem C86_empty (E : Py VOut) (f : List NDArr → Py VOut) (ia : InAxes) (k : ℕ)
    (os : Option (List ℕ)) (args : List NDArr)
    (hlen : (inAxesOf args.length ia).length = args.length)
    (hex : ∃ p ∈ args.zip (inAxesOf args.length ia), p.2 ≠ none)
    (hn : ∀ p ∈ args.zip (inAxesOf args.length ia), ∀ k, p.2 = some k → p.1.shape[k]? = some 0) :
    (os = none → vmap E f ia k os args = E) ∧
    (∀ s, os = some s → k ≤ s.length → ∃ R, vmap E f ia k os args = .ok (.arr R) ∧
      R.shape = s.insertIdx k 0) := by
  rw [vmap_loop E f ia k os args hlen hex hn]
  refine ⟨?_, ?_⟩
  · rintro rfl; rfl
  · rintro s rfl hk
    exact ⟨_, rfl, take_cons_drop hk⟩

/-- **C86 (`left_side`).**  The nested `vmap` of `check_algebra_vs_generators`: for at least one
generator it is the array of all commutators `[X_i, X_j]`, with `i` the first and `j` the second index.
For no generators (the finite groups) it is `np.empty(None)`. -/
theorem C86_left_side (E : Py VOut) {n d : ℕ} (X : Fin n → Matrix (Fin d) (Fin d) ℂ) :
    (n ≠ 0 → ∃ R, leftSide E (ofStack X) = .ok (.arr R) ∧ R.shape = [n, n, d, d] ∧
      ∀ (i j : Fin n) (p q : Fin d), R.get [i, j, p, q] = (X i * X j - X j * X i) p q) ∧
    (n = 0 → leftSide E (ofStack X) = E) := by
  refine ⟨fun hn => ?_, ?_⟩
  · have hn0 : 0 < n := Nat.pos_of_ne_zero hn
    have hmat : ∀ i : Fin n, (NDArr.toMat ⟨(ofStack X).shape.eraseIdx 0,
        fun idx => (ofStack X).get (idx.insertIdx 0 i)⟩ d d) = X i := by
      intro i; ext p q
      simp [NDArr.toMat, ofStack]
    have inner : ∀ j < n, ∃ R, vmap E npCommutator (.tuple [some 0, none]) 0 none
        [ofStack X, ⟨(ofStack X).shape.eraseIdx 0,
          fun idx => (ofStack X).get (idx.insertIdx 0 j)⟩] = .ok (.arr R) ∧ R.shape = [n, d, d] ∧
        ∀ i : Fin n, ∀ hj : j < n, ∀ p q : Fin d,
          R.get [i, p, q] = (X i * X ⟨j, hj⟩ - X ⟨j, hj⟩ * X i) p q := by
      intro j hj
      obtain ⟨R, hR, hRs, hRg⟩ := C86_vmap E npCommutator (.tuple [some 0, none]) 0 none
        [ofStack X, ⟨(ofStack X).shape.eraseIdx 0,
          fun idx => (ofStack X).get (idx.insertIdx 0 j)⟩] hn0 rfl
        ⟨(ofStack X, some 0), by simp [inAxesOf], by simp⟩
        (by
          intro p hp k hk
          simp only [inAxesOf, List.zip_cons_cons, List.zip_nil_right, List.mem_cons,
            List.not_mem_nil, or_false] at hp
          rcases hp with rfl | rfl
          · obtain rfl := Option.some.inj hk; rfl
          · cases hk)
        (fun i => if hi : i < n then ofMat (X ⟨i, hi⟩ * X ⟨j, hj⟩ - X ⟨j, hj⟩ * X ⟨i, hi⟩)
          else ofMat (0 : Matrix (Fin d) (Fin d) ℂ)) [d, d]
        (by intro i hi; simp [hi, ofMat]) (by simp)
        (by
          intro i hi
          have h1 := hmat ⟨i, hi⟩
          have h2 := hmat ⟨j, hj⟩
          simp only [inAxesOf, List.zipWith_cons_cons, List.zipWith_nil_right, npCommutator, hi,
            dif_pos]
          simp only [ofStack, List.eraseIdx_zero, List.tail_cons] at h1 h2 ⊢
          simp only [and_self, if_true, h1, h2])
      refine ⟨R, hR, hRs, fun i hj p q => ?_⟩
      have := hRg i i.2 [p, q] rfl
      simpa [ofMat] using this
    have : Nonempty NDArr := ⟨ofStack X⟩
    choose! out hout hs hg using inner
    obtain ⟨R, hR, hRs, hRg⟩ := C86_vmap E
      (fun args => vmap E npCommutator (.tuple [some 0, none]) 0 none args)
      (.tuple [none, some 0]) 1 none [ofStack X, ofStack X] hn0 rfl
      ⟨(ofStack X, some 0), by simp [inAxesOf], by simp⟩
      (by
        intro p hp k hk
        simp only [inAxesOf, List.zip_cons_cons, List.zip_nil_right, List.mem_cons,
          List.not_mem_nil, or_false] at hp
        rcases hp with rfl | rfl
        · cases hk
        · obtain rfl := Option.some.inj hk; rfl)
      out [n, d, d] hs (by simp) (fun i hi => hout i hi)
    refine ⟨R, hR, hRs, fun i j p q => ?_⟩
    have := hRg j j.2 [i, p, q] rfl
    rw [hg j j.2 i j.2 p q] at this
    exact this
  · rintro rfl
    exact (C86_empty E _ (.tuple [none, some 0]) 1 none [ofStack X, ofStack X] rfl
      ⟨(ofStack X, some 0), by simp [inAxesOf], by simp⟩ (by
        intro p hp k hk
        simp only [inAxesOf, List.zip_cons_cons, List.zip_nil_right, List.mem_cons,
          List.not_mem_nil, or_false] at hp
        rcases hp with rfl | rfl
        · cases hk
        · obtain rfl := Option.some.inj hk; rfl)).1 rfl

/-- `kron_add` (`/repo/lie_nn/_src/irreps/sl2c.py` lines 67-68) on arrays. -/
noncomputable def npKronAdd (m p : ℕ) : List NDArr → Py VOut
  | [a, b] => .ok (.arr (ofMat (SL2C.kronAddC (a.toMat m m) (b.toMat p p))))
  | _ => .error .typeError

/-- **C86 (`SL2C`).**  `vmap(kron_add)(Xl, Xk)` is the stack of the `kron_add` of corresponding
generators, as the model of `SL2C.continuous_generators` has it. -/
theorem C86_kron_add (E : Py VOut) {m p : ℕ} (Xl : Fin 3 → Matrix (Fin m) (Fin m) ℂ)
    (Xk : Fin 3 → Matrix (Fin p) (Fin p) ℂ) :
    ∃ R, vmap E (npKronAdd m p) (.int 0) 0 none [ofStack Xl, ofStack Xk] = .ok (.arr R) ∧
      R.shape = [3, m * p, m * p] ∧
      ∀ (i : Fin 3) (a b : Fin (m * p)), R.get [i, a, b] = SL2C.kronAddC (Xl i) (Xk i) a b := by
  have hmat : ∀ {d : ℕ} (X : Fin 3 → Matrix (Fin d) (Fin d) ℂ) (i : Fin 3),
      (NDArr.toMat ⟨(ofStack X).shape.eraseIdx 0,
        fun idx => (ofStack X).get (idx.insertIdx 0 i)⟩ d d) = X i := by
    intro d X i; ext p q
    simp [NDArr.toMat, ofStack]
  obtain ⟨R, hR, hRs, hRg⟩ := C86_vmap E (npKronAdd m p) (.int 0) 0 none
    [ofStack Xl, ofStack Xk] (n := 3) (by norm_num) rfl
    ⟨(ofStack Xl, some 0), by simp [inAxesOf], by simp⟩
    (by
      intro p hp k hk
      simp only [inAxesOf, List.length_cons, List.length_nil, List.replicate_succ,
        List.replicate_zero, List.zip_cons_cons, List.zip_nil_right, List.mem_cons,
        List.not_mem_nil, or_false] at hp
      rcases hp with rfl | rfl <;> (obtain rfl := Option.some.inj hk; rfl))
    (fun i => if hi : i < 3 then ofMat (SL2C.kronAddC (Xl ⟨i, hi⟩) (Xk ⟨i, hi⟩))
      else ofMat (0 : Matrix (Fin (m * p)) (Fin (m * p)) ℂ)) [m * p, m * p]
    (by intro i hi; simp [hi, ofMat]) (by simp)
    (by
      intro i hi
      have h1 := hmat Xl ⟨i, hi⟩
      have h2 := hmat Xk ⟨i, hi⟩
      simp only [inAxesOf, List.length_cons, List.length_nil, List.replicate_succ,
        List.replicate_zero, List.zipWith_cons_cons, List.zipWith_nil_right, npKronAdd, hi, dif_pos]
      rw [h1, h2])
  refine ⟨R, hR, hRs, fun i a b => ?_⟩
  have := hRg i i.2 [a, b] rfl
  simpa [ofMat] using this

/-- A concrete case: `vmap(f, (0, None), 1)` on a `2 × 3` array and a `3`-array, with `f` the sum. -/
example : ∃ R, vmap (.error .typeError)
    (fun
      | [a, b] => .ok (.arr ⟨[3], fun idx => a.get idx + b.get idx⟩)
      | _ => .error .typeError)
    (.tuple [some 0, none]) 1 none
    [⟨[2, 3], fun idx => 10 * (idx.getD 0 0 : ℂ) + idx.getD 1 0⟩, ⟨[3], fun idx => idx.getD 0 0⟩] =
      .ok (.arr R) ∧ R.shape = [3, 2] ∧ R.get [2, 1] = 14 := by
  obtain ⟨R, h1, h2, h3⟩ := C86_vmap (.error .typeError)
    (fun
      | [a, b] => .ok (.arr ⟨[3], fun idx => a.get idx + b.get idx⟩)
      | _ => .error .typeError)
    (.tuple [some 0, none]) 1 none
    [⟨[2, 3], fun idx => 10 * (idx.getD 0 0 : ℂ) + idx.getD 1 0⟩, ⟨[3], fun idx => idx.getD 0 0⟩]
    (n := 2) (by norm_num) rfl
    ⟨(⟨[2, 3], fun idx => 10 * (idx.getD 0 0 : ℂ) + idx.getD 1 0⟩, some 0), by simp [inAxesOf],
      by simp⟩
    (by
      intro p hp k hk
      simp only [inAxesOf, List.zip_cons_cons, List.zip_nil_right, List.mem_cons,
        List.not_mem_nil, or_false] at hp
      rcases hp with rfl | rfl
      · obtain rfl := Option.some.inj hk; rfl
      · cases hk)
    (fun i => ⟨[3], fun idx => 10 * ((idx.insertIdx 0 i).getD 0 0 : ℂ) +
      (idx.insertIdx 0 i).getD 1 0 + idx.getD 0 0⟩) [3] (fun _ _ => rfl) (by simp)
    (fun i _ => rfl)
  refine ⟨R, h1, h2, ?_⟩
  have := h3 1 (by norm_num) [2] rfl
  rw [show ([2] : List ℕ).insertIdx 1 1 = [2, 1] from rfl] at this
  rw [this]
  simp
  norm_num

/-- Different lengths, an axis out of range, and a wrong number of axes. -/
example (f : List NDArr → Py VOut) :
    vmap (.error .typeError) f (.int 0) 0 none [⟨[2, 3], fun _ => 0⟩, ⟨[3], fun _ => 0⟩] =
      .error .assertionError ∧
    vmap (.error .typeError) f (.int 1) 0 none [⟨[2, 3], fun _ => 0⟩, ⟨[3], fun _ => 0⟩] =
      .error .indexError ∧
    vmap (.error .typeError) f (.tuple [some 0]) 0 none
      [⟨[2, 3], fun _ => 0⟩, ⟨[3], fun _ => 0⟩] = .error .assertionError := by
  refine ⟨?_, ?_, ?_⟩
  · refine ((((C86_errors _ f (.int 0) 0 none _).2 rfl).2 ?_).2.1) ?_
    · intro p hp k hk
      simp only [inAxesOf, List.length_cons, List.length_nil, List.replicate_succ,
        List.replicate_zero, List.zip_cons_cons, List.zip_nil_right, List.mem_cons,
        List.not_mem_nil, or_false] at hp
      rcases hp with rfl | rfl <;> (obtain rfl := Option.some.inj hk; simp)
    · exact ⟨(⟨[2, 3], fun _ => 0⟩, some 0), by simp [inAxesOf],
        (⟨[3], fun _ => 0⟩, some 0), by simp [inAxesOf], 0, 0, rfl, rfl, by simp⟩
  · refine ((C86_errors _ f (.int 1) 0 none _).2 rfl).1 ?_
    exact ⟨(⟨[3], fun _ => 0⟩, some 1), by simp [inAxesOf], 1, rfl, by simp⟩
  · exact (C86_errors _ f (.tuple [some 0]) 0 none _).1 (by simp [inAxesOf])

/-- Two generators: the commutator array has shape `(2, 2, 2, 2)`. -/
example : ∃ R, leftSide (.error .typeError)
    (ofStack ![(!![0, 1; 0, 0] : Matrix (Fin 2) (Fin 2) ℂ), !![0, 0; 1, 0]]) = .ok (.arr R) ∧
    R.shape = [2, 2, 2, 2] ∧ R.get [0, 1, 0, 0] = 1 ∧ R.get [1, 0, 0, 0] = -1 := by
  obtain ⟨R, h, hs, hg⟩ := (C86_left_side (.error .typeError)
    ![(!![0, 1; 0, 0] : Matrix (Fin 2) (Fin 2) ℂ), !![0, 0; 1, 0]]).1 (by norm_num)
  refine ⟨R, h, hs, ?_, ?_⟩
  · have := hg 0 1 0 0
    simpa [Matrix.mul_apply, Fin.sum_univ_two] using this
  · have := hg 1 0 0 0
    simpa [Matrix.mul_apply, Fin.sum_univ_two] using this

end LieNN.Props
