import Verif.Proofs.ParseInv
import Verif.Proofs.SUNGT
import Verif.Proofs.BasisProduct
/-!
# C58: textual irreps
-/
namespace LieNN.Props

open Spec Parse

/-- The usual numeral of `n` is a numeral of `n`. -/
theorem C58_numeral (n : ℕ) : Numeral n (num n) :=
  ⟨Nat.toDigits_ne_nil, fun _ hc => Nat.isDigit_of_mem_toDigits (by decide) (by decide) hc,
    Nat.ofDigitChars_ten_toDigits⟩

/-- C58: a sum of terms with `SU2` labels is read as it is written. -/
theorem C58_su2 {L : List (ℤ × ℤ)} (hL : L ≠ []) {s : List Char} (h : SumText LabelInt L s) :
    reducedRep su2 sameAlg s = .ok L :=
  reduced_reads su2_reads hL (fun _ _ _ _ => rfl) h

/-- C58 for `SO3`. -/
theorem C58_so3 {L : List (ℤ × ℤ)} (hL : L ≠ []) {s : List Char} (h : SumText LabelInt L s) :
    reducedRep so3 sameAlg s = .ok L :=
  reduced_reads so3_reads hL (fun _ _ _ _ => rfl) h

/-- C58 for `Z2`. -/
theorem C58_z2 {L : List (ℤ × ℤ)} (hL : L ≠ []) {s : List Char} (h : SumText LabelZ2 L s) :
    reducedRep z2 sameAlg s = .ok L :=
  reduced_reads z2_reads hL (fun _ _ _ _ => rfl) h

/-- C58 for `O3`. -/
theorem C58_o3 {L : List (ℤ × ℤ × ℤ)} (hL : L ≠ []) {s : List Char} (h : SumText LabelO3 L s) :
    reducedRep o3 sameAlg s = .ok L :=
  reduced_reads o3_reads hL (fun _ _ _ _ => rfl) h

/-- C58 for `SL2C` (and `SO13`, whose parser is the same). -/
theorem C58_sl2c {L : List (ℤ × ℤ × ℤ)} (hL : L ≠ []) {s : List Char} (h : SumText LabelPair L s) :
    reducedRep sl2c sameAlg s = .ok L :=
  reduced_reads sl2c_reads hL (fun _ _ _ _ => rfl) h

/-- C58 for `SUN`, all labels of the same length. -/
theorem C58_sun {L : List (ℤ × List ℤ)} (hL : L ≠ []) {N : ℕ} (hN : ∀ t ∈ L, t.2.length = N)
    {s : List Char} (h : SumText LabelSUN L s) : reducedRep sun sunAlg s = .ok L :=
  reduced_reads sun_reads hL (fun t ht u hu => by simp [sunAlg, hN t ht, hN u hu]) h

/-- C58 (round trip): what is printed with the usual numerals is read back, here for `SO3`. -/
theorem C58_print {L : List (ℕ × ℕ)} (hL : L ≠ []) :
    reducedRep so3 sameAlg (['+'].intercalate (L.map fun t => num t.1 ++ 'x' :: num t.2)) =
      .ok (L.map fun t => ((t.1 : ℤ), (t.2 : ℤ))) := by
  refine C58_so3 (by simpa using hL) ⟨_, ?_, rfl⟩
  clear hL
  induction L with
  | nil => exact .nil
  | cons t L ih =>
    exact .cons (Or.inr ⟨_, _, ⟨_, rfl, C58_numeral _⟩, ⟨_, rfl, C58_numeral _⟩, rfl⟩) ih

/-- C58 (nothing else): when the text has no white space, underscore or minus sign, what `SU2` accepts is a
sum of terms, and the result is what the text says. -/
theorem C58_su2_only {L : List (ℤ × ℤ)} {s : List Char}
    (hs : ∀ c ∈ s, isWs c = false ∧ c ≠ '_' ∧ c ≠ '-') (h : reducedRep su2 sameAlg s = .ok L) :
    L ≠ [] ∧ SumText LabelInt L s :=
  reduced_accepts su2_accepts hs h

/-- C58 (nothing else) for `SO3`. -/
theorem C58_so3_only {L : List (ℤ × ℤ)} {s : List Char}
    (hs : ∀ c ∈ s, isWs c = false ∧ c ≠ '_' ∧ c ≠ '-') (h : reducedRep so3 sameAlg s = .ok L) :
    L ≠ [] ∧ SumText LabelInt L s :=
  reduced_accepts so3_accepts hs h

/-- C58 (nothing else) for `Z2`. -/
theorem C58_z2_only {L : List (ℤ × ℤ)} {s : List Char}
    (hs : ∀ c ∈ s, isWs c = false ∧ c ≠ '_' ∧ c ≠ '-') (h : reducedRep z2 sameAlg s = .ok L) :
    L ≠ [] ∧ SumText LabelZ2 L s :=
  reduced_accepts z2_accepts hs h

/-- C58 (nothing else) for `O3`. -/
theorem C58_o3_only {L : List (ℤ × ℤ × ℤ)} {s : List Char}
    (hs : ∀ c ∈ s, isWs c = false ∧ c ≠ '_' ∧ c ≠ '-') (h : reducedRep o3 sameAlg s = .ok L) :
    L ≠ [] ∧ SumText LabelO3 L s :=
  reduced_accepts o3_accepts hs h

/-- C58 (the converse fails for `SL2C`): a label is read even when anything that does not end in white
space follows the closing parenthesis. -/
theorem C58_sl2c_trailing {x : ℤ × ℤ} {s : List Char} (h : LabelPair x s) (z : List Char)
    (hz : z.getLast?.all (fun c => !isWs c)) : sl2c (s ++ z) = .ok x := by
  obtain ⟨c1, c2, c3⟩ := chars_ok (pair_chars h)
  obtain ⟨a, b, ha, hb, rfl⟩ := h
  have e : '(' :: (a ++ ',' :: b) ++ [')'] ++ z = '(' :: (a ++ ',' :: b) ++ ')' :: z := by simp
  rw [e]
  refine sl2c_aux x ha hb z ?_
  rw [← e]
  have h1 : ('(' :: (a ++ ',' :: b) ++ [')'] ++ z).dropWhile isWs = '(' :: (a ++ ',' :: b) ++ [')'] ++ z := by
    simp only [List.cons_append]
    rw [List.dropWhile_cons_of_neg (by decide)]
  rw [strip, h1]
  obtain rfl | ⟨z', c, rfl⟩ := List.eq_nil_or_concat z
  · rw [List.append_nil, dropWhile_self (fun c hc => c3 c (List.mem_reverse.1 hc)), List.reverse_reverse]
  · rw [List.concat_eq_append, List.getLast?_concat] at hz
    rw [List.concat_eq_append, ← List.append_assoc, List.reverse_append, List.reverse_singleton,
      List.singleton_append, List.dropWhile_cons_of_neg (by simpa using hz), List.reverse_cons,
      List.reverse_reverse]

/-- C58 (the converse fails for `SUN`): a label is read whatever follows the closing parenthesis. -/
theorem C58_sun_trailing {S : List ℤ} {s : List Char} (h : LabelSUN S s) (z : List Char) :
    sun (s ++ z) = .ok S := by
  obtain ⟨h1, hl, ts, hts, rfl⟩ := h
  have e : '(' :: ([','].intercalate ts) ++ [')'] ++ z = '(' :: ([','].intercalate ts) ++ ')' :: z := by simp
  rw [e]
  exact sun_aux h1 hl hts z

/-- C58 (`SUN`, the label is checked): whatever the text, a label that is returned is not empty, does not
increase and ends in zero. -/
theorem C58_sun_valid {S : List ℤ} {s : List Char} (h : sun s = .ok S) :
    S.Pairwise (· ≥ ·) ∧ S.getLast? = some 0 := by
  rw [sun] at h
  split at h
  · cases h
  · rename_i g _
    obtain ⟨S', _, h⟩ := IArr.bind_ok_inv h
    obtain ⟨_, h1, h⟩ := IArr.bind_ok_inv h
    obtain ⟨_, h2, h⟩ := IArr.bind_ok_inv h
    cases h
    rw [pyAssert] at h1 h2
    split at h1
    · rename_i hv
      split at h2
      · rename_i hl
        exact ⟨((SUN.isWeight_iff S).1 hv).2, hl⟩
      · cases h2
    · cases h1

/-- C58 (`SUN`): numerals that increase somewhere, or that do not end in zero, raise `AssertionError`. -/
theorem C58_sun_invalid {S : List ℤ} {ts : List (List Char)} (hne : S ≠ [])
    (hts : List.Forall₂ LabelInt S ts) (h : ¬ (S.Pairwise (· ≥ ·) ∧ S.getLast? = some 0)) :
    sun ('(' :: ([','].intercalate ts) ++ [')']) = .error .assertionError := by
  have hne' : ts ≠ [] := by
    rintro rfl
    cases hts
    exact hne rfl
  have hr := reTuple_eq ts hne' (fun t ht => by
    obtain ⟨j, -, hj⟩ := forall₂_right hts t ht
    exact (pyInt_label hj).2.2) []
  rw [sun, hr.1]
  simp only [hr.2.1]
  rw [mapM_of_forall₂ (f := pyInt) (fun a b h => (pyInt_label h).1) hts]
  simp only [bind, Except.bind, pyAssert]
  by_cases h1 : SUN.isValidS S
  · have h2 : S.getLast? ≠ some 0 := fun hl => h ⟨((SUN.isWeight_iff S).1 h1).2, hl⟩
    simp [h1, h2]
  · simp [h1]

/-- The text `(2,1)` in the scope of `C58_sun_invalid`. -/
example : sun "(2,1)".toList = .error .assertionError :=
  C58_sun_invalid (S := [2, 1]) (ts := ["2".toList, "1".toList]) (by simp)
    (.cons ⟨2, rfl, by decide, by decide, by decide⟩ (.cons ⟨1, rfl, by decide, by decide, by decide⟩ .nil))
    (by decide)

/-- C58 (`repr` is not read): the text `f"{mul}x{rep}"` of a `MulIrrep` of `SO3`, whose label is printed
`SO3(l=...)`, raises `ValueError`. -/
theorem C58_repr_not_read (m l : ℕ) :
    mulIrrep so3 (num m ++ "xSO3(l=".toList ++ num l ++ ")".toList) = .error .valueError := by
  have hm := (C58_numeral m)
  have hl := (C58_numeral l)
  have e : num m ++ "xSO3(l=".toList ++ num l ++ ")".toList =
      num m ++ 'x' :: ("SO3(l=".toList ++ num l ++ ")".toList) := by simp
  have hx : 'x' ∉ "SO3(l=".toList ++ num l ++ ")".toList := by
    simp [not_mem_digits hl.2.1 (d := 'x') (by decide)]
  have hsp : (num m ++ 'x' :: ("SO3(l=".toList ++ num l ++ ")".toList)).splitOn 'x' =
      [num m, "SO3(l=".toList ++ num l ++ ")".toList] := by
    rw [List.splitOn_append_cons_self_of_not_mem (not_mem_digits hm.2.1 (by decide)),
      List.splitOn_eq_singleton hx]
  rw [e, mulIrrep, if_pos (by simp), hsp]
  simp only
  rw [pyInt_numeral hm, so3, pyInt_eq]
  · simp [digits, bind, Except.bind]
  · intro c hc
    simp only [List.mem_append] at hc
    rcases hc with (hc | hc) | hc
    · revert c; decide
    · exact not_ws_of_digit (hl.2.1 c hc)
    · revert c; decide
  · simp
  · simp

/-- C58 (errors): a term with two `x` is a `ValueError`, and the empty text is refused. -/
theorem C58_errors {α : Type} (ir : List Char → Py α) (a b c : List Char) (ha : 'x' ∉ a) (hb : 'x' ∉ b) :
    mulIrrep ir (a ++ 'x' :: (b ++ 'x' :: c)) = .error .valueError ∧
      reducedRep su2 sameAlg [] = .error .valueError ∧ reducedRep so3 sameAlg [] = .error .valueError ∧
      reducedRep o3 sameAlg [] = .error .valueError ∧ reducedRep z2 sameAlg [] = .error .keyError ∧
      reducedRep sl2c sameAlg [] = .error .assertionError ∧
      reducedRep sun sunAlg [] = .error .attributeError := by
  refine ⟨?_, rfl, rfl, rfl, rfl, rfl, rfl⟩
  rw [mulIrrep, if_pos (by simp), List.splitOn_append_cons_self_of_not_mem ha,
    List.splitOn_append_cons_self_of_not_mem hb]
  obtain ⟨u, l, hl⟩ : ∃ u l, c.splitOn 'x' = u :: l := List.exists_cons_of_ne_nil (List.splitOn_ne_nil _ _)
  rw [hl]

/-- C58 (`SO3` does not check its label): `-l` is read as a label, which `SU2` refuses for `l > 0`. -/
theorem C58_so3_negative (l : ℕ) (hl : 0 < l) :
    so3 ('-' :: num l) = .ok (-(l : ℤ)) ∧ su2 ('-' :: num l) = .error .assertionError := by
  have h := C58_numeral l
  have e : pyInt ('-' :: num l) = .ok (-(l : ℤ)) := by
    rw [pyInt, strip_self]
    · simp only
      rw [digits_eq _ h.2.1 0 false (Or.inl h.1), h.2.2]
    · intro c hc
      rcases List.mem_cons.1 hc with rfl | hc
      · decide
      · exact not_ws_of_digit (h.2.1 c hc)
  refine ⟨e, ?_⟩
  rw [su2, e]
  simp [bind, Except.bind, pyAssert, hl.ne']

example : SumText LabelInt [(2, 1), (1, 12), (0, 3)] "2x1+12+00x3".toList := by
  refine ⟨["2x1".toList, "12".toList, "00x3".toList], ?_, by decide⟩
  refine .cons (Or.inr ⟨['2'], ['1'], ⟨2, rfl, by simp, by decide, by decide⟩,
    ⟨1, rfl, by simp, by decide, by decide⟩, rfl⟩) (.cons (Or.inl ⟨rfl, 12, rfl, by simp, by decide, by decide⟩)
    (.cons (Or.inr ⟨['0', '0'], ['3'], ⟨0, rfl, by simp, by decide, by decide⟩,
    ⟨3, rfl, by simp, by decide, by decide⟩, rfl⟩) .nil))

example : LabelSUN [2, 1, 0] "(2,1,0)".toList :=
  ⟨by decide, rfl, [['2'], ['1'], ['0']], .cons ⟨2, rfl, by simp, by decide, by decide⟩
    (.cons ⟨1, rfl, by simp, by decide, by decide⟩ (.cons ⟨0, rfl, by simp, by decide, by decide⟩ .nil)), by
    decide⟩

example : LabelPair (1, 0) "(1,0)".toList :=
  ⟨['1'], ['0'], ⟨1, rfl, by simp, by decide, by decide⟩, ⟨0, rfl, by simp, by decide, by decide⟩, rfl⟩

example : LabelO3 (1, -1) "1o".toList :=
  ⟨['1'], ['o'], ⟨1, rfl, by simp, by decide, by decide⟩, Or.inr ⟨rfl, rfl⟩, rfl⟩

example : pyInt " -1_0\n".toList = .ok (-10) := by decide
example : sl2c " (1,0)(2,1)".toList = .ok (1, 0) := by
  have h := C58_sl2c_trailing (x := (1, 0)) (s := "(1,0)".toList)
    ⟨['1'], ['0'], ⟨1, rfl, by simp, by decide, by decide⟩, ⟨0, rfl, by simp, by decide, by decide⟩, rfl⟩
    "(2,1)".toList (by decide)
  have e : strip " (1,0)(2,1)".toList = strip ("(1,0)".toList ++ "(2,1)".toList) := by decide
  rw [sl2c] at h ⊢
  rw [e]
  exact h

end LieNN.Props
