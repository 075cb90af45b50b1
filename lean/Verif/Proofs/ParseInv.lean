import Verif.Proofs.Parse
/-!
# What the text parsers accept
-/
namespace LieNN.Parse

open Spec

theorem not_mem_split {d : Char} (s : Str) : ∀ t ∈ s.splitOn d, d ∉ t := by
  induction s with
  | nil => simp
  | cons c s ih =>
    rw [List.splitOn_cons_eq_if_modifyHead]
    split_ifs with h
    · simpa using ih
    · intro t ht
      obtain ⟨u, l, hl⟩ : ∃ u l, s.splitOn d = u :: l := List.exists_cons_of_ne_nil (List.splitOn_ne_nil _ _)
      rw [hl] at ht ih
      rw [List.modifyHead_cons, List.mem_cons] at ht
      rcases ht with rfl | ht
      · simp only [List.mem_cons, not_or]
        refine ⟨?_, ih u (by simp)⟩
        rintro rfl
        simp at h
      · exact ih t (by simp [ht])

theorem mem_of_split {d c : Char} (s : Str) {t : Str} (ht : t ∈ s.splitOn d) (hc : c ∈ t) : c ∈ s := by
  induction s generalizing t with
  | nil =>
    simp only [List.splitOn_nil, List.mem_singleton] at ht
    rw [ht] at hc
    exact hc
  | cons a s ih =>
    rw [List.splitOn_cons_eq_if_modifyHead] at ht
    split_ifs at ht with h
    · rcases List.mem_cons.1 ht with rfl | ht
      · cases hc
      · exact List.mem_cons_of_mem _ (ih ht hc)
    · obtain ⟨u, l, hl⟩ : ∃ u l, s.splitOn d = u :: l := List.exists_cons_of_ne_nil (List.splitOn_ne_nil _ _)
      rw [hl, List.modifyHead_cons] at ht
      rcases List.mem_cons.1 ht with rfl | ht
      · rcases List.mem_cons.1 hc with rfl | hc
        · simp
        · exact List.mem_cons_of_mem _ (ih (t := u) (by rw [hl]; simp) hc)
      · exact List.mem_cons_of_mem _ (ih (t := t) (by rw [hl]; simp [ht]) hc)

/-- no white space, underscore or minus sign -/
def Plain (s : Str) : Prop := ∀ c ∈ s, isWs c = false ∧ c ≠ '_' ∧ c ≠ '-'

theorem digits_inv (s : Str) (h : '_' ∉ s) {acc n : ℕ} {d : Bool} (hd : digits s acc d = some n) :
    (s ≠ [] ∨ d = true) ∧ (∀ c ∈ s, c.isDigit = true) ∧ Nat.ofDigitChars 10 s acc = n := by
  induction s generalizing acc d with
  | nil =>
    cases d
    · simp [digits] at hd
    · simpa [digits] using hd
  | cons c s ih =>
    rw [digits] at hd
    split_ifs at hd with h1 h2
    · obtain ⟨-, h3, h4⟩ := ih (fun hm => h (by simp [hm])) hd
      refine ⟨Or.inl (by simp), ?_, ?_⟩
      · intro e he
        rcases List.mem_cons.1 he with rfl | he
        · exact h1
        · exact h3 e he
      · rw [Nat.ofDigitChars_cons]
        exact h4
    · exact absurd h2.1.symm fun e => h (List.mem_cons.2 (Or.inl e))

theorem pyInt_inv {s : Str} (h : Plain s) (hp : '+' ∉ s) {j : ℤ} (hj : pyInt s = .ok j) : LabelInt j s := by
  have hh : ∀ d : Char, d ∉ s → s.head? ≠ some d := by
    intro d hd he
    exact hd (List.mem_of_mem_head? he)
  rw [pyInt_eq (fun c hc => (h c hc).1) (hh '-' fun hm => (h _ hm).2.2 rfl) (hh _ hp)] at hj
  cases hd : digits s 0 false with
  | none => rw [hd] at hj; cases hj
  | some n =>
    rw [hd] at hj
    obtain ⟨h1, h2, h3⟩ := digits_inv s (fun hm => (h _ hm).2.1 rfl) hd
    refine ⟨n, by simpa using hj.symm, h1.resolve_right (by simp), h2, h3⟩

/-- What accepted labels look like. -/
def Accepts {α : Type} (ir : Str → Py α) (lab : α → Str → Prop) : Prop :=
  ∀ a s, Plain s → '+' ∉ s → ir s = .ok a → lab a s

theorem so3_accepts : Accepts so3 LabelInt := fun _ _ h hp => pyInt_inv h hp

theorem su2_accepts : Accepts su2 LabelInt := by
  intro a s h hp ha
  unfold su2 at ha
  cases hi : pyInt s with
  | error e => rw [hi] at ha; cases ha
  | ok j =>
    rw [hi] at ha
    simp only [bind, Except.bind, pyAssert] at ha
    split_ifs at ha with h0
    · cases ha
      exact pyInt_inv h hp hi

theorem parity_inv {s : Str} {p : ℤ} (h : parity s = .ok p) : LabelZ2 p s := by
  unfold parity at h
  split_ifs at h with h1 h2
  · exact Or.inl ⟨by simpa using h.symm, h1⟩
  · exact Or.inr ⟨by simpa using h.symm, h2⟩

theorem z2_accepts : Accepts z2 LabelZ2 := by
  intro a s h _ ha
  rw [z2, strip_self fun c hc => (h c hc).1] at ha
  exact parity_inv ha

theorem o3_accepts : Accepts o3 LabelO3 := by
  rintro ⟨l, p⟩ s h hp ha
  unfold o3 at ha
  simp only [strip_self fun c hc => (h c hc).1] at ha
  cases hi : pyInt s.dropLast with
  | error e => rw [hi] at ha; cases ha
  | ok j =>
    rw [hi] at ha
    cases hq : parity (s.drop (s.length - 1)) with
    | error e => rw [hq] at ha; cases ha
    | ok q =>
      rw [hq] at ha
      cases ha
      refine ⟨_, _, pyInt_inv (fun c hc => h c (List.mem_of_mem_dropLast hc))
        (fun hm => hp (List.mem_of_mem_dropLast hm)) hi, parity_inv hq, ?_⟩
      rw [List.dropLast_eq_take, List.take_append_drop]

theorem mul_accepts {α : Type} {ir : Str → Py α} {lab : α → Str → Prop} (h : Accepts ir lab) (t : ℤ × α)
    (s : Str) (hs : Plain s) (hp : '+' ∉ s) (ht : mulIrrep ir s = .ok t) : Term lab t s := by
  unfold mulIrrep at ht
  split_ifs at ht with hx
  · split at ht
    · rename_i u v huv
      have hu : ∀ c ∈ u, c ∈ s := fun c hc => mem_of_split s (d := 'x') (t := u) (by rw [huv]; simp) hc
      have hv : ∀ c ∈ v, c ∈ s := fun c hc => mem_of_split s (d := 'x') (t := v) (by rw [huv]; simp) hc
      cases hi : pyInt u with
      | error e => rw [hi] at ht; cases ht
      | ok j =>
        rw [hi] at ht
        cases hq : ir v with
        | error e => rw [hq] at ht; cases ht
        | ok q =>
          rw [hq] at ht
          cases ht
          refine Or.inr ⟨u, v, pyInt_inv (fun c hc => hs c (hu c hc)) (fun hm => hp (hu _ hm)) hi,
            h _ _ (fun c hc => hs c (hv c hc)) (fun hm => hp (hv _ hm)) hq, ?_⟩
          have := List.intercalate_splitOn (xs := s) 'x'
          rw [← this, huv]
          simp [List.intercalate, List.intersperse]
    · cases ht
  · cases hq : ir s with
    | error e => rw [hq] at ht; cases ht
    | ok q =>
      rw [hq] at ht
      cases ht
      exact Or.inl ⟨rfl, h _ _ hs hp hq⟩

theorem mapM_inv {α β : Type} {f : β → Py α} {m : List β} {l : List α} (h : m.mapM f = .ok l) :
    List.Forall₂ (fun a b => b ∈ m ∧ f b = .ok a) l m := by
  induction m generalizing l with
  | nil =>
    cases h
    exact .nil
  | cons b m ih =>
    rw [List.mapM_cons] at h
    cases hb : f b with
    | error e => rw [hb] at h; cases h
    | ok a =>
      rw [hb] at h
      cases hm : m.mapM f with
      | error e => rw [hm] at h; cases h
      | ok l' =>
        rw [hm] at h
        cases h
        exact .cons ⟨by simp, hb⟩ ((ih hm).imp fun _ _ hx => ⟨by simp [hx.1], hx.2⟩)

theorem reduced_accepts {α : Type} {ir : Str → Py α} {lab : α → Str → Prop} (h : Accepts ir lab)
    {cmp : α → α → Py Unit} {L : List (ℤ × α)} {s : Str} (hs : Plain s)
    (hL : reducedRep ir cmp s = .ok L) : L ≠ [] ∧ SumText lab L s := by
  unfold reducedRep at hL
  cases hm : (s.splitOn '+').mapM (mulIrrep ir) with
  | error e => rw [hm] at hL; cases hL
  | ok l =>
    rw [hm] at hL
    cases hf : fromIrrepsLoop cmp none l with
    | error e =>
      simp only [bind, Except.bind, hf] at hL
      cases hL
    | ok u =>
      simp only [bind, Except.bind, hf] at hL
      cases hL
      have h2 := mapM_inv hm
      refine ⟨?_, s.splitOn '+', h2.imp fun a b hab => ?_, (List.intercalate_splitOn _).symm⟩
      · rintro rfl
        have := h2.length_eq
        exact List.splitOn_ne_nil '+' s (List.length_eq_zero_iff.1 this.symm)
      · exact mul_accepts h a b (fun c hc => hs c (mem_of_split s hab.1 hc)) (not_mem_split s b hab.1) hab.2

end LieNN.Parse
