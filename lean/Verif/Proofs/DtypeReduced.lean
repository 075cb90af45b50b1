import Verif.Proofs.Dtype
/-!
# The dtypes of `MulIrrep` and `ReducedRep`
-/
namespace LieNN.Dt

open Matrix Jax Spec

variable {n h : ℕ} {T : Table n h}

theorem forall₂_of_mapM {α β : Type} {f : α → Py β} : ∀ {l : List α} {L : List β}, l.mapM f = .ok L →
    List.Forall₂ (fun x y => f x = .ok y) l L
  | [], L, hh => by
    simp only [List.mapM_nil, pure, Except.pure, Except.ok.injEq] at hh
    subst hh; exact .nil
  | x :: l, L, hh => by
    rw [List.mapM_cons] at hh
    cases hx : f x with
    | error e => rw [hx] at hh; exact absurd hh (by simp [bind, Except.bind])
    | ok y =>
      cases hl : l.mapM f with
      | error e => rw [hx, hl] at hh; exact absurd hh (by simp [bind, Except.bind])
      | ok L' =>
        rw [hx, hl] at hh
        simp only [bind, Except.bind, pure, Except.pure, Except.ok.injEq] at hh
        subst hh
        exact .cons hx (forall₂_of_mapM hl)

theorem mem_of_mapM {α β : Type} {f : α → Py β} : ∀ {l : List α} {L : List β},
    List.Forall₂ (fun x y => f x = .ok y) l L → ∀ {y : β}, y ∈ L → ∃ x, f x = .ok y
  | [], _, .nil, _, hy => by simp at hy
  | x :: _, _, .cons hx ht, y, hy => by
    rcases List.mem_cons.1 hy with rfl | hy
    · exact ⟨x, hx⟩
    · exact mem_of_mapM ht hy

theorem mapM_of_forall₂' {α β : Type} {f : α → Py β} : ∀ {l : List α} {L : List β},
    List.Forall₂ (fun x y => f x = .ok y) l L → l.mapM f = .ok L
  | [], _, .nil => rfl
  | x :: l, _, .cons hx ht => by
    rw [List.mapM_cons, hx, mapM_of_forall₂' ht]; rfl

/-- All entries of the array are numbers of the dtype. -/
def In (t : Dtype) (M : SMat) : Prop := ∀ i j, M.mat i j ∈ sub t

theorem directSum_type : ∀ {xs : List SMat} {ts : List Dtype} {S : SMat},
    List.Forall₂ (fun t x => In t x) ts xs → directSumMats xs = .ok S →
    ∃ t, directSumType ts = .ok t ∧ In t S
  | [], _, _, _, hS => by simp [directSumMats] at hS
  | [x], [t], S, .cons hx .nil, hS => by
    simp only [directSumMats, Except.ok.injEq] at hS
    subst hS
    exact ⟨t, rfl, hx⟩
  | _ :: _ :: _, _, _, .cons _ (.cons _ _), _ => ⟨.complex, rfl, fun _ _ => trivial⟩

theorem replicate_type {t : Dtype} {x : SMat} (hx : In t x) (k : ℕ) :
    List.Forall₂ (fun t x => In t x) (List.replicate k t) (List.replicate k x) := by
  induction k with
  | zero => exact .nil
  | succ k ih => exact .cons hx ih

theorem genI_type {p : ℕ} (hp : p ≠ 0) {Y : T.Gens p} {ty : T.Ir → Dtype}
    (hY : ∀ ir a i j, Holds (ty ir) (Y ir a i j)) {m : MulIr T} {i : ℕ} {x : SMat} (hx : m.genI Y i = .ok x) :
    ∃ t, mulType p m.mul (ty m.ir) = .ok t ∧ In t x := by
  unfold MulIr.genI at hx
  cases hg : m.gens Y with
  | error e => rw [hg] at hx; exact absurd hx (by simp [bind, Except.bind])
  | ok L =>
    rw [hg] at hx
    simp only [bind, Except.bind, pure, Except.pure] at hx
    cases hi : L[i]? with
    | none => rw [hi] at hx; simp at hx
    | some y =>
      rw [hi] at hx
      simp only [Except.ok.injEq] at hx
      subst hx
      unfold MulIr.gens at hg
      rw [if_neg hp] at hg
      have hmem : y ∈ L := List.mem_of_getElem? hi
      obtain ⟨a, ha⟩ := mem_of_mapM (forall₂_of_mapM hg) hmem
      rw [mulType, if_neg hp]
      exact directSum_type (replicate_type (fun u v => mem_sub.2 (hY m.ir a u v)) m.mul) ha

theorem blocks_type {p : ℕ} (hp : p ≠ 0) {Y : T.Gens p} {ty : T.Ir → Dtype}
    (hY : ∀ ir a i j, Holds (ty ir) (Y ir a i j)) {i : ℕ} : ∀ {l : List (MulIr T)} {xs : List SMat},
    List.Forall₂ (fun m x => m.genI Y i = .ok x) l xs →
    ∃ ts, List.Forall₂ (fun m t => mulType p m.mul (ty m.ir) = .ok t) l ts ∧ List.Forall₂ (fun t x => In t x) ts xs
  | [], _, .nil => ⟨[], .nil, .nil⟩
  | _ :: _, _, .cons hx ht => by
    obtain ⟨t, h1, h2⟩ := genI_type hp hY hx
    obtain ⟨ts, h3, h4⟩ := blocks_type hp hY ht
    exact ⟨t :: ts, .cons h1 h3, .cons h2 h4⟩

theorem mulP_type {a b : Dtype} {A B C : SMat} (hA : In a A) (hB : In b B) (hC : A.mulP B = .ok C) :
    In (promote a b) C := by
  unfold SMat.mulP at hC
  split_ifs at hC with hh
  simp only [Except.ok.injEq] at hC
  subst hC
  exact fun i j => mul_mem_mat hA (fun i j => hB _ _) i j

theorem invP_type {a : Dtype} {A C : SMat} (hA : In a A) (hC : A.invP = .ok C) : In (invType a) C := by
  unfold SMat.invP at hC
  split_ifs at hC with hh hu
  simp only [Except.ok.injEq] at hC
  subst hC
  exact fun i j => inv_mem hu (fun i j => hA _ _) i j

theorem genAt_type {p : ℕ} (hp : p ≠ 0) {Y : T.Gens p} {ty : T.Ir → Dtype}
    (hY : ∀ ir a i j, Holds (ty ir) (Y ir a i j))
    {r : ReducedRep T} {tQ : Option Dtype} (hQ : QTyped r.Q tQ) {i : ℕ} {M : SMat}
    (hM : r.genAt Y i = .ok M) :
    ∃ t, blockType p ty r.irreps tQ = .ok t ∧ In t M := by
  obtain ⟨A, irreps, Q⟩ := r
  unfold ReducedRep.genAt ReducedRep.sumAt at hM
  simp only at hM hQ ⊢
  cases hxs : irreps.mapM fun m => m.genI Y i with
  | error e => rw [hxs] at hM; exact absurd hM (by simp [bind, Except.bind])
  | ok xs =>
  cases hS : directSumMats xs with
  | error e =>
    rw [hxs] at hM
    simp only [bind, Except.bind, hS] at hM
    exact absurd hM (by simp)
  | ok S =>
  rw [hxs] at hM
  simp only [bind, Except.bind, hS] at hM
  obtain ⟨ts, h1, h2⟩ := blocks_type hp hY (forall₂_of_mapM hxs)
  obtain ⟨t, h3, h4⟩ := directSum_type h2 hS
  have e : ∀ tQ, blockType p ty irreps tQ = .ok (match tQ with
      | none => t
      | some q => promote (promote q t) (invType q)) := by
    intro tQ
    unfold blockType
    rw [mapM_of_forall₂' h1]
    simp only [bind, Except.bind, h3]
    cases tQ <;> rfl
  rw [e tQ]
  refine ⟨_, rfl, ?_⟩
  match Q, tQ, hQ, hM with
  | none, none, _, hM =>
    simp only [pure, Except.pure, Except.ok.injEq] at hM
    subst hM; exact h4
  | some Q, some q, hQ, hM =>
    simp only at hM ⊢
    cases hA : Q.mulP S with
    | error e => rw [hA] at hM; exact absurd hM (by simp)
    | ok B =>
    cases hI : Q.invP with
    | error e => rw [hA, hI] at hM; exact absurd hM (by simp)
    | ok I =>
    rw [hA, hI] at hM
    have hQ' : In q Q := fun i j => mem_sub.2 (hQ i j)
    exact mulP_type (mulP_type hQ' h4 hA) (invP_type hQ' hI) hM

end LieNN.Dt
