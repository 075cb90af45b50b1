import Verif.Proofs.ReducedRed
import Verif.Proofs.RepPower
import Verif.Spec.TensorPower
/-!
# Lemmas on `tensor_power` of irreps
-/
namespace LieNN

open Matrix Spec

variable {n h : ℕ} {T : Table n h}

namespace IrRep

/-- The object as a `ReducedRep`. -/
def asRed : IrRep T → ReducedRep T
  | tab i => MulIr.toReduced ⟨1, i⟩
  | mul m => m.toReduced
  | red r => r

theorem blocksOf_asRed (x : IrRep T) :
    blocksOf x = x.asRed.irreps.map fun m => (m.mul, m.ir) := by
  cases x <;> rfl

/-! ## Sums over the blocks -/

section total

variable {M : Type*} [CommSemiring M]

def tot (f : T.Ir → M) (l : List (MulIr T)) : M := (l.map fun m => (m.mul : M) * f m.ir).sum

theorem total_eq (x : IrRep T) (f : T.Ir → M) : total x f = tot f x.asRed.irreps := by
  unfold total tot
  rw [blocksOf_asRed, List.map_map]
  rfl

theorem tot_append (f : T.Ir → M) (l l' : List (MulIr T)) :
    tot f (l ++ l') = tot f l + tot f l' := by
  unfold tot
  rw [List.map_append, List.sum_append]

theorem tot_cons (f : T.Ir → M) (m : MulIr T) (l : List (MulIr T)) :
    tot f (m :: l) = m.mul * f m.ir + tot f l := by
  unfold tot
  rw [List.map_cons, List.sum_cons]

/-- `f` is multiplicative for the products of the table. -/
def Mult (T : Table n h) (f : T.Ir → M) : Prop :=
  ∀ i j, f i * f j = ((T.prod i j).map fun k => ((T.cg i j k).length : M) * f k).sum

theorem tot_cgBlocks {f : T.Ir → M} (hf : Mult T f) (i j : T.Ir) :
    tot f (cgBlocks i j (T.prod i j)) = f i * f j := by
  rw [hf]
  unfold tot cgBlocks
  rw [List.map_map]
  rfl

theorem tot_scale (f : T.Ir → M) (a b : ℕ) (l : List (MulIr T)) :
    tot f (l.map (MulIr.scale a b)) = a * b * tot f l := by
  induction l with
  | nil => simp [tot]
  | cons m l ih =>
    rw [List.map_cons, tot_cons, tot_cons, ih]
    push_cast
    ring

theorem tot_tpMul {f : T.Ir → M} (hf : Mult T f) {a b : MulIr T} {r : ReducedRep T}
    (hr : tpMul a b = .ok r) : tot f r.irreps = (a.mul * f a.ir) * (b.mul * f b.ir) := by
  obtain ⟨-, hirr, -⟩ := tpMul_ok hr
  rw [hirr, tot_scale, tot_cgBlocks hf]
  ring

theorem tot_tpInner {f : T.Ir → M} (hf : Mult T f) {a : MulIr T} {l : List (MulIr T)}
    {out : List (MulIr T)} {c : ℕ} {Q : Matrix (Fin (a.dim * dimL l)) (Fin c) ℂ}
    (hr : tpInner a l = .ok (out, ⟨c, Q⟩)) : tot f out = (a.mul * f a.ir) * tot f l := by
  induction l generalizing out c with
  | nil =>
    change Except.ok _ = _ at hr
    simp only [Except.ok.injEq, Prod.mk.injEq] at hr
    obtain ⟨rfl, -⟩ := hr
    simp [tot]
  | cons b l ih =>
    rw [tpInner] at hr
    obtain ⟨r, hrr, hr⟩ := bind_ok hr
    obtain ⟨-, hirr, hne, q, hQ, -, -⟩ := tpMul_ok hrr
    rw [hQ] at hr
    obtain ⟨q', -, hr⟩ := bind_ok hr
    obtain ⟨⟨out', c', M'⟩, hi, hr⟩ := bind_ok hr
    change Except.ok _ = _ at hr
    simp only [Except.ok.injEq, Prod.mk.injEq] at hr
    rw [← hr.1, tot_append, tot_tpMul hf hrr, ih hi, tot_cons]
    ring

theorem tot_tpOuter {f : T.Ir → M} (hf : Mult T f) {l₂ l : List (MulIr T)}
    {out : List (MulIr T)} {c : ℕ} {Q : Matrix (Fin (dimL l * dimL l₂)) (Fin c) ℂ}
    (hr : tpOuter l₂ l = .ok (out, ⟨c, Q⟩)) : tot f out = tot f l * tot f l₂ := by
  induction l generalizing out c with
  | nil =>
    change Except.ok _ = _ at hr
    simp only [Except.ok.injEq, Prod.mk.injEq] at hr
    obtain ⟨rfl, -⟩ := hr
    simp [tot]
  | cons a l ih =>
    rw [tpOuter] at hr
    obtain ⟨⟨out₁, c₁, M₁⟩, h₁, hr⟩ := bind_ok hr
    obtain ⟨⟨out₂, c₂, M₂⟩, h₂, hr⟩ := bind_ok hr
    change Except.ok _ = _ at hr
    simp only [Except.ok.injEq, Prod.mk.injEq] at hr
    rw [← hr.1, tot_append, tot_tpInner hf h₁, ih h₂, tot_cons]
    ring

theorem tpRed_blocks {r₁ r₂ r : ReducedRep T} (hr : tpRed r₁ r₂ = .ok r) :
    ∃ c, ∃ Q : Matrix (Fin (dimL r₁.irreps * dimL r₂.irreps)) (Fin c) ℂ,
      tpOuter r₂.irreps r₁.irreps = .ok (r.irreps, ⟨c, Q⟩) := by
  unfold tpRed at hr
  obtain ⟨⟨out, Q⟩, hraw, hr⟩ := bind_ok hr
  change Except.ok _ = _ at hr
  simp only [Except.ok.injEq] at hr
  subst hr
  unfold tpRedRaw at hraw
  obtain ⟨_, _, hraw⟩ := bind_ok hraw
  obtain ⟨_, _, hraw⟩ := bind_ok hraw
  obtain ⟨⟨out', c, M⟩, ho, hraw⟩ := bind_ok hraw
  by_cases hc : r₁.dim * r₂.dim = c
  · simp only [dif_pos hc] at hraw
    change Except.ok _ = _ at hraw
    simp only [Except.ok.injEq, Prod.mk.injEq] at hraw
    exact ⟨c, M, hraw.1 ▸ ho⟩
  · simp only [dif_neg hc] at hraw
    exact absurd hraw (by simp)

theorem tot_tpRed {f : T.Ir → M} (hf : Mult T f) {r₁ r₂ r : ReducedRep T}
    (hr : tpRed r₁ r₂ = .ok r) : tot f r.irreps = tot f r₁.irreps * tot f r₂.irreps := by
  obtain ⟨c, Q, ho⟩ := tpRed_blocks hr
  exact tot_tpOuter hf ho

theorem tot_single (f : T.Ir → M) (m : MulIr T) : tot f [m] = m.mul * f m.ir := by simp [tot]

theorem tot_tp {f : T.Ir → M} (hf : Mult T f) {x y : IrRep T} {r : ReducedRep T}
    (hr : tensorProduct x y = .ok r) : tot f r.irreps = total x f * total y f := by
  rw [total_eq, total_eq]
  have e1 (i : T.Ir) : tot f (asRed (tab i)).irreps = f i := by
    change tot f [⟨1, i⟩] = _
    simp [tot_single]
  have e2 (m : MulIr T) : tot f (asRed (mul m)).irreps = m.mul * f m.ir := tot_single f m
  cases x <;> cases y
  · rename_i i j
    obtain ⟨-, hirr, -⟩ := tpTab_ok hr
    rw [hirr, tot_cgBlocks hf, e1, e1]
  · rw [tot_tpMul hf hr, e1, e2]; simp
  · exact tot_tpRed hf hr
  · rw [tot_tpMul hf hr, e1, e2]; simp
  · rw [tot_tpMul hf hr, e2, e2]
  · exact tot_tpRed hf hr
  · exact (tot_tpRed hf hr).trans (mul_comm _ _)
  · exact (tot_tpRed hf hr).trans (mul_comm _ _)
  · exact tot_tpRed hf hr

end total

/-! ## Termination without exception -/

theorem shaped_q {x : IrRep T} (hx : Shaped x) : ∃ q, x.asRed.q = .ok q := by
  cases x with
  | tab i => exact ⟨1, rfl⟩
  | mul m => exact ⟨1, rfl⟩
  | red r =>
    show ∃ q, r.q = .ok q
    unfold ReducedRep.q
    have hQ := hx.2
    cases h : r.Q with
    | none => exact ⟨1, rfl⟩
    | some Q =>
      have := hQ Q (by rw [h]; rfl)
      simp only [SMat.view]
      rw [dif_pos this]
      exact ⟨_, rfl⟩

theorem shaped_tpMul {a b : MulIr T} {r : ReducedRep T} (hr : tpMul a b = .ok r) :
    Shaped (red r) := by
  obtain ⟨-, hirr, hne, q, hQ, hq, -⟩ := tpMul_ok hr
  refine ⟨by rw [hirr]; simpa [cgBlocks] using hne, fun Q hQ' => ?_⟩
  rw [hQ] at hQ'
  obtain rfl := Option.some.inj hQ'
  exact ⟨hq.dim_eq, rfl⟩

theorem shaped_tpTab {i j : T.Ir} {r : ReducedRep T} (hr : tpTab i j = .ok r) :
    Shaped (red r) := by
  obtain ⟨-, hirr, hne, q, hQ, hq, -⟩ := tpTab_ok hr
  refine ⟨by rw [hirr]; simpa [cgBlocks] using hne, fun Q hQ' => ?_⟩
  rw [hQ] at hQ'
  obtain rfl := Option.some.inj hQ'
  exact ⟨hq.dim_eq, rfl⟩

theorem tpOuter_ne {l l' out : List (MulIr T)} {c : ℕ}
    {M : Matrix (Fin (dimL l * dimL l')) (Fin c) ℂ} (hl : l ≠ []) (hl' : l' ≠ [])
    (ho : tpOuter l' l = .ok (out, ⟨c, M⟩)) : out ≠ [] := by
  obtain ⟨a, l, rfl⟩ := List.exists_cons_of_ne_nil hl
  obtain ⟨b, l', rfl⟩ := List.exists_cons_of_ne_nil hl'
  rw [tpOuter] at ho
  obtain ⟨⟨out₁, c₁, M₁⟩, h₁, ho⟩ := bind_ok ho
  obtain ⟨⟨out₂, c₂, M₂⟩, -, ho⟩ := bind_ok ho
  change Except.ok _ = _ at ho
  simp only [Except.ok.injEq, Prod.mk.injEq] at ho
  rw [tpInner] at h₁
  obtain ⟨r, hrr, h₁⟩ := bind_ok h₁
  obtain ⟨-, hirr, hne, q, hQ, -, -⟩ := tpMul_ok hrr
  rw [hQ] at h₁
  obtain ⟨q', -, h₁⟩ := bind_ok h₁
  obtain ⟨⟨out', c', M'⟩, -, h₁⟩ := bind_ok h₁
  change Except.ok _ = _ at h₁
  simp only [Except.ok.injEq, Prod.mk.injEq] at h₁
  rw [← ho.1, ← h₁.1, hirr]
  simp [cgBlocks, hne]

theorem roundQ_shape {p : ℕ} (Q : Matrix (Fin p) (Fin p) ℂ) :
    ∀ q ∈ roundQ Q, q.rows = p ∧ q.cols = p := by
  classical
  intro q hq
  unfold roundQ at hq
  simp only at hq
  generalize (if AllCloseM (Q.map fun z => (z.im : ℂ)) 0 then Q.map fun z => (z.re : ℂ) else Q) = Q'
    at hq
  by_cases h1 : AllCloseM Q' 1
  · rw [if_pos h1] at hq
    exact absurd hq (by simp)
  · rw [if_neg h1] at hq
    obtain rfl := Option.some.inj hq
    exact ⟨rfl, rfl⟩

theorem shaped_tpRed {r₁ r₂ r : ReducedRep T} (h₁ : r₁.irreps ≠ []) (h₂ : r₂.irreps ≠ [])
    (hr : tpRed r₁ r₂ = .ok r) : Shaped (red r) := by
  obtain ⟨c, Q, ho⟩ := tpRed_blocks hr
  refine ⟨tpOuter_ne h₁ h₂ ho, ?_⟩
  unfold tpRed at hr
  obtain ⟨⟨out, Q⟩, hraw, hr⟩ := bind_ok hr
  change Except.ok _ = _ at hr
  simp only [Except.ok.injEq] at hr
  subst hr
  obtain ⟨-, -, -, -, -, hdim, -⟩ := tpRedRaw_ok hraw
  intro q hq
  have := roundQ_shape Q q hq
  exact ⟨this.1.trans hdim.symm, this.2.trans hdim.symm⟩

theorem shaped_ne {x : IrRep T} (hx : Shaped x) : x.asRed.irreps ≠ [] := by
  cases x with
  | tab i => exact List.cons_ne_nil _ _
  | mul m => exact List.cons_ne_nil _ _
  | red r => exact hx.1

theorem tp_run (hg : ∀ i j : T.Ir, GoodPair i j) {x y : IrRep T} (hx : Shaped x) (hy : Shaped y) :
    ∃ r, tensorProduct x y = .ok r ∧ Shaped (red r) := by
  have key (x y : IrRep T) (hx : Shaped x) (hy : Shaped y) :
      ∃ r, tpRed x.asRed y.asRed = .ok r ∧ Shaped (red r) := by
    obtain ⟨r, hr⟩ := tpRed_run (shaped_q hx) (shaped_q hy) fun a _ b _ => GoodPair.run (hg a.ir b.ir)
    exact ⟨r, hr, shaped_tpRed (shaped_ne hx) (shaped_ne hy) hr⟩
  have key2 (a b : MulIr T) : ∃ r, tpMul a b = .ok r ∧ Shaped (red r) := by
    obtain ⟨r, hr⟩ := tpMul_run (GoodPair.run (hg a.ir b.ir))
    exact ⟨r, hr, shaped_tpMul hr⟩
  cases x with
  | tab i =>
    cases y with
    | tab j =>
      obtain ⟨r, hr⟩ := GoodPair.run (hg i j)
      exact ⟨r, hr, shaped_tpTab hr⟩
    | mul b => exact key2 ⟨1, i⟩ b
    | red s => exact key (tab i) (red s) trivial hy
  | mul a =>
    cases y with
    | tab j => exact key2 a ⟨1, j⟩
    | mul b => exact key2 a b
    | red s => exact key (mul a) (red s) trivial hy
  | red r =>
    cases y with
    | tab j => exact key (tab j) (red r) trivial hx
    | mul b => exact key (mul b) (red r) trivial hx
    | red s => exact key (red r) (red s) hx hy

/-! ## The loop, for an invariant of `rep` and `result` indexed by their exponents -/

theorem loop_joint (J : ℕ → ℕ → IrRep T → IrRep T → Prop)
    (hJ : ∀ a b x y, J a b x y → ∃ u v, tensorProduct x y = .ok u ∧ tensorProduct x x = .ok v ∧
      J (a + a) (a + b) (red v) (red u) ∧ J (a + a) b (red v) y) :
    ∀ (fuel : ℕ) (rep result : IrRep T) (p m N : ℕ), J p m rep result → N < 2 ^ fuel →
      ∃ t, tensorPowerLoop (fuel + 1) rep result N = some (.ok t) ∧ ∃ a x, J a (p * N + m) x t := by
  intro fuel
  induction fuel with
  | zero =>
    intro rep result p m N hj hN
    have : N = 0 := by simpa using hN
    subst this
    refine ⟨result, ?_, p, rep, by simpa using hj⟩
    simp [tensorPowerLoop]
  | succ fuel ih =>
    intro rep result p m N hj hN
    rw [tensorPowerLoop]
    have hcast : ((N : ℤ) / 2) = ((N / 2 : ℕ) : ℤ) := by omega
    obtain ⟨u, v, hu, hv, hodd, heven⟩ := hJ _ _ _ _ hj
    rw [hu, hv, hcast]
    by_cases hp : N % 2 = 1
    · rw [if_pos (by omega)]
      by_cases h0 : N / 2 = 0
      · have : N = 1 := by omega
        subst this
        exact ⟨red u, by simp [ok_bind, pure, Except.pure], _, _, by simpa using hodd⟩
      · simp only [ok_bind, pure, Except.pure, Nat.cast_eq_zero, if_neg h0]
        obtain ⟨t, ht, htp⟩ := ih (red v) (red u) (p + p) (p + m) (N / 2) hodd
          (by rw [pow_succ] at hN; omega)
        refine ⟨t, ht, ?_⟩
        have e : (p + p) * (N / 2) + (p + m) = p * N + m := by
          have h2 : N = 2 * (N / 2) + 1 := by omega
          conv_rhs => rw [h2]
          ring
        rw [e] at htp
        exact htp
    · rw [if_neg (by omega)]
      by_cases h0 : N / 2 = 0
      · have : N = 0 := by omega
        subst this
        exact ⟨result, by simp, p, rep, by simpa using hj⟩
      · simp only [Nat.cast_eq_zero, if_neg h0]
        obtain ⟨t, ht, htp⟩ := ih (red v) result (p + p) m (N / 2) heven
          (by rw [pow_succ] at hN; omega)
        refine ⟨t, ht, ?_⟩
        have e : (p + p) * (N / 2) + m = p * N + m := by
          have h2 : N = 2 * (N / 2) := by omega
          conv_rhs => rw [h2]
          ring
        rw [e] at htp
        exact htp

theorem loop_spec (P R : ℕ → IrRep T → Prop)
    (hR : ∀ a b x y, P a x → R b y → ∃ r, tensorProduct x y = .ok r ∧ R (a + b) (red r))
    (hP : ∀ a x, P a x → ∃ r, tensorProduct x x = .ok r ∧ P (a + a) (red r))
    (fuel : ℕ) (rep result : IrRep T) (p m N : ℕ) (hp : P p rep) (hr : R m result)
    (hN : N < 2 ^ fuel) :
    ∃ t, tensorPowerLoop (fuel + 1) rep result N = some (.ok t) ∧ R (p * N + m) t := by
  obtain ⟨t, ht, a, x, h⟩ := loop_joint (fun a b x y => P a x ∧ R b y) (by
    rintro a b x y ⟨hx, hy⟩
    obtain ⟨u, hu, hu'⟩ := hR a b x y hx hy
    obtain ⟨v, hv, hv'⟩ := hP a x hx
    exact ⟨u, v, hu, hv, ⟨hv', hu'⟩, hv', hy⟩) fuel rep result p m N ⟨hp, hr⟩ hN
  exact ⟨t, ht, h.2⟩

/-- With a negative exponent the loop does not return. -/
theorem loop_neg (P : IrRep T → Prop)
    (hP : ∀ x y, P x → P y → ∃ r, tensorProduct x y = .ok r ∧ P (red r)) (fuel : ℕ)
    (rep result : IrRep T) {N : ℤ} (hN : N < 0) (hx : P rep) (hy : P result) :
    tensorPowerLoop fuel rep result N = none := by
  induction fuel generalizing rep result N with
  | zero => rfl
  | succ fuel ih =>
    obtain ⟨u, hu, hup⟩ := hP _ _ hx hy
    obtain ⟨v, hv, hvp⟩ := hP _ _ hx hx
    rw [tensorPowerLoop, hu, hv]
    have hN2 : ¬ N / 2 = 0 := by omega
    by_cases hp : N % 2 = 1
    · simp only [if_pos hp, if_neg hN2, ok_bind, pure, Except.pure]
      exact ih _ _ (by omega) hvp hup
    · simp only [if_neg hp, if_neg hN2]
      exact ih _ _ (by omega) hvp hy

/-! ## Actions -/

theorem acts_tab (hn : n ≠ 0) (i : T.Ir) : Acts (MulIr.toReduced ⟨1, i⟩) (T.rep i) := by
  have h := toReduced_acts (m := (⟨1, i⟩ : MulIr T)) hn one_ne_zero
  have key (M : Matrix (Fin (T.dim i)) (Fin (T.dim i)) ℂ) :
      (⟨1 * T.dim i, 1 * T.dim i, kron (1 : Matrix (Fin 1) (Fin 1) ℂ) M⟩ : SMat) =
        ⟨T.dim i, T.dim i, M⟩ := SMat.unit_kron ⟨_, _, M⟩
  refine ⟨h.1, h.2.1.trans ?_, h.2.2.trans ?_⟩
  · exact congrArg _ (congrArg _ (funext fun a => key _))
  · exact congrArg _ (congrArg _ (funext fun a => key _))

theorem acts_tp (hn : n ≠ 0) (hT : Equivariant T) (hg : ∀ i j : T.Ir, GoodPair i j)
    {x y : IrRep T} {d₁ d₂ : ℕ} {R₁ : Rep n h d₁} {R₂ : Rep n h d₂} (hx : Acts x.asRed R₁)
    (hy : Acts y.asRed R₂)
    (he : TpExact x y) {r : ReducedRep T} (hr : tensorProduct x y = .ok r) :
    Acts r (R₁.tensorProduct R₂) ∨ Acts r (R₂.tensorProduct R₁) := by
  have sols (l l' : List (MulIr T)) : ∀ a ∈ l, ∀ b ∈ l', ∀ k ∈ T.prod a.ir b.ir,
      T.cg a.ir b.ir k ≠ [] := fun a _ b _ => (hg a.ir b.ir).sols
  have mulNe {m : MulIr T} {d : ℕ} {R : Rep n h d} (hm : Acts m.toReduced R) : m.mul ≠ 0 :=
    (acts_inv hm).2.2.1 m (by simp [MulIr.toReduced])
  have key2 (a b : MulIr T) {d₁ d₂ : ℕ} {R₁ : Rep n h d₁} {R₂ : Rep n h d₂}
      (ha : Acts a.toReduced R₁) (hb : Acts b.toReduced R₂) {r : ReducedRep T}
      (hr : tpMul a b = .ok r) : Acts r (R₁.tensorProduct R₂) := by
    have := tpMul_acts hn hT (mulNe ha) (mulNe hb) (hg a.ir b.ir).sols hr
    obtain ⟨e, rfl⟩ := acts_unique (toReduced_acts hn (mulNe ha)) ha
    subst e
    obtain ⟨e, rfl⟩ := acts_unique (toReduced_acts hn (mulNe hb)) hb
    subst e
    exact this
  cases x with
  | tab i =>
    cases y with
    | tab j =>
      left
      have := tpTab_acts hn hT (hg i j).sols hr
      obtain ⟨e, rfl⟩ := acts_unique (acts_tab hn i) hx
      subst e
      obtain ⟨e, rfl⟩ := acts_unique (acts_tab hn j) hy
      subst e
      exact this
    | mul b => exact .inl (key2 ⟨1, i⟩ b hx hy hr)
    | red s => exact .inl (tpRed_acts hT (sols _ _) hx hy he hr)
  | mul a =>
    cases y with
    | tab j => exact .inl (key2 a ⟨1, j⟩ hx hy hr)
    | mul b => exact .inl (key2 a b hx hy hr)
    | red s => exact .inl (tpRed_acts hT (sols _ _) hx hy he hr)
  | red r =>
    cases y with
    | tab j => exact .inr (tpRed_acts hT (sols _ _) hy hx he hr)
    | mul b => exact .inr (tpRed_acts hT (sols _ _) hy hx he hr)
    | red s => exact .inl (tpRed_acts hT (sols _ _) hx hy he hr)

theorem acts_shaped {x : IrRep T} {d : ℕ} {R : Rep n h d} (hx : Acts x.asRed R) : Shaped x := by
  obtain ⟨-, hne, -, q, hq, -⟩ := acts_inv hx
  cases x with
  | tab i => trivial
  | mul m => trivial
  | red r =>
    refine ⟨hne, fun Q hQ => ?_⟩
    change r.q = _ at hq
    unfold ReducedRep.q at hq
    rw [show r.Q = some Q from hQ] at hq
    simp only [SMat.view] at hq
    split_ifs at hq with h1
    exact h1

theorem actsAs_asRed (hn : n ≠ 0) {x : IrRep T} {d : ℕ} {R : Rep n h d} (hx : ActsAs x d R) :
    Acts x.asRed R := by
  cases x with
  | tab i =>
    have hx : (⟨d, R⟩ : Σ d, Rep n h d) = ⟨T.dim i, T.rep i⟩ := hx
    cases hx
    exact acts_tab hn i
  | mul m =>
    have hm : m.mul ≠ 0 := by
      intro h0
      have := MulIr.gens_zero hn h0 (fun ir => (T.rep ir).X)
      rw [hx.2.1] at this
      exact absurd this (by simp)
    have ht := toReduced_acts (m := m) hn hm
    have e1 : (List.ofFn fun a => (⟨_, _, (copies m.mul (T.rep m.ir)).X a⟩ : SMat)) =
        List.ofFn fun a => ⟨d, d, R.X a⟩ := by
      have := hx.2.1
      rw [MulIr.gens_ok hn hm, ← List.ofFn_eq_map] at this
      exact Except.ok.inj this
    have e2 : (List.ofFn fun a => (⟨_, _, (copies m.mul (T.rep m.ir)).H a⟩ : SMat)) =
        List.ofFn fun a => ⟨d, d, R.H a⟩ := by
      rcases Nat.eq_zero_or_pos h with h0 | h0
      · subst h0; simp
      · have := hx.2.2
        rw [MulIr.gens_ok (by omega) hm, ← List.ofFn_eq_map] at this
        exact Except.ok.inj this
    exact ⟨ht.1.trans hx.1, ht.2.1.trans (congrArg _ e1), ht.2.2.trans (congrArg _ e2)⟩
  | red r => exact hx

/-! ## Powers, for a table whose tolerances do not matter -/

theorem isTensorPower_of_acts {d₀ : ℕ} {R₀ : Rep n h d₀} {a b d₁ d₂ : ℕ}
    {R₁ : Rep n h d₁} {R₂ : Rep n h d₂} (h₁ : IsTensorPower R₀ a ⟨n, h, d₁, R₁⟩)
    (h₂ : IsTensorPower R₀ b ⟨n, h, d₂, R₂⟩) :
    IsTensorPower R₀ (a + b) ⟨n, h, d₁ * d₂, R₁.tensorProduct R₂⟩ := by
  obtain ⟨u, hu, hup⟩ := isTensorPower_mul h₁ h₂
  have hA : R₁.A = R₂.A := by
    obtain ⟨e, s, hs, -, hA₁, -⟩ := h₁
    obtain ⟨e', s', hs', -, hA₂, -⟩ := h₂
    cases hs
    cases hs'
    exact hA₁.trans hA₂.symm
  have : GRep.tensorProduct ⟨n, h, d₁, R₁⟩ ⟨n, h, d₂, R₂⟩ =
      .ok ⟨n, h, _, R₁.tensorProduct R₂⟩ :=
    GRep.guarded_ok (by rw [hA]; exact allCloseA_refl _) _
  rw [this] at hu
  cases hu
  exact hup

theorem expMap_trivial {R : Rep n h 1} (hX : ∀ a, R.X a = 0) (hH : ∀ a, R.H a = 1)
    (c : Fin n → ℂ) (k : Fin h → ℤ) : R.expMap c k = .ok 1 := by
  have e : R = R.createTrivial := by
    ext a
    · rfl
    · rw [hX]; rfl
    · rename_i i j
      rw [hH, Subsingleton.elim i j]
      exact Matrix.one_apply_eq _
  rw [e]
  exact createTrivial_expMap R c k

theorem isTensorPower_trivial {d₀ : ℕ} {R₀ : Rep n h d₀} {d : ℕ} {R : Rep n h d} (hd : d = 1)
    (hA : R.A = R₀.A) (hX : ∀ a, R.X a = 0) (hH : ∀ a, R.H a = 1) :
    IsTensorPower R₀ 0 ⟨n, h, d, R⟩ := by
  subst hd
  refine ⟨1, R, rfl, by simp, hA, ?_, ?_, ?_⟩
  · intro _ i j
    simp [hX]
  · intro _
    exact ⟨fun a => by simp [hH], fun a => by simp [hX]⟩
  · intro c k g _
    exact ⟨1, expMap_trivial hX hH c k, rfl⟩

/-- `x` acts as a power `a` of `R₀`. -/
def IsPow {d₀ : ℕ} (R₀ : Rep n h d₀) (a : ℕ) (x : IrRep T) : Prop :=
  ∃ d, ∃ R : Rep n h d, ActsAs x d R ∧ IsTensorPower R₀ a ⟨n, h, d, R⟩

theorem isPow_tp (hn : n ≠ 0) (hT : Equivariant T) (hg : ∀ i j : T.Ir, GoodPair i j) {d₀ : ℕ}
    {R₀ : Rep n h d₀} {a b : ℕ} {x y : IrRep T} (hx : IsPow R₀ a x) (hy : IsPow R₀ b y)
    (hxy : TpExact x y) :
    ∃ r, tensorProduct x y = .ok r ∧ IsPow R₀ (a + b) (red r) := by
  obtain ⟨d₁, R₁, ha₁, hp₁⟩ := hx
  obtain ⟨d₂, R₂, ha₂, hp₂⟩ := hy
  have ha₁ := actsAs_asRed hn ha₁
  have ha₂ := actsAs_asRed hn ha₂
  obtain ⟨r, hr, -⟩ := tp_run hg (acts_shaped ha₁) (acts_shaped ha₂)
  refine ⟨r, hr, ?_⟩
  rcases acts_tp hn hT hg ha₁ ha₂ hxy hr with h | h
  · exact ⟨_, _, h, isTensorPower_of_acts hp₁ hp₂⟩
  · rw [add_comm]
    exact ⟨_, _, h, isTensorPower_of_acts hp₂ hp₁⟩

theorem loop_pow (hn : n ≠ 0) (hT : Equivariant T) (hg : ∀ i j : T.Ir, GoodPair i j) {d₀ : ℕ}
    {R₀ : Rep n h d₀} {x t : IrRep T} (he : PowExact x t) (fuel N : ℕ) (hx : IsPow R₀ 1 x)
    (ht : IsPow R₀ 0 t) (hN : N < 2 ^ fuel) :
    ∃ s, tensorPowerLoop (fuel + 1) x t N = some (.ok s) ∧ IsPow R₀ N s := by
  obtain ⟨s, hs, a, y, hJ⟩ := loop_joint
    (fun a b y s => LoopState x t y s ∧ IsPow R₀ a y ∧ IsPow R₀ b s) (by
      rintro a b y s ⟨hst, hy, hs⟩
      obtain ⟨e₁, e₂⟩ := he _ _ hst
      obtain ⟨u, hu, hu'⟩ := isPow_tp hn hT hg hy hs e₁
      obtain ⟨v, hv, hv'⟩ := isPow_tp hn hT hg hy hy e₂
      exact ⟨u, v, hu, hv, ⟨.odd hst hu hv, hv', hu'⟩, .even hst hv, hv', hs⟩)
    fuel x t 1 0 N ⟨.start, hx, ht⟩ hN
  refine ⟨s, hs, ?_⟩
  have := hJ.2.2
  rwa [one_mul, add_zero] at this

theorem isPow_one {d₀ : ℕ} {R₀ : Rep n h d₀} {x : IrRep T} (hx : ActsAs x d₀ R₀) : IsPow R₀ 1 x :=
  ⟨d₀, R₀, hx, isTensorPower_one R₀⟩

theorem isPow_zero {d₀ : ℕ} {R₀ : Rep n h d₀} {t : T.Ir} (ht : IsTrivialLabel t)
    (hA : (T.rep t).A = R₀.A) : IsPow R₀ 0 (tab t) :=
  ⟨_, T.rep t, rfl, isTensorPower_trivial ht.1 hA ht.2.1 ht.2.2⟩

theorem actsAs_A (hn : n ≠ 0) {x : IrRep T} {d : ℕ} {R : Rep n h d} (hx : ActsAs x d R) :
    x.asRed.A = R.A := (actsAs_asRed hn hx).1

theorem createTrivial_red (triv : Py T.Ir) (r : ReducedRep T) (hr : r.irreps ≠ []) :
    createTrivial triv (red r) = (do
      let t ← triv
      pure (tab t)) := by
  obtain ⟨A, l, Q⟩ := r
  cases l with
  | nil => exact absurd rfl hr
  | cons m l => rfl

theorem createTrivial_nil (triv : Py T.Ir) (r : ReducedRep T) (hr : r.irreps = []) :
    createTrivial triv (red r) = .error .indexError := by
  obtain ⟨A, l, Q⟩ := r
  cases hr
  rfl

/-- `create_trivial` of an object with blocks. -/
theorem createTrivial_ok {x : IrRep T} (hx : Shaped x) (t : T.Ir) :
    createTrivial (.ok t) x = .ok (tab t) := by
  cases x with
  | tab i => rfl
  | mul m => rfl
  | red r => rw [createTrivial_red _ _ hx.1]; rfl

/-! ## Multiplicities -/

theorem loop_total {M : Type*} [CommSemiring M] {f : T.Ir → M} (hf : Mult T f)
    (hg : ∀ i j : T.Ir, GoodPair i j) {x t : IrRep T} (hx : Shaped x) (ht : Shaped t)
    (h1 : total t f = 1) (fuel N : ℕ) (hN : N < 2 ^ fuel) :
    ∃ s, tensorPowerLoop (fuel + 1) x t N = some (.ok s) ∧ Shaped s ∧
      total s f = total x f ^ N := by
  have step (a b : ℕ) (y s : IrRep T) (hy : Shaped y ∧ total y f = total x f ^ a)
      (hs : Shaped s ∧ total s f = total x f ^ b) :
      ∃ r, tensorProduct y s = .ok r ∧ Shaped (red r) ∧ total (red r) f = total x f ^ (a + b) := by
    obtain ⟨r, hr, hsh⟩ := tp_run hg hy.1 hs.1
    refine ⟨r, hr, hsh, ?_⟩
    rw [total_eq, pow_add, ← hy.2, ← hs.2]
    exact tot_tp hf hr
  obtain ⟨s, hs, h⟩ := loop_spec (fun a y => Shaped y ∧ total y f = total x f ^ a)
    (fun a y => Shaped y ∧ total y f = total x f ^ a) step (fun a y hy => step a a y y hy hy)
    fuel x t 1 0 N ⟨hx, by rw [pow_one]⟩ ⟨ht, by rw [pow_zero, h1]⟩ hN
  rw [one_mul, add_zero] at h
  exact ⟨s, hs, h⟩

end IrRep

end LieNN
