import Verif.Proofs.TFArray
import Mathlib.Data.List.Lookmap

/-!
# The assignment of representations to the indices of a formula
-/
namespace LieNN.TFront

open LieNN.PermRepr LieNN.IArr LieNN.Spec LieNN.TBasis

variable {n h : ℕ} {T : Table n h}

/-! ### Dictionaries -/

theorem lookup_filter {α : Type} (d : List (Key × α)) (k k' : Key) :
    (d.filter (·.1 ≠ k)).lookup k' = if k' = k then none else d.lookup k' := by
  induction d with
  | nil => simp
  | cons x d ih =>
    obtain ⟨y, v⟩ := x
    by_cases hy : y = k
    · subst hy
      rw [List.filter_cons_of_neg (by simp), ih]
      split_ifs with h1
      · rfl
      · rw [List.lookup_cons, beq_false_of_ne h1]
    · rw [List.filter_cons_of_pos (by simpa using hy)]
      simp only [List.lookup_cons, ih]
      by_cases h1 : k' = y
      · subst h1; simp [hy]
      · rw [beq_false_of_ne h1]

theorem lookup_dset (d : Dict) (k : Key) (v : Ref) (k' : Key) :
    (dset d k v).lookup k' = if k' = k then some v else d.lookup k' := by
  rw [dset, List.lookup_cons]
  by_cases h1 : k' = k
  · subst h1; simp
  · rw [beq_false_of_ne h1, lookup_filter]; simp [h1]

theorem lookup_copy (d : Dict) (i j k : Key) :
    (copy d i j).lookup k = if k = i then (d.lookup j).or (d.lookup i) else d.lookup k := by
  rw [copy]
  cases hj : d.lookup j with
  | none =>
    split_ifs with h1
    · rw [h1]; rfl
    · rfl
  | some v =>
    rw [lookup_dset]
    rfl

theorem mem_keys_iff {α : Type} (d : List (Key × α)) (k : Key) :
    k ∈ d.map Prod.fst ↔ ∃ v, d.lookup k = some v := by
  induction d with
  | nil => simp
  | cons x d ih =>
    obtain ⟨y, v⟩ := x
    rw [List.map_cons, List.mem_cons, ih, List.lookup_cons]
    by_cases h1 : k = y
    · subst h1; simp
    · rw [beq_false_of_ne h1]; simp [h1]

/-- Two keys with different objects. -/
def Conflict (d : Dict) (i j : Key) : Prop := ∃ a b, d.lookup i = some a ∧ d.lookup j = some b ∧ a ≠ b

theorem stepPair_error {d : Dict} {i j : Key} (hc : Conflict d i j) :
    stepPair d (i, j) = .error .runtimeError := by
  obtain ⟨a, b, h1, h2, h3⟩ := hc
  simp only [stepPair, h1, h2]
  rw [if_pos h3]
  rfl

theorem stepPair_ok {d : Dict} {i j : Key} (hc : ¬ Conflict d i j) :
    ∃ d', stepPair d (i, j) = .ok d' ∧ ∀ k, d'.lookup k =
      if k = i ∨ k = j then (d.lookup i).or (d.lookup j) else d.lookup k := by
  refine ⟨copy (copy d j i) i j, ?_, ?_⟩
  · rw [stepPair]
    cases hi : d.lookup i with
    | none => rfl
    | some a =>
      cases hj : d.lookup j with
      | none => rfl
      | some b =>
        have : a = b := by
          by_contra hab
          exact hc ⟨a, b, hi, hj, hab⟩
        simp only [this, ne_eq, not_true_eq_false, if_false]
        rfl
  · intro k
    rw [lookup_copy, lookup_copy, lookup_copy, lookup_copy]
    by_cases hij : i = j
    · subst hij
      by_cases hk : k = i <;> simp [hk]
    · rw [if_pos rfl, if_neg hij]
      by_cases hki : k = i
      · subst hki
        rw [if_pos rfl, if_pos (.inl rfl)]
        cases d.lookup k <;> cases d.lookup j <;> rfl
      · rw [if_neg hki]
        by_cases hkj : k = j
        · subst hkj
          rw [if_pos rfl, if_pos (.inr rfl)]
        · rw [if_neg hkj, if_neg (by tauto)]

theorem pairs_error (L : List (Key × Key)) : ∀ (d : Dict), (∃ ij ∈ L, Conflict d ij.1 ij.2) →
    L.foldlM stepPair d = .error .runtimeError := by
  induction L with
  | nil => rintro d ⟨ij, hij, _⟩; simp at hij
  | cons x L ih =>
    rintro d ⟨ij, hij, hc⟩
    rw [List.foldlM_cons]
    by_cases hx : Conflict d x.1 x.2
    · rw [show x = (x.1, x.2) from rfl, stepPair_error hx]; rfl
    · obtain ⟨d', h1, h2⟩ := stepPair_ok hx
      rw [show x = (x.1, x.2) from rfl, h1]
      show L.foldlM stepPair d' = _
      have hmono : ∀ k a, d.lookup k = some a → d'.lookup k = some a := by
        intro k a hk
        rw [h2]
        split_ifs with h3
        · rcases h3 with rfl | rfl
          · rw [hk]; rfl
          · cases hx1 : d.lookup x.1 with
            | none => rw [hk]; rfl
            | some b =>
              have : b = a := by
                by_contra hab
                exact hx ⟨b, a, hx1, hk, hab⟩
              rw [this]; rfl
        · exact hk
      rcases List.mem_cons.1 hij with rfl | hij
      · exact absurd hc hx
      · obtain ⟨a, b, g1, g2, g3⟩ := hc
        exact ih d' ⟨ij, hij, a, b, hmono _ _ g1, hmono _ _ g2, g3⟩

theorem pairs_ok {rel : Key → Key → Prop} (hsymm : ∀ x y, rel x y → rel y x)
    (htrans : ∀ x y z, rel x y → rel y z → rel x z) (L : List (Key × Key)) :
    ∀ (D d : Dict), (∀ ij ∈ L, rel ij.1 ij.2) →
    (∀ x y a b, rel x y → D.lookup x = some a → D.lookup y = some b → a = b) →
    (∀ k a, D.lookup k = some a → d.lookup k = some a) →
    (∀ k a, d.lookup k = some a → ∃ k', (k = k' ∨ rel k k') ∧ D.lookup k' = some a) →
    ∃ d', L.foldlM stepPair d = .ok d' ∧ (∀ k a, d.lookup k = some a → d'.lookup k = some a) ∧
      (∀ k a, d'.lookup k = some a → ∃ k', (k = k' ∨ rel k k') ∧ D.lookup k' = some a) ∧
      ∀ ij ∈ L, ∀ a, D.lookup ij.1 = some a → d'.lookup ij.2 = some a := by
  induction L with
  | nil =>
    intro D d _ _ _ h3
    exact ⟨d, rfl, fun _ _ h => h, h3, by simp⟩
  | cons x L ih =>
    intro D d hrel hcons hD hd
    have hx : ¬ Conflict d x.1 x.2 := by
      rintro ⟨a, b, h1, h2, h3⟩
      obtain ⟨i, hi, hi'⟩ := hd _ _ h1
      obtain ⟨j, hj, hj'⟩ := hd _ _ h2
      have hr := hrel x (by simp)
      have h4 : rel x.1 j := by
        rcases hj with rfl | hj
        · exact hr
        · exact htrans _ _ _ hr hj
      have h5 : rel i j := by
        rcases hi with rfl | hi
        · exact h4
        · exact htrans _ _ _ (hsymm _ _ hi) h4
      exact h3 (hcons _ _ _ _ h5 hi' hj')
    obtain ⟨d1, h1, h2⟩ := stepPair_ok hx
    have hmono : ∀ k a, d.lookup k = some a → d1.lookup k = some a := by
      intro k a hk
      rw [h2]
      split_ifs with h3
      · rcases h3 with rfl | rfl
        · rw [hk]; rfl
        · cases hx1 : d.lookup x.1 with
          | none => rw [hk]; rfl
          | some b =>
            have : b = a := by
              by_contra hab
              exact hx ⟨b, a, hx1, hk, hab⟩
            rw [this]; rfl
      · exact hk
    have hr := hrel x (by simp)
    have hd1 : ∀ k a, d1.lookup k = some a → ∃ k', (k = k' ∨ rel k k') ∧ D.lookup k' = some a := by
      intro k a hk
      rw [h2] at hk
      split_ifs at hk with h3
      · obtain ⟨y, hy, hya⟩ : ∃ y, (k = y ∨ rel k y) ∧ d.lookup y = some a := by
          cases hx1 : d.lookup x.1 with
          | some b =>
            rw [hx1] at hk
            refine ⟨x.1, ?_, hx1.trans hk⟩
            rcases h3 with rfl | rfl
            · exact .inl rfl
            · exact .inr (hsymm _ _ hr)
          | none =>
            rw [hx1] at hk
            refine ⟨x.2, ?_, hk⟩
            rcases h3 with rfl | rfl
            · exact .inr hr
            · exact .inl rfl
        obtain ⟨k', hk', hk''⟩ := hd _ _ hya
        refine ⟨k', ?_, hk''⟩
        rcases hy with rfl | hy
        · exact hk'
        · rcases hk' with rfl | hk'
          · exact .inr hy
          · exact .inr (htrans _ _ _ hy hk')
      · exact hd k a hk
    obtain ⟨d', g1, g2, g3, g4⟩ := ih D d1 (fun ij hij => hrel ij (by simp [hij])) hcons
      (fun k a hk => hmono _ _ (hD k a hk)) hd1
    refine ⟨d', ?_, fun k a hk => g2 k a (hmono k a hk), g3, ?_⟩
    · rw [List.foldlM_cons, show x = (x.1, x.2) from rfl, h1]
      exact g1
    · intro ij hij a ha
      rcases List.mem_cons.1 hij with rfl | hij
      · refine g2 _ _ ?_
        rw [h2, if_pos (.inr rfl), hD _ _ ha]
        rfl
      · exact g4 ij hij a ha

/-! ### The loop -/

theorem spread_pairs {f0 : List Char} (perms : List (SignedPerm f0.length)) (d : Dict) :
    spread f0 d (perms.map stup) = (perms.flatMap fun g => (List.finRange f0.length).map fun k =>
      (([f0[k]], [f0[g.2 k]]) : Key × Key)).foldlM stepPair d := by
  induction perms generalizing d with
  | nil => rfl
  | cons g perms ih =>
    have hf : (stup g).2.mapM (letterAt f0) = .ok ((List.finRange f0.length).map fun k => f0[g.2 k]) := by
      have h1 : (stup g).2 = (List.finRange f0.length).map fun k => (g.2 k : ℕ) := by
        simp [stup, tup, List.ofFn_eq_map]
      rw [h1, List.mapM_map]
      refine mapM_ok fun k _ => ?_
      simp [letterAt]
    have hz : ((f0.zip ((List.finRange f0.length).map fun k => f0[g.2 k])).map fun c =>
        (([c.1], [c.2]) : Key × Key)) = (List.finRange f0.length).map fun k =>
        (([f0[k]], [f0[g.2 k]]) : Key × Key) := by
      apply List.ext_getElem
      · simp
      · intro i h1 h2
        simp
    rw [spread, List.map_cons, List.foldlM_cons, hf]
    show (((f0.zip ((List.finRange f0.length).map fun k => f0[g.2 k])).map fun c =>
        (([c.1], [c.2]) : Key × Key)).foldlM stepPair d >>= _) = _
    rw [hz, List.flatMap_cons, List.foldlM_append]
    congr 1
    funext d'
    exact ih d'

theorem toReduced_ok (heap : ℕ → ReducedRep T) {a : Arg T} (ha : a ≠ .other) :
    ∃ r, toReduced heap a = .ok r := by
  cases a with
  | irrep ir => exact ⟨⟨(T.rep ir).A, [⟨1, ir⟩], none⟩, by simp [toReduced, ReducedRep.fromIrreps, pyAssert]; rfl⟩
  | mulIrrep m => exact ⟨⟨(T.rep m.ir).A, [m], none⟩, by simp [toReduced, ReducedRep.fromIrreps, pyAssert]; rfl⟩
  | reduced a => exact ⟨_, rfl⟩
  | other => exact absurd rfl ha

/-- Keywords of one letter. -/
def keyed (kw : List (Char × Arg T)) : List (Key × Arg T) := kw.map fun ca => ([ca.1], ca.2)

theorem lookup_keyed (kw : List (Char × Arg T)) (hnd : (kw.map Prod.fst).Nodup) (k : Key) (a : Arg T) :
    (keyed kw).lookup k = some a ↔ ∃ ca ∈ kw, k = [ca.1] ∧ a = ca.2 := by
  induction kw with
  | nil => simp [keyed]
  | cons x kw ih =>
    rw [List.map_cons, List.nodup_cons] at hnd
    have : keyed (x :: kw) = ([x.1], x.2) :: keyed kw := rfl
    rw [this, List.lookup_cons]
    by_cases h1 : k = [x.1]
    · subst h1
      simp only [beq_self_eq_true, List.mem_cons]
      constructor
      · intro h2
        exact ⟨x, .inl rfl, rfl, (Option.some.inj h2).symm⟩
      · rintro ⟨ca, rfl | hca, h2, rfl⟩
        · rfl
        · exact absurd (List.mem_map.2 ⟨ca, hca, (List.cons.inj h2).1.symm⟩) hnd.1
    · rw [beq_false_of_ne h1]
      simp only [ih hnd.2, List.mem_cons]
      constructor
      · rintro ⟨ca, hca, h2⟩
        exact ⟨ca, .inr hca, h2⟩
      · rintro ⟨ca, rfl | hca, h2⟩
        · exact absurd h2.1 h1
        · exact ⟨ca, hca, h2⟩

/-- The dictionary before the loop. -/
def dict0 (kw : List (Char × Arg T)) : Dict := (keyed kw).map fun ka => (ka.1, refOf ka.1 ka.2)

theorem lookup_dict0 (kw : List (Char × Arg T)) (hnd : (kw.map Prod.fst).Nodup) (k : Key) (v : Ref) :
    (dict0 kw).lookup k = some v ↔ ∃ ca ∈ kw, k = [ca.1] ∧ v = refOf [ca.1] ca.2 := by
  have h1 : ∀ L : List (Key × Arg T), (L.map fun ka => (ka.1, refOf ka.1 ka.2)).lookup k =
      (L.lookup k).map (refOf k) := by
    intro L
    induction L with
    | nil => rfl
    | cons x L ih =>
      rw [List.map_cons, List.lookup_cons, List.lookup_cons]
      by_cases hk : k = x.1
      · subst hk; simp
      · rw [beq_false_of_ne hk]; exact ih
  rw [dict0, h1, Option.map_eq_some_iff]
  constructor
  · rintro ⟨a, h2, rfl⟩
    obtain ⟨ca, hca, rfl, rfl⟩ := (lookup_keyed kw hnd k a).1 h2
    exact ⟨ca, hca, rfl, rfl⟩
  · rintro ⟨ca, hca, rfl, rfl⟩
    exact ⟨ca.2, (lookup_keyed kw hnd _ _).2 ⟨ca, hca, rfl, rfl⟩, rfl⟩

theorem refOf_same {c c' : Char} {a a' : Arg T} :
    refOf [c] a = refOf [c'] a' → SameObject c a c' a' := by
  cases a <;> cases a' <;> simp [refOf, SameObject, eq_comm] <;> tauto

theorem same_refOf {kw : List (Char × Arg T)} (hnd : (kw.map Prod.fst).Nodup) {ca ca' : Char × Arg T}
    (h1 : ca ∈ kw) (h2 : ca' ∈ kw) (h3 : SameObject ca.1 ca.2 ca'.1 ca'.2) :
    refOf [ca.1] ca.2 = refOf [ca'.1] ca'.2 := by
  rcases h3 with h3 | ⟨x, h3, h4⟩
  · have : ca = ca' := List.inj_on_of_nodup_map hnd h1 h2 h3
    rw [this]
  · rw [h3, h4]; rfl

theorem deref_refOf (heap : ℕ → ReducedRep T) {kw : List (Char × Arg T)} (hnd : (kw.map Prod.fst).Nodup)
    {ca : Char × Arg T} (hca : ca ∈ kw) :
    deref heap (keyed kw) (refOf [ca.1] ca.2) = toReduced heap ca.2 := by
  have h1 : (keyed kw).lookup [ca.1] = some ca.2 := (lookup_keyed kw hnd _ _).2 ⟨ca, hca, rfl, rfl⟩
  have h2 : deref heap (keyed kw) (.fresh [ca.1]) = toReduced heap ca.2 := by
    simp only [deref, h1]
  obtain ⟨c, a⟩ := ca
  cases a <;> first | exact h2 | rfl

theorem assign_spec (heap : ℕ → ReducedRep T) {f0 : List Char} (hf : f0.Nodup)
    {G : Subgroup (SignedPerm f0.length)} {Gs : Finset SP}
    (hGs : (Gs : Set SP) = stup '' (G : Set (SignedPerm f0.length))) {iter : Finset SP → List SP}
    (hiter : ∀ x, x ∈ iter Gs ↔ x ∈ Gs) {kw : List (Char × Arg T)} (hnd : (kw.map Prod.fst).Nodup)
    (hoth : ∀ ca ∈ kw, ca.2 ≠ .other) :
    (Determined f0 (G : Set (SignedPerm f0.length)) kw → ∃ irs : Fin f0.length → ReducedRep T,
      assign heap iter f0 Gs (keyed kw) = .ok (List.ofFn irs) ∧
      ∀ k k', Linked (G : Set (SignedPerm f0.length)) k k' → ∀ ca ∈ kw, ca.1 = f0[k'] →
        toReduced heap ca.2 = .ok (irs k)) ∧
    (¬ Determined f0 (G : Set (SignedPerm f0.length)) kw →
      assign heap iter f0 Gs (keyed kw) = .error .runtimeError) := by
  classical
  -- the permutations
  obtain ⟨perms, hperms⟩ : ∃ perms : List (SignedPerm f0.length), perms.map stup = iter Gs := by
    have : iter Gs ∈ Set.range (List.map (stup (n := f0.length))) := by
      rw [Set.range_list_map]
      intro x hx
      have : x ∈ (Gs : Set SP) := (hiter x).1 hx
      rw [hGs] at this
      obtain ⟨g, _, hg⟩ := this
      exact ⟨g, hg⟩
    exact this
  have hmem : ∀ g, g ∈ perms ↔ g ∈ G := by
    intro g
    constructor
    · intro hg
      have : stup g ∈ (Gs : Set SP) := (hiter _).1 (hperms ▸ List.mem_map_of_mem hg)
      rw [hGs] at this
      obtain ⟨g', hg', he⟩ := this
      exact stup_injective he ▸ hg'
    · intro hg
      have : stup g ∈ iter Gs := by
        rw [hiter, ← Finset.mem_coe, hGs]
        exact ⟨g, hg, rfl⟩
      rw [← hperms] at this
      obtain ⟨g', hg', he⟩ := List.mem_map.1 this
      exact stup_injective he ▸ hg'
  let L : List (Key × Key) := perms.flatMap fun g => (List.finRange f0.length).map fun k => ([f0[k]], [f0[g.2 k]])
  have hL : ∀ ij, ij ∈ L ↔ ∃ k k', Linked (G : Set (SignedPerm f0.length)) k k' ∧ ij = ([f0[k]], [f0[k']]) := by
    intro ij
    simp only [L, List.mem_flatMap, List.mem_map, List.mem_finRange, true_and, hmem]
    constructor
    · rintro ⟨g, hg, k, rfl⟩
      exact ⟨k, _, ⟨g, hg, rfl⟩, rfl⟩
    · rintro ⟨k, k', ⟨g, hg, rfl⟩, rfl⟩
      exact ⟨g, hg, k, rfl⟩
  have hdict : ((keyed kw).mapM fun ka => do
      let _ ← toReduced heap ka.2
      return (ka.1, refOf ka.1 ka.2)) = (.ok (dict0 kw) : Py Dict) := by
    refine mapM_ok fun ka hka => ?_
    obtain ⟨ca, hca, rfl⟩ := List.mem_map.1 hka
    obtain ⟨r, hr⟩ := toReduced_ok heap (hoth ca hca)
    simp only [hr]
    rfl
  have hlen : ¬ ∃ k ∈ (keyed kw).map Prod.fst, k.length ≠ 1 := by
    rintro ⟨k, hk, h1⟩
    simp only [keyed, List.map_map, List.mem_map] at hk
    obtain ⟨ca, _, rfl⟩ := hk
    exact h1 rfl
  have hassign : assign heap iter f0 Gs (keyed kw) = (do
      let d ← L.foldlM stepPair (dict0 kw)
      if ∃ c ∈ f0, d.lookup [c] = none then .error .runtimeError
      if ∃ k ∈ d.map Prod.fst, ¬ k <:+: f0 then .error .runtimeError
      f0.mapM fun c => match d.lookup [c] with
        | some v => deref heap (keyed kw) v
        | none => .error .keyError) := by
    rw [assign, hdict]
    show (if _ then _ else _) = _
    rw [if_neg hlen, ← hperms, spread_pairs]
    rfl
  have hidx : ∀ {k k' : Fin f0.length}, f0[k] = f0[k'] → k = k' := by
    intro k k' he
    exact Fin.ext ((List.Nodup.getElem_inj_iff hf).1 he)
  have hrefl : ∀ k, Linked (G : Set (SignedPerm f0.length)) k k := fun k => ⟨1, G.one_mem, rfl⟩
  have hsymm : ∀ {k k'}, Linked (G : Set (SignedPerm f0.length)) k k' →
      Linked (G : Set (SignedPerm f0.length)) k' k := by
    rintro k k' ⟨g, hg, rfl⟩
    exact ⟨g⁻¹, G.inv_mem hg, by simp⟩
  have htrans : ∀ {k k' k''}, Linked (G : Set (SignedPerm f0.length)) k k' →
      Linked (G : Set (SignedPerm f0.length)) k' k'' → Linked (G : Set (SignedPerm f0.length)) k k'' := by
    rintro k k' k'' ⟨g, hg, rfl⟩ ⟨g', hg', rfl⟩
    exact ⟨g' * g, G.mul_mem hg' hg, rfl⟩
  let rel : Key → Key → Prop := fun x y => ∃ k k', Linked (G : Set (SignedPerm f0.length)) k k' ∧
    x = [f0[k]] ∧ y = [f0[k']]
  by_cases hsame : ∀ ca ∈ kw, ∀ ca' ∈ kw, ∀ k k' : Fin f0.length, f0[k] = ca.1 → f0[k'] = ca'.1 →
      Linked (G : Set (SignedPerm f0.length)) k k' → SameObject ca.1 ca.2 ca'.1 ca'.2
  · obtain ⟨d, h1, h2, h3, h4⟩ := pairs_ok (rel := rel)
      (by rintro x y ⟨k, k', hk, rfl, rfl⟩; exact ⟨k', k, hsymm hk, rfl, rfl⟩)
      (by
        rintro x y z ⟨k, k', hk, rfl, rfl⟩ ⟨l, l', hl, he, rfl⟩
        rw [hidx (List.cons.inj he).1] at hk
        exact ⟨k, l', htrans hk hl, rfl, rfl⟩)
      L (dict0 kw) (dict0 kw)
      (by
        intro ij hij
        obtain ⟨k, k', hk, rfl⟩ := (hL ij).1 hij
        exact ⟨k, k', hk, rfl, rfl⟩)
      (by
        rintro x y a b ⟨k, k', hk, rfl, rfl⟩ ha hb
        obtain ⟨ca, hca, g1, rfl⟩ := (lookup_dict0 kw hnd _ _).1 ha
        obtain ⟨cb, hcb, g2, rfl⟩ := (lookup_dict0 kw hnd _ _).1 hb
        exact same_refOf hnd hca hcb (hsame ca hca cb hcb k k' (List.cons.inj g1).1 (List.cons.inj g2).1 hk))
      (fun _ _ h => h) (fun k a hk => ⟨k, .inl rfl, hk⟩)
    have hassign2 : assign heap iter f0 Gs (keyed kw) = (do
        if ∃ c ∈ f0, d.lookup [c] = none then .error .runtimeError
        if ∃ k ∈ d.map Prod.fst, ¬ k <:+: f0 then .error .runtimeError
        f0.mapM fun c => match d.lookup [c] with
          | some v => deref heap (keyed kw) v
          | none => .error .keyError) := by
      rw [hassign, h1]
      rfl
    have hget : ∀ (k k' : Fin f0.length) (ca), Linked (G : Set (SignedPerm f0.length)) k k' → ca ∈ kw →
        ca.1 = f0[k'] → d.lookup [f0[k]] = some (refOf [ca.1] ca.2) := by
      intro k k' ca hk hca he
      refine h4 ([f0[k']], [f0[k]]) ((hL _).2 ⟨k', k, hsymm hk, rfl⟩) _ ?_
      exact (lookup_dict0 kw hnd _ _).2 ⟨ca, hca, by rw [he], rfl⟩
    have hcov : (∃ c ∈ f0, d.lookup [c] = none) ↔ ¬ ∀ k, ∃ k', Linked (G : Set (SignedPerm f0.length)) k k' ∧
        ∃ ca ∈ kw, ca.1 = f0[k'] := by
      constructor
      · rintro ⟨c, hc, h5⟩ hall
        obtain ⟨i, hi, rfl⟩ := List.mem_iff_getElem.1 hc
        obtain ⟨k', hk', ca, hca, he⟩ := hall ⟨i, hi⟩
        have := hget _ _ ca hk' hca he
        rw [Fin.getElem_fin, h5] at this
        simp at this
      · intro hall
        push Not at hall
        obtain ⟨k, hk⟩ := hall
        refine ⟨f0[k], List.getElem_mem _, ?_⟩
        by_contra h5
        obtain ⟨v, hv⟩ := Option.ne_none_iff_exists'.1 h5
        obtain ⟨y, hy, hyv⟩ := h3 _ _ hv
        obtain ⟨ca, hca, rfl, rfl⟩ := (lookup_dict0 kw hnd _ _).1 hyv
        rcases hy with hy | ⟨k1, k2, h12, hy1, hy2⟩
        · exact hk k (hrefl k) ca hca (List.cons.inj hy).1.symm
        · rw [← hidx (List.cons.inj hy1).1] at h12
          exact hk k2 h12 ca hca (List.cons.inj hy2).1
    have hlet : (∃ k ∈ d.map Prod.fst, ¬ k <:+: f0) ↔ ¬ ∀ ca ∈ kw, ca.1 ∈ f0 := by
      constructor
      · rintro ⟨k, hk, hnk⟩ hall
        obtain ⟨v, hv⟩ := (mem_keys_iff d k).1 hk
        obtain ⟨y, hy, hyv⟩ := h3 _ _ hv
        obtain ⟨ca, hca, rfl, rfl⟩ := (lookup_dict0 kw hnd _ _).1 hyv
        apply hnk
        rcases hy with rfl | ⟨k1, k2, h12, rfl, hy2⟩
        · exact (List.singleton_infix_iff _ _).2 (hall ca hca)
        · exact (List.singleton_infix_iff _ _).2 (List.getElem_mem _)
      · intro hall
        push Not at hall
        obtain ⟨ca, hca, hn⟩ := hall
        refine ⟨[ca.1], (mem_keys_iff d _).2 ⟨_, h2 _ _ ((lookup_dict0 kw hnd _ _).2 ⟨ca, hca, rfl, rfl⟩)⟩, ?_⟩
        rw [List.singleton_infix_iff]
        exact hn
    constructor
    · intro hdet
      choose π hπ using hdet.covered
      have hirs : ∀ k, ∃ r, ∃ ca ∈ kw, ca.1 = f0[π k] ∧ toReduced heap ca.2 = .ok r := by
        intro k
        obtain ⟨ca, hca, he⟩ := (hπ k).2
        obtain ⟨r, hr⟩ := toReduced_ok heap (hoth ca hca)
        exact ⟨r, ca, hca, he, hr⟩
      choose irs hirs' using hirs
      refine ⟨irs, ?_, ?_⟩
      · rw [hassign2, if_neg (by rw [hcov, not_not]; exact hdet.covered),
          if_neg (by rw [hlet, not_not]; exact hdet.letters)]
        show f0.mapM _ = _
        have hl : f0 = (List.finRange f0.length).map fun k => f0[k] := by
          apply List.ext_getElem <;> simp
        have : ∀ F : Char → Py (ReducedRep T), (∀ k : Fin f0.length, F f0[k] = .ok (irs k)) →
            f0.mapM F = .ok (List.ofFn irs) := by
          intro F hF
          conv_lhs => rw [hl]
          rw [List.mapM_map, List.ofFn_eq_map]
          exact mapM_ok fun k _ => hF k
        refine this _ fun k => ?_
        obtain ⟨ca, hca, he, hr⟩ := hirs' k
        rw [hget k (π k) ca (hπ k).1 hca he]
        exact (deref_refOf heap hnd hca).trans hr
      · intro k k' hk ca hca he
        obtain ⟨cb, hcb, he', hr⟩ := hirs' k
        have h5 := same_refOf hnd hca hcb (hdet.same ca hca cb hcb k' (π k) he.symm he'.symm
          (htrans (hsymm hk) (hπ k).1))
        rw [← deref_refOf heap hnd hca, h5, deref_refOf heap hnd hcb, hr]
    · intro hdet
      rw [hassign2]
      by_cases hc : ∃ c ∈ f0, d.lookup [c] = none
      · rw [if_pos hc]; rfl
      · rw [if_neg hc]
        have hl : ∃ k ∈ d.map Prod.fst, ¬ k <:+: f0 := by
          rw [hlet]
          intro hall
          rw [hcov, not_not] at hc
          exact hdet ⟨hall, hc, hsame⟩
        show (if _ then _ else _) = _
        rw [if_pos hl]; rfl
  · refine ⟨fun hdet => absurd hdet.same hsame, fun _ => ?_⟩
    push Not at hsame
    obtain ⟨ca, hca, cb, hcb, k, k', h1, h2, h3, h4⟩ := hsame
    rw [hassign, pairs_error]
    · rfl
    · refine ⟨([f0[k]], [f0[k']]), (hL _).2 ⟨k, k', h3, rfl⟩, refOf [ca.1] ca.2, refOf [cb.1] cb.2, ?_, ?_, ?_⟩
      · exact (lookup_dict0 kw hnd _ _).2 ⟨ca, hca, by rw [h1], rfl⟩
      · exact (lookup_dict0 kw hnd _ _).2 ⟨cb, hcb, by rw [h2], rfl⟩
      · exact fun he => h4 (refOf_same he)

end LieNN.TFront
