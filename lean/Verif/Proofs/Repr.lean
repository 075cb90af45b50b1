import Verif.Model.Repr
import Verif.Proofs.Parse
/-!
# Helper lemmas for the printed forms
-/
namespace LieNN.Printing

open Parse

/-- No text of `f` continues another one: what follows the text can be told apart from it. -/
def PrefixFree {α : Type} (f : α → Str) : Prop :=
  ∀ a b u v, f a ++ u = f b ++ v → a = b ∧ u = v

theorem PrefixFree.injective {α : Type} {f : α → Str} (h : PrefixFree f) {a b : α} (e : f a = f b) : a = b :=
  (h a b [] [] (by simp [e])).1

theorem takeWhile_stop {p : Char → Bool} {a : Str} (ha : ∀ c ∈ a, p c = true) {c : Char} (hc : p c = false)
    (u : Str) : (a ++ c :: u).takeWhile p = a := by
  rw [List.takeWhile_append_of_pos ha]
  simp [hc]

theorem split_stop {p : Char → Bool} {a b : Str} (ha : ∀ c ∈ a, p c = true) (hb : ∀ c ∈ b, p c = true)
    {c d : Char} (hc : p c = false) (hd : p d = false) {u v : Str} (e : a ++ c :: u = b ++ d :: v) :
    a = b ∧ c :: u = d :: v := by
  have h := congrArg (List.takeWhile p) e
  rw [takeWhile_stop ha hc, takeWhile_stop hb hd] at h
  subst h
  exact ⟨rfl, List.append_cancel_left e⟩

theorem digits_num (n : ℕ) : ∀ c ∈ Nat.toDigits 10 n, c.isDigit = true :=
  fun _ hc => Nat.isDigit_of_mem_toDigits (by decide) (by decide) hc

theorem num_injective {m n : ℕ} (h : Nat.toDigits 10 m = Nat.toDigits 10 n) : m = n := by
  have := congrArg (fun s => Nat.ofDigitChars 10 s 0) h
  simpa [Nat.ofDigitChars_ten_toDigits] using this

theorem int_head (z : ℤ) : ∃ c s, int z = c :: s ∧ (c = '-' ∨ c.isDigit = true) := by
  unfold int
  split
  · exact ⟨_, _, rfl, Or.inl rfl⟩
  · cases e : Nat.toDigits 10 z.natAbs with
    | nil => exact absurd e Nat.toDigits_ne_nil
    | cons c s => exact ⟨c, s, rfl, Or.inr (digits_num z.natAbs c (by simp [e]))⟩

theorem int_chars (z : ℤ) : ∀ c ∈ int z, (c.isDigit || c == '-') = true := by
  intro c hc
  unfold int at hc
  split at hc
  · rcases List.mem_cons.1 hc with h | h
    · simp [h]
    · simp [digits_num _ c h]
  · simp [digits_num _ c hc]

theorem int_injective {y z : ℤ} (h : int y = int z) : y = z := by
  have key : ∀ m n : ℕ, '-' :: Nat.toDigits 10 m ≠ Nat.toDigits 10 n := by
    intro m n e
    have := digits_num n '-' (by rw [← e]; simp)
    simp at this
  unfold int at h
  split at h <;> split at h
  · have := num_injective (List.cons.inj h).2
    omega
  · exact absurd h (key _ _)
  · exact absurd h.symm (key _ _)
  · have := num_injective h
    omega

theorem int_stop {y z : ℤ} {c d : Char} (hc : (c.isDigit || c == '-') = false)
    (hd : (d.isDigit || d == '-') = false) {u v : Str} (e : int y ++ c :: u = int z ++ d :: v) :
    y = z ∧ c :: u = d :: v := by
  obtain ⟨h1, h2⟩ := split_stop (int_chars y) (int_chars z) hc hd e
  exact ⟨int_injective h1, h2⟩

/-- The end of a printed tuple. -/
def rest : List ℤ → Str
  | [] => [')']
  | a :: S => ',' :: ' ' :: (int a ++ rest S)

theorem rest_head (S : List ℤ) : ∃ c s, rest S = c :: s ∧ (c.isDigit || c == '-') = false := by
  cases S with
  | nil => exact ⟨_, _, rfl, by decide⟩
  | cons a S => exact ⟨_, _, rfl, by decide⟩

theorem join_cons (a b : Str) (l : List Str) (sep : Str) :
    join sep (a :: b :: l) = a ++ sep ++ join sep (b :: l) := by
  simp [join, List.intercalate_cons_cons]

theorem join_rest (a : ℤ) (S : List ℤ) :
    join ", ".toList ((a :: S).map int) ++ [')'] = int a ++ rest S := by
  induction S generalizing a with
  | nil => simp [join, rest]
  | cons b S ih =>
    have := ih b
    simp only [List.map_cons] at this ⊢
    rw [join_cons, List.append_assoc, this]
    simp [rest]

theorem int_rest {y z : ℤ} {S S' : List ℤ} {u v : Str} (e : int y ++ (rest S ++ u) = int z ++ (rest S' ++ v)) :
    y = z ∧ rest S ++ u = rest S' ++ v := by
  obtain ⟨c, s, hc, hc'⟩ := rest_head S
  obtain ⟨d, t, hd, hd'⟩ := rest_head S'
  rw [hc, hd] at e ⊢
  exact int_stop hc' hd' e

theorem rest_prefixFree : PrefixFree rest := by
  intro S
  induction S with
  | nil =>
    intro S' u v e
    cases S' with
    | nil => exact ⟨rfl, by simpa [rest] using e⟩
    | cons b S' => simp [rest] at e
  | cons a S ih =>
    intro S' u v e
    cases S' with
    | nil => simp [rest] at e
    | cons b S' =>
      simp only [rest, List.cons_append, List.append_assoc, List.cons.injEq, true_and] at e
      obtain ⟨h1, h2⟩ := int_rest e
      obtain ⟨h3, h4⟩ := ih S' u v h2
      exact ⟨by rw [h1, h3], h4⟩

theorem tuple_nil : tuple [] = ['(', ')'] := by simp [tuple, join]

theorem tuple_one (a : ℤ) : tuple [a] = '(' :: (int a ++ [',', ')']) := by simp [tuple]

theorem tuple_two (a b : ℤ) (S : List ℤ) : tuple (a :: b :: S) = '(' :: (int a ++ rest (b :: S)) := by
  rw [← join_rest]
  simp [tuple]

theorem int_ne_paren {z : ℤ} {u v : Str} : int z ++ u ≠ ')' :: v := by
  obtain ⟨c, s, h, h'⟩ := int_head z
  rw [h]
  intro e
  have := (List.cons.inj e).1
  subst this
  simp at h'

theorem tuple_prefixFree : PrefixFree tuple := by
  rintro (_ | ⟨a, _ | ⟨b, S⟩⟩) (_ | ⟨a', _ | ⟨b', S'⟩⟩) u v e
  · exact ⟨rfl, by simpa [tuple_nil] using e⟩
  · simp only [tuple_nil, tuple_one, List.cons_append, List.append_assoc, List.cons.injEq, true_and] at e
    exact absurd e.symm int_ne_paren
  · simp only [tuple_nil, tuple_two, List.cons_append, List.append_assoc, List.cons.injEq, true_and] at e
    exact absurd e.symm int_ne_paren
  · simp only [tuple_nil, tuple_one, List.cons_append, List.append_assoc, List.cons.injEq, true_and] at e
    exact absurd e int_ne_paren
  · simp only [tuple_one, List.cons_append, List.append_assoc, List.cons.injEq, true_and] at e
    obtain ⟨h1, h2⟩ := int_stop (by decide) (by decide) e
    exact ⟨by rw [h1], by simpa using h2⟩
  · simp only [tuple_one, tuple_two, rest, List.cons_append, List.append_assoc, List.cons.injEq, true_and] at e
    obtain ⟨h1, h2⟩ := int_stop (by decide) (by decide) e
    simp at h2
  · simp only [tuple_nil, tuple_two, List.cons_append, List.append_assoc, List.cons.injEq, true_and] at e
    exact absurd e int_ne_paren
  · simp only [tuple_one, tuple_two, rest, List.cons_append, List.append_assoc, List.cons.injEq, true_and] at e
    obtain ⟨h1, h2⟩ := int_stop (by decide) (by decide) e
    simp at h2
  · simp only [tuple_two, List.cons_append, List.append_assoc, List.cons.injEq, true_and] at e
    obtain ⟨h1, h2⟩ := int_rest e
    obtain ⟨h3, h4⟩ := rest_prefixFree _ _ _ _ h2
    exact ⟨by rw [h1, h3], h4⟩

theorem dataclass_one (name k v : Str) :
    dataclass name [(k, v)] = name ++ '(' :: (k ++ '=' :: (v ++ [')'])) := by
  simp [dataclass, join]

theorem dataclass_two (name k v k' v' : Str) :
    dataclass name [(k, v), (k', v')] =
      name ++ '(' :: (k ++ '=' :: (v ++ ',' :: ' ' :: (k' ++ '=' :: (v' ++ [')'])))) := by
  simp [dataclass, join_cons]
  simp [join]

/-- The name of the class. -/
def Label.name : Label → Str
  | SU2 _ => "SU2".toList
  | SO3 _ => "SO3".toList
  | O3 _ _ => "O3".toList
  | SL2C _ _ => "SL2C".toList
  | SO13 _ _ => "SO13".toList
  | Z2 _ => "Z2".toList
  | tup c _ => c.name
  | product _ _ => productName

/-- The text after the opening parenthesis. -/
def Label.body : Label → Str
  | SU2 j => 'j' :: '=' :: (int j ++ [')'])
  | SO3 l => 'l' :: '=' :: (int l ++ [')'])
  | O3 l p => 'l' :: '=' :: (int l ++ ',' :: ' ' :: 'p' :: '=' :: (int p ++ [')']))
  | SL2C l k => 'l' :: '=' :: (int l ++ ',' :: ' ' :: 'k' :: '=' :: (int k ++ [')']))
  | SO13 l k => 'l' :: '=' :: (int l ++ ',' :: ' ' :: 'k' :: '=' :: (int k ++ [')']))
  | Z2 p => 'p' :: '=' :: (int p ++ [')'])
  | tup _ S => 'S' :: '=' :: (tuple S ++ [')'])
  | product a b => 'r' :: 'e' :: 'p' :: '1' :: '=' ::
      (a.repr ++ ',' :: ' ' :: 'r' :: 'e' :: 'p' :: '2' :: '=' :: (b.repr ++ [')']))

theorem repr_eq (l : Label) : l.repr = l.name ++ '(' :: l.body := by
  cases l <;> simp [Label.repr, dataclass_one, dataclass_two, Label.name, Label.body]

theorem name_chars (l : Label) : ∀ c ∈ l.name, (c != '(') = true := by
  cases l with
  | tup c S => cases c <;> simp [Label.name, TupleClass.name]
  | product a b => simp [Label.name, productName]
  | _ => simp [Label.name]

theorem repr_split {a b : Label} {u v : Str} (e : a.repr ++ u = b.repr ++ v) :
    a.name = b.name ∧ a.body ++ u = b.body ++ v := by
  rw [repr_eq, repr_eq, List.append_assoc, List.append_assoc, List.cons_append, List.cons_append] at e
  obtain ⟨h1, h2⟩ := split_stop (name_chars a) (name_chars b) (by decide) (by decide) e
  exact ⟨h1, (List.cons.inj h2).2⟩

theorem tupleName_injective {c d : TupleClass} (h : c.name = d.name) : c = d := by
  cases c <;> cases d <;> first | rfl | (simp [TupleClass.name] at h)

theorem int_one {y z : ℤ} {u v : Str} (e : int y ++ ([')'] ++ u) = int z ++ ([')'] ++ v)) : y = z ∧ u = v := by
  obtain ⟨h1, h2⟩ := int_stop (by decide) (by decide) e
  exact ⟨h1, by simpa using h2⟩

theorem repr_prefixFree : PrefixFree Label.repr := by
  intro a
  induction a with
  | product a b iha ihb =>
    intro l u v e
    obtain ⟨h1, h2⟩ := repr_split e
    cases l with
    | product a' b' =>
      simp only [Label.body, List.cons_append, List.append_assoc, List.cons.injEq, true_and] at h2
      obtain ⟨h3, h4⟩ := iha _ _ _ h2
      simp only [List.cons.injEq, true_and] at h4
      obtain ⟨h5, h6⟩ := ihb _ _ _ h4
      exact ⟨by rw [h3, h5], by simpa using h6⟩
    | tup c S => cases c <;> simp [Label.name, TupleClass.name, productName] at h1
    | _ => simp [Label.name, productName] at h1
  | tup c S =>
    intro l u v e
    obtain ⟨h1, h2⟩ := repr_split e
    cases l with
    | tup c' S' =>
      simp only [Label.body, List.cons_append, List.append_assoc, List.cons.injEq, true_and] at h2
      obtain ⟨h3, h4⟩ := tuple_prefixFree _ _ _ _ h2
      exact ⟨by rw [tupleName_injective h1, h3], by simpa using h4⟩
    | _ => cases c <;> simp [Label.name, TupleClass.name, productName] at h1
  | SU2 j =>
    intro l u v e
    obtain ⟨h1, h2⟩ := repr_split e
    cases l with
    | SU2 j' =>
      simp only [Label.body, List.cons_append, List.append_assoc, List.cons.injEq, true_and] at h2
      obtain ⟨h3, h4⟩ := int_one h2
      exact ⟨by rw [h3], h4⟩
    | tup c S => cases c <;> simp [Label.name, TupleClass.name] at h1
    | _ => simp [Label.name, productName] at h1
  | SO3 j =>
    intro l u v e
    obtain ⟨h1, h2⟩ := repr_split e
    cases l with
    | SO3 j' =>
      simp only [Label.body, List.cons_append, List.append_assoc, List.cons.injEq, true_and] at h2
      obtain ⟨h3, h4⟩ := int_one h2
      exact ⟨by rw [h3], h4⟩
    | tup c S => cases c <;> simp [Label.name, TupleClass.name] at h1
    | _ => simp [Label.name, productName] at h1
  | Z2 j =>
    intro l u v e
    obtain ⟨h1, h2⟩ := repr_split e
    cases l with
    | Z2 j' =>
      simp only [Label.body, List.cons_append, List.append_assoc, List.cons.injEq, true_and] at h2
      obtain ⟨h3, h4⟩ := int_one h2
      exact ⟨by rw [h3], h4⟩
    | tup c S => cases c <;> simp [Label.name, TupleClass.name] at h1
    | _ => simp [Label.name, productName] at h1
  | O3 j k =>
    intro l u v e
    obtain ⟨h1, h2⟩ := repr_split e
    cases l with
    | O3 j' k' =>
      simp only [Label.body, List.cons_append, List.append_assoc, List.cons.injEq, true_and] at h2
      obtain ⟨h3, h4⟩ := int_stop (by decide) (by decide) h2
      simp only [List.cons.injEq, true_and] at h4
      obtain ⟨h5, h6⟩ := int_one h4
      exact ⟨by rw [h3, h5], h6⟩
    | tup c S => cases c <;> simp [Label.name, TupleClass.name] at h1
    | _ => simp [Label.name, productName] at h1
  | SL2C j k =>
    intro l u v e
    obtain ⟨h1, h2⟩ := repr_split e
    cases l with
    | SL2C j' k' =>
      simp only [Label.body, List.cons_append, List.append_assoc, List.cons.injEq, true_and] at h2
      obtain ⟨h3, h4⟩ := int_stop (by decide) (by decide) h2
      simp only [List.cons.injEq, true_and] at h4
      obtain ⟨h5, h6⟩ := int_one h4
      exact ⟨by rw [h3, h5], h6⟩
    | tup c S => cases c <;> simp [Label.name, TupleClass.name] at h1
    | _ => simp [Label.name, productName] at h1
  | SO13 j k =>
    intro l u v e
    obtain ⟨h1, h2⟩ := repr_split e
    cases l with
    | SO13 j' k' =>
      simp only [Label.body, List.cons_append, List.append_assoc, List.cons.injEq, true_and] at h2
      obtain ⟨h3, h4⟩ := int_stop (by decide) (by decide) h2
      simp only [List.cons.injEq, true_and] at h4
      obtain ⟨h5, h6⟩ := int_one h4
      exact ⟨by rw [h3, h5], h6⟩
    | tup c S => cases c <;> simp [Label.name, TupleClass.name] at h1
    | _ => simp [Label.name, productName] at h1

theorem mulIrrep_prefixFree {α : Type} {p : α → Str} (hp : PrefixFree p) :
    PrefixFree fun t : ℤ × α => mulIrrep t.1 (p t.2) := by
  rintro ⟨m, a⟩ ⟨m', a'⟩ u v e
  have e' : int m ++ 'x' :: (p a ++ u) = int m' ++ 'x' :: (p a' ++ v) := by simpa [mulIrrep] using e
  obtain ⟨h1, h2⟩ := int_stop (by decide) (by decide) e'
  obtain ⟨h3, h4⟩ := hp _ _ _ _ (List.cons.inj h2).2
  exact ⟨by rw [h1, h3], h4⟩

/-- The end of a printed sum. -/
def sumRest {α : Type} (f : α → Str) : List α → Str
  | [] => []
  | a :: l => ' ' :: '+' :: ' ' :: (f a ++ sumRest f l)

theorem join_sumRest {α : Type} (f : α → Str) (a : α) (l : List α) :
    join " + ".toList ((a :: l).map f) = f a ++ sumRest f l := by
  induction l generalizing a with
  | nil => simp [join, sumRest]
  | cons b l ih =>
    have := ih b
    simp only [List.map_cons] at this ⊢
    rw [join_cons, this]
    simp [sumRest]

theorem sumRest_injective {α : Type} {f : α → Str} (hf : PrefixFree f) (l l' : List α)
    (e : sumRest f l = sumRest f l') : l = l' := by
  induction l generalizing l' with
  | nil => cases l' with
    | nil => rfl
    | cons b l' => simp [sumRest] at e
  | cons a l ih => cases l' with
    | nil => simp [sumRest] at e
    | cons b l' =>
      simp only [sumRest, List.cons.injEq, true_and] at e
      obtain ⟨h1, h2⟩ := hf _ _ _ _ e
      rw [h1, ih l' h2]

theorem join_injective {α : Type} {f : α → Str} (hf : PrefixFree f) (hne : ∀ a, f a ≠ []) (l l' : List α)
    (e : join " + ".toList (l.map f) = join " + ".toList (l'.map f)) : l = l' := by
  cases l with
  | nil => cases l' with
    | nil => rfl
    | cons b l' =>
      rw [join_sumRest] at e
      have h := List.append_eq_nil_iff.1 (show f b ++ sumRest f l' = [] by simpa [join] using e.symm)
      exact absurd h.1 (hne b)
  | cons a l => cases l' with
    | nil =>
      rw [join_sumRest] at e
      simp [join] at e
      exact absurd e.1 (hne a)
    | cons b l' =>
      rw [join_sumRest, join_sumRest] at e
      obtain ⟨h1, h2⟩ := hf _ _ _ _ e
      rw [h1, sumRest_injective hf _ _ h2]

theorem mulIrrep_head (m : ℤ) (r : Str) : ∃ c s, mulIrrep m r = c :: s ∧ c ≠ 'Q' := by
  obtain ⟨c, s, h, h'⟩ := int_head m
  refine ⟨c, s ++ ("x".toList ++ r), by simp [mulIrrep, h], ?_⟩
  rintro rfl
  simp at h'

theorem join_ne_Q {α : Type} (p : α → Str) (l : List (ℤ × α)) (s : Str) :
    join " + ".toList (l.map fun t => mulIrrep t.1 (p t.2)) ≠ 'Q' :: s := by
  cases l with
  | nil => simp [join]
  | cons t l =>
    rw [join_sumRest (fun t : ℤ × α => mulIrrep t.1 (p t.2))]
    obtain ⟨c, u, h, h'⟩ := mulIrrep_head t.1 (p t.2)
    simp only [h]
    intro e
    exact h' (List.cons.inj e).1

theorem reduced_injective {α : Type} {p : α → Str} (hp : PrefixFree p) {l l' : List (ℤ × α)} {q q' : Bool}
    (e : reduced (l.map fun t => mulIrrep t.1 (p t.2)) q = reduced (l'.map fun t => mulIrrep t.1 (p t.2)) q') :
    l = l' ∧ q = q' := by
  have hne : ∀ t : ℤ × α, mulIrrep t.1 (p t.2) ≠ [] := by
    intro t
    obtain ⟨c, s, h, _⟩ := mulIrrep_head t.1 (p t.2)
    simp [h]
  cases q <;> cases q' <;> simp only [reduced, if_true, Bool.false_eq_true, if_false] at e
  · exact ⟨join_injective (mulIrrep_prefixFree hp) hne _ _ e, rfl⟩
  · exact absurd e (by simpa using join_ne_Q p l _)
  · exact absurd e.symm (by simpa using join_ne_Q p l' _)
  · simp only [List.append_assoc] at e
    have h := List.append_cancel_left e
    exact ⟨join_injective (mulIrrep_prefixFree hp) hne _ _ (List.append_cancel_right h), rfl⟩

end LieNN.Printing
