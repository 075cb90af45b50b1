import Verif.Proofs.Repr
import Verif.Props.Parse
import Verif.Model.SU2
/-!
# C100: printed forms
-/
namespace LieNN.Props

open Spec Printing
open Parse (Str)

/-- C100 (labels): two irreps with the same text are the same irrep: same class, same fields. -/
theorem C100_label {a b : Label} (h : a.repr = b.repr) : a = b := repr_prefixFree.injective h

/-- C100 (labels inside a text): the end of a label can be found without looking further: when two texts that begin
with labels agree, so do the labels and what follows. -/
theorem C100_label_prefix {a b : Label} {u v : Str} (h : a.repr ++ u = b.repr ++ v) : a = b ∧ u = v :=
  repr_prefixFree _ _ _ _ h

/-- C100 (integers): the text of a natural number is its usual numeral, a negative number has a minus sign. -/
theorem C100_int (n : ℕ) : Printing.int n = num n ∧ (n ≠ 0 → Printing.int (-n) = '-' :: num n) := by
  refine ⟨by simp [Printing.int, num], fun hn => ?_⟩
  simp [Printing.int, num, Nat.pos_of_ne_zero hn]

/-- C100 (what is printed): the texts of the classes. -/
theorem C100_text (j p : ℤ) (S : List ℤ) (a b : Label) :
    (Label.SU2 j).repr = "SU2(j=".toList ++ Printing.int j ++ ")".toList ∧
    (Label.SO3 j).repr = "SO3(l=".toList ++ Printing.int j ++ ")".toList ∧
    (Label.O3 j p).repr = "O3(l=".toList ++ Printing.int j ++ ", p=".toList ++ Printing.int p ++ ")".toList ∧
    (Label.SL2C j p).repr = "SL2C(l=".toList ++ Printing.int j ++ ", k=".toList ++ Printing.int p ++ ")".toList ∧
    (Label.SO13 j p).repr = "SO13(l=".toList ++ Printing.int j ++ ", k=".toList ++ Printing.int p ++ ")".toList ∧
    (Label.Z2 p).repr = "Z2(p=".toList ++ Printing.int p ++ ")".toList ∧
    (Label.tup .SUN S).repr = "SUN(S=".toList ++ tuple S ++ ")".toList ∧
    (Label.tup .SU2_ S).repr = "SU2_(S=".toList ++ tuple S ++ ")".toList ∧
    (Label.tup .SU3 S).repr = "SU3(S=".toList ++ tuple S ++ ")".toList ∧
    (Label.tup .SU4 S).repr = "SU4(S=".toList ++ tuple S ++ ")".toList ∧
    (Label.tup .SON S).repr = "SON(S=".toList ++ tuple S ++ ")".toList ∧
    (Label.tup .SPN S).repr = "SPN(S=".toList ++ tuple S ++ ")".toList ∧
    (Label.product a b).repr = productName ++ "(rep1=".toList ++ a.repr ++ ", rep2=".toList ++ b.repr ++
      ")".toList := by
  refine ⟨?_, ?_, ?_, ?_, ?_, ?_, ?_, ?_, ?_, ?_, ?_, ?_, ?_⟩ <;>
    simp [Label.repr, dataclass_one, dataclass_two, TupleClass.name]

/-- C100 (tuples): the texts of the empty tuple, of a tuple with one entry and of a longer tuple. -/
theorem C100_tuple (a b : ℤ) (S : List ℤ) :
    tuple [] = "()".toList ∧ tuple [a] = "(".toList ++ Printing.int a ++ ",)".toList ∧
    tuple (a :: b :: S) =
      "(".toList ++ ", ".toList.intercalate ((a :: b :: S).map Printing.int) ++ ")".toList :=
  ⟨by simp [tuple, join], rfl, rfl⟩

/-- C100 (sums): a sum with labels whose texts do not run into each other determines the blocks, in order, and
whether there is a change of basis. -/
theorem C100_blocks {l l' : List (ℤ × Label)} {q q' : Bool}
    (h : reduced (l.map fun t => mulIrrep t.1 t.2.repr) q = reduced (l'.map fun t => mulIrrep t.1 t.2.repr) q') :
    l = l' ∧ q = q' :=
  reduced_injective repr_prefixFree h

/-- C100 (text of a sum): blocks `m₁xr₁`, ..., separated by ` + `; a change of basis is printed around them. -/
theorem C100_reduced_text (l : List (ℤ × Str)) :
    reduced (l.map fun t => mulIrrep t.1 t.2) false =
      " + ".toList.intercalate (l.map fun t => Printing.int t.1 ++ 'x' :: t.2) ∧
    reduced (l.map fun t => mulIrrep t.1 t.2) true =
      "Q (".toList ++ " + ".toList.intercalate (l.map fun t => Printing.int t.1 ++ 'x' :: t.2) ++
        ") Q^-1".toList := by
  constructor
  · simp [reduced, join, mulIrrep]
  · have := (C100_int 1).2 (by decide)
    have e : Printing.int (-1) = ['-', '1'] := by
      rw [show (-1 : ℤ) = -((1 : ℕ) : ℤ) by rfl, this]
      rfl
    simp [reduced, join, mulIrrep, e]

/-- C100 (`ReducedRep`): for every table whose irreps are printed as pairwise different labels, two `ReducedRep`s
print the same text exactly when they have the same blocks and both or neither have a change of basis. -/
theorem C100_reduced {n h : ℕ} {T : Table n h} {lab : T.Ir → Label} (hl : Function.Injective lab)
    (R R' : ReducedRep T) :
    ofReduced (fun i => (lab i).repr) R = ofReduced (fun i => (lab i).repr) R' ↔
      R.irreps = R'.irreps ∧ R.Q.isSome = R'.Q.isSome := by
  constructor
  · intro e
    have hp : PrefixFree fun i : T.Ir => (lab i).repr := by
      intro a b u v e
      obtain ⟨h1, h2⟩ := repr_prefixFree _ _ _ _ e
      exact ⟨hl h1, h2⟩
    have key : ∀ R : ReducedRep T, ofReduced (fun i => (lab i).repr) R =
        reduced ((R.irreps.map fun m => ((m.mul : ℤ), m.ir)).map fun t => mulIrrep t.1 (lab t.2).repr)
          R.Q.isSome := by
      intro R
      simp [ofReduced, List.map_map, Function.comp_def]
    rw [key, key] at e
    obtain ⟨h1, h2⟩ := reduced_injective hp e
    refine ⟨List.map_injective_iff.2 ?_ h1, h2⟩
    rintro ⟨m, i⟩ ⟨m', i'⟩ e
    simp only [Prod.mk.injEq, Nat.cast_inj] at e
    rw [e.1, e.2]
  · rintro ⟨h1, h2⟩
    simp [ofReduced, h1, h2]

/-- C100 (`ReducedRep` of `SU2`): the same text means the same blocks, hence the same dimension. -/
theorem C100_su2 (R R' : ReducedRep SU2.table)
    (e : ofReduced (fun j : ℕ => (Label.SU2 j).repr) R = ofReduced (fun j : ℕ => (Label.SU2 j).repr) R') :
    R.irreps = R'.irreps ∧ R.dim = R'.dim := by
  have hl : Function.Injective fun j : ℕ => Label.SU2 j := by
    intro a b h
    simpa using h
  have := ((C100_reduced (T := SU2.table) hl R R').1 e).1
  exact ⟨this, by simp [ReducedRep.dim, this]⟩

/-- C100 (generic representations): the text of a `GenericRep`, or of a class that inherits `Rep.__repr__`, is
determined by the three numbers in it, and determines them. -/
theorem C100_rep (name : Str) (d l k d' l' k' : ℕ) :
    Printing.rep name d l k = Printing.rep name d' l' k' ↔ d = d' ∧ l = l' ∧ k = k' := by
  constructor
  · intro e
    have e' : Printing.int d ++ ',' :: (" lie_dim=".toList ++ (Printing.int l ++ ',' ::
          (" len(H)=".toList ++ (Printing.int k ++ [')'])))) =
        Printing.int d' ++ ',' :: (" lie_dim=".toList ++ (Printing.int l' ++ ',' ::
          (" len(H)=".toList ++ (Printing.int k' ++ [')'])))) := by
      simpa [Printing.rep] using e
    obtain ⟨h1, h2⟩ := int_stop (by decide) (by decide) e'
    obtain ⟨h3, h4⟩ := int_stop (by decide) (by decide) (List.append_cancel_left (List.cons.inj h2).2)
    obtain ⟨h5, _⟩ := int_stop (by decide) (by decide) (List.append_cancel_left (List.cons.inj h4).2)
    exact ⟨by exact_mod_cast h1, by exact_mod_cast h3, by exact_mod_cast h5⟩
  · rintro ⟨rfl, rfl, rfl⟩
    rfl

/-- C100 (the class is printed): a `GenericRep` and an object with `Rep.__repr__` never print the same text. -/
theorem C100_rep_class (d l k d' l' k' : ℕ) :
    Printing.rep "Rep".toList d l k ≠ Printing.rep "GenericRep".toList d' l' k' := by
  simp [Printing.rep]

/-- C100 (nested sums, negative): a block may itself be a sum (`MulIrrep.rep` is any `Rep`); then the text is
ambiguous: no brackets are printed, and there are two sums of different dimension with the same text. -/
theorem C100_nested_ambiguous (a b : Label) (da db : ℕ) (hb : 0 < db) :
    ∃ r r' : Nested, r.repr = r'.repr ∧ r.dim ≠ r'.dim := by
  refine ⟨.one 2 (.two 1 (.ir a da) 1 (.ir b db)), .two 2 (.one 1 (.ir a da)) 1 (.ir b db), ?_, ?_⟩
  · simp [Nested.repr, reduced, mulIrrep, join, List.intercalate_cons_cons]
  · simp only [Nested.dim]
    omega

/-- C100 (the texts of tuples of different classes): `SU3(S=...)` and `SUN(S=...)` of the same weights are printed
differently. -/
theorem C100_class {c c' : TupleClass} {S S' : List ℤ} (h : (Label.tup c S).repr = (Label.tup c' S').repr) :
    c = c' ∧ S = S' := by
  have := C100_label h
  simpa using this

example : String.ofList (reduced [mulIrrep 2 (Label.SU2 1).repr, mulIrrep 1 (Label.SU2 10).repr] true) =
    "Q (2xSU2(j=1) + 1xSU2(j=10)) Q^-1" := by decide

example : String.ofList (Label.product (.O3 1 (-1)) (.tup .SUN [2, 1, 0])).repr =
    "TabulatedIrrepProduct(rep1=O3(l=1, p=-1), rep2=SUN(S=(2, 1, 0)))" := by decide

example : String.ofList (Label.tup .SON [3]).repr = "SON(S=(3,))" := by decide

example : String.ofList (Printing.rep "GenericRep".toList 3 3 0) = "GenericRep(dim=3, lie_dim=3, len(H)=0)" := by
  decide

example : (⟨(SU2.rep 1).A, [⟨2, (1 : ℕ)⟩], none⟩ : ReducedRep SU2.table).irreps ≠
    (⟨(SU2.rep 1).A, [⟨1, (1 : ℕ)⟩, ⟨1, (1 : ℕ)⟩], none⟩ : ReducedRep SU2.table).irreps ∧
    ofReduced (fun j : ℕ => (Label.SU2 j).repr) (⟨(SU2.rep 1).A, [⟨2, (1 : ℕ)⟩], none⟩ : ReducedRep SU2.table) ≠
    ofReduced (fun j : ℕ => (Label.SU2 j).repr)
      (⟨(SU2.rep 1).A, [⟨1, (1 : ℕ)⟩, ⟨1, (1 : ℕ)⟩], none⟩ : ReducedRep SU2.table) := by
  refine ⟨by simp, fun h => ?_⟩
  have := (C100_su2 _ _ h).1
  simp at this

example : ∃ r r' : Nested, r.repr = r'.repr ∧ r.dim ≠ r'.dim :=
  C100_nested_ambiguous (.SU2 0) (.SU2 1) 1 2 (by decide)

end LieNN.Props
