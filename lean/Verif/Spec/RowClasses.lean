import Verif.Model.CSR

/-! Specification: the classes of rows of a sparse matrix that have the same columns, in the order of their columns. -/

namespace NgsAMG.Spec

/-- columns of row `i` -/
def colsOf {E : Type*} (A : CSR E) (i : ℕ) : List ℕ := (A.row i).map Prod.fst

/-- shorter lists first, lists of the same length in lexicographic order -/
def rowLess (a b : List ℕ) : Prop := a.length < b.length ∨ a.length = b.length ∧ a < b

/-- all rows `j` with `free j` that have the same columns as row `i` -/
def classOf {E : Type*} (A : CSR E) (free : ℕ → Bool) (i : ℕ) : List ℕ := (List.range A.height).filter fun j => free j && decide (colsOf A j = colsOf A i)

/-- `Fs` are the classes of the free rows that are not empty, in the order of their columns -/
structure RowClasses {E : Type*} (A : CSR E) (free : ℕ → Bool) (Fs : List (List ℕ)) : Prop where
  cls : ∀ F ∈ Fs, F ≠ [] ∧ ∀ i ∈ F, F = classOf A free i
  cover : ∀ i, (∃ F ∈ Fs, i ∈ F) ↔ i < A.height ∧ free i = true ∧ colsOf A i ≠ []
  order : Fs.Pairwise fun F G => ∀ i ∈ F, ∀ j ∈ G, rowLess (colsOf A i) (colsOf A j)

end NgsAMG.Spec
