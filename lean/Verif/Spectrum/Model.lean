import Verif.Graph.Matrix
import Mathlib.LinearAlgebra.Matrix.Charpoly.Basic
import Mathlib.Data.Multiset.Sort
import Mathlib.Data.Real.Basic
import Mathlib.Algebra.Polynomial.Roots

/-!
# Spectrum of the Laplacian (`src/matrix.c` 84-138)
-/

namespace GR

/-- `gsl_eigen_symm` and `gsl_sort_vector`: the eigenvalues (roots of the characteristic polynomial, with multiplicity) in increasing
order of the symmetric matrix whose diagonal and lower part are those of `A`; GSL does not look at the upper part.  Rounding is
left out. -/
noncomputable def eigSymm (n : ℕ) (A : Mat) : List ℝ :=
  (Matrix.charpoly (Matrix.of fun i j : Fin n => ((A (max i j) (min i j) : Int) : ℝ))).roots.sort (· ≤ ·)

/-- `LaplacianSpectrum`, src/matrix.c:84-113.  Without nodes `gsl_eigen_symm_alloc` calls the error handler of GSL, which aborts;
after `NULL` from `LaplacianMat` it is followed. -/
noncomputable def LaplacianSpectrum (net : Net) : Option (List ℝ × Net) := do
  let (L, net') ← (← LaplacianMat net)
  if net.n = 0 then none else some (eigSymm net.n L, net')

/-- `Synchronizability`, src/matrix.c:119-138: the loop takes the first value of the vector that is not below `1e-10`; past the end
`gsl_vector_get` aborts. -/
noncomputable def Synchronizability (net : Net) : Option (ℝ × Net) := do
  let (spec, net') ← LaplacianSpectrum net
  let lN ← spec[net.n - 1]?
  let l2 ← spec.find? fun x => ¬ x < 1 / 10 ^ 10
  return (lN / l2, net')

end GR
