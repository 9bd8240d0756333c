# Formal model of pymc-experimental (`pymc_extras`) in Lean 4

## 1. Trusted base

* Lean 4.33.0's kernel, and the Mathlib definitions used in theorem statements (matrices, `PosSemidef`,
  `Real.log`, `Real.exp`, `ENNReal`, `EReal`, `gaussianReal`, polynomials, `Finset` sums, `List`).
* Axioms: only `propext`, `Classical.choice`, `Quot.sound` (the three standard ones; `#print axioms` was run on the
  property theorems during development). No axiom is added here, and no compiled evaluation is used.
* The hand translation from Python to Lean: each definition in the model carries the file and lines it translates.
  The translation is what a reader must check; everything after it is checked by the kernel.

## 2. Modelling conventions

* **Shallow and function by function.** One Lean `def` per Python function (or per branch-bearing block of it), same
  branches, same order. Exceptions are values of `Except`; mutation of Python objects is modelled by returning the new
  object; aliasing is modelled where it matters (e.g. `as_model`'s closure dictionary, lists extended in place).
* **Numbers.** PyTensor/NumPy floating point arithmetic is modelled by exact arithmetic over `ℝ` (or any field /
  commutative ring where the statement permits); rounding, overflow, and NaN propagation are not modelled. NaN is
  modelled only as a *missing* marker (`Option`-like), where the code tests for it. `-inf` log-probabilities are
  modelled with `EReal`, probabilities with `ENNReal`, so that zero probabilities are covered.
* **Tensors.** Vectors and matrices are functions on finite index types (`Fin n → ℝ`, `Matrix m n ℝ`). NumPy slices
  with negative bounds are modelled explicitly on `List`s when the slice arithmetic is the point of the property.
* **Library routines** (`solve`, `cholesky`, `qr`, `pinv`, `eig`, samplers) are modelled by their contracts: the
  theorem quantifies over every result satisfying the contract (e.g. every `B` with `BᵀB = AᵀA`), or the routine is
  replaced by the mathematical operation it computes (`F⁻¹`). These contracts are stated in the hypotheses.
* **`pytensor.scan`** is modelled by a fold that feeds sequences, previous outputs and non-sequences to the step
  function in that order; unequal lengths are truncated to the shortest (scan semantics), `go_backwards` reverses each
  sequence before truncation.
* **Random draws** are universally quantified inputs (noise sequences) or exact distributions (measures).

## 3. What is modelled and what is not

Modelled: see the table in section 4 and the citations in each file. Not modelled: PyTensor graph construction,
compilation and rewriting; PyMC's samplers, `Model` internals other than the name/value maps the code here reads;
plotting; xarray/arviz/pandas internals (only the dictionary/group structure and index arithmetic that the code
relies on); netCDF (assumed to be a faithful store of attributes and groups); SHA-256 (an uninterpreted function of the
hashed text); JAX/BlackJAX/SciPy numerical kernels; floating point error.

Layout: `lean/Verif/<Area>/Model.lean` holds the translation, `Lemmas.lean` helper lemmas, `Props.lean` the property
theorems with witnesses beside them. `Spec.lean`, where present, holds the independent specification.
