# A Lean 4 model of wesselb/matrix

## 1. What is modelled

`matrix` is a library of *structured matrices* (Zero, Dense, Diagonal, Constant,
LowerTriangular, UpperTriangular, LowRank, Woodbury, Kronecker, TiledBlocks) on
top of the numeric array library LAB (`lab`, imported as `B`).  Every operation is a
table of methods chosen by the runtime types of the operands (multiple dispatch by
`plum`), and methods call each other again through dispatch.  The property a user
relies on is always the same: *whatever types are taken on the way, the result is
the matrix dense linear algebra would have given*.

The layers, all under `lean/Verif/`:

| layer | files | what |
|---|---|---|
| shapes | `Shape` | literal model of `matrix/shape.py` in Python's axis order, and its algebra (C27) |
| tensors | `Tensor`, `TensorAlg`, `Num`, `Reshape`, `MatRep` | the numeric backend: a batched tensor is a shape and a function of the index; numpy broadcasting, matmul, reshape, take, concat, ... over an exact ordered field, with the exceptions numpy raises; batches as families of Mathlib matrices |
| matrices | `Mat`, `Struct`, `StructTr`, `StructBb`, `Constr` | the ten classes and numeric operands as one inductive type; constructors with their checks (C29); shapes, transposition, batch broadcasting |
| specification | `Spec`, `SpecOps`, `LinSpec` | `den`: the matrix a structured matrix denotes (one line per class), `Mat.WF`, `Mat.Valid`; the operations on plain matrices entry by entry; the laws assumed of the backend's linear algebra |
| core | `OpsCore` | one Lean function per method of add, multiply, matmul, dense, diag, sum over a matrix axis; calls through `B.*` go through the open-recursion record `Ops` |
| core proofs | `OpsOk`, `AlignProofs`, `OpsAdd`, `OpsMul`, `OpsMatmul`, `OpsRest`, `Mono`, `Envs`, `Api` | soundness of one unfolding, monotonicity in the fuel, strict and code environments, `Returns`/`Raises`/`Exact` |
| further operations | `OpsNeg`, `Elt`, `Sum`, `Kron`, `Take`, `Submat`, `Concat`, `Block` | negation, subtraction, division, trace, abs/sqrt/power, all sums and means, kron, take, submatrix, concat/tile/reshape, block/block_diag — model, specification and theorem in each file |
| linear algebra | `LinCore`; `LinInv`, `LinSolve`, `LinChol`, `LinDet`, `LogdetLR`, `LinRoot`, `LinAll`, `LinMono`, `LinDer`, `LinSample` | inv, pd_inv, schur, pd_schur, cholesky, solve, cholesky_solve, logdet, root, matmul_diag, iqf, iqf_diag, ratio, sample; record `LOps` |
| termination | `Term`, `TermNF`, `TermDone`, `LinTerm`, `LinDone` | weights that the recursion decreases |
| success | `Flat`, `Fine`, `FineAdd`, `FineMul`, `FineMm`, `FineAll` | no step of the core raises on supported operands |
| tolerance | `Quiet` | two environments agree on calls that add no low-rank matrices |
| methods | `Methods`, `Methods2` | operators and their reflected versions, indexing, squeeze, reshape, flatten, structured, isabstract |
| success of linear algebra | `LinFine`, `LinPd`, `LinFine2`, `Props11`, `LinQuiet`, `LinReal`, `Props12` | what a complete backend returns; domains on which inverses, factors, solutions, log-determinants and roots exist; no call raises there; the tolerance plays no part; a backend over ℝ meets all assumptions |
| classes of results | `Classes` | tables of result classes for linear algebra, element-wise functions, selection, Kronecker products; class inference for expressions |
| cancellation | `Cancel`, `Readme` | sums of low-rank matrices that cancel; the README pipeline |
| success of derived functions | `FineDer`, `QuietDer`, `Props13`, `FineTake`, `FineBlock`, `FineMd`, `LinQf`, `FineTiled` | nothing is raised (`…_calm`), and the tolerance is not consulted (`twin_…`), by the functions built on the core |
| tolerance | `Tol` | how far the tolerance in `align` and in the zero test can move a sum of low-rank matrices |
| positive rank | `Inner` | operations keep the middle factors of low-rank matrices non-empty |
| rejection, classes | `Reject`, `Kinds`, `DiagPres`, `Dispatch`, `Dispatch2` | incompatible operands are rejected, class tables of results, plum's resolution over the registered methods |
| expressions | `Expr`, `Low`, `LinExpr` | expression trees, algebraic laws, low-rank sums; expressions with inverses, quotients and solves |
| separate machines | `Cache`, `Replay`, `Dtype`, `Warn`, `WarnDer`, `WarnLin`, `WarnLin2`, `Backend`, `Rank`, `Rank2`, `Rank3`, `DFlow`, `DFlow2`, `DFlow3`, `DFlow4`–`DFlow11`, `Indent`, `Show`, `Tight` | caches over all call histories; the control-flow cache; data types; warnings as errors; dependence on the backend; numbers of factors; data types of results; `indent`; `str` and `repr` |
| properties | `Props01`–`Props10`, `Findings`, `Findings2` and the files above | the property theorems `Cnn_*`; beside each an example meeting its hypotheses; `*_refuted`, `*_unchecked`, ... exhibit inputs for which the unrestricted claim is false of the code |
| examples | `Ex`, `ExLin` | concrete rational matrices and a concrete lawful backend |

### Open recursion
Python methods call each other through dynamic dispatch without a decreasing
argument.  `Ops` is a record with one field per function in the recursive cycle;
`step env B : Ops` gives every field its method table with recursive calls going to `B`;
`ops env 0` raises `Err.fuel`, `ops env (n+1) = step env (ops env n)`.  "`B.add(a, b)` returns `r`"
(`Returns c (fun B => B.add a b) r`) is `(ops env n).add a b = .ok r` for some `n`; all partial-correctness theorems hold for every `n`,
fuel monotonicity (`Returns.unique`) shows the answer does not depend on `n`, and C35 shows that some `n` is enough.

### Vocabulary of the statements
* `Mat.Valid a`: the parts of `a` compose (what the constructors check, plus what they fail to check); `BatchCompat a b`: the batch shapes broadcast.
* `Exact c f`: no tolerance test in the run of `f` merged low-rank columns that differ or dropped a middle factor that is not zero.
  It holds trivially for runs without sums of LowRank matrices and for tolerance 0 (`Exact.of_tol`); C33 has a sufficient condition on the data
  and witnesses that the claim is false without it (the code compares batched factors by norms over the whole batch).
* `NoStretch`, `MulSafe`, `DiagOk`: the domain on which the methods for rigid classes are right; the cases outside are refuted in `Findings`.
* `CholDom`, `PdDom`, `LdDom`, `QfDom`: the matrices for which the linear-algebra methods are right; cases outside are refuted.

### Conventions and simplifications (each repeated at the definition)
* Shapes are stored **last axis first**, so that axis `-1` is position `0`, axis `-2` position `1`, and the batch
  shape is `drop 2`.  `Shape.lean` is in Python order.  Axes of size 0 are allowed everywhere.
* Arithmetic is exact over a linearly ordered field `K`; floating-point rounding is not modelled.
* `sqrt`, `log`, `inv`, `cholesky`, `solve`, `trisolve`, `logdet`, `svd` of the numeric backend are parameters (`LinEnv`) with stated laws
  (`LinEnv.Lawful`): exact results whenever they return.  LAB's Cholesky regularisation (`B.epsilon`) is not modelled.
* Division by zero, roots of negatives, logarithms of non-positives (numpy: inf/nan) are the ghost error `Err.nonfinite`.
* `B.power` only with integer exponents.
* Python object identity and mutation are absent from the main model.  `Cache.lean` keys cache slots by the contents of an object.
* `c is b` in `iqf` is a Boolean argument; the theorems cover both values when `b = c`.
* dtypes are absent from the main model; `Dtype.lean` is a separate model (promotion is a join, conversion acts entrywise), and `DFlow*.lean` follow the data types through the core.
* Warnings are absent from the main model; `Warn.lean` is a separate model of the core with `warnings.simplefilter("error")`.
* The tolerance tests of `align` and of LowRank addition are parameters of the environment: `codeEnv` (the code), `strictEnv` (stops instead of merging wrongly).

### Assumptions about code outside the repository (LAB, plum)
* plum picks the unique most specific method; `Dispatch.lean` proves that the registered add, multiply and matmul methods
  (with their precedences) always leave one (`Dispatch2.lean` for the other functions of two matrices), and the method functions of `OpsCore` are written in the resulting order.
* `B.transpose` swaps the last two axes; `B.take` on numeric operands defaults to axis 0; a mask of the wrong length is an IndexError;
  `B.diag` constructs from rank 1 and extracts from rank 2; `resolve_axis` raises ValueError out of range; `uprank` makes a vector a column;
  `B.kron` on numeric operands needs rank 2; `B.submatrix` is two `take`s; `B.tile` is `np.tile`; `B.concat2d` is axis −1 then −2;
  `B.squeeze` of a one-element list returns the element; `B.control_flow` is a queue of named outcomes (one queue or one per name);
  numeric `B.cholesky_solve` is two triangular solves; numeric `B.logdet` is log|det|.
* Data types (C59): addition, multiplication, matrix multiplication, `B.kron`, `B.concat` and `B.stack` of arrays give the promotion of their data types, `B.zeros`/`B.ones(dtype, …)` give `dtype`,
  and transposing, reshaping, broadcasting, indexing, summing and extracting a diagonal keep the data type; a Python number counts as an array with a data type of its own.
  In linear algebra: matrices have floating-point data types, `B.inv`, `B.cholesky`, `B.svd`, `B.log`, `B.sqrt` and division by a Python integer keep the data type of an array, `B.solve` and
  `B.triangular_solve` promote, a product with a Python integer keeps the data type of the array, and the square root of a Python integer has a data type `f` which is a parameter.

### Not modelled
`B.jit_to_numpy`, `B.lazy_shape` and backends other than eager arrays; the backend's own conversion in `B.to_numpy` and its indexing with slices, masks and index arrays in `a[...]` (parameters in `Methods2`); the formatting of arrays in `repr` (a parameter of `Show`);
float rounding; random-number generation beyond "standard noise".

## 2. Trusted base
* Lean 4.33.0's kernel; axioms `propext`, `Classical.choice`, `Quot.sound` only (checked with `#print axioms` by vcheck).
* The fidelity of the model to `/repo` (each definition cites file and lines), of the tensor layer to numpy/LAB, and of the resolver to plum.
* The statements in `Spec`, `SpecOps`, `LinSpec` and of the theorems `Cnn_*`.

## 3. Findings: where the code does not satisfy the unrestricted property
Each is a theorem with a witness (or a general statement):
`C01_stretch_refuted` (1×1 rigid operands are not broadcast), `C01_vector_refuted` (an array of rank one is a column, not a row as in numpy), `C40_matmul_lowrank_unchecked`, `C40_matmul_constant_unchecked`, `C40_matmul_kron_unchecked` (products of incompatible batches that return a malformed matrix), `C02_kron_refuted` and `C11_kron_refuted` (diagonal of a Kronecker product of non-square factors),
`C13_lowrank_batched_refuted`, `C13_zero_out_of_range`, `C14_diagonal_repeated_refuted`, `C14_triangular_permuted_refuted`,
`C16_single_numeric_rejected`, `C16_single_numeric_refuted`, `C20_lowrank_refuted`, `C21_lowrank_refuted`, `C22_logdet_lowrank_refuted` (`B.logdet` of a square `LowRank(left)` takes a Cholesky factor of `left`), `C23_zero_refuted`, `C23_matmul_diag_refuted`,
`C24_zero_unchecked`, `C29_lowrank_unchecked`, `C30_shared_schur_refuted`, `C33_batched_refuted`, `C33_tolerance_refuted`, `C34_power_zero_refuted`,
`C35_logdet_zero_refuted`, `C35_logdet_constant_refuted`, `C40_triangular_constant_unchecked`, `C44_triangular_silent`, `C44_lowrank_needless`, `C54_take_triangular_silent`, `C54_sum_triangular_silent`, `C54_block_needless`, `C54_kron_needless`,
`C45_multiply_kron_refuted`, `C45_multiply_rank0_refuted`, `C45_matmul_kron_refuted`, `C45_matmul_kron_empty_refuted`, `C45_diag_kron_refuted`,
`C45_add_empty_batch_refuted`, `C45_diag_tiled_refuted`, `C45_tiled_refuted` (for every TiledBlocks matrix: no negative, sum, diagonal, trace, nor product with a Dense, triangular or TiledBlocks matrix), `C45_lowrank_kron_refuted`,
`C46_add_refuted`, `C46_matmul_refuted`.
`C02_stretch_refuted` and `C12_stretch_refuted` (again 1×1 operands: a Constant times a Diagonal matrix, the sum of a Woodbury matrix), `C18_batch_unchecked` (`B.kron` of incompatible batches), `C34_sqrt_kron_refuted` (`B.sqrt` of a Kronecker product of negative factors is nan).
`C31_kron_zero`: `B.kron` of two Zero matrices never returns if the later call of `proven()` gives the higher precedence (the order is not visible in this repository; `kronM` assumes the earlier one wins).
`C58_among_refuted`: two LowRank matrices with the same factors in a different order, two of them with the same norm, add up to one with more factors.
`C57_cholesky_woodbury_finding`: the Cholesky factor and the root of a Woodbury matrix need the backend on the whole matrix.
`C59_add_zero`, `C59_multiply_zero`, `C59_matmul_zero`, `C59_cancel`, `C59_cholesky_constant`, `C59_cholesky_double` (`B.sqrt(a.cols)` of a Python integer), `C59_cholesky_lowrank` (the right factor is ignored), `C59_solve_zero`, `C59_block_zero` (a block matrix of Zeros takes the type of the first block): where results do not have the promoted data type.

## 4. Wrong programs
`seeded/run.py` edits a definition of the model in a scratch copy, rebuilds, and records which theorems fail; `seeded/LOG.jsonl` is the log.

## 5. Plan per property
(see `MANIFEST.json` for the current status)
* **C01 Addition agrees with dense addition** — model every method of add.py; prove den(result) = broadcast sum by induction on fuel over the open recursion; partial-correctness of LowRank+LowRank through an align lemma.
* **C02 Element-wise multiplication agrees with dense multiplication** — as C01 for multiply.py.
* **C03 Matrix multiplication agrees with dense matrix multiplication** — as C01 for matmul.py (Kronecker reshaping included).
* **C04 B.dense returns the matrix that a structured matrix denotes** — dense.py against the one-line denotation in Spec.lean.
* **C05 Reported shape equals the shape of the dense matrix** — structural induction: shape functions vs the shape of den.
* **C06 Transposition** — structural induction over all classes.
* **C07 Negation, subtraction and division by a constant** — compose negative with C01, divide with C02.
* **C08 Scalars promote to constants and broadcast** — promote (promote.py) vs rank-0 broadcasting.
* **C09 Structure is preserved where promised** — decide the result kind of each method; theorem per promised closure.
* **C10 Triangular wrappers hold triangular data** — the triangular part of WF preserved by every operation.
* **C11 Diagonal extraction and trace** — diag.py, trace.py vs extraction from den.
* **C12 Sums and means** — sum.py, mean.py vs sums of den over an axis.
* **C13 Taking rows, columns or batch elements** — take.py vs index selection from den.
* **C14 Submatrices** — submatrix.py; negation witnesses for Diagonal with repeated and triangular with permuted indices.
* **C15 Block matrices** — block.py: induction over the grid.
* **C16 Block-diagonal matrices** — block_diag.py: induction over the list of blocks.
* **C17 Concatenation, tiling and reshaping** — concat.py, tile.py, TiledBlocks dense.
* **C18 Kronecker products** — kron.py, Kronecker matmul by reshaping (div/mod index algebra).
* **C19 Inverse** — inv.py with backend inverse as parameter; matrix inversion lemma proved over a non-commutative matrix algebra.
* **C20 Positive-definite inverse** — pd_inv.py, cholesky as parameter.
* **C21 Cholesky factor reproduces the matrix** — cholesky.py.
* **C22 Log-determinant** — logdet.py with log a homomorphism on positives; determinant lemma via Mathlib Matrix.det.
* **C23 Quadratic forms, ratios and product diagonals** — iqf*.py, ratio.py, matmul_diag.py.
* **C24 Solving linear systems** — solve.py, cholesky_solve.py, triangular_solve.py. `TriWarn`: the flag of triangular_solve and its UserWarning.
* **C25 Square roots** — root.py, svd as parameter.
* **C26 Samples have the right covariance** — sample.py: linear map of abstract noise with identity covariance.
* **C27 Shape broadcasting algebra** — Shape.lean literal model; full algebra.
* **C28 Broadcasting a matrix** — broadcast_to.py, broadcast_batch_to.py, util.align_batch.
* **C29 Constructors accept exactly well-formed input** — constructor functions return ok iff arguments are well formed.
* **C30 Caching is invisible** — state machine over call histories with cache slots; negation witness for schur/pd_schur.
* **C31 Dispatch is total and unambiguous** — literal method tables and a model of plum resolution; decide over the finite table of kinds. `Dispatch2`: the same for solve, cholesky_solve, kron, divide, ratio and matmul_diag, with the bodies of the methods against the model's functions.
* **C32 Aligning low-rank factors** — align as a list algorithm; invariants by induction on the loop.
* **C33 Sum of low-rank matrices is exact in every batch element** — negation with a witness; exactness theorem under the strict environment.
* **C34 Element-wise functions** — abs.py, sqrt.py, power.py; negation witnesses for exponent 0.
* **C35 Every operation terminates** — fuel monotonicity; existence of enough fuel on a measure; negation for logdet(Constant).
* **C36 Whole expressions agree with dense evaluation** — expression trees; induction.
* **C37 Algebraic laws survive structure** — corollaries of C01-C06.
* **C38 Three-factor products associate freely** — both branches of the cost test.
* **C39 Batch elements are independent** — batch slicing commutes with den and hence with every operation; `BatchInd`: induction over pairs of expressions of the same form (values agree in a batch element in which the matrices agree), and log-determinants; `BatchInd2`: quadratic forms, ratios, diagonals, traces and Kronecker products.
* **C40 Incompatible operands are rejected** — ok implies compatible; negation witnesses where the code has no check.
* **C41 Data types** — separate dtype model over any join-semilattice.
* **C42 Display** — indent on character lists; `Show.lean`: `str` and `repr` as functions to character lists over the data-type model (shapes print as Python tuples, arrays through an arbitrary function); parsing back the fields shows that `str` is faithful; `repr` by induction on the matrix.
* **C43 Control-flow caching replays decisions** — record/replay state machine.
* **C44 Densification warnings** — the core with warnings as errors; soundness (no silent densification) and exactness for single-array classes; `WarnLr`: products of LowRank matrices.
* **C45 Supported operations succeed** — `Flat.lean`: results of supported operands are supported (Kronecker nesting is preserved); `Fine*.lean`: by induction on the recursion depth, no step of the core raises on operands that meet the conditions (`Ops.Fine`), using the value theorems for the shapes of intermediate results; `Props08.lean`: with termination (C35) the call returns; refutations for each condition. `FineTiled.lean`: TiledBlocks of supported blocks, by the shapes of the broadcast blocks.
* **C46 The tolerance affects only sums of low-rank matrices** — `Quiet.lean`: by induction on the recursion depth, two environments that agree on which scalars are numbers give the same outcome on calls that add no low-rank parts; the classes of intermediate results come from the tables of C09.
* **C47 Total correctness of expressions** — `Inner.lean`, `Props10.lean`: induction on the expression; every intermediate result stays in the supported domain (no Kronecker factors: `Flat`; positive inner rank: `Inner`), so C45 applies at each node, and C36 gives the value.
* **C48 Methods of a matrix** — `Methods.lean`: Python's operator protocol over the core functions, integer indexing by recursion over the index tuple, `squeeze`/`reshape`/`flatten` against row-major order, `structured` and `B.isabstract` by recursion over arguments and parts. `FineTri`: the shapes `reshape` accepts, both ways (`C48_reshape_returns`, `C48_reshape_impossible`).
* **C49 Effect of the tolerance** — `Tol.lean`: the run of the code's environment is followed directly (no exactness hypothesis); merged columns differ entrywise by at most ε because the mean square difference is below the tolerance; the difference of the two products is then bounded term by term; the zero test bounds the sum of the absolute entries of the joined middle factor.
* **C50 Linear algebra succeeds** — `LinFine`/`LinFine2`: `LinEnv.Complete` says the backend returns wherever the result exists; by induction on the recursion depth no function raises on its domain, using the value contracts (C19–C25) to know that Schur complements are again invertible or positive definite (`LinPd`: PD M and PD D give PD (M⁻¹ + Lᵀ D⁻¹ L)). `LinQuiet`: the runs under two environments are equal, so the exactness hypothesis is dropped (`*_always`). `LinReal`: `realLin` returns by choice what the specification describes; completeness needs Cholesky factors (recursion over the Schur complement), spectral decompositions (Mathlib) and inverses. `LinQf`: quadratic forms, ratios and samples (a square factor of an invertible matrix is invertible, solutions are never Kronecker products). `FineTri`: `triangular_solve`.
* **C51 Classes of results** — `Classes`: case analysis per method, induction on the recursion depth for linear algebra (the Woodbury inverse goes through C09 for Diagonal + LowRank), induction on the expression for whole expressions.
* **C52 Cancellation** — `Cancel`: with equal columns the alignment merges every column with its partner (the sort is by the same norms, so the order agrees), the joined middle is the entry-wise sum, which is zero, so the zero test fires. `Readme`: the structure of `inv` of a Woodbury matrix is computed, the two inverses give back opposite middles, then `C52_lowrank_cancel`.
* **C53 Derived functions succeed** — termination (C35) leaves two outcomes; `…_calm` lemmas exclude every exception, by cases on the class (by induction on the fuel for `B.take`), from the success of the core (`Ops.Fine`, C45); `twin_…` lemmas show that the run does not depend on the tolerance, so `Exact` holds; the value then comes from C07, C11–C17, C23, C34.
* **C54 Derived functions warn** — `WarnDer.lean`: each function again, with its warnings as errors, over the core with warnings as errors (`Warn`); `Erases` relates the two versions; a run without warning cannot return a Dense matrix, by cases on the class (with the tables of C51 and the silence lemmas of C44 for the recursive calls). Also modelled: the warnings of products of Kronecker and LowRank matrices (reshaping, indexing a structured 1×1 middle) and of densifying `TiledBlocks`. `WarnKept`: where the structure is kept there is no warning.
* **C55 Expressions with inverses** — `LinExpr.lean`: the tree type with `inv`, `solve` and division, a relation `Denotes` between trees and dense arrays built from the specification relations only, evaluation with the library by induction (contracts `Ops.Ok`, `LOps.Ok`), uniqueness of the denotation without `solve`, hence independence of the representation and the laws of inverses.
* **C56 Warnings of linear algebra** — `WarnLin.lean`: the functions of `LinCore` with their warnings over the core with warnings (`Warn`), related by `LOps.Below`; a warning follows by cases on the class from the tables of C51. `WarnLin2.lean`: `LSil`, by induction on the recursion depth, says that whatever the plain run returns the run with warnings returns too, for matrices built from arrays; it carries along that the inverse of such a Woodbury matrix is again one.
* **C57 What is asked of the backend** — `Backend.lean`: two backends that agree on matrices with at most `s` rows and columns (`LinEnv.AgreeUpTo`; nothing is assumed on larger ones) give equal runs, by induction on the recursion depth (`LAgree`), which also carries the bounds on rows and columns of inverses, Cholesky factors, triangular solutions and so of Schur complements. `LinEnv.limit` is the backend that refuses larger matrices. Finding: `B.cholesky` and `B.root` of a Woodbury matrix hand the whole matrix to the backend (`C57_cholesky_woodbury_finding`).
* **C58 Low rank stays low** — `Rank.lean`, `Rank2.lean`, `Rank3.lean` (factors in another order: by induction on the sorted columns, those of one matrix are a sublist of those of the other, so every step of `align` uses up a column of the longer list): `Mat.factorsLe p q` bounds the columns of the outer factors; it is preserved with `p + p'`, `p * p'`, `mmLeft`/`mmRight` by every method of `B.add`, `B.multiply`, `B.matmul` (induction on the recursion depth; the merge of columns in the sum of LowRank matrices is bounded with the slots of `align`, and for equal factors with `align_same` of C52). Trees of operators by induction (`Expr.FactorsLe`). The reported rank (`rankAttr`) bounds Mathlib's `Matrix.rank` of every batch element. Factors that are themselves structured matrices other than Dense are not counted.
* **C59 Results have the promoted data type** — `DFlow`: matrices without values (`DM`: class and data types) and one rule per method for the data types of the result (`Runs`, each rule citing its method); `DFlow2`: by induction on the recursion depth every run of the value model is followed by a derivation of `Runs` (`ops_cov`); `DFlow3`: by induction on derivations the data types of the result are in the closure of those of the operands (`Runs.all`) and, without zeros, an upper bound of the result is one of the operands (`Runs.exact`). A rule may allow more results than the code has (for example whether `B.broadcast_to` keeps the class), never fewer. `DFlow4`–`DFlow7` do the same for linear algebra (rules `LRuns`, coverage `lops_cov`; `lopsPlain` is the run that stops at a Cholesky factor of a Constant or LowRank matrix) and for expressions over typed matrices and numbers (`TExpr`). `DFlow8` does it for the derived functions, `DFlow9` for `B.sample`, `DFlow10` for `B.block` and `B.block_diag`, `DFlow11` for `B.take`, `B.submatrix`, `B.tile` and `B.concat`.
* **C60 Programs refine dense programs** — `Prog`, `Prog2`: calls as data (`Call`, `Obs`, with operands of any type), run by the model (`run`) and specified on dense arrays (`Spec`); stepwise refinement between histories of the two, by the theorems of the single operations; the specifications determine their results, so histories do not depend on representations. `Prog3`: histories are deterministic (more nested calls of `B.take` change nothing), and a program runs to its end unless it reaches a call whose operands lie outside the domains of C45, C50 and C53 (`Call.Ready`). `Prog4`: the same for the observations at the end. `Prog5`: representation does not matter to programs that solve regular systems (`DeterminedOn`), nor to observations; an example solves with a Woodbury matrix and with its dense form.
