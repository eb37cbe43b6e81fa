#!/usr/bin/env python3
"""Regenerates /verif/properties.jsonl."""
import json
P=[]
def p(title, statement, quantifier, why, anchors):
    P.append(dict(id="C%02d"%(len(P)+1), title=title, statement=statement, quantifier=quantifier, why_tests_cant=why, anchors=anchors))

p("Addition agrees with dense addition",
  "For any two well-formed matrices a, b (structured or numeric) with broadcastable batch shapes, such that broadcasting does not stretch the rows or columns of a Diagonal, triangular, LowRank, Woodbury or Kronecker operand and such that the tolerance tests that merge low-rank factors are right (C33), if B.add(a, b) returns r then r is well formed and B.dense(r) equals the numpy-broadcast element-wise sum of B.dense(a) and B.dense(b): same shape, same entries.",
  "every pair of matrix types (Zero, Dense, Diagonal, Constant, LowerTriangular, UpperTriangular, LowRank, Woodbury, Kronecker, TiledBlocks, numeric, scalar), every batch shape, every matrix shape, every entry value, nested factors of any depth",
  "the dispatch table has ~30 methods which call each other on intermediate results; tests fix 6x6 matrices, batch () or (3,) and random entries",
  ["matrix/ops/add.py:add","matrix/ops/algorithms/align.py:align","matrix/ops/broadcast_to.py"])
p("Element-wise multiplication agrees with dense multiplication",
  "For well-formed a, b with broadcastable batch shapes, no structured operand stretched by broadcasting and, where a diagonal is read off a Kronecker product, square right factors, if B.multiply(a, b) returns r then B.dense(r) equals the broadcast element-wise product of B.dense(a) and B.dense(b).",
  "every pair of matrix types, shapes, batch shapes, values",
  "tests sample types at one size; broadcasting of 1xn, nx1 and 1x1 operands against each structured type is open-ended",
  ["matrix/ops/multiply.py:multiply"])
p("Matrix multiplication agrees with dense matrix multiplication",
  "If B.matmul(a, b, tr_a, tr_b) returns r then B.dense(r) equals the batched matrix product of (B.dense(a) transposed if tr_a) and (B.dense(b) transposed if tr_b).",
  "every pair of matrix types, all four transpose flags, all shapes and batch shapes, values",
  "the Woodbury, LowRank and Kronecker methods recurse into add, multiply, sum and reshape; no finite set of sizes covers the index arithmetic",
  ["matrix/ops/matmul.py:matmul"])
p("B.dense returns the matrix that a structured matrix denotes",
  "B.dense of a structured matrix, when it returns, is the matrix given by the mathematical definition of its type: diag(d), c*ones, L M R^T, D + L M R^T, the Kronecker product, the concatenation of tiled blocks.",
  "every matrix of every type, nested to any depth, any batch shape",
  "dense of a low-rank matrix itself goes through the structured matmul and its cost-based association order",
  ["matrix/ops/dense.py:dense","matrix/ops/matmul.py:matmul"])
p("Reported shape equals the shape of the dense matrix",
  "B.shape(a) = B.shape_batch(a) + B.shape_matrix(a) equals the shape of B.dense(a), and B.rank(a) its rank.",
  "every well-formed matrix of every type, any nesting",
  "shape is computed structurally by separate code from dense; agreement must hold for all nestings",
  ["matrix/ops/shape.py","matrix/ops/shape_batch.py","matrix/ops/shape_matrix.py","matrix/ops/rank.py"])
p("Transposition",
  "B.transpose(a) (a.T) denotes the transpose of a in every batch element, keeps the type (lower and upper triangular swap), and transposing twice denotes a again.",
  "every matrix type and nesting, all shapes",
  "needs all shapes and nestings, including the axis arithmetic of TiledBlocks",
  ["matrix/ops/transpose.py"])
p("Negation, subtraction and division by a constant",
  "-a denotes the entry-wise negation; a - b denotes the difference; a / c for a Constant or scalar c denotes the quotient.",
  "every matrix type, shapes, values with c non-zero",
  "subtraction goes through negation and the whole addition table",
  ["matrix/ops/negative.py","matrix/ops/subtract.py","matrix/ops/divide.py"])
p("Scalars promote to constants and broadcast",
  "Combining a matrix with a Python number or rank-0 tensor x acts as if x were the matrix filled with x: 2 * a scales every entry and a + 1 adds one to every entry; the number 0 acts as a Zero matrix.",
  "every scalar (zero or not), every matrix",
  "zero and non-zero scalars take different paths for every type",
  ["matrix/promote.py:convert","matrix/ops/add.py","matrix/ops/multiply.py"])
p("Structure is preserved where promised",
  "The result type of add, multiply and matmul follows a fixed table of the operand types (and, for triangular matrices, the transpose flags), e.g. Diagonal op Diagonal is Diagonal, Diagonal + LowRank and Diagonal + Constant are Woodbury, LowerTriangular is closed under +, * and @, Kronecker @ Kronecker is Kronecker, Zero is absorbing for * and @; where the type can depend on values (sums of LowRank parts may collapse to Zero) the table lists all possibilities. Adding a Zero matrix that is not larger returns the other operand itself.",
  "every pair of operands of the named types, all values and shapes",
  "tests check isinstance at sample values; value-dependent type changes (e.g. LowRank sum collapsing to Zero) exist",
  ["matrix/ops/add.py","matrix/ops/multiply.py","matrix/ops/matmul.py","matrix/ops/inv.py"])
p("Triangular wrappers hold triangular data",
  "Every LowerTriangular (UpperTriangular) matrix returned by an operation on valid operands (for B.submatrix: with increasing indices, see C14) has only zeros above (below) the diagonal, so that the triangular solver applied to it is right.",
  "every operation returning a triangular matrix, all shapes, values and index lists",
  "the wrapper is never checked at run time; a non-triangular payload is silently misread by solve and logdet",
  ["matrix/triangular.py","matrix/ops/add.py","matrix/ops/multiply.py","matrix/ops/matmul.py","matrix/ops/submatrix.py"])
p("Diagonal extraction and trace",
  "B.diag(a) is the vector of entries a[i,i], i < min(rows, cols), for every batch element, and B.trace(a) is their sum, for every matrix in which the right factors of Kronecker products are square.",
  "every matrix type, rectangular shapes, batches",
  "the low-rank and Kronecker formulas avoid forming the matrix; tests use square samples",
  ["matrix/ops/diag.py","matrix/ops/trace.py","matrix/ops/diag_extract.py"])
p("Sums and means",
  "If it returns, B.sum(a, axis) equals summing B.dense(a) over that axis (None, matrix axes, batch axes, negative or positive numbering), and B.mean(a, axis) is that sum divided by the number of summed entries; an out-of-range axis raises ValueError.",
  "every matrix type, every axis in both numberings, every shape",
  "structured formulas for low-rank, Woodbury and Kronecker sums interact with batch broadcasting",
  ["matrix/ops/sum.py","matrix/ops/mean.py"])
p("Taking rows, columns or batch elements",
  "If it returns, B.take(a, indices_or_mask, axis) denotes the selection of those indices (or of the mask's True positions) of B.dense(a) along the axis and is well formed, for indices in range (negative ones count from the end) and masks of the axis's size, where for rows (columns) numeric left (right) factors of LowRank parts are not batched; an axis out of range raises ValueError. For rows of a LowRank matrix with batched numeric factors the claim is false, and Zero matrices do not reject indices out of range.",
  "every matrix type, every index list and boolean mask, every axis in both numberings, every batch shape",
  "index lists are unbounded; repeated, negative and permuted indices must all work",
  ["matrix/ops/take.py"])
p("Submatrices",
  "If it returns, B.submatrix(a, indices_or_mask) denotes the matrix of the selected rows and columns of B.dense(a), in the order of the indices, for indices in range (negative ones count from the end) that do not repeat if a is a Diagonal or Woodbury matrix, and numeric factors of LowRank parts that are not batched; the result is well formed if moreover the indices are increasing for triangular matrices. For repeated indices into a Diagonal matrix, and for permuted indices into a triangular matrix (whose result is wrapped as triangular but is not), the claim is false.",
  "every matrix type and every index list or mask, including repeated and permuted indices",
  "tests use only increasing index lists",
  ["matrix/ops/submatrix.py"])
p("Block matrices",
  "If B.block(rows...) of matrices that form a grid (equal heights in every row, equal widths in every column, at least one column) returns, it denotes the block matrix over the broadcast batch shape, whether or not a Zero or Diagonal shortcut is taken; a grid of Zero blocks gives a Zero, a square grid with square Diagonal or Zero blocks on the diagonal and Zero elsewhere a Diagonal (or Zero).",
  "every grid size, block types, block shapes forming a grid, batch shapes",
  "the number of rows and columns of the grid and the block types are unbounded",
  ["matrix/ops/block.py"])
p("Block-diagonal matrices",
  "If B.block_diag(blocks...) returns, for operands other than one single numeric matrix, it denotes the block-diagonal matrix over the broadcast batch shape; for one TiledBlocks argument (other than of one single numeric block) it is the block-diagonal matrix of every block repeated its number of times; Zero operands give a Zero, Diagonal operands a Diagonal. (For one single numeric matrix with a row the unchanged code raises, and for a batch of matrices it puts the batch on one diagonal.)",
  "any number of blocks of any type and shape",
  "running column offsets over an unbounded list of blocks",
  ["matrix/ops/block_diag.py"])
p("Concatenation, tiling and reshaping",
  "If they return, B.concat of matrices whose shapes agree except along the axis, B.tile and B.reshape denote the numpy concatenation, tiling and (row-major) reshaping of the dense operands; concatenating TiledBlocks along their axis returns the TiledBlocks of all the blocks in order; tiling a Zero or Constant matrix with a number of repetitions other than its rank, and reshaping to another number of entries, raise ValueError.",
  "any number of blocks and repetitions, every axis in both numberings",
  "unbounded repetition counts and axis arithmetic",
  ["matrix/tiledblocks.py","matrix/ops/concat.py","matrix/ops/tile.py","matrix/ops/reshape.py","matrix/ops/dense.py","matrix/ops/shape.py"])
p("Kronecker products",
  "B.kron(a, b) of matrices with broadcastable batch shapes returns and denotes the Kronecker product, and Kronecker matrix products computed by reshaping (in either cost order) equal the product with the dense Kronecker matrix.",
  "every pair of factors and every right-hand side, all sizes",
  "div/mod index arithmetic for all sizes; tests use a handful of factorisations of 6",
  ["matrix/ops/kron.py","matrix/ops/matmul.py:_kron_id_a_b","matrix/ops/matmul.py:_kron_a_id_b"])
p("Inverse",
  "If B.inv(a) returns r then r is a two-sided inverse of a in every batch element; for Woodbury matrices r is again a Woodbury matrix (matrix inversion lemma).",
  "every Dense, Diagonal, Woodbury and Kronecker matrix for which it returns; all ranks and sizes",
  "the matrix inversion lemma must hold for all ranks, sizes and non-symmetric factors",
  ["matrix/ops/inv.py","matrix/ops/schur.py"])
p("Positive-definite inverse",
  "If B.pd_inv(a) returns r then r is the inverse of a in every batch element, for every a whose numeric, Dense and LowRank-middle parts are symmetric, whose LowRank and Woodbury parts have equal left and right factors (numeric or Dense ones for Woodbury) and whose LowRank parts are not made of plain arrays only; for a Woodbury matrix r is a Woodbury matrix. For a LowRank matrix made of plain arrays the claim is false (the code takes a non-triangular factor as triangular).",
  "every symmetric positive-definite matrix of every type supported by pd_inv in the stated domain, all sizes, ranks and batch shapes; the numeric Cholesky factorisation and solves of the backend are any lawful ones",
  "goes through Cholesky factors, triangular solves and the Schur complement for all sizes",
  ["matrix/ops/pd_inv.py","matrix/ops/pd_schur.py","matrix/ops/cholesky_solve.py"])
p("Cholesky factor reproduces the matrix",
  "If B.cholesky(a) returns L then L L^T denotes a in every batch element, for every a whose numeric, Dense and Woodbury parts are symmetric and whose LowRank parts have equal left and right factors; for Dense and Woodbury a, L is a LowerTriangular matrix, for Diagonal a a Diagonal one. For a symmetric LowRank matrix with different left and right factors the claim is false (the right factor is ignored).",
  "every supported type and size",
  "constant, low-rank and Kronecker factors are closed formulas that must hold for all sizes",
  ["matrix/ops/cholesky.py"])
p("Log-determinant",
  "If B.logdet(a) returns v then, in each batch element, det(B.dense(a)) is not zero and v is the logarithm of its absolute value, hence of the determinant where that is positive, for numeric, Dense symmetric, Diagonal, triangular and Kronecker matrices and for Woodbury matrices with equal numeric or Dense factors, and for LowRank matrices with equal numeric outer factors and a numeric symmetric middle. (For a square LowRank matrix with the default middle factor the value is wrong; for Zero and Constant matrices the call never returns, see C35.)",
  "every supported type and size",
  "matrix determinant lemma and the Kronecker determinant formula for all sizes",
  ["matrix/ops/logdet.py"])
p("Quadratic forms, ratios and product diagonals",
  "If they return: B.iqf(a, b, c) denotes b^T a^{-1} c unless b and c are both Zero, B.iqf_diag(a, b, c) is its diagonal, B.ratio(a, b) is the trace of b^{-1} a, for a (b) in the domain of the Cholesky factor (C21) or, for Woodbury, of pd_inv (C20); B.matmul_diag(a, b) is the diagonal of the matrix product when that is square. Outside these conditions the claims are false (iqf of two Zero matrices drops the batch of a, matmul_diag broadcasts for a non-square product).",
  "every supported operand type, sizes, transpose flags",
  "several type-specific shortcuts must agree for all sizes",
  ["matrix/ops/iqf.py","matrix/ops/iqf_diag.py","matrix/ops/ratio.py","matrix/ops/matmul_diag.py"])
p("Solving linear systems",
  "If B.solve(a, b) returns x then a x denotes b, or b is a Zero matrix and x is b itself (shapes are not compared in that case); if B.cholesky_solve(l, b) returns x then l l^T x denotes b, for b not Zero and numeric l lower triangular; triangular_solve of a triangular matrix and a structured right-hand side ignores its flag, issues a UserWarning exactly when the flag asks for the other triangle, and solves with the matrix's own triangle.",
  "every supported pair of types, all sizes",
  "each type takes its own path (triangular solve, inverse, dense)",
  ["matrix/ops/solve.py","matrix/ops/cholesky_solve.py","matrix/ops/triangular_solve.py"])
p("Square roots",
  "If B.root(a) returns s then s is symmetric and s s denotes a in every batch element, for every a whose numeric, Dense, LowRank and Woodbury parts are symmetric positive semi-definite.",
  "every supported type and size", "closed formulas for all sizes", ["matrix/ops/root.py"])
p("Samples have the right covariance",
  "If the random numbers the backend delivers have mean zero, unit variance and are uncorrelated, the columns of B.sample(a, num) have mean zero and covariance a in each batch element and different batch elements are uncorrelated; for Woodbury matrices the two independently drawn parts add up to covariance D + L M R^T. B.sample returns exactly the factor of C21 times the drawn noise. Domain of a: as in C21.",
  "every covariance matrix type and number of samples",
  "a statistical property: tests can only estimate it",
  ["matrix/ops/sample.py"])
p("Shape broadcasting algebra",
  "expand_and_broadcast implements numpy broadcasting: it succeeds exactly when, aligned at the last axis, dimensions are equal or one of them is 1, returns the larger dimension, and is commutative, associative (including which inputs fail), idempotent with unit (). compatible(s1, s2) is True exactly when it succeeds.",
  "all shapes of all ranks, including zero dimensions; any number of shapes",
  "infinitely many shapes; associativity of failure needs a proof",
  ["matrix/shape.py:broadcast","matrix/shape.py:expand_and_broadcast","matrix/shape.py:compatible"])
p("Broadcasting a matrix",
  "B.broadcast_to(a, *shape) and B.broadcast_batch_to(a, *batch) denote the numpy broadcast of B.dense(a) whenever the target is a legal broadcast; broadcast_batch_to keeps the type.",
  "every matrix type and target shape",
  "target shapes are unbounded", ["matrix/ops/broadcast_to.py","matrix/ops/broadcast_batch_to.py","matrix/ops/util.py:align_batch"])
p("Constructors accept exactly well-formed input",
  "Constructors raise for every ill-formed argument (too few dimensions, mismatched factor dimensions, incompatible diagonal and low-rank parts) and otherwise build a matrix with the given parts; Constant broadcasts its constant over an explicit batch shape. One case is not checked: LowRank(left, middle=m) without a right factor does not compare the columns of m with those of left, and accepts factors whose product does not exist.",
  "all argument shapes", "unbounded shapes",
  ["matrix/constant.py","matrix/diagonal.py","matrix/lowrank.py","matrix/woodbury.py","matrix/triangular.py","matrix/tiledblocks.py"])
p("Caching is invisible",
  "What B.dense, B.cholesky, B.schur, B.pd_schur, B.logdet, B.inv and B.pd_inv return on a matrix does not depend on which of these were called before, in which order or how often, provided that the Schur complement of a Woodbury matrix was only computed where schur and pd_schur agree (a Diagonal middle factor, or a symmetric Dense one that both inverses accept). Without that proviso it is false, because the two share one cache slot: after logdet or pd_inv, inv of a Woodbury matrix with a non-symmetric middle factor is wrong.",
  "every finite history of calls on one object",
  "histories are unbounded; schur and pd_schur share one cache slot",
  ["matrix/ops/dense.py","matrix/ops/cholesky.py","matrix/ops/schur.py","matrix/ops/pd_schur.py"])
p("Dispatch is total and unambiguous",
  "For every pair of matrix types, B.add, B.multiply, B.matmul, B.solve, B.divide, B.kron, B.ratio and B.matmul_diag resolve to exactly one method (never an ambiguity error), with TiledBlocks unsupported by matmul only where stated, B.cholesky_solve to at most one; which of two equally specific methods for Zero matrices is taken does not matter (for B.kron of two Zero matrices it does: one of them calls itself forever).",
  "all pairs of the ten matrix types, with the registered methods, redirects and precedences",
  "the resolution algorithm over ~90 registered signatures with redirects; adding a type or method silently creates ambiguities",
  ["matrix/ops/add.py","matrix/ops/multiply.py","matrix/ops/matmul.py","matrix/ops/solve.py","matrix/ops/cholesky_solve.py","matrix/ops/kron.py","matrix/ops/divide.py","matrix/ops/ratio.py","matrix/ops/matmul_diag.py","matrix/util.py:redirect"])
p("Aligning low-rank factors",
  "align(a, b) returns four equally long index lists in which every column of a and of b occurs exactly once (the rest are -1 padding), every column is represented in the joined factor, and two columns share a slot only if they are equal.",
  "all matrices a, b, in particular all numbers of columns and ties in the norms",
  "a merge loop over two sorted lists: all lengths and orders",
  ["matrix/ops/algorithms/align.py"])
p("Sum of low-rank matrices is exact in every batch element",
  "Adding two LowRank matrices made of arrays denotes the sum of the two in every batch element whenever columns of the left (right) factors that agree within 1e-10 in the first batch element agree exactly in every batch element and the result is not collapsed to a Zero matrix. Without the condition on the columns the claim is false: two factors that coincide in the first batch element only, or within the tolerance only, are merged.",
  "all batches of low-rank matrices",
  "tests draw batch elements independently at random so factors never coincide in one batch element only",
  ["matrix/ops/add.py","matrix/ops/algorithms/align.py"])
p("Element-wise functions",
  "If they return, B.abs(a), B.sqrt(a) and B.power(a, n) denote |x|, the non-negative square root and x^n of every entry, including the implicit zero entries, with n an integer: n >= 1 for any matrix, any n for matrices without Zero, Diagonal or triangular parts. For n = 0 and a Diagonal matrix the claim is false.",
  "every matrix type, every integer exponent in the domain", "tests use exponent 2 only",
  ["matrix/ops/abs.py","matrix/ops/sqrt.py","matrix/ops/power.py"])
p("Every operation terminates",
  "Every call of an operation on finite matrices returns or raises, if the backend's own factorisations do; no operation recurses forever. The operations are add, subtract, multiply, divide, matmul, dense, diag, trace, matmul_diag, abs, sqrt, power, sum, mean, concat, tile, reshape, block, kron, block_diag, take, submatrix, inv, pd_inv, cholesky, solve, cholesky_solve, root, iqf, iqf_diag, ratio, sample, and logdet of matrices without Zero or Constant parts at the places it descends into. For square Zero and Constant matrices logdet calls itself with the same argument and never returns.",
  "all matrices of finite nesting depth, all operations",
  "the methods call each other through dynamic dispatch with no decreasing argument; tests cannot show termination",
  ["matrix/ops/add.py","matrix/ops/multiply.py","matrix/ops/matmul.py","matrix/ops/logdet.py"])
p("Whole expressions agree with dense evaluation",
  "Any expression built from matrices with +, -, *, @, transposition, negation and scalar multiplication evaluates (if it evaluates) to a matrix denoting the result of the same expression on dense matrices.",
  "all expressions of any size over all matrix types",
  "intermediate results have types and nestings that no test constructs",
  ["matrix/matrix.py:AbstractMatrix","matrix/ops"])
p("Algebraic laws survive structure",
  "a + b and b + a denote the same matrix, (a + b) + c and a + (b + c) denote the same matrix, a @ (b + c) denotes a @ b + a @ c, (a @ b).T denotes b.T @ a.T, a - a denotes zero, whatever types are taken on the way.",
  "all matrices of all types for which both sides return",
  "each side takes a different route through the dispatch table",
  ["matrix/ops/add.py","matrix/ops/multiply.py","matrix/ops/matmul.py"])
p("Three-factor products associate freely",
  "B.matmul(a, b, c, tr_a, tr_b, tr_c) denotes the product of the three (transposed) matrices whichever association its cost estimate chooses.",
  "all shapes, types, flags", "the branch depends on a cost comparison over all shapes",
  ["matrix/ops/matmul.py:matmul"])
p("Batch elements are independent",
  "Entry (i, j) of batch element n of a result depends only on batch element n of the operands: slicing a batch out before or after an operation gives the same matrix. This holds for +, -, *, /, @, B.inv, B.solve (where the solution is unique), B.logdet, B.iqf, B.iqf_diag, B.ratio, B.diag, B.trace, B.kron and for whole expressions.",
  "all batched operations and batch indices",
  "cross-batch leakage only shows on adversarial batches",
  ["matrix/ops"])
p("Incompatible operands are rejected",
  "For well-formed operands with broadcastable batch shapes, add, multiply and matmul raise an exception, and never return a value, when the operands' shapes cannot be broadcast (add, multiply) or composed (matmul); the only exception is a triangular matrix times a Constant, whose shapes are not compared.",
  "all pairs of types and all incompatible shapes",
  "each method has its own or no check",
  ["matrix/ops/add.py","matrix/ops/multiply.py","matrix/ops/matmul.py:_assert_composable"])
p("Data types",
  "B.dtype of a matrix is the least type that all arrays in it promote to; B.cast returns for every well-formed matrix, gives every array the requested dtype and keeps class, shape, well-formedness and (if the conversion keeps values) the matrix; B.zero and B.one are scalars, and B.zeros and B.ones arrays of the shape, of the dtype of their argument and B.fill_diag the dtype and batch of its scalars; B.eye raises AssertionError unless the matrix is square and otherwise is the identity of its size and dtype, without batch dimensions.",
  "all matrices and dtypes, any promotion that is a join", "any nesting of parts and any dtype lattice",
  ["matrix/ops/dtype.py","matrix/ops/cast.py","matrix/ops/zeros.py","matrix/ops/ones.py","matrix/ops/eye.py","matrix/ops/fill_diag.py"])
p("Display",
  "indent(x, ind) prefixes every line of x with ind and changes nothing else, so that removing the prefix from every line gives x back. str of a matrix returns, is one line in angle brackets, and tells the class, batch shape, matrix shape and data type: matrices with the same string agree in all four. repr of a matrix returns, begins like str, ends with '>' and indents every continuation line, so that the display of any part is nested under the line that introduces it.",
  "all strings and indentations; all matrices of every class with any nesting, any printing of arrays", "all strings; any nesting of parts and any shapes",
  ["matrix/util.py:indent","matrix/matrix.py:AbstractMatrix.__str__","matrix/matrix.py:AbstractMatrix.__repr__","matrix/diagonal.py","matrix/constant.py","matrix/lowrank.py","matrix/woodbury.py","matrix/kronecker.py","matrix/tiledblocks.py"])
p("Control-flow caching replays decisions",
  "Re-running a computation with the control-flow cache recorded by a first run takes the same branches (align permutations and the is-zero decision), uses up the whole record and returns the same result on the same input; on any other input it follows the recorded branches, not the ones that input would choose.",
  "all computations making any number of align and add decisions",
  "any number and order of recorded decisions",
  ["matrix/ops/algorithms/align.py","matrix/ops/add.py"])
p("Densification warnings",
  "A call either completes without a ToDenseWarning, and then turning warnings into errors does not change its result, or it issues one. Structure is never lost silently: whenever adding, multiplying or matrix-multiplying two structured (non-Dense) matrices gives a Dense matrix, a ToDenseWarning was issued; the one exception is the sum of a lower and an upper triangular matrix. For numeric, Zero, Dense, Diagonal, Constant and triangular operands there is no needless warning either: a warning is issued exactly when both operands are structured and the result is Dense (never by multiply). Scaling by a number never warns, nor does multiplying LowRank matrices whose outer factors are arrays or Dense and whose middle factors are arrays, Dense or Diagonal.",
  "all pairs of matrices of all classes, with arbitrarily nested factors, shapes, batch shapes and transpose flags", "pairs of all types with all nestings; a warning may come from any depth of the recursion", ["matrix/matrix.py:structured","matrix/ops/add.py","matrix/ops/multiply.py","matrix/ops/matmul.py","matrix/ops/broadcast_to.py","matrix/ops/concat.py","matrix/ops/diag.py","matrix/ops/reshape.py"])
p("Supported operations succeed",
  "B.dense, B.add, B.multiply, B.matmul, B.diag and B.sum over a matrix axis return, with the right value, whenever the operation is defined on the arrays and the operands are supported: well formed, without TiledBlocks, with no Kronecker product inside a LowRank or Woodbury matrix, not an empty batch; and for multiply and matmul of Kronecker products with factors that match, for multiply of LowRank matrices with rank at least one, for diag without batched arrays as Kronecker factors. For TiledBlocks of supported blocks, B.dense returns, and so do B.add with a structured matrix other than Zero and Constant, B.multiply with a Dense, LowRank, Kronecker or TiledBlocks matrix and, if they are not transposed, B.matmul with a Diagonal matrix. Outside each of these conditions there are operands on which the call raises although the operation is defined.",
  "all pairs of supported matrices of all classes, with arbitrarily nested factors, all shapes and transpose flags", "an exception may be raised at any depth of the recursion for some combination of nested types and shapes",
  ["matrix/ops/add.py","matrix/ops/multiply.py","matrix/ops/matmul.py","matrix/ops/dense.py","matrix/ops/diag.py","matrix/ops/sum.py","matrix/shape.py:assert_compatible"])
p("The tolerance affects only sums of low-rank matrices",
  "The tolerance 1e-10 inside the library cannot change the outcome (value or exception) of B.dense, B.diag, B.sum and B.multiply, of B.add unless both operands are LowRank or Woodbury matrices (or one is and the other is Constant), and of B.matmul unless one operand is a Woodbury matrix and the other a Woodbury, LowRank or Constant matrix, for matrices without a Woodbury matrix inside a low-rank one; nor can it change B.inv, B.pd_inv, B.logdet (Woodbury matrices with plain factors), B.cholesky, B.root, B.cholesky_solve and B.solve (for a Woodbury matrix and a right-hand side that is not Woodbury, LowRank or Constant). In the excepted cases it can: there are sums and products whose value is wrong because of it.",
  "all matrices with arbitrarily nested factors, all tolerances", "the tolerance tests are buried in the recursion; a change needs adversarial data",
  ["matrix/ops/add.py","matrix/ops/algorithms/align.py","matrix/ops/matmul.py"])
p("Total correctness of expressions",
  "Every expression built with +, -, *, @ (with any transposition flags), unary minus, transposition, scaling by a number and adding a number, from well-formed Zero, Dense, Diagonal, Constant, LowerTriangular, UpperTriangular, LowRank and Woodbury matrices of positive rank, whose shapes match, evaluates: no exception is raised at any step, the result is well formed, has the expected shape and equals the same expression on dense matrices.",
  "all expressions of any size over matrices of all these classes with arbitrarily nested factors", "the classes of intermediate results depend on the whole expression and grow with it; any step might hit an unsupported combination",
  ["matrix/ops/add.py","matrix/ops/multiply.py","matrix/ops/matmul.py","matrix/ops/negative.py","matrix/ops/subtract.py","matrix/ops/transpose.py"])
p("Methods of a matrix",
  "The operators +, -, *, /, @ between a matrix and a matrix or Python number, in either order (through the reflected methods), compute the operation on the represented arrays with the operands in the order written; a ** n is the entry-wise power and a three-argument power raises AssertionError; a[i, j, ...] with integers is the entry or sub-array of the represented matrix, negative integers counting from the end, and returns for integers in range; with any other index (slices, masks, index arrays) a[item] has the outcome of indexing the represented array, and B.to_numpy(a) converts that array; squeeze, reshape and flatten keep the entries in row-major order; reshape returns for exactly the shapes with the right number of entries, where one size may be -1 if no other size is zero, and raises ValueError for every other shape; structured(*xs) tells whether a matrix that is not Dense is among its arguments and raises RuntimeError for other objects; B.uprank is the identity and rejects ranks other than two; B.isabstract tells whether any array in the matrix is abstract.",
  "all matrices of all classes, all integer indices and shapes, any number of arguments", "all classes with arbitrary nesting, all index tuples and target shapes",
  ["matrix/matrix.py:AbstractMatrix","matrix/matrix.py:structured","matrix/ops/squeeze.py","matrix/ops/reshape.py","matrix/ops/uprank.py","matrix/ops/isabstract.py"])
p("Effect of the tolerance",
  "The tolerance with which B.add(LowRank, LowRank) recognises equal columns and vanishing results moves no entry of the result by more than an explicit bound proportional to the square root of the tolerance: with tolerance tol, factors whose entries are at most L (left) and P (right) in absolute value and n rows with n*tol <= e^2, every entry of the result of adding two well-formed unbatched LowRank matrices of arrays is within e*(L+P)*(sum of the absolute entries of the second middle factor) + (joined left columns)*(joined right columns)*tol*L*P of the exact sum, also when the result is collapsed to a Zero matrix, and the result is well formed and has the shape of the operands.",
  "all unbatched LowRank matrices of arrays, all tolerances, all bounds", "needs data within the tolerance in every combination of columns; tests use exact columns or random ones",
  ["matrix/ops/add.py:add(LowRank,LowRank)","matrix/ops/algorithms/align.py"])
p("Linear algebra succeeds",
  "With a numeric backend that finishes, is exact and returns wherever the result exists, linear algebra on well-formed matrices without TiledBlocks, without Kronecker products inside low-rank ones and without empty batch returns, with the right value: B.inv and B.solve for invertible Dense, Diagonal, Woodbury (plain factors, invertible middle factor) matrices, Kronecker products of these and, for B.solve, every invertible matrix, so B.triangular_solve for invertible triangular matrices with either flag; B.pd_inv for positive-definite ones; B.cholesky and B.root for positive-(semi-)definite Dense, Diagonal, Constant, Zero, Woodbury and LowRank matrices and Kronecker products; B.cholesky_solve for invertible Diagonal and triangular factors and Kronecker products; B.logdet for positive-definite, positive diagonal or triangular matrices, Woodbury matrices and Kronecker products; B.iqf, B.iqf_diag, B.ratio for positive-definite matrices (Woodbury ones with plain right-hand sides) and B.sample for matrices with a Cholesky factor. No exception is raised and the outcome does not depend on the tolerance. Such a backend exists over the real numbers.",
  "all matrices of these classes with arbitrarily nested factors, all shapes and batches, all backends meeting the specification", "whether a nested Schur complement is again invertible or positive definite, and of a class the next function supports, depends on the whole matrix",
  ["matrix/ops/inv.py","matrix/ops/pd_inv.py","matrix/ops/cholesky.py","matrix/ops/cholesky_solve.py","matrix/ops/solve.py","matrix/ops/triangular_solve.py","matrix/ops/logdet.py","matrix/ops/root.py","matrix/ops/schur.py","matrix/ops/pd_schur.py","matrix/ops/iqf.py","matrix/ops/iqf_diag.py","matrix/ops/ratio.py","matrix/ops/sample.py"])
p("Linear algebra, element-wise functions, selection and whole expressions keep structure as documented",
  "B.inv returns a matrix of the class of its argument; B.pd_inv keeps Diagonal, Woodbury and Kronecker and otherwise returns Dense; B.cholesky returns LowerTriangular for Dense and Woodbury and keeps Zero, Diagonal, Constant and Kronecker; B.root returns Dense for LowRank and Woodbury and otherwise keeps the class; B.solve with a Diagonal or Woodbury matrix returns the class of the corresponding product, with a triangular matrix Dense, with a Zero right-hand side Zero; negation keeps the class; subtraction, division by a constant, B.abs, B.sqrt, B.power, B.kron, B.take and B.submatrix follow fixed class tables; the class of any nested expression is among those computed from the classes of its leaves alone.",
  "all matrices of every class with any nesting, any numeric backend, all nested expressions",
  "the claim is about every nesting of every class and every expression tree",
  ["matrix/ops/inv.py", "matrix/ops/pd_inv.py", "matrix/ops/cholesky.py", "matrix/ops/solve.py", "matrix/ops/root.py", "matrix/ops/take.py", "matrix/ops/submatrix.py", "matrix/ops/kron.py"])
p("Cancelling low-rank parts restores the structure",
  "Adding two LowRank matrices with equal outer factors and opposite middle factors returns the Zero matrix of the right shape, with any positive tolerance, also in batches; so a - a is Zero for a LowRank matrix a, and adding to a Woodbury matrix the opposite of its low-rank part returns exactly its Diagonal part. In particular the pipeline in the README, B.inv(B.inv(p*d + s)) - s for a (batch of) Diagonal matrices d and nonzero numbers s and p, returns the Diagonal matrix p*d itself, whenever the inverses exist.",
  "all LowRank and Woodbury matrices with non-empty factors, all diagonals and batches, all nonzero numbers, all positive tolerances, all exact backends", "the README shows one instance; that the two inverses restore a low-rank part whose middle cancels must hold for every diagonal and number",
  ["matrix/ops/add.py:add(LowRank,LowRank)","matrix/ops/algorithms/align.py","matrix/ops/inv.py","matrix/ops/schur.py","matrix/ops/subtract.py","README.md"])
p("Derived functions succeed",
  "On supported matrices (well formed, without TiledBlocks, no Kronecker product inside a LowRank or Woodbury matrix, no empty batch, no Woodbury matrix inside a low-rank one) the derived functions return, with the right value and with every tolerance: B.subtract where the sum would (for two low-rank matrices: if the tolerance tests are right), B.divide if no divisor entry is zero (a Constant divisor not being empty), B.trace where B.diag succeeds, B.abs, B.sqrt if the stored entries are not negative, B.power for positive exponents and for all integers if no entry is zero, B.sum and B.mean over everything or along any axis, batch axes included (B.mean not of an empty matrix), B.reshape to a shape of the same size, B.tile with one repetition per axis, B.concat of matrices whose shapes agree except along the axis, B.take of rows, columns or a non-empty selection of batch elements, B.submatrix, B.block of a grid and B.block_diag of several matrices whose batch shapes broadcast against each other, and B.matmul_diag of a square product of matrices not both Kronecker products. None of these consults the tolerance, B.subtract excepted where B.add does. On TiledBlocks of supported blocks B.abs, B.power for positive exponents, B.take, B.submatrix, B.tile, B.reshape and B.divide of and by structured matrices return as well.",
  "all supported matrices of all classes with arbitrarily nested factors, all shapes, batches, axes, selections and tolerances", "an exception may be raised, or the tolerance consulted, at any depth of the recursion for some combination of nested types, shapes and axes",
  ["matrix/ops/subtract.py","matrix/ops/divide.py","matrix/ops/trace.py","matrix/ops/abs.py","matrix/ops/sqrt.py","matrix/ops/power.py","matrix/ops/sum.py","matrix/ops/mean.py","matrix/ops/reshape.py","matrix/ops/tile.py","matrix/ops/concat.py","matrix/ops/take.py","matrix/ops/submatrix.py"])
p("Derived functions warn when structure is lost",
  "Whenever one of B.abs, B.sqrt, B.power, B.submatrix, B.tile, B.divide, B.concat, B.block, B.block_diag or B.take (of a matrix that is not triangular) with a structured argument returns a Dense matrix, a ToDenseWarning is issued; so does every division by a structured matrix that is not Constant, every sum of a LowRank, Woodbury or Kronecker matrix over a batch axis, B.diag of a LowRank matrix with a structured outer factor, and B.reshape, B.squeeze, B.isnan and indexing of a structured matrix. Turning warnings into errors changes nothing else. On Dense matrices and arrays the element-wise functions, B.take, B.submatrix, B.tile, B.reshape, B.squeeze and indexing never warn; nor do calls that keep the structure: element-wise functions and submatrices of Zero, Diagonal, Constant and triangular matrices (and element-wise functions of Kronecker products of these), B.tile of Zero and Constant matrices, B.concat with a result that is not Dense or without structured operands, B.take of Zero and Constant matrices or of batch elements of Diagonal and triangular ones, sums of these over batch axes, division of Dense by Dense, and B.block and B.block_diag of Diagonal and Zero blocks if the result is not Dense.",
  "all matrices of all classes with arbitrarily nested factors, all shapes, batches, axes, selections and blocks", "a warning may come from any depth of the recursion, for any nesting of factors",
  ["matrix/ops/abs.py","matrix/ops/sqrt.py","matrix/ops/power.py","matrix/ops/take.py","matrix/ops/submatrix.py","matrix/ops/concat.py","matrix/ops/tile.py","matrix/ops/divide.py","matrix/ops/block.py","matrix/ops/block_diag.py","matrix/ops/sum.py","matrix/ops/reshape.py","matrix/ops/squeeze.py","matrix/ops/isnan.py","matrix/matrix.py:AbstractMatrix.__getitem__"])
p("Whole expressions with inverses, quotients and solves do not depend on the representation",
  "An expression built with +, -, *, /, @ (with either operand transposed), negation, transposition, scaling, shifting, B.inv and B.solve over well-formed matrices, if it evaluates (with right tolerance tests and an exact backend), gives a well-formed matrix of the expected size that represents the value of the same expression on dense arrays; replacing operands by others that represent the same arrays, in particular by their dense forms, does not change the array the result represents (without B.solve, whose solution need not be unique). In particular B.inv(B.inv(a)) represents a, B.inv(a.T) represents B.inv(a).T, B.inv(a @ b) represents B.inv(b) @ B.inv(a), B.inv(a) @ a represents the identity and B.solve(a, b) has the entries of B.inv(a) @ b. (A quotient also asserts that the divisor has no zero entry.)",
  "all expression trees over all well-formed matrices of every class and size, all exact backends", "every nesting of operators and classes; representation independence is a relation between two runs",
  ["matrix/matrix.py:AbstractMatrix","matrix/ops/inv.py","matrix/ops/solve.py","matrix/ops/divide.py","matrix/ops/add.py","matrix/ops/multiply.py","matrix/ops/matmul.py"])
p("Linear algebra warns exactly where it gives up structure",
  "A call of linear algebra either returns the same result with warnings turned into errors, or it issues a ToDenseWarning, not both. The first B.cholesky of a Woodbury matrix always warns; B.root of a structured matrix warns if its result is Dense; B.solve warns if the right-hand side is structured, or the matrix is structured and not Diagonal, triangular or Woodbury, and the solution is Dense or an array; solving with a triangular matrix for a structured right-hand side other than Zero always warns. B.inv, B.pd_inv and B.logdet of arrays, Dense and Diagonal matrices, Woodbury matrices built from arrays (middle factor possibly Diagonal) and Kronecker products of these never warn, nor do B.cholesky of arrays, Zero, Dense, Diagonal, Constant, LowRank matrices built from arrays and Kronecker products of these, B.root of arrays, Zero, Dense, Diagonal, Constant matrices and Kronecker products of these, B.solve of Dense, Diagonal, triangular or such Woodbury matrices with arrays, and B.iqf of Dense, Diagonal or such Woodbury matrices with arrays.",
  "all matrices of these classes, all shapes, batches, nestings of Kronecker products, any numeric backend", "the recursion through Schur complements, products and sums may warn at any depth for some combination of classes",
  ["matrix/ops/inv.py","matrix/ops/pd_inv.py","matrix/ops/cholesky.py","matrix/ops/cholesky_solve.py","matrix/ops/logdet.py","matrix/ops/root.py","matrix/ops/solve.py","matrix/ops/schur.py","matrix/ops/pd_schur.py","matrix/ops/iqf.py","matrix/matrix.py:structured"])
p("Linear algebra of structured matrices factorises small matrices only",
  "The outcome of B.inv, B.pd_inv, B.logdet, B.solve (any right-hand side), B.iqf and B.iqf_diag of a Woodbury matrix of any size whose factors have at most s columns, of B.ratio by such a matrix and of B.sample from it, depends on the numeric backend only through what it does on matrices with at most s rows and columns: two exact backends that agree there give the same result or exception, so the calls work just as well with a backend that refuses larger matrices. For Diagonal matrices (and log-determinants of triangular, Cholesky factors and roots of Zero and Constant matrices) this holds with s = 0, for Kronecker products with s the size of the largest factor, for Cholesky factors and samples of LowRank matrices with s the size of the middle factor. It does not hold for B.cholesky and B.root of Woodbury matrices, which are made dense.",
  "all matrices of these classes of all sizes and batches, all s, all pairs of backends that agree on small matrices, all right-hand sides", "a relation between runs with two arbitrary backends, for all sizes; a test cannot see which matrices would have mattered",
  ["matrix/ops/inv.py","matrix/ops/pd_inv.py","matrix/ops/logdet.py","matrix/ops/solve.py","matrix/ops/schur.py","matrix/ops/pd_schur.py","matrix/ops/iqf.py","matrix/ops/iqf_diag.py","matrix/ops/ratio.py","matrix/ops/sample.py","matrix/ops/cholesky.py","matrix/ops/root.py"])
p("Low rank stays low",
  "The numbers of factors (columns of the outer factors) of LowRank and Woodbury results are bounded by those of the operands, whatever the sizes of the matrices; a Constant matrix or a number counts as one factor, other classes as none. If a has p left and q right factors and b has p' and q', then a + b and a - b have at most p + p' and q + q', a * b at most p p' and q q', -a as many, a.T as many with left and right exchanged; in a @ b a LowRank matrix on the left keeps its number of left factors, one on the right its number of right factors (so a chain of LowRank matrices has the left factors of the first and the right ones of the last), and a Woodbury factor counts as a Diagonal plus a LowRank matrix. Two LowRank matrices with equal left (right) factors add up to a matrix with no more left (right) factors, for any positive tolerance. The same holds if the left (right) factors of one are among those of the other in a different order, provided that no two factors have the same norm (with equal norms it is false). The inverse and the positive-definite inverse of a Woodbury matrix have at most its factors. So an expression has at most the factors computed from its leaves. The rank of every batch element of a LowRank matrix is at most the rank it reports, which is the smaller number of factors.",
  "all matrices of every class whose LowRank and Woodbury parts have arrays or Dense matrices as outer factors (middle: array, Dense, Diagonal or Zero), of all sizes and batches, all nested expressions, all tolerances and exact backends", "the number of factors is not visible in the dense value, and the bound must hold for every class, size and nesting of operators",
  ["matrix/ops/add.py","matrix/ops/multiply.py","matrix/ops/matmul.py","matrix/ops/subtract.py","matrix/ops/negative.py","matrix/ops/transpose.py","matrix/ops/inv.py","matrix/ops/pd_inv.py","matrix/lowrank.py:LowRank.rank","matrix/ops/algorithms/align.py"])
p("Results have the promoted data type",
  "Every array in the result of B.add, B.multiply, B.matmul (with either operand transposed), B.dense, B.diag and B.sum has a data type that comes from the operands: no data type appears that is not obtained from theirs by promotion. So if all arrays of the operands have one data type (say single precision), all arrays of the result have it and B.dtype of the result is that data type; in general B.dtype of the result is at most the promotion of the data types of the operands. It is exactly that promotion if no operand is or contains a Zero matrix, no exact zero is passed as a number and no sum of low-rank matrices vanishes. (The exceptions are real: adding a Zero does not promote, a product with a Zero has the data type of the Zero, and a Woodbury matrix loses the data type of its low-rank part when that cancels.) The same holds for B.inv, B.pd_inv, B.cholesky, B.root, B.solve, B.cholesky_solve, B.logdet, B.iqf, B.iqf_diag, B.ratio, B.matmul_diag, B.trace, B.kron, B.sample, B.block, B.block_diag, B.take, B.submatrix, B.tile and B.concat of floating-point matrices, and for whole expressions built from +, -, *, /, @, unary minus, transposition, scalars, inverses and solutions, with these exceptions: the Cholesky factor of a Constant matrix has the data type promoted with that of the square root of an integer (so it may be double precision for a single-precision matrix), the Cholesky factor of a LowRank matrix has the data type of its left factor and middle only, a solution for a Zero right-hand side has the data type of the right-hand side, and a block matrix of Zeros has the data type of the first of them.",
  "all matrices of all classes with arbitrarily nested factors, each array with its own data type; all promotion functions (all join-semilattices of data types for the last two sentences)", "a hidden cast or a default-typed array may be introduced at any depth of the recursion for some combination of classes and data types",
  ["matrix/ops/add.py","matrix/ops/multiply.py","matrix/ops/matmul.py","matrix/ops/dense.py","matrix/ops/diag.py","matrix/ops/sum.py","matrix/ops/dtype.py","matrix/promote.py","matrix/ops/broadcast_to.py","matrix/ops/zeros.py","matrix/ops/inv.py","matrix/ops/pd_inv.py","matrix/ops/cholesky.py","matrix/ops/cholesky_solve.py","matrix/ops/solve.py","matrix/ops/triangular_solve.py","matrix/ops/logdet.py","matrix/ops/root.py","matrix/ops/schur.py","matrix/ops/divide.py","matrix/ops/negative.py","matrix/ops/iqf.py","matrix/ops/iqf_diag.py","matrix/ops/ratio.py","matrix/ops/matmul_diag.py","matrix/ops/trace.py","matrix/ops/kron.py","matrix/ops/block.py","matrix/ops/take.py","matrix/ops/submatrix.py","matrix/ops/tile.py","matrix/ops/concat.py"])
p("Programs refine dense programs",
  "A program that calls the library any number of times - scalars, +, -, *, /, @ with either operand transposed, negation, transposition, B.abs, B.power, B.sqrt, B.kron, B.take, B.submatrix, B.block, B.block_diag, B.concat, B.tile, B.broadcast_batch_to, B.broadcast_to, B.inv, B.pd_inv, B.solve, B.cholesky_solve, triangular_solve, B.cholesky, B.root, B.iqf, each on initial values or on results of earlier calls - and whose calls all return within the domains of the single operations (with right tolerance tests and an exact backend) leaves only well-formed values, and the arrays they represent are results of the same program on dense arrays. What B.dense, B.diag, B.trace, B.sum, B.mean, B.logdet, B.ratio, B.matmul_diag, B.iqf_diag and B.reshape then give is what they give on those arrays. If the program does not call B.solve, B.cholesky_solve, triangular_solve, B.cholesky or B.root, the arrays at the end depend on the arrays that the initial values represent only: not on their classes, nor on the tolerance or the backend of the run. The same holds of programs with B.solve, B.cholesky_solve and triangular_solve whose systems are regular and whose right-hand sides have the batch dimensions of the matrices, and of what is observed. A program has only one outcome, and it runs to its end unless it reaches a call with operands outside the domains in which the single operations return; observations in these domains return, with one result.",
  "all finite sequences of calls, all stores of well-formed values of every class, shape and batch, all tolerances and exact backends", "histories of calls are unbounded, and any result can be an operand of any later call",
  ["matrix/matrix.py:AbstractMatrix","matrix/ops/add.py","matrix/ops/multiply.py","matrix/ops/matmul.py","matrix/ops/kron.py","matrix/ops/take.py","matrix/ops/submatrix.py","matrix/ops/block.py","matrix/ops/block_diag.py","matrix/ops/concat.py","matrix/ops/tile.py","matrix/ops/inv.py","matrix/ops/pd_inv.py","matrix/ops/solve.py","matrix/ops/cholesky.py","matrix/ops/root.py","matrix/ops/iqf.py"])
open("/verif/properties.jsonl","w").write("".join(json.dumps(x)+"\n" for x in P))
print(len(P))
