/-
Linear algebra: inverse, Cholesky factor, solving, log-determinant, square root, quadratic forms, ratio, sampling.
One Lean function per Python method; calls among these functions go to the record `L : LOps K`,
calls of the core (`B.add`, `B.matmul`, ...) go to `B : Ops K`.
Caching of `a.cholesky`, `a.schur` is not part of this model (`Cache.lean`).
-/
import Verif.OpsNeg

set_option linter.unusedSectionVars false

namespace Verif

variable {K : Type} [Field K] [LinearOrder K]

/-- The numeric linear algebra of the backend (LAB / numpy).  All functions are arbitrary; `LinEnv.Lawful` (`LinSpec.lean`) states
what is assumed of them.
* `inv`, `chol`, `solve`, `logdet`: `B.inv`, `B.cholesky`, `B.solve`, `B.logdet` on numeric tensors;
* `trisolve lower a b`: `B.trisolve(a, b, lower_a=lower)`;
* `svd`: the first two outputs of `B.svd`;
* `sqrt x`: the square root of a number, `none` for nan;
* `log x`: the logarithm of a positive number. -/
structure LinEnv (K : Type) [Zero K] where
  inv : Tensor K → E (Tensor K)
  chol : Tensor K → E (Tensor K)
  solve : Tensor K → Tensor K → E (Tensor K)
  trisolve : Bool → Tensor K → Tensor K → E (Tensor K)
  logdet : Tensor K → E (Tensor K)
  svd : Tensor K → E (Tensor K × Tensor K)
  sqrt : K → Option K
  log : K → K

/-- `B.sqrt` on numeric tensors; an entry without square root gives nan (the ghost error `nonfinite`). -/
def nSqrt (lin : LinEnv K) (t : Tensor K) : E (Tensor K) :=
  if ∀ n < size t.sh, (lin.sqrt (t.get (unlin t.sh n))).isSome = true then .ok (tmap (fun x => (lin.sqrt x).getD 0) t) else .error .nonfinite

/-- `B.log` on numeric tensors; an entry that is not positive gives -inf or nan (the ghost error `nonfinite`). -/
def nLog (lin : LinEnv K) (t : Tensor K) : E (Tensor K) :=
  if ∀ n < size t.sh, 0 < t.get (unlin t.sh n) then .ok (tmap lin.log t) else .error .nonfinite

/-- The functions of linear algebra, as called through `B.*`. -/
structure LOps (K : Type) [Zero K] where
  inv : Mat K → E (Mat K)
  pdInv : Mat K → E (Mat K)
  chol : Mat K → E (Mat K)
  solve : Mat K → Mat K → E (Mat K)
  cholSolve : Mat K → Mat K → E (Mat K)
  logdet : Mat K → E (Tensor K)
  root : Mat K → E (Mat K)

/-- Out of fuel. -/
def LOps.bot : LOps K where
  inv _ := .error .fuel
  pdInv _ := .error .fuel
  chol _ := .error .fuel
  solve _ _ := .error .fuel
  cholSolve _ _ := .error .fuel
  logdet _ := .error .fuel
  root _ := .error .fuel

section
variable (env : Env K) (lin : LinEnv K) (B : Ops K) (L : LOps K)

/-- `B.schur(a: Woodbury)`, `ops/schur.py` 8-22. -/
def schurM (d : Tensor K) (l r m : Mat K) : E (Mat K) := do
  let di ← L.inv (.diag d)
  let second ← matmul3 B true false false r di l
  B.add (← L.inv m) second

/-- `B.pd_schur(a: Woodbury)`, `ops/pd_schur.py` 8-22. -/
def pdSchurM (d : Tensor K) (l r m : Mat K) : E (Mat K) := do
  let di ← L.inv (.diag d)
  let second ← matmul3 B true false false r di l
  B.add (← L.pdInv m) second

/-- `inv(a: Woodbury)`, `ops/inv.py` 22-35. -/
def invWB (d : Tensor K) (l r m : Mat K) : E (Mat K) := do
  let di ← L.inv (.diag d)
  let dl ← B.matmul false false di l
  let dr ← B.matmul false false di r
  let si ← L.inv (← schurM B L d l r m)
  subtractM env B di (← mkLR dl dr si)

/-- `B.inv(a)`, `ops/inv.py` 12-40; numeric: LAB. -/
def stepInv (a : Mat K) : E (Mat K) :=
  match a with
  | .num t => do return .num (← lin.inv t)
  | .dense t => do return mkDense (← lin.inv t)
  | .diag d => do mkDiag (← nDiv (scalarT 1) d)
  | .wb d l r m => invWB env B L d l r m
  | .kron l r => do return .kron (← L.inv l) (← L.inv r)
  | _ => .error .notFound

/-- `pd_inv(a: Woodbury)`, `ops/pd_inv.py` 37-48. -/
def pdInvWB (d : Tensor K) (l r m : Mat K) : E (Mat K) := do
  let di ← L.inv (.diag d)
  let dl ← B.matmul false false di l
  let dr ← B.matmul false false di r
  let si ← L.pdInv (← pdSchurM B L d l r m)
  subtractM env B di (← mkLR dl dr si)

/-- `B.eye(a: AbstractMatrix)`, `ops/eye.py` 9-12: `fill_diag(1, n)`. -/
def eyeM (a : Mat K) : E (Mat K) := do
  assertSquare a
  fillDiag (scalarT 1) (← shapeMatrix a).1

/-- `B.pd_inv(a)`, `ops/pd_inv.py` 15-53. -/
def stepPdInv (a : Mat K) : E (Mat K) :=
  match a with
  | .diag d => L.inv (.diag d)
  | .wb d l r m => pdInvWB env B L d l r m
  | .kron l r => do return .kron (← L.pdInv l) (← L.pdInv r)
  | a => do
    let a := convertAM env a
    let ch ← L.chol a
    let id ← B.dense (← eyeM a)
    L.cholSolve ch (.num id)

/-- `B.cholesky(a)`, `ops/cholesky.py` 21-75; numeric: LAB. -/
def stepChol (a : Mat K) : E (Mat K) :=
  match a with
  | .num t => do return .num (← lin.chol t)
  | .zero bt r c => do
    assertSquare (.zero bt r c : Mat K)
    return .zero bt r c
  | .dense t => do
    assertSquare (.dense t)
    mkLT (← lin.chol t)
  | .diag d => do
    assertSquare (.diag d)
    mkDiag (← nSqrt lin d)
  | .const t r c => do
    assertSquare (.const t r c)
    let x ← nSqrt lin t
    let y ← nSqrt lin (scalarT (c : K))
    mkConst (← nDiv x y) [c, r]
  | .lr l r m => do
    assertSquare (.lr l r m)
    B.matmul false false l (← L.chol m)
  | .wb d l r m => do mkLT (← lin.chol (← B.dense (.wb d l r m)))
  | .kron l r => do return .kron (← L.chol l) (← L.chol r)
  | _ => .error .notFound

/-- `solve(a, b: AbstractMatrix)` by converting to dense, `ops/solve.py` 21-28. -/
def solveDense (a b : Mat K) : E (Mat K) := do
  let ab ← alignBatch2 a b
  return .num (← lin.solve (← B.dense ab.1) (← B.dense ab.2))

/-- `solve(a: LowerTriangular / UpperTriangular, b)`, `ops/solve.py` 36-53. -/
def solveTri (lower : Bool) (t : Tensor K) (b : Mat K) : E (Mat K) := do
  let ab ← alignBatch2 (.num t) b
  return mkDense (← lin.trisolve lower (← B.dense ab.1) (← B.dense ab.2))

/-- `B.solve(a, b)`, `ops/solve.py` 16-59; two numeric operands: LAB; otherwise numeric operands are promoted first.
The method for a Zero right-hand side has precedence. -/
def stepSolve (a b : Mat K) : E (Mat K) :=
  match a, b with
  | .num s, .num t => do return .num (← lin.solve s t)
  | a, b =>
    match convertAM env a, convertAM env b with
    | _, .zero bt r c => .ok (.zero bt r c)
    | .diag d, b => do B.matmul false false (← L.inv (.diag d)) b
    | .lt t, b => solveTri lin B true t b
    | .ut t, b => solveTri lin B false t b
    | .wb d l r m, b => do B.matmul false false (← L.inv (.wb d l r m)) b
    | a, b => solveDense lin B a b

/-- `cholesky_solve(a: Diagonal / LowerTriangular / UpperTriangular, b)`, `ops/cholesky_solve.py` 13-18. -/
def cholSolveTri (a b : Mat K) : E (Mat K) := do
  let x ← L.solve a b
  L.solve (← transposeM a) x

/-- `B.cholesky_solve(a, b)`, `ops/cholesky_solve.py` 13-26; numeric: LAB, two triangular solves. -/
def stepCholSolve (a b : Mat K) : E (Mat K) :=
  match a, b with
  | .num s, .num t => do return .num (← lin.trisolve false (nTranspose s) (← lin.trisolve true s t))
  | a, b =>
    match convertAM env a, convertAM env b with
    | .diag d, b => cholSolveTri L (.diag d) b
    | .lt t, b => cholSolveTri L (.lt t) b
    | .ut t, b => cholSolveTri L (.ut t) b
    | .kron l r, .kron l' r' => do return .kron (← L.cholSolve l l') (← L.cholSolve r r')
    | _, _ => .error .notFound

/-- `logdet(a: Diagonal / LowerTriangular / UpperTriangular)`, `ops/logdet.py` 20-22. -/
def logdetTri (a : Mat K) : E (Tensor K) := do nSum (← nLog lin (← B.diag a)) (some (-1))

/-- `B.logdet(a)`, `ops/logdet.py` 15-41; numeric: LAB. -/
def stepLogdet (a : Mat K) : E (Tensor K) :=
  match a with
  | .num t => lin.logdet t
  | .diag d => logdetTri lin B (.diag d)
  | .lt t => logdetTri lin B (.lt t)
  | .ut t => logdetTri lin B (.ut t)
  | .wb d l r m => do
    let x ← L.logdet (.diag d)
    let y ← L.logdet m
    let z ← L.logdet (← pdSchurM B L d l r m)
    nAdd (← nAdd x y) z
  | .kron l r => do
    assertSquare l
    assertSquare r
    let n := (← shapeMatrix l).1
    let m := (← shapeMatrix r).1
    let x ← nMul (scalarT (m : K)) (← L.logdet l)
    let y ← nMul (scalarT (n : K)) (← L.logdet r)
    nAdd x y
  | a => do nMul (scalarT 2) (← L.logdet (← L.chol a))

/-- `root(a: B.Numeric)`, `ops/root.py` 22-34. -/
def rootNum (t : Tensor K) : E (Mat K) := do
  assertSquare (.num t)
  let us ← lin.svd t
  let sq ← nSqrt lin us.2
  matmul3 B false false true (.num us.1) (.num (diagC sq)) (.num us.1)

/-- `B.root(a)`, `ops/root.py` 22-73. -/
def stepRoot (a : Mat K) : E (Mat K) :=
  match a with
  | .num t => rootNum lin B t
  | .zero bt r c => do
    assertSquare (.zero bt r c : Mat K)
    return .zero bt r c
  | .dense t => do return mkDense (← B.dense (← L.root (.num t)))
  | .diag d => do
    assertSquare (.diag d)
    L.chol (.diag d)
  | .const t r c => do
    assertSquare (.const t r c)
    L.chol (.const t r c)
  | .lr l r m => do
    let x ← B.dense (.lr l r m)
    return mkDense (← B.dense (← L.root (.num x)))
  | .wb d l r m => do
    let x ← B.dense (.wb d l r m)
    return mkDense (← B.dense (← L.root (.num x)))
  | .kron l r => do return .kron (← L.root l) (← L.root r)
  | _ => .error .notFound

/-- One unfolding of all functions. -/
def lstep : LOps K where
  inv := stepInv env lin B L
  pdInv := stepPdInv env B L
  chol := stepChol lin B L
  solve := stepSolve env lin B L
  cholSolve := stepCholSolve env lin L
  logdet := stepLogdet lin B L
  root := stepRoot lin B L

/-- The functions of linear algebra with recursion depth `n` among themselves. -/
def lops : ℕ → LOps K
  | 0 => LOps.bot
  | n+1 => lstep env lin B (lops n)

/-! ### Quadratic forms, ratio, product diagonals, sampling -/

/-- `B.matmul_diag(a, b, tr_a, tr_b)`, `ops/matmul_diag.py` 9-32. -/
def matmulDiag (ta tb : Bool) (a b : Mat K) : E (Tensor K) :=
  match a, b with
  | .lr al ar am, .lr bl br bm => do B.diag (← B.matmul ta tb (.lr al ar am) (.lr bl br bm))
  | a, b => do
    let a ← trM (!ta) a
    let b ← trM tb b
    B.sumM 1 (← B.mul a b)

/-- `B.iqf(a, b, c)`, `ops/iqf.py` 8-40; `same` is the test `c is b`. -/
def iqfM (same : Bool) (a b c : Mat K) : E (Mat K) :=
  match a with
  | .wb d l r m => do matmul3 B true false false b (← L.pdInv (.wb d l r m)) c
  | a => do
    let ch ← L.chol a
    let cb ← L.solve ch b
    let cc ← if same then pure cb else L.solve ch c
    B.matmul true false cb cc

/-- `B.iqf_diag(a, b, c)`, `ops/iqf_diag.py` 8-40. -/
def iqfDiagM (same : Bool) (a b c : Mat K) : E (Tensor K) :=
  match a with
  | .wb d l r m => do matmulDiag B true false b (← B.matmul false false (← L.pdInv (.wb d l r m)) c)
  | a => do
    let ch ← L.chol a
    let cb ← L.solve ch b
    let cc ← if same then pure cb else L.solve ch c
    matmulDiag B true false cb cc

/-- `b_inv.diag`, `b_inv.lr` of a result that has to be a Woodbury matrix. -/
def wbParts (x : Mat K) : E (Mat K × Mat K) :=
  match x with
  | .wb d l r m => .ok (.diag d, .lr l r m)
  | _ => .error .attribute

/-- `B.ratio(a, b)`, `ops/ratio.py` 8-38. -/
def ratioM (a b : Mat K) : E (Tensor K) :=
  match a, b with
  | .wb ad al ar am, .wb bd bl br bm => do
    let bi ← L.pdInv (.wb bd bl br bm)
    let p ← wbParts bi
    let x ← traceM B (← B.matmul false false (.diag ad) bi)
    let y ← traceM B (← B.matmul false false (.lr al ar am) p.1)
    let z ← traceM B (← B.matmul false false (.lr al ar am) p.2)
    nAdd (← nAdd x y) z
  | a, .wb bd bl br bm => do
    let bi ← L.pdInv (.wb bd bl br bm)
    let p ← wbParts bi
    let x ← traceM B (← B.matmul false false a p.1)
    let y ← traceM B (← B.matmul false false a p.2)
    nAdd x y
  | a, b => do
    let ch ← L.chol a
    nSum (← iqfDiagM B L true b ch ch) (some (-1))

/-- `B.sample(state, a, num)`, `ops/sample.py` 8-45; `randn` is the backend's generator of standard normal noise (shape last axis first). -/
def sampleM {σ : Type} (randn : σ → Shp → σ × Tensor K) (num : ℕ) (st : σ) (a : Mat K) : E (σ × Mat K) :=
  let one := fun (st : σ) (a : Mat K) => do
    let ch ← L.chol a
    let bt ← shapeBatch a
    let k := dim (← shape ch) 0
    let x := randn st (num :: k :: bt)
    let s ← B.matmul false false ch (.num x.2)
    (pure (x.1, s) : E (σ × Mat K))
  match a with
  | .wb d l r m => do
    let x ← one st (.diag d)
    let y ← one x.1 (.lr l r m)
    return (y.1, ← B.add x.2 y.2)
  | a => one st a

end

end Verif
