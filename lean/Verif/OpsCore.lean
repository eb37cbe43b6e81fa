/-
Methods of `B.dense`, `B.add`, `B.multiply`, `B.matmul`, `B.diag` and `B.sum` (matrix axes): the recursive core.
One Lean function per Python method; calls through `B.*` go to the record `B : Ops K`.
-/
import Verif.Mat

namespace Verif

variable {K : Type}

/-- The functions of the recursive core, as called through `B.*`.
`sumM k` is `B.sum(a, axis=-1)` for `k = 0` and `B.sum(a, axis=-2)` for `k = 1`. -/
structure Ops (K : Type) [Zero K] where
  dense : Mat K → E (Tensor K)
  add : Mat K → Mat K → E (Mat K)
  mul : Mat K → Mat K → E (Mat K)
  matmul : Bool → Bool → Mat K → Mat K → E (Mat K)
  diag : Mat K → E (Tensor K)
  sumM : ℕ → Mat K → E (Tensor K)

/-- Out of fuel. -/
def Ops.bot [Zero K] : Ops K where
  dense _ := .error .fuel
  add _ _ := .error .fuel
  mul _ _ := .error .fuel
  matmul _ _ _ _ := .error .fuel
  diag _ := .error .fuel
  sumM _ _ := .error .fuel

/-! ### Helpers -/

/-- `B.expand_dims(t, axis=-1, times=n, ignore_scalar=True)`. -/
def expandIgn [Zero K] (n : ℕ) (t : Tensor K) : Tensor K := if t.rank = 0 then t else expandEnd n t

section
variable [Field K] [LinearOrder K]

/-- `convert(x, AbstractMatrix)`, `promote.py` 14-22. -/
def convertAM (env : Env K) : Mat K → Mat K
  | .num t =>
    if t.rank = 0 then
      if env.isNumber t = true ∧ t.get (fun _ => 0) = 0 then .zero [] 1 1 else .const t 1 1
    else mkDense t
  | a => a

/-- `B.fill_diag(a, n)`, `ops/fill_diag.py` 9-18. -/
def fillDiag (t : Tensor K) (n : ℕ) : E (Mat K) := do
  mkDiag (← nMul (expandEnd 1 t) (fillT (n :: t.sh) 1))

/-- `convert(a: Constant, LowRank)`, `promote.py` 25-33. -/
def constToLR (t : Tensor K) (r c : ℕ) : E (Mat K) := do
  let middle ← fillDiag t 1
  mkLR (.num (fillT [1, r] 1)) (.num (fillT [1, c] 1)) middle

/-- `B.broadcast_to(a, *shape)` for an AbstractMatrix, `ops/broadcast_to.py` 16-47. -/
def broadcastTo (B : Ops K) (a : Mat K) (s : Shp) : E (Mat K) := do
  let sa ← shape a
  if sa = s then .ok a
  else match a with
    | .zero .. => mkZero (← bsE sa s)
    | .const t _ _ => mkConst t (← bsE sa s)
    | a =>
      if sa.take 2 = s.take 2 then broadcastBatchTo (s.drop 2) a
      else do
        let d ← B.dense a
        return mkDense (← nBroadcastTo s d)

/-! ### `B.dense`, `ops/dense.py` -/

/-- `_shape_matrix_tr(a, tr)`, `ops/matmul.py` 22-27. -/
def shapeMatrixTr (a : Mat K) (t : Bool) : E (ℕ × ℕ) := do
  let s ← shapeMatrix a
  return if t then (s.2, s.1) else s

/-- `matmul(a, b, c, tr_a, tr_b, tr_c)`, `ops/matmul.py` 62-74. -/
def matmul3 (B : Ops K) (ta tb tc : Bool) (a b c : Mat K) : E (Mat K) := do
  let sa ← shapeMatrixTr a ta
  let sb ← shapeMatrixTr b tb
  let sc ← shapeMatrixTr c tc
  let costAb := sa.1 * sa.2 * sb.2 + sa.1 * sb.2 * sc.2
  let costBc := sb.1 * sb.2 * sc.2 + sa.1 * sb.1 * sc.2
  if costAb ≤ costBc then
    let ab ← B.matmul ta tb a b
    B.matmul false tc ab c
  else
    let bc ← B.matmul tb tc b c
    B.matmul ta false a bc

/-- `dense(a: Constant)`, `ops/dense.py` 60-64. -/
def denseConst (t : Tensor K) (r c : ℕ) : E (Tensor K) :=
  nMul (expandIgn 2 t) (fillT (c :: r :: List.replicate t.rank 1) 1)

/-- Repetitions along one axis, `B.tile` with all other repetitions 1, on the numeric value of a block (`ops/dense.py` 116-120). -/
def tileBlock (k rep : ℕ) (t : Tensor K) : Tensor K := tileAx k rep t

/-- `dense(a: TiledBlocks)`, `ops/dense.py` 90-123.  The axis is resolved against the rank of `a`; every block is broadcast to
the batch shape of `a` (except along a batch concatenation axis), tiled, and all are concatenated.
Simplification: for structured blocks Python ends with a `Dense` object rather than a numeric tensor; the model returns its numeric value. -/
def denseTiled (B : Ops K) {n : ℕ} (blk : Fin n → Mat K) (reps : Fin n → ℕ) (axis : Int) : E (Tensor K) := do
  let s ← shape (.tiled n blk reps axis)
  let k ← axPos s.length axis
  let target := s.drop 2
  let parts ← seqFin fun i => do
    let bb ← shapeBatch (blk i)
    let bb := bb ++ List.replicate (target.length - bb.length) 1
    let tgt := if k < 2 then target else target.set (k-2) (dim bb (k-2))
    let block ← broadcastBatchTo tgt (blk i)
    let d ← B.dense block
    pure (tileBlock k (reps i) d)
  nConcat (-(k+1)) (List.ofFn parts)

/-- `B.dense(a)`, `ops/dense.py` 19-123. -/
def stepDense (B : Ops K) (a : Mat K) : E (Tensor K) :=
  match a with
  | .num t => .ok t
  | .zero bt r c => .ok (fillT (c :: r :: bt) 0)
  | .dense t => .ok t
  | .lt t => .ok t
  | .ut t => .ok t
  | .diag t => .ok (diagC t)
  | .const t r c => denseConst t r c
  | .lr l r m => do B.dense (← matmul3 B false false true l m r)
  | .wb d l r m => do
    let x ← B.dense (.diag d)
    let y ← B.dense (.lr l r m)
    nAdd x y
  | .kron l r => do
    let lr ← alignBatch2 l r
    let x ← B.dense lr.1
    let y ← B.dense lr.2
    return kronT x y
  | .tiled _ blk reps axis => denseTiled B blk reps axis

/-! ### `B.diag`, `ops/diag.py` -/

/-- `diag(a: LowRank)`, `ops/diag.py` 44-58. -/
def diagLR (B : Ops K) (l r m : Mat K) : E (Tensor K) := do
  let s ← shapeMatrix (.lr l r m)
  let n := min s.1 s.2
  let lm ← B.matmul false false l m
  let x ← B.dense lm
  let y ← B.dense r
  let p ← nMul (headRows n x) (headRows n y)
  nSum p (some (-1))

/-- `B.diag(a)`, `ops/diag.py` 23-69; numeric: LAB `B.diag` (construct from a vector, extract from a matrix, ValueError otherwise). -/
def stepDiag (B : Ops K) (a : Mat K) : E (Tensor K) :=
  match a with
  | .num t => if t.rank = 1 then .ok (diagC t) else if t.rank = 2 then .ok (diagE t) else .error .value
  | .zero bt r c => .ok (fillT (min r c :: bt) 0)
  | .dense t => .ok (diagE t)
  | .lt t => .ok (diagE t)
  | .ut t => .ok (diagE t)
  | .diag t => .ok t
  | .const t r c => nMul (expandIgn 1 t) (fillT (min r c :: t.sh) 1)
  | .lr l r m => diagLR B l r m
  | .wb d l r m => do
    let x ← B.diag (.diag d)
    let y ← B.diag (.lr l r m)
    nAdd x y
  | .kron l r => do
    let lr ← alignBatch2 l r
    let x ← B.diag lr.1
    let y ← B.diag lr.2
    return kronV x y
  | .tiled .. => .error .notFound

/-! ### `B.sum` over a matrix axis, `ops/sum.py` -/

/-- `sum(a: LowRank, axis)`, `ops/sum.py` 79-94. -/
def sumLR (B : Ops K) (k : ℕ) (l r m : Mat K) : E (Tensor K) :=
  if k = 1 then do
    let sl ← B.sumM 1 l
    let rm ← B.matmul false true r m
    let p ← B.mul (.num (expandRow sl)) rm
    B.sumM 0 p
  else do
    let lm ← B.matmul false false l m
    let sr ← B.sumM 1 r
    let p ← B.mul lm (.num (expandRow sr))
    B.sumM 0 p

/-- `sum(a: Kronecker, axis)`, `ops/sum.py` 127-134. -/
def sumKron (B : Ops K) (k : ℕ) (l r : Mat K) : E (Tensor K) := do
  let sl ← B.sumM k l
  let sr ← B.sumM k r
  let p ← nMul (expandEnd 1 sl) (expandRow sr)
  let bt ← shapeBatch (.kron l r)
  let rc ← shapeMatrix (.kron l r)
  nReshape ((if k = 1 then rc.2 else rc.1) :: bt) p

/-- `B.sum(a, axis=-1)` (`k = 0`) and `B.sum(a, axis=-2)` (`k = 1`), `ops/sum.py` 20-140. -/
def stepSumM (B : Ops K) (k : ℕ) (a : Mat K) : E (Tensor K) :=
  match a with
  | .num t => nSum t (some (-(k+1)))
  | .zero bt r c => .ok (fillT ((if k = 1 then c else r) :: bt) 0)
  | .dense t => nSum t (some (-(k+1)))
  | .lt t => nSum t (some (-(k+1)))
  | .ut t => nSum t (some (-(k+1)))
  | .diag t => .ok t
  | .const t r c => do
    let x := tmap (fun x => x * ((if k = 1 then r else c : ℕ) : K)) (expandIgn 1 t)
    nMul x (fillT ((if k = 1 then c else r) :: List.replicate t.rank 1) 1)
  | .lr l r m => sumLR B k l r m
  | .wb d l r m => do
    let x ← B.sumM k (.diag d)
    let y ← B.sumM k (.lr l r m)
    nAdd x y
  | .kron l r => sumKron B k l r
  | .tiled .. => .error .notFound

end

/-! ### Alignment of low-rank factors, `ops/algorithms/align.py` -/

section
variable [Field K] [LinearOrder K]

/-- Norms of the columns of the first batch element, `align.py` 28-29. -/
def colNorms (t : Tensor K) : List K :=
  (List.range t.cols).map fun j => ∑ i ∈ Finset.range t.rows, t.at' (fun _ => 0) i j * t.at' (fun _ => 0) i j

/-- Result of `align`: permutations to align and to join; `-1` is the padding column of zeros. -/
structure Align where
  aPerm : List Int
  bPerm : List Int
  aJoin : List Int
  bJoin : List Int
  deriving DecidableEq, Repr

/-- Prepend one slot. -/
def Align.cons (p q pj qj : Int) (r : Align) : Align :=
  ⟨p :: r.aPerm, q :: r.bPerm, pj :: r.aJoin, qj :: r.bJoin⟩

/-- The loop of `align.py` 43-76 on the sorted index lists.  `eq i j` is `equal(i, j)`, `na`, `nb` the norms. -/
def alignLoop (eq : ℕ → ℕ → E Bool) (na nb : ℕ → K) : List ℕ → List ℕ → E Align
  | i :: as, j :: bs => do
    if ← eq i j then
      return Align.cons i j i (-1) (← alignLoop eq na nb as bs)
    else if na i < nb j then
      return Align.cons i (-1) i (-1) (← alignLoop eq na nb as (j :: bs))
    else
      return Align.cons (-1) j (-1) j (← alignLoop eq na nb (i :: as) bs)
  | [], bs => .ok ⟨bs.map fun _ => -1, bs.map Int.ofNat, bs.map fun _ => -1, bs.map Int.ofNat⟩
  | as, [] => .ok ⟨as.map Int.ofNat, as.map fun _ => -1, as.map Int.ofNat, as.map fun _ => -1⟩
termination_by as bs => as.length + bs.length

/-- `align(a, b)`, `align.py` 4-85, on the dense values.  `a[(0, ..., 0, :, :)]` raises IndexError if a batch axis is empty. -/
def align (env : Env K) (a b : Tensor K) : E Align := do
  guardE (0 ∉ a.bt) .index
  guardE (0 ∉ b.bt) .index
  let na := colNorms a
  let nb := colNorms b
  alignLoop (env.colEq a b) (fun i => na.getD i 0) (fun j => nb.getD j 0) (env.argsort na) (env.argsort nb)

/-- Wrap a numeric result as the operand was: numeric stays numeric, a matrix becomes Dense. -/
def wrapLike (a : Mat K) (t : Tensor K) : Mat K := if a.isAM then mkDense t else .num t

/-- `_pad_zero_row(a)`, `ops/add.py` 149-151; for a matrix operand `B.concat` promotes the zeros and goes to `ops/concat.py` 11-23. -/
def padZeroRow (B : Ops K) (a : Mat K) : E (Mat K) := do
  let s ← shape a
  let z := fillT (dim s 0 :: 1 :: s.drop 2) 0
  let d ← B.dense a
  return wrapLike a (← nConcat (-2) [d, z])

/-- `_pad_zero_col(a)`, `ops/add.py` 154-156. -/
def padZeroCol (B : Ops K) (a : Mat K) : E (Mat K) := do
  let s ← shape a
  let z := fillT (1 :: dim s 1 :: s.drop 2) 0
  let d ← B.dense a
  return wrapLike a (← nConcat (-1) [d, z])

/-- `B.take(a, indices, axis)` for a numeric or Dense operand, `ops/take.py` 23-27. -/
def takeGen (B : Ops K) (a : Mat K) (idx : List Int) (axis : Int) : E (Mat K) := do
  let d ← B.dense a
  return wrapLike a (← nTake d idx axis)

/-- `add(a: LowRank, b: LowRank)`, `ops/add.py` 163-201 (without the control-flow cache, see `Replay.lean`). -/
def addLRLR (env : Env K) (B : Ops K) (al ar am bl br bm : Mat K) : E (Mat K) := do
  assertCompatible (← shape (.lr al ar am)) (← shape (.lr bl br bm))
  let L ← align env (← B.dense al) (← B.dense bl)
  let R ← align env (← B.dense ar) (← B.dense br)
  let aLeft ← takeGen B (← padZeroCol B al) L.aJoin (-1)
  let bLeft ← takeGen B (← padZeroCol B bl) L.bJoin (-1)
  let joinLeft ← B.add aLeft bLeft
  let aRight ← takeGen B (← padZeroCol B ar) R.aJoin (-1)
  let bRight ← takeGen B (← padZeroCol B br) R.bJoin (-1)
  let joinRight ← B.add aRight bRight
  let aMid ← takeGen B (← takeGen B (← padZeroCol B (← padZeroRow B am)) L.aPerm (-2)) R.aPerm (-1)
  let bMid ← takeGen B (← takeGen B (← padZeroCol B (← padZeroRow B bm)) L.bPerm (-2)) R.bPerm (-1)
  let joinMid ← B.add aMid bMid
  let lr ← mkLR joinLeft joinRight joinMid
  if ← env.isZero (← B.dense joinMid) then mkZero (← shape lr)
  else return lr

/-! ### `B.add`, `ops/add.py` -/

/-- The methods of `B.add` for matrices, `ops/add.py`. -/
inductive AddM where
  | amZero | zeroAm | amAm | denseDense | diagDiag | constConst | constAm | constDiag | swap
  | ltLt | ltDiag | utUt | utLt | utDiag | lrLr | lrConst | lrDiag | diagLr | wbWb | wbDiag | wbAny
  deriving DecidableEq, Repr

/-- Run one method of `B.add`. A method called with operands not matching its signature is a NotFoundLookupError. -/
def addRun (env : Env K) (B : Ops K) (m : AddM) (a b : Mat K) : E (Mat K) :=
  match m, a, b with
  | .amZero, a, b => do  -- 33-36
    assertCompatible (← shape a) (← shape b)
    match b with
    | .zero .. => broadcastTo B a (← shapeBroadcast a b)
    | _ => .error .notFound
  | .zeroAm, a, b => do  -- 39-42
    assertCompatible (← shape a) (← shape b)
    match a with
    | .zero .. => broadcastTo B b (← shapeBroadcast a b)
    | _ => .error .notFound
  | .amAm, a, b => do  -- 48-54
    return mkDense (← nAdd (← B.dense a) (← B.dense b))
  | .denseDense, .dense s, .dense t => do return mkDense (← nAdd s t)  -- 57-59
  | .diagDiag, .diag s, .diag t => do mkDiag (← nAdd s t)  -- 65-67
  | .constConst, .const s r c, .const t r' c' => do  -- 73-76
    assertCompatible (c :: r :: s.sh) (c' :: r' :: t.sh)
    mkConst (← nAdd s t) (← bsE (c :: r :: s.sh) (c' :: r' :: t.sh))
  | .constAm, .const s r c, b => do  -- 79-93
    let x ← nAdd (expandIgn 2 s) (← B.dense b)
    return mkDense (← nBroadcastTo (← shapeBroadcast (.const s r c) b) x)
  | .constDiag, .const s r c, .diag t => do  -- 96-100
    assertCompatible (← shape (.const s r c)) (← shape (.diag t))
    let rc ← shapeMatrixBroadcast (.const s r c) (.diag t)
    let lr ← constToLR s rc.1 rc.2
    B.add lr (.diag t)
  | .swap, a, b => B.add b a  -- 24-27, 103-104, 121, 142-143, 210-212, 238-240, 248-250
  | .ltLt, .lt s, .lt t => do mkLT (← nAdd s t)  -- 110-112
  | .ltDiag, .lt s, .diag t => do mkLT (← nAdd s (← B.dense (.diag t)))  -- 115-118
  | .utUt, .ut s, .ut t => do mkUT (← nAdd s t)  -- 127-129
  | .utLt, .ut s, .lt t => do return mkDense (← nAdd s t)  -- 132-134
  | .utDiag, .ut s, .diag t => do mkUT (← nAdd s (← B.dense (.diag t)))  -- 137-139
  | .lrLr, .lr al ar am, .lr bl br bm => addLRLR env B al ar am bl br bm
  | .lrConst, .lr l r m, .const t i j => do  -- 204-207
    let rc ← shapeMatrixBroadcast (.lr l r m) (.const t i j)
    let lr ← constToLR t rc.1 rc.2
    B.add (.lr l r m) lr
  | .lrDiag, .lr l r m, .diag t => mkWB t l r m  -- 215-217
  | .diagLr, .diag t, .lr l r m => mkWB t l r m  -- 220-222
  | .wbWb, .wb d l r m, .wb d' l' r' m' => do  -- 228-230
    let x ← B.add (.diag d) (.diag d')
    let y ← B.add (.lr l r m) (.lr l' r' m')
    B.add x y
  | .wbDiag, .wb d l r m, .diag t => do  -- 233-235
    let x ← B.add (.diag d) (.diag t)
    B.add x (.lr l r m)
  | .wbAny, .wb d l r m, b => do  -- 243-245
    let y ← B.add (.lr l r m) b
    B.add (.diag d) y
  | _, _, _ => .error .notFound


/-- Which method of `B.add` is called for two classes.  `Dispatch.lean` proves that this is what the resolver computes from
the registered signatures. -/
def addId : Kind → Kind → AddM
  | _, .zero => .amZero
  | .zero, _ => .zeroAm
  | .dense, .dense => .denseDense
  | .diag, .diag => .diagDiag
  | .const, .const => .constConst
  | .const, .diag => .constDiag
  | .const, .lr => .swap
  | .const, .wb => .swap
  | .const, _ => .constAm
  | .diag, .const => .swap
  | .diag, .lt => .swap
  | .diag, .ut => .swap
  | .diag, .lr => .diagLr
  | .diag, .wb => .swap
  | .lt, .lt => .ltLt
  | .lt, .diag => .ltDiag
  | .lt, .ut => .swap
  | .ut, .ut => .utUt
  | .ut, .lt => .utLt
  | .ut, .diag => .utDiag
  | .lr, .lr => .lrLr
  | .lr, .const => .lrConst
  | .lr, .diag => .lrDiag
  | .lr, .wb => .swap
  | .wb, .wb => .wbWb
  | .wb, .diag => .wbDiag
  | .wb, .const => .wbAny
  | .wb, .lr => .wbAny
  | _, .const => .swap
  | _, _ => .amAm

/-- `B.add(a, b)`: two numeric operands add in the backend; otherwise numeric operands are promoted (`promote.py` 14-22)
and the method is chosen by the classes. -/
def stepAdd (env : Env K) (B : Ops K) (a b : Mat K) : E (Mat K) :=
  match a, b with
  | .num s, .num t => do return .num (← nAdd s t)
  | a, b =>
    let a := convertAM env a
    let b := convertAM env b
    match a.kind, b.kind with
    | some ka, some kb => addRun env B (addId ka kb) a b
    | _, _ => .error .notFound

/-! ### `B.multiply`, `ops/multiply.py` -/

/-- The methods of `B.multiply` for matrices. -/
inductive MulM where
  | amZero | zeroAm | amAm | denseDense | diagDiag | diagAm | swap | constConst | constAm | constDiag
  | ltLt | ltAm | ltConst | utUt | utLt | utAm | utConst | lrLr | constLr | wbAm | kronKron | constKron
  deriving DecidableEq, Repr

/-- Columns of a numeric matrix, `B.unstack(x, axis=offset+1)`; rows, `axis=offset`. -/
def colT (t : Tensor K) (j : ℕ) : Tensor K := mkVec t.bt t.rows fun β i => t.at' β i j

/-- `multiply(a: LowRank, b: LowRank)`, `ops/multiply.py` 188-228, after the batch shapes are aligned: the factors of the product have
the products of all pairs of columns as columns; `B.stack` of nothing (a factor without columns or rows) raises.
Simplification: the unstack/stack construction is given by its entries. -/
def hadamardFactors (al am ar bl bm br : Tensor K) : E (Tensor K × Tensor K × Tensor K) := do
  -- shapes of the column vectors must broadcast
  guardE (Compat [al.rows] [bl.rows]) .value
  guardE (Compat [ar.rows] [br.rows]) .value
  guardE (0 < al.cols * bl.cols ∧ 0 < ar.cols * br.cols ∧ 0 < am.rows * bm.rows ∧ 0 < am.cols * bm.cols) .value
  let left := mkMat al.bt (bd al.rows bl.rows) (al.cols * bl.cols) fun β i j =>
    al.at' β i (j / bl.cols) * bl.at' β i (j % bl.cols)
  let right := mkMat ar.bt (bd ar.rows br.rows) (ar.cols * br.cols) fun β i j =>
    ar.at' β i (j / br.cols) * br.at' β i (j % br.cols)
  let middle := mkMat am.bt (am.rows * bm.rows) (am.cols * bm.cols) fun β i j =>
    am.at' β (i / bm.rows) (j / bm.cols) * bm.at' β (i % bm.rows) (j % bm.cols)
  return (left, right, middle)

/-- `multiply(a: LowRank, b: LowRank)`, `ops/multiply.py` 188-228. -/
def mulLRLR (B : Ops K) (al ar am bl br bm : Mat K) : E (Mat K) := do
  assertCompatible (← shape (.lr al ar am)) (← shape (.lr bl br bm))
  let al ← B.dense al
  let am ← B.dense am
  let ar ← B.dense ar
  let bl ← B.dense bl
  let bm ← B.dense bm
  let br ← B.dense br
  -- align_batch(al, am, ar, bl, bm, br)
  let s ← bsE (← bsE (← bsE (← bsE (← bsE al.bt am.bt) ar.bt) bl.bt) bm.bt) br.bt
  let al ← nBroadcastBatchTo s al
  let am ← nBroadcastBatchTo s am
  let ar ← nBroadcastBatchTo s ar
  let bl ← nBroadcastBatchTo s bl
  let bm ← nBroadcastBatchTo s bm
  let br ← nBroadcastBatchTo s br
  let f ← hadamardFactors al am ar bl bm br
  mkLR (.num f.1) (.num f.2.1) (.num f.2.2)

/-- `multiply(a: Diagonal, b: AbstractMatrix)`, `ops/multiply.py` 65-80. -/
def mulDiagAm (B : Ops K) (d : Tensor K) (b : Mat K) : E (Mat K) := do
  assertCompatible (← shape (.diag d)) (← shape b)
  let rc ← shapeMatrix b
  let bDiag ←
    if rc.1 = 1 then do nSqueeze 1 (← B.dense b)
    else if rc.2 = 1 then do nSqueeze 0 (← B.dense b)
    else B.diag b
  mkDiag (← nMul d bDiag)

/-- Run one method of `B.multiply`. -/
def mulRun (B : Ops K) (m : MulM) (a b : Mat K) : E (Mat K) :=
  match m, a, b with
  | .amZero, a, b => do  -- 28-31
    assertCompatible (← shape a) (← shape b)
    match b with
    | .zero .. => broadcastTo B b (← shapeBroadcast a b)
    | _ => .error .notFound
  | .zeroAm, a, b => do  -- 34-37
    assertCompatible (← shape a) (← shape b)
    match a with
    | .zero .. => broadcastTo B a (← shapeBroadcast a b)
    | _ => .error .notFound
  | .amAm, a, b => do return mkDense (← nMul (← B.dense a) (← B.dense b))  -- 43-49
  | .denseDense, .dense s, .dense t => do return mkDense (← nMul s t)  -- 52-54
  | .diagDiag, .diag s, .diag t => do mkDiag (← nMul s t)  -- 60-62
  | .diagAm, .diag d, b => mulDiagAm B d b  -- 65-80
  | .swap, a, b => B.mul b a  -- 19-22, 83, 121-122, 146-147, 178-180, 244-246, 258-260, 295-297
  | .constConst, .const s r c, .const t r' c' => do  -- 89-92
    assertCompatible (c :: r :: s.sh) (c' :: r' :: t.sh)
    mkConst (← nMul s t) (← bsE (c :: r :: s.sh) (c' :: r' :: t.sh))
  | .constAm, .const s r c, b => do  -- 95-110
    assertCompatible (← shape (.const s r c)) (← shape b)
    let x ← nMul (expandIgn 2 s) (← B.dense b)
    return mkDense (← nBroadcastTo (← shapeBroadcast (.const s r c) b) x)
  | .constDiag, .const s r c, .diag t => do  -- 113-118
    assertCompatible (← shape (.const s r c)) (← shape (.diag t))
    mkDiag (← nMul (expandIgn 1 s) t)
  | .ltLt, .lt s, .lt t => do mkLT (← nMul s t)  -- 128-130
  | .ltAm, .lt s, b => do mkLT (← nMul s (← B.dense b))  -- 133-136
  | .ltConst, .lt s, .const t _ _ => do mkLT (← nMul s (expandIgn 2 t))  -- 139-143
  | .utUt, .ut s, .ut t => do mkUT (← nMul s t)  -- 155-157
  | .utLt, .ut s, .lt t => do  -- 160-162
    mkDiag (← nMul (← B.diag (.ut s)) (← B.diag (.lt t)))
  | .utAm, .ut s, b => do mkUT (← nMul s (← B.dense b))  -- 165-168
  | .utConst, .ut s, .const t _ _ => do mkUT (← nMul s (expandIgn 2 t))  -- 171-175
  | .lrLr, .lr al ar am, .lr bl br bm => mulLRLR B al ar am bl br bm
  | .constLr, .const s r c, .lr l r' m => do  -- 231-241
    assertCompatible (← shape (.const s r c)) (← shape (.lr l r' m))
    let m' ← B.mul (.num (expandIgn 2 s)) m
    mkLR l r' m'
  | .wbAm, .wb d l r m, b => do  -- 252-255
    let x ← B.mul (.diag d) b
    let y ← B.mul (.lr l r m) b
    B.add x y
  | .kronKron, .kron l r, .kron l' r' => do  -- 273-281
    guardE ((← shapeMatrix l) = (← shapeMatrix l') ∧ (← shapeMatrix r) = (← shapeMatrix r')) .assertion
    return .kron (← B.mul l l') (← B.mul r r')
  | .constKron, .const s r c, .kron l r' => do  -- 284-292
    assertCompatible (← shape (.const s r c)) (← shape (.kron l r'))
    return .kron (← B.mul (.num (expandIgn 2 s)) l) r'
  | _, _, _ => .error .notFound

/-- Which method of `B.multiply` is called for two classes (proved against the resolver in `Dispatch.lean`). -/
def mulId : Kind → Kind → MulM
  | _, .zero => .amZero
  | .zero, _ => .zeroAm
  | .dense, .dense => .denseDense
  | .diag, .diag => .diagDiag
  | .diag, .const => .swap
  | .diag, _ => .diagAm
  | .const, .diag => .constDiag
  | _, .diag => .swap
  | .const, .const => .constConst
  | .const, .lr => .constLr
  | .const, .kron => .constKron
  | .const, .lt => .swap
  | .const, .ut => .swap
  | .const, .wb => .swap
  | .const, _ => .constAm
  | .lt, .lt => .ltLt
  | .lt, .const => .ltConst
  | .lt, .ut => .swap
  | .lt, .wb => .swap
  | .lt, _ => .ltAm
  | .ut, .ut => .utUt
  | .ut, .lt => .utLt
  | .ut, .const => .utConst
  | .ut, .wb => .swap
  | .ut, _ => .utAm
  | .wb, _ => .wbAm
  | _, .wb => .swap
  | _, .lt => .swap
  | _, .ut => .swap
  | .lr, .lr => .lrLr
  | .kron, .kron => .kronKron
  | _, .const => .swap
  | _, _ => .amAm

/-- `B.multiply(a, b)`. -/
def stepMul (env : Env K) (B : Ops K) (a b : Mat K) : E (Mat K) :=
  match a, b with
  | .num s, .num t => do return .num (← nMul s t)
  | a, b =>
    let a := convertAM env a
    let b := convertAM env b
    match a.kind, b.kind with
    | some ka, some kb => mulRun B (mulId ka kb) a b
    | _, _ => .error .notFound

/-! ### `B.matmul`, `ops/matmul.py` -/

/-- `_assert_composable(a, b, tr_a, tr_b)`, `ops/matmul.py` 30-37. -/
def assertComposable (ta tb : Bool) (a b : Mat K) : E Unit := do
  let s1 ← shapeMatrixTr a ta
  let s2 ← shapeMatrixTr b tb
  guardE (s1.2 = s2.1) .assertion

/-- The methods of `B.matmul` for matrices. -/
inductive MmM where
  | amZero | zeroAm | denseDense | diagDiag | diagAm | amDiag | constConst | constAm | amConst
  | ltLt | ltAm | amLt | ltDiag | diagLt | utUt | utDiag | diagUt
  | lrLr | lrAm | amLr | lrConst | constLr | wbAm | amWb | kronKron | kronAm | amKron | kronDiag | diagKron
  deriving DecidableEq, Repr

/-- `_reshape_rows(a, n, -1)` and `_reshape_rows(a, -1, c)`, `ops/matmul.py` 329-330, on numeric values: keep the batch, `r × c` matrices. -/
def reshapeMat (r c : ℕ) (t : Tensor K) : E (Tensor K) := nReshape (c :: r :: t.bt) t

/-- numpy's inference of a `-1` size: `n / d`, ValueError if `d = 0` or `d` does not divide `n`. -/
def inferDim (n d : ℕ) : E ℕ := if d ≠ 0 ∧ d ∣ n then .ok (n / d) else .error .value

/-- Numeric value of `B.reshape(a, ...)` for numeric or matrix `a`, `ops/reshape.py` 10-16. -/
def reshapeRows (r c : Option ℕ) (t : Tensor K) : E (Tensor K) :=
  match r, c with
  | some r, none => do reshapeMat r (← inferDim (t.rows * t.cols) r) t
  | none, some c => do reshapeMat (← inferDim (t.rows * t.cols) c) c t
  | _, _ => .error .value

/-- `_reshape_cols(a, *indices)`, `ops/matmul.py` 325-326: reshape the transpose with the indices reversed, transpose back. -/
def reshapeCols (r c : Option ℕ) (t : Tensor K) : E (Tensor K) := do
  return nTranspose (← reshapeRows c r (nTranspose t))

/-- `_kron_id_a_b(a, b)`, `ops/matmul.py` 333-335; `b` by its numeric value. -/
def kronIdAB (B : Ops K) (a : Mat K) (b : Tensor K) : E (Tensor K) := do
  let sa ← shape a
  let x ← reshapeCols (some (dim sa 0)) none b
  let y ← B.dense (← B.matmul false false a (.num x))
  reshapeCols none (some b.cols) y

/-- `_kron_a_id_b(a, b)`, `ops/matmul.py` 338-340; `b` by its numeric value. -/
def kronAIdB (B : Ops K) (a : Mat K) (b : Tensor K) : E (Tensor K) := do
  let sa ← shape a
  let x ← reshapeRows (some (dim sa 0)) none b
  let y ← B.dense (← B.matmul false false a (.num x))
  reshapeRows none (some b.cols) y

/-- `matmul(a: Kronecker, b: AbstractMatrix)`, `ops/matmul.py` 343-361.
Simplification: `B.reshape(b, ...)` of a matrix `b` is dense (`ops/reshape.py`), so `b` is made dense once at the start. -/
def matmulKronAm (B : Ops K) (ta tb : Bool) (l r b : Mat K) : E (Mat K) := do
  assertComposable ta tb (.kron l r) b
  let l ← trM ta l
  let r ← trM ta r
  let b ← trM tb b
  let sl ← shapeMatrix l
  let sr ← shapeMatrix r
  let b ← B.dense b
  let costLeft := sl.1 * sl.2 * sr.2 + sr.1 * sr.2 * sl.1
  let costRight := sr.1 * sr.2 * sl.2 + sl.1 * sl.2 * sr.1
  if costLeft ≤ costRight then
    return mkDense (← kronIdAB B r (← kronAIdB B l b))
  else
    return mkDense (← kronAIdB B l (← kronIdAB B r b))

/-- `matmul(a: LowRank, b: LowRank)`, `ops/matmul.py` 239-249. -/
def matmulLRLR (B : Ops K) (ta tb : Bool) (a b : Mat K) : E (Mat K) := do
  assertComposable ta tb a b
  match ← trM ta a, ← trM tb b with
  | .lr al ar am, .lr bl br bm => do
    let middle ← B.matmul true false ar bl
    let middle ← matmul3 B false false false am middle bm
    let s ← shapeMatrix middle
    if s = (1, 1) then do
      let d ← B.dense middle
      let m' ← mkDiag (mkVec d.bt 1 fun β _ => d.at' β 0 0)
      mkLR al br m'
    else mkLR al br middle
  | _, _ => .error .attribute

/-- Run one method of `B.matmul`. -/
def mmRun (B : Ops K) (m : MmM) (ta tb : Bool) (a b : Mat K) : E (Mat K) :=
  match m, a, b with
  | .amZero, a, .zero bt r c => do  -- 43-48
    assertComposable ta tb a (.zero bt r c)
    let sa ← shapeMatrixTr a ta
    let sb ← shapeMatrixTr (.zero bt r c : Mat K) tb
    return .zero (← bsE (← shapeBatch a) bt) sa.1 sb.2
  | .zeroAm, .zero bt r c, b => do  -- 51-56
    assertComposable ta tb (.zero bt r c) b
    let sa ← shapeMatrixTr (.zero bt r c : Mat K) ta
    let sb ← shapeMatrixTr b tb
    return .zero (← bsE bt (← shapeBatch b)) sa.1 sb.2
  | .denseDense, .dense s, .dense t => do return mkDense (← nMatmul ta tb s t)  -- 80-82
  | .diagDiag, .diag s, .diag t => do  -- 88-91
    assertComposable ta tb (.diag s : Mat K) (.diag t)
    mkDiag (← nMul s t)
  | .diagAm, .diag s, b => do  -- 94-97
    assertComposable ta tb (.diag s) b
    B.mul (mkDense (expandEnd 1 s)) (← trM tb b)
  | .amDiag, a, .diag t => do  -- 100-103
    assertComposable ta tb a (.diag t)
    B.mul (← trM ta a) (mkDense (expandRow t))
  | .constConst, .const s r c, .const t r' c' => do  -- 109-114
    assertComposable ta tb (.const s r c : Mat K) (.const t r' c')
    let (ar, ac) := if ta then (c, r) else (r, c)
    let bc := if tb then r' else c'
    let p ← nMul s t
    return .const (tmap (fun x => x * (ac : K)) p) ar bc
  | .constAm, .const s r c, b => do  -- 117-126
    assertComposable ta tb (.const s r c) b
    let ar := if ta then c else r
    let b ← trM tb b
    let v ← B.sumM 1 b
    mkLR (.num (fillT [1, ar] 1)) (.num (expandEnd 1 v)) (← fillDiag s 1)
  | .amConst, a, .const t r c => do  -- 129-138
    assertComposable ta tb a (.const t r c)
    let a ← trM ta a
    let bc := if tb then r else c
    let v ← B.sumM 0 a
    mkLR (.num (expandEnd 1 v)) (.num (fillT [1, bc] 1)) (← fillDiag t 1)
  | .ltLt, .lt s, .lt t =>  -- 147-154
    if ta = false ∧ tb = false then do mkLT (← nMatmul false false s t)
    else do B.matmul false false (← trM ta (.lt s)) (← trM tb (.lt t))
  | .ltAm, a, b => do  -- 157-166 (also UpperTriangular by redirection, 229)
    match a with
    | .lt s | .ut s => B.matmul ta tb (.num s) b
    | _ => .error .notFound
  | .amLt, a, b => do  -- 169-178 (also UpperTriangular by redirection, 229)
    match b with
    | .lt s | .ut s => B.matmul ta tb a (.num s)
    | _ => .error .notFound
  | .ltDiag, .lt s, .diag t =>  -- 181-186
    if ta = false then do
      let x ← B.matmul false false (.num s) (.diag t)
      mkLT (← B.dense x)
    else do B.matmul false false (← trM ta (.lt s)) (.diag t)
  | .diagLt, .diag s, .lt t =>  -- 189-194
    if tb = false then do
      let x ← B.matmul false false (.diag s) (.num t)
      mkLT (← B.dense x)
    else do B.matmul false false (.diag s) (← trM tb (.lt t))
  | .utUt, .ut s, .ut t =>  -- 203-210
    if ta = false ∧ tb = false then do mkUT (← nMatmul false false s t)
    else do B.matmul false false (← trM ta (.ut s)) (← trM tb (.ut t))
  | .utDiag, .ut s, .diag t =>  -- 213-218
    if ta = false then do
      let x ← B.matmul false false (.num s) (.diag t)
      mkUT (← B.dense x)
    else do B.matmul false false (← trM ta (.ut s)) (.diag t)
  | .diagUt, .diag s, .ut t =>  -- 221-226
    if tb = false then do
      let x ← B.matmul false false (.diag s) (.num t)
      mkUT (← B.dense x)
    else do B.matmul false false (.diag s) (← trM tb (.ut t))
  | .lrLr, a, b => matmulLRLR B ta tb a b
  | .lrAm, a, b => do  -- 252-257
    assertComposable ta tb a b
    match ← trM ta a with
    | .lr l r m => do
      let b ← trM tb b
      mkLR l (← B.matmul true false b r) m
    | _ => .error .attribute
  | .amLr, a, b => do  -- 260-265
    assertComposable ta tb a b
    match ← trM tb b with
    | .lr l r m => do
      let a ← trM ta a
      mkLR (← B.matmul false false a l) r m
    | _ => .error .attribute
  | .lrConst, a, .const t r c => do  -- 268-270
    B.matmul ta tb a (← constToLR t r c)
  | .constLr, .const s r c, b => do  -- 273-275
    B.matmul ta tb (← constToLR s r c) b
  | .wbAm, .wb d l r m, b => do  -- 286-292
    let x ← B.matmul ta tb (.diag d) b
    let y ← B.matmul ta tb (.lr l r m) b
    B.add x y
  | .amWb, a, .wb d l r m => do  -- 295-301
    let x ← B.matmul ta tb a (.diag d)
    let y ← B.matmul ta tb a (.lr l r m)
    B.add x y
  | .kronKron, .kron l r, .kron l' r' => do  -- 315-322
    assertComposable ta tb l l'
    assertComposable ta tb r r'
    return .kron (← B.matmul ta tb l l') (← B.matmul ta tb r r')
  | .kronAm, .kron l r, b => matmulKronAm B ta tb l r b
  | .amKron, a, b => do  -- 364-366
    transposeM (← B.matmul (!tb) (!ta) b a)
  | .kronDiag, a, .diag t => do  -- 369-376
    B.matmul ta tb (.num (← B.dense a)) (.diag t)
  | .diagKron, .diag s, b => do  -- 379-386
    B.matmul ta tb (.diag s) (.num (← B.dense b))
  | _, _, _ => .error .notFound

/-- Which method of `B.matmul` is called for two classes (proved against the resolver in `Dispatch.lean`); `none`: NotFoundLookupError. -/
def mmId : Kind → Kind → Option MmM
  | _, .zero => some .amZero
  | .zero, _ => some .zeroAm
  | .dense, .dense => some .denseDense
  | .diag, .diag => some .diagDiag
  | .diag, .const => some .amConst
  | .diag, .lt => some .diagLt
  | .diag, .ut => some .diagUt
  | .diag, .lr => some .amLr
  | .diag, .wb => some .amWb
  | .diag, .kron => some .diagKron
  | .diag, _ => some .diagAm
  | .const, .const => some .constConst
  | .const, .lr => some .constLr
  | .const, .wb => some .amWb
  | .const, _ => some .constAm
  | .lt, .lt => some .ltLt
  | .lt, .diag => some .ltDiag
  | .lt, .const => some .amConst
  | .lt, .lr => some .amLr
  | .lt, .wb => some .amWb
  | .lt, _ => some .ltAm
  | .ut, .ut => some .utUt
  | .ut, .diag => some .utDiag
  | .ut, .lt => some .amLt
  | .ut, .const => some .amConst
  | .ut, .lr => some .amLr
  | .ut, .wb => some .amWb
  | .ut, _ => some .ltAm
  | .lr, .lr => some .lrLr
  | .lr, .const => some .lrConst
  | .lr, .wb => some .amWb
  | .lr, _ => some .lrAm
  | .wb, _ => some .wbAm
  | .kron, .kron => some .kronKron
  | .kron, .diag => some .kronDiag
  | .kron, .const => some .amConst
  | .kron, .lr => some .amLr
  | .kron, .wb => some .amWb
  | .kron, .lt => some .amLt
  | .kron, .ut => some .amLt
  | .kron, _ => some .kronAm
  | _, .diag => some .amDiag
  | _, .const => some .amConst
  | _, .lt => some .amLt
  | _, .ut => some .amLt
  | _, .lr => some .amLr
  | _, .wb => some .amWb
  | _, .kron => some .amKron
  | _, _ => none

/-- `B.matmul(a, b, tr_a, tr_b)`. -/
def stepMatmul (env : Env K) (B : Ops K) (ta tb : Bool) (a b : Mat K) : E (Mat K) :=
  match a, b with
  | .num s, .num t => do return .num (← nMatmul ta tb s t)
  | a, b =>
    let a := convertAM env a
    let b := convertAM env b
    match a.kind, b.kind with
    | some ka, some kb =>
      match mmId ka kb with
      | some m => mmRun B m ta tb a b
      | none => .error .notFound
    | _, _ => .error .notFound

/-! ### Tying the knot -/

/-- One unfolding of every function of the core. -/
def step (env : Env K) (B : Ops K) : Ops K where
  dense := stepDense B
  add := stepAdd env B
  mul := stepMul env B
  matmul := stepMatmul env B
  diag := stepDiag B
  sumM := stepSumM B

/-- The core with recursion depth at most `n`. -/
def ops (env : Env K) : ℕ → Ops K
  | 0 => Ops.bot
  | n+1 => step env (ops env n)

end

end Verif
