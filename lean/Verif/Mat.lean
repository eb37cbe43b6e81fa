/-
The matrix classes, their constructors, their shapes, and the operations that recurse only on the
structure of one matrix (transpose, negative, broadcast_batch_to).
-/
import Verif.Num

namespace Verif

variable {K : Type}

/-- Matrices: numeric operands (`num`) and the ten classes of `matrix/`.
* `num t`: a numeric tensor (`B.Numeric`); a Python number is a rank-0 tensor.
* `zero bt r c`: `constant.py` 11-41 (dtype is modelled separately in `Dtype.lean`).
* `dense t`: `matrix.py` 103-117.   * `diag t`: `diagonal.py` 14-40.
* `const t r c`: `constant.py` 55-98; `t` is the batch of constants.
* `lt t`, `ut t`: `triangular.py` 11-27, 47-63.
* `lr l r m`: `lowrank.py` 11-103; the defaults of `right` and `middle` are resolved at construction (`mkLowRank`).
* `wb d l r m`: `woodbury.py` 16-44; `diag` part `diag d`, `lr` part `lr l r m`.
* `kron l r`: `kronecker.py` 10-33.
* `tiled n blk reps axis`: `tiledblocks.py` 16-60, `n` blocks with their repetitions.
Caching attributes are modelled separately in `Cache.lean`. -/
inductive Mat (K : Type) [Zero K] where
  | num (t : Tensor K)
  | zero (bt : Shp) (r c : ℕ)
  | dense (t : Tensor K)
  | diag (t : Tensor K)
  | const (t : Tensor K) (r c : ℕ)
  | lt (t : Tensor K)
  | ut (t : Tensor K)
  | lr (l r m : Mat K)
  | wb (d : Tensor K) (l r m : Mat K)
  | kron (l r : Mat K)
  | tiled (n : ℕ) (blk : Fin n → Mat K) (reps : Fin n → ℕ) (axis : Int)

/-- The environment: what the numeric backend decides.
* `isNumber t`: is the rank-0 value `t` a `B.Number` (a Python or numpy number) rather than a rank-0 backend tensor; arbitrary.
* `argsort`: `B.argsort`; arbitrary up to being a permutation (`Env.Lawful`).
* `colEq a b i j`: the test `equal(i, j)` of `ops/algorithms/align.py` 25-26.
* `isZero t`: the test `B.mean(B.abs(t)) < 1e-10` of `ops/add.py` 192. -/
structure Env (K : Type) [Zero K] where
  isNumber : Tensor K → Bool
  argsort : List K → List ℕ
  colEq : Tensor K → Tensor K → ℕ → ℕ → E Bool
  isZero : Tensor K → E Bool

/-- Run a family of computations in order. -/
def seqFin {α : Type} : {n : ℕ} → (Fin n → E α) → E (Fin n → α)
  | 0, _ => .ok Fin.elim0
  | _+1, f => do
    let x ← f 0
    let g ← seqFin fun i => f i.succ
    return Fin.cons x g

theorem seqFin_ok {α : Type} {n : ℕ} {f : Fin n → E α} {g : Fin n → α} :
    seqFin f = .ok g ↔ ∀ i, f i = .ok (g i) := by
  induction n with
  | zero =>
    simp only [seqFin, Except.ok.injEq]
    exact ⟨fun _ i => i.elim0, fun _ => funext fun i => i.elim0⟩
  | succ n ih =>
    simp only [seqFin, bind_ok_iff, pure_eq_ok, ih]
    constructor
    · rintro ⟨x, hx, h, hh, rfl⟩ i
      refine Fin.cases ?_ (fun j => ?_) i
      · simpa using hx
      · simpa using hh j
    · intro h
      exact ⟨g 0, h 0, fun i => g i.succ, fun i => h i.succ, Fin.cons_self_tail g⟩

/-! ### Shapes -/

/-- `expand_and_broadcast` of two shapes, `shape.py` 133-150 (literal model and equivalence in `Shape.lean`). -/
def bsE (s t : Shp) : E Shp := if Compat s t then .ok (bsh s t) else .error .runtime

@[simp] theorem bsE_ok {s t u : Shp} : bsE s t = .ok u ↔ Compat s t ∧ bsh s t = u := by
  unfold bsE; split <;> simp [*]

/-- `assert_compatible`, `shape.py` 79-89. -/
def assertCompatible (s t : Shp) : E Unit := guardE (Compat s t) .assertion

/-- `shape(a: TiledBlocks)`, `ops/shape.py` 28-49, from the shapes of the blocks (last axis first).
The shapes are padded with ones to the largest rank; all axes but the concatenation axis broadcast; an axis out of range
makes `shape[axis]` raise IndexError. -/
def tiledShape {n : ℕ} (sh : Fin n → Shp) (reps : Fin n → ℕ) (axis : Int) : E Shp :=
  if n = 0 then .error .value else
  let rank := (List.ofFn fun i => (sh i).length).foldl max 0
  match axPos rank axis with
  | .error _ => .error .index
  | .ok k => do
    let pad := fun i => sh i ++ List.replicate (rank - (sh i).length) 1
    let rest ← (List.ofFn fun i => (pad i).eraseIdx k).tail.foldlM bsE ((List.ofFn fun i => (pad i).eraseIdx k).headD [])
    return rest.insertIdx k (List.ofFn fun i => reps i * dim (pad i) k).sum

/-- Batch shape and matrix shape, `ops/shape_batch.py` 38-77 and `ops/shape_matrix.py` 39-81, computed separately
because the matrix shape does not require the batch shapes to be compatible.
Numeric operands are converted first: a vector is one column.  Blocks of a TiledBlocks have rank at least 2 by construction,
so their shape is `batch + matrix`. -/
def shp [Zero K] : Mat K → E Shp × E (ℕ × ℕ)
  | .num t => (.ok t.bt, .ok (if t.rank = 1 then (t.cols, 1) else (t.rows, t.cols)))
  | .zero bt r c => (.ok bt, .ok (r, c))
  | .dense t => (.ok t.bt, .ok (t.rows, t.cols))
  | .diag t => (.ok t.sh.tail, .ok (t.cols, t.cols))
  | .const t r c => (.ok t.sh, .ok (r, c))
  | .lt t => (.ok t.bt, .ok (t.rows, t.cols))
  | .ut t => (.ok t.bt, .ok (t.rows, t.cols))
  | .lr l r m =>
    (do
      let bl ← (shp l).1
      let br ← (shp r).1
      let bm ← (shp m).1
      bsE (← bsE bl br) bm,
     do
      let sl ← (shp l).2
      let sr ← (shp r).2
      return (sl.1, sr.1))
  | .wb d l r m =>
    (do
      let bl ← (shp l).1
      let br ← (shp r).1
      let bm ← (shp m).1
      bsE d.sh.tail (← bsE (← bsE bl br) bm),
     do
      let sl ← (shp l).2
      let sr ← (shp r).2
      let s ← bsE [d.cols, d.cols] [sr.1, sl.1]
      return (dim s 1, dim s 0))
  | .kron l r =>
    (do bsE (← (shp l).1) (← (shp r).1),
     do
      let sl ← (shp l).2
      let sr ← (shp r).2
      return (sl.1 * sr.1, sl.2 * sr.2))
  | .tiled _ blk reps axis =>
    let full := fun i => do
      let bt ← (shp (blk i)).1
      let rc ← (shp (blk i)).2
      (pure (rc.2 :: rc.1 :: bt) : E Shp)
    let s : E Shp := do tiledShape (← seqFin full) reps axis
    (do return (← s).drop 2, do let s ← s; return (dim s 1, dim s 0))

variable [Zero K]

/-- `B.shape_batch(a)`. -/
def shapeBatch (a : Mat K) : E Shp := (shp a).1
/-- `B.shape_matrix(a)`: (rows, cols). -/
def shapeMatrix (a : Mat K) : E (ℕ × ℕ) := (shp a).2
/-- `B.shape(a)`, `ops/shape.py` 10-12 (`batch + matrix`), last axis first; numeric: the shape itself. -/
def shape (a : Mat K) : E Shp :=
  match a with
  | .num t => .ok t.sh
  | a => do
    let bt ← shapeBatch a
    let rc ← shapeMatrix a
    return rc.2 :: rc.1 :: bt

/-- `B.rank(a)`, `ops/rank.py`. -/
def rankM (a : Mat K) : E ℕ := do return (← shape a).length

/-- Is the operand an `AbstractMatrix`? -/
def Mat.isAM : Mat K → Bool
  | .num _ => false
  | _ => true

/-- The ten kinds of AbstractMatrix. -/
inductive Kind where
  | zero | dense | diag | const | lt | ut | lr | wb | kron | tiled
  deriving DecidableEq, Repr

/-- The class of a matrix; numeric operands have none. -/
def Mat.kind : Mat K → Option Kind
  | .num _ => none
  | .zero .. => some .zero
  | .dense _ => some .dense
  | .diag _ => some .diag
  | .const .. => some .const
  | .lt _ => some .lt
  | .ut _ => some .ut
  | .lr .. => some .lr
  | .wb .. => some .wb
  | .kron .. => some .kron
  | .tiled .. => some .tiled

/-- `B.shape_broadcast(a, b)`, `ops/shape_broadcast.py`. -/
def shapeBroadcast (a b : Mat K) : E Shp := do bsE (← shape a) (← shape b)
/-- `B.shape_batch_broadcast(a, b)`, `ops/shape_batch_broadcast.py`. -/
def shapeBatchBroadcast (a b : Mat K) : E Shp := do bsE (← shapeBatch a) (← shapeBatch b)
/-- `B.shape_matrix_broadcast(a, b)`, `ops/shape_matrix_broadcast.py`. -/
def shapeMatrixBroadcast (a b : Mat K) : E (ℕ × ℕ) := do
  let sa ← shapeMatrix a
  let sb ← shapeMatrix b
  let s ← bsE [sa.2, sa.1] [sb.2, sb.1]
  return (dim s 1, dim s 0)

/-! ### Constructors -/

/-- LAB `B.uprank` to rank 2: a scalar becomes 1×1, a vector becomes a column. -/
def upT (t : Tensor K) : Tensor K :=
  if t.rank = 0 then expandEnd 2 t else if t.rank = 1 then expandEnd 1 t else t

/-- `Dense(mat)`, `matrix.py` 115-117, on a numeric argument. -/
def mkDense (t : Tensor K) : Mat K := .dense (upT t)

/-- `Diagonal(diag)`, `diagonal.py` 27-40: AssertionError unless rank ≥ 1. -/
def mkDiag (t : Tensor K) : E (Mat K) := do
  guardE (1 ≤ t.rank) .assertion
  return .diag t

/-- `LowerTriangular(mat)`, `triangular.py` 21-27 on numeric data. -/
def mkLT (t : Tensor K) : E (Mat K) := do
  guardE (2 ≤ t.rank) .assertion
  return .lt t
/-- `UpperTriangular(mat)`, `triangular.py` 57-63 on numeric data. -/
def mkUT (t : Tensor K) : E (Mat K) := do
  guardE (2 ≤ t.rank) .assertion
  return .ut t

/-- `Constant(const, *batch, rows, cols)`, `constant.py` 75-98 (the list is last axis first: cols, rows, batch). -/
def mkConst (t : Tensor K) (shape : Shp) : E (Mat K) :=
  match shape with
  | c :: r :: [] => .ok (.const t r c)
  | c :: r :: bt => do
    let b ← bsE t.sh bt
    let t' ← nBroadcastTo b t
    return .const t' r c
  | _ => .error .value

/-- `Zero(dtype, *batch, rows, cols)`, `constant.py` 29-37. -/
def mkZero (shape : Shp) : E (Mat K) :=
  match shape with
  | c :: r :: bt => .ok (.zero bt r c)
  | _ => .error .value

/-- `assert_matrix`, `shape.py` 30-39. -/
def assertMatrix (a : Mat K) : E Unit := do guardE (2 ≤ (← rankM a)) .assertion

/-- `assert_square`, `shape.py` 42-53. -/
def assertSquare (a : Mat K) : E Unit := do
  assertMatrix a
  let s ← shapeMatrix a
  guardE (s.1 = s.2) .assertion

/-- `LowRank(left, right, middle)` with all three given, `lowrank.py` 37-84. -/
def mkLR (l r m : Mat K) : E (Mat K) := do
  assertMatrix l
  assertMatrix m
  guardE ((← shapeMatrix l).2 = (← shapeMatrix m).1) .assertion
  assertMatrix r
  guardE ((← shapeMatrix r).2 = (← shapeMatrix m).2) .assertion
  return .lr l r m

/-- `Woodbury(diag, lr)`, `woodbury.py` 37-44. -/
def mkWB (d : Tensor K) (l r m : Mat K) : E (Mat K) := do
  assertCompatible (← shape (.diag d : Mat K)) (← shape (.lr l r m))
  return .wb d l r m

/-- `TiledBlocks((block, rep), ..., axis)`, `tiledblocks.py` 33-54. -/
def mkTiled {n : ℕ} (blk : Fin n → Mat K) (reps : Fin n → ℕ) (axis : Int) : E (Mat K) := do
  guardE (n ≠ 0) .notFound
  let _ ← seqFin fun i => assertMatrix (blk i)
  return .tiled n blk reps axis

/-! ### Transposition, `ops/transpose.py` -/

/-- LAB `B.transpose` on numeric tensors: swaps the last two axes, identity below rank 2. -/
def nTranspose (t : Tensor K) : Tensor K := if 2 ≤ t.rank then tr t else t

/-- `B.transpose(a)`, `ops/transpose.py` 16-73. -/
def transposeM : Mat K → E (Mat K)
  | .num t => .ok (.num (nTranspose t))
  | .zero bt r c => .ok (.zero bt c r)
  | .dense t => .ok (mkDense (nTranspose t))
  | .diag t => .ok (.diag t)
  | .const t r c => mkConst t (r :: c :: t.sh)
  | .lt t => mkUT (nTranspose t)
  | .ut t => mkLT (nTranspose t)
  | .lr l r m => do
    let m' ← transposeM m
    mkLR r l m'
  | .wb d l r m => do
    let m' ← transposeM m
    let _ ← mkLR r l m'
    mkWB d r l m'
  | .kron l r => do
    let l' ← transposeM l
    let r' ← transposeM r
    return .kron l' r'
  | .tiled n blk reps axis => do
    let rk ← rankM (.tiled n blk reps axis)
    let k ← axPos rk axis
    let ax : Int := if k = 1 then -1 else if k = 0 then -2 else -(k+1)
    let blk' ← seqFin fun i => transposeM (blk i)
    mkTiled blk' reps ax

/-- `_tr(a, do)`, `ops/matmul.py` 18-19. -/
def trM (tr : Bool) (a : Mat K) : E (Mat K) := if tr then transposeM a else .ok a

/-! ### Broadcasting of the batch, `ops/broadcast_batch_to.py` -/

/-- `B.broadcast_batch_to(a, *batch)`, `ops/broadcast_batch_to.py` 18-84.  No method for TiledBlocks. -/
def broadcastBatchTo (s : Shp) : Mat K → E (Mat K)
  | .num t => do return .num (← nBroadcastBatchTo s t)
  | .zero _ r c => .ok (.zero s r c)
  | .dense t => do return mkDense (← nBroadcastBatchTo s t)
  | .const t r c => do return .const (← nBroadcastTo s t) r c
  | .diag t => do mkDiag (← nBroadcastTo (t.cols :: s) t)
  | .lt t => do mkLT (← nBroadcastBatchTo s t)
  | .ut t => do mkUT (← nBroadcastBatchTo s t)
  | .lr l r m => do
    let l' ← broadcastBatchTo s l
    let r' ← broadcastBatchTo s r
    let m' ← broadcastBatchTo s m
    mkLR l' r' m'
  | .wb d l r m => do
    let d' ← nBroadcastTo (d.cols :: s) d
    let _ ← mkDiag d'
    let l' ← broadcastBatchTo s l
    let r' ← broadcastBatchTo s r
    let m' ← broadcastBatchTo s m
    let _ ← mkLR l' r' m'
    mkWB d' l' r' m'
  | .kron l r => do
    let l' ← broadcastBatchTo s l
    let r' ← broadcastBatchTo s r
    return .kron l' r'
  | .tiled .. => .error .notFound

/-- `align_batch(a, b)`, `ops/util.py` 13-24. -/
def alignBatch2 (a b : Mat K) : E (Mat K × Mat K) := do
  let s ← shapeBatchBroadcast a b
  let a' ← broadcastBatchTo s a
  let b' ← broadcastBatchTo s b
  return (a', b')

end Verif
