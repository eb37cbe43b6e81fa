/-
The specification: what matrix a structured matrix denotes, and when it is well formed.
Nothing here is taken from the methods of `matrix/ops`.
-/
import Verif.Mat

namespace Verif

variable {K : Type}

/-- Pad a shape with leading axes of size 1 up to rank `n` (last axis first). -/
def padS (n : ℕ) (s : Shp) : Shp := s ++ List.replicate (n - s.length) 1

/-- View a tensor with leading axes of size 1 up to rank `n`. -/
def padT [Zero K] (n : ℕ) (t : Tensor K) : Tensor K := ofFn (padS n t.sh) t.get

/-- The concatenation of tiled blocks: block `i` repeated `reps i` times, all along the axis at position `k`, the other
axes broadcast. -/
def tiledT [Zero K] {n : ℕ} (blk : Fin n → Tensor K) (reps : Fin n → ℕ) (k : ℕ) : Tensor K :=
  let rank := (List.ofFn fun i => (blk i).rank).foldl max 0
  let tiles := List.ofFn fun i => tileAx k (reps i) (padT rank (blk i))
  ofFn (((tiles.map fun t => t.sh.set k 1).foldr bsh []).set k (concatDim k tiles)) (concatGet k tiles)

/-- Position from the end of the axis of a TiledBlocks. -/
def tiledPos [Zero K] {n : ℕ} (blk : Fin n → Tensor K) (axis : Int) : ℕ :=
  match axPos ((List.ofFn fun i => (blk i).rank).foldl max 0) axis with
  | .ok k => k
  | .error _ => 0

/-- The (batch of) dense matrices a matrix denotes. -/
def den [CommRing K] : Mat K → Tensor K
  | .num t => t
  | .zero bt r c => fillT (c :: r :: bt) 0
  | .dense t => t
  | .diag t => diagC t
  | .const t r c => constM t r c
  | .lt t => t
  | .ut t => t
  | .lr l r m => mm (mm (den l) (den m)) (tr (den r))
  | .wb d l r m => zipB (· + ·) (diagC d) (mm (mm (den l) (den m)) (tr (den r)))
  | .kron l r => kronT (den l) (den r)
  | .tiled _ blk reps axis => tiledT (fun i => den (blk i)) reps (tiledPos (fun i => den (blk i)) axis)

/-- Set the size of the axis at position `p`, padding with axes of size 1 if needed. -/
def setDim (S : Shp) (p d : ℕ) : Shp := (padS (p+1) S).set p d

/-- Only zeros above the diagonal. -/
def LowerTri [Zero K] (t : Tensor K) : Prop :=
  ∀ β i j, InRange t.bt β → i < t.rows → j < t.cols → i < j → t.at' β i j = 0
/-- Only zeros below the diagonal. -/
def UpperTri [Zero K] (t : Tensor K) : Prop :=
  ∀ β i j, InRange t.bt β → i < t.rows → j < t.cols → j < i → t.at' β i j = 0

/-- `a.WF S`: `a` is well formed and all the batch shapes inside it broadcast to the batch shape `S`.
* factors are matrices whose dimensions compose;
* triangular matrices are square and triangular;
* both parts of a Woodbury matrix are `n × n`;
* the blocks of a TiledBlocks agree in the other matrix dimension. -/
def Mat.WF [CommRing K] (S : Shp) : Mat K → Prop
  | .num t => t.rank ≠ 1 ∧ Fits S t.bt
  | .zero bt _ _ => Fits S bt
  | .dense t => 2 ≤ t.rank ∧ Fits S t.bt
  | .diag t => 1 ≤ t.rank ∧ Fits S t.sh.tail
  | .const t _ _ => Fits S t.sh
  | .lt t => 2 ≤ t.rank ∧ Fits S t.bt ∧ t.rows = t.cols ∧ LowerTri t
  | .ut t => 2 ≤ t.rank ∧ Fits S t.bt ∧ t.rows = t.cols ∧ UpperTri t
  | .lr l r m => (l.WF S ∧ r.WF S ∧ m.WF S) ∧
      (2 ≤ (den l).rank ∧ 2 ≤ (den r).rank ∧ 2 ≤ (den m).rank) ∧
      (den l).cols = (den m).rows ∧ (den r).cols = (den m).cols
  | .wb d l r m => (1 ≤ d.rank ∧ Fits S d.sh.tail) ∧ (l.WF S ∧ r.WF S ∧ m.WF S) ∧
      (2 ≤ (den l).rank ∧ 2 ≤ (den r).rank ∧ 2 ≤ (den m).rank) ∧
      ((den l).cols = (den m).rows ∧ (den r).cols = (den m).cols) ∧
      (den l).rows = d.cols ∧ (den r).rows = d.cols
  | .kron l r => (l.WF S ∧ r.WF S) ∧ 2 ≤ (den l).rank ∧ 2 ≤ (den r).rank
  | .tiled n blk reps axis =>
      let rank := (List.ofFn fun i => (den (blk i)).rank).foldl max 0
      ∃ k, axPos rank axis = .ok k ∧ n ≠ 0 ∧
        (∀ i, 2 ≤ (den (blk i)).rank) ∧
        (∀ i, (blk i).WF (if k < 2 then S else setDim S (k-2) (dim (den (blk i)).sh k))) ∧
        (∀ i j, k ≠ 1 → (den (blk i)).rows = (den (blk j)).rows) ∧
        (∀ i j, k ≠ 0 → (den (blk i)).cols = (den (blk j)).cols) ∧
        Fits S (den (.tiled n blk reps axis)).bt

/-- A matrix is well formed (on its own). -/
def Mat.Valid [CommRing K] (a : Mat K) : Prop := ∃ S, a.WF S

/-- The types whose methods assume that broadcasting does not stretch their rows or columns. -/
def Mat.rigid [Zero K] : Mat K → Bool
  | .diag _ | .lt _ | .ut _ | .lr .. | .wb .. | .kron .. => true
  | _ => false

/-- The rows and columns of `b` broadcast to those of `a`. -/
def MFits [Zero K] (a b : Tensor K) : Prop :=
  (b.rows = 1 ∨ b.rows = a.rows) ∧ (b.cols = 1 ∨ b.cols = a.cols)

/-- Broadcasting does not stretch the rows or columns of an operand of a rigid type
(batch axes may broadcast freely; Zero, Constant, Dense, TiledBlocks and numeric operands may be stretched). -/
def NoStretch [CommRing K] (a b : Mat K) : Prop :=
  (a.rigid = true → MFits (den a) (den b)) ∧ (b.rigid = true → MFits (den b) (den a))

/-- `B.multiply` by this matrix reads the diagonal of the other operand: Diagonal, Woodbury, and Kronecker products of those. -/
def Mat.readsDiag [Zero K] : Mat K → Bool
  | .diag _ | .wb .. => true
  | .kron l r => l.readsDiag || r.readsDiag
  | _ => false

/-- The right factors of Kronecker products (nested ones too) are square, so that the diagonal of the product is the product of the diagonals.
Other types have no condition. -/
def Mat.DiagOk [CommRing K] : Mat K → Prop
  | .kron l r => (den r).rows = (den r).cols ∧ l.DiagOk ∧ r.DiagOk
  | _ => True

/-- The operands `B.multiply` handles: nothing rigid is stretched, and where the diagonal of an operand is read it is `DiagOk`. -/
def MulSafe [CommRing K] (a b : Mat K) : Prop :=
  NoStretch a b ∧ (a.readsDiag = true → b.DiagOk) ∧ (b.readsDiag = true → a.DiagOk)

end Verif
