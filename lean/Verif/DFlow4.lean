/-
Data types in linear algebra (C59): rules for `B.inv`, `B.pd_inv`, `B.cholesky`, `B.solve`, `B.cholesky_solve`, `B.logdet` and `B.root`.
Data types are floating point: inverses, factorisations, square roots, logarithms and quotients keep them.
-/
import Verif.DFlow3
import Verif.LinMono

set_option linter.unusedSectionVars false
set_option linter.unusedVariables false

namespace Verif

variable {K D : Type} [Field K] [LinearOrder K]

/-- The calls of linear algebra, on matrices without values. -/
inductive LDCall (D : Type) where
  | inv (a : DM D)
  | pdInv (a : DM D)
  | schur (d : D) (l r m : DM D)
  | pdSchur (d : D) (l r m : DM D)
  | chol (a : DM D)
  | solve (a b : DM D)
  | cholSolve (a b : DM D)
  | logdet (a : DM D)
  | root (a : DM D)

/-- Diagonal or triangular. -/
def DM.Tri (a : DM D) : Prop := a.kind = some .diag ∨ a.kind = some .lt ∨ a.kind = some .ut

/-- One call and its result.  `f` is the data type of the square root of a Python integer (`B.sqrt(a.cols)`, `ops/cholesky.py` 47).
With `c = false` no Cholesky factor of a Constant or LowRank matrix is taken. -/
inductive LRuns (p : D → D → D) (z : Bool) (f : D) (c : Bool) : LDCall D → DM D → Prop
  -- `ops/inv.py` 12-40
  | inv_num {d} : LRuns p z f c (.inv (.num d)) (.num d)
  | inv_dense {d} : LRuns p z f c (.inv (.dense d)) (.dense d)  -- 12-14
  | inv_diag {d} : LRuns p z f c (.inv (.diag d)) (.diag d)  -- 17-19
  | inv_wb {d l r m di dl dr s si x} : LRuns p z f c (.inv (.diag d)) di → Runs p z (.matmul false false di l) dl → Runs p z (.matmul false false di r) dr →
      LRuns p z f c (.schur d l r m) s → LRuns p z f c (.inv s) si → Runs p z (.add di (.lr dl dr si)) x → LRuns p z f c (.inv (.wb d l r m)) x  -- 22-35
  | inv_kron {l r x y} : LRuns p z f c (.inv l) x → LRuns p z f c (.inv r) y → LRuns p z f c (.inv (.kron l r)) (.kron x y)  -- 38-40
  -- `ops/schur.py` 8-22, `ops/pd_schur.py` 8-22
  | schur {d l r m di s mi x} : LRuns p z f c (.inv (.diag d)) di → Runs p z (.matmul3 true false false r di l) s → LRuns p z f c (.inv m) mi → Runs p z (.add mi s) x →
      LRuns p z f c (.schur d l r m) x
  | pdSchur {d l r m di s mi x} : LRuns p z f c (.inv (.diag d)) di → Runs p z (.matmul3 true false false r di l) s → LRuns p z f c (.pdInv m) mi → Runs p z (.add mi s) x →
      LRuns p z f c (.pdSchur d l r m) x
  -- `ops/pd_inv.py` 15-53; `B.eye(a)` has the data type of `a`, `ops/eye.py` 9-12, `ops/fill_diag.py` 9-18
  | pdInv_any {a a' ch e x} : a.kind ≠ some .diag → a.kind ≠ some .wb → a.kind ≠ some .kron → DConv z a a' → LRuns p z f c (.chol a') ch → a'.DtIs p e → LRuns p z f c (.cholSolve ch (.num (p e e))) x → LRuns p z f c (.pdInv a) x  -- 15-29
  | pdInv_diag {d x} : LRuns p z f c (.inv (.diag d)) x → LRuns p z f c (.pdInv (.diag d)) x  -- 32-34
  | pdInv_wb {d l r m di dl dr s si x} : LRuns p z f c (.inv (.diag d)) di → Runs p z (.matmul false false di l) dl → Runs p z (.matmul false false di r) dr →
      LRuns p z f c (.pdSchur d l r m) s → LRuns p z f c (.pdInv s) si → Runs p z (.add di (.lr dl dr si)) x → LRuns p z f c (.pdInv (.wb d l r m)) x  -- 37-48
  | pdInv_kron {l r x y} : LRuns p z f c (.pdInv l) x → LRuns p z f c (.pdInv r) y → LRuns p z f c (.pdInv (.kron l r)) (.kron x y)  -- 51-53
  -- `ops/cholesky.py` 21-75
  | chol_num {d} : LRuns p z f c (.chol (.num d)) (.num d)
  | chol_zero {d} : LRuns p z f c (.chol (.zero d)) (.zero d)
  | chol_dense {d} : LRuns p z f c (.chol (.dense d)) (.lt d)
  | chol_diag {d} : LRuns p z f c (.chol (.diag d)) (.diag d)
  | chol_const {d} : c = true → LRuns p z f c (.chol (.const d)) (.const (p d f))  -- 43-49
  | chol_lr {l r m ch x} : c = true → LRuns p z f c (.chol m) ch → Runs p z (.matmul false false l ch) x → LRuns p z f c (.chol (.lr l r m)) x  -- 52-57
  | chol_wb {d l r m e} : Runs p z (.dense (.wb d l r m)) (.num e) → LRuns p z f c (.chol (.wb d l r m)) (.lt e)  -- 60-68
  | chol_kron {l r x y} : LRuns p z f c (.chol l) x → LRuns p z f c (.chol r) y → LRuns p z f c (.chol (.kron l r)) (.kron x y)  -- 71-75
  -- `ops/solve.py` 16-59
  | solve_num {s t} : LRuns p z f c (.solve (.num s) (.num t)) (.num (p s t))
  | solve_zero {a b d} : DConv z b (.zero d) → LRuns p z f c (.solve a b) (.zero d)  -- 16-18
  | solve_any {a a' b b' s t} : DConv z a a' → DConv z b b' → b'.kind ≠ some .zero → Runs p z (.dense a') (.num s) → Runs p z (.dense b') (.num t) → LRuns p z f c (.solve a b) (.num (p s t))  -- 21-28
  | solve_diag {d b b' di x} : DConv z b b' → b'.kind ≠ some .zero → LRuns p z f c (.inv (.diag d)) di → Runs p z (.matmul false false di b') x → LRuns p z f c (.solve (.diag d) b) x  -- 31-33
  | solve_lt {d b b' t} : DConv z b b' → b'.kind ≠ some .zero → Runs p z (.dense b') (.num t) → LRuns p z f c (.solve (.lt d) b) (.dense (p d t))  -- 36-44
  | solve_ut {d b b' t} : DConv z b b' → b'.kind ≠ some .zero → Runs p z (.dense b') (.num t) → LRuns p z f c (.solve (.ut d) b) (.dense (p d t))  -- 45-53
  | solve_wb {d l r m b b' y x} : DConv z b b' → b'.kind ≠ some .zero → LRuns p z f c (.inv (.wb d l r m)) y → Runs p z (.matmul false false y b') x → LRuns p z f c (.solve (.wb d l r m) b) x  -- 56-59
  -- `ops/cholesky_solve.py` 13-26
  | cs_num {s t} : LRuns p z f c (.cholSolve (.num s) (.num t)) (.num (p s (p s t)))
  | cs_tri {a b b' x y} : a.Tri → DConv z b b' → LRuns p z f c (.solve a b') x → LRuns p z f c (.solve a.tr x) y → LRuns p z f c (.cholSolve a b) y  -- 13-18
  | cs_kron {l r l' r' x y} : LRuns p z f c (.cholSolve l l') x → LRuns p z f c (.cholSolve r r') y → LRuns p z f c (.cholSolve (.kron l r) (.kron l' r')) (.kron x y)  -- 21-26
  -- `ops/logdet.py` 15-41; the integers in `2 * ...` and `m * ...` do not promote
  | logdet_num {d} : LRuns p z f c (.logdet (.num d)) (.num d)
  | logdet_any {a ch d} : ¬a.Tri → a.kind ≠ some .wb → a.kind ≠ some .kron → LRuns p z f c (.chol a) ch → LRuns p z f c (.logdet ch) (.num d) → LRuns p z f c (.logdet a) (.num d)  -- 15-17
  | logdet_tri {a d} : a.Tri → Runs p z (.diag a) (.num d) → LRuns p z f c (.logdet a) (.num d)  -- 20-22
  | logdet_wb {d l r m s x y w} : LRuns p z f c (.logdet (.diag d)) (.num x) → LRuns p z f c (.logdet m) (.num y) → LRuns p z f c (.pdSchur d l r m) s →
      LRuns p z f c (.logdet s) (.num w) → LRuns p z f c (.logdet (.wb d l r m)) (.num (p (p x y) w))  -- 25-27
  | logdet_kron {l r x y} : LRuns p z f c (.logdet l) (.num x) → LRuns p z f c (.logdet r) (.num y) → LRuns p z f c (.logdet (.kron l r)) (.num (p x y))  -- 30-41
  -- `ops/root.py` 22-73
  | root_num {d x} : Runs p z (.matmul3 false false true (.num d) (.num d) (.num d)) x → LRuns p z f c (.root (.num d)) x  -- 22-34
  | root_zero {d} : LRuns p z f c (.root (.zero d)) (.zero d)
  | root_diag {d x} : LRuns p z f c (.chol (.diag d)) x → LRuns p z f c (.root (.diag d)) x
  | root_const {d x} : LRuns p z f c (.chol (.const d)) x → LRuns p z f c (.root (.const d)) x
  | root_dense {a s x t} : (a.kind = some .dense ∨ a.kind = some .lr ∨ a.kind = some .wb) → Runs p z (.dense a) (.num s) → LRuns p z f c (.root (.num s)) x → Runs p z (.dense x) (.num t) → LRuns p z f c (.root a) (.dense t)
  | root_kron {l r x y} : LRuns p z f c (.root l) x → LRuns p z f c (.root r) y → LRuns p z f c (.root (.kron l r)) (.kron x y)

/-- All data types of the operands satisfy `S`. -/
def LDCall.All (S : D → Prop) : LDCall D → Prop
  | .inv a | .pdInv a | .chol a | .logdet a | .root a => a.All S
  | .schur d l r m | .pdSchur d l r m => S d ∧ l.All S ∧ r.All S ∧ m.All S
  | .solve a b | .cholSolve a b => a.All S ∧ b.All S

/-- No operand is or contains a Zero. -/
def LDCall.NoZero : LDCall D → Prop
  | .inv a | .pdInv a | .chol a | .logdet a | .root a => a.NoZero
  | .schur d l r m | .pdSchur d l r m => l.NoZero ∧ r.NoZero ∧ m.NoZero
  | .solve a b | .cholSolve a b => a.NoZero ∧ b.NoZero

/-- The block sizes are positive. -/
def LDCall.Ok : LDCall D → Prop
  | .inv a | .pdInv a | .chol a | .logdet a | .root a => a.Ok
  | .schur d l r m | .pdSchur d l r m => l.Ok ∧ r.Ok ∧ m.Ok
  | .solve a b | .cholSolve a b => a.Ok ∧ b.Ok

variable {p : D → D → D} {z c : Bool} {f : D}

theorem LRuns.all {S : D → Prop} (hp : ∀ x y, S x → S y → S (p x y)) (hf : c = true → ∀ x, S x → S (p x f)) {k : LDCall D} {r : DM D} (h : LRuns p z f c k r)
    (hk : k.All S) : r.All S := by
  induction h with
  | inv_wb _ h2 h3 _ _ h6 i1 i4 i5 => exact h6.all hp ⟨i1 hk.1, h2.all hp ⟨i1 hk.1, hk.2.1⟩, h3.all hp ⟨i1 hk.1, hk.2.2.1⟩, i5 (i4 hk)⟩
  | inv_kron _ _ i1 i2 => exact ⟨i1 hk.1, i2 hk.2⟩
  | schur _ h2 _ h4 i1 i3 => exact h4.all hp ⟨i3 hk.2.2.2, h2.all hp ⟨hk.2.2.1, i1 hk.1, hk.2.1⟩⟩
  | pdSchur _ h2 _ h4 i1 i3 => exact h4.all hp ⟨i3 hk.2.2.2, h2.all hp ⟨hk.2.2.1, i1 hk.1, hk.2.1⟩⟩
  | pdInv_any _ _ _ h1 _ h3 _ i2 i4 =>
    have := h3.all hp (h1.all.2 hk)
    exact i4 ⟨i2 (h1.all.2 hk), hp _ _ this this⟩
  | pdInv_diag _ i => exact i hk
  | pdInv_wb _ h2 h3 _ _ h6 i1 i4 i5 => exact h6.all hp ⟨i1 hk.1, h2.all hp ⟨i1 hk.1, hk.2.1⟩, h3.all hp ⟨i1 hk.1, hk.2.2.1⟩, i5 (i4 hk)⟩
  | pdInv_kron _ _ i1 i2 => exact ⟨i1 hk.1, i2 hk.2⟩
  | chol_const h => exact hf h _ hk
  | chol_lr _ _ h i => exact h.all hp ⟨hk.1, i hk.2.2⟩
  | chol_wb h => exact h.all hp hk
  | chol_kron _ _ i1 i2 => exact ⟨i1 hk.1, i2 hk.2⟩
  | solve_num => exact hp _ _ hk.1 hk.2
  | solve_zero h => exact h.all.2 hk.2
  | solve_any h1 h2 _ h3 h4 => exact hp _ _ (h3.all hp (h1.all.2 hk.1)) (h4.all hp (h2.all.2 hk.2))
  | solve_diag h1 _ _ h3 i => exact h3.all hp ⟨i hk.1, h1.all.2 hk.2⟩
  | solve_lt h1 _ h2 => exact hp _ _ hk.1 (h2.all hp (h1.all.2 hk.2))
  | solve_ut h1 _ h2 => exact hp _ _ hk.1 (h2.all hp (h1.all.2 hk.2))
  | solve_wb h1 _ _ h3 i => exact h3.all hp ⟨i hk.1, h1.all.2 hk.2⟩
  | cs_num => exact hp _ _ hk.1 (hp _ _ hk.1 hk.2)
  | cs_tri _ h1 _ _ i1 i2 => exact i2 ⟨(DM.all_tr _).2 hk.1, i1 ⟨hk.1, h1.all.2 hk.2⟩⟩
  | cs_kron _ _ i1 i2 => exact ⟨i1 ⟨hk.1.1, hk.2.1⟩, i2 ⟨hk.1.2, hk.2.2⟩⟩
  | logdet_any _ _ _ _ _ i1 i2 => exact i2 (i1 hk)
  | logdet_tri _ h => exact h.all hp hk
  | logdet_wb _ _ _ _ i1 i2 i3 i4 => exact hp _ _ (hp _ _ (i1 hk.1) (i2 hk.2.2.2)) (i4 (i3 hk))
  | logdet_kron _ _ i1 i2 => exact hp _ _ (i1 hk.1) (i2 hk.2)
  | root_num h => exact h.all hp ⟨hk, hk, hk⟩
  | root_diag _ i => exact i hk
  | root_const _ i => exact i hk
  | root_dense _ h1 _ h3 i => exact h3.all hp (i (h1.all hp hk))
  | root_kron _ _ i1 i2 => exact ⟨i1 hk.1, i2 hk.2⟩
  | _ => exact hk

theorem LRuns.ok {k : LDCall D} {r : DM D} (h : LRuns p z f c k r) (hk : k.Ok) : r.Ok := by
  induction h with
  | inv_wb _ h2 h3 _ _ h6 i1 i4 i5 => exact h6.ok ⟨i1 trivial, h2.ok ⟨i1 trivial, hk.1⟩, h3.ok ⟨i1 trivial, hk.2.1⟩, i5 (i4 hk)⟩
  | inv_kron _ _ i1 i2 => exact ⟨i1 hk.1, i2 hk.2⟩
  | schur _ h2 _ h4 i1 i3 => exact h4.ok ⟨i3 hk.2.2, h2.ok ⟨hk.2.1, i1 trivial, hk.1⟩⟩
  | pdSchur _ h2 _ h4 i1 i3 => exact h4.ok ⟨i3 hk.2.2, h2.ok ⟨hk.2.1, i1 trivial, hk.1⟩⟩
  | pdInv_any _ _ _ h1 _ h3 _ i2 i4 => exact i4 ⟨i2 (h1.ok hk), trivial⟩
  | pdInv_diag _ i => exact i hk
  | pdInv_wb _ h2 h3 _ _ h6 i1 i4 i5 => exact h6.ok ⟨i1 trivial, h2.ok ⟨i1 trivial, hk.1⟩, h3.ok ⟨i1 trivial, hk.2.1⟩, i5 (i4 hk)⟩
  | pdInv_kron _ _ i1 i2 => exact ⟨i1 hk.1, i2 hk.2⟩
  | chol_lr _ _ h i => exact h.ok ⟨hk.1, i hk.2.2⟩
  | chol_kron _ _ i1 i2 => exact ⟨i1 hk.1, i2 hk.2⟩
  | solve_diag h1 _ _ h3 i => exact h3.ok ⟨i hk.1, h1.ok hk.2⟩
  | solve_wb h1 _ _ h3 i => exact h3.ok ⟨i hk.1, h1.ok hk.2⟩
  | cs_tri _ h1 _ _ i1 i2 => exact i2 ⟨DM.ok_tr hk.1, i1 ⟨hk.1, h1.ok hk.2⟩⟩
  | cs_kron _ _ i1 i2 => exact ⟨i1 ⟨hk.1.1, hk.2.1⟩, i2 ⟨hk.1.2, hk.2.2⟩⟩
  | root_num h => exact h.ok ⟨trivial, trivial, trivial⟩
  | root_diag _ i => exact i hk
  | root_const _ i => exact i hk
  | root_kron _ _ i1 i2 => exact ⟨i1 hk.1, i2 hk.2⟩
  | _ => trivial

/-! ### Without zeros -/

section
variable [SemilatticeSup D]

theorem LRuns.noZero {k : LDCall D} {r : DM D} (h : LRuns (· ⊔ ·) false f c k r) (hk : k.NoZero) : r.NoZero := by
  induction h with
  | inv_wb _ h2 h3 _ _ h6 i1 i4 i5 => exact h6.noZero ⟨i1 trivial, h2.noZero ⟨i1 trivial, hk.1⟩, h3.noZero ⟨i1 trivial, hk.2.1⟩, i5 (i4 hk)⟩
  | inv_kron _ _ i1 i2 => exact ⟨i1 hk.1, i2 hk.2⟩
  | schur _ h2 _ h4 i1 i3 => exact h4.noZero ⟨i3 hk.2.2, h2.noZero ⟨hk.2.1, i1 trivial, hk.1⟩⟩
  | pdSchur _ h2 _ h4 i1 i3 => exact h4.noZero ⟨i3 hk.2.2, h2.noZero ⟨hk.2.1, i1 trivial, hk.1⟩⟩
  | pdInv_any _ _ _ h1 _ h3 _ i2 i4 => exact i4 ⟨i2 (h1.noZero hk), trivial⟩
  | pdInv_diag _ i => exact i hk
  | pdInv_wb _ h2 h3 _ _ h6 i1 i4 i5 => exact h6.noZero ⟨i1 trivial, h2.noZero ⟨i1 trivial, hk.1⟩, h3.noZero ⟨i1 trivial, hk.2.1⟩, i5 (i4 hk)⟩
  | pdInv_kron _ _ i1 i2 => exact ⟨i1 hk.1, i2 hk.2⟩
  | chol_zero => exact hk
  | chol_lr _ _ h i => exact h.noZero ⟨hk.1, i hk.2.2⟩
  | chol_kron _ _ i1 i2 => exact ⟨i1 hk.1, i2 hk.2⟩
  | solve_zero h => exact h.noZero hk.2
  | solve_diag h1 _ _ h3 i => exact h3.noZero ⟨i hk.1, h1.noZero hk.2⟩
  | solve_wb h1 _ _ h3 i => exact h3.noZero ⟨i hk.1, h1.noZero hk.2⟩
  | cs_tri _ h1 _ _ i1 i2 => exact i2 ⟨(DM.noZero_tr _).2 hk.1, i1 ⟨hk.1, h1.noZero hk.2⟩⟩
  | cs_kron _ _ i1 i2 => exact ⟨i1 ⟨hk.1.1, hk.2.1⟩, i2 ⟨hk.1.2, hk.2.2⟩⟩
  | root_zero => exact hk
  | root_num h => exact h.noZero ⟨trivial, trivial, trivial⟩
  | root_diag _ i => exact i hk
  | root_const _ i => exact i hk
  | root_kron _ _ i1 i2 => exact ⟨i1 hk.1, i2 hk.2⟩
  | _ => trivial

/-- Without zeros and without Cholesky factors of Constant and LowRank matrices: what bounds the data types of the result bounds those of the operands. -/
theorem LRuns.back (u : D) {k : LDCall D} {r : DM D} (h : LRuns (· ⊔ ·) false f false k r) (hk : k.NoZero) (hr : r.All (· ≤ u)) : k.All (· ≤ u) := by
  induction h with
  | inv_wb h1 h2 h3 h4 h5 h6 i1 i4 i5 =>
    have n1 := h1.noZero trivial
    have n4 := h4.noZero hk
    have j := h6.back u ⟨n1, h2.noZero ⟨n1, hk.1⟩, h3.noZero ⟨n1, hk.2.1⟩, h5.noZero n4⟩ hr
    exact i4 hk (i5 n4 j.2.2.2)
  | inv_kron _ _ i1 i2 => exact ⟨i1 hk.1 hr.1, i2 hk.2 hr.2⟩
  | schur h1 h2 h3 h4 i1 i3 =>
    have n1 := h1.noZero trivial
    have j := h4.back u ⟨h3.noZero hk.2.2, h2.noZero ⟨hk.2.1, n1, hk.1⟩⟩ hr
    have j' := h2.back u ⟨hk.2.1, n1, hk.1⟩ j.2
    exact ⟨i1 trivial j'.2.1, j'.2.2, j'.1, i3 hk.2.2 j.1⟩
  | pdSchur h1 h2 h3 h4 i1 i3 =>
    have n1 := h1.noZero trivial
    have j := h4.back u ⟨h3.noZero hk.2.2, h2.noZero ⟨hk.2.1, n1, hk.1⟩⟩ hr
    have j' := h2.back u ⟨hk.2.1, n1, hk.1⟩ j.2
    exact ⟨i1 trivial j'.2.1, j'.2.2, j'.1, i3 hk.2.2 j.1⟩
  | pdInv_any _ _ _ h1 h2 h3 h4 i2 i4 =>
    have n1 := h1.noZero hk
    exact h1.all.1 (i2 n1 (i4 ⟨h2.noZero n1, trivial⟩ hr).1)
  | pdInv_diag _ i => exact i hk hr
  | pdInv_wb h1 h2 h3 h4 h5 h6 i1 i4 i5 =>
    have n1 := h1.noZero trivial
    have n4 := h4.noZero hk
    have j := h6.back u ⟨n1, h2.noZero ⟨n1, hk.1⟩, h3.noZero ⟨n1, hk.2.1⟩, h5.noZero n4⟩ hr
    exact i4 hk (i5 n4 j.2.2.2)
  | pdInv_kron _ _ i1 i2 => exact ⟨i1 hk.1 hr.1, i2 hk.2 hr.2⟩
  | chol_const h => cases h
  | chol_lr h => cases h
  | chol_wb h => exact h.back u hk hr
  | chol_kron _ _ i1 i2 => exact ⟨i1 hk.1 hr.1, i2 hk.2 hr.2⟩
  | solve_num => exact sup_le_iff.1 hr
  | solve_zero h => exact (h.noZero hk.2).elim
  | solve_any h1 h2 _ h3 h4 =>
    have j := sup_le_iff.1 hr
    exact ⟨h1.all.1 (h3.back u (h1.noZero hk.1) j.1), h2.all.1 (h4.back u (h2.noZero hk.2) j.2)⟩
  | solve_diag h1 _ h2 h3 i =>
    have j := h3.back u ⟨h2.noZero hk.1, h1.noZero hk.2⟩ hr
    exact ⟨i hk.1 j.1, h1.all.1 j.2⟩
  | solve_lt h1 _ h2 =>
    have j := sup_le_iff.1 hr
    exact ⟨j.1, h1.all.1 (h2.back u (h1.noZero hk.2) j.2)⟩
  | solve_ut h1 _ h2 =>
    have j := sup_le_iff.1 hr
    exact ⟨j.1, h1.all.1 (h2.back u (h1.noZero hk.2) j.2)⟩
  | solve_wb h1 _ h2 h3 i =>
    have j := h3.back u ⟨h2.noZero hk.1, h1.noZero hk.2⟩ hr
    exact ⟨i hk.1 j.1, h1.all.1 j.2⟩
  | cs_num =>
    have j := sup_le_iff.1 hr
    exact sup_le_iff.1 j.2
  | cs_tri _ h1 h2 h3 i1 i2 =>
    have n := h1.noZero hk.2
    have j := i2 ⟨(DM.noZero_tr _).2 hk.1, h2.noZero ⟨hk.1, n⟩⟩ hr
    have j' := i1 ⟨hk.1, n⟩ j.2
    exact ⟨j'.1, h1.all.1 j'.2⟩
  | cs_kron _ _ i1 i2 =>
    have j := i1 ⟨hk.1.1, hk.2.1⟩ hr.1
    have j' := i2 ⟨hk.1.2, hk.2.2⟩ hr.2
    exact ⟨⟨j.1, j'.1⟩, j.2, j'.2⟩
  | logdet_any _ _ _ h1 _ i1 i2 => exact i1 hk (i2 (h1.noZero hk) hr)
  | logdet_tri _ h => exact h.back u hk hr
  | logdet_wb _ _ h3 _ i1 i2 i3 i4 =>
    have j := sup_le_iff.1 hr
    exact i3 hk (i4 (h3.noZero hk) j.2)
  | logdet_kron _ _ i1 i2 =>
    have j := sup_le_iff.1 hr
    exact ⟨i1 hk.1 j.1, i2 hk.2 j.2⟩
  | root_num h => exact (h.back u ⟨trivial, trivial, trivial⟩ hr).1
  | root_diag _ i => exact i hk hr
  | root_const _ i => exact i hk hr
  | root_dense _ h1 h2 h3 i => exact h1.back u hk (i trivial (h3.back u (h2.noZero trivial) hr))
  | root_kron _ _ i1 i2 => exact ⟨i1 hk.1 hr.1, i2 hk.2 hr.2⟩
  | _ => exact hr

theorem LRuns.exact {k : LDCall D} {r : DM D} (h : LRuns (· ⊔ ·) false f false k r) (hk : k.NoZero) (u : D) : r.All (· ≤ u) ↔ k.All (· ≤ u) :=
  ⟨h.back u hk, h.all (fun _ _ => sup_le) (fun h => by cases h)⟩

end

end Verif
