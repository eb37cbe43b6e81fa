/-
Data types of results (C59): which data types the arrays of the results of `B.add`, `B.multiply`, `B.matmul`, `B.dense`, `B.diag` and `B.sum` have.
Values are forgotten; what is left of a matrix is its class and the data types of its arrays.  A branch which depends on values or shapes is a choice, so that what is
proved here for every choice holds for all values and shapes.
-/
import Verif.Dtype

set_option linter.unusedSectionVars false
set_option linter.unusedVariables false

namespace Verif

/-- The classes of `matrix/` with the data types of their arrays, without values.  Compare `TMat`. -/
inductive DM (D : Type) where
  | num (d : D)
  | zero (d : D)
  | dense (d : D)
  | diag (d : D)
  | const (d : D)
  | lt (d : D)
  | ut (d : D)
  | lr (l r m : DM D)
  | wb (d : D) (l r m : DM D)
  | kron (l r : DM D)
  | tiled (n : ℕ) (blk : Fin n → DM D)

variable {K D : Type}

/-- Forget the values. -/
def TMat.skel [Zero K] : TMat K D → DM D
  | .num t => .num t.dt
  | .zero d _ _ _ => .zero d
  | .dense t => .dense t.dt
  | .diag t => .diag t.dt
  | .const t _ _ => .const t.dt
  | .lt t => .lt t.dt
  | .ut t => .ut t.dt
  | .lr l r m => .lr l.skel r.skel m.skel
  | .wb d l r m => .wb d.dt l.skel r.skel m.skel
  | .kron l r => .kron l.skel r.skel
  | .tiled n blk _ _ => .tiled n fun i => (blk i).skel

/-- The class; `none` for a numeric operand.  Compare `Mat.kind`. -/
def DM.kind : DM D → Option Kind
  | .num _ => none
  | .zero _ => some .zero
  | .dense _ => some .dense
  | .diag _ => some .diag
  | .const _ => some .const
  | .lt _ => some .lt
  | .ut _ => some .ut
  | .lr .. => some .lr
  | .wb .. => some .wb
  | .kron .. => some .kron
  | .tiled .. => some .tiled

/-- Every array of the matrix (and every Zero) has a data type in `S`. -/
def DM.All (S : D → Prop) : DM D → Prop
  | .num d => S d
  | .zero d => S d
  | .dense d => S d
  | .diag d => S d
  | .const d => S d
  | .lt d => S d
  | .ut d => S d
  | .lr l r m => l.All S ∧ r.All S ∧ m.All S
  | .wb d l r m => S d ∧ l.All S ∧ r.All S ∧ m.All S
  | .kron l r => l.All S ∧ r.All S
  | .tiled _ blk => ∀ i, (blk i).All S

/-- No part of the matrix is a Zero. -/
def DM.NoZero : DM D → Prop
  | .zero _ => False
  | .lr l r m => l.NoZero ∧ r.NoZero ∧ m.NoZero
  | .wb _ l r m => l.NoZero ∧ r.NoZero ∧ m.NoZero
  | .kron l r => l.NoZero ∧ r.NoZero
  | .tiled _ blk => ∀ i, (blk i).NoZero
  | _ => True

/-- `B.transpose(a)`, `ops/transpose.py` 16-61. -/
def DM.tr : DM D → DM D
  | .num d => .num d
  | .zero d => .zero d
  | .dense d => .dense d
  | .diag d => .diag d
  | .const d => .const d
  | .lt d => .ut d
  | .ut d => .lt d
  | .lr l r m => .lr r l m.tr
  | .wb d l r m => .wb d r l m.tr
  | .kron l r => .kron l.tr r.tr
  | .tiled n blk => .tiled n fun i => (blk i).tr

/-- `_tr(a, do)`, `ops/matmul.py` 18-19. -/
def DM.tr' (t : Bool) (a : DM D) : DM D := if t then a.tr else a

/-- A numeric result becomes Dense if the operand was a matrix (compare `wrapLike`). -/
def DM.like (a : DM D) (d : D) : DM D :=
  match a with
  | .num _ => .num d
  | _ => .dense d

/-- The promotion of a nonempty list of data types, folded from the left (compare `promoteL`). -/
def FoldP (p : D → D → D) : List D → D → Prop
  | [], _ => False
  | x :: l, d => l.foldl p x = d

/-- `B.dtype(a)` is `d`, `ops/dtype.py` 17-54 (compare `dtypeM`). -/
def DM.DtIs (p : D → D → D) : DM D → D → Prop
  | .num e, d => e = d
  | .zero e, d => e = d
  | .dense e, d => e = d
  | .diag e, d => e = d
  | .const e, d => e = d
  | .lt e, d => e = d
  | .ut e, d => e = d
  | .lr l r m, d => ∃ x y z, l.DtIs p x ∧ r.DtIs p y ∧ m.DtIs p z ∧ p (p x y) z = d
  | .wb e l r m, d => ∃ x y z, l.DtIs p x ∧ r.DtIs p y ∧ m.DtIs p z ∧ p e (p (p x y) z) = d
  | .kron l r, d => ∃ x y, l.DtIs p x ∧ r.DtIs p y ∧ p x y = d
  | .tiled _ blk, d => ∃ ds, (∀ i, (blk i).DtIs p (ds i)) ∧ FoldP p (List.ofFn ds) d

/-- The calls through `B.*`.  `addAM`, `mulAM`, `mmAM` are the calls after the promotion of a numeric operand (`promote.py` 11-22), `matmul3` is
the product of three, `bcast` is `B.broadcast_to` and `pad` is one of `_pad_zero_row`, `_pad_zero_col`, `_pad_zero_both` followed by `B.take`. -/
inductive DCall (D : Type) where
  | add (a b : DM D)
  | addAM (a b : DM D)
  | mul (a b : DM D)
  | mulAM (a b : DM D)
  | matmul (ta tb : Bool) (a b : DM D)
  | mmAM (ta tb : Bool) (a b : DM D)
  | matmul3 (ta tb tc : Bool) (a b c : DM D)
  | dense (a : DM D)
  | diag (a : DM D)
  | sum (a : DM D)
  | bcast (a : DM D)
  | pad (a : DM D)

/-- `convert(x, AbstractMatrix)`, `promote.py` 14-22: a number which is zero becomes a Zero (only if `z`), a scalar a Constant, an array a Dense. -/
inductive DConv (z : Bool) : DM D → DM D → Prop
  | zero {d} : z = true → DConv z (.num d) (.zero d)
  | const {d} : DConv z (.num d) (.const d)
  | dense {d} : DConv z (.num d) (.dense d)
  | am {a k} : a.kind = some k → DConv z a a

/-- `convert(a: Constant, LowRank)`, `promote.py` 25-33: ones of the data type of the constant, and `B.fill_diag`, `ops/fill_diag.py` 9-18, which multiplies by ones. -/
def DM.constLR (p : D → D → D) (d : D) : DM D := .lr (.num d) (.num d) (.diag (p d d))

/-- One operation and its result.  With `z = false` no number is an exact zero (`promote.py` 17-18) and no sum of two low-rank matrices vanishes (`ops/add.py` 198-199). -/
inductive Runs (p : D → D → D) (z : Bool) : DCall D → DM D → Prop
  -- `ops/dense.py` 19-123
  | dense_num {d} : Runs p z (.dense (.num d)) (.num d)  -- 19-21
  | dense_zero {d} : Runs p z (.dense (.zero d)) (.num d)  -- 40-44
  | dense_dense {d} : Runs p z (.dense (.dense d)) (.num d)  -- 24-26
  | dense_lt {d} : Runs p z (.dense (.lt d)) (.num d)
  | dense_ut {d} : Runs p z (.dense (.ut d)) (.num d)
  | dense_diag {d} : Runs p z (.dense (.diag d)) (.num d)
  | dense_const {d} : Runs p z (.dense (.const d)) (.num (p d d))  -- 60-64
  | dense_lr {l r m x d} : Runs p z (.matmul3 false false true l m r) x → Runs p z (.dense x) (.num d) → Runs p z (.dense (.lr l r m)) (.num d)
  | dense_wb {e l r m x y} : Runs p z (.dense (.diag e)) (.num x) → Runs p z (.dense (.lr l r m)) (.num y) → Runs p z (.dense (.wb e l r m)) (.num (p x y))
  | dense_kron {l r x y} : Runs p z (.dense l) (.num x) → Runs p z (.dense r) (.num y) → Runs p z (.dense (.kron l r)) (.num (p x y))
  | dense_tiled {n blk d} {ds : Fin n → D} : (∀ i, Runs p z (.dense (blk i)) (.num (ds i))) → FoldP p (List.ofFn ds) d → Runs p z (.dense (.tiled n blk)) (.num d)
  -- `ops/diag.py` 17-69
  | diag_num {d} : Runs p z (.diag (.num d)) (.num d)
  | diag_zero {d} : Runs p z (.diag (.zero d)) (.num d)
  | diag_dense {d} : Runs p z (.diag (.dense d)) (.num d)
  | diag_lt {d} : Runs p z (.diag (.lt d)) (.num d)
  | diag_ut {d} : Runs p z (.diag (.ut d)) (.num d)
  | diag_diag {d} : Runs p z (.diag (.diag d)) (.num d)
  | diag_const {d} : Runs p z (.diag (.const d)) (.num (p d d))
  | diag_lr {l r m lm x y} : Runs p z (.matmul false false l m) lm → Runs p z (.dense lm) (.num x) → Runs p z (.dense r) (.num y) →
      Runs p z (.diag (.lr l r m)) (.num (p x y))  -- 44-58
  | diag_wb {e l r m x y} : Runs p z (.diag (.diag e)) (.num x) → Runs p z (.diag (.lr l r m)) (.num y) → Runs p z (.diag (.wb e l r m)) (.num (p x y))
  | diag_kron {l r x y} : Runs p z (.diag l) (.num x) → Runs p z (.diag r) (.num y) → Runs p z (.diag (.kron l r)) (.num (p x y))
  -- `ops/sum.py` 20-140, over an axis of the matrix
  | sum_num {d} : Runs p z (.sum (.num d)) (.num d)
  | sum_zero {d} : Runs p z (.sum (.zero d)) (.num d)
  | sum_dense {d} : Runs p z (.sum (.dense d)) (.num d)
  | sum_lt {d} : Runs p z (.sum (.lt d)) (.num d)
  | sum_ut {d} : Runs p z (.sum (.ut d)) (.num d)
  | sum_diag {d} : Runs p z (.sum (.diag d)) (.num d)
  | sum_const {d} : Runs p z (.sum (.const d)) (.num (p d d))
  | sum_lr1 {l r m s x y d} : Runs p z (.sum l) (.num s) → Runs p z (.matmul false true r m) x → Runs p z (.mul (.num s) x) y → Runs p z (.sum y) (.num d) →
      Runs p z (.sum (.lr l r m)) (.num d)  -- 85-88
  | sum_lr0 {l r m s x y d} : Runs p z (.matmul false false l m) x → Runs p z (.sum r) (.num s) → Runs p z (.mul x (.num s)) y → Runs p z (.sum y) (.num d) →
      Runs p z (.sum (.lr l r m)) (.num d)  -- 89-92
  | sum_wb {e l r m x y} : Runs p z (.sum (.diag e)) (.num x) → Runs p z (.sum (.lr l r m)) (.num y) → Runs p z (.sum (.wb e l r m)) (.num (p x y))
  | sum_kron {l r x y} : Runs p z (.sum l) (.num x) → Runs p z (.sum r) (.num y) → Runs p z (.sum (.kron l r)) (.num (p x y))  -- 127-134
  -- `ops/broadcast_to.py` 16-47: the parts are broadcast, or the matrix is made dense
  | bcast_same {a} : Runs p z (.bcast a) a
  | bcast_dense {a d} : a.kind ≠ some .zero → a.kind ≠ some .const → Runs p z (.dense a) (.num d) → Runs p z (.bcast a) (.dense d)
  -- `ops/add.py` 149-160: zeros of the data type of the operand are appended; `ops/take.py` 23-27
  | pad_one {a d e} : Runs p z (.dense a) (.num d) → a.DtIs p e → Runs p z (.pad a) (a.like (p d e))
  | pad_both {a d e} : Runs p z (.dense a) (.num d) → a.DtIs p e → Runs p z (.pad a) (a.like (p (p d e) (p d e)))
  -- `ops/add.py`
  | add_num {s t} : Runs p z (.add (.num s) (.num t)) (.num (p s t))
  | add_am {a b a' b' k r} : (a.kind = some k ∨ b.kind = some k) → DConv z a a' → DConv z b b' → Runs p z (.addAM a' b') r → Runs p z (.add a b) r
  | add_amZero {a d r} : Runs p z (.bcast a) r → Runs p z (.addAM a (.zero d)) r  -- 33-36
  | add_zeroAm {b d r} : Runs p z (.bcast b) r → Runs p z (.addAM (.zero d) b) r  -- 39-42
  | add_amAm {a b ka kb s t} : a.kind = some ka → b.kind = some kb → addId ka kb = .amAm → Runs p z (.dense a) (.num s) → Runs p z (.dense b) (.num t) →
      Runs p z (.addAM a b) (.dense (p s t))  -- 48-54
  | add_denseDense {s t} : Runs p z (.addAM (.dense s) (.dense t)) (.dense (p s t))  -- 57-59
  | add_diagDiag {s t} : Runs p z (.addAM (.diag s) (.diag t)) (.diag (p s t))  -- 65-67
  | add_constConst {s t} : Runs p z (.addAM (.const s) (.const t)) (.const (p s t))  -- 73-76
  | add_constAm {s b kb t} : b.kind = some kb → addId .const kb = .constAm → Runs p z (.dense b) (.num t) → Runs p z (.addAM (.const s) b) (.dense (p s t))  -- 79-93
  | add_constDiag {s t r} : Runs p z (.add (DM.constLR p s) (.diag t)) r → Runs p z (.addAM (.const s) (.diag t)) r  -- 96-100
  | add_swap {a b ka kb r} : a.kind = some ka → b.kind = some kb → addId ka kb = .swap → Runs p z (.add b a) r → Runs p z (.addAM a b) r  -- 24-27 etc.
  | add_ltLt {s t} : Runs p z (.addAM (.lt s) (.lt t)) (.lt (p s t))  -- 110-112
  | add_ltDiag {s t x} : Runs p z (.dense (.diag t)) (.num x) → Runs p z (.addAM (.lt s) (.diag t)) (.lt (p s x))  -- 115-118
  | add_utUt {s t} : Runs p z (.addAM (.ut s) (.ut t)) (.ut (p s t))  -- 127-129
  | add_utLt {s t} : Runs p z (.addAM (.ut s) (.lt t)) (.dense (p s t))  -- 132-134
  | add_utDiag {s t x} : Runs p z (.dense (.diag t)) (.num x) → Runs p z (.addAM (.ut s) (.diag t)) (.ut (p s x))  -- 137-139
  | add_lrLr {al ar am bl br bm al' bl' l ar' br' r am' bm' m} :
      Runs p z (.pad al) al' → Runs p z (.pad bl) bl' → Runs p z (.add al' bl') l →
      Runs p z (.pad ar) ar' → Runs p z (.pad br) br' → Runs p z (.add ar' br') r →
      Runs p z (.pad am) am' → Runs p z (.pad bm) bm' → Runs p z (.add am' bm') m →
      Runs p z (.addAM (.lr al ar am) (.lr bl br bm)) (.lr l r m)  -- 163-184, 201
  | add_lrLr_zero {al ar am bl br bm al' bl' l ar' br' r am' bm' m d} : z = true →
      Runs p z (.pad al) al' → Runs p z (.pad bl) bl' → Runs p z (.add al' bl') l →
      Runs p z (.pad ar) ar' → Runs p z (.pad br) br' → Runs p z (.add ar' br') r →
      Runs p z (.pad am) am' → Runs p z (.pad bm) bm' → Runs p z (.add am' bm') m → DM.DtIs p (.lr l r m) d →
      Runs p z (.addAM (.lr al ar am) (.lr bl br bm)) (.zero d)  -- 198-199, `ops/zeros.py` 10-11
  | add_lrConst {l r m t x} : Runs p z (.add (.lr l r m) (DM.constLR p t)) x → Runs p z (.addAM (.lr l r m) (.const t)) x  -- 204-207
  | add_lrDiag {l r m t} : Runs p z (.addAM (.lr l r m) (.diag t)) (.wb t l r m)  -- 215-217
  | add_diagLr {l r m t} : Runs p z (.addAM (.diag t) (.lr l r m)) (.wb t l r m)  -- 220-222
  | add_wbWb {d l r m d' l' r' m' x y s} : Runs p z (.add (.diag d) (.diag d')) x → Runs p z (.add (.lr l r m) (.lr l' r' m')) y → Runs p z (.add x y) s →
      Runs p z (.addAM (.wb d l r m) (.wb d' l' r' m')) s  -- 228-230
  | add_wbDiag {d l r m t x s} : Runs p z (.add (.diag d) (.diag t)) x → Runs p z (.add x (.lr l r m)) s → Runs p z (.addAM (.wb d l r m) (.diag t)) s  -- 233-235
  | add_wbAny {d l r m b kb y s} : b.kind = some kb → addId .wb kb = .wbAny → Runs p z (.add (.lr l r m) b) y → Runs p z (.add (.diag d) y) s →
      Runs p z (.addAM (.wb d l r m) b) s  -- 243-245
  -- `ops/multiply.py`
  | mul_num {s t} : Runs p z (.mul (.num s) (.num t)) (.num (p s t))
  | mul_am {a b a' b' k r} : (a.kind = some k ∨ b.kind = some k) → DConv z a a' → DConv z b b' → Runs p z (.mulAM a' b') r → Runs p z (.mul a b) r
  | mul_amZero {a d r} : Runs p z (.bcast (.zero d)) r → Runs p z (.mulAM a (.zero d)) r  -- 28-31
  | mul_zeroAm {b d r} : Runs p z (.bcast (.zero d)) r → Runs p z (.mulAM (.zero d) b) r  -- 34-37
  | mul_amAm {a b ka kb s t} : a.kind = some ka → b.kind = some kb → mulId ka kb = .amAm → Runs p z (.dense a) (.num s) → Runs p z (.dense b) (.num t) →
      Runs p z (.mulAM a b) (.dense (p s t))  -- 43-49
  | mul_denseDense {s t} : Runs p z (.mulAM (.dense s) (.dense t)) (.dense (p s t))  -- 52-54
  | mul_diagDiag {s t} : Runs p z (.mulAM (.diag s) (.diag t)) (.diag (p s t))  -- 60-62
  | mul_diagAm_dense {s b kb t} : b.kind = some kb → mulId .diag kb = .diagAm → Runs p z (.dense b) (.num t) → Runs p z (.mulAM (.diag s) b) (.diag (p s t))  -- 65-80
  | mul_diagAm_diag {s b kb t} : b.kind = some kb → mulId .diag kb = .diagAm → Runs p z (.diag b) (.num t) → Runs p z (.mulAM (.diag s) b) (.diag (p s t))  -- 65-80
  | mul_swap {a b ka kb r} : a.kind = some ka → b.kind = some kb → mulId ka kb = .swap → Runs p z (.mul b a) r → Runs p z (.mulAM a b) r  -- 19-22 etc.
  | mul_constConst {s t} : Runs p z (.mulAM (.const s) (.const t)) (.const (p s t))  -- 89-92
  | mul_constAm {s b kb t} : b.kind = some kb → mulId .const kb = .constAm → Runs p z (.dense b) (.num t) → Runs p z (.mulAM (.const s) b) (.dense (p s t))  -- 95-110
  | mul_constDiag {s t} : Runs p z (.mulAM (.const s) (.diag t)) (.diag (p s t))  -- 113-118
  | mul_ltLt {s t} : Runs p z (.mulAM (.lt s) (.lt t)) (.lt (p s t))  -- 128-130
  | mul_ltAm {s b kb t} : b.kind = some kb → mulId .lt kb = .ltAm → Runs p z (.dense b) (.num t) → Runs p z (.mulAM (.lt s) b) (.lt (p s t))  -- 133-136
  | mul_ltConst {s t} : Runs p z (.mulAM (.lt s) (.const t)) (.lt (p s t))  -- 139-143
  | mul_utUt {s t} : Runs p z (.mulAM (.ut s) (.ut t)) (.ut (p s t))  -- 155-157
  | mul_utLt {s t x y} : Runs p z (.diag (.ut s)) (.num x) → Runs p z (.diag (.lt t)) (.num y) → Runs p z (.mulAM (.ut s) (.lt t)) (.diag (p x y))  -- 160-162
  | mul_utAm {s b kb t} : b.kind = some kb → mulId .ut kb = .utAm → Runs p z (.dense b) (.num t) → Runs p z (.mulAM (.ut s) b) (.ut (p s t))  -- 165-168
  | mul_utConst {s t} : Runs p z (.mulAM (.ut s) (.const t)) (.ut (p s t))  -- 171-175
  | mul_lrLr {al ar am bl br bm x x' y y' w w'} :
      Runs p z (.dense al) (.num x) → Runs p z (.dense bl) (.num x') → Runs p z (.dense ar) (.num y) → Runs p z (.dense br) (.num y') →
      Runs p z (.dense am) (.num w) → Runs p z (.dense bm) (.num w') →
      Runs p z (.mulAM (.lr al ar am) (.lr bl br bm)) (.lr (.num (p x x')) (.num (p y y')) (.num (p w w')))  -- 188-228
  | mul_constLr {s l r m m'} : Runs p z (.mul (.num s) m) m' → Runs p z (.mulAM (.const s) (.lr l r m)) (.lr l r m')  -- 231-241
  | mul_wbAm {d l r m b kb x y s} : b.kind = some kb → mulId .wb kb = .wbAm → Runs p z (.mul (.diag d) b) x → Runs p z (.mul (.lr l r m) b) y →
      Runs p z (.add x y) s → Runs p z (.mulAM (.wb d l r m) b) s  -- 252-255
  | mul_kronKron {l r l' r' x y} : Runs p z (.mul l l') x → Runs p z (.mul r r') y → Runs p z (.mulAM (.kron l r) (.kron l' r')) (.kron x y)  -- 273-281
  | mul_constKron {s l r x} : Runs p z (.mul (.num s) l) x → Runs p z (.mulAM (.const s) (.kron l r)) (.kron x r)  -- 284-292
  -- `ops/matmul.py`
  | mm3_left {ta tb tc a b c x r} : Runs p z (.matmul ta tb a b) x → Runs p z (.matmul false tc x c) r → Runs p z (.matmul3 ta tb tc a b c) r  -- 62-74
  | mm3_right {ta tb tc a b c x r} : Runs p z (.matmul tb tc b c) x → Runs p z (.matmul ta false a x) r → Runs p z (.matmul3 ta tb tc a b c) r
  | mm_num {ta tb s t} : Runs p z (.matmul ta tb (.num s) (.num t)) (.num (p s t))
  | mm_am {ta tb a b a' b' k r} : (a.kind = some k ∨ b.kind = some k) → DConv z a a' → DConv z b b' → Runs p z (.mmAM ta tb a' b') r → Runs p z (.matmul ta tb a b) r
  | mm_amZero {ta tb a d} : Runs p z (.mmAM ta tb a (.zero d)) (.zero d)  -- 43-48
  | mm_zeroAm {ta tb b d} : Runs p z (.mmAM ta tb (.zero d) b) (.zero d)  -- 51-56
  | mm_denseDense {ta tb s t} : Runs p z (.mmAM ta tb (.dense s) (.dense t)) (.dense (p s t))  -- 80-82
  | mm_diagDiag {ta tb s t} : Runs p z (.mmAM ta tb (.diag s) (.diag t)) (.diag (p s t))  -- 88-91
  | mm_diagAm {ta tb s b kb r} : b.kind = some kb → mmId .diag kb = some .diagAm → Runs p z (.mul (.dense s) (b.tr' tb)) r → Runs p z (.mmAM ta tb (.diag s) b) r  -- 94-97
  | mm_amDiag {ta tb t a ka r} : a.kind = some ka → mmId ka .diag = some .amDiag → Runs p z (.mul (a.tr' ta) (.dense t)) r → Runs p z (.mmAM ta tb a (.diag t)) r  -- 100-103
  | mm_constConst {ta tb s t} : Runs p z (.mmAM ta tb (.const s) (.const t)) (.const (p s t))  -- 109-114
  | mm_constAm {ta tb s b kb v} : b.kind = some kb → mmId .const kb = some .constAm → Runs p z (.sum (b.tr' tb)) (.num v) →
      Runs p z (.mmAM ta tb (.const s) b) (.lr (.num s) (.num v) (.diag (p s s)))  -- 117-126
  | mm_amConst {ta tb t a ka v} : a.kind = some ka → mmId ka .const = some .amConst → Runs p z (.sum (a.tr' ta)) (.num v) →
      Runs p z (.mmAM ta tb a (.const t)) (.lr (.num v) (.num t) (.diag (p t t)))  -- 129-138
  | mm_ltLt {s t} : Runs p z (.mmAM false false (.lt s) (.lt t)) (.lt (p s t))  -- 147-154
  | mm_ltLt_tr {ta tb s t r} : Runs p z (.matmul false false (DM.tr' ta (.lt s)) (DM.tr' tb (.lt t))) r → Runs p z (.mmAM ta tb (.lt s) (.lt t)) r  -- 147-154
  | mm_ltAm {ta tb s b kb r} : b.kind = some kb → mmId .lt kb = some .ltAm → Runs p z (.matmul ta tb (.num s) b) r → Runs p z (.mmAM ta tb (.lt s) b) r  -- 157-166
  | mm_utAm {ta tb s b kb r} : b.kind = some kb → mmId .ut kb = some .ltAm → Runs p z (.matmul ta tb (.num s) b) r → Runs p z (.mmAM ta tb (.ut s) b) r  -- 157-166, 229
  | mm_amLt {ta tb t a ka r} : a.kind = some ka → mmId ka .lt = some .amLt → Runs p z (.matmul ta tb a (.num t)) r → Runs p z (.mmAM ta tb a (.lt t)) r  -- 169-178
  | mm_amUt {ta tb t a ka r} : a.kind = some ka → mmId ka .ut = some .amLt → Runs p z (.matmul ta tb a (.num t)) r → Runs p z (.mmAM ta tb a (.ut t)) r  -- 169-178, 229
  | mm_ltDiag {tb s t x d} : Runs p z (.matmul false false (.num s) (.diag t)) x → Runs p z (.dense x) (.num d) → Runs p z (.mmAM false tb (.lt s) (.diag t)) (.lt d)  -- 181-186
  | mm_ltDiag_tr {tb s t r} : Runs p z (.matmul false false (.ut s) (.diag t)) r → Runs p z (.mmAM true tb (.lt s) (.diag t)) r
  | mm_diagLt {ta s t x d} : Runs p z (.matmul false false (.diag s) (.num t)) x → Runs p z (.dense x) (.num d) → Runs p z (.mmAM ta false (.diag s) (.lt t)) (.lt d)  -- 189-194
  | mm_diagLt_tr {ta s t r} : Runs p z (.matmul false false (.diag s) (.ut t)) r → Runs p z (.mmAM ta true (.diag s) (.lt t)) r
  | mm_utUt {s t} : Runs p z (.mmAM false false (.ut s) (.ut t)) (.ut (p s t))  -- 203-210
  | mm_utUt_tr {ta tb s t r} : Runs p z (.matmul false false (DM.tr' ta (.ut s)) (DM.tr' tb (.ut t))) r → Runs p z (.mmAM ta tb (.ut s) (.ut t)) r
  | mm_utDiag {tb s t x d} : Runs p z (.matmul false false (.num s) (.diag t)) x → Runs p z (.dense x) (.num d) → Runs p z (.mmAM false tb (.ut s) (.diag t)) (.ut d)  -- 213-218
  | mm_utDiag_tr {tb s t r} : Runs p z (.matmul false false (.lt s) (.diag t)) r → Runs p z (.mmAM true tb (.ut s) (.diag t)) r
  | mm_diagUt {ta s t x d} : Runs p z (.matmul false false (.diag s) (.num t)) x → Runs p z (.dense x) (.num d) → Runs p z (.mmAM ta false (.diag s) (.ut t)) (.ut d)  -- 221-226
  | mm_diagUt_tr {ta s t r} : Runs p z (.matmul false false (.diag s) (.lt t)) r → Runs p z (.mmAM ta true (.diag s) (.ut t)) r
  | mm_lrLr {ta tb a b al ar am bl br bm x m} : a.kind = some .lr → b.kind = some .lr → a.tr' ta = .lr al ar am → b.tr' tb = .lr bl br bm →
      Runs p z (.matmul true false ar bl) x → Runs p z (.matmul3 false false false am x bm) m → Runs p z (.mmAM ta tb a b) (.lr al br m)  -- 239-249
  | mm_lrLr_one {ta tb a b al ar am bl br bm x m d} : a.kind = some .lr → b.kind = some .lr → a.tr' ta = .lr al ar am → b.tr' tb = .lr bl br bm →
      Runs p z (.matmul true false ar bl) x → Runs p z (.matmul3 false false false am x bm) m → Runs p z (.dense m) (.num d) →
      Runs p z (.mmAM ta tb a b) (.lr al br (.diag d))  -- 246-248
  | mm_lrAm {ta tb a b kb l r m x} : a.kind = some .lr → b.kind = some kb → mmId .lr kb = some .lrAm → a.tr' ta = .lr l r m →
      Runs p z (.matmul true false (b.tr' tb) r) x → Runs p z (.mmAM ta tb a b) (.lr l x m)  -- 252-257
  | mm_amLr {ta tb a b ka l r m x} : a.kind = some ka → b.kind = some .lr → mmId ka .lr = some .amLr → b.tr' tb = .lr l r m →
      Runs p z (.matmul false false (a.tr' ta) l) x → Runs p z (.mmAM ta tb a b) (.lr x r m)  -- 260-265
  | mm_lrConst {ta tb a t r} : a.kind = some .lr → Runs p z (.matmul ta tb a (DM.constLR p t)) r → Runs p z (.mmAM ta tb a (.const t)) r  -- 268-270
  | mm_constLr {ta tb s b r} : b.kind = some .lr → Runs p z (.matmul ta tb (DM.constLR p s) b) r → Runs p z (.mmAM ta tb (.const s) b) r  -- 273-275
  | mm_wbAm {ta tb d l r m b kb x y s} : b.kind = some kb → mmId .wb kb = some .wbAm → Runs p z (.matmul ta tb (.diag d) b) x →
      Runs p z (.matmul ta tb (.lr l r m) b) y → Runs p z (.add x y) s → Runs p z (.mmAM ta tb (.wb d l r m) b) s  -- 286-292
  | mm_amWb {ta tb d l r m a ka x y s} : a.kind = some ka → mmId ka .wb = some .amWb → Runs p z (.matmul ta tb a (.diag d)) x →
      Runs p z (.matmul ta tb a (.lr l r m)) y → Runs p z (.add x y) s → Runs p z (.mmAM ta tb a (.wb d l r m)) s  -- 295-301
  | mm_kronKron {ta tb l r l' r' x y} : Runs p z (.matmul ta tb l l') x → Runs p z (.matmul ta tb r r') y → Runs p z (.mmAM ta tb (.kron l r) (.kron l' r')) (.kron x y)  -- 315-322
  | mm_kronAm_left {ta tb l r b kb e x y u v} : b.kind = some kb → mmId .kron kb = some .kronAm → Runs p z (.dense (b.tr' tb)) (.num e) →
      Runs p z (.matmul false false (l.tr' ta) (.num e)) x → Runs p z (.dense x) (.num u) →
      Runs p z (.matmul false false (r.tr' ta) (.num u)) y → Runs p z (.dense y) (.num v) → Runs p z (.mmAM ta tb (.kron l r) b) (.dense v)  -- 343-361
  | mm_kronAm_right {ta tb l r b kb e x y u v} : b.kind = some kb → mmId .kron kb = some .kronAm → Runs p z (.dense (b.tr' tb)) (.num e) →
      Runs p z (.matmul false false (r.tr' ta) (.num e)) x → Runs p z (.dense x) (.num u) →
      Runs p z (.matmul false false (l.tr' ta) (.num u)) y → Runs p z (.dense y) (.num v) → Runs p z (.mmAM ta tb (.kron l r) b) (.dense v)  -- 343-361
  | mm_amKron {ta tb a b ka r} : a.kind = some ka → b.kind = some .kron → mmId ka .kron = some .amKron → Runs p z (.matmul (!tb) (!ta) b a) r →
      Runs p z (.mmAM ta tb a b) r.tr  -- 364-366
  | mm_kronDiag {ta tb a t e r} : a.kind = some .kron → Runs p z (.dense a) (.num e) → Runs p z (.matmul ta tb (.num e) (.diag t)) r → Runs p z (.mmAM ta tb a (.diag t)) r  -- 369-376
  | mm_diagKron {ta tb s b e r} : b.kind = some .kron → Runs p z (.dense b) (.num e) → Runs p z (.matmul ta tb (.diag s) (.num e)) r → Runs p z (.mmAM ta tb (.diag s) b) r  -- 379-386

/-- Every array of every operand has a data type in `S`. -/
def DCall.All (S : D → Prop) : DCall D → Prop
  | .add a b | .addAM a b | .mul a b | .mulAM a b | .matmul _ _ a b | .mmAM _ _ a b => a.All S ∧ b.All S
  | .matmul3 _ _ _ a b c => a.All S ∧ b.All S ∧ c.All S
  | .dense a | .diag a | .sum a | .bcast a | .pad a => a.All S

/-- No operand has a part which is a Zero. -/
def DCall.NoZero : DCall D → Prop
  | .add a b | .addAM a b | .mul a b | .mulAM a b | .matmul _ _ a b | .mmAM _ _ a b => a.NoZero ∧ b.NoZero
  | .matmul3 _ _ _ a b c => a.NoZero ∧ b.NoZero ∧ c.NoZero
  | .dense a | .diag a | .sum a | .bcast a | .pad a => a.NoZero

/-! ### Every data type of the result comes from the operands -/

theorem FoldP.all {p : D → D → D} {S : D → Prop} (hp : ∀ x y, S x → S y → S (p x y)) {l : List D} {d : D} (h : FoldP p l d) (hl : ∀ x ∈ l, S x) : S d := by
  cases l with
  | nil => exact h.elim
  | cons x l =>
    subst h
    have hx := hl x (by simp)
    have hl' : ∀ y ∈ l, S y := fun y hy => hl y (by simp [hy])
    clear hl
    induction l generalizing x with
    | nil => exact hx
    | cons y l ih => exact ih _ (hp _ _ hx (hl' y (by simp))) fun w hw => hl' w (by simp [hw])

theorem DM.DtIs.all {p : D → D → D} {S : D → Prop} (hp : ∀ x y, S x → S y → S (p x y)) {a : DM D} {d : D} (h : a.DtIs p d) (ha : a.All S) : S d := by
  induction a generalizing d with
  | lr l r m hl hr hm =>
    obtain ⟨x, y, w, h1, h2, h3, rfl⟩ := h
    exact hp _ _ (hp _ _ (hl h1 ha.1) (hr h2 ha.2.1)) (hm h3 ha.2.2)
  | wb e l r m hl hr hm =>
    obtain ⟨x, y, w, h1, h2, h3, rfl⟩ := h
    exact hp _ _ ha.1 (hp _ _ (hp _ _ (hl h1 ha.2.1) (hr h2 ha.2.2.1)) (hm h3 ha.2.2.2))
  | kron l r hl hr =>
    obtain ⟨x, y, h1, h2, rfl⟩ := h
    exact hp _ _ (hl h1 ha.1) (hr h2 ha.2)
  | tiled n blk ih =>
    obtain ⟨ds, h1, h2⟩ := h
    refine h2.all hp fun x hx => ?_
    obtain ⟨i, rfl⟩ := List.mem_ofFn.1 hx
    exact ih i (h1 i) (ha i)
  | _ => exact h ▸ ha

theorem DM.all_tr {S : D → Prop} (a : DM D) : a.tr.All S ↔ a.All S := by
  induction a with
  | lr l r m hl hr hm => simp only [DM.tr, DM.All, hm]; tauto
  | wb d l r m hl hr hm => simp only [DM.tr, DM.All, hm]; tauto
  | kron l r hl hr => simp only [DM.tr, DM.All, hl, hr]
  | tiled n blk ih => simp only [DM.tr, DM.All, ih]
  | _ => exact Iff.rfl

theorem DM.all_tr' {S : D → Prop} (t : Bool) (a : DM D) : (a.tr' t).All S ↔ a.All S := by
  cases t
  · exact Iff.rfl
  · exact a.all_tr

theorem DM.all_like {S : D → Prop} (a : DM D) (d : D) : (a.like d).All S ↔ S d := by cases a <;> exact Iff.rfl

theorem DConv.all {z : Bool} {S : D → Prop} {a b : DM D} (h : DConv z a b) : b.All S ↔ a.All S := by cases h <;> exact Iff.rfl

/-- Every data type in the result is in every set of data types which contains those of the operands and is closed under promotion. -/
theorem Runs.all {p : D → D → D} {z : Bool} {S : D → Prop} (hp : ∀ x y, S x → S y → S (p x y)) {c : DCall D} {r : DM D} (h : Runs p z c r) (hc : c.All S) : r.All S := by
  induction h with
  | pad_one h h' ih => rw [DM.all_like]; exact hp _ _ (ih hc) (h'.all hp hc)
  | pad_both h h' ih => rw [DM.all_like]; exact hp _ _ (hp _ _ (ih hc) (h'.all hp hc)) (hp _ _ (ih hc) (h'.all hp hc))
  | dense_tiled h h' ih =>
    refine h'.all hp fun x hx => ?_
    obtain ⟨i, rfl⟩ := List.mem_ofFn.1 hx
    exact ih i (hc i)
  | add_lrLr_zero _ _ _ _ _ _ _ _ _ _ hd i1 i2 i3 i4 i5 i6 i7 i8 i9 =>
    exact hd.all hp ⟨i3 ⟨i1 hc.1.1, i2 hc.2.1⟩, i6 ⟨i4 hc.1.2.1, i5 hc.2.2.1⟩, i9 ⟨i7 hc.1.2.2, i8 hc.2.2.2⟩⟩
  | add_am _ h1 h2 _ ih => exact ih ⟨h1.all.2 hc.1, h2.all.2 hc.2⟩
  | mul_am _ h1 h2 _ ih => exact ih ⟨h1.all.2 hc.1, h2.all.2 hc.2⟩
  | mm_am _ h1 h2 _ ih => exact ih ⟨h1.all.2 hc.1, h2.all.2 hc.2⟩
  | mm_lrLr _ _ ha hb _ _ i1 i2 =>
    have ha' := ha ▸ (DM.all_tr' _ _).2 hc.1
    have hb' := hb ▸ (DM.all_tr' _ _).2 hc.2
    exact ⟨ha'.1, hb'.2.1, i2 ⟨ha'.2.2, i1 ⟨ha'.2.1, hb'.1⟩, hb'.2.2⟩⟩
  | mm_lrLr_one _ _ ha hb _ _ _ i1 i2 i3 =>
    have ha' := ha ▸ (DM.all_tr' _ _).2 hc.1
    have hb' := hb ▸ (DM.all_tr' _ _).2 hc.2
    exact ⟨ha'.1, hb'.2.1, i3 (i2 ⟨ha'.2.2, i1 ⟨ha'.2.1, hb'.1⟩, hb'.2.2⟩)⟩
  | mm_lrAm _ _ _ ha _ i1 =>
    have ha' := ha ▸ (DM.all_tr' _ _).2 hc.1
    exact ⟨ha'.1, i1 ⟨(DM.all_tr' _ _).2 hc.2, ha'.2.1⟩, ha'.2.2⟩
  | mm_amLr _ _ _ hb _ i1 =>
    have hb' := hb ▸ (DM.all_tr' _ _).2 hc.2
    exact ⟨i1 ⟨(DM.all_tr' _ _).2 hc.1, hb'.1⟩, hb'.2.1, hb'.2.2⟩
  | _ => first
    | exact hc
    | simp_all [DCall.All, DM.All, DM.all_tr', DM.all_tr, DM.constLR]

/-! ### The data type of the result is the promoted type -/

section
variable [SemilatticeSup D]

theorem FoldP.le {l : List D} {d u : D} (h : FoldP (· ⊔ ·) l d) : d ≤ u ↔ ∀ x ∈ l, x ≤ u := by
  cases l with
  | nil => exact h.elim
  | cons x l =>
    subst h
    induction l generalizing x with
    | nil => simp
    | cons y l ih =>
      rw [List.foldl_cons, ih]
      simp only [List.mem_cons, forall_eq_or_imp, sup_le_iff, and_assoc]

/-- The data type of a matrix is the promotion of the data types of its arrays. -/
theorem DM.DtIs.le {a : DM D} {d u : D} (h : a.DtIs (· ⊔ ·) d) : d ≤ u ↔ a.All (· ≤ u) := by
  induction a generalizing d with
  | lr l r m hl hr hm =>
    obtain ⟨x, y, w, h1, h2, h3, rfl⟩ := h
    simp only [sup_le_iff, hl h1, hr h2, hm h3, DM.All, and_assoc]
  | wb e l r m hl hr hm =>
    obtain ⟨x, y, w, h1, h2, h3, rfl⟩ := h
    simp only [sup_le_iff, hl h1, hr h2, hm h3, DM.All, and_assoc]
  | kron l r hl hr =>
    obtain ⟨x, y, h1, h2, rfl⟩ := h
    simp only [sup_le_iff, hl h1, hr h2, DM.All]
  | tiled n blk ih =>
    obtain ⟨ds, h1, h2⟩ := h
    simp only [h2.le, List.mem_ofFn, forall_exists_index, forall_apply_eq_imp_iff, DM.All, ih _ (h1 _)]
  | _ => subst h; exact Iff.rfl

theorem DM.noZero_tr (a : DM D) : a.tr.NoZero ↔ a.NoZero := by
  induction a with
  | lr l r m hl hr hm => simp only [DM.tr, DM.NoZero, hm]; tauto
  | wb d l r m hl hr hm => simp only [DM.tr, DM.NoZero, hm]; tauto
  | kron l r hl hr => simp only [DM.tr, DM.NoZero, hl, hr]
  | tiled n blk ih => simp only [DM.tr, DM.NoZero, ih]
  | _ => exact Iff.rfl

theorem DM.noZero_tr' (t : Bool) (a : DM D) : (a.tr' t).NoZero ↔ a.NoZero := by
  cases t
  · exact Iff.rfl
  · exact a.noZero_tr

theorem DM.noZero_like (a : DM D) (d : D) : (a.like d).NoZero := by cases a <;> exact True.intro

theorem DConv.noZero {a b : DM D} (h : DConv false a b) (ha : a.NoZero) : b.NoZero := by
  cases h with
  | zero h => cases h
  | am => exact ha
  | _ => trivial

/-- Without a zero among the operands there is none in the result. -/
theorem Runs.noZero {c : DCall D} {r : DM D} (h : Runs (· ⊔ ·) false c r) (hc : c.NoZero) : r.NoZero := by
  induction h with
  | pad_one => exact DM.noZero_like _ _
  | pad_both => exact DM.noZero_like _ _
  | dense_tiled => trivial
  | add_lrLr_zero h => cases h
  | add_am _ h1 h2 _ ih => exact ih ⟨h1.noZero hc.1, h2.noZero hc.2⟩
  | mul_am _ h1 h2 _ ih => exact ih ⟨h1.noZero hc.1, h2.noZero hc.2⟩
  | mm_am _ h1 h2 _ ih => exact ih ⟨h1.noZero hc.1, h2.noZero hc.2⟩
  | mm_lrLr _ _ ha hb _ _ i1 i2 =>
    have ha' := ha ▸ (DM.noZero_tr' _ _).2 hc.1
    have hb' := hb ▸ (DM.noZero_tr' _ _).2 hc.2
    exact ⟨ha'.1, hb'.2.1, i2 ⟨ha'.2.2, i1 ⟨ha'.2.1, hb'.1⟩, hb'.2.2⟩⟩
  | mm_lrLr_one _ _ ha hb _ _ _ i1 i2 i3 =>
    have ha' := ha ▸ (DM.noZero_tr' _ _).2 hc.1
    have hb' := hb ▸ (DM.noZero_tr' _ _).2 hc.2
    exact ⟨ha'.1, hb'.2.1, trivial⟩
  | mm_lrAm _ _ _ ha _ i1 =>
    have ha' := ha ▸ (DM.noZero_tr' _ _).2 hc.1
    exact ⟨ha'.1, i1 ⟨(DM.noZero_tr' _ _).2 hc.2, ha'.2.1⟩, ha'.2.2⟩
  | mm_amLr _ _ _ hb _ i1 =>
    have hb' := hb ▸ (DM.noZero_tr' _ _).2 hc.2
    exact ⟨i1 ⟨(DM.noZero_tr' _ _).2 hc.1, hb'.1⟩, hb'.2.1, hb'.2.2⟩
  | _ => first
    | exact True.intro
    | exact hc
    | simp_all [DCall.NoZero, DM.NoZero, DM.noZero_tr', DM.noZero_tr, DM.constLR]

/-- Without zeros: what bounds the data types of the result bounds those of the operands. -/
theorem Runs.back (u : D) {c : DCall D} {r : DM D} (h : Runs (· ⊔ ·) false c r) (hc : c.NoZero) (hr : r.All (· ≤ u)) : c.All (· ≤ u) := by
  induction h with
  | pad_one h h' ih => exact h'.le.1 (sup_le_iff.1 ((DM.all_like (S := (· ≤ u)) _ _).1 hr)).2
  | pad_both h h' ih => exact h'.le.1 (sup_le_iff.1 (sup_le_iff.1 ((DM.all_like (S := (· ≤ u)) _ _).1 hr)).2).2
  | dense_tiled h h' ih => exact fun i => ih i (hc i) (h'.le.1 hr _ (List.mem_ofFn.2 ⟨i, rfl⟩))
  | add_lrLr_zero h => cases h
  | add_am _ h1 h2 _ ih =>
    have := ih ⟨h1.noZero hc.1, h2.noZero hc.2⟩ hr
    exact ⟨h1.all.1 this.1, h2.all.1 this.2⟩
  | mul_am _ h1 h2 _ ih =>
    have := ih ⟨h1.noZero hc.1, h2.noZero hc.2⟩ hr
    exact ⟨h1.all.1 this.1, h2.all.1 this.2⟩
  | mm_am _ h1 h2 _ ih =>
    have := ih ⟨h1.noZero hc.1, h2.noZero hc.2⟩ hr
    exact ⟨h1.all.1 this.1, h2.all.1 this.2⟩
  | add_lrLr h1 h2 h3 h4 h5 h6 h7 h8 h9 i1 i2 i3 i4 i5 i6 i7 i8 i9 =>
    have n1 := h1.noZero hc.1.1
    have n2 := h2.noZero hc.2.1
    have n4 := h4.noZero hc.1.2.1
    have n5 := h5.noZero hc.2.2.1
    have n7 := h7.noZero hc.1.2.2
    have n8 := h8.noZero hc.2.2.2
    have j1 := i3 ⟨n1, n2⟩ hr.1
    have j2 := i6 ⟨n4, n5⟩ hr.2.1
    have j3 := i9 ⟨n7, n8⟩ hr.2.2
    exact ⟨⟨i1 hc.1.1 j1.1, i4 hc.1.2.1 j2.1, i7 hc.1.2.2 j3.1⟩, ⟨i2 hc.2.1 j1.2, i5 hc.2.2.1 j2.2, i8 hc.2.2.2 j3.2⟩⟩
  | dense_const => exact (sup_le_iff.1 hr).1
  | diag_const => exact (sup_le_iff.1 hr).1
  | sum_const => exact (sup_le_iff.1 hr).1
  | dense_lr h1 h2 i1 i2 =>
    have n := h1.noZero ⟨hc.1, hc.2.2, hc.2.1⟩
    have j := i1 ⟨hc.1, hc.2.2, hc.2.1⟩ (i2 n hr)
    exact ⟨j.1, j.2.2, j.2.1⟩
  | dense_wb h1 h2 i1 i2 =>
    have hr := sup_le_iff.1 hr
    exact ⟨i1 trivial hr.1, i2 hc hr.2⟩
  | dense_kron h1 h2 i1 i2 =>
    have hr := sup_le_iff.1 hr
    exact ⟨i1 hc.1 hr.1, i2 hc.2 hr.2⟩
  | diag_lr h1 h2 h3 i1 i2 i3 =>
    have hr := sup_le_iff.1 hr
    have j := i1 ⟨hc.1, hc.2.2⟩ (i2 (h1.noZero ⟨hc.1, hc.2.2⟩) hr.1)
    exact ⟨j.1, i3 hc.2.1 hr.2, j.2⟩
  | diag_wb h1 h2 i1 i2 =>
    have hr := sup_le_iff.1 hr
    exact ⟨i1 trivial hr.1, i2 hc hr.2⟩
  | diag_kron h1 h2 i1 i2 =>
    have hr := sup_le_iff.1 hr
    exact ⟨i1 hc.1 hr.1, i2 hc.2 hr.2⟩
  | sum_lr1 h1 h2 h3 h4 i1 i2 i3 i4 =>
    have n2 := h2.noZero ⟨hc.2.1, hc.2.2⟩
    have j := i3 ⟨trivial, n2⟩ (i4 (h3.noZero ⟨trivial, n2⟩) hr)
    have k := i2 ⟨hc.2.1, hc.2.2⟩ j.2
    exact ⟨i1 hc.1 j.1, k.1, k.2⟩
  | sum_lr0 h1 h2 h3 h4 i1 i2 i3 i4 =>
    have n1 := h1.noZero ⟨hc.1, hc.2.2⟩
    have j := i3 ⟨n1, trivial⟩ (i4 (h3.noZero ⟨n1, trivial⟩) hr)
    have k := i1 ⟨hc.1, hc.2.2⟩ j.1
    exact ⟨k.1, i2 hc.2.1 j.2, k.2⟩
  | sum_wb h1 h2 i1 i2 =>
    have hr := sup_le_iff.1 hr
    exact ⟨i1 trivial hr.1, i2 hc hr.2⟩
  | sum_kron h1 h2 i1 i2 =>
    have hr := sup_le_iff.1 hr
    exact ⟨i1 hc.1 hr.1, i2 hc.2 hr.2⟩
  | bcast_dense _ _ _ i => exact i hc hr
  | add_amAm _ _ _ _ _ i1 i2 => exact ⟨i1 hc.1 (sup_le_iff.1 hr).1, i2 hc.2 (sup_le_iff.1 hr).2⟩
  | mul_amAm _ _ _ _ _ i1 i2 => exact ⟨i1 hc.1 (sup_le_iff.1 hr).1, i2 hc.2 (sup_le_iff.1 hr).2⟩
  | add_constAm _ _ _ i => exact ⟨(sup_le_iff.1 hr).1, i hc.2 (sup_le_iff.1 hr).2⟩
  | mul_constAm _ _ _ i => exact ⟨(sup_le_iff.1 hr).1, i hc.2 (sup_le_iff.1 hr).2⟩
  | mul_diagAm_dense _ _ _ i => exact ⟨(sup_le_iff.1 hr).1, i hc.2 (sup_le_iff.1 hr).2⟩
  | mul_diagAm_diag _ _ _ i => exact ⟨(sup_le_iff.1 hr).1, i hc.2 (sup_le_iff.1 hr).2⟩
  | mul_ltAm _ _ _ i => exact ⟨(sup_le_iff.1 hr).1, i hc.2 (sup_le_iff.1 hr).2⟩
  | mul_utAm _ _ _ i => exact ⟨(sup_le_iff.1 hr).1, i hc.2 (sup_le_iff.1 hr).2⟩
  | mul_utLt _ _ i1 i2 => exact ⟨i1 trivial (sup_le_iff.1 hr).1, i2 trivial (sup_le_iff.1 hr).2⟩
  | add_ltDiag _ i => exact ⟨(sup_le_iff.1 hr).1, i trivial (sup_le_iff.1 hr).2⟩
  | add_utDiag _ i => exact ⟨(sup_le_iff.1 hr).1, i trivial (sup_le_iff.1 hr).2⟩
  | add_constDiag _ i =>
    have j := i ⟨⟨trivial, trivial, trivial⟩, trivial⟩ hr
    exact ⟨j.1.1, j.2⟩
  | add_swap _ _ _ _ i => exact (i hc.symm hr).symm
  | mul_swap _ _ _ _ i => exact (i hc.symm hr).symm
  | add_lrConst _ i =>
    have j := i ⟨hc.1, trivial, trivial, trivial⟩ hr
    exact ⟨j.1, j.2.1⟩
  | add_lrDiag => exact ⟨hr.2, hr.1⟩
  | add_diagLr => exact hr
  | add_wbWb h1 h2 h3 i1 i2 i3 =>
    have j := i3 ⟨h1.noZero ⟨trivial, trivial⟩, h2.noZero ⟨hc.1, hc.2⟩⟩ hr
    have j1 := i1 ⟨trivial, trivial⟩ j.1
    have j2 := i2 ⟨hc.1, hc.2⟩ j.2
    exact ⟨⟨j1.1, j2.1⟩, j1.2, j2.2⟩
  | add_wbDiag h1 h2 i1 i2 =>
    have j := i2 ⟨h1.noZero ⟨trivial, trivial⟩, hc.1⟩ hr
    have j1 := i1 ⟨trivial, trivial⟩ j.1
    exact ⟨⟨j1.1, j.2⟩, j1.2⟩
  | add_wbAny _ _ h1 h2 i1 i2 =>
    have j := i2 ⟨trivial, h1.noZero ⟨hc.1, hc.2⟩⟩ hr
    have j1 := i1 ⟨hc.1, hc.2⟩ j.2
    exact ⟨⟨j.1, j1.1⟩, j1.2⟩
  | mul_lrLr h1 h2 h3 h4 h5 h6 i1 i2 i3 i4 i5 i6 =>
    have e1 := sup_le_iff.1 hr.1
    have e2 := sup_le_iff.1 hr.2.1
    have e3 := sup_le_iff.1 hr.2.2
    exact ⟨⟨i1 hc.1.1 e1.1, i3 hc.1.2.1 e2.1, i5 hc.1.2.2 e3.1⟩, i2 hc.2.1 e1.2, i4 hc.2.2.1 e2.2, i6 hc.2.2.2 e3.2⟩
  | mul_constLr _ i =>
    have j := i ⟨trivial, hc.2.2.2⟩ hr.2.2
    exact ⟨j.1, hr.1, hr.2.1, j.2⟩
  | mul_wbAm _ _ h1 h2 h3 i1 i2 i3 =>
    have j := i3 ⟨h1.noZero ⟨trivial, hc.2⟩, h2.noZero ⟨hc.1, hc.2⟩⟩ hr
    have j1 := i1 ⟨trivial, hc.2⟩ j.1
    have j2 := i2 ⟨hc.1, hc.2⟩ j.2
    exact ⟨⟨j1.1, j2.1⟩, j1.2⟩
  | mul_kronKron _ _ i1 i2 =>
    have j1 := i1 ⟨hc.1.1, hc.2.1⟩ hr.1
    have j2 := i2 ⟨hc.1.2, hc.2.2⟩ hr.2
    exact ⟨⟨j1.1, j2.1⟩, j1.2, j2.2⟩
  | mul_constKron _ i =>
    have j := i ⟨trivial, hc.2.1⟩ hr.1
    exact ⟨j.1, j.2, hr.2⟩
  | mm3_left h1 h2 i1 i2 =>
    have n := h1.noZero ⟨hc.1, hc.2.1⟩
    have j := i2 ⟨n, hc.2.2⟩ hr
    have k := i1 ⟨hc.1, hc.2.1⟩ j.1
    exact ⟨k.1, k.2, j.2⟩
  | mm3_right h1 h2 i1 i2 =>
    have n := h1.noZero ⟨hc.2.1, hc.2.2⟩
    have j := i2 ⟨hc.1, n⟩ hr
    have k := i1 ⟨hc.2.1, hc.2.2⟩ j.2
    exact ⟨j.1, k.1, k.2⟩
  | mm_diagAm _ _ _ i =>
    have j := i ⟨trivial, (DM.noZero_tr' _ _).2 hc.2⟩ hr
    exact ⟨j.1, (DM.all_tr' _ _).1 j.2⟩
  | mm_amDiag _ _ _ i =>
    have j := i ⟨(DM.noZero_tr' _ _).2 hc.1, trivial⟩ hr
    exact ⟨(DM.all_tr' _ _).1 j.1, j.2⟩
  | mm_constAm _ _ _ i => exact ⟨hr.1, (DM.all_tr' _ _).1 (i ((DM.noZero_tr' _ _).2 hc.2) hr.2.1)⟩
  | mm_amConst _ _ _ i => exact ⟨(DM.all_tr' _ _).1 (i ((DM.noZero_tr' _ _).2 hc.1) hr.1), hr.2.1⟩
  | mm_ltLt_tr _ i =>
    have j := i ⟨(DM.noZero_tr' _ _).2 hc.1, (DM.noZero_tr' _ _).2 hc.2⟩ hr
    exact ⟨(DM.all_tr' _ _).1 j.1, (DM.all_tr' _ _).1 j.2⟩
  | mm_utUt_tr _ i =>
    have j := i ⟨(DM.noZero_tr' _ _).2 hc.1, (DM.noZero_tr' _ _).2 hc.2⟩ hr
    exact ⟨(DM.all_tr' _ _).1 j.1, (DM.all_tr' _ _).1 j.2⟩
  | mm_ltAm _ _ _ i => exact i hc hr
  | mm_utAm _ _ _ i => exact i hc hr
  | mm_amLt _ _ _ i => exact i hc hr
  | mm_amUt _ _ _ i => exact i hc hr
  | mm_ltDiag h1 _ i1 i2 => exact i1 hc (i2 (h1.noZero ⟨trivial, trivial⟩) hr)
  | mm_diagLt h1 _ i1 i2 => exact i1 hc (i2 (h1.noZero ⟨trivial, trivial⟩) hr)
  | mm_utDiag h1 _ i1 i2 => exact i1 hc (i2 (h1.noZero ⟨trivial, trivial⟩) hr)
  | mm_diagUt h1 _ i1 i2 => exact i1 hc (i2 (h1.noZero ⟨trivial, trivial⟩) hr)
  | mm_ltDiag_tr _ i => exact i hc hr
  | mm_diagLt_tr _ i => exact i hc hr
  | mm_utDiag_tr _ i => exact i hc hr
  | mm_diagUt_tr _ i => exact i hc hr
  | @mm_lrLr ta tb a b al ar am bl br bm x m _ _ ha hb h1 h2 i1 i2 =>
    have ha' := ha ▸ (DM.noZero_tr' _ _).2 hc.1
    have hb' := hb ▸ (DM.noZero_tr' _ _).2 hc.2
    have j2 := i2 ⟨ha'.2.2, h1.noZero ⟨ha'.2.1, hb'.1⟩, hb'.2.2⟩ hr.2.2
    have j1 := i1 ⟨ha'.2.1, hb'.1⟩ j2.2.1
    exact ⟨(DM.all_tr' ta _).1 (ha ▸ ⟨hr.1, j1.1, j2.1⟩), (DM.all_tr' tb _).1 (hb ▸ ⟨j1.2, hr.2.1, j2.2.2⟩)⟩
  | @mm_lrLr_one ta tb a b al ar am bl br bm x m d _ _ ha hb h1 h2 h3 i1 i2 i3 =>
    have ha' := ha ▸ (DM.noZero_tr' _ _).2 hc.1
    have hb' := hb ▸ (DM.noZero_tr' _ _).2 hc.2
    have n := h1.noZero ⟨ha'.2.1, hb'.1⟩
    have j2 := i2 ⟨ha'.2.2, n, hb'.2.2⟩ (i3 (h2.noZero ⟨ha'.2.2, n, hb'.2.2⟩) hr.2.2)
    have j1 := i1 ⟨ha'.2.1, hb'.1⟩ j2.2.1
    exact ⟨(DM.all_tr' ta _).1 (ha ▸ ⟨hr.1, j1.1, j2.1⟩), (DM.all_tr' tb _).1 (hb ▸ ⟨j1.2, hr.2.1, j2.2.2⟩)⟩
  | @mm_lrAm ta tb a b kb l r m x _ _ _ ha h1 i1 =>
    have ha' := ha ▸ (DM.noZero_tr' _ _).2 hc.1
    have j1 := i1 ⟨(DM.noZero_tr' _ _).2 hc.2, ha'.2.1⟩ hr.2.1
    exact ⟨(DM.all_tr' ta _).1 (ha ▸ ⟨hr.1, j1.2, hr.2.2⟩), (DM.all_tr' tb _).1 j1.1⟩
  | @mm_amLr ta tb a b ka l r m x _ _ _ hb h1 i1 =>
    have hb' := hb ▸ (DM.noZero_tr' _ _).2 hc.2
    have j1 := i1 ⟨(DM.noZero_tr' _ _).2 hc.1, hb'.1⟩ hr.1
    exact ⟨(DM.all_tr' ta _).1 j1.1, (DM.all_tr' tb _).1 (hb ▸ ⟨j1.2, hr.2.1, hr.2.2⟩)⟩
  | mm_lrConst _ _ i =>
    have j := i ⟨hc.1, trivial, trivial, trivial⟩ hr
    exact ⟨j.1, j.2.1⟩
  | mm_constLr _ _ i =>
    have j := i ⟨⟨trivial, trivial, trivial⟩, hc.2⟩ hr
    exact ⟨j.1.1, j.2⟩
  | mm_wbAm _ _ h1 h2 h3 i1 i2 i3 =>
    have j := i3 ⟨h1.noZero ⟨trivial, hc.2⟩, h2.noZero ⟨hc.1, hc.2⟩⟩ hr
    have j1 := i1 ⟨trivial, hc.2⟩ j.1
    have j2 := i2 ⟨hc.1, hc.2⟩ j.2
    exact ⟨⟨j1.1, j2.1⟩, j1.2⟩
  | mm_amWb _ _ h1 h2 h3 i1 i2 i3 =>
    have j := i3 ⟨h1.noZero ⟨hc.1, trivial⟩, h2.noZero ⟨hc.1, hc.2⟩⟩ hr
    have j1 := i1 ⟨hc.1, trivial⟩ j.1
    have j2 := i2 ⟨hc.1, hc.2⟩ j.2
    exact ⟨j1.1, j1.2, j2.2⟩
  | mm_kronKron _ _ i1 i2 =>
    have j1 := i1 ⟨hc.1.1, hc.2.1⟩ hr.1
    have j2 := i2 ⟨hc.1.2, hc.2.2⟩ hr.2
    exact ⟨⟨j1.1, j2.1⟩, j1.2, j2.2⟩
  | @mm_kronAm_left ta tb l r b kb e x y u v _ _ h1 h2 h3 h4 h5 i1 i2 i3 i4 i5 =>
    have nl := (DM.noZero_tr' ta _).2 hc.1.1
    have nr := (DM.noZero_tr' ta _).2 hc.1.2
    have j4 := i4 ⟨nr, trivial⟩ (i5 (h4.noZero ⟨nr, trivial⟩) hr)
    have j2 := i2 ⟨nl, trivial⟩ (i3 (h2.noZero ⟨nl, trivial⟩) j4.2)
    have j1 := i1 ((DM.noZero_tr' tb _).2 hc.2) j2.2
    exact ⟨⟨(DM.all_tr' ta _).1 j2.1, (DM.all_tr' ta _).1 j4.1⟩, (DM.all_tr' tb _).1 j1⟩
  | @mm_kronAm_right ta tb l r b kb e x y u v _ _ h1 h2 h3 h4 h5 i1 i2 i3 i4 i5 =>
    have nl := (DM.noZero_tr' ta _).2 hc.1.1
    have nr := (DM.noZero_tr' ta _).2 hc.1.2
    have j4 := i4 ⟨nl, trivial⟩ (i5 (h4.noZero ⟨nl, trivial⟩) hr)
    have j2 := i2 ⟨nr, trivial⟩ (i3 (h2.noZero ⟨nr, trivial⟩) j4.2)
    have j1 := i1 ((DM.noZero_tr' tb _).2 hc.2) j2.2
    exact ⟨⟨(DM.all_tr' ta _).1 j4.1, (DM.all_tr' ta _).1 j2.1⟩, (DM.all_tr' tb _).1 j1⟩
  | mm_amKron _ _ _ _ i => exact (i hc.symm ((DM.all_tr _).1 hr)).symm
  | mm_kronDiag _ h1 h2 i1 i2 =>
    have j := i2 ⟨trivial, trivial⟩ hr
    exact ⟨i1 hc.1 j.1, j.2⟩
  | mm_diagKron _ h1 h2 i1 i2 =>
    have j := i2 ⟨trivial, trivial⟩ hr
    exact ⟨j.1, i1 hc.2 j.2⟩
  | _ => first
    | exact hr
    | exact sup_le_iff.1 hr
    | exact hc.2.elim
    | exact hc.1.elim

/-- Without zeros: a data type bounds those of the result exactly if it bounds those of the operands. -/
theorem Runs.exact {c : DCall D} {r : DM D} (h : Runs (· ⊔ ·) false c r) (hc : c.NoZero) (u : D) : r.All (· ≤ u) ↔ c.All (· ≤ u) :=
  ⟨h.back u hc, h.all fun _ _ => sup_le⟩

end

end Verif
