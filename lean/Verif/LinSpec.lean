/-
The specification of linear algebra on plain batched matrices, and what is assumed of the numeric backend.
-/
import Verif.LinCore
import Verif.MatRep

set_option linter.unusedSectionVars false

namespace Verif

variable {K : Type} [Field K] [LinearOrder K]

/-- `r` is the batch of inverses of `a`. -/
structure IsInverse (a r : Tensor K) : Prop where
  rank : 2 ≤ a.rank
  square : a.rows = a.cols
  shape : r.sh = a.sh
  right : ∀ β i j, InRange a.bt β → i < a.rows → j < a.rows →
    ∑ k ∈ Finset.range a.rows, a.at' β i k * r.at' β k j = if i = j then 1 else 0
  left : ∀ β i j, InRange a.bt β → i < a.rows → j < a.rows →
    ∑ k ∈ Finset.range a.rows, r.at' β i k * a.at' β k j = if i = j then 1 else 0

/-- `a` is a batch of symmetric matrices. -/
def IsSymm (a : Tensor K) : Prop :=
  2 ≤ a.rank ∧ a.rows = a.cols ∧ ∀ β i j, InRange a.bt β → i < a.rows → j < a.rows → a.at' β i j = a.at' β j i

/-- `l` is a batch of factors of `a`: `l lᵀ = a`. -/
structure IsFactor (a l : Tensor K) : Prop where
  square : a.rows = a.cols
  rows : l.rows = a.rows
  batch : l.bt = a.bt
  prod : ∀ β i j, InRange a.bt β → i < a.rows → j < a.rows → ∑ k ∈ Finset.range l.cols, l.at' β i k * l.at' β j k = a.at' β i j

/-- `x` solves `a x = b` in every batch element (the batches broadcast), where `a` is square. -/
structure IsSolution (a b x : Tensor K) : Prop where
  square : a.rows = a.cols
  inner : a.rows = b.rows
  batch : Compat a.bt b.bt
  shape : x.sh = b.cols :: a.rows :: bsh a.bt b.bt
  entries : ∀ β i j, InRange (bsh a.bt b.bt) β → i < a.rows → j < b.cols → ∑ k ∈ Finset.range a.rows, a.at' β i k * x.at' β k j = b.at' β i j

/-- The lower or upper triangle of `a`, the rest replaced by zeros. -/
def triPart (lower : Bool) (a : Tensor K) : Tensor K :=
  mkMat a.bt a.rows a.cols fun β i j => if (if lower then j ≤ i else i ≤ j) then a.at' β i j else 0

/-- What is assumed of the numeric backend: exact results, whenever it returns.
* `B.inv`: a right inverse;
* `B.cholesky`: a lower-triangular factor with positive diagonal of the matrix whose lower triangle is given
  (the backend reads the lower triangle only, and adds no regularisation);
* `B.solve`, `B.trisolve`: solutions of square systems; `B.trisolve` reads one triangle only;
* `B.logdet`: the logarithm of the absolute value of the determinant;
* `B.svd` of a square matrix: orthogonal factors and nonnegative singular values;
* `sqrt`: the nonnegative square root; `log`: turns products into sums. -/
structure LinEnv.Lawful (lin : LinEnv K) : Prop where
  inv : ∀ {a r}, lin.inv a = .ok r → 2 ≤ a.rank ∧ a.rows = a.cols ∧ r.sh = a.sh ∧
    ∀ β i j, InRange a.bt β → i < a.rows → j < a.rows → ∑ k ∈ Finset.range a.rows, a.at' β i k * r.at' β k j = if i = j then 1 else 0
  chol : ∀ {a l}, lin.chol a = .ok l → 2 ≤ a.rank ∧ a.rows = a.cols ∧ l.sh = a.sh ∧ LowerTri l ∧
    (∀ β i, InRange a.bt β → i < a.rows → 0 < l.at' β i i) ∧
    ∀ β i j, InRange a.bt β → i < a.rows → j ≤ i → ∑ k ∈ Finset.range a.rows, l.at' β i k * l.at' β j k = a.at' β i j
  solve : ∀ {a b x}, lin.solve a b = .ok x → 2 ≤ a.rank ∧ 2 ≤ b.rank ∧ IsSolution a b x
  trisolve : ∀ {lower a b x}, lin.trisolve lower a b = .ok x → 2 ≤ a.rank ∧ 2 ≤ b.rank ∧ IsSolution (triPart lower a) b x
  logdet : ∀ {a v}, lin.logdet a = .ok v → 2 ≤ a.rank ∧ a.rows = a.cols ∧ v.sh = a.bt ∧
    ∀ β, InRange a.bt β → (mxOf a β a.rows a.rows).det ≠ 0 ∧ v.get β = lin.log |(mxOf a β a.rows a.rows).det|
  svd : ∀ {a u s}, lin.svd a = .ok (u, s) → a.rows = a.cols → 2 ≤ a.rank → u.sh = a.sh ∧ s.sh = a.rows :: a.bt ∧ ∃ w : Tensor K, w.sh = a.sh ∧
    (∀ β i j, InRange a.bt β → i < a.rows → j < a.rows → ∑ k ∈ Finset.range a.rows, u.at' β k i * u.at' β k j = if i = j then 1 else 0) ∧
    (∀ β i j, InRange a.bt β → i < a.rows → j < a.rows → ∑ k ∈ Finset.range a.rows, w.at' β k i * w.at' β k j = if i = j then 1 else 0) ∧
    (∀ β i, InRange a.bt β → i < a.rows → 0 ≤ s.vat β i) ∧
    ∀ β i j, InRange a.bt β → i < a.rows → j < a.rows → a.at' β i j = ∑ k ∈ Finset.range a.rows, u.at' β i k * s.vat β k * w.at' β j k
  sqrt : ∀ {x y}, lin.sqrt x = some y → 0 ≤ y ∧ y * y = x
  log : ∀ {x y}, 0 < x → 0 < y → lin.log (x * y) = lin.log x + lin.log y

/-- The call `f`, written against the functions `B.*` of the core and of linear algebra, returns `r`
(`m` bounds the recursion depth among the functions of linear algebra; any bound will do). -/
def LReturns {α : Type} (c : Cfg K) (lin : LinEnv K) (f : Ops K → LOps K → E α) (r : α) : Prop :=
  ∃ m, Returns c (fun B => f B (lops c.code lin B m)) r

/-- The tolerance tests inside the call are right (see `Exact`). -/
def LExact {α : Type} (c : Cfg K) (lin : LinEnv K) (f : Ops K → LOps K → E α) : Prop :=
  ∀ m, Exact c fun B => f B (lops c.code lin B m)

/-! ### Translation to matrices -/

theorem LinEnv.Lawful.log_one {lin : LinEnv K} (h : lin.Lawful) [IsStrictOrderedRing K] : lin.log 1 = 0 := by
  have := h.log (x := 1) (y := 1) one_pos one_pos
  rw [mul_one] at this
  simpa using this

theorem MRep.of_sum {n : ℕ} {a r : Tensor K} (β : Idx) (ha : a.rows = n)
    (h : ∀ i j, i < a.rows → j < a.rows → ∑ k ∈ Finset.range a.rows, a.at' β i k * r.at' β k j = if i = j then 1 else 0) :
    Verif.mxOf a β n n * Verif.mxOf r β n n = 1 := by
  subst ha
  ext i j
  rw [Matrix.mul_apply, Matrix.one_apply]
  have := h i j i.2 j.2
  rw [Finset.sum_range] at this
  simp only [Verif.mxOf, Matrix.of_apply]
  rw [this]
  simp [Fin.ext_iff]

theorem sum_of_mul_one {n : ℕ} {a r : Tensor K} {β : Idx} (h : mxOf a β n n * mxOf r β n n = 1) {i j : ℕ} (hi : i < n) (hj : j < n) :
    ∑ k ∈ Finset.range n, a.at' β i k * r.at' β k j = if i = j then 1 else 0 := by
  have := congrFun (congrFun h ⟨i, hi⟩) ⟨j, hj⟩
  rw [Matrix.mul_apply, Matrix.one_apply] at this
  rw [Finset.sum_range]
  simpa [mxOf, Fin.ext_iff] using this

/-- The inverse in terms of matrices. -/
theorem IsInverse.mk' {a r : Tensor K} (h2 : 2 ≤ a.rank) (hs : a.rows = a.cols) (hsh : r.sh = a.sh)
    (h : ∀ β, InRange a.bt β → mxOf a β a.rows a.rows * mxOf r β a.rows a.rows = 1) : IsInverse a r :=
  ⟨h2, hs, hsh, fun β _ _ hβ hi hj => sum_of_mul_one (h β hβ) hi hj,
    fun β _ _ hβ hi hj => sum_of_mul_one (mul_eq_one_comm.1 (h β hβ)) hi hj⟩

theorem IsInverse.mul {a r : Tensor K} (h : IsInverse a r) {β : Idx} (hβ : InRange a.bt β) :
    mxOf a β a.rows a.rows * mxOf r β a.rows a.rows = 1 :=
  MRep.of_sum β rfl fun i j hi hj => h.right β i j hβ hi hj

theorem rank_of_sh {a r : Tensor K} (h : r.sh = a.sh) : r.rank = a.rank := by simp only [Tensor.rank, h]
theorem rows_of_sh {a r : Tensor K} (h : r.sh = a.sh) : r.rows = a.rows := by simp only [Tensor.rows, h]
theorem cols_of_sh {a r : Tensor K} (h : r.sh = a.sh) : r.cols = a.cols := by simp only [Tensor.cols, h]
theorem bt_of_sh {a r : Tensor K} (h : r.sh = a.sh) : r.bt = a.bt := by simp only [Tensor.bt, h]

/-- Reading a batch element over a larger universe. -/
theorem mxOf_clip {S : Shp} {a : Tensor K} (h : Fits S a.bt) (β : Idx) (r c : ℕ) : mxOf a (clip S β) r c = mxOf a β r c := by
  ext i j
  exact Tensor.at'_clip h β i j

theorem mxOf_clip_self (a : Tensor K) (β : Idx) (r c : ℕ) : mxOf a (clip a.bt β) r c = mxOf a β r c := mxOf_clip (Fits.refl _) β r c

/-- The inverse over any universe. -/
theorem IsInverse.mrep {S : Shp} {a r : Tensor K} (h : IsInverse a r) (g : Good S a) :
    ∃ A R, MRep S a.rows a.rows a A ∧ MRep S a.rows a.rows r R ∧ ∀ β, InRange S β → A β * R β = 1 := by
  have gr : Good S r := ⟨by rw [rank_of_sh h.shape]; exact g.rank, by rw [bt_of_sh h.shape]; exact g.fits⟩
  refine ⟨_, _, MRep.of g rfl h.square.symm, MRep.of gr (rows_of_sh h.shape) ((cols_of_sh h.shape).trans h.square.symm), fun β hβ => ?_⟩
  have hb := inRange_clip β (g.fits.pos hβ.pos)
  have := h.mul hb
  rw [mxOf_clip_self] at this
  rw [← bt_of_sh h.shape, mxOf_clip_self] at this
  exact this

theorem IsInverse.of_mrep {n : ℕ} {a r : Tensor K} {A R} (ha : MRep a.bt n n a A) (hr : MRep a.bt n n r R) (hsh : r.sh = a.sh)
    (h : ∀ β, InRange a.bt β → A β * R β = 1) : IsInverse a r := by
  have hn := ha.rows
  subst hn
  refine IsInverse.mk' ha.rank ha.cols.symm hsh fun β hβ => ?_
  rw [ha.mxOf hβ, hr.mxOf hβ, h β hβ]

/-- Two inverses agree. -/
theorem IsInverse.unique {a r s : Tensor K} (h : IsInverse a r) (h' : IsInverse a s) : r = s := by
  have hr := h.left
  have gr : Good a.bt r := ⟨by rw [rank_of_sh h.shape]; exact h.rank, by rw [bt_of_sh h.shape]; exact Fits.refl _⟩
  have gs : Good a.bt s := ⟨by rw [rank_of_sh h'.shape]; exact h.rank, by rw [bt_of_sh h'.shape]; exact Fits.refl _⟩
  have mr := MRep.of gr (rows_of_sh h.shape) ((cols_of_sh h.shape).trans h.square.symm)
  have ms := MRep.of gs (rows_of_sh h'.shape) ((cols_of_sh h'.shape).trans h'.square.symm)
  have e : r.bt = a.bt := bt_of_sh h.shape
  refine MRep.ext (by rw [e]; exact mr) (by rw [e]; exact ms) (by rw [e, bt_of_sh h'.shape]) fun β hβ => ?_
  rw [e] at hβ
  have h1 := mul_eq_one_comm.1 (h.mul hβ)
  have h2 := h'.mul hβ
  calc mxOf r β a.rows a.rows = mxOf r β a.rows a.rows * (mxOf a β a.rows a.rows * mxOf s β a.rows a.rows) := by rw [h2, Matrix.mul_one]
    _ = mxOf s β a.rows a.rows := by rw [← Matrix.mul_assoc, h1, Matrix.one_mul]

end Verif
