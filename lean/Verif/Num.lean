/-
The LAB / numpy primitives that `matrix` calls on numeric operands, as total functions on tensors
and as code-facing functions that raise (`Except Err`).
-/
import Verif.Tensor
import Mathlib.Logic.Function.Basic

namespace Verif

/-- Exceptions.  `fuel` is the model's recursion bound, `inexact` and `nonfinite` are ghost errors (a run that
would merge unequal columns, or divide by zero), `warn` is a ToDenseWarning turned into an exception (only in `Warn.lean`); all others are Python exceptions. -/
inductive Err where
  | assertion | runtime | value | notFound | ambiguous | index | linalg | attribute
  | fuel | inexact | nonfinite | warn
  deriving DecidableEq, Repr

/-- Not a pseudo-error of the model: neither the recursion bound nor the stop at an inexact merge. -/
def Err.real (e : Err) : Prop := e ≠ .fuel ∧ e ≠ .inexact

instance : DecidablePred Err.real := fun e => inferInstanceAs (Decidable (e ≠ .fuel ∧ e ≠ .inexact))

abbrev E (α : Type) := Except Err α

@[simp] theorem bind_ok_iff {α β : Type} {x : E α} {f : α → E β} {r : β} :
    (x >>= f) = .ok r ↔ ∃ a, x = .ok a ∧ f a = .ok r := by
  cases x <;> simp [bind, Except.bind]

@[simp] theorem pure_eq_ok {α : Type} {x y : α} : (pure x : E α) = .ok y ↔ x = y := by
  simp [pure, Except.pure]

@[simp] theorem map_ok_iff {α β : Type} {x : E α} {f : α → β} {r : β} :
    (f <$> x) = .ok r ↔ ∃ a, x = .ok a ∧ f a = r := by
  cases x <;> simp [Functor.map, Except.map]

@[simp] theorem throw_ne_ok {α : Type} {e : Err} {y : α} : (throw e : E α) = .ok y ↔ False := by
  simp [throw, throwThe, MonadExceptOf.throw]

/-- `assert c` / `if not c: raise e`. -/
def guardE (c : Prop) [Decidable c] (e : Err) : E Unit := if c then .ok () else .error e

@[simp] theorem guardE_ok {c : Prop} [Decidable c] {e : Err} {u : Unit} : guardE c e = .ok u ↔ c := by
  unfold guardE; split <;> simp [*]

variable {K : Type}

/-! ### Deciding `Fits` -/

/-- Boolean version of `Fits`. -/
def fitsB : Shp → Shp → Bool
  | _, [] => true
  | [], d :: s => d == 1 && fitsB [] s
  | D :: S, d :: s => (d == 1 || d == D) && fitsB S s

theorem fitsB_iff (S s : Shp) : fitsB S s = true ↔ Fits S s := by
  induction s generalizing S with
  | nil => simp [fitsB, Fits.nil]
  | cons d s ih =>
    cases S with
    | nil =>
      simp only [fitsB, Bool.and_eq_true, beq_iff_eq, ih]
      constructor
      · rintro ⟨h0, h⟩ k
        cases k with
        | zero => simp [h0]
        | succ k => simpa using h k
      · intro h
        exact ⟨by simpa using h 0, fun k => by simpa using h (k+1)⟩
    | cons D S => simp [fitsB, ih]

instance (S s : Shp) : Decidable (Fits S s) := decidable_of_iff _ (fitsB_iff S s)

/-! ### Elementwise -/

/-- numpy elementwise binary operation: ValueError on incompatible shapes. -/
def nZip [Zero K] (f : K → K → K) (a b : Tensor K) : E (Tensor K) :=
  if Compat a.sh b.sh then .ok (zipB f a b) else .error .value

/-- `a + b` on numeric tensors. -/
def nAdd [Zero K] [Add K] (a b : Tensor K) : E (Tensor K) := nZip (· + ·) a b
/-- `a * b` on numeric tensors. -/
def nMul [Zero K] [Mul K] (a b : Tensor K) : E (Tensor K) := nZip (· * ·) a b

/-- `-a` on numeric tensors. -/
def tneg [Zero K] [Neg K] (a : Tensor K) : Tensor K := tmap (fun x => -x) a

/-- `B.broadcast_to` on numeric tensors. -/
def nBroadcastTo [Zero K] (s : Shp) (t : Tensor K) : E (Tensor K) :=
  if Fits s t.sh ∧ t.rank ≤ s.length then .ok (bcast s t) else .error .value

/-- `B.broadcast_batch_to` on numeric tensors, `ops/broadcast_batch_to.py` 19: `B.broadcast_to(a, *batch, *B.shape(a, -2, -1))`. -/
def nBroadcastBatchTo [Zero K] (s : Shp) (t : Tensor K) : E (Tensor K) :=
  if 2 ≤ t.rank then nBroadcastTo (t.cols :: t.rows :: s) t else .error .index

/-- Transpose if asked. -/
def trIf [Zero K] (b : Bool) (t : Tensor K) : Tensor K := if b then tr t else t

/-- `B.matmul` on numeric tensors of rank at least 2. -/
def nMatmul [CommRing K] (ta tb : Bool) (a b : Tensor K) : E (Tensor K) :=
  if 2 ≤ a.rank ∧ 2 ≤ b.rank ∧ (trIf ta a).cols = (trIf tb b).rows ∧ Compat a.bt b.bt then
    .ok (mm (trIf ta a) (trIf tb b))
  else .error .value

/-! ### Axes -/

/-- LAB `resolve_axis`: position of an axis counted from the end; ValueError if out of range. -/
def axPos (rank : ℕ) (axis : Int) : E ℕ :=
  if 0 ≤ axis then
    if axis < rank then .ok (rank - 1 - axis.toNat) else .error .value
  else
    if -(rank : Int) ≤ axis then .ok ((-axis).toNat - 1) else .error .value

theorem axPos_lt {rank : ℕ} {axis : Int} {k : ℕ} (h : axPos rank axis = .ok k) : k < rank := by
  unfold axPos at h
  split_ifs at h <;> simp at h <;> omega

/-- Insert coordinate `x` at position `k`. -/
def insAt : ℕ → ℕ → Idx → Idx
  | 0, x, i => icons x i
  | k+1, x, i => icons (i 0) (insAt k x (itail i))

/-- Sum over the axis at position `k`. -/
def sumAx [AddCommMonoid K] (k : ℕ) (t : Tensor K) : Tensor K :=
  ofFn (t.sh.eraseIdx k) fun i => ∑ x ∈ Finset.range (dim t.sh k), t.get (insAt k x i)

/-- Row-major linear index. -/
def lin : Shp → Idx → ℕ
  | [], _ => 0
  | d :: s, i => i 0 + d * lin s (itail i)

/-- Index with a given row-major linear index. -/
def unlin : Shp → ℕ → Idx
  | [], _ => fun _ => 0
  | d :: s, n => icons (n % d) (unlin s (n / d))

/-- Number of entries. -/
def size (s : Shp) : ℕ := s.prod

/-- Sum of all entries, rank 0. -/
def sumAll [AddCommMonoid K] (t : Tensor K) : Tensor K :=
  ofFn [] fun _ => ∑ n ∈ Finset.range (size t.sh), t.get (unlin t.sh n)

/-- `B.sum` on numeric tensors. -/
def nSum [AddCommMonoid K] (t : Tensor K) (axis : Option Int) : E (Tensor K) :=
  match axis with
  | none => .ok (sumAll t)
  | some ax => do
    let k ← axPos t.rank ax
    return sumAx k t

/-- `B.reshape` on numeric tensors (all sizes explicit). -/
def reshapeT [Zero K] (s : Shp) (t : Tensor K) : Tensor K :=
  ofFn s fun i => t.get (unlin t.sh (lin s i))

/-- `B.reshape` on numeric tensors: the number of entries must agree. -/
def nReshape [Zero K] (s : Shp) (t : Tensor K) : E (Tensor K) :=
  if size s = size t.sh then .ok (reshapeT s t) else .error .value

/-- Select indices along the axis at position `k`. -/
def takeAx [Zero K] (k : ℕ) (idx : List ℕ) (t : Tensor K) : Tensor K :=
  ofFn (t.sh.set k idx.length) fun i => t.get (Function.update i k (idx.getD (i k) 0))

/-- numpy's normalisation of an index: negative indices count from the end, otherwise IndexError. -/
def normIdx (n : ℕ) (i : Int) : E ℕ :=
  if 0 ≤ i then (if i < n then .ok i.toNat else .error .index)
  else if -(n : Int) ≤ i then .ok (n - (-i).toNat) else .error .index

/-- Normalise all indices, raising at the first that is out of range. -/
def normIdxs (n : ℕ) : List Int → E (List ℕ)
  | [] => .ok []
  | i :: is => do
    let j ← normIdx n i
    let js ← normIdxs n is
    return j :: js

/-- `B.take` on numeric tensors with a list of indices. -/
def nTake [Zero K] (t : Tensor K) (idx : List Int) (axis : Int) : E (Tensor K) := do
  let k ← axPos t.rank axis
  let js ← normIdxs (dim t.sh k) idx
  return takeAx k js t

/-- Entry of the concatenation along the axis at position `k`. -/
def concatGet [Zero K] (k : ℕ) : List (Tensor K) → Idx → K
  | [], _ => 0
  | t :: ts, i =>
    if i k < dim t.sh k then t.get i
    else concatGet k ts (Function.update i k (i k - dim t.sh k))

/-- Total size along the axis at position `k`. -/
def concatDim [Zero K] (k : ℕ) (ts : List (Tensor K)) : ℕ := (ts.map fun t => dim t.sh k).sum

/-- Concatenation along the axis at position `k`; the other axes are those of the first tensor. -/
def concatAx [Zero K] (k : ℕ) (ts : List (Tensor K)) : Tensor K :=
  ofFn (((ts.head?.map (·.sh)).getD []).set k (concatDim k ts)) (concatGet k ts)

/-- `B.concat` on numeric tensors: same rank, same sizes except along the axis. -/
def nConcat [Zero K] (axis : Int) (ts : List (Tensor K)) : E (Tensor K) :=
  match ts with
  | [] => .error .value
  | t :: _ => do
    let k ← axPos t.rank axis
    guardE (∀ u ∈ ts, u.sh.set k 0 = t.sh.set k 0) .value
    return concatAx k ts

/-- Repeat along the axis at position `k`. -/
def tileAx [Zero K] (k rep : ℕ) (t : Tensor K) : Tensor K :=
  ofFn (t.sh.set k (rep * dim t.sh k)) fun i => t.get (Function.update i k (i k % dim t.sh k))

/-- Kronecker product of the last two axes; the batch axes broadcast. -/
def kronT [CommRing K] (a b : Tensor K) : Tensor K :=
  mkMat (bsh a.bt b.bt) (a.rows * b.rows) (a.cols * b.cols) fun β i j =>
    a.at' β (i / b.rows) (j / b.cols) * b.at' β (i % b.rows) (j % b.cols)

@[simp] theorem kronT_sh [CommRing K] (a b : Tensor K) :
    (kronT a b).sh = a.cols * b.cols :: a.rows * b.rows :: bsh a.bt b.bt := rfl

/-- Kronecker product of batches of vectors. -/
def kronV [CommRing K] (a b : Tensor K) : Tensor K :=
  mkVec (bsh a.sh.tail b.sh.tail) (a.cols * b.cols) fun β i =>
    a.vat β (i / b.cols) * b.vat β (i % b.cols)

/-- The leading `n` rows, `x[..., :n, :]`. -/
def headRows [Zero K] (n : ℕ) (t : Tensor K) : Tensor K :=
  mkMat t.bt (min n t.rows) t.cols fun β i j => t.at' β i j

/-- Remove the axis at position `k`, `B.squeeze(t, axis)`; ValueError unless it has size 1. -/
def nSqueeze [Zero K] (k : ℕ) (t : Tensor K) : E (Tensor K) :=
  if k < t.rank ∧ dim t.sh k = 1 then .ok (ofFn (t.sh.eraseIdx k) fun i => t.get (insAt k 0 i)) else .error .value

end Verif
