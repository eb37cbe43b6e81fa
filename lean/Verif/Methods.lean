/-
The methods of the class `AbstractMatrix` (C48): the arithmetic operators with their reflected versions, indexing, `squeeze`, `reshape`, `flatten`,
`diagonal`, `T`, `**`; and the functions `structured`, `B.uprank` and `B.isabstract`.
-/
import Verif.Concat
import Verif.Dtype
import Verif.Elt
import Verif.Warn
import Verif.Props03
import Verif.Props09

set_option linter.unusedSectionVars false

namespace Verif

variable {K : Type} [Field K] [LinearOrder K]

/-! ### Model -/

/-- The Python operators `+`, `-`, `*`, `/`, `@`. -/
inductive BinOp | add | sub | mul | div | matmul
  deriving DecidableEq

/-- `self.__add__(other)`, `__sub__`, `__mul__`, `__truediv__`, `__matmul__`: `matrix.py` 23-24, 29-30, 35-36, 41-42, 52-53. -/
def opFwd (env : Env K) (B : Ops K) (op : BinOp) (self other : Mat K) : E (Mat K) :=
  match op with
  | .add => B.add self other
  | .sub => subtractM env B self other
  | .mul => B.mul self other
  | .div => divideM env B self other
  | .matmul => B.matmul false false self other

/-- `self.__radd__(other)`, `__rsub__`, `__rmul__`, `__rtruediv__`, `__rmatmul__`: `matrix.py` 26-27, 32-33, 38-39, 44-45, 55-56. -/
def opRefl (env : Env K) (B : Ops K) (op : BinOp) (self other : Mat K) : E (Mat K) :=
  match op with
  | .add => B.add other self
  | .sub => subtractM env B other self
  | .mul => B.mul other self
  | .div => divideM env B other self
  | .matmul => B.matmul false false other self

/-- The Python expression `x op y`, where `x` or `y` is a matrix.  Python asks the left operand first; if that is not a matrix, its own method
returns `NotImplemented` (Python numbers; not numpy arrays, which do not defer to the matrix) and Python asks the right operand for the reflected method. -/
def pyOp (env : Env K) (B : Ops K) (op : BinOp) (x y : Mat K) : E (Mat K) :=
  if x.isAM then opFwd env B op x y else opRefl env B op y x

/-- `self.__pow__(power, modulo)`, `matrix.py` 47-50 (integer powers). -/
def powMethod (B : Ops K) (self : Mat K) (power : ℤ) (modulo : Option ℤ) : E (Mat K) := do
  guardE (modulo = none) .assertion
  powerM power B self

/-- numpy's `t[i]` for an integer: select along the first axis (the last position). -/
def nIndex1 (i : Int) (t : Tensor K) : E (Tensor K) :=
  if t.rank = 0 then .error .index else do
    let p ← normIdx (dim t.sh (t.rank - 1)) i
    return ofFn t.sh.dropLast fun j => t.get (Function.update j (t.rank - 1) p)

/-- numpy's `t[i, j, ...]` for integers, first axis first. -/
def nIndex : List Int → Tensor K → E (Tensor K)
  | [], t => .ok t
  | i :: is, t => do nIndex is (← nIndex1 i t)

/-- `self[i, j, ...]`, `matrix.py` 58-63, for integers. -/
def getItem (B : Ops K) (self : Mat K) (item : List Int) : E (Tensor K) := do nIndex item (← B.dense self)

/-- The index into shape `s` of the index `i` into `s` without the axes of size one. -/
def unsq : Shp → Idx → Idx
  | [], i => i
  | d :: s, i => if d = 1 then icons 0 (unsq s i) else icons (i 0) (unsq s (itail i))

/-- numpy's `squeeze`: drop all axes of size one. -/
def nSqueezeAll (t : Tensor K) : Tensor K := ofFn (t.sh.filter (· ≠ 1)) fun i => t.get (unsq t.sh i)

/-- `B.squeeze(a)`, `ops/squeeze.py` 10-14; `self.squeeze()`, `matrix.py` 77-78. -/
def squeezeM (B : Ops K) (a : Mat K) : E (Tensor K) := do return nSqueezeAll (← B.dense a)

/-- numpy's resolution of a shape with at most one `-1` for `n` entries (last axis first); other negative sizes are a ValueError. -/
def resolveShape (n : ℕ) (s : List Int) : E Shp := do
  let known := s.filter (· ≠ -1)
  guardE (∀ d ∈ known, 0 ≤ d) .value
  guardE (s.count (-1) ≤ 1) .value
  if s.count (-1) = 0 then return s.map Int.toNat
  else do
    let m ← inferDim n (known.map Int.toNat).prod
    return s.map fun d => if d = -1 then m else d.toNat

/-- `self.reshape(*shape)` and `self.reshape(shape)`, `matrix.py` 80-86, `ops/reshape.py` 10-16, with `-1` allowed. -/
def reshapeMethod (B : Ops K) (self : Mat K) (shape : List Int) : E (Tensor K) := do
  let t ← B.dense self
  nReshape (← resolveShape (size t.sh) shape) t

/-- `self.flatten()`, `matrix.py` 88-89. -/
def flattenMethod (B : Ops K) (self : Mat K) : E (Tensor K) := reshapeMethod B self [-1]

/-- `B.uprank(a, rank=2)`, `ops/uprank.py` 8-12. -/
def uprankM (a : Mat K) (rank : Int) : E (Mat K) :=
  if rank ≠ 2 then .error .value else .ok a

/-- An argument of `structured`: a matrix or number, or any other object. -/
inductive PyObj (K : Type) [Zero K] where
  | mat (a : Mat K)
  | other

/-- `structured(x)` for one argument, `matrix.py` 168-187. -/
def structured1 : PyObj K → E Bool
  | .mat a => .ok a.structured
  | .other => .error .runtime

/-- Python's `any` of a generator: stops at the first `True`. -/
def pyAny : List (E Bool) → E Bool
  | [] => .ok false
  | x :: xs => do if ← x then return true else pyAny xs

/-- `structured(*xs)`, `matrix.py` 151-165: one argument goes to the methods for one argument, otherwise `any`. -/
def structuredM : List (PyObj K) → E Bool
  | [x] => structured1 x
  | xs => pyAny (xs.map structured1)

/-- `B.isabstract(a)`, `ops/isabstract.py` 16-48; an array is abstract if it is a tracer (`dt = true`). There is no method for `TiledBlocks`.
`or` stops at the first `True`. -/
def isabstractM : TMat K Bool → E Bool
  | .num t => .ok t.dt
  | .zero .. => .ok false
  | .dense t => .ok t.dt
  | .diag t => .ok t.dt
  | .const t _ _ => .ok t.dt
  | .lt t => .ok t.dt
  | .ut t => .ok t.dt
  | .lr l r m => pyAny [isabstractM l, isabstractM m, isabstractM r]
  | .wb d l r m => pyAny [.ok d.dt, pyAny [isabstractM l, isabstractM m, isabstractM r]]
  | .kron l r => pyAny [isabstractM l, isabstractM r]
  | .tiled .. => .error .notFound

/-! ### Specification -/

/-- `r` is `a op b` on arrays. -/
def BinOp.Holds (op : BinOp) (a b r : Tensor K) : Prop :=
  match op with
  | .add => IsEltwise (· + ·) a b r
  | .sub => IsEltwise (· - ·) a b r
  | .mul => IsEltwise (· * ·) a b r
  | .div => IsEltwise (· / ·) a b r ∧ ∀ i, InRange b.sh i → b.get i ≠ 0
  | .matmul => IsMatProd a b r

/-- The operands for which the operator is right: no stretching of rigid classes; two matrices for `@`. -/
def BinOp.Dom (op : BinOp) (a b : Mat K) : Prop :=
  match op with
  | .add | .sub | .div => NoStretch a b
  | .mul => MulSafe a b
  | .matmul => 2 ≤ (den a).rank ∧ 2 ≤ (den b).rank

/-- Integer `i` means position `p` of an axis of size `n`: counted from the end if negative. -/
def Wraps (n : ℕ) (i : Int) (p : ℕ) : Prop := p < n ∧ ((p : Int) = i ∨ (p : Int) = i + n)

/-- Some array in `a` is abstract. -/
def TMat.HasAbstract : TMat K Bool → Prop
  | .num t | .dense t | .diag t | .const t _ _ | .lt t | .ut t => t.dt = true
  | .zero .. => False
  | .lr l r m => l.HasAbstract ∨ r.HasAbstract ∨ m.HasAbstract
  | .wb d l r m => d.dt = true ∨ l.HasAbstract ∨ r.HasAbstract ∨ m.HasAbstract
  | .kron l r => l.HasAbstract ∨ r.HasAbstract
  | .tiled _ blk _ _ => ∃ i, (blk i).HasAbstract

/-! ### Theorems -/

theorem pyOp_eq {env : Env K} {B : Ops K} {op : BinOp} {x y : Mat K} : pyOp env B op x y = opFwd env B op x y := by
  unfold pyOp
  split
  · rfl
  · cases op <;> rfl

/-- C48.  The operators `+`, `-`, `*`, `/`, `@` between a matrix and a matrix or number, in either order, compute the operation on the represented arrays
with the operands in the order written. -/
theorem C48_operator (c : Cfg K) (op : BinOp) {x y r : Mat K} (hx : x.Valid) (hy : y.Valid) (hc : BatchCompat x y) (hd : op.Dom x y)
    (hr : Returns c (fun B => pyOp c.code B op x y) r) (he : Exact c fun B => pyOp c.code B op x y) : r.Valid ∧ op.Holds (den x) (den y) (den r) := by
  simp only [pyOp_eq] at hr he
  cases op with
  | add => exact C01_add c hx hy hc hd hr he
  | sub => exact C07_subtract c hx hy hc hd hr he
  | mul => exact C02_multiply c hx hy hc hd hr he
  | div => exact C07_divide c hx hy hc hd hr he
  | matmul => exact C03_matmul c (ta := false) (tb := false) hx hy hc hd.1 hd.2 hr he

/-- C48.  A three-argument power raises AssertionError. -/
theorem C48_pow_modulo (c : Cfg K) (a : Mat K) (n m : ℤ) : Raises c (fun B => powMethod B a n (some m)) .assertion :=
  ⟨by decide, 0, rfl⟩

/-- C48.  `a ** n` is the entry-wise power. -/
theorem C48_pow [IsStrictOrderedRing K] (c : Cfg K) {n : ℤ} {a r : Mat K} (ha : a.Valid) (hn : 1 ≤ n ∨ a.explicit = true)
    (hr : Returns c (fun B => powMethod B a n none) r) (hx : Exact c fun B => powMethod B a n none) : r.Valid ∧ IsMap (fun x => x ^ n) (den a) (den r) :=
  C34_power c ha hn hr hx

theorem normIdx_wraps {n : ℕ} {i : Int} {p : ℕ} (h : normIdx n i = .ok p) : Wraps n i p := by
  unfold normIdx at h
  unfold Wraps
  split_ifs at h <;> simp at h <;> omega

theorem wraps_normIdx {n : ℕ} {i : Int} {p : ℕ} (h : Wraps n i p) : normIdx n i = .ok p := by
  unfold Wraps at h
  unfold normIdx
  split_ifs <;> first | omega | (congr 1; omega)

theorem nIndex1_ok {i : Int} {t r : Tensor K} (h : nIndex1 i t = .ok r) :
    0 < t.rank ∧ ∃ p, Wraps (dim t.sh (t.rank - 1)) i p ∧ r.sh = t.sh.dropLast ∧ ∀ j, InRange r.sh j → r.get j = t.get (Function.update j (t.rank - 1) p) := by
  unfold nIndex1 at h
  split_ifs at h with h0
  simp only [bind_ok_iff, pure_eq_ok] at h
  obtain ⟨p, hp, rfl⟩ := h
  exact ⟨by omega, p, normIdx_wraps hp, rfl, fun j hj => ofFn_get _ hj⟩

theorem dim_dropLast {s : Shp} {k : ℕ} (h : k < s.length - 1) : dim s.dropLast k = dim s k := by
  simp only [dim]
  rw [List.getD_eq_getElem?_getD, List.getD_eq_getElem?_getD, List.dropLast_eq_take, List.getElem?_take_of_lt h]

theorem dim_of_le {s : Shp} {k : ℕ} (h : s.length ≤ k) : dim s k = 1 := by
  simp only [dim]
  rw [List.getD_eq_getElem?_getD, List.getElem?_eq_none h]
  rfl

/-- What integer indexing does: the first `item.length` axes are fixed at the given positions. -/
structure IsIndex (item : List Int) (ps : List ℕ) (t r : Tensor K) : Prop where
  len : ps.length = item.length
  rank : item.length ≤ t.rank
  pos : ∀ (q : ℕ) (i : Int) (p : ℕ), item[q]? = some i → ps[q]? = some p → Wraps (dim t.sh (t.rank - 1 - q)) i p
  shape : r.sh = t.sh.take (t.rank - item.length)
  entries : ∀ j, InRange r.sh j → r.get j = t.get fun k => if k < t.rank - item.length then j k else ps.getD (t.rank - 1 - k) 0

theorem get_ext {t : Tensor K} {i j : Idx} (h : ∀ k, k < t.rank → i k = j k) : t.get i = t.get j := by
  apply t.get_congr
  intro k
  by_cases hk : k < t.sh.length
  · simp only [clip, h k hk]
  · have : dim t.sh k = 1 := dim_of_le (by omega)
    simp only [clip, this]
    split_ifs <;> omega

theorem nIndex_ok {item : List Int} {t r : Tensor K} (h : nIndex item t = .ok r) : ∃ ps, IsIndex item ps t r := by
  induction item generalizing t with
  | nil =>
    simp only [nIndex, Except.ok.injEq] at h
    subst h
    refine ⟨[], rfl, Nat.zero_le _, fun q i p h => by simp at h, by simp [Tensor.rank], fun j _ => get_ext fun k hk => ?_⟩
    simp [hk]
  | cons i is ih =>
    simp only [nIndex, bind_ok_iff] at h
    obtain ⟨u, hu, h⟩ := h
    obtain ⟨h0, p, hp, hs, hg⟩ := nIndex1_ok hu
    obtain ⟨ps, hps⟩ := ih h
    have hr : u.rank = t.rank - 1 := by simp [Tensor.rank, hs]
    have hl := hps.rank
    refine ⟨p :: ps, by simp [hps.len], by simp only [List.length_cons]; omega, ?_, ?_, ?_⟩
    · intro q i' p' h1 h2
      rcases q with _ | q
      · simp only [List.getElem?_cons_zero, Option.some.injEq] at h1 h2
        subst h1 h2
        exact hp
      · simp only [List.getElem?_cons_succ] at h1 h2
        have := hps.pos q i' p' h1 h2
        have hq : q < is.length := (List.getElem?_eq_some_iff.1 h1).1
        rw [hr, hs, dim_dropLast (by change _ < t.rank - 1; omega)] at this
        rwa [show t.rank - 1 - (q + 1) = t.rank - 1 - 1 - q by omega]
    · rw [hps.shape, hs, hr, List.dropLast_eq_take, List.take_take]
      simp only [List.length_cons]
      congr 1
      change min _ (t.rank - 1) = _
      omega
    · intro j hj
      let j' : Idx := fun k => if k < u.rank then (if k < u.rank - is.length then j k else ps.getD (u.rank - 1 - k) 0) else 0
      have hj' : InRange u.sh j' := by
        intro k
        by_cases h2 : k < u.rank
        · simp only [j', h2, if_true]
          by_cases h1 : k < u.rank - is.length
          · simp only [h1, if_true]
            have := hj k
            rw [hps.shape] at this
            simp only [dim] at this ⊢
            rwa [List.getD_eq_getElem?_getD, List.getElem?_take_of_lt h1, ← List.getD_eq_getElem?_getD] at this
          · simp only [h1, if_false]
            have h3 : u.rank - 1 - k < is.length := by omega
            have h4 : u.rank - 1 - k < ps.length := by rw [hps.len]; exact h3
            have := (hps.pos (u.rank - 1 - k) _ _ (List.getElem?_eq_getElem h3) (List.getElem?_eq_getElem h4)).1
            rw [show u.rank - 1 - (u.rank - 1 - k) = k by omega] at this
            rw [List.getD_eq_getElem?_getD, List.getElem?_eq_getElem h4]
            exact this
        · simp only [j', h2, if_false]
          rw [dim_of_le (by change u.rank ≤ k; omega)]
          exact Nat.one_pos
      rw [hps.entries j hj, get_ext (t := u) (j := j') fun k hk => by simp only [j', hk, if_true], hg _ hj']
      refine get_ext fun k hk => ?_
      simp only [List.length_cons]
      by_cases h1 : k = t.rank - 1
      · subst h1
        rw [Function.update_self, if_neg (by omega), Nat.sub_self]
        rfl
      · simp only [j']
        rw [Function.update_of_ne h1, if_pos (by omega), hr, show t.rank - 1 - is.length = t.rank - (is.length + 1) by omega]
        split_ifs
        · rfl
        · rw [show t.rank - 1 - k = (t.rank - 1 - 1 - k) + 1 by omega]
          rfl

theorem nIndex_total {item : List Int} {t : Tensor K} (hl : item.length ≤ t.rank)
    (h : ∀ (q : ℕ) (i : Int), item[q]? = some i → ∃ p, Wraps (dim t.sh (t.rank - 1 - q)) i p) : ∃ r, nIndex item t = .ok r := by
  induction item generalizing t with
  | nil => exact ⟨t, rfl⟩
  | cons i is ih =>
    obtain ⟨p, hp⟩ := h 0 i rfl
    have h0 : ¬t.rank = 0 := by simp only [List.length_cons] at hl; omega
    have e : nIndex1 i t = .ok (ofFn t.sh.dropLast fun j => t.get (Function.update j (t.rank - 1) p)) := by
      unfold nIndex1
      rw [if_neg h0, show normIdx (dim t.sh (t.rank - 1)) i = .ok p from wraps_normIdx hp]
      rfl
    have hr : (ofFn t.sh.dropLast fun j => t.get (Function.update j (t.rank - 1) p) : Tensor K).rank = t.rank - 1 := by simp [Tensor.rank, ofFn]
    obtain ⟨r, h'⟩ := ih (t := ofFn t.sh.dropLast fun j => t.get (Function.update j (t.rank - 1) p)) (by rw [hr]; simp only [List.length_cons] at hl; omega) fun q i' hq => by
      obtain ⟨p', hp'⟩ := h (q + 1) i' hq
      have hq' : q < is.length := (List.getElem?_eq_some_iff.1 hq).1
      refine ⟨p', ?_⟩
      rw [hr]
      change Wraps (dim t.sh.dropLast _) _ _
      simp only [List.length_cons] at hl
      rw [dim_dropLast (by change _ < t.rank - 1; omega)]
      rwa [show t.rank - 1 - 1 - q = t.rank - 1 - (q + 1) by omega]
    exact ⟨r, by rw [nIndex, e]; exact h'⟩

/-- C48.  `a[i, j, ...]` with integers is the entry (or sub-array) of the represented matrix, negative integers counting from the end. -/
theorem C48_getitem (c : Cfg K) {a : Mat K} {item : List Int} {r : Tensor K} (ha : a.Valid)
    (hr : Returns c (fun B => getItem B a item) r) (hx : Exact c fun B => getItem B a item) : ∃ ps, IsIndex item ps (den a) r := by
  obtain ⟨n, h⟩ := hr.strict hx
  simp only [getItem, bind_ok_iff] at h
  obtain ⟨t, ht, h⟩ := h
  obtain rfl := (c.ok n).dense ha.own ht
  exact nIndex_ok h

theorem Returns.of_dense {α : Type} {c : Cfg K} {a : Mat K} {t : Tensor K} {f : Tensor K → E α} {r : α} (h : Returns c (fun B => B.dense a) t) (hf : f t = .ok r) :
    Returns c (fun B => B.dense a >>= f) r := by
  obtain ⟨n, h⟩ := h
  refine ⟨n, ?_⟩
  show (ops c.code n).dense a >>= f = _
  rw [show (ops c.code n).dense a = .ok t from h]
  exact hf

/-- C48.  Indexing with integers in range returns, for supported matrices. -/
theorem C48_getitem_returns (c : Cfg K) {a : Mat K} {item : List Int} (ha : a.Supported) (hx : Exact c fun B => B.dense a) (hl : item.length ≤ (den a).rank)
    (h : ∀ (q : ℕ) (i : Int), item[q]? = some i → ∃ p, Wraps (dim (den a).sh ((den a).rank - 1 - q)) i p) : ∃ r, Returns c (fun B => getItem B a item) r := by
  obtain ⟨r, h⟩ := nIndex_total hl h
  exact ⟨r, Returns.of_dense (C45_dense c ha hx) h⟩

/-! Squeezing -/

theorem lin_unsq (s : Shp) (i : Idx) : lin s (unsq s i) = lin (s.filter (· ≠ 1)) i := by
  induction s generalizing i with
  | nil => rfl
  | cons d s ih =>
    by_cases h : d = 1
    · subst h
      simp only [unsq, if_true, lin, icons_zero, itail_icons, ih]
      simp
    · simp only [unsq, h, if_false, lin, icons_zero, itail_icons, ih]
      rw [List.filter_cons_of_pos (by simpa using h)]
      rfl

theorem inRange_unsq {s : Shp} {i : Idx} (h : InRange (s.filter (· ≠ 1)) i) : InRange s (unsq s i) := by
  induction s generalizing i with
  | nil => exact h
  | cons d s ih =>
    by_cases hd : d = 1
    · subst hd
      rw [List.filter_cons_of_neg (by simp)] at h
      simp only [unsq, if_true]
      rw [inRange_cons']
      exact ⟨by simp, by rw [itail_icons]; exact ih h⟩
    · rw [List.filter_cons_of_pos (by simpa using hd), inRange_cons'] at h
      simp only [unsq, hd, if_false]
      rw [inRange_cons']
      exact ⟨h.1, by rw [itail_icons]; exact ih h.2⟩

theorem size_filter (s : Shp) : size (s.filter (· ≠ 1)) = size s := by
  induction s with
  | nil => rfl
  | cons d s ih =>
    by_cases h : d = 1
    · subst h; rw [List.filter_cons_of_neg (by simp), ih]; simp [size]
    · rw [List.filter_cons_of_pos (by simpa using h)]
      simp only [size, List.prod_cons] at ih ⊢
      rw [ih]

/-- C48.  `a.squeeze()` has the axes of size other than one and the entries of the matrix in the same order. -/
theorem C48_squeeze (c : Cfg K) {a : Mat K} {r : Tensor K} (ha : a.Valid)
    (hr : Returns c (fun B => squeezeM B a) r) (hx : Exact c fun B => squeezeM B a) : IsReshape ((den a).sh.filter (· ≠ 1)) (den a) r := by
  obtain ⟨n, h⟩ := hr.strict hx
  simp only [squeezeM, bind_ok_iff, pure_eq_ok] at h
  obtain ⟨t, ht, rfl⟩ := h
  obtain rfl := (c.ok n).dense ha.own ht
  refine ⟨rfl, size_filter _, fun i j hi hj e => ?_⟩
  rw [rowMajor_eq, rowMajor_eq, ← lin_unsq] at e
  rw [nSqueezeAll, ofFn_get _ hi, ← get_unlin_lin _ (inRange_unsq hi), e, get_unlin_lin _ hj]

/-- C48.  Squeezing returns, for supported matrices. -/
theorem C48_squeeze_returns (c : Cfg K) {a : Mat K} (ha : a.Supported) (hx : Exact c fun B => B.dense a) : ∃ r, Returns c (fun B => squeezeM B a) r :=
  ⟨_, Returns.of_dense (C45_dense c ha hx) rfl⟩

/-! Reshaping -/

/-- `s'` is the shape that `s` asks for with `n` entries: sizes as given, at most one of them `-1`, which stands for whatever makes the number of entries right. -/
structure ShapeFor (n : ℕ) (s : List Int) (s' : Shp) : Prop where
  len : s'.length = s.length
  one : s.count (-1) ≤ 1
  given : ∀ (q : ℕ) (d : Int), s[q]? = some d → d ≠ -1 → 0 ≤ d ∧ s'[q]? = some d.toNat
  size : size s' = n

theorem map_given {s : List Int} {m q : ℕ} {d : Int} (h : s[q]? = some d) (hd : d ≠ -1) :
    (s.map fun d => if d = -1 then m else d.toNat)[q]? = some d.toNat := by
  rw [List.getElem?_map, h]
  simp [hd]

theorem resolveShape_ok {n : ℕ} {s : List Int} {s' : Shp} (h : resolveShape n s = .ok s') (hn : size s' = n) : ShapeFor n s s' := by
  simp only [resolveShape, bind_ok_iff, guardE_ok] at h
  obtain ⟨_, h1, _, h2, h⟩ := h
  have nonneg : ∀ (q : ℕ) (d : Int), s[q]? = some d → d ≠ -1 → 0 ≤ d := fun q d hq hd => h1 d (List.mem_filter.2 ⟨List.mem_of_getElem? hq, by simpa using hd⟩)
  split_ifs at h with h3
  · simp only [pure_eq_ok] at h
    subst h
    refine ⟨by simp, h2, fun q d hq hd => ⟨nonneg q d hq hd, ?_⟩, hn⟩
    rw [List.getElem?_map, hq]
    rfl
  · simp only [bind_ok_iff, pure_eq_ok] at h
    obtain ⟨m, _, rfl⟩ := h
    exact ⟨by simp, h2, fun q d hq hd => ⟨nonneg q d hq hd, map_given hq hd⟩, hn⟩

/-- C48.  `a.reshape(*shape)`, where one size may be `-1`, has the entries of the matrix in the same order. -/
theorem C48_reshape (c : Cfg K) {a : Mat K} {r : Tensor K} {s : List Int} (ha : a.Valid)
    (hr : Returns c (fun B => reshapeMethod B a s) r) (hx : Exact c fun B => reshapeMethod B a s) :
    ∃ s', ShapeFor (size (den a).sh) s s' ∧ IsReshape s' (den a) r := by
  obtain ⟨n, h⟩ := hr.strict hx
  simp only [reshapeMethod, bind_ok_iff] at h
  obtain ⟨t, ht, s', hs', h⟩ := h
  obtain rfl := (c.ok n).dense ha.own ht
  unfold nReshape at h
  split_ifs at h with hs
  simp only [Except.ok.injEq] at h
  subst h
  refine ⟨s', resolveShape_ok hs' hs, rfl, hs, fun i j hi hj e => ?_⟩
  rw [reshapeT, ofFn_get _ hi, ← get_unlin_lin _ hj, ← rowMajor_eq, ← rowMajor_eq, e]

/-- C48.  `a.flatten()` returns, and is the vector of all entries in row-major order. -/
theorem C48_flatten (c : Cfg K) {a : Mat K} (ha : a.Supported) (hx : Exact c fun B => B.dense a) :
    ∃ r, Returns c (fun B => flattenMethod B a) r ∧ IsReshape [size (den a).sh] (den a) r := by
  have e : resolveShape (size (den a).sh) [-1] = .ok [size (den a).sh] := by
    simp [resolveShape, inferDim, guardE, bind, Except.bind, pure, Except.pure]
  have hs : size [size (den a).sh] = size (den a).sh := by simp [size]
  refine ⟨reshapeT [size (den a).sh] (den a), Returns.of_dense (C45_dense c ha hx) ?_, rfl, hs, fun i j hi hj e => ?_⟩
  · rw [e]
    show nReshape _ _ = _
    rw [nReshape, if_pos hs]
  · rw [reshapeT, ofFn_get _ hi, ← get_unlin_lin _ hj, ← rowMajor_eq, ← rowMajor_eq, e]

/-- C48.  Two unknown sizes are a ValueError. -/
theorem C48_reshape_rejected (c : Cfg K) {a : Mat K} {s : List Int} (ha : a.Supported) (hx : Exact c fun B => B.dense a) (h : 2 ≤ s.count (-1)) :
    Raises c (fun B => reshapeMethod B a s) .value := by
  obtain ⟨n, hd⟩ := C45_dense c ha hx
  refine ⟨by decide, n, ?_⟩
  show (ops c.code n).dense a >>= _ = _
  rw [show (ops c.code n).dense a = .ok (den a) from hd]
  show resolveShape _ _ >>= _ = _
  have : resolveShape (size (den a).sh) s = .error .value := by
    unfold resolveShape
    by_cases h1 : ∀ d ∈ s.filter (· ≠ -1), 0 ≤ d
    · simp only [guardE, if_neg (show ¬s.count (-1) ≤ 1 by omega)]
      rw [if_pos h1]
      rfl
    · simp only [guardE]
      rw [if_neg h1]
      rfl
  rw [this]
  rfl

/-! Functions on classes -/

theorem pyAny_ok {l : List (E Bool)} {v : Bool} (h : pyAny l = .ok v) (hl : ∀ x ∈ l, ∃ b, x = .ok b) : v = true ↔ .ok true ∈ l := by
  induction l with
  | nil => simp only [pyAny, Except.ok.injEq] at h; subst h; simp
  | cons x xs ih =>
    obtain ⟨b, rfl⟩ := hl x (List.mem_cons_self ..)
    cases b with
    | true =>
      have : v = true := by simpa [pyAny, bind, Except.bind, pure, Except.pure] using h.symm
      simp [this]
    | false =>
      have := ih (by simpa [pyAny, bind, Except.bind] using h) fun x hx => hl x (List.mem_cons_of_mem _ hx)
      simp [this]

theorem pyAny_total {l : List (E Bool)} (hl : ∀ x ∈ l, ∃ b, x = .ok b) : ∃ v, pyAny l = .ok v := by
  induction l with
  | nil => exact ⟨_, rfl⟩
  | cons x xs ih =>
    obtain ⟨b, rfl⟩ := hl x (List.mem_cons_self ..)
    cases b with
    | true => exact ⟨true, rfl⟩
    | false => exact ih fun x hx => hl x (List.mem_cons_of_mem _ hx)

/-- C48.  `structured(*xs)` of matrices and numbers tells whether there is a matrix that is not Dense among them. -/
theorem C48_structured (xs : List (Mat K)) : ∃ v, structuredM (xs.map .mat) = .ok v ∧ (v = true ↔ ∃ x ∈ xs, x.isAM = true ∧ ∀ t, x ≠ .dense t) := by
  have one : ∀ x : Mat K, x.structured = true ↔ x.isAM = true ∧ ∀ t, x ≠ .dense t := by
    intro x; cases x <;> simp [Mat.structured, Mat.isAM]
  have hl : ∀ x ∈ (xs.map PyObj.mat).map structured1, ∃ b, x = .ok b := by
    intro x hx
    obtain ⟨y, hy, rfl⟩ := List.mem_map.1 hx
    obtain ⟨z, _, rfl⟩ := List.mem_map.1 hy
    exact ⟨_, rfl⟩
  obtain ⟨v, hv⟩ := pyAny_total hl
  have iff : v = true ↔ ∃ x ∈ xs, x.isAM = true ∧ ∀ t, x ≠ .dense t := by
    rw [pyAny_ok hv hl]
    simp only [List.map_map, List.mem_map, Function.comp, structured1, Except.ok.injEq, one]
  refine ⟨v, ?_, iff⟩
  match xs, hv with
  | [], hv => exact hv
  | [x], hv =>
    simp only [List.map, pyAny, structured1] at hv
    show structured1 (.mat x) = _
    cases hs : x.structured
    · rw [hs] at hv; rw [structured1, hs]; exact hv
    · rw [hs] at hv; rw [structured1, hs]; exact hv
  | x :: y :: zs, hv => exact hv

/-- C48.  `structured` of any other single object is a RuntimeError. -/
theorem C48_structured_other : structuredM [PyObj.other (K := K)] = .error .runtime := rfl

/-- C48.  `B.uprank(a)` is `a`; any other rank is a ValueError. -/
theorem C48_uprank (a : Mat K) : uprankM a 2 = .ok a ∧ ∀ r, r ≠ 2 → uprankM a r = .error .value :=
  ⟨rfl, fun r h => by simp [uprankM, h]⟩

theorem isabstractM_ok {a : TMat K Bool} (h : a.mat.noTiled = true) : ∃ v, isabstractM a = .ok v ∧ (v = true ↔ a.HasAbstract) := by
  induction a with
  | num | dense | diag | const | lt | ut => exact ⟨_, rfl, Iff.rfl⟩
  | zero => exact ⟨_, rfl, by simp [TMat.HasAbstract]⟩
  | lr l r m hl hr hm =>
    simp only [TMat.mat, Mat.noTiled, Bool.and_eq_true] at h
    obtain ⟨x, ex, ix⟩ := hl h.1.1
    obtain ⟨y, ey, iy⟩ := hr h.1.2
    obtain ⟨z, ez, iz⟩ := hm h.2
    refine ⟨x || (z || y), ?_, ?_⟩
    · simp only [isabstractM, ex, ey, ez]
      cases x <;> cases y <;> cases z <;> rfl
    · simp only [TMat.HasAbstract, ← ix, ← iy, ← iz, Bool.or_eq_true]
      rw [or_comm (a := z = true)]
  | wb d l r m hl hr hm =>
    simp only [TMat.mat, Mat.noTiled, Bool.and_eq_true] at h
    obtain ⟨x, ex, ix⟩ := hl h.1.1
    obtain ⟨y, ey, iy⟩ := hr h.1.2
    obtain ⟨z, ez, iz⟩ := hm h.2
    refine ⟨d.dt || (x || (z || y)), ?_, ?_⟩
    · simp only [isabstractM, ex, ey, ez]
      cases d.dt <;> cases x <;> cases y <;> cases z <;> rfl
    · simp only [TMat.HasAbstract, ← ix, ← iy, ← iz, Bool.or_eq_true]
      rw [or_comm (a := z = true)]
  | kron l r hl hr =>
    simp only [TMat.mat, Mat.noTiled, Bool.and_eq_true] at h
    obtain ⟨x, ex, ix⟩ := hl h.1
    obtain ⟨y, ey, iy⟩ := hr h.2
    refine ⟨x || y, ?_, ?_⟩
    · simp only [isabstractM, ex, ey]
      cases x <;> cases y <;> rfl
    · simp only [TMat.HasAbstract, ← ix, ← iy, Bool.or_eq_true]
  | tiled => simp [TMat.mat, Mat.noTiled] at h

/-- C48.  `B.isabstract(a)` tells whether some array in `a` is abstract, for matrices without TiledBlocks. -/
theorem C48_isabstract {a : TMat K Bool} (h : a.mat.noTiled = true) : ∃ v, isabstractM a = .ok v ∧ (v = true ↔ a.HasAbstract) := isabstractM_ok h

/-! Examples. -/

/-- `1 - W`: the number is on the left, so Python calls `W.__rsub__(1)`. -/
example : ∃ r, Returns Ex.cfg (fun B => pyOp Ex.cfg.code B .sub Ex.s Ex.W) r ∧ Exact Ex.cfg (fun B => pyOp Ex.cfg.code B .sub Ex.s Ex.W) :=
  Ex.meets (by simp only [pyOp_eq]; exact Calls.subtract Ex.cfg.code Ex.s Ex.W) (n := 10) (by decide +kernel)
/-- Swapping the operands in `__rsub__` would be seen. -/
example : Ex.s.isAM = false ∧ BinOp.sub.Dom Ex.s Ex.W :=
  ⟨rfl, fun h => by simp [Mat.rigid, Ex.s] at h, fun _ => ⟨Or.inl rfl, Or.inl rfl⟩⟩
example : ((nIndex [-1, 0] (den Ex.L)).map fun t => (t.sh, t.get fun _ => 0)) = .ok ([], 2) := by decide +kernel
example : resolveShape 12 [-1, 3] = .ok [4, 3] := by decide
example : resolveShape 12 [-1, 5] = .error .value := by decide
example : structuredM [.mat Ex.M, .mat Ex.D] = .ok true := by decide +kernel
example : structuredM [.mat Ex.M, .mat Ex.s] = .ok false := by decide +kernel

theorem Ex.W_exact : Exact Ex.cfg fun B => B.dense Ex.W :=
  (Ex.meets (Calls.dense Ex.W) (n := 10) (by decide +kernel)).elim fun _ h => h.2
example : ∃ r, Returns Ex.cfg (fun B => flattenMethod B Ex.W) r ∧ IsReshape [4] (den Ex.W) r := C48_flatten Ex.cfg Ex.W_supported Ex.W_exact
example : ∃ r, Returns Ex.cfg (fun B => getItem B Ex.W [-1, 0]) r := by
  refine C48_getitem_returns Ex.cfg Ex.W_supported Ex.W_exact (by decide +kernel) fun q i h => ?_
  match q, h with
  | 0, h => cases h; exact ⟨1, by decide +kernel, by right; decide +kernel⟩
  | 1, h => cases h; exact ⟨0, by decide +kernel, by left; decide +kernel⟩

end Verif
