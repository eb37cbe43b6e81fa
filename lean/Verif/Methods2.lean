/-
C48.  `a[item]` with any index of the backend (slices, masks, index arrays, new axes), and `B.to_numpy`.
-/
import Verif.Methods

set_option linter.unusedSectionVars false

namespace Verif

variable {K : Type} [Field K] [LinearOrder K] [IsStrictOrderedRing K] {α : Type}

/-- `AbstractMatrix.__getitem__`, `matrix.py` 58-63, with any `item`: `index` is the backend's `· [item]` on arrays, which may raise.  (The warning is in `WarnDer.lean`.) -/
def getItemAny (index : Tensor K → E α) (B : Ops K) (self : Mat K) : E α := do index (← B.dense self)

/-- `B.to_numpy(a: AbstractMatrix)`, `ops/to_numpy.py` 8-10; `toNumpy` is the backend's conversion of its arrays. -/
def toNumpyM (toNumpy : Tensor K → E α) (B : Ops K) (a : Mat K) : E α := do toNumpy (← B.dense a)

/-- Indexing with integers is an instance. -/
theorem getItem_eq_any (B : Ops K) (a : Mat K) (item : List Int) : getItem B a item = getItemAny (nIndex item) B a := rfl

/-- C48.  `a[item]` is `dense[item]`, where `dense` is the array that `a` represents, for every kind of index of the backend. -/
theorem C48_getitem_any (c : Cfg K) {a : Mat K} (index : Tensor K → E α) {r : α} (ha : a.Valid) (hr : Returns c (fun B => getItemAny index B a) r)
    (hx : Exact c fun B => B.dense a) : index (den a) = .ok r := by
  obtain ⟨n, h⟩ := hr
  obtain ⟨t, ht, h⟩ := bind_ok_iff.1 h
  have hd : Returns c (fun B => B.dense a) t := ⟨n, ht⟩
  obtain ⟨m, hm⟩ := hd.strict hx
  obtain rfl := (c.ok m).dense ha.own hm
  exact h

/-- C48.  For supported matrices the outcome, value or exception, is that of indexing the array. -/
theorem C48_getitem_outcome (c : Cfg K) {a : Mat K} (index : Tensor K → E α) (ha : a.Supported) (hx : Exact c fun B => B.dense a) :
    (∀ r, Returns c (fun B => getItemAny index B a) r ↔ index (den a) = .ok r) ∧ ∀ e, e.real → (index (den a) = .error e → Raises c (fun B => getItemAny index B a) e) := by
  have hd := C45_dense c ha hx
  constructor
  · intro r
    refine ⟨fun h => C48_getitem_any c index ha.valid h hx, fun h => Returns.of_dense hd h⟩
  · intro e he h
    obtain ⟨n, hn⟩ := hd
    refine ⟨he, n, ?_⟩
    show (ops c.code n).dense a >>= index = _
    rw [show (ops c.code n).dense a = .ok _ from hn]
    exact h

/-- C48.  Conversion to NumPy converts the array that the matrix represents. -/
theorem C48_to_numpy (c : Cfg K) {a : Mat K} (toNumpy : Tensor K → E α) (ha : a.Supported) (hx : Exact c fun B => B.dense a) (r : α) :
    Returns c (fun B => toNumpyM toNumpy B a) r ↔ toNumpy (den a) = .ok r := (C48_getitem_outcome c toNumpy ha hx).1 r

example : Returns Ex.cfg (fun B => toNumpyM .ok B Ex.W) (den Ex.W) := (C48_to_numpy Ex.cfg .ok Ex.W_supported Ex.W_exact _).2 rfl
example : Returns Ex.cfg (fun B => getItemAny (fun t => .ok (tr t)) B Ex.W) (tr (den Ex.W)) := ((C48_getitem_outcome Ex.cfg _ Ex.W_supported Ex.W_exact).1 _).2 rfl

end Verif
