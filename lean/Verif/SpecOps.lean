/-
The specification of the operations on plain batched matrices, entry by entry.
Reading an entry (`get`, `at'`, `vat`) of a tensor at an axis of size 1, or at an axis it does not have, ignores the coordinate:
numpy's broadcasting rule.
-/
import Verif.Api

set_option linter.unusedSectionVars false

namespace Verif

variable {K : Type} [Field K] [LinearOrder K]

/-- `r` is `op` applied to the entries of `a` and `b`, with numpy broadcasting. -/
structure IsEltwise (op : K → K → K) (a b r : Tensor K) : Prop where
  compat : Compat a.sh b.sh
  shape : r.sh = bsh a.sh b.sh
  entries : ∀ i, InRange r.sh i → r.get i = op (a.get i) (b.get i)

/-- `r` is `f` applied to every entry of `a`. -/
structure IsMap (f : K → K) (a r : Tensor K) : Prop where
  shape : r.sh = a.sh
  entries : ∀ i, InRange r.sh i → r.get i = f (a.get i)

/-- `r` is the batch of matrix products of `a` and `b`. -/
structure IsMatProd (a b r : Tensor K) : Prop where
  inner : a.cols = b.rows
  batch : Compat a.bt b.bt
  shape : r.sh = b.cols :: a.rows :: bsh a.bt b.bt
  entries : ∀ β i j, InRange r.bt β → i < r.rows → j < r.cols →
    r.at' β i j = ∑ k ∈ Finset.range a.cols, a.at' β i k * b.at' β k j

/-- `r` is the batch of transposes of `a`. -/
structure IsTranspose (a r : Tensor K) : Prop where
  shape : r.sh = a.rows :: a.cols :: a.bt
  entries : ∀ β i j, InRange r.bt β → i < r.rows → j < r.cols → r.at' β i j = a.at' β j i

/-- `r` is the batch of diagonals of `a`. -/
structure IsDiagonalOf (a r : Tensor K) : Prop where
  shape : r.sh = min a.rows a.cols :: a.bt
  entries : ∀ β i, InRange a.bt β → i < min a.rows a.cols → r.vat β i = a.at' β i i

/-- `r` is `a` broadcast to the shape `s`. -/
structure IsBroadcast (s : Shp) (a r : Tensor K) : Prop where
  fits : Fits s a.sh
  shape : r.sh = s
  entries : ∀ i, InRange s i → r.get i = a.get i

/-- `r` is the batch of Kronecker products of `a` and `b`. -/
structure IsKron (a b r : Tensor K) : Prop where
  batch : Compat a.bt b.bt
  shape : r.sh = a.cols * b.cols :: a.rows * b.rows :: bsh a.bt b.bt
  entries : ∀ β i j k l, InRange r.bt β → i < a.rows → j < a.cols → k < b.rows → l < b.cols →
    r.at' β (i * b.rows + k) (j * b.cols + l) = a.at' β i j * b.at' β k l

/-- `r` is the sum of `a` over its axis at position `k` from the end. -/
structure IsSumAxis (k : ℕ) (a r : Tensor K) : Prop where
  axis : k < a.rank
  shape : r.sh = a.sh.eraseIdx k
  entries : ∀ i, InRange r.sh i → r.get i = ∑ x ∈ Finset.range (dim a.sh k), a.get (insAt k x i)

/-! ### The total functions of `Tensor.lean` meet the specifications -/

theorem IsEltwise.of_eq {op : K → K → K} {a b r : Tensor K} (hc : Compat a.sh b.sh) (h : r = zipB op a b) : IsEltwise op a b r := by
  subst h
  exact ⟨hc, rfl, fun i hi => zipB_get op hi hc.fits_left hc.fits_right⟩

theorem IsEltwise.eq {op : K → K → K} {a b r : Tensor K} (h : IsEltwise op a b r) : r = zipB op a b :=
  Tensor.ext_inRange h.shape fun i hi => by
    rw [h.entries i hi]
    rw [h.shape] at hi
    rw [zipB_get op hi h.compat.fits_left h.compat.fits_right]

theorem IsMap.of_eq {f : K → K} {a r : Tensor K} (h : r = tmap f a) : IsMap f a r := by
  subst h
  exact ⟨rfl, fun i hi => tmap_get f hi (Fits.refl _)⟩

theorem IsMatProd.of_eq {S : Shp} {a b r : Tensor K} (ga : Good S a) (gb : Good S b) (hk : a.cols = b.rows) (h : r = mm a b) : IsMatProd a b r := by
  subst h
  have hc : Compat a.bt b.bt := ga.fits.compat gb.fits
  refine ⟨hk, hc, rfl, fun β i j hβ hi hj => ?_⟩
  have ga' : Good (mm a b).bt a := ⟨ga.rank, by rw [mm_bt]; exact hc.fits_left⟩
  have gb' : Good (mm a b).bt b := ⟨gb.rank, by rw [mm_bt]; exact hc.fits_right⟩
  have hb := gb'.rep
  rw [← hk] at hb
  exact (Rep.mm ga'.rep hb).at' β i j hβ hi hj

theorem IsTranspose.of_eq {a r : Tensor K} (h2 : 2 ≤ a.rank) (h : r = tr a) : IsTranspose a r := by
  subst h
  refine ⟨rfl, fun β i j hβ hi hj => ?_⟩
  exact (Rep.tr (Rep.self h2 (Fits.refl _))).at' β i j hβ hi hj

theorem IsDiagonalOf.of_eq {a r : Tensor K} (h2 : 2 ≤ a.rank) (h : r = diagE a) : IsDiagonalOf a r := by
  subst h
  refine ⟨rfl, fun β i hβ hi => ?_⟩
  exact (VRep.diagE (Rep.self h2 (Fits.refl _))).vat β i hβ hi

theorem IsBroadcast.of_eq {s : Shp} {a r : Tensor K} (hf : Fits s a.sh) (h : r = bcast s a) : IsBroadcast s a r := by
  subst h
  exact ⟨hf, rfl, fun i hi => bcast_get hi (Fits.refl _) hf⟩

theorem IsKron.of_eq {S : Shp} {a b r : Tensor K} (ga : Good S a) (gb : Good S b) (h : r = kronT a b) : IsKron a b r := by
  subst h
  have hc : Compat a.bt b.bt := ga.fits.compat gb.fits
  refine ⟨hc, rfl, fun β i j k l hβ hi hj hk hl => ?_⟩
  have ga' : Good (kronT a b).bt a := ⟨ga.rank, by rw [kronT_bt]; exact hc.fits_left⟩
  have gb' : Good (kronT a b).bt b := ⟨gb.rank, by rw [kronT_bt]; exact hc.fits_right⟩
  have h1 : ∀ {x y m n : ℕ}, x < m → y < n → x * n + y < m * n := by
    intro x y m n hx hy
    calc x * n + y < x * n + n := by omega
      _ = (x + 1) * n := by ring
      _ ≤ m * n := Nat.mul_le_mul_right _ hx
  have := (Rep.kronT ga'.rep gb'.rep).at' β (i * b.rows + k) (j * b.cols + l) hβ (h1 hi hk) (h1 hj hl)
  rw [this]
  have e1 : ∀ {x y n : ℕ}, y < n → (x * n + y) / n = x ∧ (x * n + y) % n = y := by
    intro x y n hy
    constructor
    · rw [Nat.mul_comm, Nat.mul_add_div (by omega), Nat.div_eq_of_lt hy, Nat.add_zero]
    · rw [Nat.mul_comm, Nat.mul_add_mod, Nat.mod_eq_of_lt hy]
  rw [(e1 hk).1, (e1 hk).2, (e1 hl).1, (e1 hl).2]

theorem IsSumAxis.of_eq {k : ℕ} {a r : Tensor K} (hk : k < a.rank) (h : r = sumAx k a) : IsSumAxis k a r := by
  subst h
  exact ⟨hk, rfl, fun i hi => ofFn_get _ hi⟩

end Verif
