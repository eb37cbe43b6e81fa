/-
Batches of matrices as families of Mathlib matrices.
-/
import Verif.TensorAlg
import Mathlib.LinearAlgebra.Matrix.NonsingularInverse
import Mathlib.LinearAlgebra.Matrix.Kronecker

namespace Verif
open Matrix

variable {K : Type}

/-- Batch element `β` of `t` as an `r × c` matrix. -/
def mxOf [Zero K] (t : Tensor K) (β : Idx) (r c : ℕ) : Matrix (Fin r) (Fin c) K := Matrix.of fun i j => t.at' β i j

/-- `t` is a batch of `r × c` matrices, whose element `β` (over the batch universe `S`) is `F β`. -/
structure MRep [Zero K] (S : Shp) (r c : ℕ) (t : Tensor K) (F : Idx → Matrix (Fin r) (Fin c) K) : Prop where
  rank : 2 ≤ t.rank
  rows : t.rows = r
  cols : t.cols = c
  bt : Fits S t.bt
  at' : ∀ β (i : Fin r) (j : Fin c), InRange S β → t.at' β i j = F β i j

variable {S : Shp} {r c k r' c' : ℕ}

theorem MRep.good [Zero K] {t : Tensor K} {F} (h : MRep S r c t F) : Good S t := ⟨h.rank, h.bt⟩

theorem MRep.of [Zero K] {t : Tensor K} (g : Good S t) (hr : t.rows = r) (hc : t.cols = c) : MRep S r c t fun β => mxOf t β r c :=
  ⟨g.rank, hr, hc, g.fits, fun _ _ _ _ => rfl⟩

theorem MRep.self [Zero K] {t : Tensor K} (g : Good S t) : MRep S t.rows t.cols t fun β => mxOf t β t.rows t.cols := MRep.of g rfl rfl

theorem MRep.rep [Zero K] {t : Tensor K} {F} (h : MRep S r c t F) : Rep S r c t t.at' := Rep.self' h.rank h.rows h.cols h.bt

theorem MRep.mk' [Zero K] {t : Tensor K} {F f} (h : Rep S r c t f) (e : ∀ β (i : Fin r) (j : Fin c), InRange S β → f β i j = F β i j) : MRep S r c t F :=
  ⟨h.rank, h.rows, h.cols, h.bt, fun β i j hβ => by rw [h.at' β i j hβ i.2 j.2, e β i j hβ]⟩

theorem MRep.congr [Zero K] {t : Tensor K} {F G} (h : MRep S r c t F) (e : ∀ β, InRange S β → F β = G β) : MRep S r c t G :=
  ⟨h.rank, h.rows, h.cols, h.bt, fun β i j hβ => by rw [h.at' β i j hβ, e β hβ]⟩

theorem MRep.unique [Zero K] {t : Tensor K} {F G} (h : MRep S r c t F) (h' : MRep S r c t G) {β : Idx} (hβ : InRange S β) : F β = G β := by
  ext i j
  rw [← h.at' β i j hβ, ← h'.at' β i j hβ]

theorem MRep.mxOf [Zero K] {t : Tensor K} {F} (h : MRep S r c t F) {β : Idx} (hβ : InRange S β) : mxOf t β r c = F β := by
  ext i j
  exact h.at' β i j hβ

theorem MRep.ext [Zero K] {a b : Tensor K} {F G} (ha : MRep a.bt r c a F) (hb : MRep a.bt r c b G) (hbt : a.bt = b.bt)
    (e : ∀ β, InRange a.bt β → F β = G β) : a = b :=
  Rep.ext ha.rep hb.rep hbt fun β i j hβ hi hj => by
    have h1 := ha.at' β ⟨i, hi⟩ ⟨j, hj⟩ hβ
    have h2 := hb.at' β ⟨i, hi⟩ ⟨j, hj⟩ hβ
    simp only at h1 h2
    rw [h1, h2, e β hβ]

section ring
variable [CommRing K] {a b : Tensor K}

theorem MRep.mm {F : Idx → Matrix (Fin r) (Fin k) K} {G : Idx → Matrix (Fin k) (Fin c) K} (ha : MRep S r k a F) (hb : MRep S k c b G) :
    MRep S r c (mm a b) fun β => F β * G β :=
  MRep.mk' (Rep.mm ha.rep hb.rep) fun β i j hβ => by
    rw [Matrix.mul_apply, Finset.sum_range]
    exact Finset.sum_congr rfl fun x _ => by rw [ha.at' β i x hβ, hb.at' β x j hβ]

theorem MRep.tr {F : Idx → Matrix (Fin r) (Fin c) K} (ha : MRep S r c a F) : MRep S c r (tr a) fun β => (F β)ᵀ :=
  MRep.mk' (Rep.tr ha.rep) fun β i j hβ => by rw [Matrix.transpose_apply, ha.at' β j i hβ]

theorem MRep.add {F G : Idx → Matrix (Fin r) (Fin c) K} (ha : MRep S r c a F) (hb : MRep S r c b G) :
    MRep S r c (zipB (· + ·) a b) fun β => F β + G β :=
  MRep.mk' (Rep.zipB _ ha.rep hb.rep) fun β i j hβ => by rw [Matrix.add_apply, ha.at' β i j hβ, hb.at' β i j hβ]

theorem MRep.sub {F G : Idx → Matrix (Fin r) (Fin c) K} (ha : MRep S r c a F) (hb : MRep S r c b G) :
    MRep S r c (zipB (· - ·) a b) fun β => F β - G β :=
  MRep.mk' (Rep.zipB _ ha.rep hb.rep) fun β i j hβ => by rw [Matrix.sub_apply, ha.at' β i j hβ, hb.at' β i j hβ]

theorem MRep.diagC {v : Tensor K} (gv : GoodV S v) : MRep S v.cols v.cols (diagC v) fun β => Matrix.diagonal fun i => v.vat β i :=
  MRep.mk' (Rep.diagC (VRep.self gv.rank gv.fits)) fun β i j hβ => by
    by_cases e : i = j
    · simp [e]
    · have : (i : ℕ) ≠ j := fun h => e (Fin.ext h)
      simp [e, this]

/-- Kronecker product with row-major indices. -/
def kronMx (A : Matrix (Fin r) (Fin c) K) (B : Matrix (Fin r') (Fin c') K) : Matrix (Fin (r * r')) (Fin (c * c')) K :=
  (kroneckerMap (· * ·) A B).reindex finProdFinEquiv finProdFinEquiv

theorem kronMx_mul {k k' : ℕ} (A : Matrix (Fin r) (Fin k) K) (B : Matrix (Fin r') (Fin k') K) (C : Matrix (Fin k) (Fin c) K) (D : Matrix (Fin k') (Fin c') K) :
    kronMx A B * kronMx C D = kronMx (A * C) (B * D) := by
  unfold kronMx
  simp only [Matrix.reindex_apply]
  rw [Matrix.submatrix_mul_equiv]
  congr 1
  exact (Matrix.mul_kronecker_mul A C B D).symm

theorem kronMx_one : kronMx (1 : Matrix (Fin r) (Fin r) K) (1 : Matrix (Fin r') (Fin r') K) = 1 := by
  unfold kronMx
  rw [Matrix.reindex_apply]
  erw [Matrix.one_kronecker_one]
  exact Matrix.submatrix_one_equiv _

theorem kronMx_transpose (A : Matrix (Fin r) (Fin c) K) (B : Matrix (Fin r') (Fin c') K) : (kronMx A B)ᵀ = kronMx Aᵀ Bᵀ := by
  unfold kronMx
  rw [Matrix.transpose_reindex, Matrix.kroneckerMap_transpose]

theorem kronMx_det (A : Matrix (Fin r) (Fin r) K) (B : Matrix (Fin c) (Fin c) K) : (kronMx A B).det = A.det ^ c * B.det ^ r := by
  unfold kronMx
  rw [Matrix.det_reindex_self]
  erw [Matrix.det_kronecker]
  simp

theorem MRep.kron {F : Idx → Matrix (Fin r) (Fin c) K} {G : Idx → Matrix (Fin r') (Fin c') K} (ha : MRep S r c a F) (hb : MRep S r' c' b G) :
    MRep S (r * r') (c * c') (kronT a b) fun β => kronMx (F β) (G β) :=
  MRep.mk' (Rep.kronT ha.rep hb.rep) fun β i j hβ => by
    have h1 := ha.at' β (i.divNat) (j.divNat) hβ
    have h2 := hb.at' β (i.modNat) (j.modNat) hβ
    simp only [kronMx, Matrix.reindex_apply, Matrix.submatrix_apply, Matrix.kroneckerMap_apply]
    show _ = F β i.divNat j.divNat * G β i.modNat j.modNat
    rw [← h1, ← h2]
    rfl

theorem MRep.bcast {bt : Shp} {F : Idx → Matrix (Fin r) (Fin c) K} (h : Fits S bt) (ha : MRep S r c a F) (hf : Fits bt a.bt) :
    MRep S r c (bcast (c :: r :: bt) a) F :=
  MRep.mk' (Rep.bcast h (Fits.mat ha.rank ha.rows ha.cols hf) ha.rep.frep) fun β i j hβ => ha.at' β i j hβ

theorem MRep.mono {S' : Shp} {F : Idx → Matrix (Fin r) (Fin c) K} (ha : MRep S r c a F) (hS : Fits S' S) :
    MRep S' r c a fun β => F (clip S β) := by
  refine ⟨ha.rank, ha.rows, ha.cols, hS.trans ha.bt, fun β i j hβ => ?_⟩
  rw [← ha.at' _ i j (inRange_clip β (hS.pos hβ.pos)), Tensor.at'_clip ha.bt]

end ring

end Verif
