/-
Success of linear algebra (C50), part 2: positive-definite matrices.
-/
import Mathlib.LinearAlgebra.Matrix.ToLinearEquiv
import Verif.LinFine

set_option linter.unusedSectionVars false

open Matrix

namespace Verif

variable {K : Type} [Field K] [LinearOrder K] [IsStrictOrderedRing K] {n k : ℕ}

/-- A positive-definite matrix. -/
def PD (A : Matrix (Fin n) (Fin n) K) : Prop := Aᵀ = A ∧ ∀ x : Fin n → K, x ≠ 0 → 0 < x ⬝ᵥ (A *ᵥ x)

theorem PD.inv_exists {A : Matrix (Fin n) (Fin n) K} (h : PD A) : ∃ R, A * R = 1 := by
  have hd : A.det ≠ 0 := by
    intro h0
    obtain ⟨v, hv, e⟩ := Matrix.exists_mulVec_eq_zero_iff.2 h0
    have := h.2 v hv
    rw [e, dotProduct_zero] at this
    exact lt_irrefl _ this
  exact ⟨A⁻¹, Matrix.mul_nonsing_inv _ (isUnit_iff_ne_zero.2 hd)⟩

theorem PD.inv {A R : Matrix (Fin n) (Fin n) K} (h : PD A) (e : A * R = 1) : PD R := by
  refine ⟨IsInverse.symm e h.1, fun x hx => ?_⟩
  have hy : R *ᵥ x ≠ 0 := by
    intro h0
    apply hx
    have := congrArg (A *ᵥ ·) h0
    simpa [Matrix.mulVec_mulVec, e] using this
  have := h.2 _ hy
  rw [Matrix.mulVec_mulVec, e, Matrix.one_mulVec] at this
  rwa [dotProduct_comm] at this

theorem quad_cong (D : Matrix (Fin n) (Fin n) K) (L : Matrix (Fin n) (Fin k) K) (x : Fin k → K) : x ⬝ᵥ ((Lᵀ * D * L) *ᵥ x) = (L *ᵥ x) ⬝ᵥ (D *ᵥ (L *ᵥ x)) := by
  rw [← Matrix.mulVec_mulVec, ← Matrix.mulVec_mulVec, Matrix.dotProduct_mulVec, Matrix.vecMul_transpose]

theorem PD.nonneg {A : Matrix (Fin n) (Fin n) K} (h : PD A) (x : Fin n → K) : 0 ≤ x ⬝ᵥ (A *ᵥ x) := by
  by_cases hx : x = 0
  · subst hx; simp
  · exact (h.2 x hx).le

theorem PD.add_cong {D : Matrix (Fin n) (Fin n) K} {M : Matrix (Fin k) (Fin k) K} (L : Matrix (Fin n) (Fin k) K) (hM : PD M) (hD : PD D) : PD (M + Lᵀ * D * L) := by
  refine ⟨?_, fun x hx => ?_⟩
  · rw [Matrix.transpose_add, hM.1, Matrix.transpose_mul, Matrix.transpose_mul, Matrix.transpose_transpose, hD.1, Matrix.mul_assoc]
  · rw [Matrix.add_mulVec, dotProduct_add, quad_cong]
    have := hM.2 x hx
    have := hD.nonneg (L *ᵥ x)
    linarith

theorem exists_ext {n : ℕ} (x : Fin n → K) : ∃ y : ℕ → K, ∀ i : Fin n, y i = x i :=
  ⟨fun i => if h : i < n then x ⟨i, h⟩ else 0, fun i => by simp⟩

theorem quad_sum {n : ℕ} (A : Matrix (Fin n) (Fin n) K) (f : ℕ → ℕ → K) (y : ℕ → K) (h : ∀ i j : Fin n, f i j = A i j) :
    ∑ i ∈ Finset.range n, ∑ j ∈ Finset.range n, y i * f i j * y j = (fun i : Fin n => y i) ⬝ᵥ (A *ᵥ fun i : Fin n => y i) := by
  rw [Finset.sum_range, dotProduct]
  refine Finset.sum_congr rfl fun i _ => ?_
  rw [Finset.sum_range, Matrix.mulVec, dotProduct, Finset.mul_sum]
  refine Finset.sum_congr rfl fun j _ => ?_
  rw [h, mul_assoc]

/-- Positive definiteness, one batch element at a time. -/
theorem posDef_iff {S : Shp} (h0 : 0 ∉ S) {n : ℕ} {a : Tensor K} {A} (ha : MRep S n n a A) : IsPosDef a ↔ ∀ β, InRange S β → PD (A β) := by
  have hr := ha.rows
  constructor
  · intro h β hβ
    refine ⟨?_, fun x hx => ?_⟩
    · subst hr
      obtain ⟨A', H⟩ := h.symm.mrep ha.good
      rw [ha.unique A' hβ]
      exact H β hβ
    · obtain ⟨y, hy⟩ := exists_ext x
      have hc := inRange_clip β (ha.bt.pos hβ.pos)
      obtain ⟨i, hi⟩ : ∃ i, x i ≠ 0 := by
        by_contra hh
        push Not at hh
        exact hx (funext hh)
      have := h.pos _ y hc ⟨i, by rw [hr]; exact i.2, by rw [hy]; exact hi⟩
      rw [hr, quad_sum (A β) _ y fun i j => by rw [Tensor.at'_clip (Fits.refl _), ha.at' β i j hβ]] at this
      simpa only [hy] using this
  · intro h
    have hS : ∀ β, InRange a.bt β → InRange S β := fun β hβ => inRange_of_fits h0 ha.bt hβ
    have ha' : MRep a.bt n n a A := ⟨ha.rank, ha.rows, ha.cols, Fits.refl _, fun β i j hβ => ha.at' β i j (hS β hβ)⟩
    refine ⟨IsSymm.of_mrep ha' fun β hβ => (h β (hS β hβ)).1, fun β y hβ ⟨i, hi, hne⟩ => ?_⟩
    rw [hr] at hi ⊢
    rw [quad_sum (A β) _ y fun i j => ha.at' β i j (hS β hβ)]
    refine (h β (hS β hβ)).2 _ fun e => hne ?_
    have := congrFun e ⟨i, hi⟩
    exact this

theorem IsPosDef.rank {a : Tensor K} (h : IsPosDef a) : 2 ≤ a.rank := h.symm.1
theorem IsPosDef.square {a : Tensor K} (h : IsPosDef a) : a.rows = a.cols := h.symm.2.1

theorem IsPosDef.mrep {S : Shp} {a : Tensor K} (h : IsPosDef a) (h0 : 0 ∉ S) (g : Good S a) {n : ℕ} (hn : a.rows = n) :
    MRep S n n a (fun β => mxOf a β n n) ∧ ∀ β, InRange S β → PD (mxOf a β n n) := by
  have := MRep.of g hn (h.square.symm.trans hn)
  exact ⟨this, (posDef_iff h0 this).1 h⟩

/-- Positive-definite matrices are invertible. -/
theorem IsPosDef.invertible {a : Tensor K} (h0 : 0 ∉ a.bt) (h : IsPosDef a) : a.Invertible := by
  obtain ⟨m, p⟩ := h.mrep h0 ⟨h.rank, Fits.refl _⟩ rfl
  exact (invertible_iff h0 m).2 fun β hβ => (p β hβ).inv_exists

end Verif
