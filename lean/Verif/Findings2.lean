/-
More findings: restrictions of the theorems that cannot be dropped.
-/
import Verif.Findings
import Verif.Elt
import Verif.Kron
import Verif.Sum

set_option linter.unusedSectionVars false

namespace Verif

/-- A `2 × 2` Constant matrix times a `1 × 1` Diagonal matrix: the product is not broadcast to the shape of the Constant matrix. -/
theorem C02_stretch_refuted : ∃ a b r : Mat ℚ, a.Valid ∧ b.Valid ∧ Compat (den a).sh (den b).sh ∧ Exact Ex.cfg (fun B => B.mul a b) ∧
    Returns Ex.cfg (fun B => B.mul a b) r ∧ ¬ IsEltwise (· * ·) (den a) (den b) (den r) := by
  let a : Mat ℚ := .const (scalarT 2) 2 2
  let b : Mat ℚ := .diag (Ex.v [3])
  obtain ⟨r, hr, hP⟩ := Ex.of_holds (P := fun r => decide ((den r).sh = [1, 1])) (f := fun B => B.mul a b) (n := 6) (by decide +kernel)
  obtain ⟨_, _, hx⟩ := Ex.meets (Calls.mul a b) (n := 6) (by decide +kernel)
  refine ⟨a, b, r, ⟨[], Fits.nil _⟩, ⟨[], by decide, Fits.nil _⟩, by decide, hx, hr, fun h => ?_⟩
  have e2 : (den r).sh = [2, 2] := by rw [h.eq]; decide
  simp [e2] at hP

/-- The sum of a `2 × 2` Diagonal and a `1 × 1` LowRank matrix (which stands for the `2 × 2` matrix of its entry) has the right entries,
but `B.sum` of it has not. -/
theorem C12_stretch_refuted : ∃ (a b r : Mat ℚ) (t : Tensor ℚ), a.Valid ∧ b.Valid ∧ Compat (den a).sh (den b).sh ∧ Exact Ex.cfg (fun B => B.add a b) ∧
    Returns Ex.cfg (fun B => B.add a b) r ∧ IsEltwise (· + ·) (den a) (den b) (den r) ∧ Exact Ex.cfg (fun B => B.sumM 0 r) ∧ Returns Ex.cfg (fun B => B.sumM 0 r) t ∧
    ¬ IsSumAxis 0 (den r) t := by
  let d := Ex.v [1, 2]
  let l : Mat ℚ := .num (Ex.m 1 1 [3])
  let o : Mat ℚ := .num (Ex.m 1 1 [1])
  let r : Mat ℚ := .wb d l l o
  have hr : Returns Ex.cfg (fun B => B.add (.diag d) (.lr l l o)) r := ⟨3, rfl⟩
  obtain ⟨_, _, hx⟩ := Ex.meets (Calls.add (.diag d) (.lr l l o)) (n := 4) (by decide +kernel)
  obtain ⟨t, ht, hP⟩ := Ex.of_holds (P := fun t : Tensor ℚ => decide (t.get Ex.o ≠ 19)) (f := fun B => B.sumM 0 r) (n := 6) (by decide +kernel)
  obtain ⟨_, _, hx'⟩ := Ex.meets (Calls.sumM 0 r) (n := 6) (by decide +kernel)
  have w1 : ∀ x : ℚ, Mat.WF [] (.num (Ex.m 1 1 [x])) := fun x => ⟨by simp [Ex.m, Tensor.rank, ofFn], Fits.nil _⟩
  refine ⟨.diag d, .lr l l o, r, t, ⟨[], by decide, Fits.nil _⟩, ⟨[], ⟨w1 _, w1 _, w1 _⟩, ⟨le_refl _, le_refl _, le_refl _⟩, rfl, rfl⟩, by decide, hx, hr,
    IsEltwise.of_eq (by decide) rfl, hx', ht, fun h => ?_⟩
  simp only [decide_eq_true_eq] at hP
  refine hP ?_
  rw [h.entries Ex.o (by rw [h.shape, show (den r).sh = [2, 2] by decide +kernel]; intro k; rcases k with _ | k <;> simp [Ex.o])]
  decide +kernel

/-- `B.sqrt` of a Kronecker product takes the roots of the factors, which need not exist: `(-4) ⊗ (-9) = 36`. -/
theorem C34_sqrt_kron_refuted : ∃ a : Mat ℚ, a.Valid ∧ (∀ i, InRange (den a).sh i → (Ex.lin.sqrt ((den a).get i)).isSome = true) ∧ (∃ t, Returns Ex.cfg (fun B => B.dense a) t) ∧
    ∀ r, ¬ Returns Ex.cfg (fun B => sqrtM Ex.lin B a) r := by
  let a : Mat ℚ := .kron (.diag (Ex.v [-4])) (.diag (Ex.v [-9]))
  obtain ⟨t, ht, _⟩ := Ex.of_holds (P := fun _ => true) (f := fun B => B.dense a) (n := 6) (by decide +kernel)
  refine ⟨a, ⟨[], ⟨⟨by decide, Fits.nil _⟩, ⟨by decide, Fits.nil _⟩⟩, le_refl _, le_refl _⟩, ?_, ⟨t, ht⟩, ?_⟩
  · intro i hi
    have e : (den a).sh = [1, 1] := by decide +kernel
    have h1 : (den a).get i = (den a).get Ex.o := by
      refine Tensor.get_congr _ fun k => ?_
      rw [e]
      rcases k with _ | _ | k <;> simp [clip, Ex.o]
    rw [h1]
    decide +kernel
  · rintro r ⟨n, h⟩
    obtain ⟨x, hx, h⟩ := bind_ok_iff.1 h
    obtain ⟨y, hy, hx⟩ := bind_ok_iff.1 hx
    have : Ex.holds (fun _ => true) (nSqrt Ex.lin (Ex.v [-4])) = false := by decide +kernel
    rw [hy] at this
    cases this

/-- `B.kron` does not compare batches: of a batch of two and a batch of three it returns a matrix that has no dense form. -/
theorem C18_batch_unchecked : ∃ a b r : Mat ℚ, a.Valid ∧ b.Valid ∧ ¬ BatchCompat a b ∧ kronM Ex.cfg.code a b = .ok r ∧ ∀ t, ¬ Returns Ex.cfg (fun B => B.dense r) t := by
  let a : Mat ℚ := .dense (Ex.bm 2 1 1 [1, 2])
  let b : Mat ℚ := .dense (Ex.bm 3 1 1 [1, 2, 3])
  refine ⟨a, b, .kron a b, ⟨[2], by decide, Fits.refl _⟩, ⟨[3], by decide, Fits.refl _⟩, fun h => by have := h 0; revert this; decide, rfl, ?_⟩
  rintro t ⟨n, h⟩
  cases n with
  | zero => cases h
  | succ n =>
    obtain ⟨p, hp, h⟩ := bind_ok_iff.1 h
    have : Ex.holds (fun _ => true) (alignBatch2 a b) = false := by decide +kernel
    rw [hp] at this
    cases this

end Verif
