/-
Findings about operands that the properties exclude: incompatible batches that go unnoticed, and arrays of rank one.
-/
import Verif.Findings2
import Verif.Reject

set_option linter.unusedSectionVars false

namespace Verif

/-- `B.dense` raises an exception, for these bounds of the recursion. -/
def Ex.denseFails (r : Mat ℚ) : Bool :=
  match (ops Ex.cfg.code 8).dense r with
  | .error e => decide e.real
  | .ok _ => false

theorem Ex.denseFails_raises {r : Mat ℚ} (h : Ex.denseFails r = true) : ∃ e, Raises Ex.cfg (fun B => B.dense r) e := by
  unfold Ex.denseFails at h
  cases hd : (ops Ex.cfg.code 8).dense r with
  | ok t => rw [hd] at h; cases h
  | error e =>
    rw [hd] at h
    exact ⟨e, by simpa using h, 8, hd⟩

/-- A LowRank matrix with a batch of two left factors times a batch of three matrices: the product is not rejected, and `B.dense` of it raises. -/
theorem C40_matmul_lowrank_unchecked : ∃ a b r : Mat ℚ, a.Valid ∧ b.Valid ∧ ¬ BatchCompat a b ∧ Returns Ex.cfg (fun B => B.matmul false false a b) r ∧
    ∃ e, Raises Ex.cfg (fun B => B.dense r) e := by
  let a : Mat ℚ := .lr (.num (Ex.bm 2 2 1 [1, 2, 3, 4])) (.num (Ex.m 2 1 [1, 2])) (.num (Ex.m 1 1 [1]))
  let b : Mat ℚ := .dense (Ex.bm 3 2 2 [1, 2, 3, 4, 5, 6, 7, 8, 9, 10, 11, 12])
  obtain ⟨r, hr, hP⟩ := Ex.of_holds (P := Ex.denseFails) (f := fun B => B.matmul false false a b) (n := 6) (by decide +kernel)
  have w : ∀ l : List ℚ, ∀ r c : ℕ, (Mat.num (Ex.m r c l)).WF [2] := fun l r c => ⟨by simp [Ex.m, Tensor.rank], Fits.nil _⟩
  exact ⟨a, b, r, ⟨[2], ⟨⟨by decide, Fits.refl _⟩, w _ _ _, w _ _ _⟩, by decide, by decide, by decide⟩, ⟨[3], by decide, Fits.refl _⟩,
    (by decide : ¬ Compat [2] [3]), hr, Ex.denseFails_raises hP⟩

/-- A batch of two Constant matrices times a batch of three matrices. -/
theorem C40_matmul_constant_unchecked : ∃ a b r : Mat ℚ, a.Valid ∧ b.Valid ∧ ¬ BatchCompat a b ∧ Returns Ex.cfg (fun B => B.matmul false false a b) r ∧
    ∃ e, Raises Ex.cfg (fun B => B.dense r) e := by
  let a : Mat ℚ := .const (Ex.v [1, 2]) 2 2
  let b : Mat ℚ := .diag (Ex.bv 3 2 [1, 2, 3, 4, 5, 6])
  obtain ⟨r, hr, hP⟩ := Ex.of_holds (P := Ex.denseFails) (f := fun B => B.matmul false false a b) (n := 6) (by decide +kernel)
  exact ⟨a, b, r, ⟨[2], Fits.refl _⟩, ⟨[3], by decide, Fits.refl _⟩, (by decide : ¬ Compat [2] [3]), hr, Ex.denseFails_raises hP⟩

/-- The product of two Kronecker products whose batches are incompatible, but compatible factor by factor. -/
theorem C40_matmul_kron_unchecked : ∃ a b r : Mat ℚ, a.Valid ∧ b.Valid ∧ ¬ BatchCompat a b ∧ Returns Ex.cfg (fun B => B.matmul false false a b) r ∧
    ∃ e, Raises Ex.cfg (fun B => B.dense r) e := by
  let a : Mat ℚ := .kron (.diag (Ex.bv 2 2 [1, 2, 3, 4])) (.diag (Ex.v [5, 6]))
  let b : Mat ℚ := .kron (.diag (Ex.v [5, 6])) (.diag (Ex.bv 3 2 [1, 2, 3, 4, 5, 6]))
  obtain ⟨r, hr, hP⟩ := Ex.of_holds (P := Ex.denseFails) (f := fun B => B.matmul false false a b) (n := 6) (by decide +kernel)
  exact ⟨a, b, r, ⟨[2], ⟨⟨by decide, Fits.refl _⟩, by decide, Fits.nil _⟩, by decide, by decide⟩, ⟨[3], ⟨⟨by decide, Fits.nil _⟩, by decide, Fits.refl _⟩, by decide, by decide⟩,
    (by decide : ¬ Compat [2] [3]), hr, Ex.denseFails_raises hP⟩

/-- An array of rank one is a column, not a row as in numpy: a Dense matrix plus the vector (10, 20). -/
theorem C01_vector_refuted : ∃ (a : Mat ℚ) (t : Tensor ℚ) (r : Mat ℚ), a.Valid ∧ t.rank = 1 ∧ Compat (den a).sh t.sh ∧ Returns Ex.cfg (fun B => B.add a (.num t)) r ∧
    ¬ IsEltwise (· + ·) (den a) t (den r) := by
  let a : Mat ℚ := .dense (Ex.m 2 2 [1, 2, 3, 4])
  let t : Tensor ℚ := Ex.v [10, 20]
  obtain ⟨r, hr, hP⟩ := Ex.of_holds (P := fun r : Mat ℚ => decide ((den r).sh = [2, 2] ∧ (den r).get (fun k => if k = 0 then 1 else 0) = 12)) (f := fun B => B.add a (.num t)) (n := 6)
    (by decide +kernel)
  refine ⟨a, t, r, ⟨[], by decide, Fits.nil _⟩, rfl, by decide, hr, fun h => ?_⟩
  simp only [decide_eq_true_eq] at hP
  have x := h.entries (fun k => if k = 0 then 1 else 0) (by rw [hP.1]; intro k; rcases k with _ | _ | k <;> simp [dim])
  rw [hP.2] at x
  have y : (den a).get (fun k => if k = 0 then 1 else 0) + t.get (fun k => if k = 0 then 1 else 0) = 22 := by decide +kernel
  rw [y] at x
  norm_num at x

end Verif
