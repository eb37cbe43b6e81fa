/-
Findings about TiledBlocks: the operations that have no method for them, whatever the blocks; and a sum that does not warn.
-/
import Verif.Findings3
import Verif.Prog
import Verif.WarnDer

set_option linter.unusedSectionVars false

namespace Verif

variable {K : Type} [Field K] [LinearOrder K] [IsStrictOrderedRing K]

/-- The classes that a TiledBlocks matrix can be multiplied with, on either side: Zero, Diagonal, Constant and LowRank matrices and scalars have methods for every matrix. -/
def Mat.multipliesAny : Mat K → Bool
  | .zero .. | .diag .. | .const .. | .lr .. => true
  | _ => false

/-- C45, refuted for TiledBlocks of any blocks: no negative, no sum over all entries, no diagonal, no trace, no change of the batch dimensions; and no product with a Dense, triangular or
TiledBlocks matrix. -/
theorem C45_tiled_refuted (c : Cfg K) {n : ℕ} {blk : Fin n → Mat K} {reps : Fin n → ℕ} {axis : Int} :
    let a : Mat K := .tiled n blk reps axis
    Raises c (fun _ => negativeM a) .notFound ∧ Raises c (fun B => sumFull B a none) .notFound ∧ Raises c (fun B => B.diag a) .notFound ∧ Raises c (fun B => traceM B a) .notFound ∧
      (∀ s, Raises c (fun _ => broadcastBatchTo s a) .notFound) ∧
      ∀ (ta tb : Bool) (b : Mat K), b.Valid → b.isAM = true → b.multipliesAny = false → b.kind ≠ some .wb → b.kind ≠ some .kron →
        Raises c (fun B => B.matmul ta tb a b) .notFound ∧ Raises c (fun B => B.matmul ta tb b a) .notFound := by
  intro a
  refine ⟨⟨by decide, 0, rfl⟩, ⟨by decide, 0, rfl⟩, ⟨by decide, 3, rfl⟩, ⟨by decide, 3, rfl⟩, fun s => ⟨by decide, 0, rfl⟩, fun ta tb b hv hb hm hw hk => ?_⟩
  have num (m : ℕ) (t : Tensor K) (ht : 2 ≤ t.rank) : (ops c.code (m + 1)).matmul ta tb (.num t) (.tiled n blk reps axis) = .error .notFound := by
    show stepMatmul c.code (ops c.code m) ta tb (.num t) (.tiled n blk reps axis) = _
    have h0 : convertAM c.code (.num t) = mkDense t := by unfold convertAM; exact if_neg (by omega)
    simp only [stepMatmul, h0]
    rfl
  have lt (m : ℕ) (t : Tensor K) (ht : 2 ≤ t.rank) : (ops c.code (m + 2)).matmul ta tb (.lt t) (.tiled n blk reps axis) = .error .notFound := by
    have e : (ops c.code (m + 2)).matmul ta tb (.lt t) (.tiled n blk reps axis) = stepMatmul c.code (ops c.code (m + 1)) ta tb (.lt t) (.tiled n blk reps axis) := rfl
    rw [e]
    simp only [stepMatmul, convertAM, Mat.kind, mmId, mmRun]
    exact num m t ht
  have ut (m : ℕ) (t : Tensor K) (ht : 2 ≤ t.rank) : (ops c.code (m + 2)).matmul ta tb (.ut t) (.tiled n blk reps axis) = .error .notFound := by
    have e : (ops c.code (m + 2)).matmul ta tb (.ut t) (.tiled n blk reps axis) = stepMatmul c.code (ops c.code (m + 1)) ta tb (.ut t) (.tiled n blk reps axis) := rfl
    rw [e]
    simp only [stepMatmul, convertAM, Mat.kind, mmId, mmRun]
    exact num m t ht
  have num' (m : ℕ) (t : Tensor K) (ht : 2 ≤ t.rank) : (ops c.code (m + 1)).matmul ta tb (.tiled n blk reps axis) (.num t) = .error .notFound := by
    show stepMatmul c.code (ops c.code m) ta tb (.tiled n blk reps axis) (.num t) = _
    have h0 : convertAM c.code (.num t) = mkDense t := by unfold convertAM; exact if_neg (by omega)
    simp only [stepMatmul, h0]
    rfl
  have lt' (m : ℕ) (t : Tensor K) (ht : 2 ≤ t.rank) : (ops c.code (m + 2)).matmul ta tb (.tiled n blk reps axis) (.lt t) = .error .notFound := by
    have e : (ops c.code (m + 2)).matmul ta tb (.tiled n blk reps axis) (.lt t) = stepMatmul c.code (ops c.code (m + 1)) ta tb (.tiled n blk reps axis) (.lt t) := rfl
    rw [e]
    simp only [stepMatmul, convertAM, Mat.kind, mmId, mmRun]
    exact num' m t ht
  have ut' (m : ℕ) (t : Tensor K) (ht : 2 ≤ t.rank) : (ops c.code (m + 2)).matmul ta tb (.tiled n blk reps axis) (.ut t) = .error .notFound := by
    have e : (ops c.code (m + 2)).matmul ta tb (.tiled n blk reps axis) (.ut t) = stepMatmul c.code (ops c.code (m + 1)) ta tb (.tiled n blk reps axis) (.ut t) := rfl
    rw [e]
    simp only [stepMatmul, convertAM, Mat.kind, mmId, mmRun]
    exact num' m t ht
  obtain ⟨S, hv⟩ := hv
  cases b with
  | lt t => exact ⟨⟨by decide, 2, lt' 0 t hv.1⟩, ⟨by decide, 2, lt 0 t hv.1⟩⟩
  | ut t => exact ⟨⟨by decide, 2, ut' 0 t hv.1⟩, ⟨by decide, 2, ut 0 t hv.1⟩⟩
  | dense t => exact ⟨⟨by decide, 3, rfl⟩, ⟨by decide, 3, rfl⟩⟩
  | tiled => exact ⟨⟨by decide, 3, rfl⟩, ⟨by decide, 3, rfl⟩⟩
  | num t => simp only [Mat.isAM, Bool.false_eq_true] at hb
  | wb => exact absurd rfl hw
  | kron => exact absurd rfl hk
  | _ => simp only [Mat.multipliesAny, reduceCtorEq] at hm

/-- The hypotheses are met. -/
example : Raises Ex.cfg (fun B => B.matmul false false Ex.T Ex.L) .notFound :=
  ((C45_tiled_refuted Ex.cfg).2.2.2.2.2 false false Ex.L ⟨[], Ex.L_wf _⟩ rfl rfl (by decide) (by decide)).1

/-- Finding.  The sum of a batch of triangular matrices over the batch axis is an array, without a warning (the sum of LowRank matrices over a batch axis warns, `C54_sum`). -/
theorem C54_sum_triangular_silent : ∃ a r : Mat ℚ, a.Valid ∧ a.structured = true ∧ Quiet Ex.cfg (fun B => wSum B a (some 0)) r ∧ r.isAM = false := by
  let a : Mat ℚ := .lt (Ex.bm 2 2 2 [1, 0, 2, 3, 4, 0, 5, 6])
  refine ⟨a, .num (match sumBatchM (Ops.bot) 3 2 a with | .ok (.num t) => t | _ => scalarT 0), ?_, rfl, ⟨0, rfl⟩, rfl⟩
  refine ⟨[2], by decide, Fits.refl _, rfl, ?_⟩
  intro β i j hβ hi hj hij
  have hi : i < 2 := hi
  have hj : j < 2 := hj
  obtain rfl : i = 0 := by omega
  obtain rfl : j = 1 := by omega
  have hb : β 0 < 2 := hβ 0
  have hr : InRange [2, 2, 2] (icons 1 (icons 0 β)) := by
    rw [inRange_cons]; refine ⟨hj, ?_⟩; rw [inRange_cons]; exact ⟨hi, hβ⟩
  rw [Tensor.at', Ex.bm, ofFn_get _ hr]
  show ([1, 0, 2, 3, 4, 0, 5, 6] : List ℚ).getD ((β 0 * 2 + 0) * 2 + 1) 0 = 0
  obtain h | h : β 0 = 0 ∨ β 0 = 1 := by omega
  all_goals rw [h]; rfl
end Verif
