/-
Concrete matrices over the rationals, used to show that the hypotheses of the property theorems are met.
-/
import Verif.SpecOps
import Mathlib.Tactic.IntervalCases
import Mathlib.Tactic.FinCases
import Mathlib.Tactic.NormNum

namespace Verif.Ex
open Verif

/-- The code's configuration: all rank-0 values are numbers, tolerance 1e-10. -/
def cfg : Cfg ℚ := ⟨fun _ => true, 1 / 10^10⟩

/-- Did a run return? -/
def isOk {α : Type} : E α → Bool
  | .ok _ => true
  | .error _ => false

theorem exists_of_isOk {α : Type} {x : E α} (h : isOk x = true) : ∃ r, x = .ok r := by
  cases x with
  | ok r => exact ⟨r, rfl⟩
  | error e => simp [isOk] at h

/-- A call that returns under the strict tests returns in the code, exactly. -/
theorem meets {α : Type} {f : Ops ℚ → E α} (hf : Calls f) {n : ℕ} (h : isOk (f (ops cfg.strict n)) = true) :
    ∃ r, Returns cfg f r ∧ Exact cfg f := by
  obtain ⟨r, hr⟩ := exists_of_isOk h
  exact ⟨r, Returns.of_strict hf hr, Exact.of_ok hf hr⟩

/-- The class of the result of a run. -/
def kindOf (x : E (Mat ℚ)) : Option Kind :=
  match x with
  | .ok r => r.kind
  | .error _ => none

theorem kindIs {f : Ops ℚ → E (Mat ℚ)} {k : Kind} {n : ℕ} (h : kindOf (f (ops cfg.code n)) = some k) :
    ∃ r, Returns cfg f r ∧ r.kind = some k := by
  cases e : f (ops cfg.code n) with
  | ok r => rw [e] at h; exact ⟨r, ⟨n, e⟩, h⟩
  | error x => rw [e] at h; simp [kindOf] at h

/-- A vector from a list. -/
def v (l : List ℚ) : Tensor ℚ := ofFn [l.length] fun i => l.getD (i 0) 0
/-- A matrix from its rows, row-major. -/
def m (r c : ℕ) (l : List ℚ) : Tensor ℚ := ofFn [c, r] fun i => l.getD (i 1 * c + i 0) 0
/-- A batch of matrices. -/
def bm (b r c : ℕ) (l : List ℚ) : Tensor ℚ := ofFn [c, r, b] fun i => l.getD ((i 2 * r + i 1) * c + i 0) 0
/-- A batch of vectors. -/
def bv (b n : ℕ) (l : List ℚ) : Tensor ℚ := ofFn [n, b] fun i => l.getD (i 1 * n + i 0) 0

/-- A lower-triangular matrix: check the finitely many entries above the diagonal. -/
theorem lowerTri_m {n : ℕ} {l : List ℚ} (h : ∀ i < n, ∀ j < n, i < j → l.getD (i * n + j) 0 = 0) : LowerTri (m n n l) := by
  intro β i j hβ hi hj hij
  have hi' : i < n := hi
  have hj' : j < n := hj
  have : InRange [n, n] (icons j (icons i β)) := by
    rw [inRange_cons]; refine ⟨hj', ?_⟩; rw [inRange_cons]; exact ⟨hi', hβ⟩
  rw [Tensor.at', m, ofFn_get _ this]
  exact h i hi' j hj' hij

theorem upperTri_m {n : ℕ} {l : List ℚ} (h : ∀ i < n, ∀ j < n, j < i → l.getD (i * n + j) 0 = 0) : UpperTri (m n n l) := by
  intro β i j hβ hi hj hij
  have hi' : i < n := hi
  have hj' : j < n := hj
  have : InRange [n, n] (icons j (icons i β)) := by
    rw [inRange_cons]; refine ⟨hj', ?_⟩; rw [inRange_cons]; exact ⟨hi', hβ⟩
  rw [Tensor.at', m, ofFn_get _ this]
  exact h i hi' j hj' hij

def M : Mat ℚ := .dense (m 2 2 [1, 2, 3, 4])
def Mb : Mat ℚ := .dense (bm 2 2 2 [1, 2, 3, 4, 5, 6, 7, 8])
def D : Mat ℚ := .diag (v [5, 7])
def Db : Mat ℚ := .diag (bv 2 2 [5, 7, 11, 13])
def C : Mat ℚ := .const (scalarT 3) 2 2
def Z : Mat ℚ := .zero [] 2 2
def L : Mat ℚ := .lt (m 2 2 [1, 0, 2, 3])
def U : Mat ℚ := .ut (m 2 2 [1, 2, 0, 3])
def R : Mat ℚ := .lr (.num (m 2 1 [1, 2])) (.num (m 2 1 [3, 4])) (.num (m 1 1 [2]))
def R' : Mat ℚ := .lr (.num (m 2 1 [1, 2])) (.num (m 2 1 [5, 6])) (.num (m 1 1 [3]))
def W : Mat ℚ := .wb (v [5, 7]) (.num (m 2 1 [1, 2])) (.num (m 2 1 [3, 4])) (.num (m 1 1 [2]))
/-- 4 × 4. -/
def Kr : Mat ℚ := .kron M (.dense (m 2 2 [0, 1, 1, 0]))
/-- 2 × 2, with a structured factor. -/
def Kr2 : Mat ℚ := .kron (.dense (m 1 1 [2])) D
/-- Two 2 × 2 blocks along the rows: 2 + 4 = 6 rows. -/
def T : Mat ℚ := .tiled 2 (fun i => if i = 0 then M else L) (fun i => if i = 0 then 1 else 2) (-2)
/-- A number. -/
def s : Mat ℚ := .num (scalarT 2)

theorem M_wf (S) : M.WF S := ⟨by decide, Fits.nil _⟩
theorem Mb_wf : Mb.WF [2] := ⟨by decide, Fits.refl _⟩
theorem D_wf (S) : D.WF S := ⟨by decide, Fits.nil _⟩
theorem Db_wf : Db.WF [2] := ⟨by decide, Fits.refl _⟩
theorem C_wf (S) : C.WF S := Fits.nil _
theorem Z_wf (S) : Z.WF S := Fits.nil _
theorem L_wf (S) : L.WF S := ⟨by decide, Fits.nil _, rfl, lowerTri_m (by decide +kernel)⟩
theorem U_wf (S) : U.WF S := ⟨by decide, Fits.nil _, rfl, upperTri_m (by decide +kernel)⟩
theorem num_wf (S) (r c : ℕ) (l) : (Mat.num (m r c l)).WF S := ⟨by simp [m, Tensor.rank], Fits.nil _⟩
theorem R_wf (S) : R.WF S := ⟨⟨num_wf _ _ _ _, num_wf _ _ _ _, num_wf _ _ _ _⟩, ⟨le_refl _, le_refl _, le_refl _⟩, rfl, rfl⟩
theorem R'_wf (S) : R'.WF S := ⟨⟨num_wf _ _ _ _, num_wf _ _ _ _, num_wf _ _ _ _⟩, ⟨le_refl _, le_refl _, le_refl _⟩, rfl, rfl⟩
theorem W_wf (S) : W.WF S :=
  ⟨⟨le_refl _, Fits.nil _⟩, ⟨num_wf _ _ _ _, num_wf _ _ _ _, num_wf _ _ _ _⟩, ⟨le_refl _, le_refl _, le_refl _⟩, ⟨rfl, rfl⟩, rfl, rfl⟩
theorem Kr_wf (S) : Kr.WF S := ⟨⟨M_wf S, ⟨by decide, Fits.nil _⟩⟩, le_refl _, le_refl _⟩
theorem Kr2_wf (S) : Kr2.WF S := ⟨⟨⟨by decide, Fits.nil _⟩, D_wf S⟩, le_refl _, le_refl _⟩
theorem s_wf (S) : s.WF S := ⟨by decide, Fits.nil _⟩
theorem T_wf (S) : T.WF S := by
  refine ⟨1, rfl, by decide, ?_, ?_, ?_, ?_, Fits.nil _⟩
  · intro i; fin_cases i <;> exact le_refl _
  · intro i; fin_cases i
    · exact M_wf S
    · exact L_wf S
  · intro i j h; exact absurd rfl h
  · intro i j h; fin_cases i <;> fin_cases j <;> rfl

end Verif.Ex
