/-
C24: the flag of `triangular_solve` and its UserWarning.
-/
import Verif.Prog2

set_option linter.unusedSectionVars false

namespace Verif

variable {K : Type} [Field K] [LinearOrder K] [IsStrictOrderedRing K]

/-- `triangular_solve(a, b, lower_a)` with whether it issues its UserWarning, `ops/triangular_solve.py` 10-27. -/
def triangularSolveU (L : LOps K) (lower : Bool) (a b : Mat K) : E (Bool × Mat K) :=
  match a, b with
  | .lt t, b => if b.isAM then do return (!lower, ← L.solve (.lt t) b) else .error .notFound  -- 11-17
  | .ut t, b => if b.isAM then do return (lower, ← L.solve (.ut t) b) else .error .notFound  -- 20-27
  | _, _ => .error .notFound

theorem triangularSolveU_ok {L : LOps K} {lower w : Bool} {a b x : Mat K} :
    triangularSolveU L lower a b = .ok (w, x) ↔ triangularSolve L lower a b = .ok x ∧ (a.kind = some .lt ∧ w = !lower ∨ a.kind = some .ut ∧ w = lower) := by
  cases a with
  | lt t =>
    unfold triangularSolveU triangularSolve
    by_cases h : b.isAM = true
    · simp only [h, if_true, Mat.kind]
      cases L.solve (.lt t) b with
      | error e => simp [bind, Except.bind]
      | ok y => simp [bind, Except.bind, pure, Except.pure, and_comm, eq_comm]
    · simp [h]
  | ut t =>
    unfold triangularSolveU triangularSolve
    by_cases h : b.isAM = true
    · simp only [h, if_true, Mat.kind]
      cases L.solve (.ut t) b with
      | error e => simp [bind, Except.bind]
      | ok y => simp [bind, Except.bind, pure, Except.pure, and_comm, eq_comm]
    · simp [h]
  | _ => simp [triangularSolveU, triangularSolve]

/-- C24: a UserWarning is issued exactly when the flag asks for the other triangle than the class of the matrix has, and the flag has no influence on the result: the run with the other flag returns the
same matrix, with a warning if and only if this one has none. Without a warning the matrix is triangular as the flag says. -/
theorem C24_triangular_flag (c : Cfg K) {lin : LinEnv K} {lower w : Bool} {a b x : Mat K} (ha : a.Valid) (hr : LReturns c lin (fun _ L => triangularSolveU L lower a b) (w, x)) :
    LReturns c lin (fun _ L => triangularSolve L lower a b) x ∧ LReturns c lin (fun _ L => triangularSolveU L (!lower) a b) (!w, x) ∧
      (w = true ↔ a.kind = some (if lower then .ut else .lt)) ∧ (w = false → if lower then LowerTri (den a) else UpperTri (den a)) := by
  obtain ⟨m, n, h⟩ := hr
  obtain ⟨h1, h2⟩ := triangularSolveU_ok.1 h
  have flip {L : LOps K} : triangularSolve L (!lower) a b = triangularSolve L lower a b := rfl
  refine ⟨⟨m, n, h1⟩, ⟨m, n, triangularSolveU_ok.2 ⟨flip.trans h1, ?_⟩⟩, ?_, fun hw => ?_⟩
  · rcases h2 with ⟨hk, rfl⟩ | ⟨hk, rfl⟩
    exacts [.inl ⟨hk, rfl⟩, .inr ⟨hk, rfl⟩]
  · rcases h2 with ⟨hk, e⟩ | ⟨hk, e⟩ <;> rw [hk, e] <;> cases lower <;> simp
  · obtain ⟨S, wa⟩ := ha
    rcases h2 with ⟨hk, rfl⟩ | ⟨hk, rfl⟩
    · obtain ⟨t, rfl⟩ : ∃ t, a = .lt t := by cases a <;> simp [Mat.kind] at hk; exact ⟨_, rfl⟩
      simp only [Bool.not_eq_false'] at hw
      rw [if_pos hw]
      exact wa.2.2.2
    · obtain ⟨t, rfl⟩ : ∃ t, a = .ut t := by cases a <;> simp [Mat.kind] at hk; exact ⟨_, rfl⟩
      rw [if_neg (by simp [hw])]
      exact wa.2.2.2

example : ∃ x, LReturns Ex.cfg Ex.lin (fun _ L => triangularSolveU L false Ex.F2 Ex.B2) (true, x) := by
  obtain ⟨x, hx, _⟩ := Ex.lmeets (f := fun _ L => triangularSolve L false Ex.F2 Ex.B2) (fun _ _ _ _ _ _ h => h.solve _ _) (n := 8) (m := 8) (by decide +kernel)
  obtain ⟨m, n, h⟩ := hx
  exact ⟨x, m, n, triangularSolveU_ok.2 ⟨h, .inl ⟨rfl, rfl⟩⟩⟩

end Verif
