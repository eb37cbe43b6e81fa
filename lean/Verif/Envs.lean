/-
Two environments: `codeEnv`, the tolerance tests of the code, and `strictEnv`, which runs the same tests but stops with the
ghost error `inexact` when the tolerance test says "equal" ("zero") and the compared columns (the middle factor) are not exactly equal
(zero) in every batch element.  `strictEnv` is lawful; `codeEnv` is not, which is the reason for some of the findings.
-/
import Verif.Mono
import Mathlib.Data.List.Sort
import Mathlib.Algebra.Order.BigOperators.Group.Finset
import Mathlib.Algebra.Order.AbsoluteValue.Basic

set_option linter.unusedSectionVars false

namespace Verif

variable {K : Type} [Field K] [LinearOrder K]

/-- `B.mean(B.subtract(a0[:, i], b0[:, j]) ** 2) < 1e-10`, `ops/algorithms/align.py` 21-26, where `a0`, `b0` are the
first batch elements.  The mean of nothing is nan, which is not below anything. -/
def codeColEq (tol : K) (a b : Tensor K) (i j : ℕ) : E Bool :=
  if Compat [a.rows] [b.rows] then
    let n := bd a.rows b.rows
    let d := fun x => a.at' (fun _ => 0) x i - b.at' (fun _ => 0) x j
    .ok (decide (n ≠ 0 ∧ (∑ x ∈ Finset.range n, d x * d x) / (n : K) < tol))
  else .error .value

/-- `B.mean(B.abs(join_middle)) < 1e-10`, `ops/add.py` 192; the mean is over all entries of all batch elements. -/
def codeIsZero (tol : K) (t : Tensor K) : E Bool :=
  .ok (decide (size t.sh ≠ 0 ∧ (∑ n ∈ Finset.range (size t.sh), |t.get (unlin t.sh n)|) / (size t.sh : K) < tol))

/-- `B.argsort` on a list: insertion sort of the positions by value. -/
def codeArgsort (l : List K) : List ℕ :=
  (List.range l.length).insertionSort fun i j => l.getD i 0 ≤ l.getD j 0

/-- The environment of the code: `tol` is 1e-10. -/
def codeEnv (isNumber : Tensor K → Bool) (tol : K) : Env K where
  isNumber := isNumber
  argsort := codeArgsort
  colEq := codeColEq tol
  isZero := codeIsZero tol

/-- Column `i` of `a` equals column `j` of `b` in every batch element. -/
def colsAgree (a b : Tensor K) (i j : ℕ) : Bool :=
  decide (a.rows = b.rows ∧ ∀ n < size (bsh a.bt b.bt), ∀ x < a.rows,
    a.at' (unlin (bsh a.bt b.bt) n) x i = b.at' (unlin (bsh a.bt b.bt) n) x j)

/-- All entries are zero. -/
def allZero (t : Tensor K) : Bool := decide (∀ n < size t.sh, t.get (unlin t.sh n) = 0)

/-- The code's tests, stopping with `inexact` when a positive answer is not exact in every batch element. -/
def strictEnv (isNumber : Tensor K → Bool) (tol : K) : Env K where
  isNumber := isNumber
  argsort := codeArgsort
  colEq a b i j := do
    let c ← codeColEq tol a b i j
    if c && !colsAgree a b i j then .error .inexact else .ok c
  isZero t := do
    let c ← codeIsZero tol t
    if c && !allZero t then .error .inexact else .ok c

theorem strict_below (isNumber : Tensor K → Bool) (tol : K) :
    Env.Below (· = .inexact) (strictEnv isNumber tol) (codeEnv isNumber tol) := by
  refine ⟨rfl, rfl, fun a b i j => ?_, fun t => ?_⟩
  · simp only [strictEnv, codeEnv]
    cases codeColEq tol a b i j with
    | error e => exact Below.refl _
    | ok c =>
      simp only [bind, Except.bind]
      split_ifs
      · exact Or.inr ⟨_, rfl, rfl⟩
      · exact Below.refl _
  · simp only [strictEnv, codeEnv]
    cases codeIsZero tol t with
    | error e => exact Below.refl _
    | ok c =>
      simp only [bind, Except.bind]
      split_ifs
      · exact Or.inr ⟨_, rfl, rfl⟩
      · exact Below.refl _

theorem getD_unlin_clip {s : Shp} {i : Idx} (t : Tensor K) (h : InRange s i) (hf : t.sh = s) : t.get (unlin s (lin s i)) = t.get i := by
  subst hf; exact get_unlin_lin t h

theorem at'_congr_batch {t : Tensor K} {β γ : Idx} {i j : ℕ} (h : ∀ k, clip t.bt β k = clip t.bt γ k) : t.at' β i j = t.at' γ i j := by
  have := Tensor.at'_clip (t := t) (S := t.bt) (Fits.refl _) β i j
  have h2 := Tensor.at'_clip (t := t) (S := t.bt) (Fits.refl _) γ i j
  rw [← this, ← h2, funext h]

theorem strictEnv_lawful (isNumber : Tensor K → Bool) (tol : K) : (strictEnv isNumber tol).Lawful where
  argsort l := List.perm_insertionSort _ _
  colEq := by
    intro a b i j h hi hj hr S β x ga gb hβ hx
    simp only [strictEnv, bind_ok_iff] at h
    obtain ⟨c, hc, h⟩ := h
    split_ifs at h with h1
    simp only [Except.ok.injEq] at h; subst h
    simp only [Bool.true_and, Bool.not_eq_true', Bool.not_eq_false] at h1
    simp only [colsAgree, decide_eq_true_eq] at h1
    obtain ⟨_, h1⟩ := h1
    have hf : Fits S (bsh a.bt b.bt) := ga.fits.bsh gb.fits
    have hγ : InRange (bsh a.bt b.bt) (clip (bsh a.bt b.bt) β) := inRange_clip _ (hf.pos hβ.pos)
    have hcm : Compat a.bt b.bt := ga.fits.compat gb.fits
    have key : ∀ (t : Tensor K), Fits (bsh a.bt b.bt) t.bt → t.rank ≤ (bsh a.bt b.bt).length + 2 → ∀ y z,
        t.at' (unlin (bsh a.bt b.bt) (lin (bsh a.bt b.bt) (clip (bsh a.bt b.bt) β))) y z = t.at' β y z := by
      intro t ht hl y z
      rw [← Tensor.at'_clip ht β y z]
      apply at'_congr_batch
      intro k
      by_cases hk : k < t.bt.length
      · have : k < (bsh a.bt b.bt).length := by simp only [Tensor.rank, Tensor.bt, List.length_drop] at *; omega
        simp only [clip]
        rw [unlin_lin hγ k this]
        rfl
      · have hd : dim t.bt k = 1 := by simp [dim, List.getD_eq_getElem?_getD, List.getElem?_eq_none (Nat.le_of_not_lt hk)]
        simp only [clip, hd]
        split_ifs <;> omega
    have hlen := length_bsh a.bt b.bt
    have := h1 _ (lin_lt hγ) x hx
    rw [key a hcm.fits_left (by simp only [Tensor.rank, Tensor.bt, List.length_drop] at *; omega), key b hcm.fits_right (by simp only [Tensor.rank, Tensor.bt, List.length_drop] at *; omega)] at this
    exact this
  isZero := by
    intro t h h2 β i j hβ hi hj
    simp only [strictEnv, bind_ok_iff] at h
    obtain ⟨c, hc, h⟩ := h
    split_ifs at h with h1
    simp only [Except.ok.injEq] at h; subst h
    simp only [Bool.true_and, Bool.not_eq_true', Bool.not_eq_false, allZero, decide_eq_true_eq] at h1
    have hr : InRange t.sh (icons j (icons i β)) := by
      rw [Tensor.sh_eq h2]; simp; exact ⟨hj, hi, hβ⟩
    have := h1 _ (lin_lt hr)
    rw [get_unlin_lin t hr] at this
    exact this

/-- With a tolerance of zero nothing is ever merged, and the two environments are the same. -/
theorem strict_eq_code [IsStrictOrderedRing K] (isNumber : Tensor K → Bool) {tol : K} (h : tol ≤ 0) :
    strictEnv isNumber tol = codeEnv isNumber tol := by
  have h1 : ∀ a b i j c, codeColEq tol a b i j = .ok c → c = false := by
    intro a b i j c hc
    unfold codeColEq at hc
    split_ifs at hc
    simp only [Except.ok.injEq] at hc
    rw [← hc, decide_eq_false_iff_not]
    rintro ⟨_, hlt⟩
    refine absurd (lt_of_lt_of_le hlt h) (not_lt.2 ?_)
    exact div_nonneg (Finset.sum_nonneg fun x _ => mul_self_nonneg _) (Nat.cast_nonneg _)
  have h2 : ∀ t c, codeIsZero tol t = .ok c → c = false := by
    intro t c hc
    simp only [codeIsZero, Except.ok.injEq] at hc
    rw [← hc, decide_eq_false_iff_not]
    rintro ⟨_, hlt⟩
    refine absurd (lt_of_lt_of_le hlt h) (not_lt.2 ?_)
    exact div_nonneg (Finset.sum_nonneg fun x _ => abs_nonneg _) (Nat.cast_nonneg _)
  unfold strictEnv codeEnv
  congr 1
  · funext a b i j
    cases hc : codeColEq tol a b i j with
    | error e => rfl
    | ok c => rw [h1 _ _ _ _ _ hc]; rfl
  · funext t
    cases hc : codeIsZero tol t with
    | error e => rfl
    | ok c => rw [h2 _ _ hc]; rfl

end Verif
