/-
Findings: the properties without their restrictions are false of the code.
Each theorem exhibits valid operands for which the call returns a value that violates the unrestricted claim (or never returns);
the restrictions in the theorems of `Props*.lean` exclude these cases.
-/
import Verif.Props05
import Verif.Props04
import Verif.Reject

set_option linter.unusedSectionVars false

namespace Verif

/-- The run returns a value with the (decidable) property `P`. -/
def Ex.holds {α : Type} (P : α → Bool) : E α → Bool
  | .ok r => P r
  | .error _ => false

theorem Ex.of_holds {α : Type} {P : α → Bool} {f : Ops ℚ → E α} {n : ℕ} (h : Ex.holds P (f (ops Ex.cfg.code n)) = true) : ∃ r, Returns Ex.cfg f r ∧ P r = true := by
  cases e : f (ops Ex.cfg.code n) with
  | ok r => rw [e] at h; exact ⟨r, ⟨n, e⟩, h⟩
  | error x => rw [e] at h; simp [Ex.holds] at h

theorem Ex.of_lholds {α : Type} {P : α → Bool} {f : Ops ℚ → LOps ℚ → E α} {n m : ℕ}
    (h : Ex.holds P (f (ops Ex.cfg.code n) (lops Ex.cfg.code Ex.lin (ops Ex.cfg.code n) m)) = true) : ∃ r, LReturns Ex.cfg Ex.lin f r ∧ P r = true := by
  cases e : f (ops Ex.cfg.code n) (lops Ex.cfg.code Ex.lin (ops Ex.cfg.code n) m) with
  | ok r => rw [e] at h; exact ⟨r, ⟨m, n, e⟩, h⟩
  | error x => rw [e] at h; simp [Ex.holds] at h

/-- An entry of the dense form of a result differs from the entry it should have. -/
def Ex.entryNe (t : Tensor ℚ) (i : Idx) (r : Mat ℚ) : Bool := decide ((den r).get i ≠ t.get i)

/-! ### Broadcasting (C01, C02) -/

/-- A `1 × 1` Diagonal matrix plus a `2 × 2` Diagonal matrix: the sum of the diagonals is not the broadcast sum.
(The low-rank tolerance plays no role: the run is exact.) -/
theorem C01_stretch_refuted : ∃ a b r : Mat ℚ, a.Valid ∧ b.Valid ∧ Compat (den a).sh (den b).sh ∧ Exact Ex.cfg (fun B => B.add a b) ∧
    Returns Ex.cfg (fun B => B.add a b) r ∧ ¬ IsEltwise (· + ·) (den a) (den b) (den r) := by
  let a : Mat ℚ := .diag (Ex.v [1])
  let b : Mat ℚ := .diag (Ex.v [5, 7])
  obtain ⟨r, hr, hP⟩ := Ex.of_holds (P := Ex.entryNe (zipB (· + ·) (den a) (den b)) fun k => if k = 0 then 1 else 0) (f := fun B => B.add a b) (n := 4) (by decide +kernel)
  obtain ⟨_, _, hx⟩ := Ex.meets (Calls.add a b) (n := 4) (by decide +kernel)
  refine ⟨a, b, r, ⟨[], by decide, Fits.nil _⟩, ⟨[], by decide, Fits.nil _⟩, by decide, hx, hr, fun h => ?_⟩
  simp only [Ex.entryNe, decide_eq_true_eq] at hP
  exact hP (by rw [h.eq])

/-- Diagonal times a Kronecker product of a `1 × 2` and a `2 × 1` matrix: the diagonal of the product is read off wrongly. -/
theorem C02_kron_refuted : ∃ a b r : Mat ℚ, a.Valid ∧ b.Valid ∧ (den a).sh = (den b).sh ∧ Exact Ex.cfg (fun B => B.mul a b) ∧
    Returns Ex.cfg (fun B => B.mul a b) r ∧ ¬ IsEltwise (· * ·) (den a) (den b) (den r) := by
  let a : Mat ℚ := .diag (Ex.v [1, 1])
  let b : Mat ℚ := .kron (.dense (Ex.m 1 2 [1, 2])) (.dense (Ex.m 2 1 [3, 4]))
  obtain ⟨r, hr, hP⟩ := Ex.of_holds (P := fun r => decide (den r).sh.isEmpty || !decide ((den r).get (fun k => if k ≤ 1 then 1 else 0) = (zipB (· * ·) (den a) (den b)).get (fun k => if k ≤ 1 then 1 else 0))) (f := fun B => B.mul a b) (n := 6) (by decide +kernel)
  obtain ⟨_, _, hx⟩ := Ex.meets (Calls.mul a b) (n := 6) (by decide +kernel)
  refine ⟨a, b, r, ⟨[], by decide, Fits.nil _⟩, ⟨[], ⟨⟨by decide, Fits.nil _⟩, ⟨by decide, Fits.nil _⟩⟩, le_refl _, le_refl _⟩, rfl, hx, hr, fun h => ?_⟩
  have e := h.eq
  have e2 : (den r).sh = [2, 2] := by rw [e]; decide
  rw [e2] at hP
  simp [e] at hP

/-- The same for `B.diag` itself. -/
theorem C11_kron_refuted : ∃ (a : Mat ℚ) (v : Tensor ℚ), a.Valid ∧ (den a).rows = (den a).cols ∧ Exact Ex.cfg (fun B => B.diag a) ∧
    Returns Ex.cfg (fun B => B.diag a) v ∧ ¬ IsDiagonalOf (den a) v := by
  let b : Mat ℚ := .kron (.dense (Ex.m 1 2 [1, 2])) (.dense (Ex.m 2 1 [3, 4]))
  obtain ⟨v, hv, hP⟩ := Ex.of_holds (P := fun r : Tensor ℚ => decide (r.sh ≠ [2] ∨ r.vat Ex.o 1 ≠ (den b).at' Ex.o 1 1)) (f := fun B => B.diag b) (n := 6) (by decide +kernel)
  obtain ⟨_, _, hx⟩ := Ex.meets (Calls.diag b) (n := 6) (by decide +kernel)
  refine ⟨b, v, ⟨[], ⟨⟨by decide, Fits.nil _⟩, ⟨by decide, Fits.nil _⟩⟩, le_refl _, le_refl _⟩, rfl, hx, hv, fun h => ?_⟩
  simp only [decide_eq_true_eq] at hP
  rcases hP with hP | hP
  · exact hP h.shape
  · exact hP (h.entries Ex.o 1 (fun _ => Nat.zero_lt_one) (by decide))

/-! ### Low-rank sums (C33) -/

/-- Two batched LowRank matrices whose left factors agree in the first batch element only: the sum is wrong in the second batch element. -/
theorem C33_batched_refuted : ∃ a b r : Mat ℚ, a.Valid ∧ b.Valid ∧ (den a).sh = (den b).sh ∧
    Returns Ex.cfg (fun B => B.add a b) r ∧ ¬ IsEltwise (· + ·) (den a) (den b) (den r) := by
  let one : Mat ℚ := .num (Ex.bm 2 1 1 [1, 1])
  let a : Mat ℚ := .lr (.num (Ex.bm 2 2 1 [1, 2, 1, 2])) (.num (Ex.bm 2 2 1 [1, 2, 1, 2])) one
  let b : Mat ℚ := .lr (.num (Ex.bm 2 2 1 [1, 2, 3, 4])) (.num (Ex.bm 2 2 1 [1, 2, 3, 4])) one
  have wf : ∀ l : List ℚ, ∀ r c : ℕ, (Mat.num (Ex.bm 2 r c l)).WF [2] := fun l r c => ⟨by simp [Ex.bm, Tensor.rank], Fits.refl _⟩
  obtain ⟨r, hr, hP⟩ := Ex.of_holds (P := Ex.entryNe (zipB (· + ·) (den a) (den b)) fun k => if k ≤ 2 then 1 else 0) (f := fun B => B.add a b) (n := 4) (by decide +kernel)
  refine ⟨a, b, r, ⟨[2], ⟨wf _ _ _, wf _ _ _, wf _ _ _⟩, ⟨by simp [Ex.bm, Tensor.rank, den], by simp [Ex.bm, Tensor.rank, den], by simp [Ex.bm, Tensor.rank, den, one]⟩, by decide +kernel, by decide +kernel⟩,
    ⟨[2], ⟨wf _ _ _, wf _ _ _, wf _ _ _⟩, ⟨by simp [Ex.bm, Tensor.rank, den], by simp [Ex.bm, Tensor.rank, den], by simp [Ex.bm, Tensor.rank, den, one]⟩, by decide +kernel, by decide +kernel⟩, by decide +kernel, hr, fun h => ?_⟩
  simp only [Ex.entryNe, decide_eq_true_eq] at hP
  exact hP (by rw [h.eq])

/-- Columns that differ by less than the tolerance are merged: the sum is not exact even without a batch. -/
theorem C33_tolerance_refuted : ∃ a b r : Mat ℚ, a.Valid ∧ b.Valid ∧ (den a).sh = (den b).sh ∧ (den a).bt = [] ∧
    Returns Ex.cfg (fun B => B.add a b) r ∧ ¬ IsEltwise (· + ·) (den a) (den b) (den r) := by
  let one : Mat ℚ := .num (Ex.m 1 1 [1])
  let a : Mat ℚ := .lr (.num (Ex.m 2 1 [1, 2])) (.num (Ex.m 2 1 [1, 2])) one
  let b : Mat ℚ := .lr (.num (Ex.m 2 1 [1, 2 + 1 / 10^12])) (.num (Ex.m 2 1 [1, 2 + 1 / 10^12])) one
  obtain ⟨r, hr, hP⟩ := Ex.of_holds (P := Ex.entryNe (zipB (· + ·) (den a) (den b)) fun k => if k ≤ 1 then 1 else 0) (f := fun B => B.add a b) (n := 5) (by decide +kernel)
  refine ⟨a, b, r, ⟨[], ⟨Ex.num_wf _ _ _ _, Ex.num_wf _ _ _ _, Ex.num_wf _ _ _ _⟩, ⟨by decide +kernel, by decide +kernel, by decide +kernel⟩, by decide +kernel, by decide +kernel⟩,
    ⟨[], ⟨Ex.num_wf _ _ _ _, Ex.num_wf _ _ _ _, Ex.num_wf _ _ _ _⟩, ⟨by decide +kernel, by decide +kernel, by decide +kernel⟩, by decide +kernel, by decide +kernel⟩, by decide +kernel, by decide +kernel, hr, fun h => ?_⟩
  simp only [Ex.entryNe, decide_eq_true_eq] at hP
  exact hP (by rw [h.eq])

/-! ### Linear algebra (C20-C24, C35) -/

/-- `B.cholesky(LowRank)` ignores the right factor: for the positive semi-definite matrix `[1, 2] 2 [2, 4]ᵀ`, whose factors are not equal but proportional,
the result is not a factor. -/
theorem C21_lowrank_refuted : ∃ a l : Mat ℚ, a.Valid ∧ IsSymm (den a) ∧
    LReturns Ex.cfg Ex.lin (fun _ L => L.chol a) l ∧ ¬ IsFactor (den a) (den l) := by
  let a : Mat ℚ := .lr (.num (Ex.m 2 1 [1, 2])) (.num (Ex.m 2 1 [2, 4])) (.num (Ex.m 1 1 [4]))
  obtain ⟨l, hl, hP⟩ := Ex.of_lholds (P := fun l : Mat ℚ => decide (∑ k ∈ Finset.range (den l).cols, (den l).at' Ex.o 0 k * (den l).at' Ex.o 0 k ≠ (den a).at' Ex.o 0 0))
    (f := fun _ L => L.chol a) (n := 5) (m := 4) (by decide +kernel)
  refine ⟨a, l, ⟨[], ⟨Ex.num_wf _ _ _ _, Ex.num_wf _ _ _ _, Ex.num_wf _ _ _ _⟩, ⟨le_refl _, le_refl _, le_refl _⟩, rfl, rfl⟩,
    ⟨le_refl _, rfl, fun β i j _ hi hj => ?_⟩, hl, fun h => ?_⟩
  · have e : ∀ i < 2, ∀ j < 2, (den a).at' Ex.o i j = (den a).at' Ex.o j i := by decide +kernel
    rw [Ex.at0 rfl β, Ex.at0 rfl β]
    exact e i hi j hj
  · simp only [decide_eq_true_eq] at hP
    exact hP (h.prod Ex.o 0 0 (fun _ => Nat.zero_lt_one) (by decide) (by decide))

/-- `B.pd_inv(LowRank)` of a positive-definite matrix with numeric factors takes the (non-triangular) factor as triangular: the result is not the inverse. -/
theorem C20_lowrank_refuted : ∃ a r : Mat ℚ, a.Valid ∧ a.CholDom ∧
    LReturns Ex.cfg Ex.lin (fun _ L => L.pdInv a) r ∧ ¬ IsInverse (den a) (den r) := by
  let a : Mat ℚ := .lr (.num (Ex.m 2 2 [1, 1, 0, 1])) (.num (Ex.m 2 2 [1, 1, 0, 1])) (.num (Ex.m 2 2 [1, 0, 0, 1]))
  obtain ⟨r, hr, hP⟩ := Ex.of_lholds (P := fun r : Mat ℚ => decide (∑ k ∈ Finset.range 2, (den a).at' Ex.o 0 k * (den r).at' Ex.o k 0 ≠ 1))
    (f := fun _ L => L.pdInv a) (n := 5) (m := 4) (by decide +kernel)
  refine ⟨a, r, ⟨[], ⟨Ex.num_wf _ _ _ _, Ex.num_wf _ _ _ _, Ex.num_wf _ _ _ _⟩, ⟨le_refl _, le_refl _, le_refl _⟩, rfl, rfl⟩,
    ⟨rfl, Ex.isSymm_m (by decide +kernel)⟩, hr, fun h => ?_⟩
  simp only [decide_eq_true_eq] at hP
  exact hP (h.right Ex.o 0 0 (fun _ => Nat.zero_lt_one) (by decide) (by decide))

/-- `B.iqf(a, 0, 0)` with a batch of matrices `a` returns one matrix, not a batch. -/
theorem C23_zero_refuted : ∃ a b r : Mat ℚ, a.Valid ∧ b.Valid ∧ BatchCompat a b ∧ a.QfDom ∧
    LReturns Ex.cfg Ex.lin (fun B L => iqfM B L true a b b) r ∧ ¬ ∃ ai p, IsInverse (den a) ai ∧ IsMatProd (tr (den b)) ai p ∧ IsMatProd p (den b) (den r) := by
  let a : Mat ℚ := .diag (Ex.bv 2 2 [1, 4, 1, 4])
  let b : Mat ℚ := .zero [] 2 2
  obtain ⟨r, hr, hP⟩ := Ex.of_lholds (P := fun r : Mat ℚ => decide ((den r).sh = [2, 2])) (f := fun B L => iqfM B L true a b b) (n := 5) (m := 4) (by decide +kernel)
  refine ⟨a, b, r, ⟨[2], by decide, Fits.refl _⟩, ⟨[], Fits.nil _⟩, by decide, ⟨fun h => by simp [a, Mat.kind] at h, fun _ => trivial⟩, hr, ?_⟩
  rintro ⟨ai, p, h1, h2, h3⟩
  simp only [decide_eq_true_eq] at hP
  have e := h3.shape
  have e2 : ai.bt = [2] := by rw [bt_of_sh h1.shape]; rfl
  have e3 : p.bt = bsh (tr (den b)).bt ai.bt := by simp only [Tensor.bt, h2.shape]; rfl
  rw [e2] at e3
  replace e3 : p.bt = [2] := e3
  rw [hP, e3] at e
  exact absurd e (by simp [b, den, Tensor.bt])

/-- `B.matmul_diag` of a `1 × 2` and a `2 × 3` matrix: broadcasting instead of the diagonal of the `1 × 3` product. -/
theorem C23_matmul_diag_refuted : ∃ (a b : Mat ℚ) (v : Tensor ℚ), a.Valid ∧ b.Valid ∧ (den a).cols = (den b).rows ∧
    Returns Ex.cfg (fun B => matmulDiag B false false a b) v ∧ ¬ ∃ p, IsMatProd (den a) (den b) p ∧ IsDiagonalOf p v := by
  let a : Mat ℚ := .dense (Ex.m 1 2 [1, 2])
  let b : Mat ℚ := .dense (Ex.m 2 3 [1, 2, 3, 4, 5, 6])
  obtain ⟨v, hv, hP⟩ := Ex.of_holds (P := fun v : Tensor ℚ => decide (v.sh = [3])) (f := fun B => matmulDiag B false false a b) (n := 5) (by decide +kernel)
  refine ⟨a, b, v, ⟨[], by decide, Fits.nil _⟩, ⟨[], by decide, Fits.nil _⟩, rfl, hv, ?_⟩
  rintro ⟨p, h1, h2⟩
  simp only [decide_eq_true_eq] at hP
  have e := h2.shape
  have e2 : p.rows = 1 ∧ p.cols = 3 := by simp only [Tensor.rows, Tensor.cols, h1.shape]; exact ⟨rfl, rfl⟩
  rw [hP, e2.1, e2.2] at e
  simp at e

/-- `B.solve(a, Zero)` compares no shapes: a `3 × 1` right-hand side is accepted for a `2 × 2` matrix. -/
theorem C24_zero_unchecked : ∃ a b x : Mat ℚ, a.Valid ∧ b.Valid ∧ (den a).rows ≠ (den b).rows ∧ LReturns Ex.cfg Ex.lin (fun _ L => L.solve a b) x := by
  obtain ⟨x, hx, _⟩ := Ex.lmeets (LCalls.solve Ex.A2 (.zero [] 3 1)) (n := 5) (m := 4) (by decide +kernel)
  exact ⟨Ex.A2, .zero [] 3 1, x, ⟨[], Ex.A2_wf []⟩, ⟨[], Fits.nil _⟩, by decide, hx⟩

section
variable {K : Type} [Field K] [LinearOrder K]

/-- `B.logdet(Zero)` recurses forever: whatever the bounds on the recursion depth, they are exceeded. -/
theorem C35_logdet_zero_diverges (c : Cfg K) (lin : LinEnv K) (bt : Shp) (r n m : ℕ) :
    (lops c.code lin (ops c.code n) m).logdet (.zero bt r r) = .error .fuel := by
  induction m with
  | zero => rfl
  | succ m ih =>
    have hc : (lops c.code lin (ops c.code n) m).chol (.zero bt r r) = .error .fuel ∨ (lops c.code lin (ops c.code n) m).chol (.zero bt r r) = .ok (.zero bt r r) := by
      cases m with
      | zero => exact .inl rfl
      | succ m =>
        right
        show stepChol lin (ops c.code n) (lops c.code lin (ops c.code n) m) (.zero bt r r) = _
        simp [stepChol, assertSquare, assertMatrix, rankM, shape, shapeBatch, shp, shapeMatrix, guardE, bind, Except.bind, pure, Except.pure]
    show stepLogdet lin (ops c.code n) (lops c.code lin (ops c.code n) m) (.zero bt r r) = _
    simp only [stepLogdet]
    rcases hc with hc | hc
    · rw [hc]; rfl
    · rw [hc]
      show ((lops c.code lin (ops c.code n) m).logdet (.zero bt r r) >>= _) = _
      rw [ih]; rfl

/-- `B.logdet(Constant)` never returns. -/
theorem C35_logdet_constant_diverges (c : Cfg K) (lin : LinEnv K) (t : Tensor K) (r n m : ℕ) (v : Tensor K) :
    (lops c.code lin (ops c.code n) m).logdet (.const t r r) ≠ .ok v := by
  induction m generalizing t v with
  | zero => simp [lops, LOps.bot]
  | succ m ih =>
    intro h
    change stepLogdet lin (ops c.code n) (lops c.code lin (ops c.code n) m) (.const t r r) = _ at h
    simp only [stepLogdet, bind_ok_iff] at h
    obtain ⟨x, hx, v', h, _⟩ := h
    cases m with
    | zero => simp [lops, LOps.bot] at hx
    | succ m =>
      change stepChol lin (ops c.code n) (lops c.code lin (ops c.code n) m) (.const t r r) = _ at hx
      simp only [stepChol, bind_ok_iff] at hx
      obtain ⟨_, _, y, _, z, _, w, _, hx⟩ := hx
      obtain ⟨u, rfl⟩ : ∃ u, x = .const u r r := by
        simp only [mkConst] at hx
        cases hx
        exact ⟨_, rfl⟩
      exact ih u v' h

end

end Verif
