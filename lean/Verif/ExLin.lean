/-
A concrete backend for examples: rational linear algebra on unbatched matrices of size at most 2.
Every function computes a candidate and returns it only if it passes the test that `LinEnv.Lawful` demands.
-/
import Verif.LinSample
import Verif.Ex
import Mathlib.NumberTheory.Padics.PadicVal.Basic

set_option linter.unusedSectionVars false

namespace Verif.Ex

/-- The index of the only batch element. -/
def o : Idx := fun _ => 0

theorem clip0 (β : Idx) : clip [] β = o := by
  funext k
  have : dim [] k = 1 := rfl
  show (if β k < dim [] k then β k else 0) = 0
  rw [this]
  split_ifs <;> omega

theorem at0 {t : Tensor ℚ} (h : t.bt = []) (β : Idx) (i j : ℕ) : t.at' β i j = t.at' o i j := by
  rw [← Tensor.at'_clip (S := []) (by rw [h]; exact Fits.refl _) β, clip0]

theorem vat0 {t : Tensor ℚ} (h : t.sh.tail = []) (β : Idx) (i : ℕ) : t.vat β i = t.vat o i := by
  rw [← Tensor.vat_clip (S := []) (by rw [h]; exact Fits.refl _) β, clip0]

/-- The square root of the square of a rational number. -/
def sqrtQ (x : ℚ) : Option ℚ :=
  let f := fun n : ℕ => ((List.range (n + 1)).find? fun k => k * k = n).getD 0
  let y : ℚ := (f x.num.natAbs : ℚ) / f x.den
  if 0 ≤ y ∧ y * y = x then some y else none

/-- Entries of the inverse of a matrix with 1 or 2 rows. -/
def invE (a : Tensor ℚ) : List ℚ :=
  if a.rows = 1 then [1 / a.at' o 0 0]
  else
    let d := a.at' o 0 0 * a.at' o 1 1 - a.at' o 0 1 * a.at' o 1 0
    [a.at' o 1 1 / d, - a.at' o 0 1 / d, - a.at' o 1 0 / d, a.at' o 0 0 / d]

def invQ (a : Tensor ℚ) : E (Tensor ℚ) :=
  let r := m a.rows a.rows (invE a)
  if 2 ≤ a.rank ∧ a.bt = [] ∧ a.rows = a.cols ∧
      ∀ i < a.rows, ∀ j < a.rows, ∑ k ∈ Finset.range a.rows, a.at' o i k * r.at' o k j = if i = j then 1 else 0
  then .ok r else .error .value

/-- Entries of the Cholesky factor of a matrix with 1 or 2 rows. -/
def cholE (a : Tensor ℚ) : List ℚ :=
  let x := (sqrtQ (a.at' o 0 0)).getD 0
  if a.rows = 1 then [x]
  else
    let y := a.at' o 1 0 / x
    [x, 0, y, (sqrtQ (a.at' o 1 1 - y * y)).getD 0]

def cholQ (a : Tensor ℚ) : E (Tensor ℚ) :=
  let r := m a.rows a.rows (cholE a)
  if 2 ≤ a.rank ∧ a.bt = [] ∧ a.rows = a.cols ∧ (∀ i < a.rows, ∀ j < a.rows, i < j → (cholE a).getD (i * a.rows + j) 0 = 0) ∧
      (∀ i < a.rows, 0 < r.at' o i i) ∧
      ∀ i < a.rows, ∀ j ≤ i, ∑ k ∈ Finset.range a.rows, r.at' o i k * r.at' o j k = a.at' o i j
  then .ok r else .error .value

def solveQ (a b : Tensor ℚ) : E (Tensor ℚ) :=
  let x := mm (m a.rows a.rows (invE a)) b
  if 2 ≤ a.rank ∧ 2 ≤ b.rank ∧ a.bt = [] ∧ b.bt = [] ∧ a.rows = a.cols ∧ a.rows = b.rows ∧
      ∀ i < a.rows, ∀ j < b.cols, ∑ k ∈ Finset.range a.rows, a.at' o i k * x.at' o k j = b.at' o i j
  then .ok x else .error .value

def trisolveQ (lower : Bool) (a b : Tensor ℚ) : E (Tensor ℚ) :=
  if 2 ≤ a.rank then solveQ (triPart lower a) b else .error .value

def logQ (x : ℚ) : ℚ := padicValRat 2 x

/-- The determinant of a matrix with 1 or 2 rows. -/
def detE (a : Tensor ℚ) : ℚ :=
  if a.rows = 1 then a.at' o 0 0 else a.at' o 0 0 * a.at' o 1 1 - a.at' o 0 1 * a.at' o 1 0

def logdetQ (a : Tensor ℚ) : E (Tensor ℚ) :=
  if 2 ≤ a.rank ∧ a.bt = [] ∧ a.rows = a.cols ∧ (a.rows = 1 ∨ a.rows = 2) ∧ detE a ≠ 0 then .ok (scalarT (logQ |detE a|)) else .error .value

/-- Singular values of a nonnegative diagonal matrix. -/
def svdQ (a : Tensor ℚ) : E (Tensor ℚ × Tensor ℚ) :=
  let s := diagE a
  if 2 ≤ a.rank ∧ a.bt = [] ∧ a.rows = a.cols ∧ (∀ i < a.rows, 0 ≤ a.at' o i i) ∧ ∀ i < a.rows, ∀ j < a.rows, i ≠ j → a.at' o i j = 0
  then .ok (diagC (fillT [a.rows] 1), s) else .error .value

def lin : LinEnv ℚ := ⟨invQ, cholQ, solveQ, trisolveQ, logdetQ, svdQ, sqrtQ, logQ⟩

theorem m_bt (r c : ℕ) (l : List ℚ) : (m r c l).bt = [] := rfl

theorem square_sh {a : Tensor ℚ} {n : ℕ} (h2 : 2 ≤ a.rank) (hb : a.bt = []) (hr : a.rows = n) (hs : a.rows = a.cols) : a.sh = [n, n] := by
  rw [Tensor.sh_eq h2, hb, ← hs, hr]

theorem solveQ_ok {a b x : Tensor ℚ} (h : solveQ a b = .ok x) : 2 ≤ a.rank ∧ 2 ≤ b.rank ∧ IsSolution a b x := by
  unfold solveQ at h
  simp only at h
  split_ifs at h with h0
  cases h
  obtain ⟨h1, h2, h3, h4, h5, h6, h7⟩ := h0
  have e : (mm (m a.rows a.rows (invE a)) b).bt = [] := by rw [mm_bt, h4]; rfl
  refine ⟨h1, h2, h5, h6, by rw [h3, h4]; exact Compat.refl _, ?_, fun β i j _ hi hj => ?_⟩
  · rw [mm_sh, h3, h4]; rfl
  · rw [at0 h4]
    simp only [at0 h3 β, at0 e β]
    exact h7 i hi j hj

theorem lin_lawful : lin.Lawful := by
  refine ⟨?_, ?_, ?_, ?_, ?_, ?_, ?_, ?_⟩
  · intro a r h
    change invQ a = .ok r at h
    unfold invQ at h
    simp only at h
    split_ifs at h with h0
    cases h
    obtain ⟨h1, h2, h3, h4⟩ := h0
    refine ⟨h1, h3, (square_sh h1 h2 rfl h3).symm, fun β i j _ hi hj => ?_⟩
    simp only [at0 h2 β, at0 (m_bt _ _ _) β]
    exact h4 i hi j hj
  · intro a r h
    change cholQ a = .ok r at h
    unfold cholQ at h
    simp only at h
    split_ifs at h with h0
    cases h
    obtain ⟨h1, h2, h3, h4, h5, h6⟩ := h0
    refine ⟨h1, h3, (square_sh h1 h2 rfl h3).symm, lowerTri_m h4, fun β i _ hi => ?_, fun β i j _ hi hj => ?_⟩
    · rw [at0 (m_bt _ _ _) β]; exact h5 i hi
    · simp only [at0 h2 β, at0 (m_bt _ _ _) β]
      exact h6 i hi j hj
  · intro a b x h
    exact solveQ_ok h
  · intro lower a b x h
    change trisolveQ lower a b = .ok x at h
    unfold trisolveQ at h
    split_ifs at h with h0
    exact ⟨h0, (solveQ_ok h).2⟩
  · intro a v h
    change logdetQ a = .ok v at h
    unfold logdetQ at h
    split_ifs at h with h0
    cases h
    obtain ⟨h1, h2, h3, h4, h5⟩ := h0
    have e : ∀ β, (mxOf a β a.rows a.rows).det = detE a := by
      intro β
      unfold detE
      rcases h4 with h4 | h4
      · rw [if_pos h4]
        have : (mxOf a β a.rows a.rows).det = (mxOf a β 1 1).det := by rw [h4]
        rw [this, Matrix.det_fin_one]
        exact at0 h2 β 0 0
      · rw [if_neg (by omega)]
        have : (mxOf a β a.rows a.rows).det = (mxOf a β 2 2).det := by rw [h4]
        rw [this, Matrix.det_fin_two]
        simp only [← at0 h2 β]
        rfl
    refine ⟨h1, h3, by rw [h2]; rfl, fun β _ => ?_⟩
    rw [e β]
    exact ⟨h5, scalarT_get _ _⟩
  · intro a u s h hs h2
    change svdQ a = .ok (u, s) at h
    unfold svdQ at h
    simp only at h
    split_ifs at h with h0
    cases h
    obtain ⟨h1, hb, _, h3, h4⟩ := h0
    have r0 : InRange [] o := fun k => Nat.zero_lt_one
    have eu : ∀ β i j, i < a.rows → j < a.rows → (diagC (fillT [a.rows] (1 : ℚ))).at' β i j = if i = j then 1 else 0 := by
      intro β i j hi hj
      rw [at0 rfl β, at_diagC r0 (Fits.refl _) hi hj]
      refine if_congr Iff.rfl ?_ rfl
      exact fillT_get (S := [a.rows]) (1 : ℚ) (by rw [inRange_cons]; exact ⟨hi, r0⟩) (Fits.refl _)
    have es : ∀ β i, i < a.rows → (diagE a).vat β i = a.at' o i i := by
      intro β i hi
      rw [vat0 (t := diagE a) hb β, vat_diagE r0 (by rw [hb]; exact Fits.refl _) (by rw [← hs, min_self]; exact hi)]
    have ei : ∀ β i j, i < a.rows → j < a.rows → ∑ k ∈ Finset.range a.rows, (diagC (fillT [a.rows] (1 : ℚ))).at' β k i * (diagC (fillT [a.rows] (1 : ℚ))).at' β k j =
        if i = j then 1 else 0 := by
      intro β i j hi hj
      rw [Finset.sum_eq_single i]
      · rw [eu β i i hi hi, eu β i j hi hj]; simp
      · intro k hk hne
        rw [eu β k i (Finset.mem_range.1 hk) hi, if_neg hne, zero_mul]
      · intro hh; exact absurd (Finset.mem_range.2 hi) hh
    refine ⟨(square_sh h1 hb rfl hs).symm, ?_, diagC (fillT [a.rows] 1), (square_sh h1 hb rfl hs).symm, fun β i j _ hi hj => ei β i j hi hj, fun β i j _ hi hj => ei β i j hi hj,
      fun β i _ hi => ?_, fun β i j _ hi hj => ?_⟩
    · show min a.rows a.cols :: a.bt = _
      rw [← hs, min_self]
    · rw [es β i hi]; exact h3 i hi
    · rw [Finset.sum_eq_single i]
      · rw [eu β i i hi hi, es β i hi, eu β j i hj hi, at0 hb β]
        by_cases hij : i = j
        · subst hij; simp
        · rw [h4 i hi j hj hij, if_neg (Ne.symm hij)]; simp
      · intro k hk hne
        rw [eu β i k hi (Finset.mem_range.1 hk), if_neg (Ne.symm hne)]; simp
      · intro hh; exact absurd (Finset.mem_range.2 hi) hh
  · intro x y h
    change sqrtQ x = some y at h
    unfold sqrtQ at h
    simp only at h
    split_ifs at h with h0
    cases h
    exact h0
  · intro x y hx hy
    show ((padicValRat 2 (x * y) : ℤ) : ℚ) = padicValRat 2 x + padicValRat 2 y
    rw [padicValRat.mul hx.ne' hy.ne']
    push_cast
    rfl

/-- A call that returns under the strict tests returns in the code, exactly. -/
theorem lmeets {α : Type} {f : Ops ℚ → LOps ℚ → E α} (hf : LCalls f) {n m : ℕ} (h : isOk (f (ops cfg.strict n) (lops cfg.code lin (ops cfg.strict n) m)) = true) :
    ∃ r, LReturns cfg lin f r ∧ LExact cfg lin f := by
  obtain ⟨r, hr⟩ := exists_of_isOk h
  exact ⟨r, LReturns.of_strict hf hr, LExact.of_ok hf hr⟩

/-- A positive-definite matrix, `[[2, 0], [1, 2]]` times its transpose. -/
def A2 : Mat ℚ := .dense (m 2 2 [4, 2, 2, 5])
def F2 : Mat ℚ := .lt (m 2 2 [2, 0, 1, 2])
/-- A symmetric Woodbury matrix, `1 + [1, 2] (1/4) [1, 2]ᵀ`. -/
def P2 : Mat ℚ := .wb (v [1, 1]) (.num (m 2 1 [1, 2])) (.num (m 2 1 [1, 2])) (.num (m 1 1 [1/4]))
/-- The same with diagonal 4. -/
def P3 : Mat ℚ := .wb (v [4, 9]) (.num (m 2 1 [1, 2])) (.num (m 2 1 [1, 2])) (.num (m 1 1 [4]))
def K4 : Mat ℚ := .kron A2 (.diag (v [4, 9]))
def B2 : Mat ℚ := .dense (m 2 1 [3, 7])
def N2 : Mat ℚ := .num (m 2 3 [3, 7, 1, 2, 2, 5])

theorem isSymm_m {n : ℕ} {l : List ℚ} (h : ∀ i < n, ∀ j < n, l.getD (i * n + j) 0 = l.getD (j * n + i) 0) : IsSymm (m n n l) := by
  have e : ∀ (β : Idx) (i j : ℕ), InRange [] β → i < n → j < n → (m n n l).at' β i j = l.getD (i * n + j) 0 := by
    intro β i j hβ hi hj
    have : InRange [n, n] (icons j (icons i β)) := by
      rw [inRange_cons]; refine ⟨hj, ?_⟩; rw [inRange_cons]; exact ⟨hi, hβ⟩
    rw [Tensor.at', m, ofFn_get _ this]
    rfl
  exact ⟨by simp [m, Tensor.rank, ofFn], rfl, fun β i j hβ hi hj => by rw [e β i j hβ hi hj, e β j i hβ hj hi]; exact h i hi j hj⟩

theorem A2_symm : IsSymm (den A2) := isSymm_m (by decide +kernel)

theorem A2_wf (S) : A2.WF S := ⟨by decide, Fits.nil _⟩
theorem B2_wf (S) : B2.WF S := ⟨by decide, Fits.nil _⟩
theorem F2_wf (S) : F2.WF S := ⟨by decide, Fits.nil _, rfl, lowerTri_m (by decide +kernel)⟩
theorem P2_wf (S) : P2.WF S :=
  ⟨⟨le_refl _, Fits.nil _⟩, ⟨num_wf _ _ _ _, num_wf _ _ _ _, num_wf _ _ _ _⟩, ⟨le_refl _, le_refl _, le_refl _⟩, ⟨rfl, rfl⟩, rfl, rfl⟩
theorem P3_wf (S) : P3.WF S :=
  ⟨⟨le_refl _, Fits.nil _⟩, ⟨num_wf _ _ _ _, num_wf _ _ _ _, num_wf _ _ _ _⟩, ⟨le_refl _, le_refl _, le_refl _⟩, ⟨rfl, rfl⟩, rfl, rfl⟩

/-- A matrix that the example backend inverts has an inverse. -/
theorem exists_inverse {a : Mat ℚ} (ha : a.Valid) {n k : ℕ} (h : isOk ((lops cfg.code lin (ops cfg.strict n) k).inv a) = true) : ∃ ai, IsInverse (den a) ai := by
  obtain ⟨r, hr⟩ := exists_of_isOk h
  exact ⟨den r, ((cfg.lok lin_lawful n k).inv ha.own hr).1.inv⟩

/-- A nonnegative diagonal matrix, stored densely. -/
def Q2 : Mat ℚ := .dense (m 2 2 [4, 0, 0, 9])

theorem Q2_psd : IsPsd (den Q2) := by
  refine ⟨isSymm_m (by decide +kernel), fun β x hβ => ?_⟩
  have e : ∀ i < 2, ∀ j < 2, (den Q2).at' o i j = if i = j then (if i = 0 then 4 else 9) else 0 := by decide +kernel
  have r : (den Q2).rows = 2 := rfl
  have hb : (den Q2).bt = [] := rfl
  rw [r]
  simp only [Finset.sum_range_succ, Finset.sum_range_zero, at0 hb β]
  rw [e 0 (by omega) 0 (by omega), e 0 (by omega) 1 (by omega), e 1 (by omega) 0 (by omega), e 1 (by omega) 1 (by omega)]
  simp
  nlinarith [sq_nonneg (x 0), sq_nonneg (x 1)]

end Verif.Ex
