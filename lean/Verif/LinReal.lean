/-
Success of linear algebra (C50), part 5: over the real numbers a backend as assumed in C50 exists.
It is not the code of any backend: it returns what `LinEnv.Lawful` describes, where that exists.  The point is that nothing contradictory is assumed.
-/
import Verif.Props11
import Mathlib.Analysis.Matrix.PosDef
import Mathlib.Analysis.SpecialFunctions.Log.Basic

set_option linter.unusedSectionVars false

open Matrix

namespace Verif

/-! ### Factors of a single matrix -/

/-- Cholesky factors of positive-definite matrices, by recursion over the Schur complement. -/
theorem PD.chol : ∀ {n : ℕ} {A : Matrix (Fin n) (Fin n) ℝ}, PD A → ∃ L : Matrix (Fin n) (Fin n) ℝ, (∀ i j, i < j → L i j = 0) ∧ (∀ i, 0 < L i i) ∧ L * Lᵀ = A
  | 0, A, _ => ⟨A, fun i => i.elim0, fun i => i.elim0, by ext i; exact i.elim0⟩
  | n + 1, A, h => by
    have sy : ∀ i j, A i j = A j i := fun i j => congrFun (congrFun h.1 j) i
    have quad : ∀ y : Fin (n + 1) → ℝ, y ⬝ᵥ (A *ᵥ y) = ∑ i, ∑ j, y i * A i j * y j := by
      intro y
      simp only [dotProduct, Matrix.mulVec, Finset.mul_sum, mul_assoc]
    have a0 : 0 < A 0 0 := by
      have := h.2 (Pi.single 0 1) (by intro e; have := congrFun e 0; simp at this)
      simpa using this
    let S : Matrix (Fin n) (Fin n) ℝ := Matrix.of fun i j => A i.succ j.succ - A i.succ 0 * A j.succ 0 / A 0 0
    have hS : PD S := by
      refine ⟨?_, fun x hx => ?_⟩
      · ext i j
        simp only [S, Matrix.transpose_apply, Matrix.of_apply]
        rw [sy i.succ j.succ, mul_comm]
      · let t := ∑ j, x j * A j.succ 0
        let y : Fin (n + 1) → ℝ := Fin.cons (- t / A 0 0) x
        have hy : y ≠ 0 := fun e => hx (funext fun i => by have := congrFun e i.succ; simpa [y] using this)
        have hp := h.2 y hy
        have e1 : x ⬝ᵥ (S *ᵥ x) = (∑ i, ∑ j, x i * A i.succ j.succ * x j) - t * t / A 0 0 := by
          have tt : t * t = ∑ i, ∑ j, (x i * A i.succ 0) * (x j * A j.succ 0) := Finset.sum_mul_sum _ _ _ _
          rw [tt, Finset.sum_div, ← Finset.sum_sub_distrib]
          simp only [dotProduct, Matrix.mulVec, S, Matrix.of_apply, Finset.mul_sum]
          refine Finset.sum_congr rfl fun i _ => ?_
          rw [Finset.sum_div, ← Finset.sum_sub_distrib]
          refine Finset.sum_congr rfl fun j _ => ?_
          ring
        have e2 : y ⬝ᵥ (A *ᵥ y) = (∑ i, ∑ j, x i * A i.succ j.succ * x j) - t * t / A 0 0 := by
          rw [quad]
          simp only [Fin.sum_univ_succ (n := n), y, Fin.cons_zero, Fin.cons_succ, Finset.sum_add_distrib]
          have e3 : ∑ j, -t / A 0 0 * A 0 (Fin.succ j) * x j = -t / A 0 0 * t := by
            simp only [t, Finset.mul_sum]
            refine Finset.sum_congr rfl fun j _ => ?_
            rw [sy 0 j.succ]; ring
          have e4 : ∑ i, x i * A (Fin.succ i) 0 * (-t / A 0 0) = t * (-t / A 0 0) := by
            rw [← Finset.sum_mul]
          rw [e3, e4]
          field_simp
          ring
        rw [e1, ← e2]; exact hp
    obtain ⟨L, l1, l2, l3⟩ := PD.chol hS
    have s0 : 0 < Real.sqrt (A 0 0) := Real.sqrt_pos.2 a0
    have ss : Real.sqrt (A 0 0) * Real.sqrt (A 0 0) = A 0 0 := Real.mul_self_sqrt a0.le
    let M : Matrix (Fin (n + 1)) (Fin (n + 1)) ℝ := Matrix.of fun i j =>
      Fin.cases (motive := fun _ => ℝ) (Fin.cases (motive := fun _ => ℝ) (Real.sqrt (A 0 0)) (fun _ => 0) j)
        (fun i => Fin.cases (motive := fun _ => ℝ) (A i.succ 0 / Real.sqrt (A 0 0)) (fun j => L i j) j) i
    have m00 : M 0 0 = Real.sqrt (A 0 0) := rfl
    have m0s : ∀ j : Fin n, M 0 j.succ = 0 := fun _ => rfl
    have ms0 : ∀ i : Fin n, M i.succ 0 = A i.succ 0 / Real.sqrt (A 0 0) := fun _ => rfl
    have mss : ∀ i j : Fin n, M i.succ j.succ = L i j := fun _ _ => rfl
    refine ⟨M, ?_, ?_, ?_⟩
    · intro i j hij
      cases i using Fin.cases with
      | zero =>
        cases j using Fin.cases with
        | zero => exact absurd hij (lt_irrefl _)
        | succ j => exact m0s j
      | succ i =>
        cases j using Fin.cases with
        | zero => exact absurd hij (by simp)
        | succ j => rw [mss]; exact l1 i j (by simpa using hij)
    · intro i
      cases i using Fin.cases with
      | zero => rw [m00]; exact s0
      | succ i => rw [mss]; exact l2 i
    · have l3' : ∀ i j, ∑ k, L i k * L j k = A i.succ j.succ - A i.succ 0 * A j.succ 0 / A 0 0 := fun i j => by
        have := congrFun (congrFun l3 i) j
        simpa [Matrix.mul_apply, S] using this
      ext i j
      simp only [Matrix.mul_apply, Matrix.transpose_apply]
      rw [Fin.sum_univ_succ]
      cases i using Fin.cases with
      | zero =>
        simp only [m0s, zero_mul, Finset.sum_const_zero, add_zero, m00]
        cases j using Fin.cases with
        | zero => rw [m00, ss]
        | succ j => rw [ms0, sy 0 j.succ]; field_simp
      | succ i =>
        cases j using Fin.cases with
        | zero =>
          simp only [m0s, mul_zero, Finset.sum_const_zero, add_zero, m00, ms0]
          field_simp
        | succ j =>
          simp only [ms0, mss]
          rw [l3', div_mul_div_comm, ss]
          ring

/-- A positive semi-definite matrix. -/
def PSD {n : ℕ} (A : Matrix (Fin n) (Fin n) ℝ) : Prop := Aᵀ = A ∧ ∀ x : Fin n → ℝ, 0 ≤ x ⬝ᵥ (A *ᵥ x)

/-- The spectral decomposition. -/
theorem PSD.spectral {n : ℕ} {A : Matrix (Fin n) (Fin n) ℝ} (h : PSD A) : ∃ (U : Matrix (Fin n) (Fin n) ℝ) (s : Fin n → ℝ), Uᵀ * U = 1 ∧ (∀ i, 0 ≤ s i) ∧ A = U * Matrix.diagonal s * Uᵀ := by
  have hA : A.IsHermitian := by
    show Aᴴ = A
    rw [Matrix.conjTranspose_eq_transpose_of_trivial]; exact h.1
  have hp : A.PosSemidef := .of_dotProduct_mulVec_nonneg hA fun x => by
    rw [star_trivial]; exact h.2 x
  refine ⟨hA.eigenvectorUnitary, hA.eigenvalues, ?_, fun i => hp.eigenvalues_nonneg i, ?_⟩
  · have := hA.eigenvectorUnitary.2
    have := (Matrix.mem_unitaryGroup_iff').1 this
    rw [Matrix.star_eq_conjTranspose, Matrix.conjTranspose_eq_transpose_of_trivial] at this
    exact this
  · have := hA.spectral_theorem
    rw [Unitary.conjStarAlgAut_apply, Matrix.star_eq_conjTranspose, Matrix.conjTranspose_eq_transpose_of_trivial] at this
    exact this

/-! ### Batches -/

/-- A matrix for every element of the batch. -/
theorem exists_batch {n : ℕ} {bt : Shp} {Q : Idx → Matrix (Fin n) (Fin n) ℝ → Prop} (h : ∀ β, InRange bt β → ∃ L, Q β L) :
    ∃ l : Tensor ℝ, l.sh = n :: n :: bt ∧ ∀ β, InRange bt β → ∃ L, Q β L ∧ ∀ i j : Fin n, l.at' β i j = L i j := by
  classical
  let F : Idx → Matrix (Fin n) (Fin n) ℝ := fun β => if hβ : InRange bt β then (h β hβ).choose else 0
  refine ⟨mkMat bt n n fun β i j => if hi : i < n then (if hj : j < n then F β ⟨i, hi⟩ ⟨j, hj⟩ else 0) else 0, rfl, fun β hβ => ⟨F β, ?_, fun i j => ?_⟩⟩
  · simp only [F, dif_pos hβ]
    exact (h β hβ).choose_spec
  · rw [(Rep.mkMat (S := bt) (Fits.refl _) _).at' β i j hβ i.2 j.2, clip_of_inRange hβ]
    simp

theorem exists_vec {n : ℕ} {bt : Shp} {Q : Idx → (Fin n → ℝ) → Prop} (h : ∀ β, InRange bt β → ∃ L, Q β L) :
    ∃ l : Tensor ℝ, l.sh = n :: bt ∧ ∀ β, InRange bt β → ∃ L, Q β L ∧ ∀ i : Fin n, l.vat β i = L i := by
  classical
  let F : Idx → (Fin n → ℝ) := fun β => if hβ : InRange bt β then (h β hβ).choose else 0
  refine ⟨mkVec bt n fun β i => if hi : i < n then F β ⟨i, hi⟩ else 0, rfl, fun β hβ => ⟨F β, ?_, fun i => ?_⟩⟩
  · simp only [F, dif_pos hβ]
    exact (h β hβ).choose_spec
  · rw [(VRep.mkVec (S := bt) (Fits.refl _) _).vat β i hβ i.2, clip_of_inRange hβ]
    simp

/-! ### The backend -/

open Classical in
/-- Return something with the property, or raise. -/
noncomputable def findE {α : Type} (P : α → Prop) : E α := if h : ∃ x, P x then .ok h.choose else .error .value

theorem findE_ok {α : Type} {P : α → Prop} {x : α} (h : findE P = .ok x) : P x := by
  unfold findE at h
  split_ifs at h with h0
  cases h
  exact h0.choose_spec

theorem findE_of {α : Type} {P : α → Prop} (h : ∃ x, P x) : ∃ x, findE P = .ok x := ⟨h.choose, by rw [findE, dif_pos h]⟩

theorem findE_nf {α : Type} {P : α → Prop} : NF (findE P) := by
  unfold findE
  split_ifs
  · exact NF.ok _
  · exact NF.err (by simp [Err.real])

def InvP (a r : Tensor ℝ) : Prop := 2 ≤ a.rank ∧ a.rows = a.cols ∧ r.sh = a.sh ∧
    ∀ β i j, InRange a.bt β → i < a.rows → j < a.rows → ∑ k ∈ Finset.range a.rows, a.at' β i k * r.at' β k j = if i = j then 1 else 0
def CholP (a l : Tensor ℝ) : Prop := 2 ≤ a.rank ∧ a.rows = a.cols ∧ l.sh = a.sh ∧ LowerTri l ∧
    (∀ β i, InRange a.bt β → i < a.rows → 0 < l.at' β i i) ∧
    ∀ β i j, InRange a.bt β → i < a.rows → j ≤ i → ∑ k ∈ Finset.range a.rows, l.at' β i k * l.at' β j k = a.at' β i j
def DetP (a v : Tensor ℝ) : Prop := 2 ≤ a.rank ∧ a.rows = a.cols ∧ v.sh = a.bt ∧
    ∀ β, InRange a.bt β → (mxOf a β a.rows a.rows).det ≠ 0 ∧ v.get β = Real.log |(mxOf a β a.rows a.rows).det|
def SvdP (a : Tensor ℝ) (us : Tensor ℝ × Tensor ℝ) : Prop := a.rows = a.cols → 2 ≤ a.rank → us.1.sh = a.sh ∧ us.2.sh = a.rows :: a.bt ∧ ∃ w : Tensor ℝ, w.sh = a.sh ∧
    (∀ β i j, InRange a.bt β → i < a.rows → j < a.rows → ∑ k ∈ Finset.range a.rows, us.1.at' β k i * us.1.at' β k j = if i = j then 1 else 0) ∧
    (∀ β i j, InRange a.bt β → i < a.rows → j < a.rows → ∑ k ∈ Finset.range a.rows, w.at' β k i * w.at' β k j = if i = j then 1 else 0) ∧
    (∀ β i, InRange a.bt β → i < a.rows → 0 ≤ us.2.vat β i) ∧
    ∀ β i j, InRange a.bt β → i < a.rows → j < a.rows → a.at' β i j = ∑ k ∈ Finset.range a.rows, us.1.at' β i k * us.2.vat β k * w.at' β j k

open Classical in
/-- Real linear algebra, exact. -/
noncomputable def realLin : LinEnv ℝ where
  inv a := findE (InvP a)
  chol a := findE (CholP a)
  solve a b := findE fun x => 2 ≤ a.rank ∧ 2 ≤ b.rank ∧ IsSolution a b x
  trisolve lower a b := findE fun x => 2 ≤ a.rank ∧ 2 ≤ b.rank ∧ IsSolution (triPart lower a) b x
  logdet a := findE (DetP a)
  svd a := findE (SvdP a)
  sqrt x := if 0 ≤ x then some (Real.sqrt x) else none
  log := Real.log

theorem realLin_lawful : realLin.Lawful where
  inv {a _} h := findE_ok (P := InvP a) h
  chol {a _} h := findE_ok (P := CholP a) h
  solve {a b _} h := findE_ok (P := fun x => 2 ≤ a.rank ∧ 2 ≤ b.rank ∧ IsSolution a b x) h
  trisolve {l a b _} h := findE_ok (P := fun x => 2 ≤ a.rank ∧ 2 ≤ b.rank ∧ IsSolution (triPart l a) b x) h
  logdet {a _} h := findE_ok (P := DetP a) h
  svd {a _ _} h := findE_ok (P := SvdP a) h
  sqrt := by
    intro x y h
    simp only [realLin] at h
    split_ifs at h with h0
    cases h
    exact ⟨Real.sqrt_nonneg _, Real.mul_self_sqrt h0⟩
  log hx hy := Real.log_mul hx.ne' hy.ne'

theorem realLin_total : realLin.Total where
  inv _ := findE_nf
  chol _ := findE_nf
  solve _ _ := findE_nf
  trisolve _ _ _ := findE_nf
  logdet _ := findE_nf
  svd _ := findE_nf
  inv_rank t _ h := rank_of_sh (findE_ok (P := InvP t) h).2.2.1

theorem solution_exists {a b : Tensor ℝ} (h : a.Invertible) (h2 : 2 ≤ b.rank) (hr : a.rows = b.rows) (hc : Compat a.bt b.bt) : ∃ x, IsSolution a b x := by
  obtain ⟨r, h⟩ := h
  exact ⟨_, IsSolution.of_inverse h ⟨h.rank, hc.fits_left⟩ ⟨h2, hc.fits_right⟩ (by rw [cols_of_sh h.shape, ← h.square, hr])⟩

theorem realLin_complete : realLin.Complete where
  inv := fun ⟨r, h⟩ => findE_of ⟨r, h.rank, h.square, h.shape, h.right⟩
  chol := by
    intro a h
    apply findE_of
    have sq := h.square
    obtain ⟨l, hs, hl⟩ := exists_batch (n := a.rows) (bt := a.bt)
      (Q := fun β L => (∀ i j, i < j → L i j = 0) ∧ (∀ i, 0 < L i i) ∧ L * Lᵀ = mxOf a β a.rows a.rows) fun β hβ =>
        PD.chol ((h.mrep hβ.pos ⟨h.rank, Fits.refl _⟩ rfl).2 β hβ)
    have hs' : l.sh = a.sh := by rw [hs, Tensor.sh_eq h.rank, ← sq]
    refine ⟨l, h.rank, sq, hs', ?_, ?_, ?_⟩
    · intro β i j hβ hi hj hij
      rw [bt_of_sh hs'] at hβ
      rw [rows_of_sh hs'] at hi
      rw [cols_of_sh hs', ← sq] at hj
      obtain ⟨L, ⟨h1, _, _⟩, e⟩ := hl β hβ
      exact (e ⟨i, hi⟩ ⟨j, hj⟩).trans (h1 _ _ hij)
    · intro β i hβ hi
      obtain ⟨L, ⟨_, h1, _⟩, e⟩ := hl β hβ
      have := e ⟨i, hi⟩ ⟨i, hi⟩
      simp only at this
      rw [this]; exact h1 _
    · intro β i j hβ hi hj
      obtain ⟨L, ⟨_, _, h1⟩, e⟩ := hl β hβ
      have h2 := congrFun (congrFun h1 ⟨i, hi⟩) ⟨j, lt_of_le_of_lt hj hi⟩
      rw [Matrix.mul_apply] at h2
      rw [Finset.sum_range]
      refine Eq.trans (Finset.sum_congr rfl fun k _ => ?_) h2
      rw [Matrix.transpose_apply, ← e, ← e]
  solve := by
    intro a b h h2 hr hc
    obtain ⟨x, hx⟩ := solution_exists h h2 hr hc
    obtain ⟨r, h⟩ := h
    exact findE_of ⟨x, h.rank, h2, hx⟩
  trisolve := by
    intro lower a b ha h h2 hr hc
    obtain ⟨x, hx⟩ := solution_exists h h2 hr hc
    exact findE_of ⟨x, ha, h2, hx⟩
  logdet := by
    rintro a ⟨r, h⟩
    refine findE_of ⟨ofFn a.bt fun β => Real.log |(mxOf a β a.rows a.rows).det|, h.rank, h.square, rfl, fun β hβ => ⟨?_, ofFn_get _ hβ⟩⟩
    obtain ⟨_, _, e⟩ := h.mrep' (S := a.bt) ⟨h.rank, Fits.refl _⟩ rfl
    have := congrArg Matrix.det (e β hβ)
    rw [Matrix.det_mul, Matrix.det_one] at this
    exact left_ne_zero_of_mul (this.symm ▸ one_ne_zero)
  svd := by
    intro a h
    apply findE_of
    have sq := h.1.2.1
    have hp : ∀ β, InRange a.bt β → PSD (mxOf a β a.rows a.rows) := fun β hβ => by
      refine ⟨(h.1.mrep ⟨h.1.1, Fits.refl _⟩).2 β hβ, fun x => ?_⟩
      obtain ⟨y, hy⟩ := exists_ext x
      have := h.2 β y hβ
      rw [quad_sum (mxOf a β a.rows a.rows) _ y fun i j => rfl] at this
      simpa only [hy] using this
    obtain ⟨u, hu, eu⟩ := exists_batch (n := a.rows) (bt := a.bt) (Q := fun β U => ∃ s : Fin a.rows → ℝ, Uᵀ * U = 1 ∧ (∀ i, 0 ≤ s i) ∧ mxOf a β a.rows a.rows = U * Matrix.diagonal s * Uᵀ)
      fun β hβ => (hp β hβ).spectral
    obtain ⟨s, hs, es⟩ := exists_vec (n := a.rows) (bt := a.bt) (Q := fun β s => ∃ U : Matrix (Fin a.rows) (Fin a.rows) ℝ, (∀ i j : Fin a.rows, u.at' β i j = U i j) ∧ Uᵀ * U = 1 ∧
      (∀ i, 0 ≤ s i) ∧ mxOf a β a.rows a.rows = U * Matrix.diagonal s * Uᵀ) fun β hβ => by
        obtain ⟨U, ⟨s, h1, h2, h3⟩, e⟩ := eu β hβ
        exact ⟨s, U, e, h1, h2, h3⟩
    have hu' : u.sh = a.sh := by rw [hu, Tensor.sh_eq h.1.1, ← sq]
    have orth : ∀ β i j, InRange a.bt β → i < a.rows → j < a.rows → ∑ k ∈ Finset.range a.rows, u.at' β k i * u.at' β k j = if i = j then 1 else 0 := by
      intro β i j hβ hi hj
      obtain ⟨_, ⟨U, e, h1, _, _⟩, _⟩ := es β hβ
      have h2 := congrFun (congrFun h1 ⟨i, hi⟩) ⟨j, hj⟩
      rw [Matrix.mul_apply, Matrix.one_apply] at h2
      rw [Finset.sum_range]
      refine (Finset.sum_congr rfl fun k _ => ?_).trans (h2.trans (if_congr (by simp) rfl rfl))
      rw [Matrix.transpose_apply, ← e, ← e]
    refine ⟨(u, s), fun _ _ => ⟨hu', hs, u, hu', orth, orth, fun β i hβ hi => ?_, fun β i j hβ hi hj => ?_⟩⟩
    · obtain ⟨_, ⟨U, _, _, h2, _⟩, e⟩ := es β hβ
      have := e ⟨i, hi⟩
      simp only at this
      rw [this]; exact h2 _
    · obtain ⟨s', ⟨U, e, _, _, h3⟩, e'⟩ := es β hβ
      have h4 := congrFun (congrFun h3 ⟨i, hi⟩) ⟨j, hj⟩
      rw [Matrix.mul_apply] at h4
      rw [Finset.sum_range]
      refine Eq.trans h4 (Finset.sum_congr rfl fun k _ => ?_)
      rw [Matrix.mul_diagonal, Matrix.transpose_apply, ← e, ← e, ← e']
  sqrt := fun {x} h => ⟨Real.sqrt x, by simp [realLin, h]⟩

/-- The assumptions of C50 about the backend can be met: real linear algebra. -/
theorem realLin_good : realLin.Good := ⟨realLin_lawful, realLin_complete, realLin_total⟩

end Verif
