/-
Square roots: correctness of one unfolding.
-/
import Verif.LinChol
import Mathlib.LinearAlgebra.Matrix.Trace
import Mathlib.LinearAlgebra.Matrix.DotProduct
import Mathlib.Tactic.Linarith
import Mathlib.Tactic.Positivity

set_option linter.unusedSectionVars false

namespace Verif

variable {K : Type} [Field K] [LinearOrder K]

/-- `s` is a batch of symmetric square roots of `a`: `s s = a`. -/
structure IsRoot (a s : Tensor K) : Prop where
  rank : 2 ≤ a.rank
  square : a.rows = a.cols
  shape : s.sh = a.sh
  symm : ∀ β i j, InRange a.bt β → i < a.rows → j < a.rows → s.at' β i j = s.at' β j i
  prod : ∀ β i j, InRange a.bt β → i < a.rows → j < a.rows → ∑ k ∈ Finset.range a.rows, s.at' β i k * s.at' β k j = a.at' β i j

/-- `a` is a batch of symmetric positive semi-definite matrices. -/
def IsPsd (a : Tensor K) : Prop :=
  IsSymm a ∧ ∀ β (x : ℕ → K), InRange a.bt β → 0 ≤ ∑ i ∈ Finset.range a.rows, ∑ j ∈ Finset.range a.rows, x i * a.at' β i j * x j

theorem IsRoot.of_mrep {n : ℕ} {a s : Tensor K} {F G} (ha : MRep a.bt n n a F) (hs : MRep a.bt n n s G) (hsh : s.sh = a.sh)
    (h : ∀ β, InRange a.bt β → (G β).transpose = G β ∧ G β * G β = F β) : IsRoot a s := by
  have hn := ha.rows
  subst hn
  refine ⟨ha.rank, ha.cols.symm, hsh, fun β i j hβ hi hj => ?_, fun β i j hβ hi hj => ?_⟩
  · have := congrFun (congrFun (h β hβ).1 ⟨i, hi⟩) ⟨j, hj⟩
    rw [Matrix.transpose_apply, ← hs.at' β _ _ hβ, ← hs.at' β _ _ hβ] at this
    exact this.symm
  · have := congrFun (congrFun (h β hβ).2 ⟨i, hi⟩) ⟨j, hj⟩
    rw [Matrix.mul_apply, ← ha.at' β _ _ hβ] at this
    rw [Finset.sum_range, ← this]
    exact Finset.sum_congr rfl fun k _ => by rw [← hs.at' β ⟨i, hi⟩ k hβ, ← hs.at' β k ⟨j, hj⟩ hβ]

theorem IsRoot.mrep {S : Shp} {a s : Tensor K} (h : IsRoot a s) (ga : Good S a) :
    MRep S a.rows a.rows a (fun β => mxOf a β a.rows a.rows) ∧ MRep S a.rows a.rows s (fun β => mxOf s β a.rows a.rows) ∧
    ∀ β, InRange S β → (mxOf s β a.rows a.rows).transpose = mxOf s β a.rows a.rows ∧ mxOf s β a.rows a.rows * mxOf s β a.rows a.rows = mxOf a β a.rows a.rows := by
  have gs : Good S s := ⟨by rw [rank_of_sh h.shape]; exact ga.rank, by rw [bt_of_sh h.shape]; exact ga.fits⟩
  refine ⟨MRep.of ga rfl h.square.symm, MRep.of gs (rows_of_sh h.shape) ((cols_of_sh h.shape).trans h.square.symm), fun β hβ => ?_⟩
  have hb := inRange_clip β (ga.fits.pos hβ.pos)
  have e1 : ∀ i j, a.at' (clip a.bt β) i j = a.at' β i j := fun i j => Tensor.at'_clip (Fits.refl _) β i j
  have e2 : ∀ i j, s.at' (clip a.bt β) i j = s.at' β i j := fun i j => Tensor.at'_clip (by rw [bt_of_sh h.shape]; exact Fits.refl _) β i j
  constructor
  · ext i j
    have := h.symm _ j i hb j.2 i.2
    rw [e2, e2] at this
    exact this
  · ext i j
    have := h.prod _ i j hb i.2 j.2
    rw [e1, Finset.sum_range] at this
    rw [Matrix.mul_apply]
    simp only [e2] at this
    exact this

/-! ### Uniqueness of positive semi-definite square roots, in any ordered field -/

section psd
variable {K : Type} [Field K] [LinearOrder K] [IsStrictOrderedRing K] {n : ℕ}
open Matrix

theorem psd_quad (A : Matrix (Fin n) (Fin n) K) (hs : Aᵀ = A) (hp : ∀ x : Fin n → K, 0 ≤ x ⬝ᵥ (A *ᵥ x)) {x : Fin n → K} (h0 : x ⬝ᵥ (A *ᵥ x) = 0) : A *ᵥ x = 0 := by
  set y := A *ᵥ x with hy
  have hxy : x ⬝ᵥ (A *ᵥ y) = y ⬝ᵥ y := by
    rw [Matrix.dotProduct_mulVec, ← Matrix.mulVec_transpose, hs]
  have key : ∀ t : K, 0 ≤ 2 * t * (y ⬝ᵥ y) + t * t * (y ⬝ᵥ (A *ᵥ y)) := by
    intro t
    have := hp (x + t • y)
    rw [Matrix.mulVec_add, Matrix.mulVec_smul, dotProduct_add, add_dotProduct, add_dotProduct, smul_dotProduct, smul_dotProduct, dotProduct_smul, dotProduct_smul,
      h0, hxy, ← hy] at this
    simp only [smul_eq_mul] at this
    linarith
  have hyy : 0 ≤ y ⬝ᵥ y := by
    rw [dotProduct]; exact Finset.sum_nonneg fun i _ => mul_self_nonneg _
  have hc := hp y
  have : y ⬝ᵥ y = 0 := by
    by_contra hne
    have pos : 0 < y ⬝ᵥ y := lt_of_le_of_ne hyy (Ne.symm hne)
    set p := y ⬝ᵥ y
    set c := y ⬝ᵥ (A *ᵥ y)
    have := key (-(p / (c + 1)))
    have h1 : 0 < c + 1 := by linarith
    have e : 2 * (-(p / (c + 1))) * p + -(p / (c + 1)) * -(p / (c + 1)) * c = -(p * p * (c + 2)) / ((c + 1) * (c + 1)) := by
      field_simp
      ring
    rw [e] at this
    have h2 : 0 < p * p * (c + 2) / ((c + 1) * (c + 1)) := by positivity
    rw [neg_div] at this
    linarith
  exact dotProduct_self_eq_zero.1 this

theorem psd_trace (A D : Matrix (Fin n) (Fin n) K) (hp : ∀ x : Fin n → K, 0 ≤ x ⬝ᵥ (A *ᵥ x)) (i : Fin n) : 0 ≤ (Dᵀ * A * D) i i ∧
    (Dᵀ * A * D) i i = (fun k => D k i) ⬝ᵥ (A *ᵥ fun k => D k i) := by
  have e : (Dᵀ * A * D) i i = (fun k => D k i) ⬝ᵥ (A *ᵥ fun k => D k i) := by
    rw [Matrix.mul_assoc, Matrix.mul_apply]
    rfl
  exact ⟨e ▸ hp _, e⟩

theorem psd_sq_unique (A P : Matrix (Fin n) (Fin n) K) (hA : Aᵀ = A) (hP : Pᵀ = P) (pA : ∀ x : Fin n → K, 0 ≤ x ⬝ᵥ (A *ᵥ x))
    (pP : ∀ x : Fin n → K, 0 ≤ x ⬝ᵥ (P *ᵥ x)) (h : A * A = P * P) : A = P := by
  set D := A - P with hD
  have hDt : Dᵀ = D := by rw [hD, transpose_sub, hA, hP]
  have h1 : A * D + D * P = 0 := by
    rw [hD, Matrix.mul_sub, Matrix.sub_mul, h]; abel
  have h2 : trace (Dᵀ * A * D) + trace (Dᵀ * P * D) = 0 := by
    have : trace (Dᵀ * P * D) = trace (Dᵀ * (D * P)) := by
      rw [hDt, Matrix.trace_mul_comm]
    rw [this, Matrix.mul_assoc, ← Matrix.trace_add, ← Matrix.mul_add, h1]; simp
  have nA : ∀ i, 0 ≤ (Dᵀ * A * D) i i := fun i => (psd_trace A D pA i).1
  have nP : ∀ i, 0 ≤ (Dᵀ * P * D) i i := fun i => (psd_trace P D pP i).1
  have sA : 0 ≤ trace (Dᵀ * A * D) := Finset.sum_nonneg fun i _ => nA i
  have sP : 0 ≤ trace (Dᵀ * P * D) := Finset.sum_nonneg fun i _ => nP i
  have zA : ∀ i, (Dᵀ * A * D) i i = 0 := fun i => (Finset.sum_eq_zero_iff_of_nonneg fun i _ => nA i).1 (by linarith : trace (Dᵀ * A * D) = 0) i (Finset.mem_univ _)
  have zP : ∀ i, (Dᵀ * P * D) i i = 0 := fun i => (Finset.sum_eq_zero_iff_of_nonneg fun i _ => nP i).1 (by linarith : trace (Dᵀ * P * D) = 0) i (Finset.mem_univ _)
  have cA : A * D = 0 := by
    ext k i
    exact congrFun (psd_quad A hA pA (by rw [← (psd_trace A D pA i).2]; exact zA i)) k
  have cP : P * D = 0 := by
    ext k i
    exact congrFun (psd_quad P hP pP (by rw [← (psd_trace P D pP i).2]; exact zP i)) k
  have hDD : D * D = 0 := by rw [show D * D = A * D - P * D by rw [← Matrix.sub_mul], cA, cP, sub_zero]
  have : D = 0 := by
    ext k i
    have := congrFun (congrFun hDD i) i
    rw [Matrix.mul_apply] at this
    have e : (fun j => D j i) ⬝ᵥ (fun j => D j i) = 0 := by
      rw [Matrix.zero_apply] at this
      rw [← this, dotProduct]
      refine Finset.sum_congr rfl fun j _ => ?_
      have := congrFun (congrFun hDt i) j
      rw [Matrix.transpose_apply] at this
      rw [this]
    exact congrFun (dotProduct_self_eq_zero.1 e) k
  exact sub_eq_zero.1 this

/-- The square root of a symmetric positive semi-definite matrix from its singular value decomposition. -/
theorem svd_root (A U W : Matrix (Fin n) (Fin n) K) (s q : Fin n → K) (hA : Aᵀ = A) (pA : ∀ x : Fin n → K, 0 ≤ x ⬝ᵥ (A *ᵥ x))
    (hU : Uᵀ * U = 1) (hW : Wᵀ * W = 1) (hs : ∀ i, 0 ≤ s i) (hq : ∀ i, q i * q i = s i) (h : A = U * diagonal s * Wᵀ) :
    (U * diagonal q * Uᵀ)ᵀ = U * diagonal q * Uᵀ ∧ (U * diagonal q * Uᵀ) * (U * diagonal q * Uᵀ) = A := by
  have tU : ∀ d : Fin n → K, (U * diagonal d * Uᵀ)ᵀ = U * diagonal d * Uᵀ := fun d => by
    rw [transpose_mul, transpose_mul, transpose_transpose, diagonal_transpose, Matrix.mul_assoc]
  have mU : ∀ d e : Fin n → K, (U * diagonal d * Uᵀ) * (U * diagonal e * Uᵀ) = U * diagonal (fun i => d i * e i) * Uᵀ := fun d e => by
    calc (U * diagonal d * Uᵀ) * (U * diagonal e * Uᵀ) = U * diagonal d * (Uᵀ * U) * diagonal e * Uᵀ := by simp only [Matrix.mul_assoc]
      _ = _ := by rw [hU, Matrix.mul_one, Matrix.mul_assoc U, diagonal_mul_diagonal]
  refine ⟨tU q, ?_⟩
  rw [mU]
  simp only [hq]
  symm
  refine psd_sq_unique _ _ hA (tU s) pA (fun x => ?_) ?_
  · have e : x ⬝ᵥ ((U * diagonal s * Uᵀ) *ᵥ x) = ∑ i, s i * ((Uᵀ *ᵥ x) i * (Uᵀ *ᵥ x) i) := by
      rw [← Matrix.mulVec_mulVec, ← Matrix.mulVec_mulVec, Matrix.dotProduct_mulVec, ← Matrix.mulVec_transpose, dotProduct]
      exact Finset.sum_congr rfl fun i _ => by rw [Matrix.mulVec_diagonal]; ring
    rw [e]
    exact Finset.sum_nonneg fun i _ => mul_nonneg (hs i) (mul_self_nonneg _)
  · rw [mU]
    calc A * A = A * Aᵀ := by rw [hA]
      _ = U * diagonal s * (Wᵀ * W) * diagonal s * Uᵀ := by
        rw [h, transpose_mul, transpose_mul, transpose_transpose, diagonal_transpose]; simp only [Matrix.mul_assoc]
      _ = _ := by rw [hW, Matrix.mul_one, Matrix.mul_assoc U, diagonal_mul_diagonal]

end psd

theorem sum_quad {n : ℕ} (f : ℕ → ℕ → K) (x : Fin n → K) : ∃ y : ℕ → K, x ⬝ᵥ (Matrix.of (fun i j : Fin n => f i j)).mulVec x =
    ∑ i ∈ Finset.range n, ∑ j ∈ Finset.range n, y i * f i j * y j := by
  refine ⟨fun i => if h : i < n then x ⟨i, h⟩ else 0, ?_⟩
  rw [dotProduct, Finset.sum_range]
  refine Finset.sum_congr rfl fun i _ => ?_
  rw [Matrix.mulVec, dotProduct, Finset.mul_sum, Finset.sum_range]
  refine Finset.sum_congr rfl fun j _ => ?_
  simp [mul_assoc]

theorem IsRoot.kron {S : Shp} {a b s u : Tensor K} (h1 : IsRoot a s) (h2 : IsRoot b u) (ga : Good S a) (gb : Good S b) :
    IsRoot (kronT a b) (kronT s u) := by
  have c : Compat a.bt b.bt := ga.fits.compat gb.fits
  have ga' : Good (bsh a.bt b.bt) a := ⟨ga.rank, c.fits_left⟩
  have gb' : Good (bsh a.bt b.bt) b := ⟨gb.rank, c.fits_right⟩
  obtain ⟨A, M, H⟩ := h1.mrep ga'
  obtain ⟨A', M', H'⟩ := h2.mrep gb'
  refine IsRoot.of_mrep (A.kron A') (M.kron M') ?_ fun β hβ => ?_
  · simp [rows_of_sh h1.shape, rows_of_sh h2.shape, cols_of_sh h1.shape, cols_of_sh h2.shape, bt_of_sh h1.shape, bt_of_sh h2.shape]
  · obtain ⟨e1, e2⟩ := H β hβ
    obtain ⟨e3, e4⟩ := H' β hβ
    exact ⟨by rw [kronMx_transpose, e1, e3], by rw [kronMx_mul, e2, e4]⟩

/-- Square roots are taken of these. -/
def Mat.RootDom : Mat K → Prop
  | .num t => IsPsd t
  | .dense t => IsPsd t
  | .lr l r m => IsPsd (den (.lr l r m))
  | .wb d l r m => IsPsd (den (.wb d l r m))
  | .kron l r => l.RootDom ∧ r.RootDom
  | _ => True

/-- What `B.root` promises. -/
structure RootOk (S : Shp) (a s : Mat K) : Prop where
  wf : s.WF S
  root : IsRoot (den a) (den s)

def RootC (L : LOps K) : Prop := ∀ {S a s}, Mat.WF S a → a.RootDom → L.root a = .ok s → RootOk S a s

/-- Cholesky factors of Diagonal and Constant matrices are symmetric. -/
def DcC (L : LOps K) : Prop := ∀ {S a s}, Mat.WF S a → a.kind = some .diag ∨ a.kind = some .const → L.chol a = .ok s → RootOk S a s

/-- A symmetric factor is a root. -/
theorem IsRoot.of_factor {a s : Tensor K} (h2 : 2 ≤ a.rank) (h : IsFactor a s) (hs : IsSymm s) : IsRoot a s := by
  have ec : s.cols = a.rows := by rw [← hs.2.1, h.rows]
  have gs : Good s.bt s := ⟨hs.1, Fits.refl _⟩
  have ga : Good a.bt a := ⟨h2, Fits.refl _⟩
  refine ⟨h2, h.square, by rw [gs.sh, ga.sh, ec, h.rows, h.batch, ← h.square], fun β i j hβ hi hj => ?_, fun β i j hβ hi hj => ?_⟩
  · exact hs.2.2 β i j (by rw [h.batch]; exact hβ) (by rw [h.rows]; exact hi) (by rw [h.rows]; exact hj)
  · rw [← h.prod β i j hβ hi hj, ec]
    refine Finset.sum_congr rfl fun k hk => ?_
    rw [hs.2.2 β k j (by rw [h.batch]; exact hβ) (by rw [h.rows]; exact Finset.mem_range.1 hk) (by rw [h.rows]; exact hj)]

theorem symm_constM {t : Tensor K} (n : ℕ) : IsSymm (den (.const t n n)) := by
  refine ⟨by simp [den, Tensor.rank], rfl, fun β i j hβ hi hj => ?_⟩
  rfl

section
variable {env env' : Env K} {lin : LinEnv K} {B : Ops K} {L : LOps K} (hl : lin.Lawful) (hB : B.Ok)
include hl hB

theorem stepChol_dc (hC : CholC (lstep env lin B L)) : DcC (lstep env lin B L) := by
  intro S a s wa hk h
  have o := hC wa h
  refine ⟨o.wf, ?_⟩
  cases a <;> simp [Mat.kind] at hk
  · have ks := o.kind.2.2 rfl
    obtain ⟨v, rfl⟩ := kind_diag ks
    exact IsRoot.of_factor o.rank' (o.factor trivial) (symm_diagC o.wf.1)
  · rename_i t r c
    have f := o.factor trivial
    change stepChol lin B L (.const t r c) = .ok s at h
    simp only [stepChol, bind_ok_iff, assertSquare_ok wa, exists_const] at h
    obtain ⟨⟨_, hs⟩, x, hx, y, hy, z, hz, h⟩ := h
    obtain ⟨_, rfl⟩ := mkConst_ok h
    change r = c at hs
    subst hs
    exact IsRoot.of_factor o.rank' f (symm_constM _)

variable [IsStrictOrderedRing K]

theorem rootNum_ok {S : Shp} {t : Tensor K} {x : Mat K} (wt : (Mat.num t).WF S) (hp : IsPsd t) (h : rootNum lin B t = .ok x) : RootOk S (.num t) x := by
  simp only [rootNum, bind_ok_iff, assertSquare_ok wt, exists_const] at h
  obtain ⟨⟨h2, hs⟩, ⟨u, s⟩, hu, q, hq, h⟩ := h
  change 2 ≤ t.rank at h2
  change t.rows = t.cols at hs
  obtain ⟨hsu, hss, w, hsw, hU, hW, hpos, hent⟩ := hl.svd hu hs h2
  obtain ⟨hsq, hq⟩ := nSqrt_ok hl hq
  simp only at hsq hq h
  have gt : Good S t := ⟨h2, wt.2⟩
  have gu : ∀ {T : Shp}, Good T t → Good T u := fun g => ⟨by rw [rank_of_sh hsu]; exact g.rank, by rw [bt_of_sh hsu]; exact g.fits⟩
  have gw : ∀ {T : Shp}, Good T t → Good T w := fun g => ⟨by rw [rank_of_sh hsw]; exact g.rank, by rw [bt_of_sh hsw]; exact g.fits⟩
  have gq : ∀ {T : Shp}, Good T t → GoodV T q := fun g => ⟨by simp [Tensor.rank, hsq, hss], by rw [hsq, hss]; exact g.fits⟩
  have eq : q.cols = t.rows := by simp [Tensor.cols, hsq, hss]
  have wu : (Mat.num u).WF S := wf_num_of (gu gt)
  have wq : (Mat.num (diagC q)).WF S := wf_num_of (Rep.diagC (VRep.self (gq gt).rank (gq gt).fits)).good
  obtain ⟨wx, _, _, ex⟩ := matmul3_ok hB wu wq wu (gu gt).rank (by simp [den, Tensor.rank]) (gu gt).rank h
  refine ⟨wx, ?_⟩
  simp only [den, trIf_false, trIf_true] at ex
  rw [ex]
  have g : Good t.bt t := ⟨h2, Fits.refl _⟩
  have T := MRep.of g rfl hs.symm
  have U := MRep.of (gu g) (rows_of_sh hsu) ((cols_of_sh hsu).trans hs.symm)
  have Q := MRep.diagC (gq g)
  rw [eq] at Q
  refine IsRoot.of_mrep T ((U.mm Q).mm U.tr) ?_ fun β hβ => ?_
  · show _ = t.sh
    have e : (mm (mm u (diagC q)) (tr u)).sh = u.rows :: u.rows :: bsh (bsh u.bt q.sh.tail) u.bt := rfl
    rw [e, rows_of_sh hsu, bt_of_sh hsu, hsq, hss, List.tail_cons, bsh_self, bsh_self]
    conv_rhs => rw [g.sh, ← hs]
  · have vq : ∀ i : Fin t.rows, q.vat β i * q.vat β i = s.vat β i := fun i =>
      (hq (icons i β) (by rw [hss, inRange_cons]; exact ⟨i.2, hβ⟩)).2
    refine svd_root (mxOf t β t.rows t.rows) (mxOf u β t.rows t.rows) (mxOf w β t.rows t.rows) (fun i => s.vat β i) (fun i => q.vat β i) ?_ (fun x => ?_) ?_ ?_ (fun i => hpos β i hβ i.2) vq ?_
    · ext i j
      exact hp.1.2.2 β j i hβ j.2 i.2
    · obtain ⟨y, hy⟩ := sum_quad (fun i j => t.at' β i j) x
      change 0 ≤ x ⬝ᵥ (Matrix.of (fun i j : Fin t.rows => t.at' β i j)).mulVec x
      rw [hy]
      exact hp.2 β y hβ
    · ext i j
      rw [Matrix.mul_apply, Matrix.one_apply]
      have := hU β i j hβ i.2 j.2
      rw [Finset.sum_range] at this
      simpa [mxOf, Fin.ext_iff] using this
    · ext i j
      rw [Matrix.mul_apply, Matrix.one_apply]
      have := hW β i j hβ i.2 j.2
      rw [Finset.sum_range] at this
      simpa [mxOf, Fin.ext_iff] using this
    · ext i j
      rw [Matrix.mul_apply]
      have := hent β i j hβ i.2 j.2
      rw [Finset.sum_range] at this
      simpa [mxOf, Matrix.mul_diagonal] using this

theorem stepRoot_ok (hD : DcC L) (hR : RootC L) : RootC (lstep env lin B L) := by
  intro S a s wa hd h
  change stepRoot lin B L a = .ok s at h
  have viaNum : ∀ {t : Tensor K} {x : Mat K} {u : Tensor K}, Good S t → IsPsd t → L.root (.num t) = .ok x → B.dense x = .ok u → Good S u ∧ IsRoot t u := by
    intro t x u g hp h1 h2
    have o := hR (wf_num_of g) hp h1
    obtain rfl := hB.dense o.wf h2
    exact ⟨o.wf.good (by rw [rank_of_sh o.root.shape]; exact g.rank), o.root⟩
  have mkD : ∀ {u : Tensor K}, Good S u → mkDense u = .dense u := fun g => by
    unfold mkDense
    rw [upT_of_rank g.rank]
  unfold stepRoot at h
  split at h
  · exact rootNum_ok hl hB wa hd h
  · rename_i bt r c
    simp only [bind_ok_iff, pure_eq_ok, assertSquare_ok wa, exists_const] at h
    obtain ⟨⟨h2, hs⟩, rfl⟩ := h
    change r = c at hs
    subst hs
    refine ⟨wa, IsRoot.of_factor h2 (factor_fill _ _) ⟨h2, rfl, fun β i j hβ hi hj => ?_⟩⟩
    have z := Rep.fill (Fits.refl bt) r r (0 : K)
    rw [show den (.zero bt r r) = fillT (r :: r :: bt) (0 : K) from rfl, z.at' β i j hβ hi hj, z.at' β j i hβ hj hi]
  · simp only [bind_ok_iff, pure_eq_ok] at h
    obtain ⟨x, hx, u, hu, rfl⟩ := h
    obtain ⟨g, r⟩ := viaNum (wa.good (wa.rank rfl)) hd hx hu
    rw [mkD g]
    exact ⟨⟨g.rank, g.fits⟩, r⟩
  · simp only [bind_ok_iff, assertSquare_ok wa, exists_const] at h
    exact hD wa (.inl rfl) h.2
  · simp only [bind_ok_iff, assertSquare_ok wa, exists_const] at h
    exact hD wa (.inr rfl) h.2
  · simp only [bind_ok_iff, pure_eq_ok] at h
    obtain ⟨y, hy, x, hx, u, hu, rfl⟩ := h
    obtain rfl := hB.dense wa hy
    obtain ⟨g, r⟩ := viaNum (wa.good (wa.rank rfl)) hd hx hu
    rw [mkD g]
    exact ⟨⟨g.rank, g.fits⟩, r⟩
  · simp only [bind_ok_iff, pure_eq_ok] at h
    obtain ⟨y, hy, x, hx, u, hu, rfl⟩ := h
    obtain rfl := hB.dense wa hy
    obtain ⟨g, r⟩ := viaNum (wa.good (wa.rank rfl)) hd hx hu
    rw [mkD g]
    exact ⟨⟨g.rank, g.fits⟩, r⟩
  · simp only [bind_ok_iff, pure_eq_ok] at h
    obtain ⟨x, hx, y, hy, rfl⟩ := h
    obtain ⟨⟨wl, wr⟩, kl, kr⟩ := wa
    have o1 := hR wl hd.1 hx
    have o2 := hR wr hd.2 hy
    exact ⟨⟨⟨o1.wf, o2.wf⟩, by rw [rank_of_sh o1.root.shape]; exact kl, by rw [rank_of_sh o2.root.shape]; exact kr⟩,
      IsRoot.kron o1.root o2.root (wl.good kl) (wr.good kr)⟩
  · simp at h

end

end Verif
