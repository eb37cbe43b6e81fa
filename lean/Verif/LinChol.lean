/-
Cholesky factors and positive-definite inverses: correctness of one unfolding.
-/
import Verif.LinSolve

set_option linter.unusedSectionVars false

namespace Verif

variable {K : Type} [Field K] [LinearOrder K]

/-! ### Factors in terms of matrices -/

theorem IsFactor.of_mrep {n k : ℕ} {a l : Tensor K} {F G} (ha : MRep a.bt n n a F) (hl : MRep a.bt n k l G) (hbt : l.bt = a.bt)
    (h : ∀ β, InRange a.bt β → G β * (G β).transpose = F β) : IsFactor a l := by
  refine ⟨ha.rows.trans ha.cols.symm, hl.rows.trans ha.rows.symm, hbt, fun β i j hβ hi hj => ?_⟩
  rw [ha.rows] at hi hj
  rw [hl.cols]
  have e := congrFun (congrFun (h β hβ) ⟨i, hi⟩) ⟨j, hj⟩
  rw [Matrix.mul_apply, ← ha.at' β ⟨i, hi⟩ ⟨j, hj⟩ hβ] at e
  rw [Finset.sum_range, ← e]
  refine Finset.sum_congr rfl fun q _ => ?_
  rw [Matrix.transpose_apply, ← hl.at' β ⟨i, hi⟩ q hβ, ← hl.at' β ⟨j, hj⟩ q hβ]

theorem IsFactor.mrep {S : Shp} {a l : Tensor K} (h : IsFactor a l) (ga : Good S a) (hl : 2 ≤ l.rank) :
    MRep S a.rows a.rows a (fun β => mxOf a β a.rows a.rows) ∧ MRep S a.rows l.cols l (fun β => mxOf l β a.rows l.cols) ∧
      ∀ β, InRange S β → mxOf l β a.rows l.cols * (mxOf l β a.rows l.cols).transpose = mxOf a β a.rows a.rows := by
  refine ⟨MRep.of ga rfl h.square.symm, MRep.of ⟨hl, by rw [h.batch]; exact ga.fits⟩ h.rows rfl, fun β hβ => ?_⟩
  have hc := inRange_clip β (ga.fits.pos hβ.pos)
  have : mxOf l (clip a.bt β) a.rows l.cols * (mxOf l (clip a.bt β) a.rows l.cols).transpose = mxOf a (clip a.bt β) a.rows a.rows := by
    ext i j
    have e := h.prod _ i j hc i.2 j.2
    rw [Finset.sum_range] at e
    rw [Matrix.mul_apply]
    exact e
  rwa [mxOf_clip_self, mxOf_clip (by rw [h.batch]; exact Fits.refl _)] at this

theorem IsSymm.of_mrep {n : ℕ} {a : Tensor K} {F} (ha : MRep a.bt n n a F) (h : ∀ β, InRange a.bt β → (F β).transpose = F β) : IsSymm a := by
  refine ⟨ha.rank, ha.rows.trans ha.cols.symm, fun β i j hβ hi hj => ?_⟩
  rw [ha.rows] at hi hj
  have e := congrFun (congrFun (h β hβ) ⟨i, hi⟩) ⟨j, hj⟩
  rw [Matrix.transpose_apply] at e
  rw [show a.at' β i j = _ from ha.at' β ⟨i, hi⟩ ⟨j, hj⟩ hβ, show a.at' β j i = _ from ha.at' β ⟨j, hj⟩ ⟨i, hi⟩ hβ, e]

theorem IsSymm.mrep {S : Shp} {a : Tensor K} (h : IsSymm a) (ga : Good S a) :
    MRep S a.rows a.rows a (fun β => mxOf a β a.rows a.rows) ∧ ∀ β, InRange S β → (mxOf a β a.rows a.rows).transpose = mxOf a β a.rows a.rows := by
  refine ⟨MRep.of ga rfl h.2.1.symm, fun β hβ => ?_⟩
  have hc := inRange_clip β (ga.fits.pos hβ.pos)
  rw [← mxOf_clip_self a β]
  ext i j
  exact h.2.2 _ j i hc j.2 i.2

theorem IsFactor.symm {S : Shp} {a l : Tensor K} (h : IsFactor a l) (ga : Good S a) (hl : 2 ≤ l.rank) : IsSymm a := by
  obtain ⟨A, Lm, H⟩ := h.mrep (S := a.bt) ⟨ga.rank, Fits.refl _⟩ hl
  refine IsSymm.of_mrep A fun β hβ => ?_
  rw [← H β hβ, Matrix.transpose_mul, Matrix.transpose_transpose]

theorem symm_diagC {d : Tensor K} (h1 : 1 ≤ d.rank) : IsSymm (diagC d) :=
  IsSymm.of_mrep (MRep.diagC (GoodV.self h1)) fun _ _ => Matrix.diagonal_transpose _

/-- An inverse of a symmetric matrix is symmetric. -/
theorem IsInverse.symm {n : ℕ} {A R : Matrix (Fin n) (Fin n) K} (h : A * R = 1) (hA : A.transpose = A) : R.transpose = R := by
  have h' : R * A = 1 := mul_eq_one_comm.1 h
  have : R.transpose * A = 1 := by
    have := congrArg Matrix.transpose h
    rwa [Matrix.transpose_mul, hA, Matrix.transpose_one] at this
  calc R.transpose = R.transpose * (A * R) := by rw [h, Matrix.mul_one]
    _ = R := by rw [← Matrix.mul_assoc, this, Matrix.one_mul]

/-! ### Domains -/

/-- Symmetric in a way `B.cholesky` relies on: numeric and Dense matrices and Woodbury matrices are symmetric; a LowRank matrix has equal factors
(its right factor is not looked at). -/
def Mat.CholDom : Mat K → Prop
  | .num t => IsSymm t
  | .dense t => IsSymm t
  | .lr l r m => den l = den r ∧ m.CholDom
  | .wb d l r m => IsSymm (den (.wb d l r m))
  | .kron l r => l.CholDom ∧ r.CholDom
  | _ => True

/-- The factor is not a numeric array. -/
def Mat.cholAM : Mat K → Bool
  | .num _ => false
  | .lr l _ m => l.isAM || m.cholAM
  | _ => true

/-- A numeric array or a Dense matrix. -/
def Mat.plain : Mat K → Bool
  | .num _ => true
  | .dense _ => true
  | _ => false

/-- Symmetric in a way `B.pd_inv` relies on.  For Woodbury matrices the factors are equal and plain;
for LowRank matrices not everything is numeric (numeric Cholesky-like factors would be taken as triangular). -/
def Mat.PdDom : Mat K → Prop
  | .num t => IsSymm t
  | .dense t => IsSymm t
  | .lr l r m => (Mat.lr l r m).CholDom ∧ (Mat.lr l r m).cholAM = true
  | .wb _ l r m => den l = den r ∧ l.plain = true ∧ r.plain = true ∧ m.PdDom
  | .kron l r => l.PdDom ∧ r.PdDom
  | _ => True

/-! ### Contracts -/

/-- The class of a Cholesky factor. -/
def cholKind (a r : Mat K) : Prop :=
  (a.cholAM = true → r.isAM = true) ∧ (a.kind = some .dense ∨ a.kind = some .wb → r.kind = some .lt) ∧ (a.kind = some .diag → r.kind = some .diag)

/-- What `B.cholesky` promises. -/
structure CholOk (S : Shp) (a r : Mat K) : Prop where
  wf : r.WF S
  rank : 2 ≤ (den r).rank
  rank' : 2 ≤ (den a).rank
  kind : cholKind a r
  factor : a.CholDom → IsFactor (den a) (den r)

def CholC (L : LOps K) : Prop := ∀ {S a r}, Mat.WF S a → L.chol a = .ok r → CholOk S a r
def PdC (L : LOps K) : Prop := ∀ {S a r}, Mat.WF S a → a.PdDom → L.pdInv a = .ok r → InvOk S a r ∧ IsSymm (den a)

theorem nSqrt_ok {lin : LinEnv K} (hl : lin.Lawful) {t u : Tensor K} (h : nSqrt lin t = .ok u) :
    u.sh = t.sh ∧ ∀ i, InRange t.sh i → 0 ≤ u.get i ∧ u.get i * u.get i = t.get i := by
  unfold nSqrt at h
  split_ifs at h with h0
  simp only [Except.ok.injEq] at h
  subst h
  refine ⟨rfl, fun i hi => ?_⟩
  have h1 := h0 _ (lin_lt hi)
  rw [get_unlin_lin t hi] at h1
  have e : (tmap (fun x => (lin.sqrt x).getD 0) t).get i = (lin.sqrt (t.get i)).getD 0 := by
    exact tmap_get _ hi (Fits.refl _)
  obtain ⟨y, hy⟩ := Option.isSome_iff_exists.1 h1
  rw [e, hy]
  exact hl.sqrt hy

theorem assertSquare_ok {S : Shp} {a : Mat K} (h : a.WF S) {u : Unit} : assertSquare a = .ok u ↔ 2 ≤ (den a).rank ∧ (den a).rows = (den a).cols := by
  simp only [assertSquare, assertMatrix, h.rankM, h.shapeMatrix, bind_ok_iff, Except.ok.injEq, exists_eq_left', guardE_ok, exists_const]

section
variable {env env' : Env K} {lin : LinEnv K} {B : Ops K} {L : LOps K} (hl : lin.Lawful) (hB : B.Ok)
include hl

theorem numChol_ok {S : Shp} {t u : Tensor K} (ft : Fits S t.bt) (h : lin.chol t = .ok u) :
    Good S u ∧ u.sh = t.sh ∧ LowerTri u ∧ t.rows = t.cols ∧ 2 ≤ t.rank ∧ (IsSymm t → IsFactor t u) := by
  obtain ⟨h1, h2, h3, h4, _, h5⟩ := hl.chol h
  refine ⟨⟨by rw [rank_of_sh h3]; exact h1, by rw [bt_of_sh h3]; exact ft⟩, h3, h4, h2, h1, fun hs => ?_⟩
  refine ⟨h2, rows_of_sh h3, bt_of_sh h3, fun β i j hβ hi hj => ?_⟩
  rw [cols_of_sh h3, ← h2]
  rcases le_total j i with hij | hij
  · exact h5 β i j hβ hi hij
  · rw [hs.2.2 β i j hβ hi hj, ← h5 β j i hβ hj hij]
    exact Finset.sum_congr rfl fun k _ => mul_comm _ _

end

theorem factor_diag {d u : Tensor K} (h1 : 1 ≤ d.rank) (hs : u.sh = d.sh) (h : ∀ i, InRange d.sh i → u.get i * u.get i = d.get i) :
    IsFactor (diagC d) (diagC u) := by
  have g := GoodV.self h1
  have gu : GoodV d.sh.tail u := ⟨by simp only [Tensor.rank, hs]; exact h1, by rw [hs]; exact Fits.refl _⟩
  have m1 := MRep.diagC g
  have m2 := MRep.diagC gu
  have e : u.cols = d.cols := by simp only [Tensor.cols, hs]
  rw [e] at m2
  refine IsFactor.of_mrep m1 m2 (by simp only [diagC_bt, hs]) fun β hβ => ?_
  rw [Matrix.diagonal_transpose, Matrix.diagonal_mul_diagonal]
  congr 1
  funext i
  refine h _ ?_
  obtain ⟨x, s, e⟩ : ∃ x s, d.sh = x :: s := by
    cases e : d.sh with
    | nil => simp [Tensor.rank, e] at h1
    | cons x s => exact ⟨x, s, rfl⟩
  rw [e, inRange_cons]
  simp only [diagC_bt, e, List.tail_cons] at hβ
  have := i.2
  simp only [Tensor.cols, e, dim] at this
  exact ⟨by simpa using this, hβ⟩

theorem factor_kron {S : Shp} {a b l m : Tensor K} (ga : Good S a) (gb : Good S b) (hl : 2 ≤ l.rank) (hm : 2 ≤ m.rank) (h1 : IsFactor a l) (h2 : IsFactor b m) :
    IsFactor (kronT a b) (kronT l m) := by
  have c : Compat a.bt b.bt := ga.fits.compat gb.fits
  obtain ⟨A, L1, H1⟩ := h1.mrep (S := bsh a.bt b.bt) ⟨ga.rank, c.fits_left⟩ hl
  obtain ⟨A', L2, H2⟩ := h2.mrep (S := bsh a.bt b.bt) ⟨gb.rank, c.fits_right⟩ hm
  refine IsFactor.of_mrep (A.kron A') (L1.kron L2) ?_ fun β hβ => ?_
  · show bsh l.bt m.bt = bsh a.bt b.bt
    rw [h1.batch, h2.batch]
  · rw [kronMx_transpose, kronMx_mul, H1 β hβ, H2 β hβ]

theorem symm_kron {S : Shp} {a b : Tensor K} (ga : Good S a) (gb : Good S b) (h1 : IsSymm a) (h2 : IsSymm b) : IsSymm (kronT a b) := by
  have c : Compat a.bt b.bt := ga.fits.compat gb.fits
  obtain ⟨A, H1⟩ := h1.mrep (S := bsh a.bt b.bt) ⟨ga.rank, c.fits_left⟩
  obtain ⟨A', H2⟩ := h2.mrep (S := bsh a.bt b.bt) ⟨gb.rank, c.fits_right⟩
  refine IsSymm.of_mrep (A.kron A') fun β hβ => ?_
  rw [kronMx_transpose, H1 β hβ, H2 β hβ]

/-- `l (chol m)` is a factor of `l m lᵀ`. -/
theorem factor_lr {S : Shp} {l m x : Tensor K} (gl : Good S l) (gm : Good S m) (hx : 2 ≤ x.rank) (hc : l.cols = m.rows) (h : IsFactor m x) :
    IsFactor (mm (mm l m) (tr l)) (mm l x) := by
  have e : (mm (mm l m) (tr l)).bt = bsh l.bt m.bt := by simp only [mm_bt, tr_bt]; bsh_ac
  have c : Compat l.bt m.bt := gl.fits.compat gm.fits
  obtain ⟨M, X, H⟩ := h.mrep (S := bsh l.bt m.bt) ⟨gm.rank, c.fits_right⟩ hx
  have Lm : MRep (bsh l.bt m.bt) l.rows m.rows l _ := MRep.of ⟨gl.rank, c.fits_left⟩ rfl hc
  refine IsFactor.of_mrep (n := l.rows) (by rw [e]; exact (Lm.mm M).mm Lm.tr) (by rw [e]; exact Lm.mm X) (by rw [e, mm_bt, h.batch]) fun β hβ => ?_
  rw [e] at hβ
  rw [Matrix.transpose_mul, ← H β hβ]
  simp only [Matrix.mul_assoc]

theorem factor_const {t u : Tensor K} {n : ℕ} {y : K} (hs : u.sh = t.sh) (hy : y * y = (n : K))
    (h : ∀ i, InRange t.sh i → u.get i * y * (u.get i * y) = t.get i) : IsFactor (constM t n n) (constM u n n) := by
  refine ⟨rfl, rfl, hs, fun β i j hβ hi hj => ?_⟩
  have ft : Fits t.sh t.sh := Fits.refl _
  have hβ' : InRange t.sh β := hβ
  rw [(Rep.constM ft n n).at' β i j hβ' hi hj]
  have R := Rep.constM (t := u) (S := t.sh) (by rw [hs]; exact ft) n n
  rw [show (constM u n n).cols = n from rfl, ← h β hβ']
  rw [Finset.sum_congr rfl fun k hk => by rw [R.at' β i k hβ' hi (Finset.mem_range.1 hk), R.at' β j k hβ' hj (Finset.mem_range.1 hk)]]
  rw [Finset.sum_const, Finset.card_range, nsmul_eq_mul, ← hy]
  ring

theorem factor_fill (bt : Shp) (n : ℕ) : IsFactor (fillT (n :: n :: bt) (0 : K)) (fillT (n :: n :: bt) 0) := by
  have R := Rep.fill (Fits.refl bt) n n (0 : K)
  refine ⟨rfl, rfl, rfl, fun β i j hβ hi hj => ?_⟩
  rw [R.at' β i j hβ hi hj]
  exact Finset.sum_eq_zero fun k hk => by rw [R.at' β i k hβ hi (Finset.mem_range.1 hk), zero_mul]

theorem KindIn.isAM {l : List Kind} {r : Mat K} (h : KindIn l r) : r.isAM = true := by
  obtain ⟨k, _, e⟩ := h
  cases r <;> simp_all [Mat.kind, Mat.isAM]

theorem triRk_of_wf {S : Shp} {a : Mat K} (h : a.WF S) : TriRk a := by
  cases a <;> simp only [TriRk]
  · have := h.1; omega
  · have := h.1; omega

section
variable {env env' : Env K} {lin : LinEnv K} {B : Ops K} {L : LOps K} (hl : lin.Lawful) (hB : B.Ok) (hm : MmKinds env' B)
include hl hB hm

theorem stepChol_ok (hC : CholC L) : CholC (lstep env lin B L) := by
  intro S a r wa h
  change stepChol lin B L a = .ok r at h
  unfold stepChol at h
  split at h
  · simp only [bind_ok_iff, pure_eq_ok] at h
    obtain ⟨u, hu, rfl⟩ := h
    obtain ⟨g, _, _, _, h2, hf⟩ := numChol_ok hl wa.2 hu
    exact ⟨wf_num_of g, g.rank, h2, by simp [cholKind, Mat.cholAM, Mat.kind], hf⟩
  · rename_i bt r' c
    simp only [bind_ok_iff, pure_eq_ok, assertSquare_ok wa, exists_const] at h
    obtain ⟨⟨h2, hs⟩, rfl⟩ := h
    refine ⟨wa, h2, h2, by simp [cholKind, Mat.isAM, Mat.kind], fun _ => ?_⟩
    change r' = c at hs
    subst hs
    exact factor_fill _ _
  · simp only [bind_ok_iff, assertSquare_ok wa, exists_const, mkLT_ok] at h
    obtain ⟨_, u, hu, h2, rfl⟩ := h
    obtain ⟨g, hsh, ht, hs, h2', hf⟩ := numChol_ok hl wa.2 hu
    exact ⟨⟨h2, g.fits, by rw [rows_of_sh hsh, cols_of_sh hsh, hs], ht⟩, h2, h2', by simp [cholKind, Mat.isAM, Mat.kind], hf⟩
  · simp only [bind_ok_iff, assertSquare_ok wa, exists_const, mkDiag_ok] at h
    obtain ⟨_, u, hu, h1, rfl⟩ := h
    obtain ⟨hsh, hq⟩ := nSqrt_ok hl hu
    exact ⟨⟨h1, by rw [hsh]; exact wa.2⟩, by simp [den, Tensor.rank], by simp [den, Tensor.rank], by simp [cholKind, Mat.isAM, Mat.kind],
      fun _ => factor_diag wa.1 hsh fun i hi => (hq i hi).2⟩
  · rename_i t r' c
    simp only [bind_ok_iff, assertSquare_ok wa, exists_const] at h
    obtain ⟨⟨_, hs⟩, x, hx, y, hy, z, hz, h⟩ := h
    obtain ⟨_, rfl⟩ := mkConst_ok h
    obtain ⟨hsh, hq⟩ := nSqrt_ok hl hx
    obtain ⟨hsy, hqy⟩ := nSqrt_ok hl hy
    obtain ⟨_, h0, rfl⟩ := nDiv_ok hz
    have hy0 : InRange y.sh (fun _ => 0) := by rw [hsy]; intro k; simp [scalarT, dim]
    have eb : bcast (bsh (zipB (· / ·) x y).sh []) (zipB (· / ·) x y) = zipB (· / ·) x y := by rw [bsh_nil_right]; exact bcast_self _
    have esh : (zipB (· / ·) x y).sh = t.sh := by simp [hsh, hsy]
    rw [eb]
    refine ⟨by show Fits S _; rw [esh]; exact wa, by simp [den, Tensor.rank], by simp [den, Tensor.rank], by simp [cholKind, Mat.isAM, Mat.kind], fun _ => ?_⟩
    change r' = c at hs
    subst hs
    have hyy := (hqy _ (by rw [← hsy]; exact hy0)).2
    refine factor_const (y := y.get fun _ => 0) esh (by rw [hyy]; simp) fun i hi => ?_
    have ey : y.get i = y.get fun _ => 0 := y.get_congr fun k => by simp [hsy, clip]
    rw [zipB_get (S := t.sh) _ hi (by rw [hsh]; exact Fits.refl _) (by rw [hsy]; exact Fits.nil _), ey, div_mul_cancel₀ _ (h0 _ hy0)]
    exact (hq i hi).2
  · rename_i l r' m
    simp only [bind_ok_iff, assertSquare_ok wa, exists_const] at h
    obtain ⟨⟨h2, hs⟩, x, hx, h⟩ := h
    obtain ⟨⟨wl, wr, wm⟩, ⟨kl, kr, km⟩, e1, e2⟩ := wa
    have o := hC wm hx
    have mo := hB.matmul wl o.wf kl o.rank h
    have e := mo.eq
    simp only [trIf_false] at e
    refine ⟨mo.wf, mo.rank, h2, ?_, fun hd => ?_⟩
    · simp only [cholKind, Mat.cholAM, Mat.kind, Bool.or_eq_true]
      refine ⟨fun hh => ?_, by simp, by simp⟩
      exact (hm false false l x (hh.imp id o.kind.1) (triRk_of_wf wl) (triRk_of_wf o.wf) r h).isAM
    · rw [e]
      simp only [den, ← hd.1]
      exact factor_lr (wl.good kl) (wm.good km) o.rank e1 (o.factor hd.2)
  · rename_i d l r' m
    simp only [bind_ok_iff, mkLT_ok] at h
    obtain ⟨u, hu, v, hv, h2, rfl⟩ := h
    obtain rfl := hB.dense wa hu
    obtain ⟨g, hsh, ht, hs, h2', hf⟩ := numChol_ok hl wa.fits hv
    exact ⟨⟨h2, g.fits, by rw [rows_of_sh hsh, cols_of_sh hsh, hs], ht⟩, h2, h2', by simp [cholKind, Mat.isAM, Mat.kind], hf⟩
  · simp only [bind_ok_iff, pure_eq_ok] at h
    obtain ⟨x, hx, y, hy, rfl⟩ := h
    obtain ⟨⟨wl, wr⟩, kl, kr⟩ := wa
    have o1 := hC wl hx
    have o2 := hC wr hy
    refine ⟨⟨⟨o1.wf, o2.wf⟩, o1.rank, o2.rank⟩, by simp [den, Tensor.rank], by simp [den, Tensor.rank], by simp [cholKind, Mat.isAM, Mat.kind], fun hd => ?_⟩
    exact factor_kron (wl.good kl) (wr.good kr) o1.rank o2.rank (o1.factor hd.1) (o2.factor hd.2)
  · simp at h

end

/-! ### Positive-definite inverses -/

theorem IsFactor.eq {S : Shp} {a l : Tensor K} (h : IsFactor a l) (ga : Good S a) (hl : 2 ≤ l.rank) : mm l (tr l) = a := by
  obtain ⟨A, Lm, H⟩ := h.mrep (S := a.bt) ⟨ga.rank, Fits.refl _⟩ hl
  have e : (mm l (tr l)).bt = a.bt := by simp [h.batch]
  exact MRep.ext (by rw [e]; exact Lm.mm Lm.tr) (by rw [e]; exact A) e fun β hβ => H β (by rw [← e]; exact hβ)

theorem IsInverse.of_solution {a x : Tensor K} {n : ℕ} (h2 : 2 ≤ a.rank) (h : IsSolution a (diagC (fillT [n] 1)) x) : IsInverse a x := by
  have en : a.rows = n := h.inner
  have g1 : Good a.bt (diagC (fillT [n] (1 : K))) := ⟨by simp [Tensor.rank], Fits.nil _⟩
  have ga : Good a.bt a := ⟨h2, Fits.refl _⟩
  obtain ⟨A, I, X, H⟩ := h.mrep ga g1
  have ec : (diagC (fillT [n] (1 : K))).cols = a.rows := en.symm
  rw [ec] at I X H
  refine IsInverse.of_mrep A X ?_ fun β hβ => ?_
  · rw [h.shape, ga.sh, ← h.square, ec]
    show _ :: _ :: bsh a.bt [] = _
    simp
  · rw [H β hβ]
    ext i j
    have gv : GoodV a.bt (fillT [n] (1 : K)) := ⟨by simp [Tensor.rank], Fits.nil _⟩
    have hi : (i : ℕ) < n := by rw [← en]; exact i.2
    have hj : (j : ℕ) < n := by rw [← en]; exact j.2
    have := (Rep.diagC (VRep.self gv.rank gv.fits)).at' β i j hβ hi hj
    simp only [mxOf, Matrix.of_apply, this, Matrix.one_apply]
    have : (fillT [n] (1 : K)).vat β i = 1 := by
      unfold Tensor.vat fillT
      rw [ofFn_get_fits (S := n :: a.bt) _ (by rw [inRange_cons]; exact ⟨hi, hβ⟩) (by rw [fits_cons]; exact ⟨Or.inr rfl, Fits.nil _⟩)]
    simp [this, Fin.ext_iff]

theorem plain_ne {a : Mat K} (h : a.plain = true) {S : Shp} (w : a.WF S) (h2 : 2 ≤ (den a).rank) (env : Env K) : kindC env a = .dense := by
  cases a <;> simp [Mat.plain] at h
  · exact kindC_num_rk (by have : 2 ≤ _ := h2; simp only [den] at this; omega)
  · rfl

section
variable {env env' : Env K} {lin : LinEnv K} {B : Ops K} {L : LOps K} (hl : lin.Lawful) (hB : B.Ok) (ha : AddKinds env' B) (hm : MmKinds env' B)

include hm in
/-- `Rᵀ D L` for plain `L`, `R` and diagonal `D` is Dense. -/
theorem kind_second {S : Shp} {d : Tensor K} {l r x : Mat K} (wl : l.WF S) (wr : r.WF S) (wd : (Mat.diag d).WF S) (kl : 2 ≤ (den l).rank) (kr : 2 ≤ (den r).rank)
    (pl : l.plain = true) (pr : r.plain = true) (hB : B.Ok) (h : matmul3 B true false false r (.diag d) l = .ok x) : x.kind = some .dense := by
  have kd : 2 ≤ (den (.diag d : Mat K)).rank := by simp [den, Tensor.rank]
  simp only [matmul3, shapeMatrixTr_eq wl, shapeMatrixTr_eq wr, shapeMatrixTr_eq wd, bind_ok_iff, Except.ok.injEq, exists_eq_left'] at h
  have el := plain_ne pl wl kl env'
  have er := plain_ne pr wr kr env'
  have ed : kindC env' (.diag d : Mat K) = .diag := rfl
  split_ifs at h
  · simp only [bind_ok_iff] at h
    obtain ⟨y, hy, h⟩ := h
    have m1 := hB.matmul wr wd kr kd hy
    obtain ⟨k, hk, e⟩ := hm true false r (.diag d) (.inr rfl) (triRk_of_wf wr) (triRk_of_wf wd) y hy
    rw [er, ed] at hk
    simp [mmOut] at hk
    subst hk
    have ey : kindC env' y = .dense := kindC_am e
    obtain ⟨k, hk, e⟩ := hm false false y l (.inl (by cases y <;> simp_all [Mat.kind, Mat.isAM])) (triRk_of_wf m1.wf) (triRk_of_wf wl) x h
    rw [ey, el] at hk
    simp [mmOut] at hk
    rw [e, hk]
  · simp only [bind_ok_iff] at h
    obtain ⟨y, hy, h⟩ := h
    have m1 := hB.matmul wd wl kd kl hy
    obtain ⟨k, hk, e⟩ := hm false false (.diag d) l (.inl rfl) (triRk_of_wf wd) (triRk_of_wf wl) y hy
    rw [el, ed] at hk
    simp [mmOut] at hk
    subst hk
    have ey : kindC env' y = .dense := kindC_am e
    obtain ⟨k, hk, e⟩ := hm true false r y (.inr (by cases y <;> simp_all [Mat.kind, Mat.isAM])) (triRk_of_wf wr) (triRk_of_wf m1.wf) x h
    rw [er, ey] at hk
    simp [mmOut] at hk
    rw [e, hk]

include ha in
theorem kind_add_dense {a b x : Mat K} (hb : b.kind = some .dense) (h : B.add a b = .ok x) : x.kind = some .dense := by
  obtain ⟨k, hk, e⟩ := ha a b (.inr (by cases b <;> simp_all [Mat.kind, Mat.isAM])) x h
  rw [kindC_am hb] at hk
  rw [e]
  revert hk
  cases kindC env' a <;> simp [addOut]

/-- The Schur complement is symmetric if the factors agree and the middle factor is symmetric. -/
theorem schur_symm {T : Shp} {d : Tensor K} {l r m di mi s : Mat K} (hw : Mat.WF T (.wb d l r m)) (hdi : InvOk T (.diag d) di) (hmi : InvOk T m mi)
    (he : den l = den r) (hms : IsSymm (den m))
    (hs : s.WF T ∧ den s = zipB (· + ·) (den mi) (mm (mm (tr (den r)) (den di)) (den l)) ∧ (den s).rows = (den m).rows ∧ (den s).cols = (den m).rows) :
    IsSymm (den s) := by
  obtain ⟨⟨hd, fd⟩, ⟨wl, wr, wm⟩, ⟨kl, kr, km⟩, ⟨e1, e2⟩, e3, e4⟩ := hw
  obtain ⟨ws, es, sr, sc⟩ := hs
  have gs : Good T (den s) := by
    rw [es]; exact hmi.good'.zipB _ (((wr.good kr).tr.mm hdi.good').mm (wl.good kl))
  set U := (den s).bt with hU
  have hbt : U = bsh (den mi).bt (bsh (bsh (den r).bt (den di).bt) (den l).bt) := by rw [hU, es, zipB_bt]; rfl
  have f1 : Fits U (den mi).bt := by
    have := hmi.good'.fits; have := (wr.good kr).fits; have := hdi.good'.fits; have := (wl.good kl).fits
    rw [hbt]; fitsIn T
  have f2 : Fits U (den l).bt := by
    have := hmi.good'.fits; have := (wr.good kr).fits; have := hdi.good'.fits; have := (wl.good kl).fits
    rw [hbt]; fitsIn T
  have f3 : Fits U (den di).bt := by
    have := hmi.good'.fits; have := (wr.good kr).fits; have := hdi.good'.fits; have := (wl.good kl).fits
    rw [hbt]; fitsIn T
  obtain ⟨M1, M2, HM⟩ := hmi.inv.mrep' (S := U) ⟨km, by rw [← bt_of_sh hmi.inv.shape]; exact f1⟩ rfl
  obtain ⟨D1, D2, HD⟩ := hdi.inv.mrep' (S := U) (n := d.cols) ⟨by simp [den, Tensor.rank], by rw [← bt_of_sh hdi.inv.shape]; exact f3⟩ rfl
  have L1 : MRep U d.cols (den m).rows (den l) _ := MRep.of ⟨kl, f2⟩ e3 e1
  obtain ⟨M1', HMs⟩ := hms.mrep M1.good
  obtain ⟨D1', HDs⟩ := (symm_diagC hd).mrep (S := U) D1.good
  have S1 := M2.add ((L1.tr.mm D2).mm L1)
  rw [← he] at es
  rw [← es] at S1
  refine IsSymm.of_mrep S1 fun β hβ => ?_
  have h1 := IsInverse.symm (HM β hβ) (HMs β hβ)
  have h2 := IsInverse.symm (HD β hβ) (HDs β hβ)
  rw [Matrix.transpose_add, h1, Matrix.transpose_mul, Matrix.transpose_mul, Matrix.transpose_transpose, h2, Matrix.mul_assoc]

theorem wb_symm {T : Shp} {d : Tensor K} {l r m : Mat K} (hw : Mat.WF T (.wb d l r m)) (he : den l = den r) (hms : IsSymm (den m)) : IsSymm (den (.wb d l r m)) := by
  have ho := hw.valid.own
  obtain ⟨⟨hd, fd⟩, ⟨wl, wr, wm⟩, ⟨kl, kr, km⟩, ⟨e1, e2⟩, e3, e4⟩ := ho
  obtain ⟨M1, HMs⟩ := hms.mrep (wm.good km)
  obtain ⟨D1, HDs⟩ : MRep (den (.wb d l r m)).bt d.cols d.cols (diagC d) (fun β => mxOf (diagC d) β d.cols d.cols) ∧
      ∀ β, InRange (den (.wb d l r m)).bt β → (mxOf (diagC d) β d.cols d.cols).transpose = mxOf (diagC d) β d.cols d.cols :=
    (symm_diagC hd).mrep (S := (den (.wb d l r m)).bt) ⟨by simp [Tensor.rank], fd⟩
  have L1 : MRep _ d.cols (den m).rows (den l) _ := MRep.of (wl.good kl) e3 e1
  have A := D1.add ((L1.mm M1).mm L1.tr)
  have eA : den (.wb d l r m) = zipB (· + ·) (diagC d) (mm (mm (den l) (den m)) (tr (den l))) := by simp only [den, he]
  rw [← eA] at A
  refine IsSymm.of_mrep A fun β hβ => ?_
  rw [Matrix.transpose_add, HDs β hβ, Matrix.transpose_mul, Matrix.transpose_mul, Matrix.transpose_transpose, HMs β hβ, Matrix.mul_assoc]

include hl hB ha hm

theorem stepPdInv_ok (hI : InvC L) (hP : PdC L) (hC : CholC L) (hS : CsC L) : PdC (lstep env lin B L) := by
  intro S a r wa hd h
  change stepPdInv env B L a = .ok r at h
  unfold stepPdInv at h
  split at h
  · exact ⟨(hI wa h).1, symm_diagC wa.1⟩
  · rename_i d l r' m
    have ho := wa.valid.own
    obtain ⟨he, pl, pr, hdm⟩ := hd
    simp only [pdInvWB, pdSchurM, bind_ok_iff] at h
    obtain ⟨di, hdi, dl, hdl, dr, hdr, s, ⟨di', hdi', sec, hsec, mi, hmi, hs⟩, si, hsi, lr, hlr, h⟩ := h
    rw [hdi] at hdi'
    cases hdi'
    obtain ⟨o1, k1⟩ := hI ho.wbDiag hdi
    obtain ⟨v, rfl⟩ := kind_diag k1
    obtain ⟨o2, ms⟩ := hP ho.wbLr.1.2.2 hdm hmi
    have hs' := schur_ok hB ho o1 o2 hsec hs
    have ss := schur_symm ho o1 o2 he ms hs'
    have ks := kind_second hm ho.wbLr.1.1 ho.wbLr.1.2.1 o1.wf ho.wbLr.2.1.1 ho.wbLr.2.1.2.1 pl pr hB hsec
    have kd := kind_add_dense ha ks hs
    have sd : s.PdDom := by
      cases s <;> simp [Mat.kind] at kd
      exact ss
    obtain ⟨o3, _⟩ := hP hs'.1 sd hsi
    have o := wbInv_ok hB ho rfl o1 ⟨v, rfl⟩ o2 hs' o3 hdl hdr hlr h
    exact ⟨⟨o.wf.mono (by rw [bt_of_sh o.inv.shape]; exact wa.fits), o.inv⟩, wb_symm wa he ms⟩
  · rename_i l r'
    simp only [bind_ok_iff, pure_eq_ok] at h
    obtain ⟨li, h1, ri, h2, rfl⟩ := h
    obtain ⟨⟨wl, wr⟩, kl, kr⟩ := wa
    obtain ⟨o1, s1⟩ := hP wl hd.1 h1
    obtain ⟨o2, s2⟩ := hP wr hd.2 h2
    exact ⟨⟨⟨⟨o1.wf, o2.wf⟩, o1.rank', o2.rank'⟩, o1.inv.kron o2.inv (wl.good kl) (wr.good kr)⟩, symm_kron (wl.good kl) (wr.good kr) s1 s2⟩
  · rename_i n1 n2 n3
    simp only [bind_ok_iff] at h
    obtain ⟨ch, hch, i, hi, id, hid, h⟩ := h
    have k2 : 2 ≤ (den a).rank := by
      cases a with
      | num t => exact hd.1
      | _ => exact wa.rank rfl
    obtain ⟨wa', ea⟩ := wf_convert2 (env := env) wa k2
    have hcd : (convertAM env a).CholDom ∧ (convertAM env a).cholAM = true := by
      cases a with
      | num t => rw [convert_num (show 2 ≤ t.rank from k2)]; exact ⟨hd, rfl⟩
      | diag d => exact (n1 d rfl).elim
      | wb d l r m => exact (n2 d l r m rfl).elim
      | kron l r => exact (n3 l r rfl).elim
      | dense t => exact ⟨hd, rfl⟩
      | lr l r m => exact hd
      | _ => exact ⟨trivial, rfl⟩
    have o := hC wa' hch
    have of := o.factor hcd.1
    rw [ea] at of
    simp only [eyeM, bind_ok_iff, assertSquare_ok wa', exists_const, wa'.shapeMatrix, Except.ok.injEq, exists_eq_left', fillDiag_one] at hi
    obtain ⟨_, rfl⟩ := hi
    have wi : (Mat.diag (fillT [(den (convertAM env a)).rows] (1 : K))).WF S := ⟨by simp [Tensor.rank], Fits.nil _⟩
    obtain rfl := hB.dense wi hid
    have cam := o.kind.1 hcd.2
    have cd : CsDom ch (.num (den (.diag (fillT [(den (convertAM env a)).rows] (1 : K))))) := by
      cases ch <;> simp_all [CsDom, Mat.kind, Mat.isAM]
    have c := hS o.wf (wf_num_of ⟨by simp [den, Tensor.rank], Fits.nil _⟩) o.rank (by simp [den, Tensor.rank]) cd h
    have cs := c.sol
    rw [of.eq (wa.good k2) o.rank] at cs
    exact ⟨⟨c.wf, IsInverse.of_solution k2 cs⟩, of.symm (wa.good k2) o.rank⟩

end

end Verif
