/-
Solving linear systems: correctness of one unfolding.
-/
import Verif.LinInv

set_option linter.unusedSectionVars false

namespace Verif

variable {K : Type} [Field K] [LinearOrder K]

/-! ### Solutions in terms of matrices -/

theorem IsSolution.of_mrep {n p : ℕ} {a b x : Tensor K} {F G H} (ha : MRep (bsh a.bt b.bt) n n a F) (hb : MRep (bsh a.bt b.bt) n p b G)
    (hx : MRep (bsh a.bt b.bt) n p x H) (hbt : x.bt = bsh a.bt b.bt) (h : ∀ β, InRange (bsh a.bt b.bt) β → F β * H β = G β) : IsSolution a b x := by
  refine ⟨ha.rows.trans ha.cols.symm, ha.rows.trans hb.rows.symm, ha.bt.compat hb.bt, ?_, fun β i j hβ hi hj => ?_⟩
  · rw [hx.good.sh, hx.rows, hx.cols, hbt, hb.cols, ha.rows]
  · rw [ha.rows] at hi ⊢
    rw [hb.cols] at hj
    have e := congrFun (congrFun (h β hβ) ⟨i, hi⟩) ⟨j, hj⟩
    rw [Matrix.mul_apply, ← hb.at' β ⟨i, hi⟩ ⟨j, hj⟩ hβ] at e
    rw [Finset.sum_range, ← e]
    refine Finset.sum_congr rfl fun k _ => ?_
    rw [← ha.at' β ⟨i, hi⟩ k hβ, ← hx.at' β k ⟨j, hj⟩ hβ]

theorem IsSolution.bt {a b x : Tensor K} (h : IsSolution a b x) : x.bt = bsh a.bt b.bt := by simp only [Tensor.bt, h.shape]; rfl
theorem IsSolution.rows {a b x : Tensor K} (h : IsSolution a b x) : x.rows = a.rows := by simp only [Tensor.rows, h.shape]; rfl
theorem IsSolution.cols {a b x : Tensor K} (h : IsSolution a b x) : x.cols = b.cols := by simp only [Tensor.cols, h.shape]; rfl
theorem IsSolution.good {S : Shp} {a b x : Tensor K} (h : IsSolution a b x) (ga : Good S a) (gb : Good S b) : Good S x :=
  ⟨by simp [Tensor.rank, h.shape], by rw [h.bt]; exact ga.fits.bsh gb.fits⟩

theorem IsSolution.mrep {S : Shp} {a b x : Tensor K} (h : IsSolution a b x) (ga : Good S a) (gb : Good S b) :
    MRep S a.rows a.rows a (fun β => mxOf a β a.rows a.rows) ∧ MRep S a.rows b.cols b (fun β => mxOf b β a.rows b.cols) ∧
      MRep S a.rows b.cols x (fun β => mxOf x β a.rows b.cols) ∧
      ∀ β, InRange S β → mxOf a β a.rows a.rows * mxOf x β a.rows b.cols = mxOf b β a.rows b.cols := by
  refine ⟨MRep.of ga rfl h.square.symm, MRep.of gb h.inner.symm rfl, MRep.of (h.good ga gb) h.rows h.cols, fun β hβ => ?_⟩
  have hT : Fits S (bsh a.bt b.bt) := ga.fits.bsh gb.fits
  have hc := inRange_clip β (hT.pos hβ.pos)
  have : mxOf a (clip (bsh a.bt b.bt) β) a.rows a.rows * mxOf x (clip (bsh a.bt b.bt) β) a.rows b.cols = mxOf b (clip (bsh a.bt b.bt) β) a.rows b.cols := by
    ext i j
    have e := h.entries _ i j hc i.2 j.2
    rw [Finset.sum_range] at e
    rw [Matrix.mul_apply]
    exact e
  rwa [mxOf_clip h.batch.fits_left, mxOf_clip h.batch.fits_right, mxOf_clip (by rw [h.bt]; exact Fits.refl _)] at this

/-- Multiplying by an inverse solves the system. -/
theorem IsSolution.of_inverse {S : Shp} {a r b : Tensor K} (h : IsInverse a r) (ga : Good S a) (gb : Good S b) (hc : r.cols = b.rows) :
    IsSolution a b (mm r b) := by
  have c : Compat a.bt b.bt := ga.fits.compat gb.fits
  obtain ⟨A, R, HA⟩ := h.mrep' (n := a.rows) ⟨ga.rank, c.fits_left⟩ rfl
  have Bm : MRep (bsh a.bt b.bt) a.rows b.cols b _ := MRep.of ⟨gb.rank, c.fits_right⟩ (by rw [← hc]; exact R.cols) rfl
  refine IsSolution.of_mrep A Bm (R.mm Bm) (by rw [mm_bt, bt_of_sh h.shape]) fun β hβ => ?_
  rw [← Matrix.mul_assoc, HA β hβ, Matrix.one_mul]

/-- Broadcasting the batches of both sides first changes nothing. -/
theorem IsSolution.of_bbT {a b x : Tensor K} (ga : Good (bsh a.bt b.bt) a) (gb : Good (bsh a.bt b.bt) b)
    (h : IsSolution (bbT (bsh a.bt b.bt) a) (bbT (bsh a.bt b.bt) b) x) : IsSolution a b x := by
  have e : bsh (bbT (bsh a.bt b.bt) a).bt (bbT (bsh a.bt b.bt) b).bt = bsh a.bt b.bt := by simp
  refine ⟨h.square, h.inner, ga.fits.compat gb.fits, ?_, fun β i j hβ hi hj => ?_⟩
  · rw [h.shape, e]; rfl
  · have := h.entries β i j (by rw [e]; exact hβ) hi hj
    rw [at_bbT hβ gb (by rw [← show a.rows = b.rows from h.inner]; exact hi) hj] at this
    rw [← this, show (bbT (bsh a.bt b.bt) a).rows = a.rows from rfl]
    refine Finset.sum_congr rfl fun k hk => ?_
    rw [at_bbT hβ ga hi (by rw [← show a.rows = a.cols from h.square]; exact Finset.mem_range.1 hk)]

/-- The zero right-hand side. -/
theorem IsSolution.zero {S : Shp} {a x : Tensor K} (ga : Good S a) (gx : Good S x) (hs : a.rows = a.cols) (hi : a.rows = x.rows)
    (e : bsh a.bt x.bt = x.bt) (h0 : ∀ β i j, InRange x.bt β → i < x.rows → j < x.cols → x.at' β i j = 0) : IsSolution a x x := by
  refine ⟨hs, hi, ga.fits.compat gx.fits, by rw [gx.sh, e, hi], fun β i j hβ hi' hj => ?_⟩
  rw [e] at hβ
  rw [h0 β i j hβ (by rw [← hi]; exact hi') hj]
  exact Finset.sum_eq_zero fun k hk => by rw [h0 β k j hβ (by rw [← hi]; exact Finset.mem_range.1 hk) hj, mul_zero]

/-- Two steps: `a y = b` and `aᵀ x = y`. -/
theorem IsSolution.comp {S : Shp} {a b y x : Tensor K} (ga : Good S a) (gb : Good S b) (h1 : IsSolution a b y) (h2 : IsSolution (tr a) y x) :
    IsSolution (mm a (tr a)) b x := by
  have e : (mm a (tr a)).bt = a.bt := by simp
  have c : Compat a.bt b.bt := ga.fits.compat gb.fits
  have ga' : Good (bsh a.bt b.bt) a := ⟨ga.rank, c.fits_left⟩
  have gb' : Good (bsh a.bt b.bt) b := ⟨gb.rank, c.fits_right⟩
  obtain ⟨A, Bm, Y, H1⟩ := h1.mrep ga' gb'
  obtain ⟨_, Y', X, H2⟩ := h2.mrep ga'.tr Y.good
  have er : (tr a).rows = a.rows := h1.square.symm
  rw [er, h1.cols] at Y' X H2
  have Y2 := A.tr
  refine IsSolution.of_mrep (n := a.rows) (p := b.cols) (by rw [e]; exact A.mm A.tr) (by rw [e]; exact Bm) (by rw [e]; exact X)
    (by rw [h2.bt, h1.bt, tr_bt, e, ← bsh_assoc, bsh_self]) fun β hβ => ?_
  rw [e] at hβ
  have t := H2 β hβ
  rw [(MRep.of ga'.tr er rfl : MRep _ a.rows a.rows (tr a) _).unique Y2 hβ] at t
  rw [Matrix.mul_assoc, t, H1 β hβ]

theorem IsSolution.kron {S : Shp} {a b x a' b' x' : Tensor K} (ga : Good S a) (gb : Good S b) (ga' : Good S a') (gb' : Good S b')
    (h : IsSolution a b x) (h' : IsSolution a' b' x') : IsSolution (kronT a a') (kronT b b') (kronT x x') := by
  have e : bsh (kronT a a').bt (kronT b b').bt = bsh (bsh a.bt a'.bt) (bsh b.bt b'.bt) := rfl
  have g : ∀ {t : Tensor K}, Good S t → Fits (bsh (bsh a.bt a'.bt) (bsh b.bt b'.bt)) t.bt → Good (bsh (bsh a.bt a'.bt) (bsh b.bt b'.bt)) t := fun g f => ⟨g.rank, f⟩
  have f1 := ga.fits; have f2 := gb.fits; have f3 := ga'.fits; have f4 := gb'.fits
  have c1 : Compat a.bt a'.bt := f1.compat f3
  have c2 : Compat b.bt b'.bt := f2.compat f4
  have c3 : Compat (bsh a.bt a'.bt) (bsh b.bt b'.bt) := (f1.bsh f3).compat (f2.bsh f4)
  obtain ⟨A, Bm, X, H⟩ := h.mrep (g ga (c3.fits_left.trans c1.fits_left)) (g gb (c3.fits_right.trans c2.fits_left))
  obtain ⟨A', B', X', H'⟩ := h'.mrep (g ga' (c3.fits_left.trans c1.fits_right)) (g gb' (c3.fits_right.trans c2.fits_right))
  refine IsSolution.of_mrep (A.kron A') (Bm.kron B') (X.kron X') ?_ fun β hβ => ?_
  · show bsh x.bt x'.bt = _
    rw [h.bt, h'.bt, e]; bsh_ac
  · rw [kronMx_mul, H β hβ, H' β hβ]

theorem triPart_lower {a : Tensor K} (h2 : 2 ≤ a.rank) (h : LowerTri a) : triPart true a = a := by
  refine Rep.ext (Rep.mkMat (Fits.refl _) _) (Rep.self h2 (Fits.refl _)) rfl fun β i j hβ hi hj => ?_
  simp only [if_true]
  split_ifs with hij
  · exact Tensor.at'_clip (Fits.refl _) β i j
  · exact (h β i j hβ hi hj (by omega)).symm

theorem triPart_upper {a : Tensor K} (h2 : 2 ≤ a.rank) (h : UpperTri a) : triPart false a = a := by
  refine Rep.ext (Rep.mkMat (Fits.refl _) _) (Rep.self h2 (Fits.refl _)) rfl fun β i j hβ hi hj => ?_
  simp only [Bool.false_eq_true, if_false]
  split_ifs with hij
  · exact Tensor.at'_clip (Fits.refl _) β i j
  · exact (h β i j hβ hi hj (by omega)).symm

theorem LowerTri.tr' {a : Tensor K} (h2 : 2 ≤ a.rank) (h : LowerTri a) : UpperTri (tr a) := by
  intro β i j hβ hi hj hij
  rw [tr_bt] at hβ
  have := (Rep.tr (Rep.self h2 (Fits.refl a.bt))).at' β i j hβ hi hj
  rw [this]
  exact h β j i hβ hj hi hij

/-! ### Contracts -/

/-- What `B.solve` promises.  A Zero right-hand side is returned as it is. -/
structure SolveOk (S : Shp) (a b x : Mat K) : Prop where
  wf : x.WF S
  sol : (b.kind = some .zero ∧ x = b) ∨ IsSolution (den a) (den b) (den x)

/-- Domain of `B.cholesky_solve`: a numeric factor is lower triangular, the right-hand side is not Zero. -/
def CsDom : Mat K → Mat K → Prop
  | .num s, .num _ => LowerTri s
  | .kron l r, .kron l' r' => CsDom l l' ∧ CsDom r r'
  | _, b => b.kind ≠ some .zero

/-- What `B.cholesky_solve` promises. -/
structure CsOk (S : Shp) (a b x : Mat K) : Prop where
  wf : x.WF S
  sol : IsSolution (mm (den a) (tr (den a))) (den b) (den x)

def SolveC (L : LOps K) : Prop := ∀ {S a b x}, Mat.WF S a → Mat.WF S b → 2 ≤ (den a).rank → 2 ≤ (den b).rank → L.solve a b = .ok x → SolveOk S a b x
def CsC (L : LOps K) : Prop := ∀ {S a b x}, Mat.WF S a → Mat.WF S b → 2 ≤ (den a).rank → 2 ≤ (den b).rank → CsDom a b → L.cholSolve a b = .ok x → CsOk S a b x

theorem wf_convert2 {env : Env K} {a : Mat K} {S : Shp} (h : a.WF S) (h2 : 2 ≤ (den a).rank) :
    (convertAM env a).WF S ∧ den (convertAM env a) = den a := by
  obtain ⟨w, e, _⟩ := den_convertAM (env := env) h
  exact ⟨w, by rw [e, upT_of_rank h2]⟩

theorem convert_num {env : Env K} {t : Tensor K} (h2 : 2 ≤ t.rank) : convertAM env (.num t) = .dense t := by
  have : t.rank ≠ 0 := by omega
  simp [convertAM, this, mkDense, upT_of_rank h2]

theorem convert_zero {env : Env K} {b : Mat K} (h2 : 2 ≤ (den b).rank) {bt : Shp} {r c : ℕ} (h : convertAM env b = .zero bt r c) : b = .zero bt r c := by
  cases b with
  | num t => rw [convert_num (show 2 ≤ t.rank from h2)] at h; cases h
  | _ => exact h

theorem wf_num_of {S : Shp} {t : Tensor K} (g : Good S t) : (Mat.num t).WF S := ⟨by have := g.rank; omega, g.fits⟩

section
variable {env : Env K} {lin : LinEnv K} {B : Ops K} {L : LOps K} (hl : lin.Lawful) (hB : B.Ok)
include hl hB

theorem solveTri_ok {S : Shp} {lower : Bool} {t : Tensor K} {b x : Mat K} (wt : (Mat.num t).WF S) (kt : 2 ≤ t.rank) (wb : b.WF S) (kb : 2 ≤ (den b).rank)
    (htri : if lower then LowerTri t else UpperTri t) (h : solveTri lin B lower t b = .ok x) : x.WF S ∧ IsSolution t (den b) (den x) := by
  simp only [solveTri, bind_ok_iff, pure_eq_ok] at h
  obtain ⟨⟨a', b'⟩, hab, ta, hta, tb, htb, u, hu, rfl⟩ := h
  obtain ⟨T, rfl, ga, gb, wa', wb', ea, eb⟩ := alignBatch2_ok wt wb hab
  simp only at hta htb
  obtain rfl := hB.dense wa' hta
  obtain rfl := hB.dense wb' htb
  obtain ⟨_, _, hs⟩ := hl.trisolve hu
  rw [ea, eb] at hs
  simp only [den] at hs ga gb ⊢
  have e : triPart lower (bbT (bsh t.bt (den b).bt) t) = bbT (bsh t.bt (den b).bt) t := by
    cases lower with
    | true => exact triPart_lower (bbT_rank _ _) (LowerTri.bbT htri ga)
    | false => exact triPart_upper (bbT_rank _ _) (UpperTri.bbT htri ga)
  rw [e] at hs
  have hs' := IsSolution.of_bbT ga gb hs
  have gu := hs'.good (S := S) ⟨kt, wt.2⟩ (wb.good kb)
  obtain ⟨w, ed⟩ := mkDense_wf gu
  exact ⟨w, by rw [ed]; exact hs'⟩

theorem solveDense_ok {S : Shp} {a b x : Mat K} (wa : a.WF S) (ka : 2 ≤ (den a).rank) (wb : b.WF S) (kb : 2 ≤ (den b).rank)
    (h : solveDense lin B a b = .ok x) : x.WF S ∧ IsSolution (den a) (den b) (den x) := by
  simp only [solveDense, bind_ok_iff, pure_eq_ok] at h
  obtain ⟨⟨a', b'⟩, hab, ta, hta, tb, htb, u, hu, rfl⟩ := h
  obtain ⟨T, rfl, ga, gb, wa', wb', ea, eb⟩ := alignBatch2_ok wa wb hab
  simp only at hta htb
  obtain rfl := hB.dense wa' hta
  obtain rfl := hB.dense wb' htb
  obtain ⟨_, _, hs⟩ := hl.solve hu
  rw [ea, eb] at hs
  have hs' := IsSolution.of_bbT ga gb hs
  have gu := hs'.good (wa.good ka) (wb.good kb)
  exact ⟨wf_num_of gu, hs'⟩

theorem stepSolve_ok (hI : InvC L) : SolveC (lstep env lin B L) := by
  intro S a b x wa wb ka kb h
  change stepSolve env lin B L a b = .ok x at h
  have inv : ∀ {a b i x : Mat K}, a.WF S → b.WF S → 2 ≤ (den b).rank → L.inv a = .ok i → B.matmul false false i b = .ok x → x.WF S ∧ IsSolution (den a) (den b) (den x) := by
    intro a b i x wa wb kb hi hx
    obtain ⟨o, _⟩ := hI wa hi
    have m := hB.matmul o.wf wb o.rank' kb hx
    have e := m.eq
    have c := m.comp
    simp only [trIf_false] at e c
    exact ⟨m.wf, by rw [e]; exact IsSolution.of_inverse o.inv (o.good wa) (wb.good kb) c⟩
  unfold stepSolve at h
  split at h
  · simp only [bind_ok_iff, pure_eq_ok] at h
    obtain ⟨u, hu, rfl⟩ := h
    obtain ⟨_, _, hs⟩ := hl.solve hu
    exact ⟨wf_num_of (hs.good ⟨ka, wa.2⟩ ⟨kb, wb.2⟩), .inr hs⟩
  · obtain ⟨wa', ea⟩ := wf_convert2 (env := env) wa ka
    obtain ⟨wb', eb⟩ := wf_convert2 (env := env) wb kb
    have kb' : 2 ≤ (den (convertAM env b)).rank := by rw [eb]; exact kb
    split at h
    · rename_i bt r c hb
      simp only [Except.ok.injEq] at h
      rw [hb] at wb'
      obtain rfl := convert_zero kb hb
      exact ⟨by rw [← h]; exact wb, .inl ⟨rfl, h.symm⟩⟩
    · rename_i d hd _
      simp only [bind_ok_iff] at h
      obtain ⟨i, hi, h⟩ := h
      rw [hd] at wa' ea
      have := inv wa' wb' kb' hi h
      rw [ea, eb] at this
      exact ⟨this.1, .inr this.2⟩
    · rename_i t hd _
      rw [hd] at wa' ea
      have := solveTri_ok hl hB (lower := true) wa'.ltNum wa'.1 wb' kb' wa'.2.2.2 h
      rw [eb] at this
      exact ⟨this.1, .inr (by rw [← ea]; exact this.2)⟩
    · rename_i t hd _
      rw [hd] at wa' ea
      have := solveTri_ok hl hB (lower := false) wa'.utNum wa'.1 wb' kb' wa'.2.2.2 h
      rw [eb] at this
      exact ⟨this.1, .inr (by rw [← ea]; exact this.2)⟩
    · rename_i d l r m hd _
      simp only [bind_ok_iff] at h
      obtain ⟨i, hi, h⟩ := h
      rw [hd] at wa' ea
      have := inv wa' wb' kb' hi h
      rw [ea, eb] at this
      exact ⟨this.1, .inr this.2⟩
    · have ka' : 2 ≤ (den (convertAM env a)).rank := by rw [ea]; exact ka
      have := solveDense_ok hl hB wa' ka' wb' kb' h
      rw [ea, eb] at this
      exact ⟨this.1, .inr this.2⟩

theorem cholSolveTri_ok (hS : SolveC L) {S : Shp} {a b x : Mat K} (wa : a.WF S) (wb : b.WF S) (ka : 2 ≤ (den a).rank) (kb : 2 ≤ (den b).rank)
    (hz : b.kind ≠ some .zero) (h : cholSolveTri L a b = .ok x) : CsOk S a b x := by
  simp only [cholSolveTri, bind_ok_iff] at h
  obtain ⟨y, hy, a', ha', h⟩ := h
  obtain ⟨a'', ha'', wa', ea, _⟩ := transposeM_ok wa
  rw [ha'] at ha''
  cases ha''
  have ea' : den a' = tr (den a) := by rw [ea, nTranspose, if_pos ka]
  obtain ⟨wy, sy⟩ := hS wa wb ka kb hy
  have sy := sy.resolve_left fun e => hz e.1
  have gy : Good S (den y) := sy.good (wa.good ka) (wb.good kb)
  have ka' : 2 ≤ (den a').rank := by rw [ea']; exact ((wa.good ka).tr).rank
  obtain ⟨wx, sx⟩ := hS wa' wy ka' gy.rank h
  refine ⟨wx, sy.comp (wa.good ka) (wb.good kb) ?_⟩
  rw [ea'] at sx
  rcases sx with ⟨hk, rfl⟩ | sx
  · obtain ⟨bt, r, c, rfl⟩ : ∃ bt r c, x = .zero bt r c := by cases x <;> simp_all [Mat.kind]
    refine IsSolution.zero (S := S) (wa.good ka).tr gy (by rw [tr_rows, tr_cols, sy.square]) (by rw [tr_rows, sy.rows, sy.square])
      (by rw [sy.bt, tr_bt, ← bsh_assoc, bsh_self]) fun β i j hβ hi hj => ?_
    exact (Rep.fill (Fits.refl bt) r c (0 : K)).at' β i j hβ hi hj
  · exact sx

theorem stepCholSolve_ok (hS : SolveC L) (hC : CsC L) : CsC (lstep env lin B L) := by
  intro S a b x wa wb ka kb hd h
  change stepCholSolve env lin L a b = .ok x at h
  unfold stepCholSolve at h
  split at h
  · rename_i s t
    simp only [bind_ok_iff, pure_eq_ok] at h
    obtain ⟨y, hy, u, hu, rfl⟩ := h
    have ka' : 2 ≤ s.rank := ka
    obtain ⟨_, _, s1⟩ := hl.trisolve hy
    obtain ⟨_, _, s2⟩ := hl.trisolve hu
    rw [triPart_lower ka' hd] at s1
    rw [nTranspose, if_pos ka', triPart_upper (by simp [Tensor.rank]) (LowerTri.tr' ka' hd)] at s2
    have s := s1.comp (S := S) ⟨ka, wa.2⟩ ⟨kb, wb.2⟩ s2
    exact ⟨wf_num_of (s2.good (S := S) (Good.tr ⟨ka, wa.2⟩) (s1.good ⟨ka, wa.2⟩ ⟨kb, wb.2⟩)), s⟩
  · rename_i hnn
    obtain ⟨wa', ea⟩ := wf_convert2 (env := env) wa ka
    obtain ⟨wb', eb⟩ := wf_convert2 (env := env) wb kb
    have kb' : 2 ≤ (den (convertAM env b)).rank := by rw [eb]; exact kb
    have ka' : 2 ≤ (den (convertAM env a)).rank := by rw [ea]; exact ka
    have nz : (∀ l r, convertAM env a ≠ .kron l r) → (convertAM env b).kind ≠ some .zero := by
      intro hk e
      obtain ⟨bt, r, c, e⟩ : ∃ bt r c, convertAM env b = .zero bt r c := by revert e; cases convertAM env b <;> simp [Mat.kind]
      obtain rfl := convert_zero kb e
      revert hd
      cases a <;> simp [CsDom, Mat.kind]
    have fin : CsOk S (convertAM env a) (convertAM env b) x → CsOk S a b x := fun o => ⟨o.wf, by have := o.sol; rwa [ea, eb] at this⟩
    apply fin
    split at h
    · rename_i e; rw [e] at wa' ka' ⊢; exact cholSolveTri_ok hl hB hS wa' wb' ka' kb' (nz (by simp [e])) h
    · rename_i e; rw [e] at wa' ka' ⊢; exact cholSolveTri_ok hl hB hS wa' wb' ka' kb' (nz (by simp [e])) h
    · rename_i e; rw [e] at wa' ka' ⊢; exact cholSolveTri_ok hl hB hS wa' wb' ka' kb' (nz (by simp [e])) h
    · rename_i l r l' r' e e'
      have e1 : a = .kron l r := by
        cases a with
        | num t => rw [convert_num (show 2 ≤ t.rank from ka)] at e; cases e
        | _ => exact e
      have e2 : b = .kron l' r' := by
        cases b with
        | num t => rw [convert_num (show 2 ≤ t.rank from kb)] at e'; cases e'
        | _ => exact e'
      subst e1 e2
      rw [e, e']
      simp only [bind_ok_iff, pure_eq_ok] at h
      obtain ⟨xl, h1, xr, h2, rfl⟩ := h
      obtain ⟨⟨wl, wr⟩, kl, kr⟩ := wa
      obtain ⟨⟨wl', wr'⟩, kl', kr'⟩ := wb
      obtain ⟨o1, s1⟩ := hC wl wl' kl kl' hd.1 h1
      obtain ⟨o2, s2⟩ := hC wr wr' kr kr' hd.2 h2
      have gl := wl.good kl; have gr := wr.good kr; have gl' := wl'.good kl'; have gr' := wr'.good kr'
      have k1 := (s1.good (gl.mm gl.tr) gl').rank
      have k2 := (s2.good (gr.mm gr.tr) gr').rank
      refine ⟨⟨⟨o1, o2⟩, k1, k2⟩, ?_⟩
      have := s1.kron (gl.mm gl.tr) gl' (gr.mm gr.tr) gr' s2
      simp only [den]
      rw [tr_kronT gl gr, mm_kronT gl gr gl.tr gr.tr (by simp) (by simp)]
      exact this
    · simp at h

end

end Verif
