/-
Success (C45), part 5: one unfolding of `B.matmul` raises nothing.
-/
import Verif.FineMul

set_option linter.unusedSectionVars false
set_option linter.unusedVariables false
set_option linter.unusedSimpArgs false

namespace Verif

variable {K : Type} [Field K] [LinearOrder K]

/-! ### Reshapes -/

theorem size_cons (d : ℕ) (s : Shp) : size (d :: s) = d * size s := by simp [size]

theorem inferDim_of {n d x : ℕ} (hd : 0 < d) (h : n = d * x) : inferDim n d = .ok x := by
  subst h
  unfold inferDim
  rw [if_pos ⟨Nat.ne_of_gt hd, Dvd.intro _ rfl⟩, Nat.mul_div_cancel_left _ hd]

theorem nReshape_of {t : Tensor K} (ht : 2 ≤ t.rank) {r c : ℕ} (h : r * c = t.rows * t.cols) :
    nReshape (c :: r :: t.bt) t = .ok (reshapeT (c :: r :: t.bt) t) := by
  unfold nReshape
  rw [if_pos]
  have e : size t.sh = size (t.cols :: t.rows :: t.bt) := by conv_lhs => rw [Tensor.sh_eq ht]
  rw [e]
  simp only [size_cons]
  rw [← Nat.mul_assoc, ← Nat.mul_assoc, Nat.mul_comm c r, h, Nat.mul_comm t.rows]

theorem reshapeRows_some_of {t : Tensor K} (ht : 2 ≤ t.rank) {r x : ℕ} (hr : 0 < r) (h : t.rows * t.cols = r * x) :
    reshapeRows (some r) none t = .ok (reshapeT (x :: r :: t.bt) t) := by
  simp only [reshapeRows, reshapeMat]
  rw [inferDim_of hr h]
  exact nReshape_of ht h.symm

theorem reshapeRows_none_of {t : Tensor K} (ht : 2 ≤ t.rank) {c x : ℕ} (hc : 0 < c) (h : t.rows * t.cols = c * x) :
    reshapeRows none (some c) t = .ok (reshapeT (c :: x :: t.bt) t) := by
  simp only [reshapeRows, reshapeMat]
  rw [inferDim_of hc h]
  exact nReshape_of ht (by rw [h, Nat.mul_comm])

theorem tr_rank2 {t : Tensor K} : 2 ≤ (tr t).rank := by simp [Tensor.rank]

theorem reshapeCols_some_of {t : Tensor K} (ht : 2 ≤ t.rank) {r x : ℕ} (hr : 0 < r) (h : t.rows * t.cols = r * x) :
    reshapeCols (some r) none t = .ok (tr (reshapeT (r :: x :: t.bt) (tr t))) := by
  unfold reshapeCols
  rw [nTranspose_of_rank ht, reshapeRows_none_of tr_rank2 hr (x := x) (by rw [tr_rows, tr_cols, Nat.mul_comm]; exact h)]
  show (Except.ok (nTranspose (reshapeT _ _)) : E _) = _
  rw [nTranspose_of_rank (by simp [reshapeT, Tensor.rank])]
  rfl

theorem reshapeCols_none_of {t : Tensor K} (ht : 2 ≤ t.rank) {c x : ℕ} (hc : 0 < c) (h : t.rows * t.cols = c * x) :
    reshapeCols none (some c) t = .ok (tr (reshapeT (x :: c :: t.bt) (tr t))) := by
  unfold reshapeCols
  rw [nTranspose_of_rank ht, reshapeRows_some_of tr_rank2 hc (x := x) (by rw [tr_rows, tr_cols, Nat.mul_comm]; exact h)]
  show (Except.ok (nTranspose (reshapeT _ _)) : E _) = _
  rw [nTranspose_of_rank (by simp [reshapeT, Tensor.rank])]
  rfl

theorem nMatmul_of {S : Shp} {ta tb : Bool} {a b : Tensor K} (ga : Good S a) (gb : Good S b) (h : (trIf ta a).cols = (trIf tb b).rows) :
    nMatmul ta tb a b = .ok (mm (trIf ta a) (trIf tb b)) := nMatmul_ok.2 ⟨⟨ga.rank, gb.rank, h, ga.fits.compat gb.fits⟩, rfl⟩

theorem assertComposable_of {S : Shp} {m n : Mat K} (hm : m.WF S) (hn : n.WF S) {x y : Bool} (h : (trIf x (den m)).cols = (trIf y (den n)).rows) :
    assertComposable x y m n = .ok () := (assertComposable_ok hm hn).2 h

section
variable {S : Shp} {B : Ops K} (hF : B.Fine S) (hB : B.Ok)
include hF hB

theorem kronAIdB_calm (hK : B.Keeps) {a : Mat K} {b : Tensor K} {n : ℕ} (ha : a.WF S) (fa : a.fit true) (ka : 2 ≤ (den a).rank)
    (gb : Good S b) (hn : b.rows = (den a).cols * n) (pa : a.pos) (pn : 0 < n) (pc : 0 < b.cols) : Calm (kronAIdB B a b) := by
  unfold kronAIdB
  have pd := pos_den ha fa pa
  have hc : b.rows * b.cols = (den a).cols * (n * b.cols) := by rw [hn, Nat.mul_assoc]
  refine Calm.step ha.shape (Calm.step (reshapeRows_some_of gb.rank (show 0 < dim (den a).sh 0 from pd.2) hc) ?_)
  have hdim : dim (den a).sh 0 = (den a).cols := rfl
  rw [hdim]
  have X := (Rep.self gb.rank gb.fits).reshape hc.symm
  have wx : Mat.WF S (.num (reshapeT (n * b.cols :: (den a).cols :: b.bt) b)) := ⟨by have := X.rank; omega, X.bt⟩
  refine Calm.bind (hF.matmul ha wx fa (fit_num true _) ka X.rank X.rows.symm ?_) fun y hy => ?_
  · refine KDom.of (by simp [Mat.isKron]) fun _ => ⟨pa, ?_⟩
    show 0 < (reshapeT _ b).rows ∧ 0 < (reshapeT _ b).cols
    rw [X.rows, X.cols]
    exact ⟨pd.2, Nat.mul_pos pn pc⟩
  · have m := hB.matmul ha wx ka X.rank hy
    refine Calm.bind (hF.dense m.wf ((hK.matmul fa (fit_num true _)) _ hy)) fun yt hyt => ?_
    obtain rfl := hB.dense m.wf hyt
    have ey := m.eq
    simp only [trIf, Bool.false_eq_true, if_false, den] at ey
    have Y := (Rep.self ka ha.fits).mm X
    rw [← ey] at Y
    exact Calm.of (reshapeRows_none_of (x := (den a).rows * n) Y.rank pc (by rw [Y.rows, Y.cols]; ring))

theorem kronIdAB_calm (hK : B.Keeps) {a : Mat K} {b : Tensor K} {n : ℕ} (ha : a.WF S) (fa : a.fit true) (ka : 2 ≤ (den a).rank)
    (gb : Good S b) (hn : b.rows = n * (den a).cols) (pa : a.pos) (pn : 0 < n) (pc : 0 < b.cols) : Calm (kronIdAB B a b) := by
  unfold kronIdAB
  have pd := pos_den ha fa pa
  have hc : b.rows * b.cols = (den a).cols * (b.cols * n) := by rw [hn]; ring
  refine Calm.step ha.shape (Calm.step (reshapeCols_some_of gb.rank (show 0 < dim (den a).sh 0 from pd.2) hc) ?_)
  have hdim : dim (den a).sh 0 = (den a).cols := rfl
  rw [hdim]
  have X := ((Rep.self gb.rank gb.fits).tr.reshape (R' := b.cols * n) (C' := (den a).cols) (by rw [Nat.mul_comm, ← hc, Nat.mul_comm])).tr
  have wx : Mat.WF S (.num (tr (reshapeT ((den a).cols :: b.cols * n :: b.bt) (tr b)))) := ⟨by simp [Tensor.rank], X.bt⟩
  refine Calm.bind (hF.matmul ha wx fa (fit_num true _) ka X.rank X.rows.symm ?_) fun y hy => ?_
  · refine KDom.of (by simp [Mat.isKron]) fun _ => ⟨pa, ?_⟩
    show 0 < (tr (reshapeT _ (tr b))).rows ∧ 0 < (tr (reshapeT _ (tr b))).cols
    exact ⟨pd.2, Nat.mul_pos pc pn⟩
  · have m := hB.matmul ha wx ka X.rank hy
    refine Calm.bind (hF.dense m.wf ((hK.matmul fa (fit_num true _)) _ hy)) fun yt hyt => ?_
    obtain rfl := hB.dense m.wf hyt
    have ey := m.eq
    simp only [trIf, Bool.false_eq_true, if_false, den] at ey
    have Y := (Rep.self ka ha.fits).mm X
    rw [show mm (den a) (tr (reshapeT ((den a).cols :: b.cols * n :: (tr b).bt) (tr b))) = den y from ey.symm] at Y
    exact Calm.of (reshapeCols_none_of (x := n * (den a).rows) Y.rank pc (by rw [Y.rows, Y.cols]; ring))

theorem matmulKronAm_calm (hK : B.Keeps) {ta tb : Bool} {l r b : Mat K} (ha : Mat.WF S (.kron l r)) (hb : b.WF S) (fa : (Mat.kron l r).fit true)
    (fb : b.fit true) (kb : 2 ≤ (den b).rank) (hc : (trIf ta (den (.kron l r))).cols = (trIf tb (den b)).rows) (pa : (Mat.kron l r).pos) (pb : b.pos) :
    Calm (matmulKronAm B ta tb l r b) := by
  unfold matmulKronAm
  refine Calm.step (assertComposable_of ha hb hc) ?_
  obtain ⟨⟨wl0, wr0⟩, kl0, kr0⟩ := ha
  refine Calm.bind (trM_calm ta wl0) fun l' hl' => Calm.bind (trM_calm ta wr0) fun r' hr' => Calm.bind (trM_calm tb hb) fun b' hb' => ?_
  obtain ⟨wl, el, kl⟩ := trM_ok wl0 kl0 hl'
  obtain ⟨wr, er, kr⟩ := trM_ok wr0 kr0 hr'
  obtain ⟨wb, eb, kb'⟩ := trM_ok hb kb hb'
  have fl := (fitp_trM ta fa.2.1) _ hl'
  have fr := (fitp_trM ta fa.2.2) _ hr'
  have fb' := (fitp_trM tb fb) _ hb'
  have pl := (trM_pos fa.2.1 hl').1 pa.1
  have pr := (trM_pos fa.2.2 hr').1 pa.2
  have pb' := (trM_pos fb hb').1 pb
  have ql := pos_den wl fl pl
  have qr := pos_den wr fr pr
  have qb := pos_den wb fb' pb'
  refine Calm.step wl.shapeMatrix (Calm.step wr.shapeMatrix (Calm.bind (hF.dense wb fb') fun _ hd => ?_))
  obtain rfl := hB.dense wb hd
  rw [show den (.kron l r) = kronT (den l) (den r) from rfl, trIf_kronT (wl0.good kl0) (wr0.good kr0), ← el, ← er, ← eb] at hc
  have hrow : (den b').rows = (den l').cols * (den r').cols := hc.symm
  have gb := wb.good kb'
  refine Calm.ite (fun _ => ?_) fun _ => ?_
  · refine Calm.bind (kronAIdB_calm hF hB hK wl fl kl gb hrow pl qr.2 qb.2) fun y hy => ?_
    obtain ⟨ybt, hY⟩ := kronAIdB_ok hB wl kl gb hrow hy
    have YS := hY S wl.fits gb.fits
    exact Calm.bind (kronIdAB_calm hF hB hK wr fr kr YS.good YS.rows pr ql.1 (by rw [YS.cols]; exact qb.2)) fun z _ => Calm.pure
  · refine Calm.bind (kronIdAB_calm hF hB hK wr fr kr gb hrow pr ql.2 qb.2) fun y hy => ?_
    obtain ⟨ybt, hY⟩ := kronIdAB_ok hB wr kr gb hrow hy
    have YS := hY S wr.fits gb.fits
    exact Calm.bind (kronAIdB_calm hF hB hK wl fl kl YS.good YS.rows pl qr.1 (by rw [YS.cols]; exact qb.2)) fun z _ => Calm.pure

theorem matmul3_calm (hK : B.Keeps) {ta tb tc : Bool} {a b c : Mat K} (ha : a.WF S) (hb : b.WF S) (hc : c.WF S)
    (fa : a.fit false) (fb : b.fit false) (fc : c.fit false)
    (ka : 2 ≤ (den a).rank) (kb : 2 ≤ (den b).rank) (kc : 2 ≤ (den c).rank)
    (h1 : (trIf ta (den a)).cols = (trIf tb (den b)).rows) (h2 : (trIf tb (den b)).cols = (trIf tc (den c)).rows) :
    Calm (matmul3 B ta tb tc a b c) := by
  unfold matmul3
  refine Calm.step (shapeMatrixTr_eq ha ta) (Calm.step (shapeMatrixTr_eq hb tb) (Calm.step (shapeMatrixTr_eq hc tc) (Calm.ite (fun _ => ?_) fun _ => ?_)))
  · refine Calm.bind (hF.matmul ha hb fa.up fb.up ka kb h1 (KDom.flat (fit_notKron fa) (fit_notKron fb))) fun x hx => ?_
    have m := hB.matmul ha hb ka kb hx
    have fx := (hK.matmul fa fb) _ hx
    exact hF.matmul m.wf hc fx.up fc.up m.rank kc (by rw [m.eq]; exact h2) (KDom.flat (fit_notKron fx) (fit_notKron fc))
  · refine Calm.bind (hF.matmul hb hc fb.up fc.up kb kc h2 (KDom.flat (fit_notKron fb) (fit_notKron fc))) fun x hx => ?_
    have m := hB.matmul hb hc kb kc hx
    have fx := (hK.matmul fb fc) _ hx
    exact hF.matmul ha m.wf fa.up fx.up ka m.rank (by rw [m.eq]; exact h1) (KDom.flat (fit_notKron fa) (fit_notKron fx))

theorem matmulLRLR_calm (hK : B.Keeps) {ta tb : Bool} {a b : Mat K} (ha : a.WF S) (hb : b.WF S) (fa : a.fit true) (fb : b.fit true)
    (ka : 2 ≤ (den a).rank) (kb : 2 ≤ (den b).rank) (hc : (trIf ta (den a)).cols = (trIf tb (den b)).rows)
    (ea : a.kind = some .lr) (eb : b.kind = some .lr) : Calm (matmulLRLR B ta tb a b) := by
  unfold matmulLRLR
  refine Calm.step (assertComposable_of ha hb hc) (Calm.bind (trM_calm ta ha) fun a' ha' => Calm.bind (trM_calm tb hb) fun b' hb' => ?_)
  obtain ⟨wa, da, ra⟩ := trM_ok ha ka ha'
  obtain ⟨wb, db, rb⟩ := trM_ok hb kb hb'
  have fa' := (fitp_trM ta fa) _ ha'
  have fb' := (fitp_trM tb fb) _ hb'
  have ja := trM_kind ha' ea
  have jb := trM_kind hb' eb
  rw [← da, ← db] at hc
  split
  · rename_i al ar am bl br bm
    obtain ⟨⟨wal, war, wam⟩, ⟨kal, kar, kam⟩, ca1, ca2⟩ := wa
    obtain ⟨⟨wbl, wbr, wbm⟩, ⟨kbl, kbr, kbm⟩, cb1, cb2⟩ := wb
    obtain ⟨fal, far, fam⟩ := fa'
    obtain ⟨fbl, fbr, fbm⟩ := fb'
    rw [lr_cols, lr_rows] at hc
    refine Calm.bind (hF.matmul war wbl far.up fbl.up kar kbl hc (KDom.flat (fit_notKron far) (fit_notKron fbl))) fun x hx => ?_
    have mx := hB.matmul war wbl kar kbl hx
    have fx := (hK.matmul far fbl) _ hx
    have x1 : (den x).rows = (den ar).cols := by rw [mx.eq]; rfl
    have x2 : (den x).cols = (den bl).cols := by rw [mx.eq]; rfl
    refine Calm.bind (matmul3_calm hF hB hK wam mx.wf wbm fam fx fbm kam mx.rank kbm (by rw [trIf_false, trIf_false, x1, ca2]) (by rw [trIf_false, trIf_false, x2, cb1])) fun y hy => ?_
    obtain ⟨wy, y1, y2, ey⟩ := matmul3_ok hB wam mx.wf wbm kam mx.rank kbm hy
    have fy := (fitp_matmul3 hK fam fx fbm) _ hy
    have ky : 2 ≤ (den y).rank := by rw [ey]; simp [Tensor.rank]
    have d1 : (den y).rows = (den am).rows := by rw [ey]; rfl
    have d2 : (den y).cols = (den bm).cols := by rw [ey]; rfl
    refine Calm.step wy.shapeMatrix (Calm.ite (fun h11 => ?_) fun _ => ?_)
    · refine Calm.bind (hF.dense wy fy.up) fun _ hd => ?_
      obtain rfl := hB.dense wy hd
      simp only [Prod.mk.injEq] at h11
      have wd : Mat.WF S (.diag (mkVec (den y).bt 1 fun β _ => (den y).at' β 0 0)) := ⟨by simp [Tensor.rank], wy.fits⟩
      refine Calm.step (mkDiag_of wd.1) (Calm.of (mkLR_ok wal wbr wd ⟨kal, kbr, wd.rank rfl⟩ ?_ ?_))
      · show (den al).cols = 1
        rw [ca1, ← d1, h11.1]
      · show (den br).cols = 1
        rw [cb2, ← d2, h11.2]
    · exact Calm.of (mkLR_ok wal wbr wy ⟨kal, kbr, ky⟩ (by rw [ca1, d1]) (by rw [cb2, d2]))
  · rename_i h
    exfalso
    clear * - h ja jb
    cases a' <;> simp only [Mat.kind, Option.some.injEq, reduceCtorEq] at ja
    cases b' <;> simp only [Mat.kind, Option.some.injEq, reduceCtorEq] at jb
    exact h _ _ _ _ _ _ rfl rfl

theorem mmRun_calm (hK : B.Keeps) {ta tb : Bool} {a b : Mat K} {ka kb : Kind} {m : MmM} (ea : a.kind = some ka) (eb : b.kind = some kb)
    (hm : mmId ka kb = some m) (ha : a.WF S) (hb : b.WF S) (fa : a.fit true) (fb : b.fit true) (hc : (trIf ta (den a)).cols = (trIf tb (den b)).rows)
    (kd : KDom ta tb a b) : Calm (mmRun B m ta tb a b) := by
  have aa : a.isAM = true := by cases a <;> simp_all [Mat.kind, Mat.isAM]
  have ab : b.isAM = true := by cases b <;> simp_all [Mat.kind, Mat.isAM]
  have ka2 := ha.rank aa
  have kb2 := hb.rank ab
  have ga := ha.good ka2
  have gb := hb.good kb2
  have cb : Compat (den a).bt (den b).bt := ga.fits.compat gb.fits
  have hcs := assertComposable_of ha hb hc
  unfold mmRun
  split
  · -- amZero
    exact Calm.step hcs (Calm.step (shapeMatrixTr_eq ha ta) (Calm.step (shapeMatrixTr_eq hb tb) (Calm.step ha.shapeBatch (Calm.step (bsE_of cb) Calm.pure))))
  · -- zeroAm
    exact Calm.step hcs (Calm.step (shapeMatrixTr_eq ha ta) (Calm.step (shapeMatrixTr_eq hb tb) (Calm.step hb.shapeBatch (Calm.step (bsE_of cb) Calm.pure))))
  · exact Calm.step (nMatmul_of ga gb hc) Calm.pure
  · -- diagDiag
    rename_i s t
    refine Calm.step hcs (Calm.step (nMul_of ?_) (Calm.of (mkDiag_of (ha.goodV.zipB (· * ·) hb.goodV).rank)))
    have he : s.cols = t.cols := by
      simp only [den] at hc
      rw [trIf_diagC ha.1, trIf_diagC hb.1] at hc
      exact hc
    exact (VRep.self ha.1 ha.2).fits.compat (he ▸ (VRep.self hb.1 hb.2).fits)
  · -- diagAm
    rename_i s
    refine Calm.step hcs (Calm.bind (trM_calm tb hb) fun b' hb' => ?_)
    obtain ⟨wb, db, kb'⟩ := trM_ok hb kb2 hb'
    rw [show den (.diag s : Mat K) = diagC s from rfl, trIf_diagC ha.1, ← db] at hc
    have gd := Good.expandEnd1 ha.goodV
    have V := Rep.expandEnd1 (VRep.self ha.1 ha.2)
    refine hF.mul (mkDense_wf gd).1 wb (fit_mkDense true _) ((fitp_trM tb fb) _ hb') (.of (noStretch_expandEnd ha.goodV hc) rfl trivial)
      (MulDef.of (by simp [mkDense, Mat.isKron]) ⟨by simp [mkDense, Mat.readsDiag], fun _ _ => trivial, by simp [mkDense, Mat.lowRk]⟩) ?_
    rw [(mkDense_wf gd).2]
    exact (compat_of_mfits (wb.good kb') gd ⟨Or.inr (V.rows.trans hc), Or.inl V.cols⟩).symm
  · -- amDiag
    rename_i t
    refine Calm.step hcs (Calm.bind (trM_calm ta ha) fun a' ha' => ?_)
    obtain ⟨wa, da, ka'⟩ := trM_ok ha ka2 ha'
    rw [show den (.diag t : Mat K) = diagC t from rfl, trIf_diagC hb.1, ← da] at hc
    have gd := Good.expandRow hb.goodV
    have V := Rep.expandRow (VRep.self hb.1 hb.2)
    have md : MulDef (mkDense (expandRow t)) a' :=
      MulDef.of (by simp [mkDense, Mat.isKron]) ⟨by simp [mkDense, Mat.readsDiag], fun _ _ => trivial, by simp [mkDense, Mat.lowRk]⟩
    refine hF.mul wa (mkDense_wf gd).1 ((fitp_trM ta fa) _ ha') (fit_mkDense true _) (MulSafe.of (noStretch_expandRow hb.goodV hc.symm).symm rfl trivial).symm
      md.symm ?_
    rw [(mkDense_wf gd).2]
    exact compat_of_mfits (wa.good ka') gd ⟨Or.inl V.rows, Or.inr (V.cols.trans hc.symm)⟩
  · -- constConst
    refine Calm.step hcs ?_
    cases ta <;> exact Calm.step (nMul_of (Fits.compat (S := S) ha hb)) Calm.pure
  · -- constAm
    rename_i s r1 c1
    refine Calm.step hcs (Calm.bind (trM_calm tb hb) fun b' hb' => ?_)
    obtain ⟨wb, db, kb'⟩ := trM_ok hb kb2 hb'
    refine Calm.bind (hF.sumM (le_refl 1) wb ((fitp_trM tb fb) _ hb') kb') fun v hv => ?_
    obtain rfl := hB.sumM (le_refl 1) wb kb' hv
    refine Calm.bind (fillDiag_calm s) fun d hd => ?_
    obtain ⟨v, rfl, ev, hv⟩ := fillDiag_ok (S := S) ha hd
    have gb' := wb.good kb'
    have E := Rep.expandEnd1 (VRep.sumAx1 (Rep.self kb' gb'.fits))
    have w1 : Mat.WF S (.num (fillT [1, if ta then c1 else r1] (1:K))) := ⟨by simp [Tensor.rank], Fits.nil _⟩
    have w2 : Mat.WF S (.num (expandEnd 1 (sumAx 1 (den b')))) := ⟨by have := E.rank; omega, E.bt⟩
    have w3 : Mat.WF S (.diag v) := ⟨(hv ha).rank, (hv ha).bt⟩
    have e3 : (den (.diag v : Mat K)).rows = 1 ∧ (den (.diag v : Mat K)).cols = 1 := by
      simp only [den, diagC_rows, diagC_cols, Tensor.cols, ev]; exact ⟨rfl, rfl⟩
    exact Calm.of (mkLR_ok w1 w2 w3 ⟨by simp [den, Tensor.rank], E.rank, w3.rank rfl⟩ (by rw [e3.1]; rfl) (by rw [e3.2]; exact E.cols))
  · -- amConst
    rename_i t r1 c1
    refine Calm.step hcs (Calm.bind (trM_calm ta ha) fun a' ha' => ?_)
    obtain ⟨wa, da, ka'⟩ := trM_ok ha ka2 ha'
    refine Calm.bind (hF.sumM (Nat.zero_le 1) wa ((fitp_trM ta fa) _ ha') ka') fun v hv => ?_
    obtain rfl := hB.sumM (Nat.zero_le 1) wa ka' hv
    refine Calm.bind (fillDiag_calm t) fun d hd => ?_
    obtain ⟨v, rfl, ev, hv⟩ := fillDiag_ok (S := S) hb hd
    have ga' := wa.good ka'
    have E := Rep.expandEnd1 (VRep.sumAx0 (Rep.self ka' ga'.fits))
    have w1 : Mat.WF S (.num (fillT [1, if tb then r1 else c1] (1:K))) := ⟨by simp [Tensor.rank], Fits.nil _⟩
    have w2 : Mat.WF S (.num (expandEnd 1 (sumAx 0 (den a')))) := ⟨by have := E.rank; omega, E.bt⟩
    have w3 : Mat.WF S (.diag v) := ⟨(hv hb).rank, (hv hb).bt⟩
    have e3 : (den (.diag v : Mat K)).rows = 1 ∧ (den (.diag v : Mat K)).cols = 1 := by
      simp only [den, diagC_rows, diagC_cols, Tensor.cols, ev]; exact ⟨rfl, rfl⟩
    exact Calm.of (mkLR_ok w2 w1 w3 ⟨E.rank, by simp [den, Tensor.rank], w3.rank rfl⟩ (by rw [e3.1]; exact E.cols) (by rw [e3.2]; rfl))
  · -- ltLt
    rename_i s t
    refine Calm.ite (fun hf => ?_) fun hf => ?_
    · obtain ⟨rfl, rfl⟩ := hf
      exact Calm.step (nMatmul_of ga gb hc) (Calm.of (mkLT_of (ga.mm gb).rank))
    · refine Calm.bind (trM_calm ta ha) fun a' ha' => Calm.bind (trM_calm tb hb) fun b' hb' => ?_
      obtain ⟨wa, da, ka'⟩ := trM_ok ha ka2 ha'
      obtain ⟨wb, db, kb'⟩ := trM_ok hb kb2 hb'
      exact hF.matmul wa wb ((fitp_trM ta fa) _ ha') ((fitp_trM tb fb) _ hb') ka' kb' (by rw [trIf_false, trIf_false, da, db]; exact hc)
        (KDom.flat (trM_pos fa ha').2 (trM_pos fb hb').2)
  · -- ltAm
    split
    · exact hF.matmul ha.ltNum hb trivial fb ka2 kb2 hc (KDom.of (by simp [Mat.isKron]) (kd.pos (by simp [Mat.isKron])))
    · exact hF.matmul ha.utNum hb trivial fb ka2 kb2 hc (KDom.of (by simp [Mat.isKron]) (kd.pos (by simp [Mat.isKron])))
    · exfalso
      rename_i h1 h2
      clear * - h1 h2 ea eb hm
      cases a <;> simp only [Mat.kind, Option.some.injEq, reduceCtorEq] at ea <;> subst ea <;> cases kb <;> simp_all [mmId]
  · -- amLt
    split
    · exact hF.matmul ha hb.ltNum fa trivial ka2 kb2 hc (KDom.of (by simp [Mat.isKron]) (kd.pos (by simp [Mat.isKron])))
    · exact hF.matmul ha hb.utNum fa trivial ka2 kb2 hc (KDom.of (by simp [Mat.isKron]) (kd.pos (by simp [Mat.isKron])))
    · exfalso
      rename_i h1 h2
      clear * - h1 h2 ea eb hm
      cases b <;> simp only [Mat.kind, Option.some.injEq, reduceCtorEq] at eb <;> subst eb <;> cases ka <;> simp_all [mmId]
  · -- ltDiag
    rename_i s t
    refine Calm.ite (fun hf => ?_) fun hf => ?_
    · subst hf
      have e2 : trIf tb (den (.diag t : Mat K)) = diagC t := trIf_diagC hb.1
      refine Calm.bind (hF.matmul ha.ltNum hb trivial fb ka2 kb2 (by rw [e2] at hc; exact hc) (KDom.flat rfl rfl)) fun x hx => ?_
      have m := hB.matmul ha.ltNum hb ka2 kb2 hx
      refine Calm.bind (hF.dense m.wf ((hK.matmul (fit_num true _) fb) _ hx)) fun _ hd => ?_
      obtain rfl := hB.dense m.wf hd
      exact Calm.of (mkLT_of m.rank)
    · refine Calm.bind (trM_calm ta ha) fun a' ha' => ?_
      obtain ⟨wa, da, ka'⟩ := trM_ok ha ka2 ha'
      have e2 : trIf tb (den (.diag t : Mat K)) = diagC t := trIf_diagC hb.1
      exact hF.matmul wa hb ((fitp_trM ta fa) _ ha') fb ka' kb2 (by rw [trIf_false, da, hc, e2]; rfl) (KDom.flat (trM_pos fa ha').2 rfl)
  · -- diagLt
    rename_i s t
    refine Calm.ite (fun hf => ?_) fun hf => ?_
    · subst hf
      have e2 : trIf ta (den (.diag s : Mat K)) = diagC s := trIf_diagC ha.1
      refine Calm.bind (hF.matmul ha hb.ltNum fa trivial ka2 kb2 (by rw [e2] at hc; exact hc) (KDom.flat rfl rfl)) fun x hx => ?_
      have m := hB.matmul ha hb.ltNum ka2 kb2 hx
      refine Calm.bind (hF.dense m.wf ((hK.matmul fa (fit_num true _)) _ hx)) fun _ hd => ?_
      obtain rfl := hB.dense m.wf hd
      exact Calm.of (mkLT_of m.rank)
    · refine Calm.bind (trM_calm tb hb) fun b' hb' => ?_
      obtain ⟨wb, db, kb'⟩ := trM_ok hb kb2 hb'
      have e2 : trIf ta (den (.diag s : Mat K)) = diagC s := trIf_diagC ha.1
      exact hF.matmul ha wb fa ((fitp_trM tb fb) _ hb') ka2 kb' (by rw [e2] at hc; rw [trIf_false, trIf_false, db]; exact hc) (KDom.flat rfl (trM_pos fb hb').2)
  · -- utUt
    rename_i s t
    refine Calm.ite (fun hf => ?_) fun hf => ?_
    · obtain ⟨rfl, rfl⟩ := hf
      exact Calm.step (nMatmul_of ga gb hc) (Calm.of (mkUT_of (ga.mm gb).rank))
    · refine Calm.bind (trM_calm ta ha) fun a' ha' => Calm.bind (trM_calm tb hb) fun b' hb' => ?_
      obtain ⟨wa, da, ka'⟩ := trM_ok ha ka2 ha'
      obtain ⟨wb, db, kb'⟩ := trM_ok hb kb2 hb'
      exact hF.matmul wa wb ((fitp_trM ta fa) _ ha') ((fitp_trM tb fb) _ hb') ka' kb' (by rw [trIf_false, trIf_false, da, db]; exact hc)
        (KDom.flat (trM_pos fa ha').2 (trM_pos fb hb').2)
  · -- utDiag
    rename_i s t
    refine Calm.ite (fun hf => ?_) fun hf => ?_
    · subst hf
      have e2 : trIf tb (den (.diag t : Mat K)) = diagC t := trIf_diagC hb.1
      refine Calm.bind (hF.matmul ha.utNum hb trivial fb ka2 kb2 (by rw [e2] at hc; exact hc) (KDom.flat rfl rfl)) fun x hx => ?_
      have m := hB.matmul ha.utNum hb ka2 kb2 hx
      refine Calm.bind (hF.dense m.wf ((hK.matmul (fit_num true _) fb) _ hx)) fun _ hd => ?_
      obtain rfl := hB.dense m.wf hd
      exact Calm.of (mkUT_of m.rank)
    · refine Calm.bind (trM_calm ta ha) fun a' ha' => ?_
      obtain ⟨wa, da, ka'⟩ := trM_ok ha ka2 ha'
      have e2 : trIf tb (den (.diag t : Mat K)) = diagC t := trIf_diagC hb.1
      exact hF.matmul wa hb ((fitp_trM ta fa) _ ha') fb ka' kb2 (by rw [trIf_false, da, hc, e2]; rfl) (KDom.flat (trM_pos fa ha').2 rfl)
  · -- diagUt
    rename_i s t
    refine Calm.ite (fun hf => ?_) fun hf => ?_
    · subst hf
      have e2 : trIf ta (den (.diag s : Mat K)) = diagC s := trIf_diagC ha.1
      refine Calm.bind (hF.matmul ha hb.utNum fa trivial ka2 kb2 (by rw [e2] at hc; exact hc) (KDom.flat rfl rfl)) fun x hx => ?_
      have m := hB.matmul ha hb.utNum ka2 kb2 hx
      refine Calm.bind (hF.dense m.wf ((hK.matmul fa (fit_num true _)) _ hx)) fun _ hd => ?_
      obtain rfl := hB.dense m.wf hd
      exact Calm.of (mkUT_of m.rank)
    · refine Calm.bind (trM_calm tb hb) fun b' hb' => ?_
      obtain ⟨wb, db, kb'⟩ := trM_ok hb kb2 hb'
      have e2 : trIf ta (den (.diag s : Mat K)) = diagC s := trIf_diagC ha.1
      exact hF.matmul ha wb fa ((fitp_trM tb fb) _ hb') ka2 kb' (by rw [e2] at hc; rw [trIf_false, trIf_false, db]; exact hc) (KDom.flat rfl (trM_pos fb hb').2)
  · -- lrLr
    refine matmulLRLR_calm hF hB hK ha hb fa fb ka2 kb2 hc ?_ ?_
    · rw [ea]; clear * - hm; cases ka <;> cases kb <;> first | rfl | exact absurd hm (by decide)
    · rw [eb]; clear * - hm; cases ka <;> cases kb <;> first | rfl | exact absurd hm (by decide)
  · -- lrAm
    have ea' : a.kind = some .lr := by rw [ea]; clear * - hm; cases ka <;> cases kb <;> first | rfl | exact absurd hm (by decide)
    have na : a.isKron = false := by cases a <;> first | rfl | exact absurd ea' (by simp [Mat.kind])
    refine Calm.step hcs (Calm.bind (trM_calm ta ha) fun a' ha' => ?_)
    obtain ⟨wa, da, ka'⟩ := trM_ok ha ka2 ha'
    have fa' := (fitp_trM ta fa) _ ha'
    have ja := trM_kind ha' ea'
    split
    · rename_i l r' m'
      refine Calm.bind (trM_calm tb hb) fun b' hb' => ?_
      obtain ⟨wb, db, kb'⟩ := trM_ok hb kb2 hb'
      have pp := fun h => kd.pos (by rw [na]; simp) (Or.inr h)
      have qa := (trM_pos fa ha').1
      have qb := trM_pos fb hb'
      rw [← da, ← db, lr_cols] at hc
      obtain ⟨⟨wl, wr, wm⟩, ⟨kl, kr, km⟩, c1, c2⟩ := wa
      refine Calm.bind (hF.matmul wb wr ((fitp_trM tb fb) _ hb') fa'.2.1.up kb' kr hc.symm (KDom.of (by simp [fit_notKron fa'.2.1]) ?_)) fun x hx => ?_
      · rw [fit_notKron fa'.2.1, qb.2]
        intro h
        have h := pp (h.resolve_right Bool.false_ne_true)
        exact ⟨qb.1 h.2, (qa h.1).2.1⟩
      · have mx := hB.matmul wb wr kb' kr hx
        exact Calm.of (mkLR_ok wl mx.wf wm ⟨kl, mx.rank, km⟩ c1 (by rw [mx.eq]; exact c2))
    · rename_i h
      exfalso
      clear * - h ja
      cases a' <;> simp only [Mat.kind, Option.some.injEq, reduceCtorEq] at ja
      exact h _ _ _ rfl
  · -- amLr
    have eb' : b.kind = some .lr := by rw [eb]; clear * - hm; cases ka <;> cases kb <;> first | rfl | exact absurd hm (by decide)
    have nb : b.isKron = false := by cases b <;> first | rfl | exact absurd eb' (by simp [Mat.kind])
    refine Calm.step hcs (Calm.bind (trM_calm tb hb) fun b' hb' => ?_)
    obtain ⟨wb, db, kb'⟩ := trM_ok hb kb2 hb'
    have fb' := (fitp_trM tb fb) _ hb'
    have jb := trM_kind hb' eb'
    split
    · rename_i l r' m'
      refine Calm.bind (trM_calm ta ha) fun a' ha' => ?_
      obtain ⟨wa, da, ka'⟩ := trM_ok ha ka2 ha'
      have pp := fun h => kd.pos (by rw [nb]; simp) (Or.inl h)
      have qb := (trM_pos fb hb').1
      have qa := trM_pos fa ha'
      rw [← da, ← db, lr_rows] at hc
      obtain ⟨⟨wl, wr, wm⟩, ⟨kl, kr, km⟩, c1, c2⟩ := wb
      refine Calm.bind (hF.matmul wa wl ((fitp_trM ta fa) _ ha') fb'.1.up ka' kl hc (KDom.of (by simp [fit_notKron fb'.1]) ?_)) fun x hx => ?_
      · rw [fit_notKron fb'.1, qa.2]
        intro h
        have h := pp (h.resolve_right Bool.false_ne_true)
        exact ⟨qa.1 h.1, (qb h.2).1⟩
      · have mx := hB.matmul wa wl ka' kl hx
        exact Calm.of (mkLR_ok mx.wf wr wm ⟨mx.rank, kr, km⟩ (by rw [mx.eq]; exact c1) c2)
    · rename_i h
      exfalso
      clear * - h jb
      cases b' <;> simp only [Mat.kind, Option.some.injEq, reduceCtorEq] at jb
      exact h _ _ _ rfl
  · -- lrConst
    have na : a.isKron = false := by
      clear * - hm ea eb
      cases a <;> simp only [Mat.kind, Option.some.injEq, reduceCtorEq] at ea <;> first | rfl | skip
      all_goals subst ea; simp only [Mat.kind, Option.some.injEq] at eb; subst eb; exact absurd hm (by decide)
    refine Calm.bind (constToLR_calm (S := S) hb _ _) fun lr hlr => ?_
    obtain ⟨w, e, _⟩ := constToLR_ok (S := S) hb hlr
    exact hF.matmul ha w fa ((fitp_constToLR true _ _ _) _ hlr) ka2 (by rw [e]; exact kb2) (by rw [e]; exact hc)
      (KDom.flat na (fit_notKron ((fitp_constToLR false _ _ _) _ hlr)))
  · -- constLr
    have nb : b.isKron = false := by
      clear * - hm ea eb
      cases b <;> simp only [Mat.kind, Option.some.injEq, reduceCtorEq] at eb <;> first | rfl | skip
      all_goals subst eb; simp only [Mat.kind, Option.some.injEq] at ea; subst ea; exact absurd hm (by decide)
    refine Calm.bind (constToLR_calm (S := S) ha _ _) fun lr hlr => ?_
    obtain ⟨w, e, _⟩ := constToLR_ok (S := S) ha hlr
    exact hF.matmul w hb ((fitp_constToLR true _ _ _) _ hlr) fb (by rw [e]; exact ka2) kb2 (by rw [e]; exact hc)
      (KDom.flat (fit_notKron ((fitp_constToLR false _ _ _) _ hlr)) nb)
  · -- wbAm
    rename_i d l r' m'
    have wd := ha.wbDiag
    have wl := ha.wbLr
    have gd := wd.good (wd.rank rfl)
    have gl := wl.good (wl.rank rfl)
    have er : (den (.diag d : Mat K)).rows = (den (.lr l r' m')).rows := ha.2.2.2.2.1.symm
    have ec : (den (.diag d : Mat K)).cols = (den (.lr l r' m')).cols := ha.2.2.2.2.2.symm
    have er' : (trIf ta (den (.diag d : Mat K))).rows = (trIf ta (den (.lr l r' m'))).rows := by cases ta <;> assumption
    have ec' : (trIf ta (den (.diag d : Mat K))).cols = (trIf ta (den (.lr l r' m'))).cols := by cases ta <;> assumption
    have e : trIf ta (den (.wb d l r' m')) = zipB (· + ·) (trIf ta (den (.diag d))) (trIf ta (den (.lr l r' m'))) := by
      rw [den_wb, trIf_zipB _ gd gl er ec]
    have h1 : (trIf ta (den (.diag d : Mat K))).cols = (trIf tb (den b)).rows := by
      rw [e, zipB_cols, ← ec', bd_self] at hc; exact hc
    have h2 : (trIf ta (den (.lr l r' m'))).cols = (trIf tb (den b)).rows := by rw [← ec', h1]
    have pp := kd.pos (by simp [Mat.isKron])
    refine Calm.bind (hF.matmul wd hb trivial fb gd.rank kb2 h1 (KDom.of (by simp [Mat.isKron]) fun h => ?_)) fun x hx => ?_
    · have h := pp (Or.inr (h.resolve_left Bool.false_ne_true))
      exact ⟨h.1.1, h.2⟩
    refine Calm.bind (hF.matmul wl hb fa.lr fb gl.rank kb2 h2 (KDom.of (by simp [Mat.isKron]) fun h => ?_)) fun y hy => ?_
    · have h := pp (Or.inr (h.resolve_left Bool.false_ne_true))
      exact ⟨h.1.2, h.2⟩
    have mx := hB.matmul wd hb gd.rank kb2 hx
    have my := hB.matmul wl hb gl.rank kb2 hy
    have m1 : (den x).rows = (den y).rows := by rw [mx.eq, my.eq]; exact er'
    have m2 : (den x).cols = (den y).cols := by rw [mx.eq, my.eq]; rfl
    exact hF.add mx.wf my.wf ((hK.matmul (fit_diag true _) fb) _ hx) ((hK.matmul fa.lr fb) _ hy) (noStretch_of_eq m1 m2)
      (compat_of_mfits (mx.wf.good mx.rank) (my.wf.good my.rank) (mfits_refl m1 m2))
  · -- amWb
    rename_i d l r' m'
    have wd := hb.wbDiag
    have wl := hb.wbLr
    have gd := wd.good (wd.rank rfl)
    have gl := wl.good (wl.rank rfl)
    have er : (den (.diag d : Mat K)).rows = (den (.lr l r' m')).rows := hb.2.2.2.2.1.symm
    have ec : (den (.diag d : Mat K)).cols = (den (.lr l r' m')).cols := hb.2.2.2.2.2.symm
    have er' : (trIf tb (den (.diag d : Mat K))).rows = (trIf tb (den (.lr l r' m'))).rows := by cases tb <;> assumption
    have ec' : (trIf tb (den (.diag d : Mat K))).cols = (trIf tb (den (.lr l r' m'))).cols := by cases tb <;> assumption
    have e : trIf tb (den (.wb d l r' m')) = zipB (· + ·) (trIf tb (den (.diag d))) (trIf tb (den (.lr l r' m'))) := by
      rw [den_wb, trIf_zipB _ gd gl er ec]
    have h1 : (trIf ta (den a)).cols = (trIf tb (den (.diag d : Mat K))).rows := by
      rw [e, zipB_rows, ← er', bd_self] at hc; exact hc
    have h2 : (trIf ta (den a)).cols = (trIf tb (den (.lr l r' m'))).rows := by rw [← er', h1]
    have pp := kd.pos (by simp [Mat.isKron])
    refine Calm.bind (hF.matmul ha wd fa trivial ka2 gd.rank h1 (KDom.of (by simp [Mat.isKron]) fun h => ?_)) fun x hx => ?_
    · have h := pp (Or.inl (h.resolve_right Bool.false_ne_true))
      exact ⟨h.1, h.2.1⟩
    refine Calm.bind (hF.matmul ha wl fa fb.lr ka2 gl.rank h2 (KDom.of (by simp [Mat.isKron]) fun h => ?_)) fun y hy => ?_
    · have h := pp (Or.inl (h.resolve_right Bool.false_ne_true))
      exact ⟨h.1, h.2.2⟩
    have mx := hB.matmul ha wd ka2 gd.rank hx
    have my := hB.matmul ha wl ka2 gl.rank hy
    have m1 : (den x).rows = (den y).rows := by rw [mx.eq, my.eq]; rfl
    have m2 : (den x).cols = (den y).cols := by rw [mx.eq, my.eq]; exact ec'
    exact hF.add mx.wf my.wf ((hK.matmul fa (fit_diag true _)) _ hx) ((hK.matmul fa fb.lr) _ hy) (noStretch_of_eq m1 m2)
      (compat_of_mfits (mx.wf.good mx.rank) (my.wf.good my.rank) (mfits_refl m1 m2))
  · -- kronKron
    rename_i l r' l' r''
    obtain ⟨⟨wl, wr⟩, kl, kr⟩ := ha
    obtain ⟨⟨wl', wr'⟩, kl', kr'⟩ := hb
    obtain ⟨h1, h2, kd1, kd2⟩ := kd
    refine Calm.step (assertComposable_of wl wl' h1) (Calm.step (assertComposable_of wr wr' h2) ?_)
    exact Calm.bind (hF.matmul wl wl' fa.2.1 fb.2.1 kl kl' h1 kd1) fun x hx => Calm.bind (hF.matmul wr wr' fa.2.2 fb.2.2 kr kr' h2 kd2) fun y hy => Calm.pure
  · -- kronAm
    rename_i l r'
    have nb : b.isKron = false := by
      clear * - hm ea eb
      cases b <;> simp only [Mat.kind, Option.some.injEq, reduceCtorEq] at eb <;> first | rfl | skip
      all_goals subst eb; simp only [Mat.kind, Option.some.injEq] at ea; subst ea; exact absurd hm (by decide)
    have pp := kd.pos (by rw [nb]; simp) (Or.inl rfl)
    exact matmulKronAm_calm hF hB hK ha hb fa fb kb2 hc pp.1 pp.2
  · -- amKron
    have nb : b.isKron = true := by
      clear * - hm eb
      cases b <;> simp only [Mat.kind, Option.some.injEq, reduceCtorEq] at eb <;> first | rfl | skip
      all_goals subst eb; cases ka <;> exact absurd hm (by decide)
    have na : a.isKron = false := by
      clear * - hm ea
      cases a <;> simp only [Mat.kind, Option.some.injEq, reduceCtorEq] at ea <;> first | rfl | skip
      all_goals subst ea; cases kb <;> exact absurd hm (by decide)
    have pp := kd.pos (by rw [na]; simp) (Or.inr nb)
    refine Calm.bind (hF.matmul hb ha fb fa kb2 ka2 ?_ (KDom.of (by rw [na]; simp) fun _ => ⟨pp.2, pp.1⟩)) fun x hx => ?_
    · cases ta <;> cases tb <;> exact hc.symm
    · exact transposeM_calm (hB.matmul hb ha kb2 ka2 hx).wf
  · -- kronDiag
    refine Calm.bind (hF.dense ha fa) fun _ hd => ?_
    obtain rfl := hB.dense ha hd
    exact hF.matmul (ha.numOf ka2) hb trivial fb ka2 kb2 hc (KDom.flat rfl rfl)
  · -- diagKron
    refine Calm.bind (hF.dense hb fb) fun _ hd => ?_
    obtain rfl := hB.dense hb hd
    exact hF.matmul ha (hb.numOf kb2) fa trivial ka2 kb2 hc (KDom.flat rfl rfl)
  · -- no other case
    exfalso
    clear ha hb fa fb kd aa ab ka2 kb2 ga gb hF hB hK hcs hc cb
    cases a <;> simp only [Mat.kind, Option.some.injEq, reduceCtorEq] at ea <;> subst ea <;>
      cases b <;> simp only [Mat.kind, Option.some.injEq, reduceCtorEq] at eb <;> subst eb <;> simp only [mmId, Option.some.injEq, reduceCtorEq] at hm <;> subst hm <;>
      solve_by_elim only [*, Eq.refl]

theorem stepMatmul_calm (env : Env K) (hK : B.Keeps) {ta tb : Bool} {a b : Mat K}
    (ha : a.WF S) (hb : b.WF S) (fa : a.fit true) (fb : b.fit true) (ka : 2 ≤ (den a).rank) (kb : 2 ≤ (den b).rank)
    (hc : (trIf ta (den a)).cols = (trIf tb (den b)).rows) (kd : KDom ta tb a b) : Calm (stepMatmul env B ta tb a b) := by
  unfold stepMatmul
  split
  · exact Calm.step (nMatmul_of (ha.good ka) (hb.good kb) hc) Calm.pure
  · rename_i hne
    obtain ⟨wa, ea, aa, _, _⟩ := den_convertAM (env := env) ha
    obtain ⟨wb, eb, ab, _, _⟩ := den_convertAM (env := env) hb
    obtain ⟨k1, hka⟩ := kind_of_isAM aa
    obtain ⟨k2, hkb⟩ := kind_of_isAM ab
    simp only [hka, hkb]
    rw [upT_of_rank ka] at ea
    rw [upT_of_rank kb] at eb
    have fa' := fit_convertAM env fa
    have fb' := fit_convertAM env fb
    split
    · rename_i m hm
      exact mmRun_calm hF hB hK hka hkb hm wa wb fa' fb' (by rw [ea, eb]; exact hc) kd.convert
    · rename_i hm
      exfalso
      have n1 : k1 ≠ .tiled := by
        rintro rfl
        generalize convertAM env a = x at hka fa'
        cases x <;> first | exact fa'.elim | (simp only [Mat.kind, Option.some.injEq, reduceCtorEq] at hka)
      have n2 : k2 ≠ .tiled := by
        rintro rfl
        generalize convertAM env b = x at hkb fb'
        cases x <;> first | exact fb'.elim | (simp only [Mat.kind, Option.some.injEq, reduceCtorEq] at hkb)
      clear * - hm n1 n2
      cases k1 <;> cases k2 <;> first | exact n1 rfl | exact n2 rfl | exact absurd hm (by decide)

end

end Verif
