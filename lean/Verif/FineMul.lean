/-
Success (C45), part 4: one unfolding of `B.multiply` raises nothing.
-/
import Verif.FineAdd

set_option linter.unusedSectionVars false
set_option linter.unusedVariables false
set_option linter.unusedSimpArgs false

namespace Verif

variable {K : Type} [Field K] [LinearOrder K]

theorem nSqueeze_of {k : ℕ} {t : Tensor K} (h : k < t.rank) (h' : dim t.sh k = 1) :
    nSqueeze k t = .ok (ofFn (t.sh.eraseIdx k) fun i => t.get (insAt k 0 i)) := by
  unfold nSqueeze
  rw [if_pos ⟨h, h'⟩]

theorem compat_scal {S : Shp} {s b : Tensor K} (hs : Fits S s.sh) (gb : Good S b) : Compat (expandIgn 2 s).sh b.sh := by
  intro k
  rw [expandIgn2_dim]
  have h3 : Compat (1 :: 1 :: s.sh) b.sh := by
    rw [gb.sh, compat_cons, compat_cons]
    exact ⟨Or.inl rfl, Or.inl rfl, Fits.compat (S := S) hs gb.fits⟩
  exact h3 k

section
variable {S : Shp} {B : Ops K} (hF : B.Fine S) (hB : B.Ok)
include hF hB

theorem mulDiagAm_calm {d : Tensor K} {b : Mat K}
    (ha : Mat.WF S (.diag d : Mat K)) (hb : b.WF S) (fb : b.fit true) (kb : 2 ≤ (den b).rank) (ns : NoStretch (.diag d) b) (db : b.DiagOk)
    (dd : b.DiagDef (den b).bt) (cm : Compat (den (.diag d : Mat K)).sh (den b).sh) : Calm (mulDiagAm B d b) := by
  have gb := hb.good kb
  have hm : MFits (diagC d) (den b) := ns.1 rfl
  have hm1 : (den b).rows = 1 ∨ (den b).rows = d.cols := hm.1
  have hm2 : (den b).cols = 1 ∨ (den b).cols = d.cols := hm.2
  have fin : ∀ v : Tensor K, DiagOf S d.cols (den b) v → Calm (do mkDiag (← nMul d v)) := by
    intro v hd
    obtain ⟨e, g⟩ := zip_diag ha.goodV gb hm hd
    obtain ⟨q, hq, ev⟩ := hd.sh
    refine Calm.step (nMul_of ?_) (Calm.of (mkDiag_of g.rank))
    rw [ev, Tensor.sh_eq_vec ha.1, compat_cons]
    refine ⟨?_, Fits.compat (S := S) ha.2 gb.fits⟩
    rcases hq with h | h
    · exact Or.inr (Or.inl h)
    · exact Or.inr (Or.inr h.symm)
  unfold mulDiagAm
  refine Calm.step ha.shape (Calm.step hb.shape (Calm.step (assertCompatible_of cm) (Calm.step hb.shapeMatrix ?_)))
  refine Calm.ite (fun h1 => ?_) fun h1 => Calm.ite (fun h2 => ?_) fun h2 => ?_
  · refine Calm.bind (hF.dense hb fb) fun _ e => ?_
    obtain rfl := hB.dense hb e
    have hv := nSqueeze_of (k := 1) (t := den b) (by omega) h1
    exact Calm.step hv (fin _ (diagOf_squeeze1 gb h1 hm2 hv))
  · refine Calm.bind (hF.dense hb fb) fun _ e => ?_
    obtain rfl := hB.dense hb e
    have hv := nSqueeze_of (k := 0) (t := den b) (by omega) h2
    exact Calm.step hv (fin _ (diagOf_squeeze0 gb hm1 h2 hv))
  · refine Calm.bind (hF.diag hb fb kb dd) fun v hv => ?_
    obtain rfl := hB.diag hb kb db hv
    exact fin _ (diagOf_diagE gb (hm1.resolve_left h1) (hm2.resolve_left h2))

theorem mulLRLR_calm {al ar am bl br bm : Mat K}
    (ha : Mat.WF S (.lr al ar am)) (hb : Mat.WF S (.lr bl br bm)) (fa : (Mat.lr al ar am).fit true) (fb : (Mat.lr bl br bm).fit true)
    (ns : NoStretch (.lr al ar am) (.lr bl br bm)) (pa : (Mat.lr al ar am).innerPos) (pb : (Mat.lr bl br bm).innerPos)
    (cm : Compat (den (.lr al ar am)).sh (den (.lr bl br bm)).sh) :
    Calm (mulLRLR B al ar am bl br bm) := by
  have hq := mfits_eq (ns.1 rfl) (ns.2 rfl)
  rw [lr_rows, lr_rows, lr_cols, lr_cols] at hq
  have hsa := ha.shape
  have hsb := hb.shape
  obtain ⟨⟨wal, war, wam⟩, ⟨kal, kar, kam⟩, ca1, ca2⟩ := ha
  obtain ⟨⟨wbl, wbr, wbm⟩, ⟨kbl, kbr, kbm⟩, cb1, cb2⟩ := hb
  obtain ⟨fal, far, fam⟩ := fa
  obtain ⟨fbl, fbr, fbm⟩ := fb
  have h1 := wal.fits; have h2 := wam.fits; have h3 := war.fits
  have h4 := wbl.fits; have h5 := wbm.fits; have h6 := wbr.fits
  unfold mulLRLR
  refine Calm.step hsa (Calm.step hsb (Calm.step (assertCompatible_of cm) ?_))
  refine Calm.bind (hF.dense wal fal.up) fun _ e1 => ?_
  obtain rfl := hB.dense wal e1
  refine Calm.bind (hF.dense wam fam.up) fun _ e1 => ?_
  obtain rfl := hB.dense wam e1
  refine Calm.bind (hF.dense war far.up) fun _ e1 => ?_
  obtain rfl := hB.dense war e1
  refine Calm.bind (hF.dense wbl fbl.up) fun _ e1 => ?_
  obtain rfl := hB.dense wbl e1
  refine Calm.bind (hF.dense wbm fbm.up) fun _ e1 => ?_
  obtain rfl := hB.dense wbm e1
  refine Calm.bind (hF.dense wbr fbr.up) fun _ e1 => ?_
  obtain rfl := hB.dense wbr e1
  have g1 : Fits S (bsh (den al).bt (den am).bt) := h1.bsh h2
  have g2 := g1.bsh h3
  have g3 := g2.bsh h4
  have g4 := g3.bsh h5
  have g5 := g4.bsh h6
  refine Calm.step (bsE_of (h1.compat h2)) (Calm.step (bsE_of (g1.compat h3)) (Calm.step (bsE_of (g2.compat h4))
    (Calm.step (bsE_of (g3.compat h5)) (Calm.step (bsE_of (g4.compat h6)) ?_))))
  generalize hs : bsh (bsh (bsh (bsh (bsh (den al).bt (den am).bt) (den ar).bt) (den bl).bt) (den bm).bt) (den br).bt = s at *
  have F1 : Fits s (den al).bt := by rw [← hs]; fitsIn S
  have F2 : Fits s (den am).bt := by rw [← hs]; fitsIn S
  have F3 : Fits s (den ar).bt := by rw [← hs]; fitsIn S
  have F4 : Fits s (den bl).bt := by rw [← hs]; fitsIn S
  have F5 : Fits s (den bm).bt := by rw [← hs]; fitsIn S
  have F6 : Fits s (den br).bt := by rw [← hs]; fitsIn S
  have ln : s.length = max (max (max (max (max (den al).bt.length (den am).bt.length) (den ar).bt.length) (den bl).bt.length) (den bm).bt.length) (den br).bt.length := by
    rw [← hs]; simp only [length_bsh]
  have rk : ∀ t : Tensor K, 2 ≤ t.rank → t.rank = t.bt.length + 2 := by
    intro t ht
    simp only [Tensor.rank, Tensor.bt, List.length_drop] at ht ⊢
    omega
  have r1 := rk _ kal; have r2 := rk _ kam; have r3 := rk _ kar
  have r4 := rk _ kbl; have r5 := rk _ kbm; have r6 := rk _ kbr
  refine Calm.step (nBroadcastBatchTo_of kal F1 (by omega)) (Calm.step (nBroadcastBatchTo_of kam F2 (by omega))
    (Calm.step (nBroadcastBatchTo_of kar F3 (by omega)) (Calm.step (nBroadcastBatchTo_of kbl F4 (by omega))
    (Calm.step (nBroadcastBatchTo_of kbm F5 (by omega)) (Calm.step (nBroadcastBatchTo_of kbr F6 (by omega)) ?_)))))
  have w1 : ∀ (r c : ℕ) (f : Idx → ℕ → ℕ → K), Mat.WF S (.num (mkMat s r c f)) := fun r c f =>
    ⟨by simp [Tensor.rank], g5⟩
  have ex : ∃ f, hadamardFactors (bbT s (den al)) (bbT s (den am)) (bbT s (den ar)) (bbT s (den bl)) (bbT s (den bm)) (bbT s (den br)) = .ok f ∧
      Mat.WF S (.num f.1) ∧ Mat.WF S (.num f.2.1) ∧ Mat.WF S (.num f.2.2) ∧ 2 ≤ f.1.rank ∧ 2 ≤ f.2.1.rank ∧ 2 ≤ f.2.2.rank ∧
      f.1.cols = f.2.2.rows ∧ f.2.1.cols = f.2.2.cols := by
    unfold hadamardFactors
    have q1 : Compat [(bbT s (den al)).rows] [(bbT s (den bl)).rows] := by rw [bbT_rows, bbT_rows]; rw [hq.1]; exact Compat.refl _
    have q2 : Compat [(bbT s (den ar)).rows] [(bbT s (den br)).rows] := by rw [bbT_rows, bbT_rows]; rw [hq.2]; exact Compat.refl _
    have p1 : 0 < (den am).rows * (den bm).rows := Nat.mul_pos pa.1 pb.1
    have p2 : 0 < (den am).cols * (den bm).cols := Nat.mul_pos pa.2 pb.2
    rw [guardE_of q1, guardE_of q2, guardE_of (by simp only [bbT_rows, bbT_cols]; exact ⟨by rw [ca1, cb1]; exact p1, by rw [ca2, cb2]; exact p2, p1, p2⟩)]
    simp only [bbT_rows, bbT_cols, bbT_bt]
    refine ⟨_, rfl, w1 _ _ _, w1 _ _ _, w1 _ _ _, ?_, ?_, ?_, ?_, ?_⟩
    · simp [Tensor.rank]
    · simp [Tensor.rank]
    · simp [Tensor.rank]
    · show (den al).cols * (den bl).cols = (den am).rows * (den bm).rows
      rw [ca1, cb1]
    · show (den ar).cols * (den br).cols = (den am).cols * (den bm).cols
      rw [ca2, cb2]
  obtain ⟨f, ef, f1, f2, f3, k1, k2, k3, c1, c2⟩ := ex
  exact Calm.step ef (Calm.of (mkLR_ok f1 f2 f3 ⟨k1, k2, k3⟩ c1 c2))

theorem mulRun_calm (hK : B.Keeps) {a b : Mat K} {ka kb : Kind} (ea : a.kind = some ka) (eb : b.kind = some kb)
    (ha : a.WF S) (hb : b.WF S) (fa : a.fit true) (fb : b.fit true) (ms : MulSafe a b) (md : MulDef a b) (cm : Compat (den a).sh (den b).sh) :
    Calm (mulRun B (mulId ka kb) a b) := by
  have ns := ms.1
  have aa : a.isAM = true := by cases a <;> simp_all [Mat.kind, Mat.isAM]
  have ab : b.isAM = true := by cases b <;> simp_all [Mat.kind, Mat.isAM]
  have ka2 := ha.rank aa
  have kb2 := hb.rank ab
  have ga := ha.good ka2
  have gb := hb.good kb2
  generalize hm : mulId ka kb = m
  unfold mulRun
  split
  · -- amZero
    refine Calm.step ha.shape (Calm.step hb.shape (Calm.step (assertCompatible_of cm) ?_))
    split
    · refine Calm.step (shapeBroadcast_of ha hb cm) ?_
      rw [bsh_comm]
      exact broadcastTo_calm hF hB hb ha fb ab ka2 cm.symm
    · rename_i hne
      exfalso
      cases b <;> simp only [Mat.kind, Option.some.injEq, reduceCtorEq] at eb <;> subst eb <;> cases ka <;> simp_all [mulId]
  · -- zeroAm
    refine Calm.step ha.shape (Calm.step hb.shape (Calm.step (assertCompatible_of cm) ?_))
    split
    · exact Calm.step (shapeBroadcast_of ha hb cm) (broadcastTo_calm hF hB ha hb fa aa kb2 cm)
    · rename_i hne
      exfalso
      cases a <;> simp only [Mat.kind, Option.some.injEq, reduceCtorEq] at ea <;> subst ea <;> cases kb <;> simp_all [mulId]
  · -- amAm
    refine Calm.bind (hF.dense ha fa) fun _ h1 => Calm.bind (hF.dense hb fb) fun _ h2 => ?_
    obtain rfl := hB.dense ha h1
    obtain rfl := hB.dense hb h2
    exact Calm.step (nMul_of cm) Calm.pure
  · exact Calm.step (nMul_of cm) Calm.pure
  · -- diagDiag
    rename_i s t
    have he : s.cols = t.cols := (mfits_eq (ns.1 rfl) (ns.2 rfl)).1
    refine Calm.step (nMul_of ?_) (Calm.of (mkDiag_of ?_))
    · exact (VRep.self ha.1 ha.2).fits.compat (he ▸ (VRep.self hb.1 hb.2).fits)
    · exact ((ha.goodV).zipB (· * ·) hb.goodV).rank
  · -- diagAm
    exact mulDiagAm_calm hF hB ha hb fb kb2 ns (ms.2.1 rfl) ((md.out (by simp [Mat.isKron])).1 rfl ab) cm
  · exact hF.mul hb ha fb fa ms.symm md.symm cm.symm
  · -- constConst
    refine Calm.step (assertCompatible_of cm) (Calm.step (nMul_of ?_) (Calm.step (bsE_of cm) (mkConst_of ?_)))
    · exact Fits.compat (S := S) ha hb
    · rw [zipB_sh]; exact Compat.refl _
  · -- constAm
    rename_i s r c
    refine Calm.step ha.shape (Calm.step hb.shape (Calm.step (assertCompatible_of cm) ?_))
    refine Calm.bind (hF.dense hb fb) fun _ h1 => ?_
    obtain rfl := hB.dense hb h1
    refine Calm.step (nMul_of (compat_scal ha gb)) (Calm.step (shapeBroadcast_of ha hb cm) (Calm.step (nBroadcastTo_of' ?_ ?_) Calm.pure))
    · rw [zipB_sh]
      refine Fits.bsh ?_ cm.fits_right
      have h4 := cm.fits_left
      intro k
      rw [expandIgn2_dim]
      have h5 := h4 k
      rcases k with _ | _ | k
      · exact Or.inl rfl
      · exact Or.inl rfl
      · exact h5
    · have h1 := (expandIgn2_rank s).2
      simp only [Tensor.rank, zipB_sh, length_bsh] at h1 ⊢
      simp only [den, constM_sh, List.length_cons]
      omega
  · -- constDiag
    rename_i s r' c' t
    refine Calm.step ha.shape (Calm.step hb.shape (Calm.step (assertCompatible_of cm) ?_))
    have hm : MFits (diagC t) (constM s r' c') := ns.2 rfl
    obtain ⟨v, hv, _, ev, hz⟩ := expandIgn1_diagOf (op := (· * ·)) (S := S) (n := t.cols) (r := r') (c := c') ha hm.1 hm.2
    obtain ⟨e, g⟩ := zip_diag hb.goodV (Good.constM ha r' c') hm hv
    refine Calm.step (nMul_of ?_) (Calm.of (mkDiag_of ?_))
    · have h3 : Compat (1 :: s.sh) t.sh := by
        rw [Tensor.sh_eq_vec hb.1, compat_cons]
        exact ⟨Or.inl rfl, Fits.compat (S := S) ha hb.2⟩
      unfold expandIgn
      split_ifs with h0
      · have hs : s.sh = [] := List.length_eq_zero_iff.1 h0
        rw [hs]; exact fun k => Or.inl rfl
      · exact h3
    · rw [hz t hb.1, zipB_comm _ mul_comm v]
      exact g.rank
  · exact Calm.step (nMul_of cm) (Calm.of (mkLT_of (ga.zipB (· * ·) gb).rank))
  · -- ltAm
    refine Calm.bind (hF.dense hb fb) fun _ h1 => ?_
    obtain rfl := hB.dense hb h1
    exact Calm.step (nMul_of cm) (Calm.of (mkLT_of (ga.zipB (· * ·) gb).rank))
  · -- ltConst
    rename_i s t i j
    refine Calm.step (nMul_of (compat_scal hb ga).symm) (Calm.of (mkLT_of ?_))
    rw [zipB_comm _ mul_comm]
    exact (scal_rep (op := (· * ·)) (S := S) hb ga).1.rank
  · exact Calm.step (nMul_of cm) (Calm.of (mkUT_of (ga.zipB (· * ·) gb).rank))
  · -- utLt
    rename_i s t
    refine Calm.bind (hF.diag ha fa ka2 trivial) fun _ h1 => Calm.bind (hF.diag hb fb kb2 trivial) fun _ h2 => ?_
    obtain rfl := hB.diag ha ka2 trivial h1
    obtain rfl := hB.diag hb kb2 trivial h2
    have hq := mfits_eq (ns.1 rfl) (ns.2 rfl)
    refine Calm.step (nMul_of ?_) (Calm.of (mkDiag_of ((GoodV.diagE ga).zipB (· * ·) (GoodV.diagE gb)).rank))
    rw [diagE_sh, diagE_sh, compat_cons, hq.1, hq.2]
    exact ⟨Or.inr (Or.inr rfl), ga.fits.compat gb.fits⟩
  · -- utAm
    refine Calm.bind (hF.dense hb fb) fun _ h1 => ?_
    obtain rfl := hB.dense hb h1
    exact Calm.step (nMul_of cm) (Calm.of (mkUT_of (ga.zipB (· * ·) gb).rank))
  · -- utConst
    rename_i s t i j
    refine Calm.step (nMul_of (compat_scal hb ga).symm) (Calm.of (mkUT_of ?_))
    rw [zipB_comm _ mul_comm]
    exact (scal_rep (op := (· * ·)) (S := S) hb ga).1.rank
  · -- lrLr
    have h := (md.out (by simp [Mat.isKron])).2.2 rfl rfl
    exact mulLRLR_calm hF hB ha hb fa fb ns h.1 h.2 cm
  · -- constLr
    rename_i s r' c' l r'' m'
    refine Calm.step ha.shape (Calm.step hb.shape (Calm.step (assertCompatible_of cm) ?_))
    obtain ⟨⟨wl, wr, wm⟩, ⟨kl, kr, km⟩, c1, c2⟩ := hb
    have sf : MulSafe (.num (expandIgn 2 s)) m' := .of (noStretch_scal _) rfl trivial
    refine Calm.bind (hF.mul (wf_scal ha) wm trivial fb.2.2.up sf (MulDef.of (by simp [Mat.isKron])
      ⟨by simp [Mat.readsDiag], fun _ h => absurd h Bool.false_ne_true, by simp [Mat.lowRk]⟩) (compat_scal ha (wm.good km))) fun m2 hm2 => ?_
    have z := hB.mul (wf_scal ha) wm sf hm2
    have R := (scal_rep (op := (· * ·)) (S := S) ha (wm.good km)).1
    have e := z.eq
    simp only [den] at e
    rw [← e] at R
    exact Calm.of (mkLR_ok wl wr z.wf ⟨kl, kr, R.rank⟩ (by rw [R.rows, c1]) (by rw [R.cols, c2]))
  · -- wbAm
    rename_i d l r' m'
    have hm := ns.1 rfl
    have n1 := noStretch_wb ha ns
    have gd := ha.wbDiag.good (ha.wbDiag.rank rfl)
    have gl := ha.wbLr.good (ha.wbLr.rank rfl)
    have mo := md.out (by simp [Mat.isKron])
    have s1 : MulSafe (.diag d) b := ⟨n1.1, fun _ => ms.2.1 rfl, fun _ => trivial⟩
    have s2 : MulSafe (.lr l r' m') b := .of n1.2 rfl trivial
    refine Calm.bind (hF.mul ha.wbDiag hb trivial fb s1 (MulDef.of (by simp [Mat.isKron])
      ⟨fun _ => mo.1 rfl, fun _ _ => trivial, by simp [Mat.lowRk]⟩) (compat_of_mfits gd gb (n1.1.1 rfl))) fun x hx => ?_
    refine Calm.bind (hF.mul ha.wbLr hb fa.lr fb s2 (MulDef.of (by simp [Mat.isKron])
      ⟨by simp [Mat.readsDiag], fun _ _ => trivial, fun _ h => mo.2.2 rfl h⟩) (compat_of_mfits gl gb (n1.2.1 rfl))) fun y hy => ?_
    have zx := hB.mul ha.wbDiag hb s1 hx
    have zy := hB.mul ha.wbLr hb s2 hy
    have er := wb_rows ha; have ec := wb_cols ha
    have hm1 : (den b).rows = 1 ∨ (den b).rows = d.cols := by rw [← er]; exact hm.1
    have hm2 : (den b).cols = 1 ∨ (den b).cols = d.cols := by rw [← ec]; exact hm.2
    have rx : (den x).rows = d.cols ∧ (den x).cols = d.cols := by
      rw [zx.eq]; simp only [zipB_rows, zipB_cols, den, diagC_rows, diagC_cols]
      constructor
      · rcases hm1 with h | h <;> simp [h]
      · rcases hm2 with h | h <;> simp [h]
    have ry : (den y).rows = d.cols ∧ (den y).cols = d.cols := by
      rw [zy.eq]
      simp only [zipB_rows, zipB_cols, lr_rows, lr_cols, ha.2.2.2.2.1, ha.2.2.2.2.2]
      constructor
      · rcases hm1 with h | h <;> simp [h]
      · rcases hm2 with h | h <;> simp [h]
    have m1 : (den x).rows = (den y).rows := by rw [rx.1, ry.1]
    have m2 : (den x).cols = (den y).cols := by rw [rx.2, ry.2]
    refine hF.add zx.wf zy.wf ((hK.mul (fit_diag true _) fb) _ hx) ((hK.mul fa.lr fb) _ hy) (noStretch_of_eq m1 m2) ?_
    exact compat_of_mfits (zx.wf.good (by rw [zx.eq]; exact (gd.zipB _ gb).rank)) (zy.wf.good (by rw [zy.eq]; exact (gl.zipB _ gb).rank)) (mfits_refl m1 m2)
  · -- kronKron
    rename_i l r' l' r''
    obtain ⟨⟨wl, wr⟩, kl, kr⟩ := ha
    obtain ⟨⟨wl', wr'⟩, kl', kr'⟩ := hb
    obtain ⟨⟨e1, e2⟩, ⟨e3, e4⟩, md1, md2⟩ := md
    refine Calm.step wl.shapeMatrix (Calm.step wl'.shapeMatrix (Calm.step wr.shapeMatrix (Calm.step wr'.shapeMatrix (Calm.step (guardE_of ?_) ?_))))
    · rw [e1, e2, e3, e4]; exact ⟨rfl, rfl⟩
    · refine Calm.bind (hF.mul wl wl' fa.2.1 fb.2.1 ⟨noStretch_of_eq e1 e2, fun h => (ms.2.1 (by simp [Mat.readsDiag, h])).2.1, fun h => (ms.2.2 (by simp [Mat.readsDiag, h])).2.1⟩ md1
        (compat_of_mfits (wl.good kl) (wl'.good kl') (mfits_refl e1 e2))) fun x hx => ?_
      refine Calm.bind (hF.mul wr wr' fa.2.2 fb.2.2 ⟨noStretch_of_eq e3 e4, fun h => (ms.2.1 (by simp [Mat.readsDiag, h])).2.2, fun h => (ms.2.2 (by simp [Mat.readsDiag, h])).2.2⟩ md2
        (compat_of_mfits (wr.good kr) (wr'.good kr') (mfits_refl e3 e4))) fun y hy => Calm.pure
  · -- constKron
    rename_i s r' c' l r''
    refine Calm.step ha.shape (Calm.step hb.shape (Calm.step (assertCompatible_of cm) ?_))
    obtain ⟨⟨wl, wr⟩, kl, kr⟩ := hb
    refine Calm.bind (hF.mul (wf_scal ha) wl trivial fb.2.1 (.of (noStretch_scal _) rfl trivial) (MulDef.of (by simp [Mat.isKron])
      ⟨by simp [Mat.readsDiag], fun _ h => absurd h Bool.false_ne_true, by simp [Mat.lowRk]⟩) (compat_scal ha (wl.good kl))) fun m2 hm2 => Calm.pure
  · -- no other case
    exfalso
    clear ha hb fa fb ms md ns cm aa ab ka2 kb2 ga gb hF hB hK
    cases a <;> simp only [Mat.kind, Option.some.injEq, reduceCtorEq] at ea <;> subst ea <;>
      cases b <;> simp only [Mat.kind, Option.some.injEq, reduceCtorEq] at eb <;> subst eb <;> subst hm <;> simp_all [mulId]
    all_goals (rename_i h; first | exact h _ rfl | exact h _ _ rfl rfl | exact h _ _ _ rfl rfl rfl | exact h _ _ _ _ rfl rfl rfl rfl | exact h _ _ _ _ _ rfl rfl rfl rfl rfl | exact h _ _ _ _ _ _ rfl rfl rfl rfl rfl rfl | exact h _ _ _ _ _ _ _ rfl rfl rfl rfl rfl rfl rfl | exact h _ _ _ _ _ _ _ _ rfl rfl rfl rfl rfl rfl rfl rfl)

theorem stepMul_calm (env : Env K) (hK : B.Keeps) {a b : Mat K}
    (ha : a.WF S) (hb : b.WF S) (fa : a.fit true) (fb : b.fit true) (ms : MulSafe a b) (md : MulDef a b) (cm : Compat (den a).sh (den b).sh) :
    Calm (stepMul env B a b) := by
  unfold stepMul
  split
  · exact Calm.step (nMul_of cm) Calm.pure
  · rename_i hne
    have h2 : a.isAM = true ∨ b.isAM = true := by
      cases a <;> cases b <;> simp_all [Mat.isAM]
    obtain ⟨wa, ea, aa, _, _⟩ := den_convertAM (env := env) ha
    obtain ⟨wb, eb, ab, _, _⟩ := den_convertAM (env := env) hb
    obtain ⟨ka, hka⟩ := kind_of_isAM aa
    obtain ⟨kb, hkb⟩ := kind_of_isAM ab
    simp only [hka, hkb]
    have hz := (zipB_upT (op := (· * ·)) (WF.rank_ne_one ha) (WF.rank_ne_one hb) (h2.imp (fun h => ha.rank h) (fun h => hb.rank h))).2
    exact mulRun_calm hF hB hK hka hkb wa wb (fit_convertAM env fa) (fit_convertAM env fb)
      ⟨noStretch_convert ha hb ms.1, by rw [diagOk_convert.1, diagOk_convert.2]; exact ms.2.1, by rw [diagOk_convert.1, diagOk_convert.2]; exact ms.2.2⟩
      md.convert (by rw [ea, eb]; exact hz.2 cm)

end

end Verif
