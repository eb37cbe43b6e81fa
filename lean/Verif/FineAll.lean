/-
Success (C45), part 6: `B.dense`, `B.diag`, sums over rows or columns, and the core at every depth.
-/
import Verif.FineMm

set_option linter.unusedSectionVars false
set_option linter.unusedVariables false
set_option linter.unusedSimpArgs false

namespace Verif

variable {K : Type} [Field K] [LinearOrder K]

theorem dim_replicate_one (n k : ℕ) : dim (List.replicate n 1) k = 1 := by
  unfold dim
  rw [List.getD_eq_getElem?_getD, List.getElem?_replicate]
  split_ifs <;> rfl

theorem expandIgn1_dim (s : Tensor K) (k : ℕ) : dim (expandIgn 1 s).sh k = dim (1 :: s.sh) k := by
  unfold expandIgn
  split_ifs with h0
  · have hs : s.sh = [] := List.length_eq_zero_iff.1 h0
    rw [hs]
    rcases k with _ | k <;> simp
  · rfl

theorem denseConst_calm (t : Tensor K) (r c : ℕ) : Calm (denseConst t r c) := by
  unfold denseConst
  refine Calm.of (nMul_of fun k => ?_)
  rw [expandIgn2_dim, fillT_sh]
  rcases k with _ | _ | k
  · exact Or.inl rfl
  · exact Or.inl rfl
  · exact Or.inr (Or.inl (dim_replicate_one _ _))

theorem nSum_of {t : Tensor K} {k : ℕ} (h : k < t.rank) : nSum t (some (-(k+1))) = .ok (sumAx k t) := by
  have e : axPos t.rank (-((k:Int)+1)) = .ok k := by
    unfold axPos
    rw [if_neg (by omega), if_pos (by omega)]
    congr 1
  unfold nSum
  simp only [e]
  rfl

section
variable {S : Shp} {B : Ops K} (hF : B.Fine S) (hB : B.Ok)
include hF hB

theorem stepDense_calm (hK : B.Keeps) {a : Mat K} (ha : a.WF S) (fa : a.fit true) : Calm (stepDense B a) := by
  cases a with
  | num t => exact Calm.ok
  | zero bt r c => exact Calm.ok
  | dense t => exact Calm.ok
  | diag t => exact Calm.ok
  | lt t => exact Calm.ok
  | ut t => exact Calm.ok
  | const t r c => exact denseConst_calm t r c
  | lr l r m =>
    obtain ⟨⟨hl, hr, hm⟩, ⟨kl, kr, km⟩, c1, c2⟩ := ha
    obtain ⟨fl, fr, fm⟩ := fa
    refine Calm.bind (matmul3_calm hF hB hK hl hm hr fl fm fr kl km kr c1 c2.symm) fun x hx => ?_
    exact hF.dense (matmul3_ok hB hl hm hr kl km kr hx).1 ((fitp_matmul3 hK fl fm fr) _ hx).up
  | wb d l r m =>
    have w1 := ha.wbDiag
    have w2 := ha.wbLr
    refine Calm.bind (hF.dense w1 (fit_diag true _)) fun x hx => Calm.bind (hF.dense w2 fa.lr) fun y hy => ?_
    obtain rfl := hB.dense w1 hx
    obtain rfl := hB.dense w2 hy
    exact Calm.of (nAdd_of (compat_of_mfits (w1.good (w1.rank rfl)) (w2.good (w2.rank rfl)) (mfits_refl ha.2.2.2.2.1.symm ha.2.2.2.2.2.symm)))
  | kron l r =>
    obtain ⟨⟨hl, hr⟩, kl, kr⟩ := ha
    refine Calm.bind (alignBatch2_calm hl hr fa.2.1 fa.2.2 kl kr) fun lr hlr => ?_
    obtain ⟨l', r'⟩ := lr
    obtain ⟨T, hT, g1, g2, w1, w2, e1, e2⟩ := alignBatch2_ok hl hr hlr
    have ff := (fitp_alignBatch2 fa.2.1 fa.2.2) _ hlr
    have hS : Fits S T := by rw [hT]; exact hl.fits.bsh hr.fits
    exact Calm.bind (hF.dense (w1.mono (by rw [e1]; exact hS)) ff.1) fun x hx => Calm.bind (hF.dense (w2.mono (by rw [e2]; exact hS)) ff.2) fun y hy => Calm.pure
  | tiled => exact fa.elim

theorem diagLR_calm (hK : B.Keeps) {l r m : Mat K} (ha : Mat.WF S (.lr l r m)) (fa : (Mat.lr l r m).fit true) : Calm (diagLR B l r m) := by
  have hw := ha
  obtain ⟨⟨hl, hr, hm⟩, ⟨kl, kr, km⟩, c1, c2⟩ := ha
  obtain ⟨fl, fr, fm⟩ := fa
  unfold diagLR
  refine Calm.step hw.shapeMatrix ?_
  refine Calm.bind (hF.matmul hl hm fl.up fm.up kl km c1 (KDom.flat (fit_notKron fl) (fit_notKron fm))) fun lm hlm => ?_
  have z := hB.matmul hl hm kl km hlm
  refine Calm.bind (hF.dense z.wf ((hK.matmul fl fm) _ hlm).up) fun x hx => Calm.bind (hF.dense hr fr.up) fun y hy => ?_
  obtain rfl := hB.dense z.wf hx
  obtain rfl := hB.dense hr hy
  have ze : den lm = mm (den l) (den m) := z.eq
  dsimp only
  rw [ze]
  have er : (den (.lr l r m)).rows = (den l).rows := rfl
  have ec : (den (.lr l r m)).cols = (den r).rows := rfl
  rw [er, ec]
  have h1 := ((Rep.self kl hl.fits).mm (Rep.self' km c1.symm c2.symm hm.fits)).headRows (min (den l).rows (den r).rows)
  have h2 := (Rep.self kr hr.fits).headRows (min (den l).rows (den r).rows)
  rw [show min (min (den l).rows (den r).rows) (den l).rows = min (den l).rows (den r).rows by omega] at h1
  rw [show min (min (den l).rows (den r).rows) (den r).rows = min (den l).rows (den r).rows by omega] at h2
  have hz := h1.zipB (· * ·) h2
  refine Calm.step (nMul_of (compat_of_mfits h1.good h2.good (mfits_refl (h1.rows.trans h2.rows.symm) (h1.cols.trans h2.cols.symm)))) ?_
  exact Calm.of (nSum_of (k := 0) (by have := hz.rank; omega))

theorem stepDiag_calm (hK : B.Keeps) {a : Mat K} (ha : a.WF S) (fa : a.fit true) (h2 : 2 ≤ (den a).rank) (dd : a.DiagDef (den a).bt) : Calm (stepDiag B a) := by
  cases a with
  | num t =>
    simp only [den] at h2
    have h3 : t.rank = 2 := by
      have h4 : t.sh.drop 2 = [] := dd
      have h5 := congrArg List.length h4
      simp only [List.length_drop, List.length_nil] at h5
      simp only [Tensor.rank] at h2 ⊢
      omega
    unfold stepDiag
    simp only [h3]
    exact Calm.ok
  | zero bt r c => exact Calm.ok
  | dense t => exact Calm.ok
  | diag t => exact Calm.ok
  | lt t => exact Calm.ok
  | ut t => exact Calm.ok
  | const t r c =>
    refine Calm.of (nMul_of fun k => ?_)
    rw [expandIgn1_dim, fillT_sh]
    rcases k with _ | k
    · exact Or.inl rfl
    · exact Or.inr (Or.inr rfl)
  | lr l r m => exact diagLR_calm hF hB hK ha fa
  | wb d l r m =>
    have w1 := ha.wbDiag
    have w2 := ha.wbLr
    refine Calm.bind (hF.diag w1 (fit_diag true _) (w1.rank rfl) trivial) fun x hx => Calm.bind (hF.diag w2 fa.lr (w2.rank rfl) trivial) fun y hy => ?_
    obtain rfl := hB.diag w1 (w1.rank rfl) trivial hx
    obtain rfl := hB.diag w2 (w2.rank rfl) trivial hy
    refine Calm.of (nAdd_of ?_)
    rw [diagE_sh, diagE_sh, compat_cons, show (den (.diag d : Mat K)).rows = (den (.lr l r m)).rows from ha.2.2.2.2.1.symm,
      show (den (.diag d : Mat K)).cols = (den (.lr l r m)).cols from ha.2.2.2.2.2.symm]
    exact ⟨Or.inr (Or.inr rfl), w1.fits.compat w2.fits⟩
  | kron l r =>
    obtain ⟨⟨hl, hr⟩, kl, kr⟩ := ha
    refine Calm.bind (alignBatch2_calm hl hr fa.2.1 fa.2.2 kl kr) fun lr hlr => ?_
    obtain ⟨l', r'⟩ := lr
    obtain ⟨T, hT, g1, g2, w1, w2, e1, e2⟩ := alignBatch2_ok hl hr hlr
    have ff := (fitp_alignBatch2 fa.2.1 fa.2.2) _ hlr
    have hS : Fits S T := by rw [hT]; exact hl.fits.bsh hr.fits
    simp only [alignBatch2, shapeBatchBroadcast, hl.shapeBatch, hr.shapeBatch, bind_ok_iff, Except.ok.injEq, exists_eq_left', bsE_ok, pure_eq_ok,
      Prod.mk.injEq] at hlr
    obtain ⟨T', ⟨hc, rfl⟩, _, hx', _, hy', rfl, rfl⟩ := hlr
    have d1 := diagDef_bb fa.2.1 dd.1 hx'
    have d2 := diagDef_bb fa.2.2 dd.2 hy'
    have eT : (den (.kron l r)).bt = T := by rw [hT]; rfl
    refine Calm.bind (hF.diag (w1.mono (by rw [e1]; exact hS)) ff.1 (by rw [e1]; exact bbT_rank _ _) ?_) fun x hx =>
      Calm.bind (hF.diag (w2.mono (by rw [e2]; exact hS)) ff.2 (by rw [e2]; exact bbT_rank _ _) ?_) fun y hy => Calm.pure
    · rw [eT] at d1; rw [e1]; exact d1
    · rw [eT] at d2; rw [e2]; exact d2
  | tiled => exact fa.elim

theorem sumLR_calm (hK : B.Keeps) {k : ℕ} {l r m : Mat K} (hk : k ≤ 1) (ha : Mat.WF S (.lr l r m)) (fa : (Mat.lr l r m).fit true) : Calm (sumLR B k l r m) := by
  obtain ⟨⟨hl, hr, hm⟩, ⟨kl, kr, km⟩, c1, c2⟩ := ha
  obtain ⟨fl, fr, fm⟩ := fa
  have gl := hl.good kl; have gr := hr.good kr; have gm := hm.good km
  unfold sumLR
  refine Calm.ite (fun h1 => ?_) fun h1 => ?_
  · refine Calm.bind (hF.sumM le_rfl hl fl.up kl) fun sl hsl => ?_
    obtain rfl := hB.sumM le_rfl hl kl hsl
    refine Calm.bind (hF.matmul hr hm fr.up fm.up kr km c2 (KDom.flat (fit_notKron fr) (fit_notKron fm))) fun rm hrm => ?_
    have z := hB.matmul hr hm kr km hrm
    have ze : den rm = mm (den r) (tr (den m)) := z.eq
    have gs : GoodV S (sumAx 1 (den l)) := sumAx_good le_rfl gl
    have hcols : (expandRow (sumAx 1 (den l))).cols = (den rm).cols := by
      rw [ze]; exact (VRep.sumAx1 gl.rep).len.trans c1
    have w1 : Mat.WF S (.num (expandRow (sumAx 1 (den l)))) := ⟨by simp [Tensor.rank, den], gs.fits⟩
    have sf : MulSafe (.num (expandRow (sumAx 1 (den l)))) rm := .of ⟨by simp [Mat.rigid], fun _ => ⟨Or.inl rfl, Or.inr hcols⟩⟩ rfl trivial
    refine Calm.bind (hF.mul w1 z.wf (fit_num true _) ((hK.matmul fr fm) _ hrm).up sf (MulDef.of (by simp [Mat.isKron])
      ⟨by simp [Mat.readsDiag], fun _ h => absurd h Bool.false_ne_true, by simp [Mat.lowRk]⟩)
      (compat_of_mfits (z.wf.good z.rank) (Good.expandRow gs) ⟨Or.inl rfl, Or.inr hcols⟩).symm) fun p hp => ?_
    have zp := hB.mul w1 z.wf sf hp
    have kp : 2 ≤ (den p).rank := by
      rw [zp.eq]
      exact ((Good.expandRow gs).zipB _ (z.wf.good z.rank)).rank
    exact hF.sumM (Nat.zero_le 1) zp.wf ((hK.mul (fit_num true _) ((hK.matmul fr fm) _ hrm).up) _ hp) kp
  · refine Calm.bind (hF.matmul hl hm fl.up fm.up kl km c1 (KDom.flat (fit_notKron fl) (fit_notKron fm))) fun lm hlm => ?_
    refine Calm.bind (hF.sumM le_rfl hr fr.up kr) fun sr hsr => ?_
    obtain rfl := hB.sumM le_rfl hr kr hsr
    have z := hB.matmul hl hm kl km hlm
    have ze : den lm = mm (den l) (den m) := z.eq
    have gs : GoodV S (sumAx 1 (den r)) := sumAx_good le_rfl gr
    have hcols : (expandRow (sumAx 1 (den r))).cols = (den lm).cols := by
      rw [ze]; exact (VRep.sumAx1 gr.rep).len.trans c2
    have w1 : Mat.WF S (.num (expandRow (sumAx 1 (den r)))) := ⟨by simp [Tensor.rank, den], gs.fits⟩
    have sf : MulSafe lm (.num (expandRow (sumAx 1 (den r)))) := MulSafe.symm (.of ⟨by simp [Mat.rigid], fun _ => ⟨Or.inl rfl, Or.inr hcols⟩⟩ rfl trivial)
    have md : MulDef (.num (expandRow (sumAx 1 (den r)))) lm := MulDef.of (by simp [Mat.isKron])
      ⟨by simp [Mat.readsDiag], fun _ h => absurd h Bool.false_ne_true, by simp [Mat.lowRk]⟩
    refine Calm.bind (hF.mul z.wf w1 ((hK.matmul fl fm) _ hlm).up (fit_num true _) sf md.symm
      (compat_of_mfits (z.wf.good z.rank) (Good.expandRow gs) ⟨Or.inl rfl, Or.inr hcols⟩)) fun p hp => ?_
    have zp := hB.mul z.wf w1 sf hp
    have kp : 2 ≤ (den p).rank := by
      rw [zp.eq]
      exact ((z.wf.good z.rank).zipB _ (Good.expandRow gs)).rank
    exact hF.sumM (Nat.zero_le 1) zp.wf ((hK.mul ((hK.matmul fl fm) _ hlm).up (fit_num true _)) _ hp) kp

theorem sumKron_calm {k : ℕ} {l r : Mat K} (hk : k ≤ 1) (ha : Mat.WF S (.kron l r)) (fa : (Mat.kron l r).fit true) : Calm (sumKron B k l r) := by
  have hw := ha
  obtain ⟨⟨hl, hr⟩, kl, kr⟩ := ha
  unfold sumKron
  refine Calm.bind (hF.sumM hk hl fa.2.1 kl) fun sl hsl => Calm.bind (hF.sumM hk hr fa.2.2 kr) fun sr hsr => ?_
  obtain rfl := hB.sumM hk hl kl hsl
  obtain rfl := hB.sumM hk hr kr hsr
  have V1 := VRep.sumAx hk (Rep.self kl hl.fits)
  have V2 := VRep.sumAx hk (Rep.self kr hr.fits)
  have s1 : (expandEnd 1 (sumAx k (den l))).sh = 1 :: (if k = 1 then (den l).cols else (den l).rows) :: (den l).bt := by
    rw [expandEnd_one_sh, V1.sh, sumAx_tail kl hk]
  have s2 : (expandRow (sumAx k (den r))).sh = (if k = 1 then (den r).cols else (den r).rows) :: 1 :: (den r).bt := by
    rw [expandRow_sh, V2.len, sumAx_tail kr hk]
  refine Calm.step (nMul_of ?_) (Calm.step hw.shapeBatch (Calm.step hw.shapeMatrix ?_))
  · rw [s1, s2, compat_cons, compat_cons]
    exact ⟨Or.inl rfl, Or.inr (Or.inl rfl), hl.fits.compat hr.fits⟩
  · have psh : (zipB (· * ·) (expandEnd 1 (sumAx k (den l))) (expandRow (sumAx k (den r)))).sh =
        (if k = 1 then (den r).cols else (den r).rows) :: (if k = 1 then (den l).cols else (den l).rows) :: bsh (den l).bt (den r).bt := by
      rw [zipB_sh, s1, s2]; simp
    unfold nReshape
    rw [if_pos]
    · exact Calm.ok
    · rw [psh]
      simp only [size_cons]
      rw [← Nat.mul_assoc]
      congr 1
      by_cases h1 : k = 1
      · simp only [if_pos h1]; exact Nat.mul_comm _ _
      · simp only [if_neg h1]; exact Nat.mul_comm _ _

theorem stepSumM_calm (hK : B.Keeps) {k : ℕ} {a : Mat K} (hk : k ≤ 1) (ha : a.WF S) (fa : a.fit true) (h2 : 2 ≤ (den a).rank) : Calm (stepSumM B k a) := by
  cases a with
  | num t => exact Calm.of (nSum_of (by simp only [den] at h2; omega))
  | dense t => exact Calm.of (nSum_of (by simp only [den] at h2; omega))
  | lt t => exact Calm.of (nSum_of (by simp only [den] at h2; omega))
  | ut t => exact Calm.of (nSum_of (by simp only [den] at h2; omega))
  | zero bt r c => exact Calm.ok
  | diag t => exact Calm.ok
  | const t r c =>
    refine Calm.of (nMul_of fun q => ?_)
    rw [tmap_sh, expandIgn1_dim, fillT_sh]
    rcases q with _ | q
    · exact Or.inl rfl
    · exact Or.inr (Or.inl (dim_replicate_one _ _))
  | lr l r m => exact sumLR_calm hF hB hK hk ha fa
  | wb d l r m =>
    have w1 := ha.wbDiag
    have w2 := ha.wbLr
    refine Calm.bind (hF.sumM hk w1 (fit_diag true _) (w1.rank rfl)) fun x hx => Calm.bind (hF.sumM hk w2 fa.lr (w2.rank rfl)) fun y hy => ?_
    obtain rfl := hB.sumM hk w1 (w1.rank rfl) hx
    obtain rfl := hB.sumM hk w2 (w2.rank rfl) hy
    have V1 := VRep.sumAx hk (w1.good (w1.rank rfl)).rep
    have V2 := VRep.sumAx hk (w2.good (w2.rank rfl)).rep
    refine Calm.of (nAdd_of ?_)
    rw [V1.sh, V2.sh, compat_cons, show (den (.diag d : Mat K)).rows = (den (.lr l r m)).rows from ha.2.2.2.2.1.symm,
      show (den (.diag d : Mat K)).cols = (den (.lr l r m)).cols from ha.2.2.2.2.2.symm]
    exact ⟨Or.inr (Or.inr rfl), V1.bt.compat V2.bt⟩
  | kron l r => exact sumKron_calm hF hB hk ha fa
  | tiled => exact fa.elim

end

/-- One unfolding of the core raises nothing. -/
theorem step_fine {env : Env K} (he : env.Lawful) (hc : env.Calm) {S : Shp} (h0 : 0 ∉ S) {B : Ops K} (hF : B.Fine S) (hB : B.Ok) (hK : B.Keeps) :
    (step env B).Fine S where
  dense := fun ha fa => stepDense_calm hF hB hK ha fa
  add := fun ha hb fa fb ns cm => stepAdd_calm hF hB he hc hK h0 ha hb fa fb ns cm
  mul := fun ha hb fa fb ms md cm => stepMul_calm hF hB env hK ha hb fa fb ms md cm
  matmul := fun ha hb fa fb ka kb h kd => stepMatmul_calm hF hB env hK ha hb fa fb ka kb h kd
  diag := fun ha fa h2 dd => stepDiag_calm hF hB hK ha fa h2 dd
  sumM := fun hk ha fa h2 => stepSumM_calm hF hB hK hk ha fa h2

/-- The core raises nothing on operands that meet the conditions. -/
theorem ops_fine {env : Env K} (he : env.Lawful) (hc : env.Calm) {S : Shp} (h0 : 0 ∉ S) (n : ℕ) : (ops env n).Fine S := by
  induction n with
  | zero => exact Ops.Fine.bot S
  | succ n ih => exact step_fine he hc h0 ih (ops_ok he n) (ops_keeps env n)

end Verif
