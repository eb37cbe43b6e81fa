/-
Soundness of one unfolding of `B.matmul`.
-/
import Verif.OpsMul
import Verif.Reshape

set_option linter.unusedSectionVars false
set_option linter.unusedVariables false
set_option linter.unusedSimpArgs false

namespace Verif

variable {K : Type} [Field K] [LinearOrder K]

section
variable {S : Shp} {a b : Tensor K}

/-! ### Transposes -/

@[simp] theorem trIf_false (t : Tensor K) : trIf false t = t := rfl
@[simp] theorem trIf_true (t : Tensor K) : trIf true t = tr t := rfl
@[simp] theorem trIf_bt (x : Bool) (t : Tensor K) : (trIf x t).bt = t.bt := by cases x <;> rfl

theorem trIf_diagC {x : Bool} {v : Tensor K} (h : 1 ≤ v.rank) : trIf x (diagC v) = diagC v := by
  cases x
  · rfl
  · exact tr_diagC h

theorem trIf_trIf_not {x : Bool} {t : Tensor K} (h : 2 ≤ t.rank) : tr (trIf (!x) t) = trIf x t := by
  cases x
  · exact tr_tr h
  · rfl

theorem trIf_fill (x : Bool) (bt : Shp) (r c : ℕ) (v : K) :
    trIf x (fillT (c :: r :: bt) v) = fillT ((if x then r else c) :: (if x then c else r) :: bt) v := by
  cases x
  · rfl
  · exact tr_fill bt r c v

theorem trIf_constM (x : Bool) (t : Tensor K) (r c : ℕ) :
    trIf x (constM t r c) = constM t (if x then c else r) (if x then r else c) := by
  cases x
  · rfl
  · exact tr_constM t r c

theorem trIf_zipB {x : Bool} (op : K → K → K) (ga : Good S a) (gb : Good S b) (hr : a.rows = b.rows) (hc : a.cols = b.cols) :
    trIf x (zipB op a b) = zipB op (trIf x a) (trIf x b) := by
  cases x
  · rfl
  · exact tr_zipB op ga gb hr hc

theorem trIf_kronT {x : Bool} (ga : Good S a) (gb : Good S b) : trIf x (kronT a b) = kronT (trIf x a) (trIf x b) := by
  cases x
  · rfl
  · exact tr_kronT ga gb

theorem shapeMatrixTr_eq {m : Mat K} (h : m.WF S) (x : Bool) :
    shapeMatrixTr m x = .ok ((trIf x (den m)).rows, (trIf x (den m)).cols) := by
  unfold shapeMatrixTr
  rw [h.shapeMatrix]
  cases x <;> rfl

theorem assertComposable_ok {m n : Mat K} (hm : m.WF S) (hn : n.WF S) {x y : Bool} {u : Unit} :
    assertComposable x y m n = .ok u ↔ (trIf x (den m)).cols = (trIf y (den n)).rows := by
  simp only [assertComposable, shapeMatrixTr_eq hm, shapeMatrixTr_eq hn, bind_ok_iff, Except.ok.injEq, exists_eq_left', guardE_ok]

/-! ### Products with zeros and constants -/

theorem mm_fill_right (ga : Good S a) {bt : Shp} (hb : Fits S bt) (r c : ℕ) (h : a.cols = r) :
    mm a (fillT (c :: r :: bt) 0) = fillT (c :: a.rows :: bsh a.bt bt) 0 := by
  have h1 := ga.fits
  have e : (mm a (fillT (c :: r :: bt) 0)).bt = bsh a.bt bt := rfl
  have fa : Fits (mm a (fillT (c :: r :: bt) 0)).bt a.bt := by rw [e]; fitsIn S
  have fb : Fits (mm a (fillT (c :: r :: bt) 0)).bt bt := by rw [e]; fitsIn S
  refine Rep.ext ((Rep.self' ga.rank rfl h fa).mm (Rep.fill fb r c 0)) (Rep.fill (by rw [e]; exact Fits.refl _) _ _ 0) rfl ?_
  intro β i j _ _ _; simp

theorem mm_fill_left (gb : Good S b) {bt : Shp} (ha : Fits S bt) (r c : ℕ) (h : c = b.rows) :
    mm (fillT (c :: r :: bt) 0) b = fillT (b.cols :: r :: bsh bt b.bt) 0 := by
  have h1 := gb.fits
  have e : (mm (fillT (c :: r :: bt) 0) b).bt = bsh bt b.bt := rfl
  have fa : Fits (mm (fillT (c :: r :: bt) 0) b).bt bt := by rw [e]; fitsIn S
  have fb : Fits (mm (fillT (c :: r :: bt) 0) b).bt b.bt := by rw [e]; fitsIn S
  refine Rep.ext ((Rep.fill fa r c 0).mm (Rep.self' gb.rank h.symm rfl fb)) (Rep.fill (by rw [e]; exact Fits.refl _) _ _ 0) rfl ?_
  intro β i j _ _ _; simp

theorem mm_constM_constM {s t : Tensor K} (hs : Fits S s.sh) (ht : Fits S t.sh) (r k c : ℕ) :
    mm (constM s r k) (constM t k c) = constM (tmap (fun x => x * (k : K)) (zipB (· * ·) s t)) r c := by
  have e : (mm (constM s r k) (constM t k c)).bt = bsh s.sh t.sh := rfl
  have fs : Fits (mm (constM s r k) (constM t k c)).bt s.sh := by rw [e]; fitsIn S
  have ft : Fits (mm (constM s r k) (constM t k c)).bt t.sh := by rw [e]; fitsIn S
  refine Rep.ext ((Rep.constM fs r k).mm (Rep.constM ft k c))
    (Rep.constM (t := tmap (fun x => x * (k : K)) (zipB (· * ·) s t)) (by rw [e]; exact Fits.refl _) _ _) rfl ?_
  intro β i j hβ _ _
  rw [tmap_get _ hβ (by exact fs.bsh ft), zipB_get _ hβ fs ft]
  simp
  ring

/-! ### Triangular products -/

theorem lowerTri_mm (ga : Good S a) (gb : Good S b) (h : a.cols = b.rows) (sa : a.rows = a.cols) (la : LowerTri a) (lb : LowerTri b) :
    LowerTri (mm a b) := by
  have h1 := ga.fits; have h2 := gb.fits
  have e : (mm a b).bt = bsh a.bt b.bt := rfl
  intro β i j hβ hi hj hij
  have fa : Fits (mm a b).bt a.bt := by rw [e]; fitsIn S
  have fb : Fits (mm a b).bt b.bt := by rw [e]; fitsIn S
  have hi' : i < a.rows := hi
  have hj' : j < b.cols := hj
  rw [((Rep.self ga.rank fa).mm (Rep.self' gb.rank h.symm rfl fb)).at' β i j hβ hi' hj']
  refine Finset.sum_eq_zero fun k hk => ?_
  rw [Finset.mem_range] at hk
  by_cases hik : i < k
  · rw [LowerTri.at la ⟨ga.rank, fa⟩ hβ hi' hk hik, zero_mul]
  · rw [LowerTri.at lb ⟨gb.rank, fb⟩ hβ (by omega) hj' (by omega), mul_zero]

theorem upperTri_mm (ga : Good S a) (gb : Good S b) (h : a.cols = b.rows) (sa : a.rows = a.cols) (la : UpperTri a) (lb : UpperTri b) :
    UpperTri (mm a b) := by
  have h1 := ga.fits; have h2 := gb.fits
  have e : (mm a b).bt = bsh a.bt b.bt := rfl
  intro β i j hβ hi hj hij
  have fa : Fits (mm a b).bt a.bt := by rw [e]; fitsIn S
  have fb : Fits (mm a b).bt b.bt := by rw [e]; fitsIn S
  have hi' : i < a.rows := hi
  have hj' : j < b.cols := hj
  rw [((Rep.self ga.rank fa).mm (Rep.self' gb.rank h.symm rfl fb)).at' β i j hβ hi' hj']
  refine Finset.sum_eq_zero fun k hk => ?_
  rw [Finset.mem_range] at hk
  by_cases hik : k < i
  · rw [UpperTri.at la ⟨ga.rank, fa⟩ hβ hi' hk hik, zero_mul]
  · rw [UpperTri.at lb ⟨gb.rank, fb⟩ hβ (by omega) hj' (by omega), mul_zero]

/-- Constants as low-rank matrices: column sums. -/
theorem constAm_eq {s v b : Tensor K} (gb : Good S b) (hs : Fits S s.sh) (r : ℕ)
    (ev : v.sh = 1 :: s.sh) (hv : ∀ {T}, Fits T s.sh → VRep T 1 v fun β _ => s.get β) :
    mm (mm (fillT [1, r] (1:K)) (diagC v)) (tr (expandEnd 1 (sumAx 1 b))) = mm (constM s r b.rows) b := by
  have h2 := gb.fits
  have es : (sumAx 1 b).sh = b.cols :: b.bt := by
    rw [sumAx_sh, gb.sh]; rfl
  have e : (mm (constM s r b.rows) b).bt = bsh s.sh b.bt := rfl
  have fs : Fits (mm (constM s r b.rows) b).bt s.sh := by rw [e]; fitsIn S
  have fb : Fits (mm (constM s r b.rows) b).bt b.bt := by rw [e]; fitsIn S
  have L := ((Rep.fill (S := (mm (constM s r b.rows) b).bt) (bt := []) (Fits.nil _) r 1 (1:K)).mm (Rep.diagC (hv fs))).mm
    (Rep.expandEnd1 (VRep.sumAx1 (Rep.self gb.rank fb))).tr
  symm
  refine Rep.ext ((Rep.constM fs r b.rows).mm (Rep.self gb.rank fb)) L ?_ ?_
  · rw [e]
    simp only [mm_bt, tr_bt, diagC_bt, ev]
    simp only [Tensor.bt, expandEnd_one_sh, es, fillT_sh]
    simp
  · intro β i j _ _ _
    simp [Finset.mul_sum]

theorem amConst_eq {s v a : Tensor K} (ga : Good S a) (hs : Fits S s.sh) (c : ℕ)
    (ev : v.sh = 1 :: s.sh) (hv : ∀ {T}, Fits T s.sh → VRep T 1 v fun β _ => s.get β) :
    mm (mm (expandEnd 1 (sumAx 0 a)) (diagC v)) (tr (fillT [1, c] (1:K))) = mm a (constM s a.cols c) := by
  have h2 := ga.fits
  have es : (sumAx 0 a).sh = a.rows :: a.bt := by
    rw [sumAx_sh, ga.sh]; rfl
  have e : (mm a (constM s a.cols c)).bt = bsh a.bt s.sh := rfl
  have fs : Fits (mm a (constM s a.cols c)).bt s.sh := by rw [e]; fitsIn S
  have fb : Fits (mm a (constM s a.cols c)).bt a.bt := by rw [e]; fitsIn S
  have L := ((Rep.expandEnd1 (VRep.sumAx0 (Rep.self ga.rank fb))).mm (Rep.diagC (hv fs))).mm
    (Rep.fill (S := (mm a (constM s a.cols c)).bt) (bt := []) (Fits.nil _) c 1 (1:K)).tr
  symm
  refine Rep.ext ((Rep.self ga.rank fb).mm (Rep.constM fs a.cols c)) L ?_ ?_
  · rw [e]
    simp only [mm_bt, tr_bt, diagC_bt, ev]
    simp only [Tensor.bt, expandEnd_one_sh, es, fillT_sh]
    simp
  · intro β i j _ _ _
    simp [Finset.sum_mul]

end

theorem mkMmOk {ta tb : Bool} {S : Shp} {a b r : Mat K} (h1 : r.WF S) (h2 : (trIf ta (den a)).cols = (trIf tb (den b)).rows)
    (h3 : den r = mm (trIf ta (den a)) (trIf tb (den b))) : MmOk ta tb S a b r := ⟨h1, h2, h3⟩

theorem Mat.WF.numOf {S : Shp} {a : Mat K} (h : a.WF S) (h2 : 2 ≤ (den a).rank) : Mat.WF S (.num (den a)) :=
  ⟨by omega, h.fits⟩

theorem Mat.WF.ltNum {S : Shp} {s : Tensor K} (h : Mat.WF S (.lt s)) : Mat.WF S (.num s) := ⟨by have := h.1; omega, h.2.1⟩
theorem Mat.WF.utNum {S : Shp} {s : Tensor K} (h : Mat.WF S (.ut s)) : Mat.WF S (.num s) := ⟨by have := h.1; omega, h.2.1⟩

theorem MmOk.rank {ta tb : Bool} {S : Shp} {a b r : Mat K} (h : MmOk ta tb S a b r) : 2 ≤ (den r).rank := by
  rw [h.eq]; simp [Tensor.rank]

theorem diagC_one {S : Shp} {y : Tensor K} (g : Good S y) (hr : y.rows = 1) (hc : y.cols = 1) :
    diagC (mkVec y.bt 1 fun β _ => y.at' β 0 0) = y := by
  have V := VRep.mkVec (S := y.bt) (bt := y.bt) (n := 1) (Fits.refl _) (fun β _ => y.at' β 0 0)
  refine Rep.ext (Rep.diagC V) (Rep.self' g.rank hr hc (Fits.refl _)) rfl ?_
  intro β i j hβ hi hj
  have hβ' : InRange y.bt β := hβ
  obtain rfl : i = 0 := by omega
  obtain rfl : j = 0 := by omega
  rw [if_pos rfl, clip_of_inRange hβ']

/-- `A B C` in the cheaper order. -/
theorem matmul3_ok {B : Ops K} (hB : B.Ok) {S : Shp} {ta tb tc : Bool} {a b c r : Mat K} (ha : a.WF S) (hb : b.WF S) (hc : c.WF S)
    (ka : 2 ≤ (den a).rank) (kb : 2 ≤ (den b).rank) (kc : 2 ≤ (den c).rank) (h : matmul3 B ta tb tc a b c = .ok r) :
    r.WF S ∧ (trIf ta (den a)).cols = (trIf tb (den b)).rows ∧ (trIf tb (den b)).cols = (trIf tc (den c)).rows ∧
      den r = mm (mm (trIf ta (den a)) (trIf tb (den b))) (trIf tc (den c)) := by
  simp only [matmul3, shapeMatrixTr_eq ha, shapeMatrixTr_eq hb, shapeMatrixTr_eq hc, bind_ok_iff, Except.ok.injEq, exists_eq_left'] at h
  split_ifs at h with hcost
  · simp only [bind_ok_iff] at h
    obtain ⟨x, hx, h⟩ := h
    have m1 := hB.matmul ha hb ka kb hx
    have m2 := hB.matmul m1.wf hc m1.rank kc h
    have e2 := m2.comp
    rw [m1.eq] at e2
    refine ⟨m2.wf, m1.comp, e2, ?_⟩
    rw [m2.eq, m1.eq]; rfl
  · simp only [bind_ok_iff] at h
    obtain ⟨x, hx, h⟩ := h
    have m1 := hB.matmul hb hc kb kc hx
    have m2 := hB.matmul ha m1.wf ka m1.rank h
    have e2 := m2.comp
    rw [m1.eq] at e2
    refine ⟨m2.wf, e2, m1.comp, ?_⟩
    rw [m2.eq, m1.eq, trIf_false]
    exact (mm_assoc ((ha.good ka).trIf ta) ((hb.good kb).trIf tb) ((hc.good kc).trIf tc) e2 m1.comp).symm

theorem trM_kind {a a' : Mat K} {t : Bool} (h : trM t a = .ok a') (k : a.kind = some .lr) : a'.kind = some .lr := by
  cases a <;> simp [Mat.kind] at k
  cases t
  · simp [trM] at h; subst h; rfl
  · simp only [trM, if_true, transposeM, bind_ok_iff, mkLR, pure_eq_ok] at h
    obtain ⟨_, _, _, _, _, _, _, _, _, _, _, _, _, _, _, _, _, _, _, _, rfl⟩ := h
    rfl

/-- `mm (mm (mm al am) arᵀ) (mm (mm bl bm) brᵀ)` regrouped. -/
theorem mm_lrlr {S : Shp} {al am ar bl bm br : Tensor K} (g1 : Good S al) (g2 : Good S am) (g3 : Good S ar) (g4 : Good S bl) (g5 : Good S bm)
    (g6 : Good S br) (h1 : al.cols = am.rows) (h2 : ar.cols = am.cols) (h3 : bl.cols = bm.rows) (h4 : br.cols = bm.cols) (h5 : ar.rows = bl.rows) :
    mm (mm al (mm (mm am (mm (tr ar) bl)) bm)) (tr br) = mm (mm (mm al am) (tr ar)) (mm (mm bl bm) (tr br)) := by
  rw [← mm_assoc ((g1.mm g2).mm g3.tr) (g4.mm g5) g6.tr h5 h4.symm]
  congr 1
  rw [mm_assoc g2 (g3.tr.mm g4) g5 h2.symm h3, ← mm_assoc g1 g2 ((g3.tr.mm g4).mm g5) h1 h2.symm,
    mm_assoc (g1.mm g2) g3.tr (g4.mm g5) h2.symm h5]
  congr 1
  rw [mm_assoc g3.tr g4 g5 h5 h3]

theorem matmulLRLR_ok {B : Ops K} (hB : B.Ok) {S : Shp} {ta tb : Bool} {a b r : Mat K} (ha : a.WF S) (hb : b.WF S)
    (ka : 2 ≤ (den a).rank) (kb : 2 ≤ (den b).rank) (h : matmulLRLR B ta tb a b = .ok r) : MmOk ta tb S a b r := by
  simp only [matmulLRLR, bind_ok_iff] at h
  obtain ⟨_, hcomp, a', ha', b', hb', h⟩ := h
  rw [assertComposable_ok ha hb] at hcomp
  obtain ⟨wa, ea, ra⟩ := trM_ok ha ka ha'
  obtain ⟨wb, eb, rb⟩ := trM_ok hb kb hb'
  split at h
  · rename_i al ar am bl br bm
    simp only [bind_ok_iff] at h
    obtain ⟨x, hx, y, hy, s, hs, h⟩ := h
    obtain ⟨⟨wal, war, wam⟩, ⟨kal, kar, kam⟩, ca1, ca2⟩ := wa
    obtain ⟨⟨wbl, wbr, wbm⟩, ⟨kbl, kbr, kbm⟩, cb1, cb2⟩ := wb
    have mx := hB.matmul war wbl kar kbl hx
    obtain ⟨wy, y1, y2, ey⟩ := matmul3_ok hB wam mx.wf wbm kam mx.rank kbm hy
    rw [wy.shapeMatrix, Except.ok.injEq] at hs
    have h5 : (den ar).rows = (den bl).rows := mx.comp
    have ky : 2 ≤ (den y).rank := by rw [ey]; simp [Tensor.rank]
    rw [mx.eq] at ey
    simp only [trIf_false, trIf_true] at ey
    have key : mm (mm (den al) (den y)) (tr (den br)) = mm (trIf ta (den a)) (trIf tb (den b)) := by
      rw [ey, ← ea, ← eb]
      exact mm_lrlr (wal.good kal) (wam.good kam) (war.good kar) (wbl.good kbl) (wbm.good kbm) (wbr.good kbr) ca1 ca2 cb1 cb2 h5
    split_ifs at h with h11
    · simp only [bind_ok_iff, mkDiag_ok] at h
      obtain ⟨_, hd, _, ⟨_, rfl⟩, h⟩ := h
      obtain rfl := hB.dense wy hd
      rw [← hs] at h11
      simp only [Prod.mk.injEq] at h11
      have ed := diagC_one (wy.good ky) h11.1 h11.2
      have wd : Mat.WF S (.diag (mkVec (den y).bt 1 fun β _ => (den y).at' β 0 0)) := ⟨by simp [Tensor.rank], wy.fits⟩
      obtain ⟨rfl, w⟩ := mkLR_inv wal wbr wd h
      refine mkMmOk w hcomp ?_
      simp only [den, ed]
      exact key
    · obtain ⟨rfl, w⟩ := mkLR_inv wal wbr wy h
      exact mkMmOk w hcomp key
  · simp at h


theorem kron_sum (q1 q2 : ℕ) (f : ℕ → K) :
    ∑ x ∈ Finset.range (q1 * q2), f x = ∑ k ∈ Finset.range q1, ∑ k' ∈ Finset.range q2, f (k * q2 + k') := by
  rw [sum_range_mul]

theorem matmulKronAm_ok {B : Ops K} (hB : B.Ok) {S : Shp} {ta tb : Bool} {l r b x : Mat K} (ha : Mat.WF S (.kron l r)) (hb : b.WF S)
    (kb : 2 ≤ (den b).rank) (h : matmulKronAm B ta tb l r b = .ok x) : MmOk ta tb S (.kron l r) b x := by
  obtain ⟨⟨wl0, wr0⟩, kl0, kr0⟩ := ha
  have ha : Mat.WF S (.kron l r) := ⟨⟨wl0, wr0⟩, kl0, kr0⟩
  simp only [matmulKronAm, bind_ok_iff] at h
  obtain ⟨_, hcomp, l', hl', r', hr', b', hb', h⟩ := h
  rw [assertComposable_ok ha hb] at hcomp
  obtain ⟨wl, el, kl⟩ := trM_ok wl0 kl0 hl'
  obtain ⟨wr, er, kr⟩ := trM_ok wr0 kr0 hr'
  obtain ⟨wb, eb, kb'⟩ := trM_ok hb kb hb'
  simp only [wl.shapeMatrix, wr.shapeMatrix, Except.ok.injEq, exists_eq_left'] at h
  obtain ⟨_, hd, h⟩ := h
  obtain rfl := hB.dense wb hd
  have hcomp' := hcomp
  rw [show den (.kron l r) = kronT (den l) (den r) from rfl, trIf_kronT (wl0.good kl0) (wr0.good kr0), ← el, ← er, ← eb] at hcomp'
  have hrow : (den b').rows = (den l').cols * (den r').cols := hcomp'.symm
  have gl := wl.good kl; have gr := wr.good kr; have gb := wb.good kb'
  have fl := gl.fits; have fr := gr.fits; have fb := gb.fits
  suffices H : ∃ z : Tensor K, Good S z ∧ x = mkDense z ∧ z = mm (kronT (den l') (den r')) (den b') by
    obtain ⟨z, gz, rfl, ez⟩ := H
    refine mkMmOk (mkDense_wf gz).1 hcomp ?_
    rw [(mkDense_wf gz).2, ez, show den (.kron l r) = kronT (den l) (den r) from rfl, trIf_kronT (wl0.good kl0) (wr0.good kr0), ← el, ← er, ← eb]
  have T : (mm (kronT (den l') (den r')) (den b')).bt = bsh (bsh (den l').bt (den r').bt) (den b').bt := rfl
  have tl : Fits (mm (kronT (den l') (den r')) (den b')).bt (den l').bt := by rw [T]; fitsIn S
  have tr' : Fits (mm (kronT (den l') (den r')) (den b')).bt (den r').bt := by rw [T]; fitsIn S
  have tb' : Fits (mm (kronT (den l') (den r')) (den b')).bt (den b').bt := by rw [T]; fitsIn S
  have R := ((Rep.self kl tl).kronT (Rep.self kr tr')).mm (Rep.self' kb' hrow rfl tb')
  split_ifs at h with hcost
  · simp only [bind_ok_iff, pure_eq_ok] at h
    obtain ⟨y, hy, z, hz, rfl⟩ := h
    obtain ⟨ybt, hY⟩ := kronAIdB_ok hB wl kl gb hrow hy
    have YS := hY S fl fb
    obtain ⟨zbt, hZ⟩ := kronIdAB_ok hB wr kr YS.good YS.rows hz
    have ZS := hZ S fr YS.bt
    refine ⟨z, ZS.good, rfl, ?_⟩
    symm
    have Z := hZ _ tr' (by rw [ybt]; exact tl.bsh tb')
    have Y := hY _ tl tb'
    rw [YS.cols] at Z
    refine Rep.ext R Z ?_ ?_
    · rw [T, zbt, ybt]; bsh_ac
    · intro β i j hβ hi hj
      rw [kron_sum, Finset.sum_comm]
      refine Finset.sum_congr rfl fun k2 hk2 => ?_
      rw [Finset.mem_range] at hk2
      have hp : 0 < (den r').rows := by
        rcases Nat.eq_zero_or_pos (den r').rows with h0 | h0
        · rw [h0] at hi; simp at hi
        · exact h0
      have hi2 : i / (den r').rows < (den l').rows := Nat.div_lt_of_lt_mul (by rw [Nat.mul_comm]; exact hi)
      have hlt : i / (den r').rows * (den r').cols + k2 < (den l').rows * (den r').cols := by
        calc _ < i / (den r').rows * (den r').cols + (den r').cols := by omega
          _ = (i / (den r').rows + 1) * (den r').cols := by ring
          _ ≤ _ := Nat.mul_le_mul_right _ hi2
      rw [Y.at' β _ _ hβ hlt hj, (div_mod_aux hk2).1, (div_mod_aux hk2).2, Finset.mul_sum]
      refine Finset.sum_congr rfl fun k1 _ => ?_
      rw [(div_mod_aux hk2).1, (div_mod_aux hk2).2]
      ring
  · simp only [bind_ok_iff, pure_eq_ok] at h
    obtain ⟨y, hy, z, hz, rfl⟩ := h
    obtain ⟨ybt, hY⟩ := kronIdAB_ok hB wr kr gb hrow hy
    have YS := hY S fr fb
    obtain ⟨zbt, hZ⟩ := kronAIdB_ok hB wl kl YS.good YS.rows hz
    have ZS := hZ S fl YS.bt
    refine ⟨z, ZS.good, rfl, ?_⟩
    symm
    have Z := hZ _ tl (by rw [ybt]; exact tr'.bsh tb')
    have Y := hY _ tr' tb'
    rw [YS.cols] at Z
    refine Rep.ext R Z ?_ ?_
    · rw [T, zbt, ybt]; bsh_ac
    · intro β i j hβ hi hj
      rw [kron_sum]
      refine Finset.sum_congr rfl fun k1 hk1 => ?_
      rw [Finset.mem_range] at hk1
      have hp : 0 < (den r').rows := by
        rcases Nat.eq_zero_or_pos (den r').rows with h0 | h0
        · rw [h0] at hi; simp at hi
        · exact h0
      have hm : i % (den r').rows < (den r').rows := Nat.mod_lt _ hp
      have hlt : k1 * (den r').rows + i % (den r').rows < (den l').cols * (den r').rows := by
        calc _ < k1 * (den r').rows + (den r').rows := by omega
          _ = (k1 + 1) * (den r').rows := by ring
          _ ≤ _ := Nat.mul_le_mul_right _ hk1
      rw [Y.at' β _ _ hβ hlt hj, (div_mod_aux hm).1, (div_mod_aux hm).2, Finset.mul_sum]
      refine Finset.sum_congr rfl fun k2 hk2 => ?_
      rw [Finset.mem_range] at hk2
      rw [(div_mod_aux hk2).1, (div_mod_aux hk2).2]
      ring

theorem nMatmul_ok {ta tb : Bool} {a b r : Tensor K} : nMatmul ta tb a b = .ok r ↔
    (2 ≤ a.rank ∧ 2 ≤ b.rank ∧ (trIf ta a).cols = (trIf tb b).rows ∧ Compat a.bt b.bt) ∧ mm (trIf ta a) (trIf tb b) = r := by
  unfold nMatmul; split_ifs with h <;> simp [h]

/-- The result of transposing the operands first. -/
theorem MmOk.ofTr {S : Shp} {ta tb : Bool} {a b a' b' r : Mat K} (h : MmOk false false S a' b' r)
    (ha : den a' = trIf ta (den a)) (hb : den b' = trIf tb (den b)) : MmOk ta tb S a b r := by
  have h1 := h.comp; have h2 := h.eq
  rw [trIf_false, trIf_false, ha, hb] at h1 h2
  exact ⟨h.wf, h1, h2⟩

theorem MmOk.ofEq {S : Shp} {ta tb : Bool} {a b a' b' r : Mat K} (h : MmOk ta tb S a' b' r)
    (ha : den a' = den a) (hb : den b' = den b) : MmOk ta tb S a b r := by
  have h1 := h.comp; have h2 := h.eq
  rw [ha, hb] at h1 h2
  exact ⟨h.wf, h1, h2⟩

theorem noStretch_expandEnd {S : Shp} {s : Tensor K} {b : Mat K} (hs : GoodV S s) (h : s.cols = (den b).rows) :
    NoStretch (mkDense (expandEnd 1 s)) b := by
  refine ⟨fun h => by simp [mkDense, Mat.rigid] at h, fun _ => ?_⟩
  have V := Rep.expandEnd1 (VRep.self hs.rank hs.fits)
  rw [(mkDense_wf V.good).2]
  exact ⟨Or.inr (V.rows.trans h), Or.inl V.cols⟩

theorem noStretch_expandRow {S : Shp} {s : Tensor K} {b : Mat K} (hs : GoodV S s) (h : s.cols = (den b).cols) :
    NoStretch b (mkDense (expandRow s)) := by
  refine ⟨fun _ => ?_, fun h => by simp [mkDense, Mat.rigid] at h⟩
  have V := Rep.expandRow (VRep.self hs.rank hs.fits)
  rw [(mkDense_wf V.good).2]
  exact ⟨Or.inl V.rows, Or.inr (V.cols.trans h)⟩

/-- One method of `B.matmul`. -/
theorem mmRun_ok {B : Ops K} (hB : B.Ok) {S : Shp} {m : MmM} {ta tb : Bool} {a b r : Mat K}
    (ha : a.WF S) (hb : b.WF S) (aa : a.isAM = true) (ab : b.isAM = true)
    (h : mmRun B m ta tb a b = .ok r) : MmOk ta tb S a b r := by
  have ka := ha.rank aa
  have kb := hb.rank ab
  have ga := ha.good ka
  have gb := hb.good kb
  unfold mmRun at h
  split at h
  · -- amZero
    rename_i bt r' c'
    simp only [shapeMatrixTr_eq ha, shapeMatrixTr_eq hb, assertComposable_ok ha hb, ha.shapeBatch, bind_ok_iff, Except.ok.injEq, exists_eq_left', exists_const, bsE_ok, pure_eq_ok] at h
    obtain ⟨hc, _, ⟨_, rfl⟩, rfl⟩ := h
    refine ⟨ga.fits.bsh hb, hc, ?_⟩
    have hc' := hc
    simp only [den, trIf_fill] at hc' ⊢
    rw [mm_fill_right (ga.trIf ta) hb _ (if tb then r' else c') (show _ = if tb then c' else r' from hc'), trIf_bt]; rfl
  · -- zeroAm
    rename_i _ bt r' c'
    simp only [shapeMatrixTr_eq ha, shapeMatrixTr_eq hb, assertComposable_ok ha hb, hb.shapeBatch, bind_ok_iff, Except.ok.injEq, exists_eq_left', exists_const, bsE_ok, pure_eq_ok] at h
    obtain ⟨hc, _, ⟨_, rfl⟩, rfl⟩ := h
    refine ⟨Fits.bsh ha gb.fits, hc, ?_⟩
    have hc' := hc
    simp only [den, trIf_fill] at hc' ⊢
    rw [mm_fill_left (gb.trIf tb) ha (if ta then c' else r') _ (show (if ta then r' else c') = _ from hc'), trIf_bt]; rfl
  · -- denseDense
    simp only [bind_ok_iff, nMatmul_ok, pure_eq_ok] at h
    obtain ⟨_, ⟨⟨_, _, hc, _⟩, rfl⟩, rfl⟩ := h
    have g := (ga.trIf ta).mm (gb.trIf tb)
    exact ⟨(mkDense_wf g).1, hc, (mkDense_wf g).2⟩
  · -- diagDiag
    rename_i s t
    simp only [assertComposable_ok ha hb, bind_ok_iff, exists_const, nMul_ok, mkDiag_ok] at h
    obtain ⟨hc, _, ⟨_, rfl⟩, _, rfl⟩ := h
    have g := ha.goodV.zipB (· * ·) hb.goodV
    refine ⟨⟨g.rank, g.fits⟩, hc, ?_⟩
    simp only [den] at hc ⊢
    rw [trIf_diagC ha.1, trIf_diagC hb.1] at *
    exact (mm_diagC_diagC ha.goodV hb.goodV hc).symm
  · -- diagAm
    rename_i s
    simp only [assertComposable_ok ha hb, bind_ok_iff, exists_const] at h
    obtain ⟨hc, b', hb', h⟩ := h
    obtain ⟨wb, eb, kb'⟩ := trM_ok hb kb hb'
    have hc' := hc
    rw [show den (.diag s : Mat K) = diagC s from rfl, trIf_diagC ha.1, ← eb] at hc'
    have gd := Good.expandEnd1 ha.goodV
    have z := hB.mul (mkDense_wf gd).1 wb (.of (noStretch_expandEnd ha.goodV hc') rfl trivial) h
    refine ⟨z.wf, hc, ?_⟩
    rw [z.eq, (mkDense_wf gd).2, ← eb, show den (.diag s : Mat K) = diagC s from rfl, trIf_diagC ha.1]
    exact (mm_diagC_left ha.goodV (wb.good kb') hc').symm
  · -- amDiag
    rename_i t
    simp only [assertComposable_ok ha hb, bind_ok_iff, exists_const] at h
    obtain ⟨hc, a', ha', h⟩ := h
    obtain ⟨wa, ea, ka'⟩ := trM_ok ha ka ha'
    have hc' := hc
    rw [show den (.diag t : Mat K) = diagC t from rfl, trIf_diagC hb.1, ← ea] at hc'
    have gd := Good.expandRow hb.goodV
    have z := hB.mul wa (mkDense_wf gd).1 (MulSafe.of (noStretch_expandRow hb.goodV hc'.symm).symm rfl trivial).symm h
    refine ⟨z.wf, hc, ?_⟩
    rw [z.eq, (mkDense_wf gd).2, ← ea, show den (.diag t : Mat K) = diagC t from rfl, trIf_diagC hb.1]
    exact (mm_diagC_right hb.goodV (wa.good ka') hc').symm
  · -- constConst
    rename_i s r1 c1 t r2 c2
    simp only [assertComposable_ok ha hb, bind_ok_iff, exists_const] at h
    obtain ⟨hc, h⟩ := h
    have hc' := hc
    simp only [den, trIf_constM] at hc'
    have hc2 : (if ta then r1 else c1) = (if tb then c2 else r2) := hc'
    have e : mm (trIf ta (den (.const s r1 c1))) (trIf tb (den (.const t r2 c2))) =
        constM (tmap (fun x => x * (((if ta then r1 else c1 : ℕ)) : K)) (zipB (· * ·) s t)) (if ta then c1 else r1) (if tb then r2 else c2) := by
      simp only [den, trIf_constM]
      rw [← hc2]
      exact mm_constM_constM ha hb _ _ _
    have wf : Fits S (zipB (· * ·) s t).sh := Fits.bsh ha hb
    cases ta <;> simp only [Bool.false_eq_true, if_false, if_true, bind_ok_iff, nMul_ok, pure_eq_ok] at h e <;>
    · obtain ⟨_, ⟨_, rfl⟩, rfl⟩ := h
      exact ⟨wf, hc, e.symm⟩
  · -- constAm
    rename_i s r1 c1
    simp only [assertComposable_ok ha hb, bind_ok_iff, exists_const] at h
    obtain ⟨hc, b', hb', v, hv, d, hd, h⟩ := h
    obtain ⟨wb, eb, kb'⟩ := trM_ok hb kb hb'
    obtain rfl := hB.sumM (le_refl 1) wb kb' hv
    obtain ⟨v, rfl, ev, hv⟩ := fillDiag_ok (S := S) ha hd
    have gb' := wb.good kb'
    have V := VRep.sumAx1 (Rep.self kb' gb'.fits)
    have E := Rep.expandEnd1 V
    have w1 : Mat.WF S (.num (fillT [1, if ta then c1 else r1] (1:K))) := ⟨by simp [Tensor.rank], Fits.nil _⟩
    have w2 : Mat.WF S (.num (expandEnd 1 (sumAx 1 (den b')))) := ⟨by have := E.rank; omega, E.bt⟩
    have w3 : Mat.WF S (.diag v) := ⟨(hv ha).rank, (hv ha).bt⟩
    obtain ⟨rfl, w⟩ := mkLR_inv w1 w2 w3 h
    refine ⟨w, hc, ?_⟩
    have hc' := hc
    simp only [den, trIf_constM] at hc'
    rw [← eb] at hc' ⊢
    simp only [den, trIf_constM]
    rw [constAm_eq gb' ha _ ev hv, ← hc']
    rfl
  · -- amConst
    rename_i t r1 c1
    simp only [assertComposable_ok ha hb, bind_ok_iff, exists_const] at h
    obtain ⟨hc, a', ha', v, hv, d, hd, h⟩ := h
    obtain ⟨wa, ea, ka'⟩ := trM_ok ha ka ha'
    obtain rfl := hB.sumM (Nat.zero_le 1) wa ka' hv
    obtain ⟨v, rfl, ev, hv⟩ := fillDiag_ok (S := S) hb hd
    have ga' := wa.good ka'
    have V := VRep.sumAx0 (Rep.self ka' ga'.fits)
    have E := Rep.expandEnd1 V
    have w1 : Mat.WF S (.num (fillT [1, if tb then r1 else c1] (1:K))) := ⟨by simp [Tensor.rank], Fits.nil _⟩
    have w2 : Mat.WF S (.num (expandEnd 1 (sumAx 0 (den a')))) := ⟨by have := E.rank; omega, E.bt⟩
    have w3 : Mat.WF S (.diag v) := ⟨(hv hb).rank, (hv hb).bt⟩
    obtain ⟨rfl, w⟩ := mkLR_inv w2 w1 w3 h
    refine ⟨w, hc, ?_⟩
    have hc' := hc
    simp only [den, trIf_constM] at hc'
    rw [← ea] at hc' ⊢
    simp only [den, trIf_constM]
    rw [amConst_eq ga' hb _ ev hv, hc']
    rfl
  · -- ltLt
    rename_i s t
    split_ifs at h with hf
    · obtain ⟨rfl, rfl⟩ := hf
      simp only [bind_ok_iff, nMatmul_ok, mkLT_ok] at h
      obtain ⟨_, ⟨⟨_, _, hc, _⟩, rfl⟩, _, rfl⟩ := h
      have hc' : s.cols = t.rows := hc
      have g := ga.mm gb
      refine ⟨⟨g.rank, g.fits, ?_, lowerTri_mm ga gb hc' ha.2.2.1 ha.2.2.2 hb.2.2.2⟩, hc, rfl⟩
      show s.rows = t.cols
      rw [ha.2.2.1, hc', hb.2.2.1]
    · simp only [bind_ok_iff] at h
      obtain ⟨a', ha', b', hb', h⟩ := h
      obtain ⟨wa, ea, ka'⟩ := trM_ok ha ka ha'
      obtain ⟨wb, eb, kb'⟩ := trM_ok hb kb hb'
      exact (hB.matmul wa wb ka' kb' h).ofTr ea eb
  · -- ltAm
    split at h
    · exact (hB.matmul ha.ltNum hb ka kb h).ofEq rfl rfl
    · exact (hB.matmul ha.utNum hb ka kb h).ofEq rfl rfl
    · simp at h
  · -- amLt
    split at h
    · exact (hB.matmul ha hb.ltNum ka kb h).ofEq rfl rfl
    · exact (hB.matmul ha hb.utNum ka kb h).ofEq rfl rfl
    · simp at h
  · -- ltDiag
    rename_i s t
    split_ifs at h with hf
    · subst hf
      simp only [bind_ok_iff, mkLT_ok] at h
      obtain ⟨x, hx, _, hd, _, rfl⟩ := h
      have m := hB.matmul ha.ltNum hb ka kb hx
      obtain rfl := hB.dense m.wf hd
      have hc := m.comp
      have e := m.eq
      have e2 : trIf tb (den (.diag t : Mat K)) = diagC t := trIf_diagC hb.1
      have e3 : trIf false (diagC t : Tensor K) = diagC t := rfl
      rw [trIf_false] at hc e
      have hc' : s.cols = t.cols := hc
      have g := ga.mm gb
      refine ⟨?_, by rw [e2]; exact hc, by rw [e2]; exact e⟩
      show 2 ≤ (den x).rank ∧ Fits S (den x).bt ∧ (den x).rows = (den x).cols ∧ LowerTri (den x)
      rw [e]
      exact ⟨g.rank, g.fits, ha.2.2.1.trans hc', lowerTri_mm ga gb hc' ha.2.2.1 ha.2.2.2 (lowerTri_diagC hb.1)⟩
    · simp only [bind_ok_iff] at h
      obtain ⟨a', ha', h⟩ := h
      obtain ⟨wa, ea, ka'⟩ := trM_ok ha ka ha'
      exact (hB.matmul wa hb ka' kb h).ofTr ea (trIf_diagC hb.1).symm
  · -- diagLt
    rename_i s t
    split_ifs at h with hf
    · subst hf
      simp only [bind_ok_iff, mkLT_ok] at h
      obtain ⟨x, hx, _, hd, _, rfl⟩ := h
      have m := hB.matmul ha hb.ltNum ka kb hx
      obtain rfl := hB.dense m.wf hd
      have hc := m.comp
      have e := m.eq
      have e2 : trIf ta (den (.diag s : Mat K)) = diagC s := trIf_diagC ha.1
      rw [trIf_false] at hc e
      have hc' : s.cols = t.rows := hc
      have g := ga.mm gb
      refine ⟨?_, by rw [e2]; exact hc, by rw [e2]; exact e⟩
      show 2 ≤ (den x).rank ∧ Fits S (den x).bt ∧ (den x).rows = (den x).cols ∧ LowerTri (den x)
      rw [e]
      exact ⟨g.rank, g.fits, hc'.trans hb.2.2.1, lowerTri_mm ga gb hc' rfl (lowerTri_diagC ha.1) hb.2.2.2⟩
    · simp only [bind_ok_iff] at h
      obtain ⟨b', hb', h⟩ := h
      obtain ⟨wb, eb, kb'⟩ := trM_ok hb kb hb'
      exact (hB.matmul ha wb ka kb' h).ofTr (trIf_diagC ha.1).symm eb
  · -- utUt
    rename_i s t
    split_ifs at h with hf
    · obtain ⟨rfl, rfl⟩ := hf
      simp only [bind_ok_iff, nMatmul_ok, mkUT_ok] at h
      obtain ⟨_, ⟨⟨_, _, hc, _⟩, rfl⟩, _, rfl⟩ := h
      have hc' : s.cols = t.rows := hc
      have g := ga.mm gb
      refine ⟨⟨g.rank, g.fits, ?_, upperTri_mm ga gb hc' ha.2.2.1 ha.2.2.2 hb.2.2.2⟩, hc, rfl⟩
      show s.rows = t.cols
      rw [ha.2.2.1, hc', hb.2.2.1]
    · simp only [bind_ok_iff] at h
      obtain ⟨a', ha', b', hb', h⟩ := h
      obtain ⟨wa, ea, ka'⟩ := trM_ok ha ka ha'
      obtain ⟨wb, eb, kb'⟩ := trM_ok hb kb hb'
      exact (hB.matmul wa wb ka' kb' h).ofTr ea eb
  · -- utDiag
    rename_i s t
    split_ifs at h with hf
    · subst hf
      simp only [bind_ok_iff, mkUT_ok] at h
      obtain ⟨x, hx, _, hd, _, rfl⟩ := h
      have m := hB.matmul ha.utNum hb ka kb hx
      obtain rfl := hB.dense m.wf hd
      have hc := m.comp
      have e := m.eq
      have e2 : trIf tb (den (.diag t : Mat K)) = diagC t := trIf_diagC hb.1
      rw [trIf_false] at hc e
      have hc' : s.cols = t.cols := hc
      have g := ga.mm gb
      refine ⟨?_, by rw [e2]; exact hc, by rw [e2]; exact e⟩
      show 2 ≤ (den x).rank ∧ Fits S (den x).bt ∧ (den x).rows = (den x).cols ∧ UpperTri (den x)
      rw [e]
      exact ⟨g.rank, g.fits, ha.2.2.1.trans hc', upperTri_mm ga gb hc' ha.2.2.1 ha.2.2.2 (upperTri_diagC hb.1)⟩
    · simp only [bind_ok_iff] at h
      obtain ⟨a', ha', h⟩ := h
      obtain ⟨wa, ea, ka'⟩ := trM_ok ha ka ha'
      exact (hB.matmul wa hb ka' kb h).ofTr ea (trIf_diagC hb.1).symm
  · -- diagUt
    rename_i s t
    split_ifs at h with hf
    · subst hf
      simp only [bind_ok_iff, mkUT_ok] at h
      obtain ⟨x, hx, _, hd, _, rfl⟩ := h
      have m := hB.matmul ha hb.utNum ka kb hx
      obtain rfl := hB.dense m.wf hd
      have hc := m.comp
      have e := m.eq
      have e2 : trIf ta (den (.diag s : Mat K)) = diagC s := trIf_diagC ha.1
      rw [trIf_false] at hc e
      have hc' : s.cols = t.rows := hc
      have g := ga.mm gb
      refine ⟨?_, by rw [e2]; exact hc, by rw [e2]; exact e⟩
      show 2 ≤ (den x).rank ∧ Fits S (den x).bt ∧ (den x).rows = (den x).cols ∧ UpperTri (den x)
      rw [e]
      exact ⟨g.rank, g.fits, hc'.trans hb.2.2.1, upperTri_mm ga gb hc' rfl (upperTri_diagC ha.1) hb.2.2.2⟩
    · simp only [bind_ok_iff] at h
      obtain ⟨b', hb', h⟩ := h
      obtain ⟨wb, eb, kb'⟩ := trM_ok hb kb hb'
      exact (hB.matmul ha wb ka kb' h).ofTr (trIf_diagC ha.1).symm eb
  · -- lrLr
    exact matmulLRLR_ok hB ha hb ka kb h
  · -- lrAm
    simp only [assertComposable_ok ha hb, bind_ok_iff, exists_const] at h
    obtain ⟨hc, a', ha', h⟩ := h
    obtain ⟨wa, ea, ka'⟩ := trM_ok ha ka ha'
    split at h
    · rename_i l r' m'
      simp only [bind_ok_iff] at h
      obtain ⟨b', hb', x, hx, h⟩ := h
      obtain ⟨wb, eb, kb'⟩ := trM_ok hb kb hb'
      obtain ⟨⟨wl, wr, wm⟩, ⟨kl, kr, km⟩, c1, c2⟩ := wa
      have mx := hB.matmul wb wr kb' kr hx
      obtain ⟨rfl, w⟩ := mkLR_inv wl mx.wf wm h
      refine ⟨w, hc, ?_⟩
      have hx2 : (den b').rows = (den r').rows := mx.comp
      have gb' := wb.good kb'
      rw [← ea, ← eb]
      simp only [den, mx.eq, trIf_true, trIf_false]
      rw [tr_mm gb'.tr (wr.good kr) hx2, tr_tr kb', mm_assoc ((wl.good kl).mm (wm.good km)) (wr.good kr).tr gb' c2.symm hx2.symm]
    · simp at h
  · -- amLr
    simp only [assertComposable_ok ha hb, bind_ok_iff, exists_const] at h
    obtain ⟨hc, b', hb', h⟩ := h
    obtain ⟨wb, eb, kb'⟩ := trM_ok hb kb hb'
    split at h
    · rename_i l r' m'
      simp only [bind_ok_iff] at h
      obtain ⟨a', ha', x, hx, h⟩ := h
      obtain ⟨wa, ea, ka'⟩ := trM_ok ha ka ha'
      obtain ⟨⟨wl, wr, wm⟩, ⟨kl, kr, km⟩, c1, c2⟩ := wb
      have mx := hB.matmul wa wl ka' kl hx
      obtain ⟨rfl, w⟩ := mkLR_inv mx.wf wr wm h
      refine ⟨w, hc, ?_⟩
      have hx2 : (den a').cols = (den l).rows := mx.comp
      have ga' := wa.good ka'
      rw [← ea, ← eb]
      simp only [den, mx.eq, trIf_false]
      rw [mm_assoc ga' (wl.good kl) (wm.good km) hx2 c1, mm_assoc ga' ((wl.good kl).mm (wm.good km)) (wr.good kr).tr hx2 c2.symm]
    · simp at h
  · -- lrConst
    simp only [bind_ok_iff] at h
    obtain ⟨lr, hlr, h⟩ := h
    obtain ⟨w, e, _⟩ := constToLR_ok (S := S) hb hlr
    exact (hB.matmul ha w ka (by rw [e]; exact kb) h).ofEq rfl e
  · -- constLr
    simp only [bind_ok_iff] at h
    obtain ⟨lr, hlr, h⟩ := h
    obtain ⟨w, e, _⟩ := constToLR_ok (S := S) ha hlr
    exact (hB.matmul w hb (by rw [e]; exact ka) kb h).ofEq e rfl
  · -- wbAm
    rename_i d l r' m'
    simp only [bind_ok_iff] at h
    obtain ⟨x, hx, y, hy, h⟩ := h
    have wd := ha.wbDiag
    have wl := ha.wbLr
    have gd := wd.good (wd.rank rfl)
    have gl := wl.good (wl.rank rfl)
    have mx := hB.matmul wd hb gd.rank kb hx
    have my := hB.matmul wl hb gl.rank kb hy
    have er : (den (.diag d : Mat K)).rows = (den (.lr l r' m')).rows := ha.2.2.2.2.1.symm
    have ec : (den (.diag d : Mat K)).cols = (den (.lr l r' m')).cols := ha.2.2.2.2.2.symm
    have er' : (trIf ta (den (.diag d : Mat K))).rows = (trIf ta (den (.lr l r' m'))).rows := by cases ta <;> assumption
    have ec' : (trIf ta (den (.diag d : Mat K))).cols = (trIf ta (den (.lr l r' m'))).cols := by cases ta <;> assumption
    have z := hB.add mx.wf my.wf (noStretch_of_eq (by rw [mx.eq, my.eq]; exact er') (by rw [mx.eq, my.eq]; rfl)) h
    have e : trIf ta (den (.wb d l r' m')) = zipB (· + ·) (trIf ta (den (.diag d))) (trIf ta (den (.lr l r' m'))) := by
      rw [den_wb, trIf_zipB _ gd gl er ec]
    refine ⟨z.wf, ?_, ?_⟩
    · rw [e, zipB_cols, ← ec', bd_self]; exact mx.comp
    · rw [z.eq, mx.eq, my.eq, e, mm_add_left (gd.trIf ta) (gl.trIf ta) (gb.trIf tb) er' ec' mx.comp]
  · -- amWb
    rename_i d l r' m'
    simp only [bind_ok_iff] at h
    obtain ⟨x, hx, y, hy, h⟩ := h
    have wd := hb.wbDiag
    have wl := hb.wbLr
    have gd := wd.good (wd.rank rfl)
    have gl := wl.good (wl.rank rfl)
    have mx := hB.matmul ha wd ka gd.rank hx
    have my := hB.matmul ha wl ka gl.rank hy
    have er : (den (.diag d : Mat K)).rows = (den (.lr l r' m')).rows := hb.2.2.2.2.1.symm
    have ec : (den (.diag d : Mat K)).cols = (den (.lr l r' m')).cols := hb.2.2.2.2.2.symm
    have er' : (trIf tb (den (.diag d : Mat K))).rows = (trIf tb (den (.lr l r' m'))).rows := by cases tb <;> assumption
    have ec' : (trIf tb (den (.diag d : Mat K))).cols = (trIf tb (den (.lr l r' m'))).cols := by cases tb <;> assumption
    have z := hB.add mx.wf my.wf (noStretch_of_eq (by rw [mx.eq, my.eq]; rfl) (by rw [mx.eq, my.eq]; exact ec')) h
    have e : trIf tb (den (.wb d l r' m')) = zipB (· + ·) (trIf tb (den (.diag d))) (trIf tb (den (.lr l r' m'))) := by
      rw [den_wb, trIf_zipB _ gd gl er ec]
    refine ⟨z.wf, ?_, ?_⟩
    · rw [e, zipB_rows, ← er', bd_self]; exact mx.comp
    · rw [z.eq, mx.eq, my.eq, e, mm_add_right (ga.trIf ta) (gd.trIf tb) (gl.trIf tb) er' ec' mx.comp]
  · -- kronKron
    rename_i l r' l' r''
    obtain ⟨⟨wl, wr⟩, kl, kr⟩ := ha
    obtain ⟨⟨wl', wr'⟩, kl', kr'⟩ := hb
    simp only [assertComposable_ok wl wl', assertComposable_ok wr wr', bind_ok_iff, exists_const, pure_eq_ok] at h
    obtain ⟨h1, h2, x, hx, y, hy, rfl⟩ := h
    have mx := hB.matmul wl wl' kl kl' hx
    have my := hB.matmul wr wr' kr kr' hy
    have e1 : trIf ta (den (.kron l r')) = kronT (trIf ta (den l)) (trIf ta (den r')) := trIf_kronT (wl.good kl) (wr.good kr)
    have e2 : trIf tb (den (.kron l' r'')) = kronT (trIf tb (den l')) (trIf tb (den r'')) := trIf_kronT (wl'.good kl') (wr'.good kr')
    refine ⟨⟨⟨mx.wf, my.wf⟩, mx.rank, my.rank⟩, ?_, ?_⟩
    · rw [e1, e2]
      show (trIf ta (den l)).cols * (trIf ta (den r')).cols = (trIf tb (den l')).rows * (trIf tb (den r'')).rows
      rw [h1, h2]
    · rw [e1, e2]
      simp only [den, mx.eq, my.eq]
      exact (mm_kronT ((wl.good kl).trIf ta) ((wr.good kr).trIf ta) ((wl'.good kl').trIf tb) ((wr'.good kr').trIf tb) h1 h2).symm
  · -- kronAm
    exact matmulKronAm_ok hB ha hb kb h
  · -- amKron
    simp only [bind_ok_iff] at h
    obtain ⟨x, hx, h⟩ := h
    have mx := hB.matmul hb ha kb ka hx
    obtain ⟨r', hr', wr, er, _⟩ := transposeM_ok mx.wf
    rw [h] at hr'
    simp only [Except.ok.injEq] at hr'
    subst hr'
    rw [nTranspose_of_rank mx.rank, mx.eq, tr_mm (gb.trIf _) (ga.trIf _) mx.comp, trIf_trIf_not ka, trIf_trIf_not kb] at er
    refine ⟨wr, ?_, er⟩
    have := mx.comp
    cases ta <;> cases tb <;> exact this.symm
  · -- kronDiag
    simp only [bind_ok_iff] at h
    obtain ⟨_, hd, h⟩ := h
    obtain rfl := hB.dense ha hd
    exact (hB.matmul (ha.numOf ka) hb ka kb h).ofEq rfl rfl
  · -- diagKron
    simp only [bind_ok_iff] at h
    obtain ⟨_, hd, h⟩ := h
    obtain rfl := hB.dense hb hd
    exact (hB.matmul ha (hb.numOf kb) ka kb h).ofEq rfl rfl
  · simp at h

/-- One unfolding of `B.matmul`. -/
theorem stepMatmul_ok {env : Env K} {B : Ops K} (hB : B.Ok) {S : Shp} {ta tb : Bool} {a b r : Mat K}
    (ha : a.WF S) (hb : b.WF S) (ka : 2 ≤ (den a).rank) (kb : 2 ≤ (den b).rank)
    (h : stepMatmul env B ta tb a b = .ok r) : MmOk ta tb S a b r := by
  unfold stepMatmul at h
  split at h
  · simp only [bind_ok_iff, nMatmul_ok, pure_eq_ok] at h
    obtain ⟨_, ⟨⟨_, _, hc, _⟩, rfl⟩, rfl⟩ := h
    have g := ((ha.good ka).trIf ta).mm ((hb.good kb).trIf tb)
    refine ⟨⟨?_, g.fits⟩, hc, rfl⟩
    have := g.rank
    simp only [den] at this
    omega
  · obtain ⟨wa, ea, aa, _, _⟩ := den_convertAM (env := env) ha
    obtain ⟨wb, eb, ab, _, _⟩ := den_convertAM (env := env) hb
    obtain ⟨k1, hka⟩ := kind_of_isAM aa
    obtain ⟨k2, hkb⟩ := kind_of_isAM ab
    simp only [hka, hkb] at h
    split at h
    · rw [upT_of_rank ka] at ea
      rw [upT_of_rank kb] at eb
      exact (mmRun_ok hB wa wb aa ab h).ofEq ea eb
    · simp at h

end Verif
