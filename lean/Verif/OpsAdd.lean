/-
Soundness of one unfolding of `B.add`.
-/
import Verif.AlignProofs

set_option linter.unusedSectionVars false
set_option linter.unusedVariables false
set_option linter.unusedSimpArgs false

namespace Verif

variable {K : Type} [Field K] [LinearOrder K]

/-! ### Elementwise operations: helpers -/

theorem LowerTri.at {S : Shp} {t : Tensor K} (h : LowerTri t) (g : Good S t) {β i j} (hβ : InRange S β) (hi : i < t.rows) (hj : j < t.cols)
    (hij : i < j) : t.at' β i j = 0 := by
  rw [← Tensor.at'_clip (Fits.refl _)]
  exact h _ i j (inRange_clip _ (g.fits.pos hβ.pos)) hi hj hij
theorem UpperTri.at {S : Shp} {t : Tensor K} (h : UpperTri t) (g : Good S t) {β i j} (hβ : InRange S β) (hi : i < t.rows) (hj : j < t.cols)
    (hij : j < i) : t.at' β i j = 0 := by
  rw [← Tensor.at'_clip (Fits.refl _)]
  exact h _ i j (inRange_clip _ (g.fits.pos hβ.pos)) hi hj hij

theorem lowerTri_diagC {v : Tensor K} (h : 1 ≤ v.rank) : LowerTri (diagC v) := by
  intro β i j hβ hi hj hij
  rw [at_diagC (S := v.sh.tail) hβ (Fits.refl _) hi hj, if_neg (by omega)]
theorem upperTri_diagC {v : Tensor K} (h : 1 ≤ v.rank) : UpperTri (diagC v) := by
  intro β i j hβ hi hj hij
  rw [at_diagC (S := v.sh.tail) hβ (Fits.refl _) hi hj, if_neg (by omega)]

section
variable {S : Shp} {op : K → K → K} {a b : Tensor K}

/-- A zip of two batches of matrices of which the second broadcasts to the first. -/
theorem zip_shape (ga : Good S a) (gb : Good S b) (hm : MFits a b) :
    (zipB op a b).rows = a.rows ∧ (zipB op a b).cols = a.cols := by
  rw [zipB_rows, zipB_cols]
  obtain ⟨h1, h2⟩ := hm
  constructor
  · rcases h1 with h | h <;> simp [h]
  · rcases h2 with h | h <;> simp [h]

theorem compat_of_mfits (ga : Good S a) (gb : Good S b) (hm : MFits a b) : Compat a.sh b.sh := by
  rw [ga.sh, gb.sh]
  obtain ⟨h1, h2⟩ := hm
  simp only [compat_cons]
  exact ⟨by tauto, by tauto, ga.fits.compat gb.fits⟩

theorem frep_of_mfits (gb : Good S b) (hm : MFits a b) : FRep S a.rows a.cols b b.at' := by
  refine FRep.self ?_
  rw [gb.sh]
  obtain ⟨h1, h2⟩ := hm
  simp only [fits_cons]
  exact ⟨h2, h1, gb.fits⟩

theorem lowerTri_zip_left (h0 : ∀ x, op 0 x = 0) (ga : Good S a) (gb : Good S b) (hm : MFits a b) (ha : LowerTri a) :
    LowerTri (zipB op a b) := by
  have e : (zipB op a b).bt = bsh a.bt b.bt := zipB_bt
  have h1 := ga.fits; have h2 := gb.fits
  have f1 : Fits (zipB op a b).bt a.bt := by rw [e]; fitsIn S
  have f2 : Fits (zipB op a b).bt b.bt := by rw [e]; fitsIn S
  obtain ⟨er, ec⟩ := zip_shape (op := op) ga gb hm
  intro β i j hβ hi hj hij
  rw [er] at hi; rw [ec] at hj
  rw [((Rep.self ga.rank f1).frep.zipB op (frep_of_mfits ⟨gb.rank, f2⟩ hm)).at' β i j hβ hi hj, ha.at ⟨ga.rank, f1⟩ hβ hi hj hij, h0]
theorem upperTri_zip_left (h0 : ∀ x, op 0 x = 0) (ga : Good S a) (gb : Good S b) (hm : MFits a b) (ha : UpperTri a) :
    UpperTri (zipB op a b) := by
  have e : (zipB op a b).bt = bsh a.bt b.bt := zipB_bt
  have h1 := ga.fits; have h2 := gb.fits
  have f1 : Fits (zipB op a b).bt a.bt := by rw [e]; fitsIn S
  have f2 : Fits (zipB op a b).bt b.bt := by rw [e]; fitsIn S
  obtain ⟨er, ec⟩ := zip_shape (op := op) ga gb hm
  intro β i j hβ hi hj hij
  rw [er] at hi; rw [ec] at hj
  rw [((Rep.self ga.rank f1).frep.zipB op (frep_of_mfits ⟨gb.rank, f2⟩ hm)).at' β i j hβ hi hj, ha.at ⟨ga.rank, f1⟩ hβ hi hj hij, h0]

theorem mfits_refl {a b : Tensor K} (h1 : a.rows = b.rows) (h2 : a.cols = b.cols) : MFits a b := ⟨Or.inr h1.symm, Or.inr h2.symm⟩

theorem lowerTri_zip (h0 : op 0 0 = 0) (ga : Good S a) (gb : Good S b) (hr : a.rows = b.rows) (hc : a.cols = b.cols) (ha : LowerTri a) (hb : LowerTri b) :
    LowerTri (zipB op a b) := by
  have e : (zipB op a b).bt = bsh a.bt b.bt := zipB_bt
  have h1 := ga.fits; have h2 := gb.fits
  have f1 : Fits (zipB op a b).bt a.bt := by rw [e]; fitsIn S
  have f2 : Fits (zipB op a b).bt b.bt := by rw [e]; fitsIn S
  obtain ⟨er, ec⟩ := zip_shape (op := op) ga gb (mfits_refl hr hc)
  intro β i j hβ hi hj hij
  rw [er] at hi; rw [ec] at hj
  rw [((Rep.self ga.rank f1).zipB op (Rep.self' gb.rank hr.symm hc.symm f2)).at' β i j hβ hi hj, ha.at ⟨ga.rank, f1⟩ hβ hi hj hij,
    hb.at ⟨gb.rank, f2⟩ hβ (by omega) (by omega) hij, h0]
theorem upperTri_zip (h0 : op 0 0 = 0) (ga : Good S a) (gb : Good S b) (hr : a.rows = b.rows) (hc : a.cols = b.cols) (ha : UpperTri a) (hb : UpperTri b) :
    UpperTri (zipB op a b) := by
  have e : (zipB op a b).bt = bsh a.bt b.bt := zipB_bt
  have h1 := ga.fits; have h2 := gb.fits
  have f1 : Fits (zipB op a b).bt a.bt := by rw [e]; fitsIn S
  have f2 : Fits (zipB op a b).bt b.bt := by rw [e]; fitsIn S
  obtain ⟨er, ec⟩ := zip_shape (op := op) ga gb (mfits_refl hr hc)
  intro β i j hβ hi hj hij
  rw [er] at hi; rw [ec] at hj
  rw [((Rep.self ga.rank f1).zipB op (Rep.self' gb.rank hr.symm hc.symm f2)).at' β i j hβ hi hj, ha.at ⟨ga.rank, f1⟩ hβ hi hj hij,
    hb.at ⟨gb.rank, f2⟩ hβ (by omega) (by omega) hij, h0]

theorem mfits_eq (h1 : MFits a b) (h2 : MFits b a) : a.rows = b.rows ∧ a.cols = b.cols := by
  obtain ⟨h1, h3⟩ := h1
  obtain ⟨h2, h4⟩ := h2
  constructor <;> omega

/-! ### Constants -/

theorem expandIgn2_frep {s : Tensor K} (h : Fits S s.sh) (r c : ℕ) : FRep S r c (expandIgn 2 s) fun β _ _ => s.get β := by
  unfold expandIgn
  split_ifs with h0
  · have hs : s.sh = [] := List.length_eq_zero_iff.1 h0
    refine ⟨by rw [hs]; exact Fits.nil _, ?_⟩
    intro β i j _ _ _
    exact s.get_congr (by intro k; simp [hs, clip]; split_ifs <;> simp_all)
  · exact FRep.expandEnd2 h r c

theorem expandIgn2_dim (s : Tensor K) (k : ℕ) : dim (expandIgn 2 s).sh k = dim (1 :: 1 :: s.sh) k := by
  unfold expandIgn
  split_ifs with h0
  · have hs : s.sh = [] := List.length_eq_zero_iff.1 h0
    rw [hs]
    rcases k with _ | _ | k <;> simp
  · rfl

theorem expandIgn2_rank (s : Tensor K) : (expandIgn 2 s).rank ≠ 1 ∧ (expandIgn 2 s).rank ≤ s.rank + 2 := by
  unfold expandIgn
  split_ifs with h0
  · omega
  · simp [Tensor.rank]

theorem expandIgn2_bt (s : Tensor K) : (expandIgn 2 s).bt = s.sh := by
  unfold expandIgn
  split_ifs with h0
  · have hs : s.sh = [] := List.length_eq_zero_iff.1 h0
    simp [Tensor.bt, hs]
  · rfl

theorem zip_const {s : Tensor K} {r c : ℕ} (gb : Good S b) (hs : Fits S s.sh) (hc : Compat (c :: r :: s.sh) b.sh) :
    bcast (bsh (c :: r :: s.sh) b.sh) (zipB op (expandIgn 2 s) b) = zipB op (constM s r c) b := by
  have hsh := gb.sh
  have fb := hc.fits_right
  have fs := hc.fits_left
  have e : bsh (c :: r :: s.sh) b.sh = bd c b.cols :: bd r b.rows :: bsh s.sh b.bt := by rw [hsh]; rfl
  have fs' : Fits (bsh s.sh b.bt) s.sh := by have := gb.fits; fitsIn S
  have F1 : FRep (bsh s.sh b.bt) (bd r b.rows) (bd c b.cols) (zipB op (expandIgn 2 s) b) fun β i j => op (s.get β) (b.at' β i j) :=
    (expandIgn2_frep fs' _ _).zipB op (FRep.self (by rw [← e]; exact fb))
  have F2 : FRep (bsh s.sh b.bt) (bd r b.rows) (bd c b.cols) (zipB op (constM s r c) b) fun β i j => op (s.get β) (b.at' β i j) :=
    (FRep.constM (by rw [← e]; exact fs)).zipB op (FRep.self (by rw [← e]; exact fb))
  rw [e]
  exact FRep.ext (S := bsh s.sh b.bt) rfl (by rw [zipB_sh, constM_sh, e]) (Rep.bcast (Fits.refl _) F1.fits F1).frep F2 fun _ _ _ _ _ _ => rfl

theorem zip_const_stretch {s : Tensor K} {r c : ℕ} (gb : Good S b) (hs : Fits S s.sh) (hc : Compat (c :: r :: s.sh) b.sh) :
    zipB op (constM s (bd r b.rows) (bd c b.cols)) b = zipB op (constM s r c) b := by
  have hsh := gb.sh
  have fb := hc.fits_right
  have fs := hc.fits_left
  have e : bsh (c :: r :: s.sh) b.sh = bd c b.cols :: bd r b.rows :: bsh s.sh b.bt := by rw [hsh]; rfl
  have fs' : Fits (bsh s.sh b.bt) s.sh := by have := gb.fits; fitsIn S
  have F1 : FRep (bsh s.sh b.bt) (bd r b.rows) (bd c b.cols) (zipB op (constM s (bd r b.rows) (bd c b.cols)) b) fun β i j => op (s.get β) (b.at' β i j) :=
    (Rep.constM fs' _ _).frep.zipB op (FRep.self (by rw [← e]; exact fb))
  have F2 : FRep (bsh s.sh b.bt) (bd r b.rows) (bd c b.cols) (zipB op (constM s r c) b) fun β i j => op (s.get β) (b.at' β i j) :=
    (FRep.constM (by rw [← e]; exact fs)).zipB op (FRep.self (by rw [← e]; exact fb))
  refine FRep.ext (S := bsh s.sh b.bt) ?_ (by rw [zipB_sh, constM_sh, e]) F1 F2 fun _ _ _ _ _ _ => rfl
  rw [zipB_sh, constM_sh, hsh]
  simp only [bsh_cons, bd_assoc, bd_self]

theorem zip_const_const {s t : Tensor K} {r c r' c' : ℕ} (hs : Fits S s.sh) (ht : Fits S t.sh)
    (hc : Compat (c :: r :: s.sh) (c' :: r' :: t.sh)) :
    zipB op (constM s r c) (constM t r' c') = constM (zipB op s t) (bd r r') (bd c c') := by
  have f1 : Fits (bsh s.sh t.sh) s.sh := by fitsIn S
  have f2 : Fits (bsh s.sh t.sh) t.sh := by fitsIn S
  have fs := hc.fits_left
  have ft := hc.fits_right
  simp only [bsh_cons] at fs ft
  refine FRep.ext (S := bsh s.sh t.sh) (by simp) (by simp) ((FRep.constM fs).zipB op (FRep.constM ft))
    (Rep.constM (t := zipB op s t) (Fits.refl (bsh s.sh t.sh)) _ _).frep ?_
  intro β i j hβ _ _
  exact (zipB_get op hβ f1 f2).symm

theorem fillDiag_ok {t : Tensor K} {x : Mat K} (ht : Fits S t.sh) (h : fillDiag t 1 = .ok x) :
    ∃ v, x = .diag v ∧ v.sh = 1 :: t.sh ∧ ∀ {T}, Fits T t.sh → VRep T 1 v fun β _ => t.get β := by
  simp only [fillDiag, bind_ok_iff, nMul_ok, mkDiag_ok] at h
  obtain ⟨_, ⟨_, rfl⟩, _, rfl⟩ := h
  have e : (zipB (· * ·) (expandEnd 1 t) (fillT (1 :: t.sh) 1)).sh = 1 :: t.sh := by
    rw [zipB_sh, expandEnd_one_sh, fillT_sh, bsh_self]
  refine ⟨_, rfl, e, ?_⟩
  intro T hT
  refine ⟨by simp [Tensor.rank, e], by rw [Tensor.cols, e]; rfl, by rw [e]; exact hT, ?_⟩
  intro β i hβ hi
  rw [vat_zipB _ hβ hi (by simp [hT]) (by simp [hT]), vat_expandEnd_one i hβ hT, (VRep.fill hT 1 (1:K)).vat β i hβ hi, mul_one]

theorem constToLR_ok {t : Tensor K} {r c : ℕ} {x : Mat K} (ht : Fits S t.sh) (h : constToLR t r c = .ok x) :
    x.WF S ∧ den x = constM t r c ∧ x.kind = some .lr := by
  simp only [constToLR, bind_ok_iff] at h
  obtain ⟨m, hm, hx⟩ := h
  obtain ⟨v, rfl, ev, hv⟩ := fillDiag_ok ht hm
  have w1 : Mat.WF S (.num (fillT [1, r] (1:K))) := ⟨by simp [Tensor.rank], Fits.nil _⟩
  have w2 : Mat.WF S (.num (fillT [1, c] (1:K))) := ⟨by simp [Tensor.rank], Fits.nil _⟩
  have w3 : Mat.WF S (.diag v) := ⟨(hv ht).rank, (hv ht).bt⟩
  obtain ⟨rfl, w⟩ := mkLR_inv w1 w2 w3 hx
  refine ⟨w, ?_, rfl⟩
  simp only [den]
  have e : (mm (mm (fillT [1, r] (1:K)) (diagC v)) (tr (fillT [1, c] 1))).bt = t.sh := by
    simp only [mm_bt, tr_bt, diagC_bt, ev]
    simp [Tensor.bt]
  have R := ((Rep.fill (S := t.sh) (bt := []) (Fits.nil _) r 1 (1:K)).mm (Rep.diagC (hv (Fits.refl _)))).mm
    (Rep.fill (S := t.sh) (bt := []) (Fits.nil _) c 1 (1:K)).tr
  rw [← e] at R
  refine Rep.ext R (Rep.constM (by rw [e]; exact Fits.refl _) r c) (by rw [e]; rfl) ?_
  intro β i j _ _ _
  simp

end

/-! ### Woodbury parts -/

theorem Mat.WF.wbDiag {S : Shp} {d : Tensor K} {l r m : Mat K} (h : Mat.WF S (.wb d l r m)) : Mat.WF S (.diag d : Mat K) := h.1
theorem Mat.WF.wbLr {S : Shp} {d : Tensor K} {l r m : Mat K} (h : Mat.WF S (.wb d l r m)) : Mat.WF S (.lr l r m) := ⟨h.2.1, h.2.2.1, h.2.2.2.1⟩
theorem wb_rows {d : Tensor K} {l r m : Mat K} {S : Shp} (h : Mat.WF S (.wb d l r m)) : (den (.wb d l r m)).rows = d.cols := by
  simp only [den, zipB_rows, diagC_rows, mm_rows, h.2.2.2.2.1, bd_self]
theorem wb_cols {d : Tensor K} {l r m : Mat K} {S : Shp} (h : Mat.WF S (.wb d l r m)) : (den (.wb d l r m)).cols = d.cols := by
  simp only [den, zipB_cols, diagC_cols, mm_cols, tr_cols, h.2.2.2.2.2, bd_self]
theorem lr_rows {l r m : Mat K} : (den (.lr l r m)).rows = (den l).rows := rfl
theorem lr_cols {l r m : Mat K} : (den (.lr l r m)).cols = (den r).rows := rfl
theorem den_wb {d : Tensor K} {l r m : Mat K} : den (.wb d l r m) = zipB (· + ·) (den (.diag d)) (den (.lr l r m)) := rfl

theorem mkWB_inv {d : Tensor K} {l r m x : Mat K} (h : mkWB d l r m = .ok x) : x = .wb d l r m := by
  simp only [mkWB, bind_ok_iff, pure_eq_ok] at h
  obtain ⟨_, _, _, _, _, _, rfl⟩ := h
  rfl

theorem zip4 {T : Shp} {a b c d : Tensor K} (ha : Fits T a.sh) (hb : Fits T b.sh) (hc : Fits T c.sh) (hd : Fits T d.sh) :
    zipB (· + ·) (zipB (· + ·) a b) (zipB (· + ·) c d) = zipB (· + ·) (zipB (· + ·) a c) (zipB (· + ·) b d) := by
  rw [zipB_assoc _ add_assoc ha hb (hc.bsh hd), zipB_assoc _ add_assoc ha hc (hb.bsh hd),
    ← zipB_assoc _ add_assoc hb hc hd, ← zipB_assoc _ add_assoc hc hb hd, zipB_comm _ add_comm b c]

theorem mfits_wb {S : Shp} {d : Tensor K} {l r m b : Mat K} (h : Mat.WF S (.wb d l r m)) (hm : MFits (den (.wb d l r m)) (den b)) :
    MFits (den (.diag d)) (den b) ∧ MFits (den (.lr l r m)) (den b) := by
  have e1 := wb_rows h; have e2 := wb_cols h
  unfold MFits at *
  rw [e1, e2] at hm
  refine ⟨hm, ?_⟩
  rw [lr_rows, lr_cols, h.2.2.2.2.1, h.2.2.2.2.2]
  exact hm

theorem mfits_wb' {S : Shp} {d : Tensor K} {l r m b : Mat K} (h : Mat.WF S (.wb d l r m)) (hm : MFits (den b) (den (.wb d l r m))) :
    MFits (den b) (den (.diag d)) ∧ MFits (den b) (den (.lr l r m)) := by
  have e1 := wb_rows h; have e2 := wb_cols h
  unfold MFits at *
  rw [e1, e2] at hm
  refine ⟨hm, ?_⟩
  rw [lr_rows, lr_cols, h.2.2.2.2.1, h.2.2.2.2.2]
  exact hm

theorem noStretch_wb {S : Shp} {d : Tensor K} {l r m b : Mat K} (h : Mat.WF S (.wb d l r m)) (ns : NoStretch (.wb d l r m) b) :
    NoStretch (.diag d) b ∧ NoStretch (.lr l r m) b :=
  ⟨⟨fun _ => (mfits_wb h (ns.1 rfl)).1, fun hb => (mfits_wb' h (ns.2 hb)).1⟩,
   ⟨fun _ => (mfits_wb h (ns.1 rfl)).2, fun hb => (mfits_wb' h (ns.2 hb)).2⟩⟩

theorem Mat.WF.sameFits {S : Shp} {a : Mat K} (h : a.WF S) {n m : ℕ} (hr : (den a).rows = 1 ∨ (den a).rows = n) (hc : (den a).cols = 1 ∨ (den a).cols = m) :
    Fits (m :: n :: S) (den a).sh := fits_of_WF h hr hc

theorem zip_add_zero {a : Tensor K} {s : Shp} (hc : Compat a.sh s) : zipB (· + ·) a (fillT s 0) = bcast (bsh a.sh s) a := by
  refine Tensor.ext_inRange rfl ?_
  intro i hi
  rw [zipB_sh, fillT_sh] at hi
  rw [zipB_get _ hi hc.fits_left hc.fits_right, bcast_get hi (Fits.refl _) hc.fits_left, fillT_get _ hi hc.fits_right, add_zero]

theorem zip_mul_zero {a : Tensor K} {s : Shp} (hc : Compat a.sh s) :
    zipB (· * ·) a (fillT s 0) = bcast (bsh a.sh s) (fillT s 0) := by
  refine Tensor.ext_inRange rfl ?_
  intro i hi
  rw [zipB_sh, fillT_sh] at hi
  rw [zipB_get _ hi hc.fits_left hc.fits_right, bcast_get hi (Fits.refl _) hc.fits_right, fillT_get _ hi hc.fits_right, mul_zero]

/-- Broadcasting one operand to the shape of both. -/
theorem broadcastTo_both {B : Ops K} (hB : B.Ok) {a b r : Mat K} {S : Shp} (ha : a.WF S) (hb : b.WF S) (aa : a.isAM = true)
    (hb2 : 2 ≤ (den b).rank) (hc : Compat (den a).sh (den b).sh)
    (h : broadcastTo B a (bsh (den a).sh (den b).sh) = .ok r) :
    r.WF S ∧ den r = bcast (bsh (den a).sh (den b).sh) (den a) := by
  have ga := ha.good (ha.rank aa)
  have gb := hb.good hb2
  have e : bsh (den a).sh (den b).sh = bd (den a).cols (den b).cols :: bd (den a).rows (den b).rows :: bsh (den a).bt (den b).bt := by
    rw [ga.sh, gb.sh]; rfl
  have hf := hc.fits_left
  have hl : (den a).rank ≤ (bsh (den a).bt (den b).bt).length + 2 := by
    rw [length_bsh]; simp only [Tensor.bt, Tensor.rank, List.length_drop]; omega
  rw [e] at h hf ⊢
  exact broadcastTo_ok hB ha aa (ga.fits.bsh gb.fits) hf hl h

/-- An elementwise operation computed densely. -/
theorem zipOk_dense {op : K → K → K} {a b : Mat K} {S : Shp} (ha : a.WF S) (hb : b.WF S) (ka : 2 ≤ (den a).rank) (kb : 2 ≤ (den b).rank)
    (hc : Compat (den a).sh (den b).sh) : ZipOk op S a b (mkDense (zipB op (den a) (den b))) := by
  have g := (ha.good ka).zipB op (hb.good kb)
  exact ⟨(mkDense_wf g).1, hc, (mkDense_wf g).2⟩

theorem zipOk_diag {op : K → K → K} (h0 : op 0 0 = 0) {s t : Tensor K} {S : Shp} (hs : GoodV S s) (ht : GoodV S t)
    (ns : NoStretch (.diag s) (.diag t)) : ZipOk op S (.diag s) (.diag t) (.diag (zipB op s t)) := by
  have he : s.cols = t.cols := (mfits_eq (ns.1 rfl) (ns.2 rfl)).1
  have g := hs.zipB op ht
  exact ⟨⟨g.rank, g.fits⟩, compat_of_mfits (Good.diagC hs) (Good.diagC ht) (ns.1 rfl), (zipB_diagC op h0 hs ht he).symm⟩

theorem Mat.WF.goodV {S : Shp} {t : Tensor K} (h : Mat.WF S (.diag t : Mat K)) : GoodV S t := ⟨h.1, h.2⟩

theorem zipOk_const {op : K → K → K} {s t : Tensor K} {r c r' c' : ℕ} {S : Shp} {x : Mat K} (hs : Fits S s.sh) (ht : Fits S t.sh)
    (hc : Compat (c :: r :: s.sh) (c' :: r' :: t.sh)) (h : mkConst (zipB op s t) (bsh (c :: r :: s.sh) (c' :: r' :: t.sh)) = .ok x) :
    ZipOk op S (.const s r c) (.const t r' c') x := by
  rw [bsh_cons, bsh_cons] at h
  obtain ⟨_, rfl⟩ := mkConst_ok h
  rw [zipB_sh, bsh_self, bcast_of_sh (zipB_sh op s t)]
  exact ⟨hs.bsh ht, hc, (zip_const_const hs ht hc).symm⟩

theorem zipOk_constAm {op : K → K → K} {s : Tensor K} {r c : ℕ} {b : Mat K} {S : Shp} (hs : Fits S s.sh) (hb : b.WF S)
    (kb : 2 ≤ (den b).rank) (hc : Compat (c :: r :: s.sh) (den b).sh) :
    ZipOk op S (.const s r c) b (mkDense (bcast (bsh (c :: r :: s.sh) (den b).sh) (zipB op (expandIgn 2 s) (den b)))) := by
  have gb := hb.good kb
  rw [zip_const gb hs hc]
  have g := (Good.constM hs r c).zipB op gb
  exact ⟨(mkDense_wf g).1, hc, (mkDense_wf g).2⟩

theorem diagLr_ok {S : Shp} {t : Tensor K} {l r m : Mat K} (ha : Mat.WF S (.diag t : Mat K)) (hb : Mat.WF S (.lr l r m))
    (ns : NoStretch (.diag t) (.lr l r m)) : ZipOk (· + ·) S (.diag t) (.lr l r m) (.wb t l r m) := by
  have he := mfits_eq (ns.1 rfl) (ns.2 rfl)
  refine ⟨⟨ha, hb.1, hb.2.1, hb.2.2, he.1.symm, he.2.symm⟩, ?_, rfl⟩
  exact compat_of_mfits (ha.good (ha.rank rfl)) (hb.good (hb.rank rfl)) (ns.1 rfl)

theorem shapeMatrixBroadcast_ok {a b : Mat K} {S : Shp} (ha : a.WF S) (hb : b.WF S) {rc : ℕ × ℕ} (h : shapeMatrixBroadcast a b = .ok rc) :
    Compat [(den a).cols, (den a).rows] [(den b).cols, (den b).rows] ∧ rc = (bd (den a).rows (den b).rows, bd (den a).cols (den b).cols) := by
  simp only [shapeMatrixBroadcast, ha.shapeMatrix, hb.shapeMatrix, bind_ok_iff, Except.ok.injEq, exists_eq_left', bsE_ok, pure_eq_ok] at h
  obtain ⟨_, ⟨hc, rfl⟩, rfl⟩ := h
  exact ⟨hc, by simp⟩

theorem compat_of_mat {S : Shp} {a b : Tensor K} (ga : Good S a) (gb : Good S b) (h : Compat [a.cols, a.rows] [b.cols, b.rows]) : Compat a.sh b.sh := by
  rw [ga.sh, gb.sh]
  simp only [compat_cons] at h ⊢
  exact ⟨h.1, h.2.1, ga.fits.compat gb.fits⟩

theorem compat_mat {S : Shp} {a b : Tensor K} (ga : Good S a) (gb : Good S b) (h : Compat a.sh b.sh) : Compat [a.cols, a.rows] [b.cols, b.rows] := by
  rw [ga.sh, gb.sh] at h
  simp only [compat_cons] at h ⊢
  exact ⟨h.1, h.2.1, Compat.nil_left _⟩

/-- One method of `B.add`. -/
theorem addRun_ok {env : Env K} (he : env.Lawful) {B : Ops K} (hB : B.Ok) {S : Shp} {m : AddM} {a b r : Mat K}
    (ha : a.WF S) (hb : b.WF S) (aa : a.isAM = true) (ab : b.isAM = true) (ns : NoStretch a b)
    (h : addRun env B m a b = .ok r) : ZipOk (· + ·) S a b r := by
  have ka := ha.rank aa
  have kb := hb.rank ab
  have ga := ha.good ka
  have gb := hb.good kb
  unfold addRun at h
  split at h
  · -- amZero
    simp only [ha.shape, hb.shape, bind_ok_iff, Except.ok.injEq, exists_eq_left', assertCompatible_ok, exists_const] at h
    obtain ⟨hc, h⟩ := h
    split at h
    · simp only [shapeBroadcast, ha.shape, hb.shape, bind_ok_iff, Except.ok.injEq, exists_eq_left', bsE_ok] at h
      obtain ⟨_, ⟨_, rfl⟩, h⟩ := h
      obtain ⟨w, e⟩ := broadcastTo_both hB ha hb aa kb hc h
      refine ⟨w, hc, ?_⟩
      rw [e]
      exact (zip_add_zero hc).symm
    · simp at h
  · -- zeroAm
    simp only [ha.shape, hb.shape, bind_ok_iff, Except.ok.injEq, exists_eq_left', assertCompatible_ok, exists_const] at h
    obtain ⟨hc, h⟩ := h
    split at h
    · simp only [shapeBroadcast, ha.shape, hb.shape, bind_ok_iff, Except.ok.injEq, exists_eq_left', bsE_ok] at h
      obtain ⟨_, ⟨_, rfl⟩, h⟩ := h
      rw [bsh_comm] at h
      obtain ⟨w, e⟩ := broadcastTo_both hB hb ha ab ka hc.symm h
      refine ⟨w, hc, ?_⟩
      rw [e, zipB_comm _ add_comm]
      exact (zip_add_zero hc.symm).symm
    · simp at h
  · -- amAm
    simp only [bind_ok_iff, nAdd_ok, pure_eq_ok] at h
    obtain ⟨_, h1, _, h2, _, ⟨hc, rfl⟩, rfl⟩ := h
    obtain rfl := hB.dense ha h1
    obtain rfl := hB.dense hb h2
    exact zipOk_dense ha hb ka kb hc
  · -- denseDense
    simp only [bind_ok_iff, nAdd_ok, pure_eq_ok] at h
    obtain ⟨_, ⟨hc, rfl⟩, rfl⟩ := h
    exact zipOk_dense ha hb ka kb hc
  · -- diagDiag
    simp only [bind_ok_iff, nAdd_ok, mkDiag_ok] at h
    obtain ⟨_, ⟨hc, rfl⟩, _, rfl⟩ := h
    exact zipOk_diag (by simp) ha.goodV hb.goodV ns
  · -- constConst
    simp only [bind_ok_iff, nAdd_ok, assertCompatible_ok, bsE_ok, exists_const] at h
    obtain ⟨hc, _, ⟨_, rfl⟩, _, ⟨_, rfl⟩, h⟩ := h
    exact zipOk_const ha hb hc h
  · -- constAm
    simp only [shapeBroadcast, ha.shape, hb.shape, bind_ok_iff, Except.ok.injEq, exists_eq_left', bsE_ok, nAdd_ok, pure_eq_ok, nBroadcastTo_ok] at h
    obtain ⟨_, h1, _, ⟨_, rfl⟩, _, ⟨hc, rfl⟩, _, ⟨_, rfl⟩, rfl⟩ := h
    obtain rfl := hB.dense hb h1
    exact zipOk_constAm ha hb kb hc
  · -- constDiag
    rename_i s r' c' t
    simp only [ha.shape, hb.shape, bind_ok_iff, Except.ok.injEq, exists_eq_left', assertCompatible_ok, exists_const] at h
    obtain ⟨hc, rc, hrc, lr, hlr, h⟩ := h
    obtain ⟨_, rfl⟩ := shapeMatrixBroadcast_ok ha hb hrc
    obtain ⟨w, e, _⟩ := constToLR_ok (S := S) ha hlr
    have hm := ns.2 rfl
    have hm1 : r' = 1 ∨ r' = t.cols := hm.1
    have hm2 : c' = 1 ∨ c' = t.cols := hm.2
    have e1 : bd (den (.const s r' c')).rows (den (.diag t)).rows = t.cols := by
      show bd r' t.cols = t.cols
      rcases hm1 with h | h <;> simp [h]
    have e2 : bd (den (.const s r' c')).cols (den (.diag t)).cols = t.cols := by
      show bd c' t.cols = t.cols
      rcases hm2 with h | h <;> simp [h]
    have z := hB.add w hb (noStretch_of_eq (by rw [e, e1]; rfl) (by rw [e, e2]; rfl)) h
    refine ⟨z.wf, hc, ?_⟩
    rw [z.eq, e]
    exact zip_const_stretch gb ha hc
  · -- swap
    exact (hB.add hb ha ns.symm h).symm add_comm
  · -- ltLt
    simp only [bind_ok_iff, nAdd_ok, mkLT_ok] at h
    obtain ⟨_, ⟨hc, rfl⟩, _, rfl⟩ := h
    have hq := mfits_eq (ns.1 rfl) (ns.2 rfl)
    have hz := zip_shape (op := (· + ·)) ga gb (ns.1 rfl)
    have g := ga.zipB (· + ·) gb
    exact ⟨⟨g.rank, g.fits, hz.1.trans (ha.2.2.1.trans hz.2.symm), lowerTri_zip (by simp) ga gb hq.1 hq.2 ha.2.2.2 hb.2.2.2⟩, hc, rfl⟩
  · -- ltDiag
    simp only [bind_ok_iff, nAdd_ok, mkLT_ok] at h
    obtain ⟨_, h1, _, ⟨hc, rfl⟩, _, rfl⟩ := h
    obtain rfl := hB.dense hb h1
    have hq := mfits_eq (ns.1 rfl) (ns.2 rfl)
    have hz := zip_shape (op := (· + ·)) ga gb (ns.1 rfl)
    have g := ga.zipB (· + ·) gb
    exact ⟨⟨g.rank, g.fits, hz.1.trans (ha.2.2.1.trans hz.2.symm), lowerTri_zip (by simp) ga gb hq.1 hq.2 ha.2.2.2 (lowerTri_diagC hb.1)⟩, hc, rfl⟩
  · -- utUt
    simp only [bind_ok_iff, nAdd_ok, mkUT_ok] at h
    obtain ⟨_, ⟨hc, rfl⟩, _, rfl⟩ := h
    have hq := mfits_eq (ns.1 rfl) (ns.2 rfl)
    have hz := zip_shape (op := (· + ·)) ga gb (ns.1 rfl)
    have g := ga.zipB (· + ·) gb
    exact ⟨⟨g.rank, g.fits, hz.1.trans (ha.2.2.1.trans hz.2.symm), upperTri_zip (by simp) ga gb hq.1 hq.2 ha.2.2.2 hb.2.2.2⟩, hc, rfl⟩
  · -- utLt
    simp only [bind_ok_iff, nAdd_ok, pure_eq_ok] at h
    obtain ⟨_, ⟨hc, rfl⟩, rfl⟩ := h
    exact zipOk_dense ha hb ka kb hc
  · -- utDiag
    simp only [bind_ok_iff, nAdd_ok, mkUT_ok] at h
    obtain ⟨_, h1, _, ⟨hc, rfl⟩, _, rfl⟩ := h
    obtain rfl := hB.dense hb h1
    have hq := mfits_eq (ns.1 rfl) (ns.2 rfl)
    have hz := zip_shape (op := (· + ·)) ga gb (ns.1 rfl)
    have g := ga.zipB (· + ·) gb
    exact ⟨⟨g.rank, g.fits, hz.1.trans (ha.2.2.1.trans hz.2.symm), upperTri_zip (by simp) ga gb hq.1 hq.2 ha.2.2.2 (upperTri_diagC hb.1)⟩, hc, rfl⟩
  · -- lrLr
    exact addLRLR_ok he hB ha hb ns h
  · -- lrConst
    rename_i l r' m' t i j
    simp only [bind_ok_iff] at h
    obtain ⟨rc, hrc, lr, hlr, h⟩ := h
    obtain ⟨hcm, rfl⟩ := shapeMatrixBroadcast_ok ha hb hrc
    have hc := compat_of_mat ga gb hcm
    obtain ⟨w, e, _⟩ := constToLR_ok (S := S) hb hlr
    have hm := ns.1 rfl
    have hm1 : i = 1 ∨ i = (den (.lr l r' m')).rows := hm.1
    have hm2 : j = 1 ∨ j = (den (.lr l r' m')).cols := hm.2
    have e1 : bd (den (.lr l r' m')).rows (den (.const t i j)).rows = (den (.lr l r' m')).rows := by
      show bd _ i = _
      rcases hm1 with h | h <;> simp [h]
    have e2 : bd (den (.lr l r' m')).cols (den (.const t i j)).cols = (den (.lr l r' m')).cols := by
      show bd _ j = _
      rcases hm2 with h | h <;> simp [h]
    have z := hB.add ha w (noStretch_of_eq (by rw [e, e1]; rfl) (by rw [e, e2]; rfl)) h
    refine ⟨z.wf, hc, ?_⟩
    rw [z.eq, e, zipB_comm _ add_comm, bd_comm (den (.lr l r' m')).rows, bd_comm (den (.lr l r' m')).cols, zipB_comm _ add_comm (den (.lr l r' m'))]
    exact zip_const_stretch ga hb hc.symm
  · -- lrDiag
    obtain rfl := mkWB_inv h
    exact (diagLr_ok hb ha ns.symm).symm add_comm
  · -- diagLr
    obtain rfl := mkWB_inv h
    exact diagLr_ok ha hb ns
  · -- wbWb
    rename_i d l r' m' d' l' r'' m''
    simp only [bind_ok_iff] at h
    obtain ⟨x, hx, y, hy, h⟩ := h
    have hc := compat_of_mfits ga gb (ns.1 rfl)
    have n1 := noStretch_wb ha ns
    have n2 := noStretch_wb hb n1.1.symm
    have n3 := noStretch_wb hb n1.2.symm
    have hq : d.cols = d'.cols := (mfits_eq (n2.1.1 rfl) (n2.1.2 rfl)).1.symm
    have zx := hB.add ha.wbDiag hb.wbDiag n2.1.symm hx
    have zy := hB.add ha.wbLr hb.wbLr n3.2.symm hy
    have rx : (den x).rows = d.cols ∧ (den x).cols = d.cols := by
      rw [zx.eq]; simp only [zipB_rows, zipB_cols, den, diagC_rows, diagC_cols, hq, bd_self, and_self]
    have ry : (den y).rows = d.cols ∧ (den y).cols = d.cols := by
      rw [zy.eq]
      simp only [zipB_rows, zipB_cols, lr_rows, lr_cols, ha.2.2.2.2.1, ha.2.2.2.2.2, hb.2.2.2.2.1, hb.2.2.2.2.2, hq, bd_self, and_self]
    have z := hB.add zx.wf zy.wf (noStretch_of_eq (by rw [rx.1, ry.1]) (by rw [rx.2, ry.2])) h
    refine ⟨z.wf, hc, ?_⟩
    rw [z.eq, zx.eq, zy.eq, den_wb, den_wb]
    exact zip4 (T := d.cols :: d.cols :: S) (ha.wbDiag.sameFits (Or.inr rfl) (Or.inr rfl)) (hb.wbDiag.sameFits (Or.inr hq.symm) (Or.inr hq.symm))
      (ha.wbLr.sameFits (Or.inr ha.2.2.2.2.1) (Or.inr ha.2.2.2.2.2))
      (hb.wbLr.sameFits (Or.inr (hb.2.2.2.2.1.trans hq.symm)) (Or.inr (hb.2.2.2.2.2.trans hq.symm)))
  · -- wbDiag
    rename_i d l r' m' t
    simp only [bind_ok_iff] at h
    obtain ⟨x, hx, h⟩ := h
    have hc := compat_of_mfits ga gb (ns.1 rfl)
    have n1 := noStretch_wb ha ns
    have hq : d.cols = t.cols := (mfits_eq (n1.1.1 rfl) (n1.1.2 rfl)).1
    have zx := hB.add ha.wbDiag hb n1.1 hx
    have rx : (den x).rows = d.cols ∧ (den x).cols = d.cols := by
      rw [zx.eq]; simp only [zipB_rows, zipB_cols, den, diagC_rows, diagC_cols, hq, bd_self, and_self]
    have z := hB.add zx.wf ha.wbLr (noStretch_of_eq (by rw [rx.1, lr_rows, ha.2.2.2.2.1]) (by rw [rx.2, lr_cols, ha.2.2.2.2.2])) h
    refine ⟨z.wf, hc, ?_⟩
    have F1 : Fits (d.cols :: d.cols :: S) (den (.diag d)).sh := ha.wbDiag.sameFits (Or.inr rfl) (Or.inr rfl)
    have F2 : Fits (d.cols :: d.cols :: S) (den (.diag t)).sh := hb.sameFits (Or.inr hq.symm) (Or.inr hq.symm)
    have F3 : Fits (d.cols :: d.cols :: S) (den (.lr l r' m')).sh := ha.wbLr.sameFits (Or.inr ha.2.2.2.2.1) (Or.inr ha.2.2.2.2.2)
    rw [z.eq, zx.eq, den_wb, zipB_assoc _ add_assoc F1 F2 F3, zipB_assoc _ add_assoc F1 F3 F2, zipB_comm _ add_comm (den (.diag t))]
  · -- wbAny
    rename_i d l r' m'
    simp only [bind_ok_iff] at h
    obtain ⟨y, hy, h⟩ := h
    have hm := ns.1 rfl
    have hc := compat_of_mfits ga gb hm
    have n1 := noStretch_wb ha ns
    have zy := hB.add ha.wbLr hb n1.2 hy
    have er := wb_rows ha; have ec := wb_cols ha
    have hm1 : (den b).rows = 1 ∨ (den b).rows = d.cols := by rw [← er]; exact hm.1
    have hm2 : (den b).cols = 1 ∨ (den b).cols = d.cols := by rw [← ec]; exact hm.2
    have ry : (den y).rows = d.cols ∧ (den y).cols = d.cols := by
      rw [zy.eq]
      simp only [zipB_rows, zipB_cols, lr_rows, lr_cols, ha.2.2.2.2.1, ha.2.2.2.2.2]
      constructor
      · rcases hm1 with h | h <;> simp [h]
      · rcases hm2 with h | h <;> simp [h]
    have z := hB.add ha.wbDiag zy.wf (noStretch_of_eq (by rw [ry.1]; rfl) (by rw [ry.2]; rfl)) h
    refine ⟨z.wf, hc, ?_⟩
    have F1 : Fits (d.cols :: d.cols :: S) (den (.diag d)).sh := ha.wbDiag.sameFits (Or.inr rfl) (Or.inr rfl)
    have F2 : Fits (d.cols :: d.cols :: S) (den b).sh := hb.sameFits hm1 hm2
    have F3 : Fits (d.cols :: d.cols :: S) (den (.lr l r' m')).sh := ha.wbLr.sameFits (Or.inr ha.2.2.2.2.1) (Or.inr ha.2.2.2.2.2)
    rw [z.eq, zy.eq, den_wb, zipB_assoc _ add_assoc F1 F3 F2]
  · simp at h

/-! ### With promotion of numeric operands -/

theorem zipOk_num {op : K → K → K} {s t : Tensor K} {S : Shp} (hs : Mat.WF S (.num s)) (ht : Mat.WF S (.num t)) (hc : Compat s.sh t.sh) :
    ZipOk op S (.num s) (.num t) (.num (zipB op s t)) := by
  refine ⟨⟨?_, ?_⟩, hc, rfl⟩
  · have h1 := hs.1; have h2 := ht.1
    simp only [Tensor.rank, zipB_sh, length_bsh] at *
    omega
  · simp only [Tensor.bt, zipB_sh, drop_bsh]; exact hs.2.bsh ht.2

theorem noStretch_convert {env : Env K} {a b : Mat K} {S : Shp} (ha : a.WF S) (hb : b.WF S) (ns : NoStretch a b) :
    NoStretch (convertAM env a) (convertAM env b) := by
  obtain ⟨_, ea, _, _, ra⟩ := den_convertAM (env := env) ha
  obtain ⟨_, eb, _, _, rb⟩ := den_convertAM (env := env) hb
  have pa := upT_props (WF.rank_ne_one ha)
  have pb := upT_props (WF.rank_ne_one hb)
  unfold NoStretch MFits Tensor.rows Tensor.cols at *
  rw [ra, rb, ea, eb]
  simp only [pa.2, pb.2]
  exact ns

theorem zipOk_convert {op : K → K → K} {env : Env K} {a b r : Mat K} {S : Shp} (ha : a.WF S) (hb : b.WF S)
    (h2 : a.isAM = true ∨ b.isAM = true) (z : ZipOk op S (convertAM env a) (convertAM env b) r) : ZipOk op S a b r := by
  obtain ⟨_, ea, _, _, ra⟩ := den_convertAM (env := env) ha
  obtain ⟨_, eb, _, _, rb⟩ := den_convertAM (env := env) hb
  have hz := zipB_upT (op := op) (WF.rank_ne_one ha) (WF.rank_ne_one hb)
    (h2.imp (fun h => ha.rank h) (fun h => hb.rank h))
  refine ⟨z.wf, ?_, ?_⟩
  · have := z.compat; rw [ea, eb] at this; exact hz.2.1 this
  · rw [z.eq, ea, eb, hz.1]

theorem kind_of_isAM {a : Mat K} (h : a.isAM = true) : ∃ k, a.kind = some k := by
  cases a <;> simp_all [Mat.isAM, Mat.kind]

/-- One unfolding of `B.add`. -/
theorem stepAdd_ok {env : Env K} (he : env.Lawful) {B : Ops K} (hB : B.Ok) {S : Shp} {a b r : Mat K}
    (ha : a.WF S) (hb : b.WF S) (ns : NoStretch a b) (h : stepAdd env B a b = .ok r) : ZipOk (· + ·) S a b r := by
  unfold stepAdd at h
  split at h
  · simp only [bind_ok_iff, nAdd_ok, pure_eq_ok] at h
    obtain ⟨_, ⟨hc, rfl⟩, rfl⟩ := h
    exact zipOk_num ha hb hc
  · rename_i hne
    have h2 : a.isAM = true ∨ b.isAM = true := by
      cases a <;> cases b <;> simp_all [Mat.isAM]
    obtain ⟨wa, ea, aa, _, _⟩ := den_convertAM (env := env) ha
    obtain ⟨wb, eb, ab, _, _⟩ := den_convertAM (env := env) hb
    obtain ⟨ka, hka⟩ := kind_of_isAM aa
    obtain ⟨kb, hkb⟩ := kind_of_isAM ab
    simp only [hka, hkb] at h
    exact zipOk_convert ha hb h2 (addRun_ok he hB wa wb aa ab (noStretch_convert ha hb ns) h)

end Verif
