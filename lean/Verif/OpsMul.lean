/-
Soundness of one unfolding of `B.multiply`.
-/
import Verif.OpsAdd

set_option linter.unusedSectionVars false
set_option linter.unusedVariables false
set_option linter.unusedSimpArgs false

namespace Verif

variable {K : Type} [Field K] [LinearOrder K]

section
variable {S : Shp} {op : K → K → K} {a b : Tensor K}

/-! ### Diagonal factors -/

/-- A vector that reads as the diagonal of `b` broadcast to `n × n`. -/
structure DiagOf (S : Shp) (n : ℕ) (b v : Tensor K) : Prop where
  sh : ∃ q, (q = 1 ∨ q = n) ∧ v.sh = q :: b.bt
  vat : ∀ {T β i}, Fits T b.bt → InRange T β → i < n → v.vat β i = b.at' β i i

theorem nSqueeze_ok {k : ℕ} {t v : Tensor K} (h : nSqueeze k t = .ok v) :
    k < t.rank ∧ dim t.sh k = 1 ∧ v = ofFn (t.sh.eraseIdx k) fun i => t.get (insAt k 0 i) := by
  unfold nSqueeze at h
  split_ifs at h with hk
  simp at h
  exact ⟨hk.1, hk.2, h.symm⟩

theorem diagOf_squeeze1 {n : ℕ} {v : Tensor K} (gb : Good S b) (hr : b.rows = 1) (hc : b.cols = 1 ∨ b.cols = n)
    (h : nSqueeze 1 b = .ok v) : DiagOf S n b v := by
  obtain ⟨_, _, rfl⟩ := nSqueeze_ok h
  have e : b.sh.eraseIdx 1 = b.cols :: b.bt := by
    conv_lhs => rw [gb.sh]
    rfl
  refine ⟨⟨b.cols, hc, e⟩, ?_⟩
  intro T β i hT hβ hi
  unfold Tensor.vat
  rw [ofFn_get_fits (S := n :: T) _ (by simp [*]) (by rw [e]; simp [hc, hT]), e]
  unfold Tensor.at'
  apply b.get_congr
  intro k
  have hsh := gb.sh
  rw [clip_cons]
  rcases k with _ | _ | k
  · have h0 : dim b.sh 0 = b.cols := rfl
    simp [insAt, clip, h0]; split_ifs <;> omega
  · have h1 : dim b.sh 1 = b.rows := rfl
    simp [insAt, clip, h1, hr]; omega
  · have h1 : dim b.sh (k+2) = dim b.bt k := by rw [hsh]; rfl
    simp only [insAt, clip, h1, icons_succ, itail]
    split_ifs <;> omega

theorem diagOf_squeeze0 {n : ℕ} {v : Tensor K} (gb : Good S b) (hr : b.rows = 1 ∨ b.rows = n) (hc : b.cols = 1)
    (h : nSqueeze 0 b = .ok v) : DiagOf S n b v := by
  obtain ⟨_, _, rfl⟩ := nSqueeze_ok h
  have e : b.sh.eraseIdx 0 = b.rows :: b.bt := by
    conv_lhs => rw [gb.sh]
    rfl
  refine ⟨⟨b.rows, hr, e⟩, ?_⟩
  intro T β i hT hβ hi
  unfold Tensor.vat
  rw [ofFn_get_fits (S := n :: T) _ (by simp [*]) (by rw [e]; simp [hr, hT]), e]
  unfold Tensor.at'
  apply b.get_congr
  intro k
  have hsh := gb.sh
  rw [clip_cons]
  rcases k with _ | _ | k
  · have h0 : dim b.sh 0 = b.cols := rfl
    simp [insAt, clip, h0, hc]; omega
  · have h1 : dim b.sh 1 = b.rows := rfl
    simp [insAt, clip, h1]; split_ifs <;> omega
  · have h1 : dim b.sh (k+2) = dim b.bt k := by rw [hsh]; rfl
    simp only [insAt, clip, h1, icons_succ]
    split_ifs <;> omega

theorem diagOf_diagE {n : ℕ} (gb : Good S b) (hr : b.rows = n) (hc : b.cols = n) : DiagOf S n b (diagE b) := by
  refine ⟨⟨n, Or.inr rfl, by rw [diagE_sh, hr, hc, Nat.min_self]⟩, ?_⟩
  intro T β i hT hβ hi
  exact vat_diagE hβ hT (by rw [hr, hc]; omega)

theorem zip_diag {d v : Tensor K} (gd : GoodV S d) (gb : Good S b) (hm : MFits (diagC d) b) (hv : DiagOf S d.cols b v) :
    zipB (· * ·) (diagC d) b = diagC (zipB (· * ·) d v) ∧ GoodV S (zipB (· * ·) d v) := by
  obtain ⟨⟨q, hq, ev⟩, hat⟩ := hv
  have ed := Tensor.sh_eq_vec gd.rank
  have hd := gd.fits
  have hb := gb.fits
  generalize hdt : d.sh.tail = dt at ed hd
  have es : (zipB (· * ·) d v).sh = d.cols :: bsh dt b.bt := by
    rw [zipB_sh, ed, ev]
    rcases hq with h | h <;> simp [h]
  have e : (zipB (· * ·) (diagC d) b).bt = bsh dt b.bt := by rw [zipB_bt, diagC_bt, hdt]
  have f1 : Fits (bsh dt b.bt) dt := by fitsIn S
  have f2 : Fits (bsh dt b.bt) b.bt := by fitsIn S
  have g : GoodV S (zipB (· * ·) d v) := ⟨by rw [Tensor.rank, es]; simp, by rw [es]; exact hd.bsh hb⟩
  refine ⟨?_, g⟩
  have V : VRep (bsh dt b.bt) d.cols (zipB (· * ·) d v) fun β i => d.vat β i * b.at' β i i := by
    refine ⟨g.rank, by rw [Tensor.cols, es]; rfl, by rw [es]; exact Fits.refl _, ?_⟩
    intro β i hβ hi
    rw [vat_zipB _ hβ hi (by rw [ed]; simp [f1]) (by rw [ev]; simp [hq, f2]), hat f2 hβ hi]
  have L := (Rep.diagC (VRep.self (S := bsh dt b.bt) gd.rank (by rw [hdt]; exact f1))).frep.zipB (· * ·)
    (frep_of_mfits (a := diagC d) ⟨gb.rank, f2⟩ hm)
  have hz := zip_shape (op := (· * ·)) (Good.diagC gd) gb hm
  refine FRep.ext (S := bsh dt b.bt) (r := d.cols) (c := d.cols) ?_ ?_ L (Rep.diagC V).frep ?_
  · rw [← e]
    have g2 := (Good.diagC gd).zipB (· * ·) gb
    rw [g2.sh, hz.1, hz.2]; rfl
  · rw [diagC_sh, es, Tensor.cols, es]; simp
  · intro β i j hβ hi hj
    by_cases hij : i = j <;> simp [hij]

theorem expandIgn1_diagOf {s : Tensor K} {n r c : ℕ} (hs : Fits S s.sh) (hr : r = 1 ∨ r = n) (hc : c = 1 ∨ c = n) :
    ∃ v : Tensor K, DiagOf S n (constM s r c) v ∧ v.get = (expandIgn 1 s).get ∧ v.sh = 1 :: s.sh ∧
      ∀ t : Tensor K, 1 ≤ t.rank → zipB op (expandIgn 1 s) t = zipB op v t := by
  refine ⟨expandEnd 1 s, ⟨⟨1, Or.inl rfl, rfl⟩, ?_⟩, ?_, rfl, ?_⟩
  · intro T β i hT hβ hi
    have hf : Fits (n :: n :: T) (constM s r c).sh := by
      rw [constM_sh]; simp only [fits_cons]; exact ⟨hc, hr, hT⟩
    have h := (FRep.constM hf).at' β i i hβ hi hi
    rw [h]
    exact vat_expandEnd_one i hβ hT
  · unfold expandIgn
    split_ifs with h0
    · have hs : s.sh = [] := List.length_eq_zero_iff.1 h0
      funext i
      simp only [expandEnd, ofFn, hs]
      simp
      apply s.get_congr
      intro k; simp [hs, clip]; split_ifs <;> simp_all
    · rfl
  · intro t ht
    unfold expandIgn
    split_ifs with h0
    · have hs : s.sh = [] := List.length_eq_zero_iff.1 h0
      have hg : (expandEnd 1 s).get = s.get := by
        funext i
        simp only [expandEnd, ofFn, hs]
        simp
        apply s.get_congr
        intro k; simp [hs, clip]; split_ifs <;> simp_all
      unfold zipB
      rw [hg, expandEnd_one_sh, hs, Tensor.sh_eq_vec ht]
      simp
    · rfl

/-! ### Scalar batches -/

theorem expandIgn2_bsh {s : Tensor K} (hb : 2 ≤ b.rank) : bsh (expandIgn 2 s).sh b.sh = bsh (1 :: 1 :: s.sh) b.sh := by
  unfold expandIgn
  split_ifs with h0
  · have hs : s.sh = [] := List.length_eq_zero_iff.1 h0
    rw [hs, Tensor.sh_eq hb]; simp
  · rfl

/-- Scaling by a batch of scalars. -/
theorem scal_rep {s : Tensor K} (hs : Fits S s.sh) (gb : Good S b) :
    Rep S b.rows b.cols (zipB op (expandIgn 2 s) b) (fun β i j => op (s.get β) (b.at' β i j)) ∧
      (zipB op (expandIgn 2 s) b).bt = bsh s.sh b.bt := by
  have e : (zipB op (expandIgn 2 s) b).sh = b.cols :: b.rows :: bsh s.sh b.bt := by
    rw [zipB_sh, expandIgn2_bsh gb.rank, gb.sh]; simp
  refine ⟨⟨by simp only [Tensor.rank, e, List.length_cons]; omega, by rw [Tensor.rows, e]; simp, by rw [Tensor.cols, e]; simp, by
    rw [Tensor.bt, e]; exact hs.bsh gb.fits, ?_⟩, by rw [Tensor.bt, e]; rfl⟩
  exact ((expandIgn2_frep hs _ _).zipB op gb.rep.frep).at'

/-- A constant that fits a matrix acts as its scalar. -/
theorem zip_const_scal {s : Tensor K} {r c : ℕ} (gb : Good S b) (hs : Fits S s.sh) (hm : MFits b (constM s r c)) :
    zipB op (expandIgn 2 s) b = zipB op (constM s r c) b := by
  have hc : Compat (constM s r c).sh b.sh := (compat_of_mfits gb (Good.constM hs r c) hm).symm
  rw [← zip_const gb hs hc, bcast_of_sh]
  rw [zipB_sh, expandIgn2_bsh gb.rank, gb.sh]
  have h1 : r = 1 ∨ r = b.rows := hm.1
  have h2 : c = 1 ∨ c = b.cols := hm.2
  simp only [bsh_cons]
  congr 1
  · rcases h2 with h | h <;> simp [h]
  congr 1
  rcases h1 with h | h <;> simp [h]

end

theorem wf_scal {S : Shp} {s : Tensor K} (hs : Fits S s.sh) : Mat.WF S (.num (expandIgn 2 s) : Mat K) :=
  ⟨(expandIgn2_rank s).1, by rw [expandIgn2_bt]; exact hs⟩

theorem noStretch_scal {s : Tensor K} (m : Mat K) : NoStretch (.num (expandIgn 2 s)) m := by
  refine ⟨fun h => by simp [Mat.rigid] at h, fun _ => ?_⟩
  have h0 := expandIgn2_dim s 0
  have h1 := expandIgn2_dim s 1
  exact ⟨Or.inl h1, Or.inl h0⟩

/-! ### The Hadamard product of low-rank matrices -/

theorem bsE_fold {S : Shp} {x y : Shp} {u : Shp} (h : bsE x y = .ok u) : u = bsh x y := (bsE_ok.1 h).2.symm

theorem mulLRLR_ok {B : Ops K} (hB : B.Ok) {S : Shp} {al ar am bl br bm r : Mat K}
    (ha : Mat.WF S (.lr al ar am)) (hb : Mat.WF S (.lr bl br bm)) (ns : NoStretch (.lr al ar am) (.lr bl br bm))
    (h : mulLRLR B al ar am bl br bm = .ok r) : ZipOk (· * ·) S (.lr al ar am) (.lr bl br bm) r := by
  have hq := mfits_eq (ns.1 rfl) (ns.2 rfl)
  rw [lr_rows, lr_rows, lr_cols, lr_cols] at hq
  have hsa := ha.shape
  have hsb := hb.shape
  obtain ⟨⟨wal, war, wam⟩, ⟨kal, kar, kam⟩, ca1, ca2⟩ := ha
  obtain ⟨⟨wbl, wbr, wbm⟩, ⟨kbl, kbr, kbm⟩, cb1, cb2⟩ := hb
  simp only [mulLRLR, hsa, hsb, bind_ok_iff, Except.ok.injEq, exists_eq_left', assertCompatible_ok, exists_const] at h
  obtain ⟨hc, _, e1, _, e2, _, e3, _, e4, _, e5, _, e6, s1, hs1, s2, hs2, s3, hs3, s4, hs4, s5, hs5, _, b1, _, b2, _, b3, _, b4, _, b5, _, b6,
    f, hf, h⟩ := h
  obtain rfl := hB.dense wal e1
  obtain rfl := hB.dense wam e2
  obtain rfl := hB.dense war e3
  obtain rfl := hB.dense wbl e4
  obtain rfl := hB.dense wbm e5
  obtain rfl := hB.dense wbr e6
  obtain ⟨_, rfl⟩ := bsE_ok.1 hs1
  obtain ⟨_, rfl⟩ := bsE_ok.1 hs2
  obtain ⟨_, rfl⟩ := bsE_ok.1 hs3
  obtain ⟨_, rfl⟩ := bsE_ok.1 hs4
  obtain ⟨_, hs5⟩ := bsE_ok.1 hs5
  obtain ⟨_, F1, _, rfl⟩ := nBroadcastBatchTo_ok b1
  obtain ⟨_, F2, _, rfl⟩ := nBroadcastBatchTo_ok b2
  obtain ⟨_, F3, _, rfl⟩ := nBroadcastBatchTo_ok b3
  obtain ⟨_, F4, _, rfl⟩ := nBroadcastBatchTo_ok b4
  obtain ⟨_, F5, _, rfl⟩ := nBroadcastBatchTo_ok b5
  obtain ⟨_, F6, _, rfl⟩ := nBroadcastBatchTo_ok b6
  have h1 := wal.fits; have h2 := wam.fits; have h3 := war.fits
  have h4 := wbl.fits; have h5 := wbm.fits; have h6 := wbr.fits
  have hS5 : Fits S s5 := by rw [← hs5]; fitsUp
  simp only [hadamardFactors, bind_ok_iff, pure_eq_ok, guardE_ok, exists_const, bbT_rows, bbT_cols, bbT_bt] at hf
  obtain ⟨_, _, _, _, _, _, rfl⟩ := hf
  simp only at h
  rw [hq.1, hq.2, bd_self, bd_self] at h
  have A1 := (Rep.self' (S := s5) kal hq.1 rfl F1).bbT
  have A2 := (Rep.self' (S := s5) kam ca1.symm ca2.symm F2).bbT
  have A3 := (Rep.self' (S := s5) kar hq.2 rfl F3).bbT
  have A4 := (Rep.self (S := s5) kbl F4).bbT
  have A5 := (Rep.self' (S := s5) kbm cb1.symm cb2.symm F5).bbT
  have A6 := (Rep.self (S := s5) kbr F6).bbT
  have w1 : ∀ (r c : ℕ) (f : Idx → ℕ → ℕ → K), Mat.WF S (.num (mkMat s5 r c f)) := fun r c f =>
    ⟨by simp [Tensor.rank], hS5⟩
  obtain ⟨rfl, w⟩ := mkLR_inv (w1 _ _ _) (w1 _ _ _) (w1 _ _ _) h
  refine ⟨w, hc, ?_⟩
  simp only [den]
  have RL := Rep.mkMat (S := s5) (r := (den bl).rows) (c := (den al).cols * (den bl).cols) (Fits.refl _) fun β i j =>
    (bbT s5 (den al)).at' β i (j / (den bl).cols) * (bbT s5 (den bl)).at' β i (j % (den bl).cols)
  have RR := Rep.mkMat (S := s5) (r := (den br).rows) (c := (den ar).cols * (den br).cols) (Fits.refl _) fun β i j =>
    (bbT s5 (den ar)).at' β i (j / (den br).cols) * (bbT s5 (den br)).at' β i (j % (den br).cols)
  have RM := Rep.mkMat (S := s5) (r := (den am).rows * (den bm).rows) (c := (den am).cols * (den bm).cols) (Fits.refl _) fun β i j =>
    (bbT s5 (den am)).at' β (i / (den bm).rows) (j / (den bm).cols) * (bbT s5 (den bm)).at' β (i % (den bm).rows) (j % (den bm).cols)
  rw [ca1, cb1] at RL
  rw [ca2, cb2] at RR
  rw [ca1, ca2, cb1, cb2]
  have lhs := (RL.mm RM).mm RR.tr
  have rhs := (((Rep.self' (S := s5) kal hq.1 rfl F1).mm (Rep.self' (S := s5) kam ca1.symm ca2.symm F2)).mm (Rep.self' (S := s5) kar hq.2 rfl F3).tr).zipB (· * ·)
    (((Rep.self (S := s5) kbl F4).mm (Rep.self' (S := s5) kbm cb1.symm cb2.symm F5)).mm (Rep.self (S := s5) kbr F6).tr)
  have eb : ∀ (x y z : Tensor K), x.bt = s5 → y.bt = s5 → z.bt = s5 → (mm (mm x y) (tr z)).bt = s5 := by
    intro x y z hx hy hz; simp [hx, hy, hz]
  refine Rep.ext (by rw [eb _ _ _ rfl rfl rfl]; exact lhs) (by rw [eb _ _ _ rfl rfl rfl]; exact rhs) ?_ ?_
  · rw [eb _ _ _ rfl rfl rfl]
    simp only [zipB_bt, mm_bt, tr_bt, ← hs5]
    bsh_ac
  · intro β i j hβ hi hj
    rw [eb _ _ _ rfl rfl rfl] at hβ
    simp only [ca1, ca2, cb1, cb2] at A1 A2 A3 A4 A5 A6 ⊢
    rw [clip_of_inRange hβ, ← sum_kron]
    refine Finset.sum_congr rfl fun y hy => ?_
    rw [Finset.mem_range] at hy
    obtain ⟨y1, y2⟩ := kron_lt hy
    rw [A3.at' β j _ hβ hj y1, A6.at' β j _ hβ hj y2]
    rw [show ∀ p q u v : K, p * u * (q * v) = p * q * (u * v) from fun _ _ _ _ => by ring, ← sum_kron]
    congr 1
    refine Finset.sum_congr rfl fun x hx => ?_
    rw [Finset.mem_range] at hx
    obtain ⟨x1, x2⟩ := kron_lt hx
    rw [A1.at' β i _ hβ hi x1, A4.at' β i _ hβ hi x2, A2.at' β _ _ hβ x1 y1, A5.at' β _ _ hβ x2 y2]
    ring

/-! ### The other methods -/

theorem mulDiagAm_ok {B : Ops K} (hB : B.Ok) {S : Shp} {d : Tensor K} {b r : Mat K}
    (ha : Mat.WF S (.diag d : Mat K)) (hb : b.WF S) (kb : 2 ≤ (den b).rank) (ns : NoStretch (.diag d) b) (db : b.DiagOk)
    (h : mulDiagAm B d b = .ok r) : ZipOk (· * ·) S (.diag d) b r := by
  have gb := hb.good kb
  have hm : MFits (diagC d) (den b) := ns.1 rfl
  have hm1 : (den b).rows = 1 ∨ (den b).rows = d.cols := hm.1
  have hm2 : (den b).cols = 1 ∨ (den b).cols = d.cols := hm.2
  simp only [mulDiagAm, ha.shape, hb.shape, hb.shapeMatrix, bind_ok_iff, Except.ok.injEq, exists_eq_left', assertCompatible_ok, exists_const, nMul_ok, mkDiag_ok] at h
  obtain ⟨hc, h⟩ := h
  have fin : ∀ v : Tensor K, DiagOf S d.cols (den b) v → ZipOk (· * ·) S (.diag d) b (.diag (zipB (· * ·) d v)) := by
    intro v hd
    obtain ⟨e, g⟩ := zip_diag ha.goodV gb hm hd
    exact ⟨⟨g.rank, g.fits⟩, hc, e.symm⟩
  split_ifs at h with h1 h2
  · simp only [bind_ok_iff, nMul_ok, mkDiag_ok] at h
    obtain ⟨_, e, v, hv, _, ⟨_, rfl⟩, _, rfl⟩ := h
    obtain rfl := hB.dense hb e
    exact fin v (diagOf_squeeze1 gb h1 hm2 hv)
  · simp only [bind_ok_iff, nMul_ok, mkDiag_ok] at h
    obtain ⟨_, e, v, hv, _, ⟨_, rfl⟩, _, rfl⟩ := h
    obtain rfl := hB.dense hb e
    exact fin v (diagOf_squeeze0 gb hm1 h2 hv)
  · simp only [bind_ok_iff, nMul_ok, mkDiag_ok] at h
    obtain ⟨v, hv, _, ⟨_, rfl⟩, _, rfl⟩ := h
    obtain rfl := hB.diag hb kb db hv
    exact fin _ (diagOf_diagE gb (hm1.resolve_left h1) (hm2.resolve_left h2))

theorem zip_mul_add {T : Shp} {a b c : Tensor K} (ha : Fits T a.sh) (hb : Fits T b.sh) (hc : Fits T c.sh) :
    zipB (· * ·) (zipB (· + ·) a b) c = zipB (· + ·) (zipB (· * ·) a c) (zipB (· * ·) b c) := by
  refine Tensor.ext_inRange (by simp only [zipB_sh]; bsh_ac) ?_
  intro i hi
  simp only [zipB_sh] at hi
  have fa : Fits (bsh (bsh a.sh b.sh) c.sh) a.sh := by fitsIn T
  have fb : Fits (bsh (bsh a.sh b.sh) c.sh) b.sh := by fitsIn T
  have fc : Fits (bsh (bsh a.sh b.sh) c.sh) c.sh := by fitsIn T
  rw [zipB_get _ hi (fa.bsh fb) fc, zipB_get _ hi fa fb, zipB_get _ hi (fa.bsh fc) (fb.bsh fc), zipB_get _ hi fa fc, zipB_get _ hi fb fc, add_mul]

theorem zip_ut_lt {S : Shp} {s t : Tensor K} (gs : Good S s) (gt : Good S t) (hr : s.rows = t.rows) (hc : s.cols = t.cols)
    (hs : s.rows = s.cols) (us : UpperTri s) (lt : LowerTri t) :
    zipB (· * ·) s t = diagC (zipB (· * ·) (diagE s) (diagE t)) := by
  have e : (zipB (· * ·) s t).bt = bsh s.bt t.bt := by simp only [zipB_bt]
  have h1 := gs.fits; have h2 := gt.fits
  have f1 : Fits (zipB (· * ·) s t).bt s.bt := by rw [e]; fitsIn S
  have f2 : Fits (zipB (· * ·) s t).bt t.bt := by rw [e]; fitsIn S
  have A := Rep.self' gs.rank rfl hs.symm f1
  have B := Rep.self' gt.rank hr.symm (hc.symm.trans hs.symm) f2
  have V := (VRep.diagE A).zipB (· * ·) (VRep.diagE B)
  rw [Nat.min_self] at V
  refine Rep.ext (A.zipB (· * ·) B) (Rep.diagC V) ?_ ?_
  · rw [e, diagC_bt, zipB_sh, diagE_sh, diagE_sh]; simp
  · intro β i j hβ hi hj
    by_cases hij : i = j
    · subst hij; simp
    · simp only [hij, if_false]
      rcases Nat.lt_or_gt_of_ne hij with h | h
      · rw [LowerTri.at (S := (zipB (· * ·) s t).bt) lt ⟨gt.rank, f2⟩ hβ (by omega) (by omega) h, mul_zero]
      · rw [UpperTri.at (S := (zipB (· * ·) s t).bt) us ⟨gs.rank, f1⟩ hβ (by omega) (by omega) h, zero_mul]

theorem scal_mm_mid {S : Shp} {s l r m : Tensor K} (hs : Fits S s.sh) (gl : Good S l) (gm : Good S m) (gr : Good S r)
    (h1 : l.cols = m.rows) (h2 : m.cols = r.rows) :
    mm (mm l (zipB (· * ·) (expandIgn 2 s) m)) r = zipB (· * ·) (expandIgn 2 s) (mm (mm l m) r) := by
  have q1 := gl.fits; have q2 := gm.fits; have q3 := gr.fits
  have e : (mm (mm l (zipB (· * ·) (expandIgn 2 s) m)) r).bt = bsh (bsh l.bt (bsh s.sh m.bt)) r.bt := by
    simp only [mm_bt, (scal_rep hs gm).2]
  have fs : Fits (mm (mm l (zipB (· * ·) (expandIgn 2 s) m)) r).bt s.sh := by rw [e]; fitsIn S
  have fl : Fits (mm (mm l (zipB (· * ·) (expandIgn 2 s) m)) r).bt l.bt := by rw [e]; fitsIn S
  have fm : Fits (mm (mm l (zipB (· * ·) (expandIgn 2 s) m)) r).bt m.bt := by rw [e]; fitsIn S
  have fr : Fits (mm (mm l (zipB (· * ·) (expandIgn 2 s) m)) r).bt r.bt := by rw [e]; fitsIn S
  have L := Rep.self gl.rank fl
  have M := Rep.self' gm.rank h1.symm rfl fm
  have R := Rep.self' gr.rank h2.symm rfl fr
  have M2 := (scal_rep (op := (· * ·)) fs M.good).1
  rw [← h1] at M2
  have P := (L.mm M).mm R
  have P2 := (scal_rep (op := (· * ·)) fs P.good).1
  refine Rep.ext ((L.mm M2).mm R) P2 ?_ ?_
  · rw [e, (scal_rep hs ((gl.mm gm).mm gr)).2]; simp only [mm_bt]; bsh_ac
  · intro β i j hβ hi hj
    rw [P.at' β i j hβ hi hj, Finset.mul_sum]
    refine Finset.sum_congr rfl fun x _ => ?_
    rw [← mul_assoc, Finset.mul_sum]
    congr 1
    refine Finset.sum_congr rfl fun y _ => ?_
    ring

theorem scal_kron {S : Shp} {s l r : Tensor K} (hs : Fits S s.sh) (gl : Good S l) (gr : Good S r) :
    kronT (zipB (· * ·) (expandIgn 2 s) l) r = zipB (· * ·) (expandIgn 2 s) (kronT l r) := by
  have q1 := gl.fits; have q3 := gr.fits
  have e : (kronT (zipB (· * ·) (expandIgn 2 s) l) r).bt = bsh (bsh s.sh l.bt) r.bt := by
    simp only [kronT_bt, (scal_rep hs gl).2]
  have fs : Fits (kronT (zipB (· * ·) (expandIgn 2 s) l) r).bt s.sh := by rw [e]; fitsIn S
  have fl : Fits (kronT (zipB (· * ·) (expandIgn 2 s) l) r).bt l.bt := by rw [e]; fitsIn S
  have fr : Fits (kronT (zipB (· * ·) (expandIgn 2 s) l) r).bt r.bt := by rw [e]; fitsIn S
  have L := Rep.self gl.rank fl
  have R := Rep.self gr.rank fr
  have P := L.kronT R
  have P2 := (scal_rep (op := (· * ·)) fs P.good).1
  refine Rep.ext ((scal_rep (op := (· * ·)) fs L.good).1.kronT R) P2 ?_ ?_
  · rw [e, (scal_rep hs (gl.kronT gr)).2, kronT_bt]; bsh_ac
  · intro β i j hβ hi hj
    rw [P.at' β i j hβ hi hj]
    ring

/-- One method of `B.multiply`. -/
theorem mulRun_ok {B : Ops K} (hB : B.Ok) {S : Shp} {m : MulM} {a b r : Mat K}
    (ha : a.WF S) (hb : b.WF S) (aa : a.isAM = true) (ab : b.isAM = true) (ms : MulSafe a b)
    (h : mulRun B m a b = .ok r) : ZipOk (· * ·) S a b r := by
  have ns := ms.1
  have ka := ha.rank aa
  have kb := hb.rank ab
  have ga := ha.good ka
  have gb := hb.good kb
  unfold mulRun at h
  split at h
  · -- amZero
    simp only [ha.shape, hb.shape, bind_ok_iff, Except.ok.injEq, exists_eq_left', assertCompatible_ok, exists_const] at h
    obtain ⟨hc, h⟩ := h
    split at h
    · simp only [shapeBroadcast, ha.shape, hb.shape, bind_ok_iff, Except.ok.injEq, exists_eq_left', bsE_ok] at h
      obtain ⟨_, ⟨_, rfl⟩, h⟩ := h
      rw [bsh_comm] at h
      obtain ⟨w, e⟩ := broadcastTo_both hB hb ha ab ka hc.symm h
      refine ⟨w, hc, ?_⟩
      rw [e, bsh_comm]
      exact (zip_mul_zero hc).symm
    · simp at h
  · -- zeroAm
    simp only [ha.shape, hb.shape, bind_ok_iff, Except.ok.injEq, exists_eq_left', assertCompatible_ok, exists_const] at h
    obtain ⟨hc, h⟩ := h
    split at h
    · simp only [shapeBroadcast, ha.shape, hb.shape, bind_ok_iff, Except.ok.injEq, exists_eq_left', bsE_ok] at h
      obtain ⟨_, ⟨_, rfl⟩, h⟩ := h
      obtain ⟨w, e⟩ := broadcastTo_both hB ha hb aa kb hc h
      refine ⟨w, hc, ?_⟩
      rw [e, zipB_comm _ mul_comm, bsh_comm]
      exact (zip_mul_zero hc.symm).symm
    · simp at h
  · -- amAm
    simp only [bind_ok_iff, nMul_ok, pure_eq_ok] at h
    obtain ⟨_, h1, _, h2, _, ⟨hc, rfl⟩, rfl⟩ := h
    obtain rfl := hB.dense ha h1
    obtain rfl := hB.dense hb h2
    exact zipOk_dense ha hb ka kb hc
  · -- denseDense
    simp only [bind_ok_iff, nMul_ok, pure_eq_ok] at h
    obtain ⟨_, ⟨hc, rfl⟩, rfl⟩ := h
    exact zipOk_dense ha hb ka kb hc
  · -- diagDiag
    simp only [bind_ok_iff, nMul_ok, mkDiag_ok] at h
    obtain ⟨_, ⟨hc, rfl⟩, _, rfl⟩ := h
    exact zipOk_diag (by simp) ha.goodV hb.goodV ns
  · -- diagAm
    exact mulDiagAm_ok hB ha hb kb ns (ms.2.1 rfl) h
  · -- swap
    exact (hB.mul hb ha ms.symm h).symm mul_comm
  · -- constConst
    simp only [bind_ok_iff, nMul_ok, assertCompatible_ok, bsE_ok, exists_const] at h
    obtain ⟨hc, _, ⟨_, rfl⟩, _, ⟨_, rfl⟩, h⟩ := h
    exact zipOk_const ha hb hc h
  · -- constAm
    simp only [shapeBroadcast, ha.shape, hb.shape, bind_ok_iff, Except.ok.injEq, exists_eq_left', assertCompatible_ok, exists_const, bsE_ok, nMul_ok, pure_eq_ok, nBroadcastTo_ok] at h
    obtain ⟨_, _, h1, _, ⟨_, rfl⟩, _, ⟨hc, rfl⟩, _, ⟨_, rfl⟩, rfl⟩ := h
    obtain rfl := hB.dense hb h1
    exact zipOk_constAm ha hb kb hc
  · -- constDiag
    rename_i s r' c' t
    simp only [ha.shape, hb.shape, bind_ok_iff, Except.ok.injEq, exists_eq_left', assertCompatible_ok, exists_const, nMul_ok, mkDiag_ok] at h
    obtain ⟨hc, _, ⟨_, rfl⟩, _, rfl⟩ := h
    have hm : MFits (diagC t) (constM s r' c') := ns.2 rfl
    obtain ⟨v, hv, _, _, hz⟩ := expandIgn1_diagOf (op := (· * ·)) (S := S) (n := t.cols) (r := r') (c := c') ha hm.1 hm.2
    obtain ⟨e, g⟩ := zip_diag hb.goodV (Good.constM ha r' c') hm hv
    rw [hz t hb.1, zipB_comm _ mul_comm v]
    refine ⟨⟨g.rank, g.fits⟩, hc, ?_⟩
    rw [zipB_comm _ mul_comm (den (.const s r' c'))]
    exact e.symm
  · -- ltLt
    simp only [bind_ok_iff, nMul_ok, mkLT_ok] at h
    obtain ⟨_, ⟨hc, rfl⟩, _, rfl⟩ := h
    have hq := mfits_eq (ns.1 rfl) (ns.2 rfl)
    have hz := zip_shape (op := (· * ·)) ga gb (ns.1 rfl)
    have g := ga.zipB (· * ·) gb
    exact ⟨⟨g.rank, g.fits, hz.1.trans (ha.2.2.1.trans hz.2.symm), lowerTri_zip (by simp) ga gb hq.1 hq.2 ha.2.2.2 hb.2.2.2⟩, hc, rfl⟩
  · -- ltAm
    simp only [bind_ok_iff, nMul_ok, mkLT_ok] at h
    obtain ⟨_, h1, _, ⟨hc, rfl⟩, _, rfl⟩ := h
    obtain rfl := hB.dense hb h1
    have hz := zip_shape (op := (· * ·)) ga gb (ns.1 rfl)
    have g := ga.zipB (· * ·) gb
    exact ⟨⟨g.rank, g.fits, hz.1.trans (ha.2.2.1.trans hz.2.symm), lowerTri_zip_left (by simp) ga gb (ns.1 rfl) ha.2.2.2⟩, hc, rfl⟩
  · -- ltConst
    rename_i s t i j
    simp only [bind_ok_iff, nMul_ok, mkLT_ok] at h
    obtain ⟨_, ⟨_, rfl⟩, _, rfl⟩ := h
    have hm := ns.1 rfl
    have hz := zip_shape (op := (· * ·)) ga gb hm
    have g := ga.zipB (· * ·) gb
    have e : zipB (· * ·) s (expandIgn 2 t) = zipB (· * ·) (den (.lt s)) (den (.const t i j)) := by
      rw [zipB_comm _ mul_comm, zipB_comm _ mul_comm (den (.lt s))]
      exact zip_const_scal ga hb hm
    rw [e]
    exact ⟨⟨g.rank, g.fits, hz.1.trans (ha.2.2.1.trans hz.2.symm), lowerTri_zip_left (by simp) ga gb hm ha.2.2.2⟩, compat_of_mfits ga gb hm, rfl⟩
  · -- utUt
    simp only [bind_ok_iff, nMul_ok, mkUT_ok] at h
    obtain ⟨_, ⟨hc, rfl⟩, _, rfl⟩ := h
    have hq := mfits_eq (ns.1 rfl) (ns.2 rfl)
    have hz := zip_shape (op := (· * ·)) ga gb (ns.1 rfl)
    have g := ga.zipB (· * ·) gb
    exact ⟨⟨g.rank, g.fits, hz.1.trans (ha.2.2.1.trans hz.2.symm), upperTri_zip (by simp) ga gb hq.1 hq.2 ha.2.2.2 hb.2.2.2⟩, hc, rfl⟩
  · -- utLt
    rename_i s t
    simp only [bind_ok_iff, nMul_ok, mkDiag_ok] at h
    obtain ⟨_, h1, _, h2, _, ⟨_, rfl⟩, _, rfl⟩ := h
    obtain rfl := hB.diag ha ka trivial h1
    obtain rfl := hB.diag hb kb trivial h2
    have hq := mfits_eq (ns.1 rfl) (ns.2 rfl)
    have g := (GoodV.diagE ga).zipB (· * ·) (GoodV.diagE gb)
    refine ⟨⟨g.rank, g.fits⟩, compat_of_mfits ga gb (ns.1 rfl), ?_⟩
    exact (zip_ut_lt ga gb hq.1 hq.2 ha.2.2.1 ha.2.2.2 hb.2.2.2).symm
  · -- utAm
    simp only [bind_ok_iff, nMul_ok, mkUT_ok] at h
    obtain ⟨_, h1, _, ⟨hc, rfl⟩, _, rfl⟩ := h
    obtain rfl := hB.dense hb h1
    have hz := zip_shape (op := (· * ·)) ga gb (ns.1 rfl)
    have g := ga.zipB (· * ·) gb
    exact ⟨⟨g.rank, g.fits, hz.1.trans (ha.2.2.1.trans hz.2.symm), upperTri_zip_left (by simp) ga gb (ns.1 rfl) ha.2.2.2⟩, hc, rfl⟩
  · -- utConst
    rename_i s t i j
    simp only [bind_ok_iff, nMul_ok, mkUT_ok] at h
    obtain ⟨_, ⟨_, rfl⟩, _, rfl⟩ := h
    have hm := ns.1 rfl
    have hz := zip_shape (op := (· * ·)) ga gb hm
    have g := ga.zipB (· * ·) gb
    have e : zipB (· * ·) s (expandIgn 2 t) = zipB (· * ·) (den (.ut s)) (den (.const t i j)) := by
      rw [zipB_comm _ mul_comm, zipB_comm _ mul_comm (den (.ut s))]
      exact zip_const_scal ga hb hm
    rw [e]
    exact ⟨⟨g.rank, g.fits, hz.1.trans (ha.2.2.1.trans hz.2.symm), upperTri_zip_left (by simp) ga gb hm ha.2.2.2⟩, compat_of_mfits ga gb hm, rfl⟩
  · -- lrLr
    exact mulLRLR_ok hB ha hb ns h
  · -- constLr
    rename_i s r' c' l r'' m'
    simp only [ha.shape, hb.shape, bind_ok_iff, Except.ok.injEq, exists_eq_left', assertCompatible_ok, exists_const] at h
    obtain ⟨hc, m2, hm2, h⟩ := h
    obtain ⟨⟨wl, wr, wm⟩, ⟨kl, kr, km⟩, c1, c2⟩ := hb
    have z := hB.mul (wf_scal ha) wm (.of (noStretch_scal _) rfl trivial) hm2
    obtain ⟨rfl, w⟩ := mkLR_inv wl wr z.wf h
    refine ⟨w, hc, ?_⟩
    simp only [den] at z ⊢
    rw [z.eq, den, scal_mm_mid ha (wl.good kl) (wm.good km) (wr.good kr).tr c1 c2.symm]
    exact zip_const_scal gb ha (ns.2 rfl)
  · -- wbAm
    rename_i d l r' m'
    simp only [bind_ok_iff] at h
    obtain ⟨x, hx, y, hy, h⟩ := h
    have hm := ns.1 rfl
    have hc := compat_of_mfits ga gb hm
    have n1 := noStretch_wb ha ns
    have zx := hB.mul ha.wbDiag hb ⟨n1.1, fun _ => ms.2.1 rfl, fun _ => trivial⟩ hx
    have zy := hB.mul ha.wbLr hb (.of n1.2 rfl trivial) hy
    have er := wb_rows ha; have ec := wb_cols ha
    have hm1 : (den b).rows = 1 ∨ (den b).rows = d.cols := by rw [← er]; exact hm.1
    have hm2 : (den b).cols = 1 ∨ (den b).cols = d.cols := by rw [← ec]; exact hm.2
    have rx : (den x).rows = d.cols ∧ (den x).cols = d.cols := by
      rw [zx.eq]; simp only [zipB_rows, zipB_cols, den, diagC_rows, diagC_cols]
      constructor
      · rcases hm1 with h | h <;> simp [h]
      · rcases hm2 with h | h <;> simp [h]
    have ry : (den y).rows = d.cols ∧ (den y).cols = d.cols := by
      rw [zy.eq]
      simp only [zipB_rows, zipB_cols, lr_rows, lr_cols, ha.2.2.2.2.1, ha.2.2.2.2.2]
      constructor
      · rcases hm1 with h | h <;> simp [h]
      · rcases hm2 with h | h <;> simp [h]
    have z := hB.add zx.wf zy.wf (noStretch_of_eq (by rw [rx.1, ry.1]) (by rw [rx.2, ry.2])) h
    refine ⟨z.wf, hc, ?_⟩
    have F1 : Fits (d.cols :: d.cols :: S) (den (.diag d)).sh := ha.wbDiag.sameFits (Or.inr rfl) (Or.inr rfl)
    have F2 : Fits (d.cols :: d.cols :: S) (den b).sh := hb.sameFits hm1 hm2
    have F3 : Fits (d.cols :: d.cols :: S) (den (.lr l r' m')).sh := ha.wbLr.sameFits (Or.inr ha.2.2.2.2.1) (Or.inr ha.2.2.2.2.2)
    rw [z.eq, zx.eq, zy.eq, den_wb, zip_mul_add F1 F3 F2]
  · -- kronKron
    rename_i l r' l' r''
    obtain ⟨⟨wl, wr⟩, kl, kr⟩ := ha
    obtain ⟨⟨wl', wr'⟩, kl', kr'⟩ := hb
    simp only [wl.shapeMatrix, wr.shapeMatrix, wl'.shapeMatrix, wr'.shapeMatrix, bind_ok_iff, Except.ok.injEq, exists_eq_left', guardE_ok, exists_const, pure_eq_ok, Prod.mk.injEq] at h
    obtain ⟨⟨⟨e1, e2⟩, e3, e4⟩, x, hx, y, hy, rfl⟩ := h
    have zx := hB.mul wl wl' ⟨noStretch_of_eq e1 e2, fun h => (ms.2.1 (by simp [Mat.readsDiag, h])).2.1, fun h => (ms.2.2 (by simp [Mat.readsDiag, h])).2.1⟩ hx
    have zy := hB.mul wr wr' ⟨noStretch_of_eq e3 e4, fun h => (ms.2.1 (by simp [Mat.readsDiag, h])).2.2, fun h => (ms.2.2 (by simp [Mat.readsDiag, h])).2.2⟩ hy
    have gx := (wl.good kl).zipB (· * ·) (wl'.good kl')
    have gy := (wr.good kr).zipB (· * ·) (wr'.good kr')
    have e := zipB_mul_kronT (wl.good kl) (wr.good kr) (wl'.good kl') (wr'.good kr') e1 e2 e3 e4
    refine ⟨⟨⟨zx.wf, zy.wf⟩, by rw [zx.eq]; exact gx.rank, by rw [zy.eq]; exact gy.rank⟩, compat_of_mfits ga gb (ns.1 rfl), ?_⟩
    simp only [den, zx.eq, zy.eq]
    exact e.symm
  · -- constKron
    rename_i s r' c' l r''
    simp only [ha.shape, hb.shape, bind_ok_iff, Except.ok.injEq, exists_eq_left', assertCompatible_ok, exists_const, pure_eq_ok] at h
    obtain ⟨hc, x, hx, rfl⟩ := h
    obtain ⟨⟨wl, wr⟩, kl, kr⟩ := hb
    have z := hB.mul (wf_scal ha) wl (.of (noStretch_scal _) rfl trivial) hx
    refine ⟨⟨⟨z.wf, wr⟩, by rw [z.eq]; exact (scal_rep ha (wl.good kl)).1.rank, kr⟩, hc, ?_⟩
    simp only [den, z.eq]
    rw [scal_kron ha (wl.good kl) (wr.good kr)]
    exact zip_const_scal gb ha (ns.2 rfl)
  · simp at h

/-- One unfolding of `B.multiply`. -/
theorem stepMul_ok {env : Env K} {B : Ops K} (hB : B.Ok) {S : Shp} {a b r : Mat K}
    (ha : a.WF S) (hb : b.WF S) (ns : MulSafe a b) (h : stepMul env B a b = .ok r) : ZipOk (· * ·) S a b r := by
  unfold stepMul at h
  split at h
  · simp only [bind_ok_iff, nMul_ok, pure_eq_ok] at h
    obtain ⟨_, ⟨hc, rfl⟩, rfl⟩ := h
    exact zipOk_num ha hb hc
  · rename_i hne
    have h2 : a.isAM = true ∨ b.isAM = true := by
      cases a <;> cases b <;> simp_all [Mat.isAM]
    obtain ⟨wa, ea, aa, _, _⟩ := den_convertAM (env := env) ha
    obtain ⟨wb, eb, ab, _, _⟩ := den_convertAM (env := env) hb
    obtain ⟨ka, hka⟩ := kind_of_isAM aa
    obtain ⟨kb, hkb⟩ := kind_of_isAM ab
    simp only [hka, hkb] at h
    exact zipOk_convert ha hb h2 (mulRun_ok hB wa wb aa ab ⟨noStretch_convert ha hb ns.1, by rw [diagOk_convert.1, diagOk_convert.2]; exact ns.2.1, by rw [diagOk_convert.1, diagOk_convert.2]; exact ns.2.2⟩ h)

end Verif
