/-
Soundness of one unfolding of `B.dense`, `B.diag` and `B.sum`; conclusion: the whole recursive core is
sound at every recursion depth.
-/
import Verif.OpsMatmul

set_option linter.unusedSectionVars false
set_option linter.unusedVariables false
set_option linter.unusedSimpArgs false

namespace Verif

variable {K : Type} [Field K] [LinearOrder K]

/-! ### `B.dense` -/

theorem concatGet_congr (k : ℕ) (Q : Idx → Prop) (hQ : ∀ i x, Q i → Q (Function.update i k x)) (ts us : List (Tensor K))
    (hlen : List.Forall₂ (fun t u => dim t.sh k = dim u.sh k ∧ ∀ i, Q i → i k < dim t.sh k → t.get i = u.get i) ts us)
    (i : Idx) (hi : Q i) : concatGet k ts i = concatGet k us i := by
  induction hlen generalizing i with
  | nil => rfl
  | cons h _ ih =>
    simp only [concatGet, h.1]
    split_ifs with hlt
    · exact h.2 i hi (by rw [h.1]; exact hlt)
    · exact ih _ (hQ _ _ hi)

theorem dim_of_base {x y z : ℕ} (h1 : y = 1 ∨ y = z) (h2 : z = x ∨ z = 1) (h3 : z = 1 ∨ z = y) (h4 : y = x) : z = y := by omega

theorem denseTiled_ok {B : Ops K} (hB : B.Ok) {S : Shp} {n : ℕ} {blk : Fin n → Mat K} {reps : Fin n → ℕ} {axis : Int} {t : Tensor K}
    (hw : Mat.WF S (.tiled n blk reps axis)) (h : denseTiled B blk reps axis = .ok t) : t = den (.tiled n blk reps axis) := by
  have hw' := hw
  obtain ⟨k, hk, hn, h2, hwf, hr, hc, hS⟩ := hw
  have hU := tiled_univ hn (fun i => (hwf i).fits) hr hc
  have hk' : axPos (maxRank fun i => den (blk i)) axis = .ok k := hk
  have hkl := axPos_lt hk'
  have hden : den (.tiled n blk reps axis) = tiledT (fun i => den (blk i)) reps k := by
    rw [den, tiledPos_eq hk']
  have hrank := tiledT_rank (fun i => den (blk i)) reps hn k
  have hge := maxRank_ge (fun i => den (blk i)) hn h2
  obtain ⟨hb1, hb2⟩ := fits_tiledBase (fun i => den (blk i)) reps hkl hU
  have hbl := length_tiledBase (fun i => den (blk i)) reps hn k
  -- sizes of the blocks against the base shape
  have hbase : ∀ i p, p ≠ k → dim (den (blk i)).sh p = 1 ∨ dim (den (blk i)).sh p = dim (tiledBase (fun i => den (blk i)) reps k) p := by
    intro i p hp
    have := hb2 i p
    rw [dim_set _ _ _ _ (by rw [tileOf_length]; exact hkl), if_neg hp, dim_tileOf (fun i => den (blk i)) reps hkl, if_neg hp] at this
    exact this
  have hmat : ∀ i p, p < 2 → p ≠ k → dim (den (blk i)).sh p = dim (tiledBase (fun i => den (blk i)) reps k) p := by
    intro i p hp2 hp
    have a1 := hb1 p
    have a2 := hbase i p hp
    have a3 : dim (tiledUniv S fun i => den (blk i)) p = dim (den (blk i)).sh p := by
      rw [tiledUniv, dif_neg hn]
      rcases p with _ | _ | p
      · simpa using (hc i _ (Ne.symm hp)).symm
      · simpa using (hr i _ (Ne.symm hp)).symm
      · omega
    omega
  simp only [denseTiled, hw'.shape, hden, bind_ok_iff, Except.ok.injEq, exists_eq_left'] at h
  rw [show (tiledT (fun i => den (blk i)) reps k).sh.length = maxRank fun i => den (blk i) from hrank, hk'] at h
  simp only [bind_ok_iff, Except.ok.injEq, exists_eq_left', seqFin_ok, pure_eq_ok] at h
  obtain ⟨parts, hparts, hcat⟩ := h
  have hlen2 : (List.drop 2 (tiledT (fun i => den (blk i)) reps k).sh).length = (maxRank fun i => den (blk i)) - 2 := by
    rw [List.length_drop]; exact congrArg (· - 2) hrank
  have hdimT : ∀ q, dim (List.drop 2 (tiledT (fun i => den (blk i)) reps k).sh) q =
      if q + 2 = k then (List.ofFn fun i => reps i * dim (den (blk i)).sh k).sum else dim (tiledBase (fun i => den (blk i)) reps k) (q+2) := by
    intro q
    rw [dim_drop, dim_tiledT _ _ hn hkl, Nat.add_comm]
  -- every part
  have hp : ∀ i, ∃ T : Shp, T.length = (maxRank fun i => den (blk i)) - 2 ∧
      (∀ q, dim T q = if q + 2 = k then dim (den (blk i)).sh k else dim (tiledBase (fun i => den (blk i)) reps k) (q+2)) ∧
      parts i = tileAx k (reps i) (bbT T (den (blk i))) := by
    intro i
    obtain ⟨bb, hbb, block, hblock, d, hd, hpi⟩ := hparts i
    rw [(hwf i).shapeBatch] at hbb
    simp only [Except.ok.injEq] at hbb
    subst hbb
    set T : Shp := if k < 2 then List.drop 2 (tiledT (fun i => den (blk i)) reps k).sh
      else (List.drop 2 (tiledT (fun i => den (blk i)) reps k).sh).set (k-2)
        (dim ((den (blk i)).bt ++ List.replicate ((List.drop 2 (tiledT (fun i => den (blk i)) reps k).sh).length - (den (blk i)).bt.length) 1) (k-2)) with hT
    have hTd : ∀ q, dim T q = if q + 2 = k then dim (den (blk i)).sh k else dim (tiledBase (fun i => den (blk i)) reps k) (q+2) := by
      intro q
      rw [hT]
      split_ifs with hk2 hq hq
      · omega
      · rw [hdimT, if_neg hq]
      · rw [dim_set _ _ _ _ (by rw [hlen2]; omega), if_pos (by omega)]
        have : dim ((den (blk i)).bt ++ List.replicate ((List.drop 2 (tiledT (fun i => den (blk i)) reps k).sh).length - (den (blk i)).bt.length) 1) (k-2)
          = dim (den (blk i)).bt (k-2) := dim_padS _ _ _
        rw [this, dim_drop, show 2 + (k - 2) = k by omega]
      · rw [dim_set _ _ _ _ (by rw [hlen2]; omega), if_neg (by omega), hdimT, if_neg hq]
    have hfit : Fits T (den (blk i)).bt := by
      intro q
      rw [hTd, dim_drop, Nat.add_comm 2 q]
      split_ifs with hq
      · right; rw [hq]
      · exact hbase i _ hq
    obtain ⟨w, _, e, _⟩ := broadcastBatchTo_ok (hwf i) hfit hblock
    have := hB.dense w hd
    subst this
    refine ⟨T, ?_, hTd, ?_⟩
    · rw [hT]; split_ifs
      · exact hlen2
      · rw [List.length_set]; exact hlen2
    · rw [← hpi, tileBlock, e]
  have hpk : ∀ i, k < (parts i).rank ∧ (parts i).rank = maxRank (fun i => den (blk i)) ∧
      (∀ p, dim (parts i).sh p = if p = k then reps i * dim (den (blk i)).sh k else dim (tiledBase (fun i => den (blk i)) reps k) p) ∧
      ∀ j : Idx, (∀ p, p ≠ k → j p < dim (tiledBase (fun i => den (blk i)) reps k) p) → j k < reps i * dim (den (blk i)).sh k →
        (parts i).get j = (tileOf (fun i => den (blk i)) reps k i).get j := by
    intro i
    obtain ⟨T, hTl, hTd, he⟩ := hp i
    have hbr : (bbT T (den (blk i))).rank = maxRank fun i => den (blk i) := by
      simp [Tensor.rank, bbT, hTl]; omega
    have hbd : ∀ p, dim (bbT T (den (blk i))).sh p = if p = k then dim (den (blk i)).sh k else dim (tiledBase (fun i => den (blk i)) reps k) p := by
      intro p
      unfold bbT
      rcases p with _ | _ | p
      · simp only [bcast_sh, dim_cons_zero]
        split_ifs with hpk
        · rw [← hpk]
        · exact hmat i 0 (by omega) hpk
      · simp only [bcast_sh, dim_cons_succ, dim_cons_zero]
        split_ifs with hpk
        · rw [← hpk]
        · exact hmat i 1 (by omega) hpk
      · simp only [bcast_sh, dim_cons_succ, hTd]
    have hbk : dim (bbT T (den (blk i))).sh k = dim (den (blk i)).sh k := by rw [hbd, if_pos rfl]
    have hd : ∀ p, dim (parts i).sh p = if p = k then reps i * dim (den (blk i)).sh k else dim (tiledBase (fun i => den (blk i)) reps k) p := by
      intro p
      rw [he, tileAx, ofFn_sh, dim_set _ _ _ _ (by rw [← Tensor.rank, hbr]; exact hkl), hbk, hbd]
      split_ifs <;> rfl
    have hpr : (parts i).rank = maxRank fun i => den (blk i) := by
      rw [he, Tensor.rank, tileAx, ofFn_sh, List.length_set]; exact hbr
    refine ⟨by rw [hpr]; exact hkl, hpr, hd, ?_⟩
    intro j hj hjk
    have hpos : 0 < dim (den (blk i)).sh k := by
      rcases Nat.eq_zero_or_pos (dim (den (blk i)).sh k) with h0 | h0
      · rw [h0] at hjk; simp at hjk
      · exact h0
    have hpad : dim (padT (maxRank fun i => den (blk i)) (den (blk i))).sh k = dim (den (blk i)).sh k := by
      rw [padT, ofFn_sh, dim_padS]
    have hpl : (padT (maxRank fun i => den (blk i)) (den (blk i))).rank = maxRank fun i => den (blk i) := by
      rw [Tensor.rank, padT, ofFn_sh, length_padS _ _ (le_maxRank (fun i => den (blk i)) i)]
    rw [he, tileAx_get _ _ _ (by rw [hbr]; exact hkl) _ (by rw [hbk]; exact hjk), tileOf,
      tileAx_get _ _ _ (by rw [hpl]; exact hkl) _ (by rw [hpad]; exact hjk), padT_get, hbk, hpad]
    have hin : InRange (bbT T (den (blk i))).sh (Function.update j k (j k % dim (den (blk i)).sh k)) := by
      intro p
      rw [hbd, Function.update_apply]
      split_ifs with hpk
      · exact Nat.mod_lt _ hpos
      · exact hj p hpk
    refine bcast_get hin (Fits.refl _) ?_
    intro p
    have := hbd p
    simp only [bbT, bcast_sh] at this
    rw [this]
    split_ifs with hpk
    · right; rw [hpk]
    · exact hbase i p hpk
  -- the concatenation
  obtain ⟨m, rfl⟩ := Nat.exists_eq_succ_of_ne_zero hn
  have hcd : concatDim k (List.ofFn parts) = concatDim k (List.ofFn (tileOf (fun i => den (blk i)) reps k)) := by
    rw [concatDim_tileOf _ _ hkl, concatDim]
    congr 1
    rw [List.map_ofFn]
    congr 1
    funext i
    simp only [Function.comp]
    rw [(hpk i).2.2.1, if_pos rfl]
  rw [List.ofFn_succ] at hcat
  simp only [nConcat, bind_ok_iff, pure_eq_ok] at hcat
  obtain ⟨k2, hk2, u, _, rfl⟩ := hcat
  have hkk : k2 = k := by
    have h1 := (hpk 0).1
    unfold axPos at hk2
    split_ifs at hk2 <;> simp at hk2 <;> omega
  subst hkk
  rw [← List.ofFn_succ, hden, tiledT_eq, concatAx]
  have hsh : (((List.ofFn parts).head?.map (·.sh)).getD []).set k2 (concatDim k2 (List.ofFn parts)) =
      (tiledBase (fun i => den (blk i)) reps k2).set k2 (concatDim k2 (List.ofFn (tileOf (fun i => den (blk i)) reps k2))) := by
    rw [List.ofFn_succ]
    simp only [List.head?_cons, Option.map_some, Option.getD_some]
    rw [← List.ofFn_succ, hcd]
    apply shp_ext
    · rw [List.length_set, List.length_set, hbl]; exact (hpk 0).2.1
    · intro p
      rw [dim_set _ _ _ _ (hpk 0).1, dim_set _ _ _ _ (by rw [hbl]; exact hkl)]
      split_ifs with hpk2
      · rfl
      · rw [(hpk 0).2.2.1, if_neg hpk2]
  refine Tensor.ext_inRange hsh ?_
  intro j hj
  rw [ofFn_sh] at hj
  rw [ofFn_get _ hj]
  rw [hsh] at hj
  have h3 := ofFn_get (concatGet k2 (List.ofFn (tileOf (fun i => den (blk i)) reps k2))) hj
  refine Eq.trans ?_ h3.symm
  refine concatGet_congr k2 (fun j => ∀ p, p ≠ k2 → j p < dim (tiledBase (fun i => den (blk i)) reps k2) p) ?_ _ _ ?_ j ?_
  · intro i x hi p hp
    rw [Function.update_apply, if_neg hp]; exact hi p hp
  · rw [List.forall₂_iff_get]
    refine ⟨by simp, ?_⟩
    intro q hq1 hq2
    simp only [List.get_eq_getElem, List.getElem_ofFn]
    refine ⟨?_, ?_⟩
    · rw [(hpk _).2.2.1, if_pos rfl, dim_tileOf _ _ hkl, if_pos rfl]
    · intro i hi hik
      rw [(hpk _).2.2.1, if_pos rfl] at hik
      exact (hpk _).2.2.2 i hi hik
  · intro p hp
    have := hj p
    rw [dim_set _ _ _ _ (by rw [hbl]; exact hkl), if_neg hp] at this
    exact this

theorem WF.lrPart {S : Shp} {d : Tensor K} {l r m : Mat K} (h : Mat.WF S (.wb d l r m)) : Mat.WF S (.lr l r m) :=
  ⟨h.2.1, h.2.2.1, h.2.2.2.1⟩
theorem WF.diagPart {S : Shp} {d : Tensor K} {l r m : Mat K} (h : Mat.WF S (.wb d l r m)) : Mat.WF S (.diag d : Mat K) := h.1

theorem alignBatch2_ok {S : Shp} {a b a' b' : Mat K} (ha : a.WF S) (hb : b.WF S) (h : alignBatch2 a b = .ok (a', b')) :
    ∃ T, T = bsh (den a).bt (den b).bt ∧ Good T (den a) ∧ Good T (den b) ∧ a'.WF T ∧ b'.WF T ∧ den a' = bbT T (den a) ∧ den b' = bbT T (den b) := by
  simp only [alignBatch2, shapeBatchBroadcast, ha.shapeBatch, hb.shapeBatch, bind_ok_iff, Except.ok.injEq, exists_eq_left', bsE_ok, pure_eq_ok,
    Prod.mk.injEq] at h
  obtain ⟨T, ⟨hc, rfl⟩, x, hx, y, hy, rfl, rfl⟩ := h
  obtain ⟨w1, r1, e1, _⟩ := broadcastBatchTo_ok ha hc.fits_left hx
  obtain ⟨w2, r2, e2, _⟩ := broadcastBatchTo_ok hb hc.fits_right hy
  exact ⟨_, rfl, ⟨r1, hc.fits_left⟩, ⟨r2, hc.fits_right⟩, w1, w2, e1, e2⟩

theorem denseConst_eq {t : Tensor K} {r c : ℕ} {u : Tensor K} (h : denseConst t r c = .ok u) : u = constM t r c := by
  simp only [denseConst, nMul_ok] at h
  obtain ⟨hc, rfl⟩ := h
  unfold expandIgn at *
  split_ifs at * with h0
  · have hs : t.sh = [] := List.length_eq_zero_iff.1 h0
    rw [h0]
    refine Tensor.ext_inRange (by simp [hs]) ?_
    intro i hi
    have hi' : InRange (c :: r :: []) i := by simpa [zipB_sh, hs] using hi
    rw [zipB_get _ hi' (by rw [hs]; exact Fits.nil _) (by simpa using Fits.refl _), fillT_get _ hi' (by simpa using Fits.refl _), mul_one]
    rw [constM, mkMat, hs, ofFn_get _ hi']
    apply t.get_congr
    intro k; simp [hs, clip]; split_ifs <;> simp_all
  · have hf : ∀ n, Fits (c :: r :: t.sh) (c :: r :: List.replicate n 1) := by
      intro n k
      rcases k with _ | _ | k
      · simp
      · simp
      · simp only [dim_cons_succ]
        left
        unfold dim
        rw [List.getD_eq_getElem?_getD, List.getElem?_replicate]
        split_ifs <;> rfl
    have hl : bsh t.sh (List.replicate t.rank 1) = t.sh := by
      refine bsh_of_fits ?_ (by simp)
      simpa using (hf t.rank).drop 2
    refine FRep.ext (S := t.sh) (r := r) (c := c) (by simp [hl]) rfl
      ((FRep.expandEnd2 (Fits.refl _) r c).zipB _ (FRep.fill (hf _))) (Rep.constM (Fits.refl _) r c).frep ?_
    intro β i j _ _ _
    simp

theorem stepDense_ok {B : Ops K} (hB : B.Ok) {S : Shp} {a : Mat K} {t : Tensor K} (ha : a.WF S) (h : stepDense B a = .ok t) : t = den a := by
  cases a with
  | num t => simp only [stepDense, Except.ok.injEq] at h; exact h.symm
  | zero bt r c => simp only [stepDense, Except.ok.injEq] at h; exact h.symm
  | dense t => simp only [stepDense, Except.ok.injEq] at h; exact h.symm
  | diag t => simp only [stepDense, Except.ok.injEq] at h; exact h.symm
  | lt t => simp only [stepDense, Except.ok.injEq] at h; exact h.symm
  | ut t => simp only [stepDense, Except.ok.injEq] at h; exact h.symm
  | const t r c => exact denseConst_eq h
  | lr l r m =>
    obtain ⟨⟨hl, hr, hm⟩, ⟨kl, kr, km⟩, _⟩ := ha
    simp only [stepDense, bind_ok_iff] at h
    obtain ⟨x, hx, h⟩ := h
    obtain ⟨w, _, _, e⟩ := matmul3_ok hB hl hm hr kl km kr hx
    rw [hB.dense w h, e]; rfl
  | wb d l r m =>
    simp only [stepDense, bind_ok_iff, nAdd_ok] at h
    obtain ⟨x, hx, y, hy, _, rfl⟩ := h
    rw [hB.dense (WF.diagPart ha) hx, hB.dense (WF.lrPart ha) hy]; rfl
  | kron l r =>
    obtain ⟨⟨hl, hr⟩, kl, kr⟩ := ha
    simp only [stepDense, bind_ok_iff, pure_eq_ok] at h
    obtain ⟨⟨l', r'⟩, hlr, x, hx, y, hy, rfl⟩ := h
    obtain ⟨T, hT, g1, g2, w1, w2, e1, e2⟩ := alignBatch2_ok hl hr hlr
    rw [hB.dense w1 hx, hB.dense w2 hy, e1, e2, ← bbT_kronT g1 g2]
    exact bcast_of_sh (by simp [den, hT])
  | tiled n blk reps axis => exact denseTiled_ok hB ha h

/-! ### `B.diag` -/

theorem DiagOk.bb {a r : Mat K} {S s : Shp} (h : a.WF S) (hs : Fits s (den a).bt) (hr : broadcastBatchTo s a = .ok r) (hd : a.DiagOk) : r.DiagOk := by
  induction a generalizing S r with
  | kron x y ihx ihy =>
    obtain ⟨⟨wx, wy⟩, kx, ky⟩ := h
    obtain ⟨d1, d2, d3⟩ := hd
    simp only [broadcastBatchTo, bind_ok_iff, pure_eq_ok] at hr
    obtain ⟨x', hx, y', hy, rfl⟩ := hr
    have f1 : Fits s (den x).bt := fits_of_bsh_left hs wx.fits wy.fits
    have f2 : Fits s (den y).bt := fits_of_bsh_right hs wx.fits wy.fits
    refine ⟨?_, ihx wx f1 hx d2, ihy wy f2 hy d3⟩
    obtain ⟨_, _, e, _⟩ := broadcastBatchTo_ok wy f2 hy
    rw [e]; exact d1
  | _ =>
    have hk := (broadcastBatchTo_ok h hs hr).2.2.2
    cases r <;> simp [Mat.kind] at hk <;> trivial

theorem vfill_rep {S : Shp} {t : Tensor K} {n : ℕ} {s : Shp} (hs : Fits t.sh s) (hl : s.length ≤ t.rank) (x : K) :
    zipB (· * ·) (expandIgn 1 t) (fillT (n :: s) x) = mkVec t.sh n fun β _ => t.get β * x := by
  have hb : bsh t.sh s = t.sh := bsh_of_fits hs hl
  refine Tensor.ext_vec (bt := t.sh) (n := n) ?_ rfl ?_
  · unfold expandIgn
    split_ifs with h0
    · have : t.sh = [] := List.length_eq_zero_iff.1 h0
      rw [zipB_sh, fillT_sh, this]
      rw [this] at hb
      simp at hb
      simp [hb]
    · simp [hb]
  · intro β i hβ hi
    have hfill : Fits (n :: t.sh) (fillT (n :: s) x).sh := by simp [hs]
    have hin : InRange (n :: t.sh) (icons i β) := by simp [hβ, hi]
    rw [vat_mkVec _ hβ (Fits.refl _) hi, clip_of_inRange hβ]
    unfold expandIgn
    split_ifs with h0
    · have hs0 : t.sh = [] := List.length_eq_zero_iff.1 h0
      rw [Tensor.vat, zipB_get _ hin (by rw [hs0]; exact Fits.nil _) hfill, fillT_get (s := n :: s) x hin hfill]
      congr 1
      apply t.get_congr
      intro k; simp [hs0, clip]; split_ifs <;> simp_all
    · rw [vat_zipB (S := t.sh) _ hβ hi (by simp [Fits.refl]) hfill, vat_expandEnd_one i hβ (Fits.refl _)]
      congr 1
      exact fillT_get x hin hfill

theorem vrep_const {S : Shp} {t : Tensor K} (hS : Fits S t.sh) (n : ℕ) (g : K → K) : VRep S n (mkVec t.sh n fun β _ => g (t.get β)) fun β _ => g (t.get β) := by
  refine ⟨by simp [Tensor.rank], rfl, hS, ?_⟩
  intro β i hβ hi
  rw [vat_mkVec _ hβ hS hi, t.get_clip]

theorem diagE_zipB {S : Shp} (op : K → K → K) {a b : Tensor K} (ga : Good S a) (gb : Good S b) (hr : a.rows = b.rows) (hc : a.cols = b.cols) :
    diagE (zipB op a b) = zipB op (diagE a) (diagE b) := by
  have ha := ga.fits; have hb := gb.fits
  have e : (diagE (zipB op a b)).sh.tail = bsh a.bt b.bt := by rw [diagE_sh, zipB_bt]; rfl
  have f1 : Fits (bsh a.bt b.bt) a.bt := by fitsIn S
  have f2 : Fits (bsh a.bt b.bt) b.bt := by fitsIn S
  rw [← e] at f1 f2
  have A := Rep.self ga.rank f1
  have B := Rep.self' gb.rank hr.symm hc.symm f2
  refine VRep.ext (VRep.diagE (A.zipB op B)) ((VRep.diagE A).zipB op (VRep.diagE B)) ?_ fun _ _ _ _ => rfl
  rw [e, zipB_sh]
  simp

theorem stepDiag_ok {B : Ops K} (hB : B.Ok) {S : Shp} {a : Mat K} {v : Tensor K} (ha : a.WF S) (h2 : 2 ≤ (den a).rank) (hd : a.DiagOk)
    (h : stepDiag B a = .ok v) : v = diagE (den a) := by
  cases a with
  | num t =>
    simp only [den] at h2
    simp only [stepDiag] at h
    rw [if_neg (by omega)] at h
    split_ifs at h
    simp only [Except.ok.injEq] at h; exact h.symm
  | zero bt r c =>
    simp only [stepDiag, Except.ok.injEq] at h
    subst h
    refine VRep.ext (VRep.fill (Fits.refl _) _ 0) (VRep.diagE (Rep.fill (Fits.refl _) r c 0)) rfl fun _ _ _ _ => rfl
  | dense t => simp only [stepDiag, Except.ok.injEq] at h; exact h.symm
  | lt t => simp only [stepDiag, Except.ok.injEq] at h; exact h.symm
  | ut t => simp only [stepDiag, Except.ok.injEq] at h; exact h.symm
  | diag t =>
    simp only [stepDiag, Except.ok.injEq] at h
    subst h
    have V := VRep.self ha.1 (Fits.refl t.sh.tail)
    have W := VRep.diagE (Rep.diagC V)
    rw [Nat.min_self] at W
    refine VRep.ext V W rfl fun _ _ _ _ => by simp
  | const t r c =>
    simp only [stepDiag, nMul_ok] at h
    obtain ⟨_, rfl⟩ := h
    rw [vfill_rep (S := t.sh) (Fits.refl _) le_rfl]
    refine VRep.ext (vrep_const (Fits.refl _) _ (· * 1)) (VRep.diagE (Rep.constM (Fits.refl _) r c)) rfl fun _ _ _ _ => by simp
  | lr l r m =>
    have hw := ha
    obtain ⟨⟨hl, hr, hm⟩, ⟨kl, kr, km⟩, c1, c2⟩ := ha
    simp only [stepDiag, diagLR, hw.shapeMatrix, bind_ok_iff, Except.ok.injEq, exists_eq_left', nMul_ok] at h
    obtain ⟨lm, hlm, x, hx, y, hy, p, ⟨_, rfl⟩, h⟩ := h
    have z := hB.matmul hl hm kl km hlm
    obtain rfl := hB.dense z.wf hx
    obtain rfl := hB.dense hr hy
    have ze : den lm = mm (den l) (den m) := z.eq
    rw [ze] at h
    have hlf := hl.fits; have hrf := hr.fits; have hmf := hm.fits
    simp only [nSum, bind_ok_iff, pure_eq_ok] at h
    obtain ⟨k, hk, rfl⟩ := h
    set L := den l
    set R := den r
    set M := den m
    have er : (den (.lr l r m)).rows = L.rows := rfl
    have ec : (den (.lr l r m)).cols = R.rows := rfl
    rw [er, ec] at hk ⊢
    have f1 : Fits (bsh (bsh L.bt M.bt) R.bt) L.bt := by fitsIn S
    have f2 : Fits (bsh (bsh L.bt M.bt) R.bt) M.bt := by fitsIn S
    have f3 : Fits (bsh (bsh L.bt M.bt) R.bt) R.bt := by fitsIn S
    have A := Rep.self kl f1
    have Mr := Rep.self' km c1.symm c2.symm f2
    have Rr := Rep.self kr f3
    have h1 := (A.mm Mr).headRows (min L.rows R.rows)
    have h2 := Rr.headRows (min L.rows R.rows)
    rw [show min (min L.rows R.rows) L.rows = min L.rows R.rows by omega] at h1
    rw [show min (min L.rows R.rows) R.rows = min L.rows R.rows by omega] at h2
    have hz := h1.zipB (· * ·) h2
    have hk0 : k = 0 := by
      have h3 := hz.rank
      unfold axPos at hk
      split_ifs at hk <;> simp at hk <;> omega
    subst hk0
    have hv := VRep.sumAx0 hz
    have hsh : (sumAx 0 (zipB (· * ·) (headRows (min L.rows R.rows) (mm L M)) (headRows (min L.rows R.rows) R))).sh.tail = bsh (bsh L.bt M.bt) R.bt := by
      rw [sumAx_sh, hz.sh, zipB_bt]
      rfl
    have hw2 := VRep.diagE ((A.mm Mr).mm Rr.tr)
    refine VRep.ext (by rw [hsh]; exact hv) (by rw [hsh]; exact hw2) (by rw [hsh]; rfl) ?_
    intro β i _ _; rfl
  | wb d l r m =>
    simp only [stepDiag, bind_ok_iff, nAdd_ok] at h
    obtain ⟨x, hx, y, hy, _, rfl⟩ := h
    rw [hB.diag (WF.diagPart ha) ((WF.diagPart ha).rank rfl) trivial hx, hB.diag (WF.lrPart ha) ((WF.lrPart ha).rank rfl) trivial hy]
    exact (diagE_zipB (· + ·) ((WF.diagPart ha).good ((WF.diagPart ha).rank rfl)) ((WF.lrPart ha).good ((WF.lrPart ha).rank rfl))
      ha.2.2.2.2.1.symm ha.2.2.2.2.2.symm).symm
  | kron l r =>
    obtain ⟨⟨hl, hr⟩, kl, kr⟩ := ha
    obtain ⟨d1, d2, d3⟩ := hd
    simp only [stepDiag, bind_ok_iff, pure_eq_ok] at h
    obtain ⟨⟨l', r'⟩, hlr, x, hx, y, hy, rfl⟩ := h
    have hlr2 := hlr
    simp only [alignBatch2, shapeBatchBroadcast, hl.shapeBatch, hr.shapeBatch, bind_ok_iff, Except.ok.injEq, exists_eq_left', bsE_ok, pure_eq_ok,
      Prod.mk.injEq] at hlr2
    obtain ⟨T', ⟨hc, rfl⟩, _, hx', _, hy', rfl, rfl⟩ := hlr2
    have dl := DiagOk.bb hl hc.fits_left hx' d2
    have dr := DiagOk.bb hr hc.fits_right hy' d3
    obtain ⟨T, hT, g1, g2, w1, w2, e1, e2⟩ := alignBatch2_ok hl hr hlr
    obtain rfl := hB.diag w1 (by rw [e1]; exact bbT_rank _ _) dl hx
    obtain rfl := hB.diag w2 (by rw [e2]; exact bbT_rank _ _) dr hy
    rw [e1, e2]
    have A := g1.rep
    have C := Rep.self' g2.rank rfl d1.symm g2.fits
    have V1 := VRep.diagE A.bbT
    have V2 := VRep.diagE C.bbT
    rw [Nat.min_self] at V2
    have W := VRep.diagE (A.kronT C)
    have hV := V1.kronV V2
    have hsh : (kronV (diagE (bbT T (den l))) (diagE (bbT T (den r)))).sh.tail = T := by
      simp [kronV, diagE_sh]
    have hn : min ((den l).rows * (den r).rows) ((den l).cols * (den r).rows) = min (den l).rows (den l).cols * (den r).rows := by
      exact (Nat.mul_min_mul_right _ _ _)
    rw [hn] at W
    refine VRep.ext (by rw [hsh]; exact hV) (by rw [hsh]; exact W) (by rw [hsh, hT]; rfl) ?_
    intro β i _ _; rfl
  | tiled n blk reps axis => simp [stepDiag] at h

/-! ### `B.sum` over rows or columns -/

theorem nSum_ok {t v : Tensor K} {k : ℕ} (h2 : 2 ≤ t.rank) (hk : k ≤ 1) (h : nSum t (some (-(k+1))) = .ok v) : v = sumAx k t := by
  simp only [nSum, bind_ok_iff, pure_eq_ok] at h
  obtain ⟨k', hk', rfl⟩ := h
  have : k' = k := by
    unfold axPos at hk'
    split_ifs at hk' <;> simp at hk' <;> omega
  rw [this]

theorem sumAx_good {S : Shp} {t : Tensor K} {k : ℕ} (hk : k ≤ 1) (g : Good S t) : GoodV S (sumAx k t) := by
  rcases Nat.le_one_iff_eq_zero_or_eq_one.1 hk with rfl | rfl
  · exact (VRep.sumAx0 g.rep).good
  · exact (VRep.sumAx1 g.rep).good

theorem sumAx_tail {t : Tensor K} {k : ℕ} (h2 : 2 ≤ t.rank) (hk : k ≤ 1) : (sumAx k t).sh.tail = t.bt := by
  rw [sumAx_sh]
  conv_lhs => rw [Tensor.sh_eq h2]
  rcases Nat.le_one_iff_eq_zero_or_eq_one.1 hk with rfl | rfl <;> rfl

/-- The sum over either matrix axis, uniformly. -/
theorem VRep.sumAx {S : Shp} {r c k : ℕ} {a : Tensor K} {f : Idx → ℕ → ℕ → K} (hk : k ≤ 1) (ha : Rep S r c a f) :
    VRep S (if k = 1 then c else r) (Verif.sumAx k a) fun β i => ∑ x ∈ Finset.range (if k = 1 then r else c), if k = 1 then f β x i else f β i x := by
  rcases Nat.le_one_iff_eq_zero_or_eq_one.1 hk with rfl | rfl
  · exact VRep.sumAx0 ha
  · exact VRep.sumAx1 ha

/-- Entries of a batch of matrices flattened to vectors. -/
theorem VRep.reshape {S : Shp} {R C : ℕ} {t : Tensor K} {f : Idx → ℕ → ℕ → K} (h : Rep S R C t f) :
    VRep S (R * C) (reshapeT (R * C :: t.bt) t) fun β i => f β (i / C) (i % C) := by
  refine ⟨by simp [reshapeT, ofFn, Tensor.rank], rfl, h.bt, ?_⟩
  intro β i hβ hi
  have hR := h.reshape (R' := 1) (C' := R * C) (by ring)
  have e := hR.at' β 0 i hβ (by omega) hi
  rw [Nat.zero_mul, Nat.zero_add] at e
  rw [← e]
  show (reshapeT (R * C :: t.bt) t).get (icons i β) = (reshapeT (R * C :: 1 :: t.bt) t).get (icons i (icons 0 β))
  unfold reshapeT
  rw [ofFn_get_fits (S := R * C :: S) _ (by simp [*]) (by simp [h.bt]), ofFn_get_fits (S := R * C :: 1 :: S) _ (by simp [*]) (by simp [h.bt]),
    clip_cons_of_lt hi, clip_cons_of_lt hi, clip_cons_of_lt (by omega : 0 < 1)]
  congr 2
  simp only [lin, icons_zero]
  show i + R * C * lin t.bt (clip t.bt β) = i + R * C * (0 + 1 * lin t.bt (clip t.bt β))
  ring

theorem sumAx_zipB {S : Shp} {k : ℕ} (hk : k ≤ 1) {a b : Tensor K} (ga : Good S a) (gb : Good S b) (hr : a.rows = b.rows) (hc : a.cols = b.cols) :
    sumAx k (zipB (· + ·) a b) = zipB (· + ·) (sumAx k a) (sumAx k b) := by
  have ha := ga.fits; have hb := gb.fits
  have e : (sumAx k (zipB (· + ·) a b)).sh.tail = bsh a.bt b.bt := by rw [sumAx_tail (ga.zipB _ gb).rank hk, zipB_bt]
  have f1 : Fits (bsh a.bt b.bt) a.bt := by fitsIn S
  have f2 : Fits (bsh a.bt b.bt) b.bt := by fitsIn S
  rw [← e] at f1 f2
  have A := Rep.self ga.rank f1
  have B := Rep.self' gb.rank hr.symm hc.symm f2
  have V := (VRep.sumAx hk A).zipB (· + ·) (VRep.sumAx hk B)
  refine VRep.ext (VRep.sumAx hk (A.zipB (· + ·) B)) V ?_ ?_
  · rw [e, zipB_sh, (VRep.sumAx hk A).sh, (VRep.sumAx hk B).sh, show ∀ (d : ℕ) (s t : Shp), bsh (d :: s) (d :: t) = d :: bsh s t from fun d s t => by simp, List.tail_cons, sumAx_tail ga.rank hk, sumAx_tail gb.rank hk]
  · intro β i _ _
    rw [← Finset.sum_add_distrib]
    refine Finset.sum_congr rfl fun x _ => ?_
    split_ifs <;> rfl

theorem sum_diag {n i : ℕ} (hi : i < n) (f : ℕ → K) : ∑ x ∈ Finset.range n, (if i = x then f i else 0) = f i := by
  rw [Finset.sum_eq_single i]
  · simp
  · intro x _ hx; rw [if_neg (Ne.symm hx)]
  · intro h; simp at h; omega

theorem sum_rowprod {S : Shp} {X Y : Tensor K} (gx : Good S X) (gy : Good S Y) (hc : X.cols = Y.cols) :
    sumAx 0 (zipB (· * ·) X (expandRow (sumAx 1 Y))) = sumAx 0 (mm X (tr Y)) := by
  have hx := gx.fits; have hy := gy.fits
  have f1 : Fits (bsh X.bt Y.bt) X.bt := by fitsIn S
  have f2 : Fits (bsh X.bt Y.bt) Y.bt := by fitsIn S
  have A := Rep.self gx.rank f1
  have C := Rep.self' gy.rank rfl hc.symm f2
  have gs : GoodV S (sumAx 1 Y) := sumAx_good le_rfl gy
  have Z := A.frep.zipB (· * ·) (FRep.expandRow (VRep.sumAx1 C) X.rows)
  have psh : (zipB (· * ·) X (expandRow (sumAx 1 Y))).sh = X.cols :: X.rows :: bsh X.bt Y.bt := by
    rw [zipB_sh, expandRow_sh, (VRep.sumAx1 C).len, sumAx_tail gy.rank le_rfl]
    conv_lhs => rw [Tensor.sh_eq gx.rank]
    simp
  have hr2 : 2 ≤ (zipB (· * ·) X (expandRow (sumAx 1 Y))).rank := by rw [Tensor.rank, psh]; simp
  have hbt : (zipB (· * ·) X (expandRow (sumAx 1 Y))).bt = bsh X.bt Y.bt := by rw [Tensor.bt, psh]; rfl
  have PR : Rep (bsh X.bt Y.bt) X.rows X.cols (zipB (· * ·) X (expandRow (sumAx 1 Y))) _ :=
    ⟨hr2, by rw [Tensor.rows, psh]; rfl, by rw [Tensor.cols, psh]; rfl, by rw [hbt]; exact Fits.refl _, Z.at'⟩
  have T := A.mm C.tr
  have ht := sumAx_tail hr2 (k := 0) (by omega)
  rw [hbt] at ht
  refine VRep.ext (by rw [ht]; exact VRep.sumAx0 PR) (by rw [ht]; exact VRep.sumAx0 T) (by rw [ht]; rfl) ?_
  intro β i _ _
  simp only [Finset.mul_sum]
  rw [Finset.sum_comm]

theorem sumAx_tr {t : Tensor K} (h2 : 2 ≤ t.rank) : sumAx 0 (tr t) = sumAx 1 t := by
  have A := Rep.self h2 (Fits.refl t.bt)
  have ht := sumAx_tail (t := tr t) (k := 0) (by simp [Tensor.rank]) (by omega)
  rw [tr_bt] at ht
  refine VRep.ext (by rw [ht]; exact VRep.sumAx0 A.tr) (by rw [ht]; exact VRep.sumAx1 A) (by rw [ht, sumAx_tail h2 le_rfl]) ?_
  intro β i _ _; rfl

theorem sumLR_ok {B : Ops K} (hB : B.Ok) {S : Shp} {k : ℕ} {l r m : Mat K} {v : Tensor K} (hk : k ≤ 1) (ha : Mat.WF S (.lr l r m))
    (h : sumLR B k l r m = .ok v) : v = sumAx k (den (.lr l r m)) := by
  have hw := ha
  obtain ⟨⟨hl, hr, hm⟩, ⟨kl, kr, km⟩, c1, c2⟩ := ha
  have gl := hl.good kl; have gr := hr.good kr; have gm := hm.good km
  unfold sumLR at h
  split_ifs at h with h1
  · subst h1
    simp only [bind_ok_iff] at h
    obtain ⟨sl, hsl, rm, hrm, p, hp, h⟩ := h
    obtain rfl := hB.sumM le_rfl hl kl hsl
    have z := hB.matmul hr hm kr km hrm
    have ze : den rm = mm (den r) (tr (den m)) := z.eq
    have gs : GoodV S (sumAx 1 (den l)) := sumAx_good le_rfl gl
    have hcols : (expandRow (sumAx 1 (den l))).cols = (den rm).cols := by
      rw [ze]; exact (VRep.sumAx1 gl.rep).len.trans c1
    have zp := hB.mul (a := .num (expandRow (sumAx 1 (den l)))) ⟨by simp [Tensor.rank, den], gs.fits⟩ z.wf
      (.of ⟨by simp [Mat.rigid], fun _ => ⟨Or.inl rfl, Or.inr hcols⟩⟩ rfl trivial) hp
    have pe : den p = zipB (· * ·) (mm (den r) (tr (den m))) (expandRow (sumAx 1 (den l))) := by
      rw [zp.eq, ze, zipB_comm _ mul_comm]; rfl
    have gp : Good S (den p) := by rw [pe]; exact (gr.mm gm.tr).zipB _ (Good.expandRow gs)
    rw [hB.sumM (by omega) zp.wf gp.rank h, pe, sum_rowprod (gr.mm gm.tr) gl (by rw [mm_cols, tr_cols, c1])]
    rw [← sumAx_tr (by simp [den, Tensor.rank]), den, tr_mm (gl.mm gm) gr.tr (by rw [mm_cols, tr_rows, c2]), tr_mm gl gm c1, tr_tr kr]
    rw [mm_assoc gr gm.tr gl.tr (by rw [tr_rows, c2]) (by rw [tr_cols, tr_rows, c1])]
  · obtain rfl : k = 0 := by omega
    simp only [bind_ok_iff] at h
    obtain ⟨lm, hlm, sr, hsr, p, hp, h⟩ := h
    obtain rfl := hB.sumM le_rfl hr kr hsr
    have z := hB.matmul hl hm kl km hlm
    have ze : den lm = mm (den l) (den m) := z.eq
    have gs : GoodV S (sumAx 1 (den r)) := sumAx_good le_rfl gr
    have hcols : (expandRow (sumAx 1 (den r))).cols = (den lm).cols := by
      rw [ze]; exact (VRep.sumAx1 gr.rep).len.trans c2
    have zp := hB.mul (b := .num (expandRow (sumAx 1 (den r)))) z.wf ⟨by simp [Tensor.rank, den], gs.fits⟩
      (MulSafe.symm (.of ⟨by simp [Mat.rigid], fun _ => ⟨Or.inl rfl, Or.inr hcols⟩⟩ rfl trivial)) hp
    have pe : den p = zipB (· * ·) (mm (den l) (den m)) (expandRow (sumAx 1 (den r))) := by
      rw [zp.eq, ze]; rfl
    have gp : Good S (den p) := by rw [pe]; exact (gl.mm gm).zipB _ (Good.expandRow gs)
    rw [hB.sumM (by omega) zp.wf gp.rank h, pe, sum_rowprod (gl.mm gm) gr (by rw [mm_cols, c2])]
    rfl

theorem stepSumM_ok {B : Ops K} (hB : B.Ok) {S : Shp} {k : ℕ} {a : Mat K} {v : Tensor K} (hk : k ≤ 1) (ha : a.WF S) (h2 : 2 ≤ (den a).rank)
    (h : stepSumM B k a = .ok v) : v = sumAx k (den a) := by
  cases a with
  | num t => exact nSum_ok h2 hk h
  | dense t => exact nSum_ok h2 hk h
  | lt t => exact nSum_ok h2 hk h
  | ut t => exact nSum_ok h2 hk h
  | zero bt r c =>
    simp only [stepSumM, Except.ok.injEq] at h
    subst h
    refine VRep.ext (VRep.fill (Fits.refl _) _ 0) (VRep.sumAx hk (Rep.fill (Fits.refl _) r c 0)) (sumAx_tail h2 hk).symm fun _ _ _ _ => by simp
  | diag t =>
    simp only [stepSumM, Except.ok.injEq] at h
    subst h
    have V := VRep.self ha.1 (Fits.refl t.sh.tail)
    have W := VRep.sumAx hk (Rep.diagC V)
    rw [ite_self] at W
    refine VRep.ext V W (sumAx_tail h2 hk).symm ?_
    intro β i _ hi
    refine (sum_diag hi (t.vat β)).symm.trans ?_
    refine Finset.sum_congr rfl fun x _ => ?_
    by_cases hx : i = x
    · subst hx; simp only [if_true, ite_self]
    · simp [hx, Ne.symm hx]
  | const t r c =>
    simp only [stepSumM, nMul_ok] at h
    obtain ⟨_, rfl⟩ := h
    have hf : Fits t.sh (List.replicate t.rank 1) := by
      intro q; left
      unfold dim
      rw [List.getD_eq_getElem?_getD, List.getElem?_replicate]
      split_ifs <;> rfl
    have e : ∀ x : K, tmap (fun y => y * x) (expandIgn 1 t) = expandIgn 1 (tmap (fun y => y * x) t) := by
      intro x
      unfold expandIgn
      split_ifs with h1 h2 h2
      · rfl
      · exact absurd h1 h2
      · exact absurd h2 h1
      · refine Tensor.ext_vec (bt := t.sh) (n := 1) rfl rfl ?_
        intro β i hβ hi
        rw [vat_tmap (S := t.sh) _ hβ hi (by simp [Fits.refl]), vat_expandEnd_one i hβ (Fits.refl _), vat_expandEnd_one (t := tmap (fun y => y * x) t) i hβ (Fits.refl _),
          tmap_get _ hβ (Fits.refl _)]
    rw [e, vfill_rep (S := t.sh) (t := tmap _ t) hf (by rw [List.length_replicate]; exact le_rfl)]
    refine VRep.ext (VRep.mkVec (Fits.refl _) _) (VRep.sumAx hk (Rep.constM (t := t) (Fits.refl _) r c)) (sumAx_tail h2 hk).symm ?_
    intro β i hβ hi
    have hβ' : InRange t.sh β := hβ
    rw [clip_of_inRange hβ, tmap_get _ hβ' (Fits.refl _)]
    simp [mul_comm]
  | lr l r m => exact sumLR_ok hB hk ha h
  | wb d l r m =>
    simp only [stepSumM, bind_ok_iff, nAdd_ok] at h
    obtain ⟨x, hx, y, hy, _, rfl⟩ := h
    rw [hB.sumM hk (WF.diagPart ha) ((WF.diagPart ha).rank rfl) hx, hB.sumM hk (WF.lrPart ha) ((WF.lrPart ha).rank rfl) hy]
    exact (sumAx_zipB hk ((WF.diagPart ha).good ((WF.diagPart ha).rank rfl)) ((WF.lrPart ha).good ((WF.lrPart ha).rank rfl))
      ha.2.2.2.2.1.symm ha.2.2.2.2.2.symm).symm
  | kron l r =>
    have hw := ha
    obtain ⟨⟨hl, hr⟩, kl, kr⟩ := ha
    simp only [stepSumM, sumKron, hw.shapeBatch, hw.shapeMatrix, bind_ok_iff, Except.ok.injEq, exists_eq_left', nMul_ok] at h
    obtain ⟨sl, hsl, sr, hsr, p, ⟨_, rfl⟩, h⟩ := h
    obtain rfl := hB.sumM hk hl kl hsl
    obtain rfl := hB.sumM hk hr kr hsr
    have hl' := hl.fits; have hr' := hr.fits
    have f1 : Fits (bsh (den l).bt (den r).bt) (den l).bt := by fitsIn S
    have f2 : Fits (bsh (den l).bt (den r).bt) (den r).bt := by fitsIn S
    have A := Rep.self kl f1
    have C := Rep.self kr f2
    have V1 := VRep.sumAx hk A
    have V2 := VRep.sumAx hk C
    have Z := (FRep.expandEnd1 V1 (if k = 1 then (den r).cols else (den r).rows)).zipB (· * ·)
      (FRep.expandRow V2 (if k = 1 then (den l).cols else (den l).rows))
    have W := VRep.sumAx hk (A.kronT C)
    have psh : (zipB (· * ·) (expandEnd 1 (sumAx k (den l))) (expandRow (sumAx k (den r)))).sh =
        (if k = 1 then (den r).cols else (den r).rows) :: (if k = 1 then (den l).cols else (den l).rows) :: bsh (den l).bt (den r).bt := by
      rw [zipB_sh, expandRow_sh, expandEnd_one_sh, V1.sh, V2.len, sumAx_tail kl hk, sumAx_tail kr hk]
      simp
    obtain ⟨PR⟩ : Nonempty (PLift (Rep (bsh (den l).bt (den r).bt) (if k = 1 then (den l).cols else (den l).rows)
        (if k = 1 then (den r).cols else (den r).rows) (zipB (· * ·) (expandEnd 1 (sumAx k (den l))) (expandRow (sumAx k (den r)))) _)) :=
      ⟨⟨by rw [Tensor.rank, psh]; simp, by rw [Tensor.rows, psh]; rfl, by rw [Tensor.cols, psh]; rfl, by
        show Fits _ (List.drop 2 _)
        rw [psh]; exact Fits.refl _, Z.at'⟩⟩
    have PR := PR.down
    have F := VRep.reshape PR
    have pbt : (zipB (· * ·) (expandEnd 1 (sumAx k (den l))) (expandRow (sumAx k (den r)))).bt = bsh (den l).bt (den r).bt := by
      rw [Tensor.bt, psh]; rfl
    rw [pbt] at F
    rw [nReshape_ok h]
    have en : (if k = 1 then (den (.kron l r)).cols else (den (.kron l r)).rows) =
        (if k = 1 then (den l).cols else (den l).rows) * (if k = 1 then (den r).cols else (den r).rows) := by
      split_ifs <;> rfl
    have en2 : (if k = 1 then (den l).cols * (den r).cols else (den l).rows * (den r).rows) =
        (if k = 1 then (den l).cols else (den l).rows) * (if k = 1 then (den r).cols else (den r).rows) := by
      split_ifs <;> rfl
    rw [en2] at W
    rw [en]
    refine VRep.ext F W (sumAx_tail h2 hk).symm ?_
    intro β i _ hi
    by_cases h1 : k = 1
    · subst h1
      simp only [if_true]
      rw [sum_kron _ _ (fun x => (den l).at' β x (i / (den r).cols)) (fun x => (den r).at' β x (i % (den r).cols))]
    · simp only [if_neg h1]
      rw [sum_kron _ _ (fun x => (den l).at' β (i / (den r).rows) x) (fun x => (den r).at' β (i % (den r).rows) x)]
  | tiled n blk reps axis => simp [stepSumM] at h

/-! ### The whole core -/

theorem bot_ok : (Ops.bot : Ops K).Ok := by
  constructor <;> intros <;> simp_all [Ops.bot]

/-- One unfolding of the core is right if the calls it makes are. -/
theorem step_ok {env : Env K} (he : env.Lawful) {B : Ops K} (hB : B.Ok) : (step env B).Ok where
  dense := stepDense_ok hB
  add := stepAdd_ok he hB
  mul := stepMul_ok hB
  matmul := stepMatmul_ok hB
  diag := stepDiag_ok hB
  sumM := stepSumM_ok hB

/-- The core is right at every recursion depth. -/
theorem ops_ok {env : Env K} (he : env.Lawful) (n : ℕ) : (ops env n).Ok := by
  induction n with
  | zero => exact bot_ok
  | succ n ih => exact step_ok he ih

end Verif
