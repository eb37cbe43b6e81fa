/-
Success (C45), part 3: one unfolding of `B.add` raises nothing.
-/
import Verif.Fine

set_option linter.unusedSectionVars false
set_option linter.unusedVariables false
set_option linter.unusedSimpArgs false

namespace Verif

variable {K : Type} [Field K] [LinearOrder K]

/-- The tests on the values raise nothing. -/
structure Env.Calm (env : Env K) : Prop where
  colEq : ∀ {a b : Tensor K} {i j}, Compat [a.rows] [b.rows] → Verif.Calm (env.colEq a b i j)
  isZero : ∀ t : Tensor K, Verif.Calm (env.isZero t)

theorem strictEnv_calm (isNumber : Tensor K → Bool) (tol : K) : (strictEnv isNumber tol).Calm where
  colEq := by
    intro a b i j hc
    have e : ∃ c, codeColEq tol a b i j = .ok c := ⟨_, if_pos hc⟩
    obtain ⟨c, e⟩ := e
    show Verif.Calm (codeColEq tol a b i j >>= _)
    refine Calm.step e (Calm.ite (fun _ e h he => ?_) fun _ => Calm.ok)
    cases h
    exact he.2 rfl
  isZero := by
    intro t
    show Verif.Calm (codeIsZero tol t >>= _)
    refine Calm.step rfl (Calm.ite (fun _ e h he => ?_) fun _ => Calm.ok)
    cases h
    exact he.2 rfl

theorem alignLoop_calm {eq : ℕ → ℕ → E Bool} (h : ∀ i j, Calm (eq i j)) (na nb : ℕ → K) (as bs : List ℕ) : Calm (alignLoop eq na nb as bs) := by
  induction as, bs using alignLoop.induct with
  | case1 i as j bs ih1 ih2 ih3 =>
    rw [alignLoop]
    refine Calm.bind (h i j) fun t _ => Calm.ite (fun _ => Calm.bind ih1 fun _ _ => Calm.pure) fun _ => Calm.ite
      (fun _ => Calm.bind ih2 fun _ _ => Calm.pure) fun _ => Calm.bind ih3 fun _ _ => Calm.pure
  | case2 bs => rw [alignLoop]; exact Calm.ok
  | case3 as hne =>
    cases as with
    | nil => exact absurd rfl hne
    | cons a as => rw [alignLoop]; exact Calm.ok; exact hne

theorem align_calm {env : Env K} (he : env.Calm) {S : Shp} (h0 : 0 ∉ S) {a b : Tensor K} (ga : Good S a) (gb : Good S b) (hr : a.rows = b.rows) :
    Calm (align env a b) := by
  unfold align
  refine Calm.step (guardE_of (ga.fits.pos h0)) (Calm.step (guardE_of (gb.fits.pos h0)) ?_)
  exact alignLoop_calm (fun i j => he.colEq (by rw [hr]; exact Compat.refl _)) _ _ _ _

section
variable {B : Ops K} {S : Shp} (hF : B.Fine S) (hB : B.Ok)
include hF hB

theorem padZeroCol_calm {a : Mat K} (ha : a.WF S) (fa : a.fit true) (h2 : 2 ≤ (den a).rank) : Calm (padZeroCol B a) := by
  unfold padZeroCol
  refine Calm.step ha.shape (Calm.bind (hF.dense ha fa) fun d hd => ?_)
  obtain rfl := hB.dense ha hd
  have e : axPos (den a).rank (-1) = .ok 0 := axPos_neg (k := 0) (by omega)
  refine Calm.bind ?_ fun _ _ => Calm.pure
  unfold nConcat
  refine Calm.step e (Calm.step (guardE_of ?_) Calm.pure)
  intro u hu
  simp only [List.mem_cons, List.not_mem_nil, or_false] at hu
  rcases hu with rfl | rfl
  · rfl
  · rw [Tensor.sh_eq h2]; simp

theorem padZeroRow_calm {a : Mat K} (ha : a.WF S) (fa : a.fit true) (h2 : 2 ≤ (den a).rank) : Calm (padZeroRow B a) := by
  unfold padZeroRow
  refine Calm.step ha.shape (Calm.bind (hF.dense ha fa) fun d hd => ?_)
  obtain rfl := hB.dense ha hd
  have e : axPos (den a).rank (-2) = .ok 1 := axPos_neg (k := 1) (by omega)
  refine Calm.bind ?_ fun _ _ => Calm.pure
  unfold nConcat
  refine Calm.step e (Calm.step (guardE_of ?_) Calm.pure)
  intro u hu
  simp only [List.mem_cons, List.not_mem_nil, or_false] at hu
  rcases hu with rfl | rfl
  · rfl
  · rw [Tensor.sh_eq h2]; simp

theorem takeCol_calm {a : Mat K} (ha : a.WF S) (fa : a.fit true) (h2 : 2 ≤ (den a).rank) {l : List (Option ℕ)} {c : ℕ}
    (hc : (den a).cols = c + 1) (hl : ∀ p, some p ∈ l → p < c) : Calm (takeGen B a (l.map enc) (-1)) := by
  unfold takeGen
  refine Calm.bind (hF.dense ha fa) fun d hd => ?_
  obtain rfl := hB.dense ha hd
  have e : axPos (den a).rank (-1) = .ok 0 := axPos_neg (k := 0) (by omega)
  refine Calm.bind ?_ fun _ _ => Calm.pure
  unfold nTake
  refine Calm.step e (Calm.step (v := l.map (·.getD c)) ?_ Calm.pure)
  rw [show dim (den a).sh 0 = c + 1 from hc]
  exact normIdxs_enc l hl

theorem takeRow_calm {a : Mat K} (ha : a.WF S) (fa : a.fit true) (h2 : 2 ≤ (den a).rank) {l : List (Option ℕ)} {c : ℕ}
    (hc : (den a).rows = c + 1) (hl : ∀ p, some p ∈ l → p < c) : Calm (takeGen B a (l.map enc) (-2)) := by
  unfold takeGen
  refine Calm.bind (hF.dense ha fa) fun d hd => ?_
  obtain rfl := hB.dense ha hd
  have e : axPos (den a).rank (-2) = .ok 1 := axPos_neg (k := 1) (by omega)
  refine Calm.bind ?_ fun _ _ => Calm.pure
  unfold nTake
  refine Calm.step e (Calm.step (v := l.map (·.getD c)) ?_ Calm.pure)
  rw [show dim (den a).sh 1 = c + 1 from hc]
  exact normIdxs_enc l hl

theorem padZeroCol_fit {κ : Bool} {a p : Mat K} (h : padZeroCol B a = .ok p) : p.fit κ := by
  simp only [padZeroCol, bind_ok_iff, pure_eq_ok] at h
  obtain ⟨_, _, _, _, _, _, rfl⟩ := h
  exact fit_wrapLike _ _ _
theorem padZeroRow_fit {κ : Bool} {a p : Mat K} (h : padZeroRow B a = .ok p) : p.fit κ := by
  simp only [padZeroRow, bind_ok_iff, pure_eq_ok] at h
  obtain ⟨_, _, _, _, _, _, rfl⟩ := h
  exact fit_wrapLike _ _ _
theorem takeGen_fit {κ : Bool} {a p : Mat K} {idx : List Int} {ax : Int} (h : takeGen B a idx ax = .ok p) : p.fit κ := by
  simp only [takeGen, bind_ok_iff, pure_eq_ok] at h
  obtain ⟨_, _, _, _, rfl⟩ := h
  exact fit_wrapLike _ _ _

/-- Padding a factor and taking columns of it. -/
theorem padTakeCol_calm {β : Type} {a : Mat K} (ha : a.WF S) (fa : a.fit true) (h2 : 2 ≤ (den a).rank) {l : List (Option ℕ)} {f : Mat K → E β}
    (hl : ∀ p, some p ∈ l → p < (den a).cols) (hf : ∀ q, Mat.WF S q → q.fit true → den q = ptCol l (den a) → Calm (f q)) :
    Calm (padZeroCol B a >>= fun p => takeGen B p (l.map enc) (-1) >>= f) := by
  refine Calm.bind (padZeroCol_calm hF hB ha fa h2) fun p hp => ?_
  obtain ⟨wp, ep, _⟩ := padZeroCol_ok hB ha h2 hp
  have R := (ha.good h2).rep.padCol
  rw [← ep] at R
  refine Calm.bind (takeCol_calm hF hB wp (padZeroCol_fit hF hB hp) R.rank R.cols hl) fun q hq => ?_
  obtain ⟨w, e, _⟩ := padTakeCol_ok hB ha h2 hl hp hq
  exact hf q w (takeGen_fit hF hB hq) e

theorem padTakeMid_calm {β : Type} {a : Mat K} (ha : a.WF S) (fa : a.fit true) (h2 : 2 ≤ (den a).rank) {l l' : List (Option ℕ)} {f : Mat K → E β}
    (hl : ∀ p, some p ∈ l → p < (den a).rows) (hl' : ∀ p, some p ∈ l' → p < (den a).cols)
    (hf : ∀ q, Mat.WF S q → q.fit true → den q = ptMid l l' (den a) → Calm (f q)) :
    Calm (padZeroRow B a >>= fun p => padZeroCol B p >>= fun p' => takeGen B p' (l.map enc) (-2) >>= fun q => takeGen B q (l'.map enc) (-1) >>= f) := by
  refine Calm.bind (padZeroRow_calm hF hB ha fa h2) fun p hp => ?_
  obtain ⟨wp, ep, _⟩ := padZeroRow_ok hB ha h2 hp
  have R := (ha.good h2).rep.padRow
  rw [← ep] at R
  refine Calm.bind (padZeroCol_calm hF hB wp (padZeroRow_fit hF hB hp) R.rank) fun p' hp' => ?_
  obtain ⟨wp', ep', _⟩ := padZeroCol_ok hB wp R.rank hp'
  have R' := R.padCol
  rw [← R.rows, ← ep'] at R'
  refine Calm.bind (takeRow_calm hF hB wp' (padZeroCol_fit hF hB hp') R'.rank (R'.rows.trans R.rows) hl) fun q hq => ?_
  obtain ⟨wq, eq, _⟩ := takeRow_ok hB wp' R'.rank (R'.rows.trans R.rows) hl hq
  have R'' := R'.takeRow (l.map (·.getD (den a).rows)) (by rw [R.rows]; exact getD_lt hl)
  rw [← eq] at R''
  refine Calm.bind (takeCol_calm hF hB wq (takeGen_fit hF hB hq) R''.rank R''.cols hl') fun q' hq' => ?_
  obtain ⟨w, e, _⟩ := padTakeMid_ok hB ha h2 hl hl' hp hp' hq hq'
  exact hf q' w (takeGen_fit hF hB hq') e

theorem addLRLR_calm {env : Env K} (he : env.Lawful) (hc : env.Calm) (hK : B.Keeps) (h0 : 0 ∉ S) {al ar am bl br bm : Mat K}
    (ha : Mat.WF S (.lr al ar am)) (hb : Mat.WF S (.lr bl br bm)) (fa : (Mat.lr al ar am).fit true) (fb : (Mat.lr bl br bm).fit true)
    (ns : NoStretch (.lr al ar am) (.lr bl br bm)) (hcomp : Compat (den (.lr al ar am)).sh (den (.lr bl br bm)).sh) :
    Calm (addLRLR env B al ar am bl br bm) := by
  have hr1 : (den al).rows = (den bl).rows := by
    have h1 : (den bl).rows = 1 ∨ (den bl).rows = (den al).rows := (ns.1 rfl).1
    have h2 : (den al).rows = 1 ∨ (den al).rows = (den bl).rows := (ns.2 rfl).1
    omega
  have hr2 : (den ar).rows = (den br).rows := by
    have h1 : (den br).rows = 1 ∨ (den br).rows = (den ar).rows := (ns.1 rfl).2
    have h2 : (den ar).rows = 1 ∨ (den ar).rows = (den br).rows := (ns.2 rfl).2
    omega
  have hsa := ha.shape
  have hsb := hb.shape
  obtain ⟨⟨wal, war, wam⟩, ⟨kal, kar, kam⟩, ca1, ca2⟩ := ha
  obtain ⟨⟨wbl, wbr, wbm⟩, ⟨kbl, kbr, kbm⟩, cb1, cb2⟩ := hb
  obtain ⟨fal, far, fam⟩ := fa
  obtain ⟨fbl, fbr, fbm⟩ := fb
  have gal := wal.good kal; have gar := war.good kar; have gam := wam.good kam
  have gbl := wbl.good kbl; have gbr := wbr.good kbr; have gbm := wbm.good kbm
  unfold addLRLR
  refine Calm.step hsa (Calm.step hsb (Calm.step (assertCompatible_of hcomp) ?_))
  refine Calm.bind (hF.dense wal fal.up) fun d1 e1 => Calm.bind (hF.dense wbl fbl.up) fun d2 e2 => ?_
  obtain rfl := hB.dense wal e1
  obtain rfl := hB.dense wbl e2
  refine Calm.bind (align_calm hc h0 gal gbl hr1) fun L hL => ?_
  refine Calm.bind (hF.dense war far.up) fun d3 e3 => Calm.bind (hF.dense wbr fbr.up) fun d4 e4 => ?_
  obtain rfl := hB.dense war e3
  obtain rfl := hB.dense wbr e4
  refine Calm.bind (align_calm hc h0 gar gbr hr2) fun R hR => ?_
  obtain ⟨L, rfl, sL⟩ := align_slots he hL
  obtain ⟨R, rfl, sR⟩ := align_slots he hR
  simp only [show ∀ (M : List Slot) (f : Slot → Option ℕ), M.map (fun s => enc (f s)) = (M.map f).map enc from
    fun M f => by simp] at *
  have RaL := (Rep.self (S := S) kal gal.fits).ptCol (slotL_lt sL)
  have RbL := (Rep.self' (S := S) kbl hr1.symm rfl gbl.fits).ptCol (slotJ_lt sL)
  have RaR := (Rep.self (S := S) kar gar.fits).ptCol (slotL_lt sR)
  have RbR := (Rep.self' (S := S) kbr hr2.symm rfl gbr.fits).ptCol (slotJ_lt sR)
  have RaM := (Rep.self' (S := S) kam ca1.symm ca2.symm gam.fits).ptMid (slotL_lt sL) (slotL_lt sR)
  have RbM := (Rep.self' (S := S) kbm cb1.symm cb2.symm gbm.fits).ptMid (slotR_lt sL) (slotR_lt sR)
  simp only [List.length_map] at RaL RbL RaR RbR RaM RbM
  refine padTakeCol_calm hF hB wal fal.up kal (slotL_lt sL) fun aL waL faL daL => ?_
  refine padTakeCol_calm hF hB wbl fbl.up kbl (slotJ_lt sL) fun bL wbL fbL dbL => ?_
  have nL : (den aL).rows = (den bL).rows ∧ (den aL).cols = (den bL).cols := by rw [daL, dbL, RaL.rows, RbL.rows, RaL.cols, RbL.cols]; exact ⟨rfl, rfl⟩
  have cL := compat_of_mfits (waL.good (by rw [daL]; exact RaL.rank)) (wbL.good (by rw [dbL]; exact RbL.rank)) (mfits_refl nL.1 nL.2)
  refine Calm.bind (hF.add waL wbL faL fbL (noStretch_of_eq nL.1 nL.2) cL) fun jL hjL => ?_
  have zL := hB.add waL wbL (noStretch_of_eq nL.1 nL.2) hjL
  refine padTakeCol_calm hF hB war far.up kar (slotL_lt sR) fun aR waR faR daR => ?_
  refine padTakeCol_calm hF hB wbr fbr.up kbr (slotJ_lt sR) fun bR wbR fbR dbR => ?_
  have nR : (den aR).rows = (den bR).rows ∧ (den aR).cols = (den bR).cols := by rw [daR, dbR, RaR.rows, RbR.rows, RaR.cols, RbR.cols]; exact ⟨rfl, rfl⟩
  have cR := compat_of_mfits (waR.good (by rw [daR]; exact RaR.rank)) (wbR.good (by rw [dbR]; exact RbR.rank)) (mfits_refl nR.1 nR.2)
  refine Calm.bind (hF.add waR wbR faR fbR (noStretch_of_eq nR.1 nR.2) cR) fun jR hjR => ?_
  have zR := hB.add waR wbR (noStretch_of_eq nR.1 nR.2) hjR
  refine padTakeMid_calm hF hB wam fam.up kam (by rw [← ca1]; exact slotL_lt sL) (by rw [← ca2]; exact slotL_lt sR) fun aM waM faM daM => ?_
  refine padTakeMid_calm hF hB wbm fbm.up kbm (by rw [← cb1]; exact slotR_lt sL) (by rw [← cb2]; exact slotR_lt sR) fun bM wbM fbM dbM => ?_
  have nM : (den aM).rows = (den bM).rows ∧ (den aM).cols = (den bM).cols := by rw [daM, dbM, RaM.rows, RbM.rows, RaM.cols, RbM.cols]; exact ⟨rfl, rfl⟩
  have cM := compat_of_mfits (waM.good (by rw [daM]; exact RaM.rank)) (wbM.good (by rw [dbM]; exact RbM.rank)) (mfits_refl nM.1 nM.2)
  refine Calm.bind (hF.add waM wbM faM fbM (noStretch_of_eq nM.1 nM.2) cM) fun jM hjM => ?_
  have zM := hB.add waM wbM (noStretch_of_eq nM.1 nM.2) hjM
  have dL := zL.eq; have dR := zR.eq; have dM := zM.eq
  rw [daL, dbL] at dL
  rw [daR, dbR] at dR
  rw [daM, dbM] at dM
  have ZL := RaL.zipB (· + ·) RbL
  have ZR := RaR.zipB (· + ·) RbR
  have ZM := RaM.zipB (· + ·) RbM
  rw [← dL] at ZL
  rw [← dR] at ZR
  rw [← dM] at ZM
  have elr := mkLR_ok zL.wf zR.wf zM.wf ⟨ZL.rank, ZR.rank, ZM.rank⟩ (by rw [ZL.cols, ZM.rows]) (by rw [ZR.cols, ZM.cols])
  refine Calm.step elr ?_
  have wlr := (mkLR_inv zL.wf zR.wf zM.wf elr).2
  refine Calm.bind (hF.dense zM.wf (hK.add faM fbM _ hjM)) fun d hd => Calm.bind (hc.isZero d) fun z hz => Calm.ite (fun _ => ?_) fun _ => Calm.pure
  refine Calm.step wlr.shape ?_
  rw [Tensor.sh_eq (wlr.rank rfl)]
  exact Calm.ok

theorem addRun_calm {env : Env K} (he : env.Lawful) (hc : env.Calm) (hK : B.Keeps) (h0 : 0 ∉ S) {a b : Mat K} {ka kb : Kind}
    (ea : a.kind = some ka) (eb : b.kind = some kb)
    (ha : a.WF S) (hb : b.WF S) (fa : a.fit true) (fb : b.fit true) (ns : NoStretch a b) (cm : Compat (den a).sh (den b).sh) :
    Calm (addRun env B (addId ka kb) a b) := by
  have aa : a.isAM = true := by cases a <;> simp_all [Mat.kind, Mat.isAM]
  have ab : b.isAM = true := by cases b <;> simp_all [Mat.kind, Mat.isAM]
  have ka2 := ha.rank aa
  have kb2 := hb.rank ab
  have ga := ha.good ka2
  have gb := hb.good kb2
  generalize hm : addId ka kb = m
  unfold addRun
  split
  · -- amZero
    refine Calm.step ha.shape (Calm.step hb.shape (Calm.step (assertCompatible_of cm) ?_))
    split
    · exact Calm.step (shapeBroadcast_of ha hb cm) (broadcastTo_calm hF hB ha hb fa aa kb2 cm)
    · rename_i hne
      exfalso
      cases b <;> simp only [Mat.kind, Option.some.injEq, reduceCtorEq] at eb <;> subst eb <;> cases ka <;> simp_all [addId]
  · -- zeroAm
    refine Calm.step ha.shape (Calm.step hb.shape (Calm.step (assertCompatible_of cm) ?_))
    split
    · refine Calm.step (shapeBroadcast_of ha hb cm) ?_
      rw [bsh_comm]
      exact broadcastTo_calm hF hB hb ha fb ab ka2 cm.symm
    · rename_i hne
      exfalso
      cases a <;> simp only [Mat.kind, Option.some.injEq, reduceCtorEq] at ea <;> subst ea <;> cases kb <;> simp_all [addId]
  · -- amAm
    refine Calm.bind (hF.dense ha fa) fun _ h1 => Calm.bind (hF.dense hb fb) fun _ h2 => ?_
    obtain rfl := hB.dense ha h1
    obtain rfl := hB.dense hb h2
    exact Calm.step (nAdd_of cm) Calm.pure
  · exact Calm.step (nAdd_of cm) Calm.pure
  · -- diagDiag
    rename_i s t
    have he : s.cols = t.cols := (mfits_eq (ns.1 rfl) (ns.2 rfl)).1
    refine Calm.step (nAdd_of ?_) (Calm.of (mkDiag_of ?_))
    · exact (VRep.self ha.1 ha.2).fits.compat (he ▸ (VRep.self hb.1 hb.2).fits)
    · exact ((ha.goodV).zipB (· + ·) hb.goodV).rank
  · -- constConst
    refine Calm.step (assertCompatible_of cm) (Calm.step (nAdd_of ?_) (Calm.step (bsE_of cm) (mkConst_of ?_)))
    · exact Fits.compat (S := S) ha hb
    · rw [zipB_sh]; exact Compat.refl _
  · -- constAm
    rename_i s r c
    refine Calm.bind (hF.dense hb fb) fun _ h1 => ?_
    obtain rfl := hB.dense hb h1
    have hcc : Compat (expandIgn 2 s).sh (den b).sh := by
      intro k
      rw [expandIgn2_dim]
      have h3 : Compat (1 :: 1 :: s.sh) (den b).sh := by
        rw [gb.sh, compat_cons, compat_cons]
        exact ⟨Or.inl rfl, Or.inl rfl, Fits.compat (S := S) ha gb.fits⟩
      exact h3 k
    refine Calm.step (nAdd_of hcc) (Calm.step (shapeBroadcast_of ha hb cm) (Calm.step (nBroadcastTo_of' ?_ ?_) Calm.pure))
    · rw [zipB_sh]
      refine Fits.bsh ?_ cm.fits_right
      have h4 := cm.fits_left
      intro k
      rw [expandIgn2_dim]
      have h5 := h4 k
      rcases k with _ | _ | k
      · exact Or.inl rfl
      · exact Or.inl rfl
      · exact h5
    · have h1 := (expandIgn2_rank s).2
      simp only [Tensor.rank, zipB_sh, length_bsh] at h1 ⊢
      simp only [den, constM_sh, List.length_cons]
      omega
  · -- constDiag
    rename_i s r' c' t
    refine Calm.step ha.shape (Calm.step hb.shape (Calm.step (assertCompatible_of cm) ?_))
    have hmb : shapeMatrixBroadcast (.const s r' c') (.diag t) = .ok (t.cols, t.cols) := by
      have hm := ns.2 rfl
      have hm1 : r' = 1 ∨ r' = t.cols := hm.1
      have hm2 : c' = 1 ∨ c' = t.cols := hm.2
      simp only [shapeMatrixBroadcast, ha.shapeMatrix, hb.shapeMatrix, bind_ok_iff, Except.ok.injEq, exists_eq_left', bsE_ok, pure_eq_ok]
      refine ⟨_, ⟨compat_mat ga gb cm, rfl⟩, ?_⟩
      have e1 : bd (den (.const s r' c')).rows (den (.diag t)).rows = t.cols := by
        show bd r' t.cols = t.cols
        rcases hm1 with h | h <;> simp [h]
      have e2 : bd (den (.const s r' c')).cols (den (.diag t)).cols = t.cols := by
        show bd c' t.cols = t.cols
        rcases hm2 with h | h <;> simp [h]
      simp [e1, e2]
    refine Calm.step hmb (Calm.bind (constToLR_calm (S := S) ha _ _) fun lr hlr => ?_)
    obtain ⟨w, e, _⟩ := constToLR_ok (S := S) ha hlr
    have n1 : (den lr).rows = (den (.diag t)).rows := by rw [e]; rfl
    have n2 : (den lr).cols = (den (.diag t)).cols := by rw [e]; rfl
    refine hF.add w hb ((fitp_constToLR true _ _ _) _ hlr) fb (noStretch_of_eq n1 n2) ?_
    exact compat_of_mfits (w.good (by rw [e]; simp [Tensor.rank])) gb (mfits_refl n1 n2)
  · exact hF.add hb ha fb fa ns.symm cm.symm
  · exact Calm.step (nAdd_of cm) (Calm.of (mkLT_of (ga.zipB (· + ·) gb).rank))
  · -- ltDiag
    refine Calm.bind (hF.dense hb fb) fun _ h1 => ?_
    obtain rfl := hB.dense hb h1
    exact Calm.step (nAdd_of cm) (Calm.of (mkLT_of (ga.zipB (· + ·) gb).rank))
  · exact Calm.step (nAdd_of cm) (Calm.of (mkUT_of (ga.zipB (· + ·) gb).rank))
  · exact Calm.step (nAdd_of cm) Calm.pure
  · -- utDiag
    refine Calm.bind (hF.dense hb fb) fun _ h1 => ?_
    obtain rfl := hB.dense hb h1
    exact Calm.step (nAdd_of cm) (Calm.of (mkUT_of (ga.zipB (· + ·) gb).rank))
  · exact addLRLR_calm hF hB he hc hK h0 ha hb fa fb ns cm
  · -- lrConst
    rename_i l r' m' t i j
    have hmb : shapeMatrixBroadcast (.lr l r' m') (.const t i j) = .ok ((den (.lr l r' m')).rows, (den (.lr l r' m')).cols) := by
      have hm := ns.1 rfl
      have hm1 : i = 1 ∨ i = (den (.lr l r' m')).rows := hm.1
      have hm2 : j = 1 ∨ j = (den (.lr l r' m')).cols := hm.2
      simp only [shapeMatrixBroadcast, ha.shapeMatrix, hb.shapeMatrix, bind_ok_iff, Except.ok.injEq, exists_eq_left', bsE_ok, pure_eq_ok]
      refine ⟨_, ⟨compat_mat ga gb cm, rfl⟩, ?_⟩
      have e1 : bd (den (.lr l r' m')).rows (den (.const t i j)).rows = (den (.lr l r' m')).rows := by
        show bd _ i = _
        rcases hm1 with h | h <;> simp [h]
      have e2 : bd (den (.lr l r' m')).cols (den (.const t i j)).cols = (den (.lr l r' m')).cols := by
        show bd _ j = _
        rcases hm2 with h | h <;> simp [h]
      simp [e1, e2]
    refine Calm.step hmb (Calm.bind (constToLR_calm (S := S) hb _ _) fun lr hlr => ?_)
    obtain ⟨w, e, _⟩ := constToLR_ok (S := S) hb hlr
    have n1 : (den (.lr l r' m')).rows = (den lr).rows := by rw [e]; rfl
    have n2 : (den (.lr l r' m')).cols = (den lr).cols := by rw [e]; rfl
    refine hF.add ha w fa ((fitp_constToLR true _ _ _) _ hlr) (noStretch_of_eq n1 n2) ?_
    exact compat_of_mfits ga (w.good (by rw [e]; simp [Tensor.rank])) (mfits_refl n1 n2)
  · exact Calm.of (mkWB_ok (diagLr_ok hb ha ns.symm).wf)
  · exact Calm.of (mkWB_ok (diagLr_ok ha hb ns).wf)
  · -- wbWb
    rename_i d l r' m' d' l' r'' m''
    have n1 := noStretch_wb ha ns
    have n2 := noStretch_wb hb n1.1.symm
    have n3 := noStretch_wb hb n1.2.symm
    have hq : d.cols = d'.cols := (mfits_eq (n2.1.1 rfl) (n2.1.2 rfl)).1.symm
    have gd := ha.wbDiag.good (ha.wbDiag.rank rfl)
    have gd' := hb.wbDiag.good (hb.wbDiag.rank rfl)
    have gl := ha.wbLr.good (ha.wbLr.rank rfl)
    have gl' := hb.wbLr.good (hb.wbLr.rank rfl)
    refine Calm.bind (hF.add ha.wbDiag hb.wbDiag trivial trivial n2.1.symm (compat_of_mfits gd gd' (n2.1.2 rfl))) fun x hx => ?_
    refine Calm.bind (hF.add ha.wbLr hb.wbLr fa.lr fb.lr n3.2.symm (compat_of_mfits gl gl' (n3.2.2 rfl))) fun y hy => ?_
    have zx := hB.add ha.wbDiag hb.wbDiag n2.1.symm hx
    have zy := hB.add ha.wbLr hb.wbLr n3.2.symm hy
    have rx : (den x).rows = d.cols ∧ (den x).cols = d.cols := by
      rw [zx.eq]; simp only [zipB_rows, zipB_cols, den, diagC_rows, diagC_cols, hq, bd_self, and_self]
    have ry : (den y).rows = d.cols ∧ (den y).cols = d.cols := by
      rw [zy.eq]
      simp only [zipB_rows, zipB_cols, lr_rows, lr_cols, ha.2.2.2.2.1, ha.2.2.2.2.2, hb.2.2.2.2.1, hb.2.2.2.2.2, hq, bd_self, and_self]
    have m1 : (den x).rows = (den y).rows := by rw [rx.1, ry.1]
    have m2 : (den x).cols = (den y).cols := by rw [rx.2, ry.2]
    refine hF.add zx.wf zy.wf ((hK.add (fit_diag true _) (fit_diag true _)) _ hx) ((hK.add fa.lr fb.lr) _ hy) (noStretch_of_eq m1 m2) ?_
    exact compat_of_mfits (zx.wf.good (by rw [zx.eq]; exact (gd.zipB _ gd').rank)) (zy.wf.good (by rw [zy.eq]; exact (gl.zipB _ gl').rank)) (mfits_refl m1 m2)
  · -- wbDiag
    rename_i d l r' m' t
    have n1 := noStretch_wb ha ns
    have hq : d.cols = t.cols := (mfits_eq (n1.1.1 rfl) (n1.1.2 rfl)).1
    have gd := ha.wbDiag.good (ha.wbDiag.rank rfl)
    have gl := ha.wbLr.good (ha.wbLr.rank rfl)
    refine Calm.bind (hF.add ha.wbDiag hb trivial fb n1.1 (compat_of_mfits gd gb (n1.1.1 rfl))) fun x hx => ?_
    have zx := hB.add ha.wbDiag hb n1.1 hx
    have rx : (den x).rows = d.cols ∧ (den x).cols = d.cols := by
      rw [zx.eq]; simp only [zipB_rows, zipB_cols, den, diagC_rows, diagC_cols, hq, bd_self, and_self]
    have m1 : (den x).rows = (den (.lr l r' m')).rows := by rw [rx.1, lr_rows, ha.2.2.2.2.1]
    have m2 : (den x).cols = (den (.lr l r' m')).cols := by rw [rx.2, lr_cols, ha.2.2.2.2.2]
    refine hF.add zx.wf ha.wbLr ((hK.add (fit_diag true _) fb) _ hx) fa.lr (noStretch_of_eq m1 m2) ?_
    exact compat_of_mfits (zx.wf.good (by rw [zx.eq]; exact (gd.zipB _ gb).rank)) gl (mfits_refl m1 m2)
  · -- wbAny
    rename_i d l r' m'
    have hm := ns.1 rfl
    have n1 := noStretch_wb ha ns
    have gd := ha.wbDiag.good (ha.wbDiag.rank rfl)
    have gl := ha.wbLr.good (ha.wbLr.rank rfl)
    refine Calm.bind (hF.add ha.wbLr hb fa.lr fb n1.2 (compat_of_mfits gl gb (n1.2.1 rfl))) fun y hy => ?_
    have zy := hB.add ha.wbLr hb n1.2 hy
    have er := wb_rows ha; have ec := wb_cols ha
    have hm1 : (den b).rows = 1 ∨ (den b).rows = d.cols := by rw [← er]; exact hm.1
    have hm2 : (den b).cols = 1 ∨ (den b).cols = d.cols := by rw [← ec]; exact hm.2
    have ry : (den y).rows = d.cols ∧ (den y).cols = d.cols := by
      rw [zy.eq]
      simp only [zipB_rows, zipB_cols, lr_rows, lr_cols, ha.2.2.2.2.1, ha.2.2.2.2.2]
      constructor
      · rcases hm1 with h | h <;> simp [h]
      · rcases hm2 with h | h <;> simp [h]
    have m1 : (den (.diag d)).rows = (den y).rows := by rw [ry.1]; rfl
    have m2 : (den (.diag d)).cols = (den y).cols := by rw [ry.2]; rfl
    refine hF.add ha.wbDiag zy.wf trivial ((hK.add fa.lr fb) _ hy) (noStretch_of_eq m1 m2) ?_
    exact compat_of_mfits gd (zy.wf.good (by rw [zy.eq]; exact (gl.zipB _ gb).rank)) (mfits_refl m1 m2)
  · -- no other case
    exfalso
    clear ha hb fa fb ns cm aa ab ka2 kb2 ga gb hF hB he hc hK h0
    cases a <;> simp only [Mat.kind, Option.some.injEq, reduceCtorEq] at ea <;> subst ea <;>
      cases b <;> simp only [Mat.kind, Option.some.injEq, reduceCtorEq] at eb <;> subst eb <;> subst hm <;> simp_all [addId]
    all_goals (rename_i h; first | exact h _ rfl | exact h _ _ rfl rfl | exact h _ _ _ rfl rfl rfl | exact h _ _ _ _ rfl rfl rfl rfl | exact h _ _ _ _ _ rfl rfl rfl rfl rfl | exact h _ _ _ _ _ _ rfl rfl rfl rfl rfl rfl | exact h _ _ _ _ _ _ _ rfl rfl rfl rfl rfl rfl rfl | exact h _ _ _ _ _ _ _ _ rfl rfl rfl rfl rfl rfl rfl rfl)

theorem stepAdd_calm {env : Env K} (he : env.Lawful) (hc : env.Calm) (hK : B.Keeps) (h0 : 0 ∉ S) {a b : Mat K} 
    (ha : a.WF S) (hb : b.WF S) (fa : a.fit true) (fb : b.fit true) (ns : NoStretch a b) (cm : Compat (den a).sh (den b).sh) :
    Calm (stepAdd env B a b) := by
  unfold stepAdd
  split
  · exact Calm.step (nAdd_of cm) Calm.pure
  · rename_i hne
    have h2 : a.isAM = true ∨ b.isAM = true := by
      cases a <;> cases b <;> simp_all [Mat.isAM]
    obtain ⟨wa, ea, aa, _, _⟩ := den_convertAM (env := env) ha
    obtain ⟨wb, eb, ab, _, _⟩ := den_convertAM (env := env) hb
    obtain ⟨ka, hka⟩ := kind_of_isAM aa
    obtain ⟨kb, hkb⟩ := kind_of_isAM ab
    simp only [hka, hkb]
    have hz := (zipB_upT (op := (· + ·)) (WF.rank_ne_one ha) (WF.rank_ne_one hb) (h2.imp (fun h => ha.rank h) (fun h => hb.rank h))).2
    exact addRun_calm hF hB he hc hK h0 hka hkb wa wb (fit_convertAM env fa) (fit_convertAM env fb) (noStretch_convert ha hb ns) (by rw [ea, eb]; exact hz.2 cm)

end

end Verif
