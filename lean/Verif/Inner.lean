/-
Total correctness of expressions (C47), part 1: the ranks of low-rank matrices stay positive.
-/
import Verif.FineAll
import Verif.Kinds

set_option linter.unusedSectionVars false

namespace Verif

variable {K : Type} [Field K] [LinearOrder K] {α β : Type}

theorem ip_of_kind {r : Mat K} {k : Kind} (h : r.kind = some k) (h1 : k ≠ .lr) (h2 : k ≠ .wb) : r.innerPos := by
  cases r <;> simp only [Mat.kind, Option.some.injEq, reduceCtorEq] at h <;> first | trivial | (subst h; exact absurd rfl ‹_›)

theorem ip_mkDense (t : Tensor K) : (mkDense t).innerPos := trivial
theorem ip_mkDiag (t : Tensor K) : Post Mat.innerPos (mkDiag t) := Post.skip fun _ => Post.pure trivial
theorem ip_mkLT (t : Tensor K) : Post Mat.innerPos (mkLT t) := Post.skip fun _ => Post.pure trivial
theorem ip_mkUT (t : Tensor K) : Post Mat.innerPos (mkUT t) := Post.skip fun _ => Post.pure trivial
theorem ip_mkZero (s : Shp) : Post Mat.innerPos (mkZero s : E (Mat K)) := by
  unfold mkZero
  split
  · exact Post.ok trivial
  · exact Post.error
theorem ip_mkConst (t : Tensor K) (s : Shp) : Post Mat.innerPos (mkConst t s) := by
  unfold mkConst
  split
  · exact Post.ok trivial
  · exact Post.skip fun _ => Post.skip fun _ => Post.pure trivial
  · exact Post.error
theorem ip_mkLR {l r m : Mat K} (h : 0 < (den m).rows ∧ 0 < (den m).cols) : Post Mat.innerPos (mkLR l r m) :=
  (post_mkLR l r m).mono (by rintro _ rfl; exact h)
theorem ip_mkWB {d : Tensor K} {l r m : Mat K} (h : 0 < (den m).rows ∧ 0 < (den m).cols) : Post Mat.innerPos (mkWB d l r m) :=
  (post_mkWB d l r m).mono (by rintro _ rfl; exact h)

theorem ip_fillDiag {T : Shp} {v : Tensor K} {f} (h : VRep T 1 v f) : 0 < (den (.diag v : Mat K)).rows ∧ 0 < (den (.diag v : Mat K)).cols := by
  have : v.cols = 1 := h.len
  simp only [den, diagC_rows, diagC_cols, this]
  exact ⟨Nat.one_pos, Nat.one_pos⟩

macro "ipT" : tactic => `(tactic| repeat' (first
  | exact ip_mkDiag _ | exact ip_mkLT _ | exact ip_mkUT _ | exact ip_mkZero _ | exact ip_mkConst _ _ | exact Post.pure trivial | exact Post.ok trivial
  | exact Post.error | refine Post.skip fun _ => ?_ | split))

theorem ip_constToLR {S : Shp} {t : Tensor K} (ht : Fits S t.sh) (r c : ℕ) : Post Mat.innerPos (constToLR t r c) := by
  intro x hx
  simp only [constToLR, bind_ok_iff] at hx
  obtain ⟨m, hm, hx⟩ := hx
  obtain ⟨v, rfl, ev, hv⟩ := fillDiag_ok ht hm
  exact ip_mkLR (ip_fillDiag (hv ht)) x hx

theorem ip_broadcastBatchTo {a : Mat K} {S s : Shp} (h : a.WF S) (hs : Fits s (den a).bt) (hp : a.innerPos) : Post Mat.innerPos (broadcastBatchTo s a) := by
  intro x hr
  have hk := (broadcastBatchTo_ok h hs hr).2.2.2
  cases a with
  | lr l r m =>
    have hw := Mat.WF.mono h hs
    obtain ⟨⟨hl, hr', hm⟩, ⟨rl, rr, rm⟩, h1, h3⟩ := hw
    simp only [broadcastBatchTo, bind_ok_iff] at hr
    obtain ⟨l', el, r', er, m', em, hlr⟩ := hr
    obtain ⟨wm, _, dm, _⟩ := broadcastBatchTo_ok hm hm.fits em
    refine ip_mkLR ?_ x hlr
    rw [dm]; exact hp
  | wb d l r m =>
    have hw := Mat.WF.mono h hs
    obtain ⟨⟨hd, fd⟩, ⟨hl, hr', hm⟩, ⟨rl, rr, rm⟩, ⟨h1, h3⟩, h4, h5⟩ := hw
    simp only [broadcastBatchTo, bind_ok_iff, nBroadcastTo_ok] at hr
    obtain ⟨d', ⟨_, rfl⟩, _, _, l', el, r', er, m', em, _, _, hwb⟩ := hr
    obtain ⟨wm, _, dm, _⟩ := broadcastBatchTo_ok hm hm.fits em
    refine ip_mkWB ?_ x hwb
    rw [dm]; exact hp
  | num t =>
    simp only [broadcastBatchTo, bind_ok_iff, pure_eq_ok] at hr
    obtain ⟨_, _, rfl⟩ := hr
    trivial
  | _ => exact ip_of_kind hk (by decide) (by decide)

theorem ip_transposeM {S : Shp} {a : Mat K} (h : a.WF S) (hp : a.innerPos) : Post Mat.innerPos (transposeM a) := by
  intro x hx
  cases a with
  | lr l r m =>
    obtain ⟨⟨hl, hr', hm⟩, ⟨rl, rr, rm⟩, h1, h3⟩ := h
    simp only [transposeM, bind_ok_iff] at hx
    obtain ⟨m', em, hx⟩ := hx
    obtain ⟨m2, em2, wm, dm, _⟩ := transposeM_ok hm
    rw [em, Except.ok.injEq] at em2; subst em2
    rw [nTranspose_of_rank rm] at dm
    refine ip_mkLR ?_ x hx
    rw [dm]; exact ⟨hp.2, hp.1⟩
  | wb d l r m =>
    obtain ⟨⟨hd, fd⟩, ⟨hl, hr', hm⟩, ⟨rl, rr, rm⟩, ⟨h1, h3⟩, h4, h5⟩ := h
    simp only [transposeM, bind_ok_iff] at hx
    obtain ⟨m', em, _, _, hx⟩ := hx
    obtain ⟨m2, em2, wm, dm, _⟩ := transposeM_ok hm
    rw [em, Except.ok.injEq] at em2; subst em2
    rw [nTranspose_of_rank rm] at dm
    refine ip_mkWB ?_ x hx
    rw [dm]; exact ⟨hp.2, hp.1⟩
  | const t r c => exact ip_mkConst _ _ x hx
  | lt t => exact ip_mkUT _ x hx
  | ut t => exact ip_mkLT _ x hx
  | kron l r =>
    simp only [transposeM, bind_ok_iff, pure_eq_ok] at hx
    obtain ⟨_, _, _, _, rfl⟩ := hx
    trivial
  | tiled n blk reps ax =>
    simp only [transposeM, bind_ok_iff] at hx
    obtain ⟨_, _, _, _, _, _, hx⟩ := hx
    obtain rfl := post_mkTiled _ _ _ _ hx
    trivial
  | _ =>
    simp only [transposeM, Except.ok.injEq] at hx
    subst hx; trivial

theorem ip_trM {S : Shp} {a : Mat K} (t : Bool) (h : a.WF S) (hp : a.innerPos) : Post Mat.innerPos (trM t a) := by
  unfold trM
  split_ifs
  · exact ip_transposeM h hp
  · exact Post.ok hp

/-- The ranks of low-rank results are positive if those of the operands are. -/
structure Ops.Inner (B : Ops K) : Prop where
  add : ∀ {S a b}, Mat.WF S a → Mat.WF S b → NoStretch a b → a.innerPos → b.innerPos → Post Mat.innerPos (B.add a b)
  mul : ∀ {S a b}, Mat.WF S a → Mat.WF S b → MulSafe a b → a.innerPos → b.innerPos → Post Mat.innerPos (B.mul a b)
  matmul : ∀ {S ta tb a b}, Mat.WF S a → Mat.WF S b → 2 ≤ (den a).rank → 2 ≤ (den b).rank → a.innerPos → b.innerPos → Post Mat.innerPos (B.matmul ta tb a b)

theorem ip_broadcastTo {B : Ops K} {a b r : Mat K} {S : Shp} (ha : a.WF S) (hb : b.WF S) (aa : a.isAM = true)
    (hb2 : 2 ≤ (den b).rank) (hp : a.innerPos) (hc : Compat (den a).sh (den b).sh)
    (h : broadcastTo B a (bsh (den a).sh (den b).sh) = .ok r) : r.innerPos := by
  have ga := ha.good (ha.rank aa)
  have gb := hb.good hb2
  have e : (bsh (den a).sh (den b).sh).drop 2 = bsh (den a).bt (den b).bt := by rw [drop_bsh]
  simp only [broadcastTo, ha.shape, bind_ok_iff, Except.ok.injEq, exists_eq_left'] at h
  by_cases h1 : (den a).sh = bsh (den a).sh (den b).sh
  · rw [if_pos h1, Except.ok.injEq] at h; subst h; exact hp
  · rw [if_neg h1] at h
    split at h
    · simp only [bind_ok_iff] at h
      obtain ⟨_, _, h⟩ := h
      exact ip_mkZero _ r h
    · simp only [bind_ok_iff] at h
      obtain ⟨_, _, h⟩ := h
      exact ip_mkConst _ _ r h
    · split_ifs at h with h2
      · rw [e] at h
        exact ip_broadcastBatchTo ha (ga.fits.compat gb.fits).fits_left hp r h
      · simp only [bind_ok_iff, pure_eq_ok] at h
        obtain ⟨_, _, _, _, rfl⟩ := h
        trivial

theorem slots_pos {a b : Tensor K} {L : List Slot} (h : SlotsOf a b L) (hp : 0 < a.cols) : 0 < L.length := by
  rcases L with _ | ⟨s, L⟩
  · have := h.left.length_eq
    simp at this
    omega
  · simp

theorem ip_addLRLR {env : Env K} (he : env.Lawful) {B : Ops K} (hB : B.Ok) {S : Shp} {al ar am bl br bm r : Mat K}
    (ha : Mat.WF S (.lr al ar am)) (hb : Mat.WF S (.lr bl br bm)) (hp : (Mat.lr al ar am).innerPos)
    (h : addLRLR env B al ar am bl br bm = .ok r) : r.innerPos := by
  have hsa := ha.shape
  have hsb := hb.shape
  obtain ⟨⟨wal, war, wam⟩, ⟨kal, kar, kam⟩, ca1, ca2⟩ := ha
  obtain ⟨⟨wbl, wbr, wbm⟩, ⟨kbl, kbr, kbm⟩, cb1, cb2⟩ := hb
  have gam := wam.good kam
  have gbm := wbm.good kbm
  simp only [addLRLR, hsa, hsb, bind_ok_iff, Except.ok.injEq, assertCompatible_ok, exists_eq_left'] at h
  obtain ⟨_, hcomp, dal, e1, dbl, e2, L, hL, dar, e3, dbr, e4, R, hR, pal, hpal, aLeft, haL, pbl, hpbl, bLeft, hbL, jL, hjL,
    par, hpar, aRight, haR, pbr, hpbr, bRight, hbR, jR, hjR, pam, hpam, pam', hpam', tam, htam, aMid, haM,
    pbm, hpbm, pbm', hpbm', tbm, htbm, bMid, hbM, jM, hjM, lr, hlr, djm, edjm, isz, hisz, h⟩ := h
  obtain rfl := hB.dense wal e1
  obtain rfl := hB.dense wbl e2
  obtain rfl := hB.dense war e3
  obtain rfl := hB.dense wbr e4
  obtain ⟨L, rfl, sL⟩ := align_slots he hL
  obtain ⟨R, rfl, sR⟩ := align_slots he hR
  simp only [show ∀ (M : List Slot) (f : Slot → Option ℕ), M.map (fun s => enc (f s)) = (M.map f).map enc from
    fun M f => by simp] at *
  obtain ⟨waM, daM, _⟩ := padTakeMid_ok hB wam kam (by rw [← ca1]; exact slotL_lt sL) (by rw [← ca2]; exact slotL_lt sR)
    hpam hpam' htam haM
  obtain ⟨wbM, dbM, _⟩ := padTakeMid_ok hB wbm kbm (by rw [← cb1]; exact slotR_lt sL) (by rw [← cb2]; exact slotR_lt sR)
    hpbm hpbm' htbm hbM
  have RaM := (Rep.self' (S := S) kam ca1.symm ca2.symm gam.fits).ptMid (slotL_lt sL) (slotL_lt sR)
  have RbM := (Rep.self' (S := S) kbm cb1.symm cb2.symm gbm.fits).ptMid (slotR_lt sL) (slotR_lt sR)
  simp only [List.length_map] at RaM RbM
  have zM := hB.add waM wbM (noStretch_of_eq (by rw [daM, dbM, RaM.rows, RbM.rows]) (by rw [daM, dbM, RaM.cols, RbM.cols])) hjM
  have pos : 0 < (den jM).rows ∧ 0 < (den jM).cols := by
    rw [zM.eq, zipB_rows, zipB_cols, daM, dbM, RaM.rows, RbM.rows, RaM.cols, RbM.cols, bd_self, bd_self]
    exact ⟨slots_pos sL (by rw [ca1]; exact hp.1), slots_pos sR (by rw [ca2]; exact hp.2)⟩
  split_ifs at h
  · simp only [bind_ok_iff] at h
    obtain ⟨_, _, h⟩ := h
    exact ip_mkZero _ r h
  · simp only [pure_eq_ok] at h
    subst h
    exact ip_mkLR pos _ hlr

theorem ip_addRun {env : Env K} (he : env.Lawful) {B : Ops K} (hB : B.Ok) (hI : B.Inner) {S : Shp} {m : AddM} {a b r : Mat K}
    (ha : a.WF S) (hb : b.WF S) (aa : a.isAM = true) (ab : b.isAM = true) (ns : NoStretch a b) (pa : a.innerPos) (pb : b.innerPos)
    (h : addRun env B m a b = .ok r) : r.innerPos := by
  have ka := ha.rank aa
  have kb := hb.rank ab
  have ga := ha.good ka
  have gb := hb.good kb
  unfold addRun at h
  split at h
  · simp only [ha.shape, hb.shape, bind_ok_iff, Except.ok.injEq, exists_eq_left', assertCompatible_ok, exists_const] at h
    obtain ⟨hc, h⟩ := h
    split at h
    · simp only [shapeBroadcast, ha.shape, hb.shape, bind_ok_iff, Except.ok.injEq, exists_eq_left', bsE_ok] at h
      obtain ⟨_, ⟨_, rfl⟩, h⟩ := h
      exact ip_broadcastTo ha hb aa kb pa hc h
    · simp at h
  · simp only [ha.shape, hb.shape, bind_ok_iff, Except.ok.injEq, exists_eq_left', assertCompatible_ok, exists_const] at h
    obtain ⟨hc, h⟩ := h
    split at h
    · simp only [shapeBroadcast, ha.shape, hb.shape, bind_ok_iff, Except.ok.injEq, exists_eq_left', bsE_ok] at h
      obtain ⟨_, ⟨_, rfl⟩, h⟩ := h
      rw [bsh_comm] at h
      exact ip_broadcastTo hb ha ab ka pb hc.symm h
    · simp at h
  · simp only [bind_ok_iff, pure_eq_ok] at h
    obtain ⟨_, _, _, _, _, _, rfl⟩ := h
    trivial
  · simp only [bind_ok_iff, pure_eq_ok] at h
    obtain ⟨_, _, rfl⟩ := h
    trivial
  · simp only [bind_ok_iff] at h
    obtain ⟨_, _, h⟩ := h
    exact ip_mkDiag _ r h
  · simp only [bind_ok_iff] at h
    obtain ⟨_, _, _, _, _, _, h⟩ := h
    exact ip_mkConst _ _ r h
  · simp only [bind_ok_iff, pure_eq_ok] at h
    obtain ⟨_, _, _, _, _, _, _, _, rfl⟩ := h
    trivial
  · -- constDiag
    rename_i s r' c' t
    simp only [ha.shape, hb.shape, bind_ok_iff, Except.ok.injEq, exists_eq_left', assertCompatible_ok, exists_const] at h
    obtain ⟨hc, rc, hrc, lr, hlr, h⟩ := h
    obtain ⟨_, rfl⟩ := shapeMatrixBroadcast_ok ha hb hrc
    obtain ⟨w, e, _⟩ := constToLR_ok (S := S) ha hlr
    have hm := ns.2 rfl
    have hm1 : r' = 1 ∨ r' = t.cols := hm.1
    have hm2 : c' = 1 ∨ c' = t.cols := hm.2
    have e1 : bd (den (.const s r' c')).rows (den (.diag t)).rows = t.cols := by
      show bd r' t.cols = t.cols
      rcases hm1 with h | h <;> simp [h]
    have e2 : bd (den (.const s r' c')).cols (den (.diag t)).cols = t.cols := by
      show bd c' t.cols = t.cols
      rcases hm2 with h | h <;> simp [h]
    exact hI.add w hb (noStretch_of_eq (by rw [e, e1]; rfl) (by rw [e, e2]; rfl)) (ip_constToLR ha _ _ _ hlr) pb r h
  · exact hI.add hb ha ns.symm pb pa r h
  · simp only [bind_ok_iff] at h
    obtain ⟨_, _, h⟩ := h
    exact ip_mkLT _ r h
  · simp only [bind_ok_iff] at h
    obtain ⟨_, _, _, _, h⟩ := h
    exact ip_mkLT _ r h
  · simp only [bind_ok_iff] at h
    obtain ⟨_, _, h⟩ := h
    exact ip_mkUT _ r h
  · simp only [bind_ok_iff, pure_eq_ok] at h
    obtain ⟨_, _, rfl⟩ := h
    trivial
  · simp only [bind_ok_iff] at h
    obtain ⟨_, _, _, _, h⟩ := h
    exact ip_mkUT _ r h
  · exact ip_addLRLR he hB ha hb pa h
  · -- lrConst
    rename_i l r' m' t i j
    simp only [bind_ok_iff] at h
    obtain ⟨rc, hrc, lr, hlr, h⟩ := h
    obtain ⟨hcm, rfl⟩ := shapeMatrixBroadcast_ok ha hb hrc
    obtain ⟨w, e, _⟩ := constToLR_ok (S := S) hb hlr
    have hm := ns.1 rfl
    have hm1 : i = 1 ∨ i = (den (.lr l r' m')).rows := hm.1
    have hm2 : j = 1 ∨ j = (den (.lr l r' m')).cols := hm.2
    have e1 : bd (den (.lr l r' m')).rows (den (.const t i j)).rows = (den (.lr l r' m')).rows := by
      show bd _ i = _
      rcases hm1 with h | h <;> simp [h]
    have e2 : bd (den (.lr l r' m')).cols (den (.const t i j)).cols = (den (.lr l r' m')).cols := by
      show bd _ j = _
      rcases hm2 with h | h <;> simp [h]
    exact hI.add ha w (noStretch_of_eq (by rw [e, e1]; rfl) (by rw [e, e2]; rfl)) pa (ip_constToLR hb _ _ _ hlr) r h
  · exact ip_mkWB pa r h
  · exact ip_mkWB pb r h
  · -- wbWb
    rename_i d l r' m' d' l' r'' m''
    simp only [bind_ok_iff] at h
    obtain ⟨x, hx, y, hy, h⟩ := h
    have n1 := noStretch_wb ha ns
    have n2 := noStretch_wb hb n1.1.symm
    have n3 := noStretch_wb hb n1.2.symm
    have hq : d.cols = d'.cols := (mfits_eq (n2.1.1 rfl) (n2.1.2 rfl)).1.symm
    have zx := hB.add ha.wbDiag hb.wbDiag n2.1.symm hx
    have zy := hB.add ha.wbLr hb.wbLr n3.2.symm hy
    have rx : (den x).rows = d.cols ∧ (den x).cols = d.cols := by
      rw [zx.eq]; simp only [zipB_rows, zipB_cols, den, diagC_rows, diagC_cols, hq, bd_self, and_self]
    have ry : (den y).rows = d.cols ∧ (den y).cols = d.cols := by
      rw [zy.eq]
      simp only [zipB_rows, zipB_cols, lr_rows, lr_cols, ha.2.2.2.2.1, ha.2.2.2.2.2, hb.2.2.2.2.1, hb.2.2.2.2.2, hq, bd_self, and_self]
    have px := hI.add ha.wbDiag hb.wbDiag n2.1.symm trivial trivial x hx
    have py := hI.add ha.wbLr hb.wbLr n3.2.symm pa pb y hy
    exact hI.add zx.wf zy.wf (noStretch_of_eq (by rw [rx.1, ry.1]) (by rw [rx.2, ry.2])) px py r h
  · -- wbDiag
    rename_i d l r' m' t
    simp only [bind_ok_iff] at h
    obtain ⟨x, hx, h⟩ := h
    have n1 := noStretch_wb ha ns
    have hq : d.cols = t.cols := (mfits_eq (n1.1.1 rfl) (n1.1.2 rfl)).1
    have zx := hB.add ha.wbDiag hb n1.1 hx
    have rx : (den x).rows = d.cols ∧ (den x).cols = d.cols := by
      rw [zx.eq]; simp only [zipB_rows, zipB_cols, den, diagC_rows, diagC_cols, hq, bd_self, and_self]
    have px := hI.add ha.wbDiag hb n1.1 trivial pb x hx
    exact hI.add zx.wf ha.wbLr (noStretch_of_eq (by rw [rx.1, lr_rows, ha.2.2.2.2.1]) (by rw [rx.2, lr_cols, ha.2.2.2.2.2])) px pa r h
  · -- wbAny
    rename_i d l r' m'
    simp only [bind_ok_iff] at h
    obtain ⟨y, hy, h⟩ := h
    have hm := ns.1 rfl
    have n1 := noStretch_wb ha ns
    have zy := hB.add ha.wbLr hb n1.2 hy
    have er := wb_rows ha; have ec := wb_cols ha
    have hm1 : (den b).rows = 1 ∨ (den b).rows = d.cols := by rw [← er]; exact hm.1
    have hm2 : (den b).cols = 1 ∨ (den b).cols = d.cols := by rw [← ec]; exact hm.2
    have ry : (den y).rows = d.cols ∧ (den y).cols = d.cols := by
      rw [zy.eq]
      simp only [zipB_rows, zipB_cols, lr_rows, lr_cols, ha.2.2.2.2.1, ha.2.2.2.2.2]
      constructor
      · rcases hm1 with h | h <;> simp [h]
      · rcases hm2 with h | h <;> simp [h]
    have py := hI.add ha.wbLr hb n1.2 pa pb y hy
    exact hI.add ha.wbDiag zy.wf (noStretch_of_eq (by rw [ry.1]; rfl) (by rw [ry.2]; rfl)) trivial py r h
  · simp at h

theorem ip_mulRun {B : Ops K} (hB : B.Ok) (hI : B.Inner) {S : Shp} {m : MulM} {a b r : Mat K}
    (ha : a.WF S) (hb : b.WF S) (aa : a.isAM = true) (ab : b.isAM = true) (ms : MulSafe a b) (pa : a.innerPos) (pb : b.innerPos)
    (h : mulRun B m a b = .ok r) : r.innerPos := by
  have ns := ms.1
  have ka := ha.rank aa
  have kb := hb.rank ab
  have ga := ha.good ka
  have gb := hb.good kb
  unfold mulRun at h
  split at h
  case h_7 => exact hI.mul hb ha ms.symm pb pa r h
  case h_18 =>
    simp only [mulLRLR, bind_ok_iff] at h
    obtain ⟨_, _, _, _, _, _, _, e1, _, e2, _, e3, _, e4, _, e5, _, e6, s1, hs1, s2, hs2, s3, hs3, s4, hs4, s5, hs5, _, b1, _, b2, _, b3, _, b4, _, b5, _, b6,
      f, hf, h⟩ := h
    simp only [hadamardFactors, bind_ok_iff, pure_eq_ok, guardE_ok, exists_const] at hf
    obtain ⟨_, _, ⟨_, _, h3, h4⟩, rfl⟩ := hf
    refine ip_mkLR ?_ r h
    exact ⟨h3, h4⟩
  case h_19 =>
    rename_i s r' c' l r'' m'
    simp only [ha.shape, hb.shape, bind_ok_iff, Except.ok.injEq, exists_eq_left', assertCompatible_ok, exists_const] at h
    obtain ⟨hc, m2, hm2, h⟩ := h
    obtain ⟨⟨wl, wr, wm⟩, ⟨kl, kr, km⟩, c1, c2⟩ := hb
    have z := hB.mul (wf_scal ha) wm (.of (noStretch_scal _) rfl trivial) hm2
    refine ip_mkLR ?_ r h
    rw [z.eq, den, (scal_rep ha (wm.good km)).1.rows, (scal_rep ha (wm.good km)).1.cols]
    exact pb
  case h_20 =>
    rename_i d l r' m'
    simp only [bind_ok_iff] at h
    obtain ⟨x, hx, y, hy, h⟩ := h
    have hm := ns.1 rfl
    have n1 := noStretch_wb ha ns
    have zx := hB.mul ha.wbDiag hb ⟨n1.1, fun _ => ms.2.1 rfl, fun _ => trivial⟩ hx
    have zy := hB.mul ha.wbLr hb (.of n1.2 rfl trivial) hy
    have er := wb_rows ha; have ec := wb_cols ha
    have hm1 : (den b).rows = 1 ∨ (den b).rows = d.cols := by rw [← er]; exact hm.1
    have hm2 : (den b).cols = 1 ∨ (den b).cols = d.cols := by rw [← ec]; exact hm.2
    have rx : (den x).rows = d.cols ∧ (den x).cols = d.cols := by
      rw [zx.eq]; simp only [zipB_rows, zipB_cols, den, diagC_rows, diagC_cols]
      constructor
      · rcases hm1 with h | h <;> simp [h]
      · rcases hm2 with h | h <;> simp [h]
    have ry : (den y).rows = d.cols ∧ (den y).cols = d.cols := by
      rw [zy.eq]
      simp only [zipB_rows, zipB_cols, lr_rows, lr_cols, ha.2.2.2.2.1, ha.2.2.2.2.2]
      constructor
      · rcases hm1 with h | h <;> simp [h]
      · rcases hm2 with h | h <;> simp [h]
    have px := hI.mul ha.wbDiag hb ⟨n1.1, fun _ => ms.2.1 rfl, fun _ => trivial⟩ trivial pb x hx
    have py := hI.mul ha.wbLr hb (.of n1.2 rfl trivial) pa pb y hy
    exact hI.add zx.wf zy.wf (noStretch_of_eq (by rw [rx.1, ry.1]) (by rw [rx.2, ry.2])) px py r h
  case h_1 | h_2 =>
    refine (show Post Mat.innerPos _ from ?_) r h
    refine Post.skip fun _ => Post.skip fun _ => Post.skip fun _ => ?_
    split
    · refine Post.skip fun _ => ?_
      unfold broadcastTo
      ipT
    · exact Post.error
  case h_6 =>
    refine (show Post Mat.innerPos _ from ?_) r h
    unfold mulDiagAm
    ipT
  all_goals
    refine (show Post Mat.innerPos _ from ?_) r h
    ipT

theorem ip_mulDense {env : Env K} {B : Ops K} (hM : MulKinds env B) {t : Tensor K} {a : Mat K} :
    Post Mat.innerPos (B.mul (mkDense t) a) ∧ Post Mat.innerPos (B.mul a (mkDense t)) := by
  constructor <;> intro r h
  · obtain hk := hM (mkDense t) a (Or.inl rfl) r h
    rw [kindC_am (k := .dense) rfl] at hk
    refine ip_of_kind hk ?_ ?_ <;> cases kindC env a <;> decide
  · obtain hk := hM a (mkDense t) (Or.inr rfl) r h
    rw [kindC_am (k := .dense) (a := mkDense t) rfl] at hk
    refine ip_of_kind hk ?_ ?_ <;> cases kindC env a <;> decide

theorem ip_matmulLRLR {B : Ops K} (hB : B.Ok) {S : Shp} {ta tb : Bool} {a b r : Mat K} (ha : a.WF S) (hb : b.WF S)
    (ka : 2 ≤ (den a).rank) (kb : 2 ≤ (den b).rank) (pa : a.innerPos) (pb : b.innerPos) (h : matmulLRLR B ta tb a b = .ok r) : r.innerPos := by
  simp only [matmulLRLR, bind_ok_iff] at h
  obtain ⟨_, hcomp, a', ha', b', hb', h⟩ := h
  obtain ⟨wa, ea, ra⟩ := trM_ok ha ka ha'
  obtain ⟨wb, eb, rb⟩ := trM_ok hb kb hb'
  have pa' := ip_trM ta ha pa a' ha'
  have pb' := ip_trM tb hb pb b' hb'
  split at h
  · rename_i al ar am bl br bm
    simp only [bind_ok_iff] at h
    obtain ⟨x, hx, y, hy, s, hs, h⟩ := h
    obtain ⟨⟨wal, war, wam⟩, ⟨kal, kar, kam⟩, ca1, ca2⟩ := wa
    obtain ⟨⟨wbl, wbr, wbm⟩, ⟨kbl, kbr, kbm⟩, cb1, cb2⟩ := wb
    have mx := hB.matmul war wbl kar kbl hx
    obtain ⟨wy, y1, y2, ey⟩ := matmul3_ok hB wam mx.wf wbm kam mx.rank kbm hy
    have py : 0 < (den y).rows ∧ 0 < (den y).cols := by
      rw [ey]; exact ⟨pa'.1, pb'.2⟩
    split_ifs at h with h11
    · simp only [bind_ok_iff, mkDiag_ok] at h
      obtain ⟨_, hd, _, ⟨_, rfl⟩, h⟩ := h
      refine ip_mkLR ?_ r h
      exact ⟨Nat.one_pos, Nat.one_pos⟩
    · exact ip_mkLR py r h
  · simp at h

theorem ip_mmRun {env : Env K} {B : Ops K} (hB : B.Ok) (hI : B.Inner) (hM : MulKinds env B) {S : Shp} {m : MmM} {ta tb : Bool} {a b r : Mat K}
    (ha : a.WF S) (hb : b.WF S) (aa : a.isAM = true) (ab : b.isAM = true) (pa : a.innerPos) (pb : b.innerPos) (h : mmRun B m ta tb a b = .ok r) : r.innerPos := by
  have ka := ha.rank aa
  have kb := hb.rank ab
  have ga := ha.good ka
  have gb := hb.good kb
  unfold mmRun at h
  split at h
  · exact (show Post Mat.innerPos _ by ipT) r h
  · exact (show Post Mat.innerPos _ by ipT) r h
  · exact (show Post Mat.innerPos _ by ipT) r h
  · exact (show Post Mat.innerPos _ by ipT) r h
  · simp only [bind_ok_iff] at h
    obtain ⟨_, _, _, _, h⟩ := h
    exact (ip_mulDense hM).1 r h
  · simp only [bind_ok_iff] at h
    obtain ⟨_, _, _, _, h⟩ := h
    exact (ip_mulDense hM).2 r h
  · exact (show Post Mat.innerPos _ by ipT) r h
  · -- constAm
    simp only [bind_ok_iff] at h
    obtain ⟨_, _, b', hb', v, hv, d, hd, h⟩ := h
    obtain ⟨v, rfl, ev, hv⟩ := fillDiag_ok (S := S) ha hd
    exact ip_mkLR (ip_fillDiag (hv ha)) r h
  · -- amConst
    simp only [bind_ok_iff] at h
    obtain ⟨_, _, a', ha', v, hv, d, hd, h⟩ := h
    obtain ⟨v, rfl, ev, hv⟩ := fillDiag_ok (S := S) hb hd
    exact ip_mkLR (ip_fillDiag (hv hb)) r h
  · -- ltLt
    split_ifs at h with hf
    · exact (show Post Mat.innerPos _ by ipT) r h
    · simp only [bind_ok_iff] at h
      obtain ⟨a', ha', b', hb', h⟩ := h
      obtain ⟨wa, ea, ka'⟩ := trM_ok ha ka ha'
      obtain ⟨wb, eb, kb'⟩ := trM_ok hb kb hb'
      exact hI.matmul wa wb ka' kb' (ip_trM _ ha pa _ ha') (ip_trM _ hb pb _ hb') r h
  · split at h
    · exact hI.matmul ha.ltNum hb ka kb trivial pb r h
    · exact hI.matmul ha.utNum hb ka kb trivial pb r h
    · simp at h
  · split at h
    · exact hI.matmul ha hb.ltNum ka kb pa trivial r h
    · exact hI.matmul ha hb.utNum ka kb pa trivial r h
    · simp at h
  · split_ifs at h with hf
    · exact (show Post Mat.innerPos _ by ipT) r h
    · simp only [bind_ok_iff] at h
      obtain ⟨a', ha', h⟩ := h
      obtain ⟨wa, ea, ka'⟩ := trM_ok ha ka ha'
      exact hI.matmul wa hb ka' kb (ip_trM _ ha pa _ ha') pb r h
  · split_ifs at h with hf
    · exact (show Post Mat.innerPos _ by ipT) r h
    · simp only [bind_ok_iff] at h
      obtain ⟨b', hb', h⟩ := h
      obtain ⟨wb, eb, kb'⟩ := trM_ok hb kb hb'
      exact hI.matmul ha wb ka kb' pa (ip_trM _ hb pb _ hb') r h
  · split_ifs at h with hf
    · exact (show Post Mat.innerPos _ by ipT) r h
    · simp only [bind_ok_iff] at h
      obtain ⟨a', ha', b', hb', h⟩ := h
      obtain ⟨wa, ea, ka'⟩ := trM_ok ha ka ha'
      obtain ⟨wb, eb, kb'⟩ := trM_ok hb kb hb'
      exact hI.matmul wa wb ka' kb' (ip_trM _ ha pa _ ha') (ip_trM _ hb pb _ hb') r h
  · split_ifs at h with hf
    · exact (show Post Mat.innerPos _ by ipT) r h
    · simp only [bind_ok_iff] at h
      obtain ⟨a', ha', h⟩ := h
      obtain ⟨wa, ea, ka'⟩ := trM_ok ha ka ha'
      exact hI.matmul wa hb ka' kb (ip_trM _ ha pa _ ha') pb r h
  · split_ifs at h with hf
    · exact (show Post Mat.innerPos _ by ipT) r h
    · simp only [bind_ok_iff] at h
      obtain ⟨b', hb', h⟩ := h
      obtain ⟨wb, eb, kb'⟩ := trM_ok hb kb hb'
      exact hI.matmul ha wb ka kb' pa (ip_trM _ hb pb _ hb') r h
  · exact ip_matmulLRLR hB ha hb ka kb pa pb h
  · -- lrAm
    simp only [bind_ok_iff] at h
    obtain ⟨_, _, a', ha', h⟩ := h
    have pa' := ip_trM ta ha pa a' ha'
    split at h
    · simp only [bind_ok_iff] at h
      obtain ⟨b', hb', x, hx, h⟩ := h
      exact ip_mkLR pa' r h
    · simp at h
  · -- amLr
    simp only [bind_ok_iff] at h
    obtain ⟨_, _, b', hb', h⟩ := h
    have pb' := ip_trM tb hb pb b' hb'
    split at h
    · simp only [bind_ok_iff] at h
      obtain ⟨a', ha', x, hx, h⟩ := h
      exact ip_mkLR pb' r h
    · simp at h
  · -- lrConst
    simp only [bind_ok_iff] at h
    obtain ⟨lr, hlr, h⟩ := h
    obtain ⟨w, e, _⟩ := constToLR_ok (S := S) hb hlr
    exact hI.matmul ha w ka (by rw [e]; exact kb) pa (ip_constToLR hb _ _ _ hlr) r h
  · -- constLr
    simp only [bind_ok_iff] at h
    obtain ⟨lr, hlr, h⟩ := h
    obtain ⟨w, e, _⟩ := constToLR_ok (S := S) ha hlr
    exact hI.matmul w hb (by rw [e]; exact ka) kb (ip_constToLR ha _ _ _ hlr) pb r h
  · -- wbAm
    rename_i d l r' m'
    simp only [bind_ok_iff] at h
    obtain ⟨x, hx, y, hy, h⟩ := h
    have wd := ha.wbDiag
    have wl := ha.wbLr
    have gd := wd.good (wd.rank rfl)
    have gl := wl.good (wl.rank rfl)
    have mx := hB.matmul wd hb gd.rank kb hx
    have my := hB.matmul wl hb gl.rank kb hy
    have er : (den (.diag d : Mat K)).rows = (den (.lr l r' m')).rows := ha.2.2.2.2.1.symm
    have ec : (den (.diag d : Mat K)).cols = (den (.lr l r' m')).cols := ha.2.2.2.2.2.symm
    have er' : (trIf ta (den (.diag d : Mat K))).rows = (trIf ta (den (.lr l r' m'))).rows := by cases ta <;> assumption
    have px := hI.matmul wd hb gd.rank kb trivial pb x hx
    have py := hI.matmul wl hb gl.rank kb pa pb y hy
    exact hI.add mx.wf my.wf (noStretch_of_eq (by rw [mx.eq, my.eq]; exact er') (by rw [mx.eq, my.eq]; rfl)) px py r h
  · -- amWb
    rename_i d l r' m'
    simp only [bind_ok_iff] at h
    obtain ⟨x, hx, y, hy, h⟩ := h
    have wd := hb.wbDiag
    have wl := hb.wbLr
    have gd := wd.good (wd.rank rfl)
    have gl := wl.good (wl.rank rfl)
    have mx := hB.matmul ha wd ka gd.rank hx
    have my := hB.matmul ha wl ka gl.rank hy
    have er : (den (.diag d : Mat K)).rows = (den (.lr l r' m')).rows := hb.2.2.2.2.1.symm
    have ec : (den (.diag d : Mat K)).cols = (den (.lr l r' m')).cols := hb.2.2.2.2.2.symm
    have ec' : (trIf tb (den (.diag d : Mat K))).cols = (trIf tb (den (.lr l r' m'))).cols := by cases tb <;> assumption
    have px := hI.matmul ha wd ka gd.rank pa trivial x hx
    have py := hI.matmul ha wl ka gl.rank pa pb y hy
    exact hI.add mx.wf my.wf (noStretch_of_eq (by rw [mx.eq, my.eq]; rfl) (by rw [mx.eq, my.eq]; exact ec')) px py r h
  · exact (show Post Mat.innerPos _ by ipT) r h
  · refine (show Post Mat.innerPos _ from ?_) r h
    unfold matmulKronAm
    ipT
    dsimp only
    ipT
  · -- amKron
    simp only [bind_ok_iff] at h
    obtain ⟨x, hx, h⟩ := h
    have mx := hB.matmul hb ha kb ka hx
    exact ip_transposeM mx.wf (hI.matmul hb ha kb ka pb pa x hx) r h
  · simp only [bind_ok_iff] at h
    obtain ⟨_, hd, h⟩ := h
    obtain rfl := hB.dense ha hd
    exact hI.matmul (ha.numOf ka) hb ka kb trivial pb r h
  · simp only [bind_ok_iff] at h
    obtain ⟨_, hd, h⟩ := h
    obtain rfl := hB.dense hb hd
    exact hI.matmul ha (hb.numOf kb) ka kb pa trivial r h
  · simp at h

/-- Every depth of the core keeps the ranks of low-rank matrices positive. -/
theorem ops_inner {env : Env K} (he : env.Lawful) (n : ℕ) : (ops env n).Inner := by
  induction n with
  | zero => exact ⟨fun _ _ _ _ _ => Post.error, fun _ _ _ _ _ => Post.error, fun _ _ _ _ _ _ => Post.error⟩
  | succ n ih =>
    have hB := ops_ok (K := K) he n
    refine ⟨fun {S a b} ha hb ns pa pb r h => ?_, fun {S a b} ha hb ns pa pb r h => ?_, fun {S ta tb a b} ha hb ka kb pa pb r h => ?_⟩ <;>
    · obtain ⟨wa, ea, aa, _, _⟩ := den_convertAM (env := env) ha
      obtain ⟨wb, eb, ab, _, _⟩ := den_convertAM (env := env) hb
      obtain ⟨k1, hka⟩ := kind_of_isAM aa
      obtain ⟨k2, hkb⟩ := kind_of_isAM ab
      have qa := (lowRk_convert env a).2 pa
      have qb := (lowRk_convert env b).2 pb
      first
      | change stepAdd env (ops env n) a b = .ok r at h
        unfold stepAdd at h
        split at h
        · exact (show Post Mat.innerPos _ by ipT) r h
        · simp only [hka, hkb] at h
          exact ip_addRun he hB ih wa wb aa ab (noStretch_convert ha hb ns) qa qb h
      | change stepMul env (ops env n) a b = .ok r at h
        unfold stepMul at h
        split at h
        · exact (show Post Mat.innerPos _ by ipT) r h
        · simp only [hka, hkb] at h
          exact ip_mulRun hB ih wa wb aa ab ⟨noStretch_convert ha hb ns.1, by rw [diagOk_convert.1, diagOk_convert.2]; exact ns.2.1, by rw [diagOk_convert.1, diagOk_convert.2]; exact ns.2.2⟩ qa qb h
      | change stepMatmul env (ops env n) ta tb a b = .ok r at h
        unfold stepMatmul at h
        split at h
        · exact (show Post Mat.innerPos _ by ipT) r h
        · simp only [hka, hkb] at h
          split at h
          · exact ip_mmRun hB ih (ops_mulKinds env n) wa wb aa ab qa qb h
          · simp at h

end Verif
