/-
`B.take` and `B.submatrix` succeed (C53), whatever the tolerance.
-/
import Verif.Props13
import Verif.Submat

set_option linter.unusedSectionVars false

namespace Verif

variable {K : Type} [Field K] [LinearOrder K]

theorem nTakeSel_of {t : Tensor K} {sel : Sel} {axis : Int} {k : ℕ} {js : List ℕ} (hk : axPos t.rank axis = .ok k) (hp : sel.Picks (dim t.sh k) js) :
    nTakeSel t sel axis = .ok (takeAx k js t) := by
  simp only [nTakeSel, hk, bind_ok_iff, Except.ok.injEq, exists_eq_left', Sel.picks_resolve hp, pure_eq_ok]

theorem nSubmatrix_of {t : Tensor K} {sel : Sel} {js js' : List ℕ} (h2 : 2 ≤ t.rank) (h1 : sel.Picks t.rows js) (h0 : sel.Picks t.cols js') :
    nSubmatrix t sel = .ok (takeAx 0 js' (takeAx 1 js t)) := by
  have e := takeAx_small_sh (t := t) (k := 1) (js := js) h2 (by omega)
  have k : 2 ≤ (takeAx 1 js t).rank := by simp [Tensor.rank, e]
  have e1 : nTakeSel t sel (-2) = .ok (takeAx 1 js t) := nTakeSel_of (k := 1) (axPos_negAxis (k := 1) (by omega)) (by rw [dim_rows h2]; exact h1)
  have e2 : nTakeSel (takeAx 1 js t) sel (-1) = .ok (takeAx 0 js' (takeAx 1 js t)) :=
    nTakeSel_of (k := 0) (axPos_negAxis (k := 0) (by omega)) (by rw [dim_cols k, takeAx_cols h2 (by omega)]; exact h0)
  simp only [nSubmatrix, e1]
  exact e2

/-! ### The results are of the same sort -/

theorem fitp_takeM {B : Ops K} (hK : B.Keeps) {sel : Sel} (n : ℕ) : ∀ {κ : Bool} {a : Mat K} {axis : Int}, a.fit κ → Post (Mat.fit κ) (takeM B n a sel axis) := by
  induction n with
  | zero => intro κ a axis _; exact Post.error
  | succ n ih =>
    intro κ a axis fa
    have fac : ∀ {x : Mat K}, x.fit false → Post (Mat.fit false) (takeFactor (takeM B n) x sel) := by
      intro x hx
      cases x with
      | num t => exact Post.skip fun _ => Post.pure trivial
      | _ => exact ih hx
    have dns : ∀ {a : Mat K} {ax : Int}, Post (Mat.fit κ) (takeDense B a sel ax) := fun {a ax} => Post.skip fun _ => Post.skip fun _ => Post.pure trivial
    refine Post.skip fun r => Post.skip fun k => ?_
    cases a with
    | num t => exact Post.skip fun _ => Post.pure trivial
    | zero bt r c => exact fitp_mkZero _ _
    | dense t => exact dns
    | diag d => exact Post.ite dns (Post.skip fun _ => fitp_mkDiag _ _)
    | const t r c => exact Post.ite (fitp_mkConst _ _ _) (Post.ite (fitp_mkConst _ _ _) (Post.skip fun _ => fitp_mkConst _ _ _))
    | lt t => exact Post.skip fun _ => Post.ite (Post.pure trivial) (fitp_mkLT _ _)
    | ut t => exact Post.skip fun _ => Post.ite (Post.pure trivial) (fitp_mkUT _ _)
    | lr l r m =>
      refine Post.ite ((fac fa.1).bind fun x hx => fitp_mkLR hx fa.2.1 fa.2.2) (Post.ite ((fac fa.2.1).bind fun x hx => fitp_mkLR fa.1 hx fa.2.2) ?_)
      refine Post.bind (P := fun p : Mat K × Mat K × Mat K => p.1.fit false ∧ p.2.1.fit false ∧ p.2.2.fit false) ?_ fun p hp =>
        (ih hp.1).bind fun _ h1 => (ih hp.2.2).bind fun _ h2 => (ih hp.2.1).bind fun _ h3 => fitp_mkLR h1 h2 h3
      exact Post.skip fun _ => Post.skip fun _ => Post.skip fun _ => (fitp_broadcastBatchTo _ fa.1).bind fun _ h1 => (fitp_broadcastBatchTo _ fa.2.2).bind fun _ h2 =>
        (fitp_broadcastBatchTo _ fa.2.1).bind fun _ h3 => Post.pure ⟨h1, h2, h3⟩
    | wb d l r m =>
      exact Post.ite ((ih (fit_diag κ d)).bind fun _ h1 => (ih (a := .lr l r m) fa.lr).bind fun _ h2 => hK.add h1 h2)
        ((fitp_alignBatch2 (fit_diag κ d) fa.lr).bind fun p hp => (ih hp.1).bind fun _ h1 => (ih hp.2).bind fun _ h2 => hK.add h1 h2)
    | kron l r =>
      exact Post.ite dns ((fitp_alignBatch2 fa.2.1 fa.2.2).bind fun p hp => (ih hp.1).bind fun _ h1 => (ih hp.2).bind fun _ h2 => Post.pure ⟨fa.1, h1, h2⟩)
    | tiled => exact fa.elim

/-! ### Nothing is raised -/

theorem alignBatch3_calm {S : Shp} {a b c : Mat K} (ha : a.WF S) (hb : b.WF S) (hc : c.WF S) (fa : a.fit true) (fb : b.fit true) (fc : c.fit true)
    (ka : 2 ≤ (den a).rank) (kb : 2 ≤ (den b).rank) (kc : 2 ≤ (den c).rank) : Calm (alignBatch3 a b c) := by
  have hab := ha.fits.compat hb.fits
  have fab : Fits S (bsh (den a).bt (den b).bt) := ha.fits.bsh hb.fits
  have hcc := fab.compat hc.fits
  unfold alignBatch3
  have e : shapeBatchBroadcast a b = .ok (bsh (den a).bt (den b).bt) := by
    simp only [shapeBatchBroadcast, ha.shapeBatch, hb.shapeBatch, bind_ok_iff, Except.ok.injEq, exists_eq_left', bsE_ok]
    exact ⟨hab, trivial⟩
  refine Calm.step e (Calm.step hc.shapeBatch (Calm.step (bsE_of hcc) ?_))
  obtain ⟨x, hx⟩ := broadcastBatchTo_total (ha.mono (hcc.fits_left.trans hab.fits_left)) ka (fit_noTiled fa) (by rw [length_bsh, length_bsh]; omega)
  obtain ⟨y, hy⟩ := broadcastBatchTo_total (hb.mono (hcc.fits_left.trans hab.fits_right)) kb (fit_noTiled fb) (by rw [length_bsh, length_bsh]; omega)
  obtain ⟨z, hz⟩ := broadcastBatchTo_total (hc.mono hcc.fits_right) kc (fit_noTiled fc) (by rw [length_bsh]; omega)
  exact Calm.step hx (Calm.step hy (Calm.step hz Calm.pure))

theorem mkConst_nil (t : Tensor K) (r c : ℕ) : ∃ x, mkConst t [c, r] = .ok x := ⟨_, rfl⟩

section
variable {B : Ops K} (hB : B.Ok) (hK : B.Keeps) (hF : ∀ S, 0 ∉ S → B.Fine S)
include hB hK hF

theorem takeDense_calm {S : Shp} (h0 : 0 ∉ S) {a : Mat K} {sel : Sel} {axis : Int} {k : ℕ} {js : List ℕ} (ha : a.WF S) (fa : a.fit true)
    (hk : axPos (den a).rank axis = .ok k) (hp : sel.Picks (dim (den a).sh k) js) : Calm (takeDense B a sel axis) := by
  refine Calm.bind ((hF S h0).dense ha fa) fun x hx => ?_
  obtain rfl := hB.dense ha hx
  exact Calm.step (nTakeSel_of hk hp) Calm.pure

theorem takeM_mat_calm {S : Shp} (h0 : 0 ∉ S) {sel : Sel} {js : List ℕ} (n : ℕ) : ∀ {a : Mat K} {axis : Int} {k : ℕ}, k < 2 → a.WF S → a.fit true → 2 ≤ (den a).rank →
    axPos (den a).rank axis = .ok k → a.takeOk k → sel.Picks (dim (den a).sh k) js → Calm (takeM B n a sel axis) := by
  induction n with
  | zero => intro a axis k _ _ _ _ _ _ _; exact Calm.fuel
  | succ n ih =>
    intro a axis k hk2 ha fa h2 hk ho hp
    have hn : axPos (den a).rank (negAxis k) = .ok k := axPos_negAxis (by omega)
    have dns : ∀ {ax : Int}, axPos (den a).rank ax = .ok k → Calm (takeDense B a sel ax) := fun hax => takeDense_calm hB hK hF h0 ha fa hax hp
    simp only [takeM]
    refine Calm.step ha.rankM (Calm.step hk ?_)
    cases a with
    | num t => exact Calm.step (nTakeSel_of hk hp) Calm.pure
    | zero bt r c => interval_cases k <;> exact Calm.ok
    | dense t => exact dns hk
    | diag d => exact Calm.ite (fun _ => dns hn) fun h => absurd hk2 h
    | const t r c => exact Calm.ite (fun _ => Calm.ok) fun h1 => Calm.ite (fun _ => Calm.ok) fun h => by omega
    | lt t => exact Calm.step (nTakeSel_of hn hp) (Calm.ite (fun _ => Calm.pure) fun h => absurd hk2 h)
    | ut t => exact Calm.step (nTakeSel_of hn hp) (Calm.ite (fun _ => Calm.pure) fun h => absurd hk2 h)
    | lr l r m =>
      obtain ⟨⟨hl, hr, hm⟩, ⟨kl, kr, km⟩, e1, e2⟩ := ha
      have factor : ∀ {x : Mat K}, x.WF S → x.fit false → 2 ≤ (den x).rank → x.rowsOk → sel.Picks (den x).rows js → Calm (takeFactor (takeM B n) x sel) := by
        intro x hx fx kx hox hpx
        rw [← dim_rows kx] at hpx
        have hax : axPos (den x).rank (-2) = .ok 1 := axPos_negAxis (k := 1) (by omega)
        cases x with
        | num t => exact Calm.step (nTakeSel_of (k := 1) (by rw [show t.rank = 2 from hox]; rfl) hpx) Calm.pure
        | _ => exact ih (by omega) hx fx.up kx hax hox.takeOk hpx
      have fok : ∀ {x y : Mat K}, x.WF S → 2 ≤ (den x).rank → x.rowsOk → sel.Picks (den x).rows js → takeFactor (takeM B n) x sel = .ok y →
          y.WF S ∧ den y = takeAx 1 js (den x) := by
        intro x y hx kx hox hpx h
        rw [← dim_rows kx] at hpx
        have hax : axPos (den x).rank (-2) = .ok 1 := axPos_negAxis (k := 1) (by omega)
        cases x with
        | num t =>
          simp only [takeFactor, bind_ok_iff, pure_eq_ok] at h
          obtain ⟨v, hv, rfl⟩ := h
          have ht : t.rank = 2 := hox
          rw [nTakeSel_ok (k := 1) (by show axPos t.rank 0 = _; rw [ht]; rfl) hpx hv]
          have e := takeAx_small_sh (t := t) (k := 1) (js := js) (by omega) (by omega)
          exact ⟨⟨by show (takeAx 1 js t).rank ≠ 1; simp [Tensor.rank, e], by show Fits _ (List.drop 2 (takeAx 1 js t).sh); rw [e]; exact hx.2⟩, rfl⟩
        | _ => exact takeM_mat_ok hB n (by omega) hx kx hax hox.takeOk hpx h
      have rk : ∀ {x : Tensor K}, 2 ≤ x.rank → 2 ≤ (takeAx 1 js x).rank := fun h => by rw [Tensor.rank, takeAx_small_sh h (by omega)]; simp
      interval_cases k
      · have hp' : sel.Picks (den r).rows js := hp
        refine Calm.ite (fun h => by omega) fun _ => Calm.ite (fun _ => Calm.bind (factor hr fa.2.1 kr ho hp') fun y hy => ?_) fun h => absurd rfl h
        obtain ⟨wy, ey⟩ := fok hr kr ho hp' hy
        exact Calm.of (mkLR_ok hl wy hm ⟨kl, by rw [ey]; exact rk kr, km⟩ e1 (by rw [ey, takeAx_cols kr (by omega)]; exact e2))
      · have hp' : sel.Picks (den l).rows js := hp
        refine Calm.ite (fun _ => Calm.bind (factor hl fa.1 kl ho hp') fun y hy => ?_) fun h => absurd rfl h
        obtain ⟨wy, ey⟩ := fok hl kl ho hp' hy
        exact Calm.of (mkLR_ok wy hr hm ⟨by rw [ey]; exact rk kl, kr, km⟩ (by rw [ey, takeAx_cols kl (by omega)]; exact e1) e2)
    | wb d l r m =>
      have wd := WF.diagPart ha; have wl := WF.lrPart ha
      have hr1 : (den (.diag d)).rows = (den (.lr l r m)).rows := ha.2.2.2.2.1.symm
      have hc1 : (den (.diag d)).cols = (den (.lr l r m)).cols := ha.2.2.2.2.2.symm
      have k1 : 2 ≤ (den (.diag d)).rank := wd.rank rfl
      have k2 : 2 ≤ (den (.lr l r m)).rank := wl.rank rfl
      have hz : (den (.wb d l r m)).rows = (den (.diag d)).rows ∧ (den (.wb d l r m)).cols = (den (.diag d)).cols := by
        have A := Rep.self k1 wd.fits
        have C := Rep.self' k2 hr1.symm hc1.symm wl.fits
        have := A.zipB (· + ·) C
        exact ⟨this.rows, this.cols⟩
      have ds : dim (den (.wb d l r m)).sh k = dim (den (.diag d)).sh k ∧ dim (den (.diag d)).sh k = dim (den (.lr l r m)).sh k := by
        interval_cases k
        · exact ⟨by rw [dim_cols h2, dim_cols k1, hz.2], by rw [dim_cols k1, dim_cols k2, hc1]⟩
        · exact ⟨by rw [dim_rows h2, dim_rows k1, hz.1], by rw [dim_rows k1, dim_rows k2, hr1]⟩
      rw [ds.1] at hp
      have hp2 := hp
      rw [ds.2] at hp2
      have ho2 : Mat.takeOk (.lr l r m) k := by interval_cases k <;> exact ho
      refine Calm.ite (fun _ => ?_) fun h => absurd hk2 h
      refine Calm.bind (ih hk2 wd (fit_diag true d) k1 (axPos_negAxis (by omega)) trivial hp) fun x hx => Calm.bind (ih hk2 wl fa.lr k2 (axPos_negAxis (by omega)) ho2 hp2) fun y hy => ?_
      obtain ⟨wx, ex⟩ := takeM_mat_ok hB n hk2 wd k1 (axPos_negAxis (by omega)) trivial hp hx
      obtain ⟨wy, ey⟩ := takeM_mat_ok hB n hk2 wl k2 (axPos_negAxis (by omega)) ho2 hp2 hy
      have er : (den x).rows = (den y).rows := by rw [ex, ey, takeAx_rows k1 hk2, takeAx_rows k2 hk2, hr1]
      have ec : (den x).cols = (den y).cols := by rw [ex, ey, takeAx_cols k1 hk2, takeAx_cols k2 hk2, hc1]
      have rk : ∀ {t : Tensor K}, 2 ≤ t.rank → 2 ≤ (takeAx k js t).rank := fun h => by rw [Tensor.rank, takeAx_small_sh h hk2]; simp
      exact (hF S h0).add wx wy ((fitp_takeM hK n (fit_diag true d)) _ hx) ((fitp_takeM hK n (a := .lr l r m) (κ := true) fa.lr) _ hy) (noStretch_of_eq er ec)
        (compat_sh (wx.good (by rw [ex]; exact rk k1)) (wy.good (by rw [ey]; exact rk k2)) er ec)
    | kron l r => exact Calm.ite (fun _ => dns hn) fun h => absurd hk2 h
    | tiled => exact fa.elim

theorem takeM_batch_calm {sel : Sel} {js : List ℕ} {q : ℕ} (n : ℕ) : ∀ {T : Shp} {a : Mat K} {axis : Int}, q < T.length → 0 ∉ T → js ≠ [] → a.WF T → a.fit true →
    2 ≤ (den a).rank → (den a).bt = T → axPos (den a).rank axis = .ok (q+2) → sel.Picks (dim T q) js → Calm (takeM B n a sel axis) := by
  induction n with
  | zero => intro T a axis _ _ _ _ _ _ _ _ _; exact Calm.fuel
  | succ n ih =>
    intro T a axis hq h0 hj ha fa h2 hT hk hp
    have hkr := axPos_lt hk
    have hn : axPos (den a).rank (negAxis (q+2)) = .ok (q+2) := axPos_negAxis hkr
    have hlt := Sel.picks_lt hp
    have hs := Tensor.sh_eq h2
    rw [hT] at hs
    have hrk : (den a).rank = T.length + 2 := by unfold Tensor.rank; rw [hs]; rfl
    have hds : dim (den a).sh (q+2) = dim T q := by rw [hs]; rfl
    have hp' : sel.Picks (dim (den a).sh (q+2)) js := by rw [hds]; exact hp
    have h0' : 0 ∉ T.set q js.length := by
      intro h
      rcases List.mem_or_eq_of_mem_set h with h | h
      · exact h0 h
      · exact hj (List.length_eq_zero_iff.1 h.symm)
    have dns : ∀ {ax : Int}, axPos (den a).rank ax = .ok (q+2) → Calm (takeDense B a sel ax) := fun hax => takeDense_calm hB hK hF h0 ha fa hax hp'
    have sub : ∀ {x : Tensor K} {y : Mat K}, y.WF T → y.fit true → den y = bbT T x → Calm (takeM B n y sel (posAxis (den a).rank (q+2))) := by
      intro x y hy fy ey
      have ry : (den y).rank = T.length + 2 := by rw [ey]; rfl
      exact ih hq h0 hj hy fy (by omega) (by rw [ey]; rfl) (axPos_posAxis (q := 0) (by omega) (by omega) hkr) hp
    have sok : ∀ {x : Tensor K} {y z : Mat K}, y.WF T → den y = bbT T x → takeM B n y sel (posAxis (den a).rank (q+2)) = .ok z →
        z.WF (T.set q js.length) ∧ den z = takeAx (q+2) js (bbT T x) := by
      intro x y z hy ey hz
      have ry : (den y).rank = T.length + 2 := by rw [ey]; rfl
      rw [← ey]
      exact takeM_batch_ok hB n hq hy (by omega) (by rw [ey]; rfl) (axPos_posAxis (q := 0) (by omega) (by omega) hkr) hp hz
    have tsh : ∀ x : Tensor K, (takeAx (q+2) js (bbT T x)).sh = x.cols :: x.rows :: T.set q js.length := fun x => takeAx_mat_sh (bbT_rank T x) q js
    have trk : ∀ x : Tensor K, 2 ≤ (takeAx (q+2) js (bbT T x)).rank := fun x => by rw [Tensor.rank, tsh]; simp
    have trw : ∀ x : Tensor K, (takeAx (q+2) js (bbT T x)).rows = x.rows := fun x => by rw [Tensor.rows, tsh]; rfl
    have tcl : ∀ x : Tensor K, (takeAx (q+2) js (bbT T x)).cols = x.cols := fun x => by rw [Tensor.cols, tsh]; rfl
    simp only [takeM]
    refine Calm.step ha.rankM (Calm.step hk ?_)
    cases a with
    | num t => exact Calm.step (nTakeSel_of hk hp') Calm.pure
    | zero bt r c => exact Calm.ok
    | dense t => exact dns hk
    | diag d =>
      refine Calm.ite (fun h => by omega) fun _ => ?_
      have hd : d.sh.tail = T := hT
      have k1 : 1 ≤ d.rank := ha.1
      have rd : d.rank + 1 = (den (.diag d)).rank := by
        have : d.sh.tail.length = T.length := by rw [hd]
        simp [Tensor.rank] at k1 hrk this ⊢; omega
      have sd : dim d.sh (q+1) = dim T q := by rw [Tensor.sh_eq_vec k1, hd]; rfl
      refine Calm.step (nTakeSel_of (k := q+1) (axPos_posAxis (k := q+2) (q := 1) rd (by omega) hkr) (by rw [sd]; exact hp)) ?_
      exact Calm.of (mkDiag_of (by rw [Tensor.rank, takeAx_vec_sh k1]; simp))
    | const t r c =>
      refine Calm.ite (fun h => by omega) fun _ => Calm.ite (fun h => by omega) fun _ => ?_
      obtain rfl : t.sh = T := hT
      exact Calm.step (nTakeSel_of (k := q) (axPos_posAxis (k := q+2) (q := 2) rfl (by omega) hkr) hp) Calm.ok
    | lt t => exact Calm.step (nTakeSel_of hn hp') (Calm.ite (fun h => by omega) fun _ => Calm.of (mkLT_of (by rw [Tensor.rank, takeAx_mat_sh ha.1]; simp)))
    | ut t => exact Calm.step (nTakeSel_of hn hp') (Calm.ite (fun h => by omega) fun _ => Calm.of (mkUT_of (by rw [Tensor.rank, takeAx_mat_sh ha.1]; simp)))
    | lr l r m =>
      obtain ⟨⟨hl, hr, hm⟩, ⟨kl, kr, km⟩, e1, e2⟩ := ha
      refine Calm.ite (fun h => by omega) fun _ => Calm.ite (fun h => by omega) fun _ => ?_
      refine Calm.bind (alignBatch3_calm hl hm hr fa.1.up fa.2.2.up fa.2.1.up kl km kr) fun p hpp => ?_
      obtain ⟨T', eT, gl, gm, gr, wl, wm, wr, el, em, er⟩ := alignBatch3_ok hl hm hr hpp
      obtain rfl : T' = T := by rw [eT, ← hT]; rfl
      have ff : p.1.fit false ∧ p.2.1.fit false ∧ p.2.2.fit false := by
        have : Post (fun p : Mat K × Mat K × Mat K => p.1.fit false ∧ p.2.1.fit false ∧ p.2.2.fit false) (alignBatch3 l m r) :=
          Post.skip fun _ => Post.skip fun _ => Post.skip fun _ => (fitp_broadcastBatchTo _ fa.1).bind fun _ h1 => (fitp_broadcastBatchTo _ fa.2.2).bind fun _ h2 =>
            (fitp_broadcastBatchTo _ fa.2.1).bind fun _ h3 => Post.pure ⟨h1, h2, h3⟩
        exact this _ hpp
      refine Calm.bind (sub wl ff.1.up el) fun x hx => Calm.bind (sub wr ff.2.2.up er) fun y hy => Calm.bind (sub wm ff.2.1.up em) fun z hz => ?_
      obtain ⟨wx, ex⟩ := sok wl el hx
      obtain ⟨wy, ey⟩ := sok wr er hy
      obtain ⟨wz, ez⟩ := sok wm em hz
      exact Calm.of (mkLR_ok wx wy wz ⟨by rw [ex]; exact trk _, by rw [ey]; exact trk _, by rw [ez]; exact trk _⟩ (by rw [ex, ez, tcl, trw]; exact e1) (by rw [ey, ez, tcl, tcl]; exact e2))
    | wb d l r m =>
      refine Calm.ite (fun h => by omega) fun _ => ?_
      have w1 := WF.diagPart ha; have w2 := WF.lrPart ha
      refine Calm.bind (alignBatch2_calm w1 w2 (fit_diag true _) fa.lr (w1.rank rfl) (w2.rank rfl)) fun p hpp => ?_
      obtain ⟨T', eT, gd, gl, wa, wb, ea, eb⟩ := alignBatch2_ok w1 w2 hpp
      obtain rfl : T' = T := by rw [eT, ← hT]; exact zipB_bt.symm
      have ff := (fitp_alignBatch2 (κ := true) (κ' := true) (fit_diag true _) fa.lr) _ hpp
      have hr1 : (den (.diag d)).rows = (den (.lr l r m)).rows := ha.2.2.2.2.1.symm
      have hc1 : (den (.diag d)).cols = (den (.lr l r m)).cols := ha.2.2.2.2.2.symm
      refine Calm.bind (sub wa ff.1 ea) fun x hx => Calm.bind (sub wb ff.2 eb) fun y hy => ?_
      obtain ⟨wx, ex⟩ := sok wa ea hx
      obtain ⟨wy, ey⟩ := sok wb eb hy
      have er : (den x).rows = (den y).rows := by rw [ex, ey, trw, trw, hr1]
      have ec : (den x).cols = (den y).cols := by rw [ex, ey, tcl, tcl, hc1]
      exact (hF _ h0').add wx wy ((fitp_takeM hK n ff.1) _ hx) ((fitp_takeM hK n ff.2) _ hy) (noStretch_of_eq er ec)
        (compat_sh (wx.good (by rw [ex]; exact trk _)) (wy.good (by rw [ey]; exact trk _)) er ec)
    | kron l r =>
      obtain ⟨⟨hl, hr⟩, kl, kr⟩ := ha
      refine Calm.ite (fun h => by omega) fun _ => Calm.bind (alignBatch2_calm hl hr fa.2.1 fa.2.2 kl kr) fun p hpp => ?_
      obtain ⟨T', eT, gl, gr, wl, wr, el, er⟩ := alignBatch2_ok hl hr hpp
      obtain rfl : T' = T := by rw [eT, ← hT]; exact (kronT_bt _ _).symm
      have ff := (fitp_alignBatch2 fa.2.1 fa.2.2) _ hpp
      exact Calm.bind (sub wl ff.1 el) fun x hx => Calm.bind (sub wr ff.2 er) fun y hy => Calm.pure
    | tiled => exact fa.elim

theorem submatrixLR_calm {S : Shp} (h0 : 0 ∉ S) {m' : ℕ} {l r m : Mat K} {sel : Sel} {js js' : List ℕ} (ha : Mat.WF S (.lr l r m)) (fa : (Mat.lr l r m).fit true)
    (ho : l.takeOk 1 ∧ r.takeOk 1) (h1 : sel.Picks (den l).rows js) (h2 : sel.Picks (den r).rows js') : Calm (submatrixLR B m' l r m sel) := by
  obtain ⟨⟨hl, hr, hm⟩, ⟨kl, kr, km⟩, e1, e2⟩ := ha
  have p1 : sel.Picks (dim (den l).sh 1) js := by rw [dim_rows kl]; exact h1
  have p2 : sel.Picks (dim (den r).sh 1) js' := by rw [dim_rows kr]; exact h2
  have a1 : axPos (den l).rank (-2) = .ok 1 := axPos_negAxis (k := 1) (by omega)
  have a2 : axPos (den r).rank (-2) = .ok 1 := axPos_negAxis (k := 1) (by omega)
  refine Calm.bind (takeM_mat_calm hB hK hF h0 m' (by omega) hl fa.1.up kl a1 ho.1 p1) fun x hx =>
    Calm.bind (takeM_mat_calm hB hK hF h0 m' (by omega) hr fa.2.1.up kr a2 ho.2 p2) fun y hy => ?_
  obtain ⟨wx, ex⟩ := takeM_mat_ok hB m' (by omega) hl kl a1 ho.1 p1 hx
  obtain ⟨wy, ey⟩ := takeM_mat_ok hB m' (by omega) hr kr a2 ho.2 p2 hy
  have rk : ∀ {js : List ℕ} {x : Tensor K}, 2 ≤ x.rank → 2 ≤ (takeAx 1 js x).rank := fun h => by rw [Tensor.rank, takeAx_small_sh h (by omega)]; simp
  exact Calm.of (mkLR_ok wx wy hm ⟨by rw [ex]; exact rk kl, by rw [ey]; exact rk kr, km⟩ (by rw [ex, takeAx_cols kl (by omega)]; exact e1) (by rw [ey, takeAx_cols kr (by omega)]; exact e2))

theorem submatrixM_calm {S : Shp} (h0 : 0 ∉ S) {m' : ℕ} {a : Mat K} {sel : Sel} {js js' : List ℕ} (ha : a.WF S) (fa : a.fit true) (h2 : 2 ≤ (den a).rank)
    (ho : a.subOk js) (h1 : sel.Picks (den a).rows js) (hc : sel.Picks (den a).cols js') : Calm (submatrixM B m' a sel) := by
  have dns : Calm (do return mkDense (← nSubmatrix (← B.dense a) sel) : E (Mat K)) := by
    refine Calm.bind ((hF S h0).dense ha fa) fun x hx => ?_
    obtain rfl := hB.dense ha hx
    exact Calm.step (nSubmatrix_of h2 h1 hc) Calm.pure
  have rk2 : ∀ {t : Tensor K}, 2 ≤ t.rank → 2 ≤ (takeAx 0 js' (takeAx 1 js t)).rank := fun {t} h => by
    have e := takeAx_small_sh (t := t) (k := 1) (js := js) h (by omega)
    have k : 2 ≤ (takeAx 1 js t).rank := by simp [Tensor.rank, e]
    rw [Tensor.rank, takeAx_small_sh k (by omega)]; simp
  cases a with
  | num t => exact Calm.step (nSubmatrix_of (t := t) h2 h1 hc) Calm.pure
  | zero bt r c => exact Calm.ok
  | dense t => exact dns
  | diag d =>
    refine Calm.step (nTakeSel_of (k := 0) (axPos_negAxis (k := 0) (by have := ha.1; omega)) (show sel.Picks (dim d.sh 0) js from h1)) ?_
    exact Calm.of (mkDiag_of (by rw [Tensor.rank, takeVec_sh ha.1]; simp))
  | const t r c => exact Calm.of (mkConst_self _ _ _)
  | lt t => exact Calm.step (nSubmatrix_of (t := t) h2 h1 hc) (Calm.of (mkLT_of (rk2 ha.1)))
  | ut t => exact Calm.step (nSubmatrix_of (t := t) h2 h1 hc) (Calm.of (mkUT_of (rk2 ha.1)))
  | lr l r m => exact submatrixLR_calm hB hK hF h0 ha fa ho h1 hc
  | wb d l r m =>
    have wl := WF.lrPart ha
    have wd := WF.diagPart ha
    have hr1 : (den (.diag d)).rows = (den (.lr l r m)).rows := ha.2.2.2.2.1.symm
    have hc1 : (den (.diag d)).cols = (den (.lr l r m)).cols := ha.2.2.2.2.2.symm
    have kd : 2 ≤ (den (.diag d)).rank := wd.rank rfl
    have klr : 2 ≤ (den (.lr l r m)).rank := wl.rank rfl
    have Z := (Rep.self kd wd.fits).zipB (· + ·) (Rep.self' klr hr1.symm hc1.symm wl.fits)
    have hz1 : (den (.wb d l r m)).rows = d.cols := Z.rows
    have hz0 : (den (.wb d l r m)).cols = d.cols := Z.cols
    rw [hz1] at h1
    rw [hz0] at hc
    obtain rfl : js = js' := Sel.picks_unique h1 hc
    have k1 : 1 ≤ d.rank := wd.1
    have hlr1 : (den l).rows = d.cols := ha.2.2.2.2.1
    have hlr2 : (den r).rows = d.cols := ha.2.2.2.2.2
    have e := takeVec_sh k1 js
    have kt : 1 ≤ (takeAx 0 js d).rank := by rw [Tensor.rank, e]; simp
    refine Calm.step (nTakeSel_of (k := 0) (axPos_negAxis (k := 0) (by omega)) (show sel.Picks (dim d.sh 0) js from h1)) (Calm.step (v := ()) (guardE_ok.2 kt) ?_)
    refine Calm.bind (submatrixLR_calm hB hK hF h0 wl fa.lr ho.2 (by rw [hlr1]; exact h1) (by rw [hlr2]; exact h1)) fun y hy => ?_
    obtain ⟨wy, ey, l', r', rfl⟩ := submatrixLR_ok hB wl ho.2 (by rw [hlr1]; exact h1) (by rw [hlr2]; exact h1) hy
    have l1 := Sel.picks_lt h1
    have ec : (takeAx 0 js d).cols = js.length := by rw [Tensor.cols, e]; rfl
    have Q := takeBoth_rep klr wl.fits (js := js) (js' := js) (by rw [← hr1]; exact l1) (by rw [← hc1]; exact l1)
    rw [← ey] at Q
    have w : Mat.WF S (.wb (takeAx 0 js d) l' r' m) :=
      ⟨⟨kt, by rw [e]; exact wd.2⟩, wy.1, wy.2.1, wy.2.2, by rw [ec]; exact Q.rows, by rw [ec]; exact Q.cols⟩
    exact Calm.of (mkWB_ok w)
  | kron l r => exact dns
  | tiled => exact fa.elim
end

/-! ### The tolerance -/

section
variable {env : Env K} {B C : Ops K} (hT : B.Twin env C)
include hT

theorem twin_takeDense {κ : Bool} {a : Mat K} {sel : Sel} {axis : Int} (ha : a.wo κ) :
    Sim (fun r : Mat K => r.wo κ ∧ r.kind = some .dense) (takeDense B a sel axis) (takeDense C a sel axis) :=
  (hT.dense ha.up).go fun _ => Sim.same (Post.skip fun _ => Post.pure ⟨trivial, rfl⟩)

/-- The results are free of Woodbury matrices in the same places, and those of a Diagonal matrix are not constant or low-rank. -/
theorem twin_take {sel : Sel} (n : ℕ) : ∀ {κ : Bool} {a : Mat K} {axis : Int}, a.wo κ →
    Sim (fun r : Mat K => r.wo κ ∧ (a.kind = some .diag → r.kind = some .diag ∨ r.kind = some .dense)) (takeM B n a sel axis) (takeM C n a sel axis) := by
  induction n with
  | zero => intro κ a axis _; exact Sim.error
  | succ n ih =>
    intro κ a axis wa
    have fac : ∀ {x : Mat K}, x.wo false → Sim (Mat.wo false) (takeFactor (takeM B n) x sel) (takeFactor (takeM C n) x sel) := by
      intro x hx
      cases x with
      | num t => exact Sim.same (Post.skip fun _ => Post.pure trivial)
      | _ => exact (ih hx).mono fun _ h => h.1
    have dns : ∀ {a : Mat K} {ax : Int}, a.wo κ →
        Sim (fun r : Mat K => r.wo κ ∧ (a.kind = some .diag → r.kind = some .diag ∨ r.kind = some .dense)) (takeDense B a sel ax) (takeDense C a sel ax) := fun h =>
      (twin_takeDense hT h).mono fun _ h => ⟨h.1, fun _ => Or.inr h.2⟩
    have low : ∀ {x y : Mat K}, x.wo κ → y.wo κ → κ = true → (x.kind = some .diag ∨ x.kind = some .dense) →
        Sim (fun r : Mat K => r.wo κ) (B.add x y) (C.add x y) := by
      intro x y hx hy hk hd
      subst hk
      refine hT.add hx hy ?_
      rcases hd with h | h <;> rw [kindC_am h] <;> cases kindC env y <;> rfl
    refine Sim.skip fun r => Sim.skip fun k => ?_
    cases a with
    | num t => exact Sim.same (Post.skip fun _ => Post.pure ⟨trivial, fun h => nomatch h⟩)
    | zero bt r c => exact Sim.same ((wop_mkZero _ _).mono fun _ h => ⟨h, fun h => nomatch h⟩)
    | dense t => exact dns wa
    | diag d =>
      refine Sim.ite (dns wa) (Sim.same (Post.skip fun _ => fun z hz => ⟨wop_mkDiag κ _ z hz, fun _ => Or.inl ?_⟩))
      rw [← (mkDiag_ok.1 hz).2]; rfl
    | const t r c =>
      have w : ∀ (t : Tensor K) (s : Shp), Sim (fun x : Mat K => x.wo κ ∧ ((Mat.const t r c).kind = some .diag → x.kind = some .diag ∨ x.kind = some .dense)) (mkConst t s) (mkConst t s) :=
        fun t s => Sim.same ((wop_mkConst κ t s).mono fun _ h => ⟨h, fun h => nomatch h⟩)
      exact Sim.ite (w _ _) (Sim.ite (w _ _) (Sim.skip fun _ => w _ _))
    | lt t => exact Sim.skip fun _ => Sim.ite (Sim.pure ⟨trivial, fun h => nomatch h⟩) (Sim.same ((wop_mkLT _ _).mono fun _ h => ⟨h, fun h => nomatch h⟩))
    | ut t => exact Sim.skip fun _ => Sim.ite (Sim.pure ⟨trivial, fun h => nomatch h⟩) (Sim.same ((wop_mkUT _ _).mono fun _ h => ⟨h, fun h => nomatch h⟩))
    | lr l r m =>
      refine Sim.mono (P := Mat.wo κ) ?_ fun _ h => ⟨h, fun h => nomatch h⟩
      refine Sim.ite ((fac wa.1).bind fun x hx => Sim.same (wop_mkLR hx wa.2.1 wa.2.2)) (Sim.ite ((fac wa.2.1).bind fun x hx => Sim.same (wop_mkLR wa.1 hx wa.2.2)) ?_)
      refine Sim.on (P := fun p : Mat K × Mat K × Mat K => p.1.wo false ∧ p.2.1.wo false ∧ p.2.2.wo false) ?_ fun p hp =>
        (ih hp.1).bind fun _ h1 => (ih hp.2.2).bind fun _ h2 => (ih hp.2.1).bind fun _ h3 => Sim.same (wop_mkLR h1.1 h2.1 h3.1)
      exact Post.skip fun _ => Post.skip fun _ => Post.skip fun _ => (wop_broadcastBatchTo _ wa.1).bind fun _ h1 => (wop_broadcastBatchTo _ wa.2.2).bind fun _ h2 =>
        (wop_broadcastBatchTo _ wa.2.1).bind fun _ h3 => Post.pure ⟨h1, h2, h3⟩
    | wb d l r m =>
      refine Sim.mono (P := Mat.wo κ) ?_ fun _ h => ⟨h, fun h => nomatch h⟩
      have wl : (Mat.lr l r m).wo κ := wa.2
      refine Sim.ite ((ih (wo_diag κ d)).bind fun x hx => (ih wl).bind fun y hy => low hx.1 hy.1 wa.1 (hx.2 rfl)) ?_
      refine Sim.on (P := fun p : Mat K × Mat K => (p.1.wo κ ∧ p.2.wo κ) ∧ p.1.kind = some .diag) ?_ fun p hp => (ih hp.1.1).bind fun x hx => (ih hp.1.2).bind fun y hy =>
        low hx.1 hy.1 wa.1 (hx.2 hp.2)
      exact fun p hp => ⟨(wop_alignBatch2 (wo_diag κ d) wl) p hp, by
        unfold alignBatch2 at hp
        simp only [bind_ok_iff, pure_eq_ok] at hp
        obtain ⟨_, _, _, h1, _, _, rfl⟩ := hp
        exact kind_broadcastBatchTo rfl _ h1⟩
    | kron l r =>
      refine Sim.ite (dns wa) (Sim.mono (P := Mat.wo κ) ?_ fun _ h => ⟨h, fun h => nomatch h⟩)
      exact Sim.on (wop_alignBatch2 wa.1 wa.2) fun p hp => (ih hp.1).bind fun x hx => (ih hp.2).bind fun y hy => Sim.pure ⟨hx.1, hy.1⟩
    | tiled => exact dns wa

theorem twin_submatrix {sel : Sel} (n : ℕ) {a : Mat K} (wa : a.wo true) : submatrixM B n a sel = submatrixM C n a sel := by
  have hlr : ∀ {l r m : Mat K}, (Mat.lr l r m).wo true → submatrixLR B n l r m sel = submatrixLR C n l r m sel := by
    intro l r m h
    unfold submatrixLR
    rw [(twin_take hT n h.1).1, (twin_take hT n h.2.1).1]
  cases a with
  | lr l r m => exact hlr wa
  | wb d l r m =>
    simp only [submatrixM]
    rw [hlr (l := l) (r := r) (m := m) wa.2]
  | dense t => simp only [submatrixM]; rw [(hT.dense wa).1]
  | kron l r => simp only [submatrixM]; rw [(hT.dense wa).1]
  | tiled n blk reps ax => simp only [submatrixM]; rw [(hT.dense wa).1]
  | _ => rfl
end

/-- C46.  Neither does `B.take` -/
theorem C46_take (c : Cfg K) (m : ℕ) (sel : Sel) (axis : Int) {a : Mat K} (ha : a.wo true) : ToleranceFree c fun B => takeM B m a sel axis :=
  .of fun _ hn n => (twin_take (ops_twin hn n) m ha).1
/-- C46.  or `B.submatrix`. -/
theorem C46_submatrix (c : Cfg K) (m : ℕ) (sel : Sel) {a : Mat K} (ha : a.wo true) : ToleranceFree c fun B => submatrixM B m a sel :=
  .of fun _ hn n => twin_submatrix (ops_twin hn n) m ha

/-! ### C53 -/

variable [IsStrictOrderedRing K] (c : Cfg K)

/-- C53.  Rows, columns and batch elements of a supported matrix can be taken, with every tolerance; not an empty batch.  (`m` bounds the nested calls.) -/
theorem C53_take {a : Mat K} {sel : Sel} {axis : Int} {k : ℕ} {js : List ℕ} (ha : a.Supported) (hw : a.wo true) (h2 : 2 ≤ (den a).rank) (hk : AxisAt (den a).rank axis k)
    (ho : a.takeOk k) (hp : sel.Picks (dim (den a).sh k) js) (hj : 2 ≤ k → js ≠ []) :
    ∃ m r, Returns c (fun B => takeM B m a sel axis) r ∧ r.Valid ∧ IsTake k js (den a) (den r) := by
  obtain ⟨m, hm⟩ := C35_take c a sel axis
  have hx := (C46_take c m sel axis hw).2
  have hk' := axPos_iff.2 hk
  obtain ⟨r, h⟩ := hm.returns hx fun n => by
    by_cases hlt : k < 2
    · exact takeM_mat_calm (c.ok n) (ops_keeps _ n) (c.fineAll n) ha.batch m hlt ha.valid.own ha.fit h2 hk' ho hp
    · obtain ⟨q, rfl⟩ : ∃ q, k = q + 2 := ⟨k - 2, by omega⟩
      have hs := Tensor.sh_eq h2
      have hq : q < (den a).bt.length := by
        have := hk.1; unfold Tensor.rank at this; rw [hs] at this; simpa using this
      exact takeM_batch_calm (c.ok n) (ops_keeps _ n) (c.fineAll n) m hq ha.batch (hj (by omega)) ha.valid.own ha.fit h2 rfl hk' (by rw [hs] at hp; exact hp)
  exact ⟨m, r, h, C13_take c ha.valid h2 hk ho hp h hx⟩

/-- C53.  So can submatrices. -/
theorem C53_submatrix {a : Mat K} {sel : Sel} {js js' : List ℕ} (ha : a.Supported) (hw : a.wo true) (h2 : 2 ≤ (den a).rank) (ho : a.subOk js)
    (h1 : sel.Picks (den a).rows js) (h0 : sel.Picks (den a).cols js') :
    ∃ m r, Returns c (fun B => submatrixM B m a sel) r ∧ IsSubmatrix js js' (den a) (den r) ∧ (a.triOk js → r.Valid) := by
  obtain ⟨m, hm⟩ := C35_submatrix c a sel
  have hx := (C46_submatrix c m sel hw).2
  obtain ⟨r, h⟩ := hm.returns hx fun n => submatrixM_calm (c.ok n) (ops_keeps _ n) (c.fineAll n) ha.batch ha.valid.own ha.fit h2 ho h1 h0
  exact ⟨m, r, h, C14_submatrix c ha.valid h2 ho h1 h0 h hx⟩

/- Rows and batch elements of a batch of Woodbury matrices, and a submatrix of them. -/
example : ∃ m r, Returns Ex.cfg (fun B => takeM B m Ex.Wb (.idx [-1, 0, -1]) (-2)) r ∧ r.Valid ∧ IsTake 1 [1, 0, 1] (den Ex.Wb) (den r) :=
  C53_take _ Ex.Wb_supported Ex.Wb_wo (by decide +kernel) ⟨by decide +kernel, by decide +kernel⟩ (show Mat.rowsOk _ from rfl) (Sel.resolve_picks (by decide +kernel)) (by decide)
example : ∃ m r, Returns Ex.cfg (fun B => takeM B m Ex.Wb (.mask [false, true]) 0) r ∧ r.Valid ∧ IsTake 2 [1] (den Ex.Wb) (den r) :=
  C53_take _ Ex.Wb_supported Ex.Wb_wo (by decide +kernel) ⟨by decide +kernel, by decide +kernel⟩ trivial (Sel.resolve_picks (by decide +kernel)) (by decide)
example : ∃ m r, Returns Ex.cfg (fun B => submatrixM B m Ex.Wb (.idx [-1, 0])) r ∧ IsSubmatrix [1, 0] [1, 0] (den Ex.Wb) (den r) ∧ (Ex.Wb.triOk [1, 0] → r.Valid) :=
  C53_submatrix _ Ex.Wb_supported Ex.Wb_wo (by decide +kernel) ⟨by decide, trivial, trivial⟩ (Sel.resolve_picks (by decide +kernel)) (Sel.resolve_picks (by decide +kernel))

end Verif
