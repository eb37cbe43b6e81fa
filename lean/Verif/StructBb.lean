/-
Broadcasting of the batch axes.
-/
import Verif.StructTr

namespace Verif

variable {K : Type} [CommRing K]

/-- Broadcast of the batch axes of a batch of matrices. -/
def bbT (s : Shp) (t : Tensor K) : Tensor K := bcast (t.cols :: t.rows :: s) t

@[simp] theorem bbT_bt (s : Shp) (t : Tensor K) : (bbT s t).bt = s := rfl
@[simp] theorem bbT_rows (s : Shp) (t : Tensor K) : (bbT s t).rows = t.rows := rfl
@[simp] theorem bbT_cols (s : Shp) (t : Tensor K) : (bbT s t).cols = t.cols := rfl
@[simp] theorem bbT_sh (s : Shp) (t : Tensor K) : (bbT s t).sh = t.cols :: t.rows :: s := rfl
theorem bbT_rank (s : Shp) (t : Tensor K) : 2 ≤ (bbT s t).rank := by simp [Tensor.rank]

theorem Rep.bbT {s : Shp} {t : Tensor K} {r c f} (h : Rep s r c t f) : Rep s r c (bbT s t) f := by
  unfold Verif.bbT
  rw [h.rows, h.cols]
  exact Rep.bcast (Fits.refl _) h.frep.fits h.frep

theorem bbT_good {s : Shp} {t : Tensor K} : Good s (bbT s t) := ⟨bbT_rank s t, Fits.refl _⟩

theorem nBroadcastBatchTo_ok {s : Shp} {t u : Tensor K} (h : nBroadcastBatchTo s t = .ok u) :
    2 ≤ t.rank ∧ Fits s t.bt ∧ t.rank ≤ s.length + 2 ∧ u = bbT s t := by
  unfold nBroadcastBatchTo nBroadcastTo at h
  split_ifs at h with h1 h2
  refine ⟨h1, ?_, by simpa using h2.2, by simpa [bbT] using h.symm⟩
  have := h2.1
  rw [Tensor.sh_eq h1] at this
  simpa using this

theorem nBroadcastBatchTo_of {s : Shp} {t : Tensor K} (h1 : 2 ≤ t.rank) (h2 : Fits s t.bt) (h3 : t.rank ≤ s.length + 2) :
    nBroadcastBatchTo s t = .ok (bbT s t) := by
  unfold nBroadcastBatchTo nBroadcastTo
  rw [if_pos h1, if_pos]
  · rfl
  · exact ⟨Fits.mat h1 rfl rfl h2, by simpa using h3⟩

theorem nBroadcastTo_ok {s : Shp} {t u : Tensor K} :
    nBroadcastTo s t = .ok u ↔ (Fits s t.sh ∧ t.rank ≤ s.length) ∧ bcast s t = u := by
  unfold nBroadcastTo; split_ifs with h <;> simp [h]

theorem at_bbT {s : Shp} {t : Tensor K} {β i j} (hβ : InRange s β) (hs : Good s t) (hi : i < t.rows) (hj : j < t.cols) :
    (bbT s t).at' β i j = t.at' β i j := (Rep.bbT hs.rep).at' β i j hβ hi hj

theorem LowerTri.bbT {s : Shp} {t : Tensor K} (h : LowerTri t) (g : Good s t) : LowerTri (bbT s t) := by
  intro β i j hβ hi hj hij
  rw [at_bbT (s := s) hβ g hi hj, ← Tensor.at'_clip (Fits.refl _)]
  exact h _ i j (inRange_clip _ (g.fits.pos hβ.pos)) hi hj hij

theorem UpperTri.bbT {s : Shp} {t : Tensor K} (h : UpperTri t) (g : Good s t) : UpperTri (bbT s t) := by
  intro β i j hβ hi hj hij
  rw [at_bbT (s := s) hβ g hi hj, ← Tensor.at'_clip (Fits.refl _)]
  exact h _ i j (inRange_clip _ (g.fits.pos hβ.pos)) hi hj hij

/-- What batch broadcasting of a vector of diagonals gives. -/
theorem diagC_bcast {s : Shp} {t : Tensor K} (g : GoodV s t) : diagC (bcast (t.cols :: s) t) = bbT s (diagC t) := by
  have V := VRep.self g.rank g.fits
  have V' : VRep s t.cols (bcast (t.cols :: s) t) t.vat :=
    ⟨by simp [Tensor.rank], rfl, Fits.refl _, fun β i hβ hi =>
      bcast_get (S := t.cols :: s) (by simp [*]) (Fits.refl _) V.fits⟩
  exact Rep.ext (Rep.diagC V') (Rep.bbT (Rep.diagC V)) rfl fun _ _ _ _ _ _ => rfl

theorem bbT_mm {s : Shp} {a b : Tensor K} (ga : Good s a) (gb : Good s b) (h : a.cols = b.rows) :
    bbT s (mm a b) = mm (bbT s a) (bbT s b) := by
  have A := ga.rep
  have B := Rep.self' gb.rank h.symm rfl gb.fits
  exact Rep.ext (A.mm B).bbT (A.bbT.mm B.bbT) (by simp) fun _ _ _ _ _ _ => rfl

theorem bbT_tr {s : Shp} {a : Tensor K} (ga : Good s a) : bbT s (tr a) = tr (bbT s a) :=
  Rep.ext ga.rep.tr.bbT ga.rep.bbT.tr rfl fun _ _ _ _ _ _ => rfl

theorem bbT_zipB {s : Shp} {a b : Tensor K} (op : K → K → K) (ga : Good s a) (gb : Good s b)
    (hr : a.rows = b.rows) (hc : a.cols = b.cols) : bbT s (zipB op a b) = zipB op (bbT s a) (bbT s b) := by
  have A := ga.rep
  have B := Rep.self' gb.rank hr.symm hc.symm gb.fits
  exact Rep.ext (A.zipB op B).bbT (A.bbT.zipB op B.bbT) (by rw [zipB_bt]; simp) fun _ _ _ _ _ _ => rfl

theorem bbT_kronT {s : Shp} {a b : Tensor K} (ga : Good s a) (gb : Good s b) :
    bbT s (kronT a b) = kronT (bbT s a) (bbT s b) :=
  Rep.ext (ga.rep.kronT gb.rep).bbT (ga.rep.bbT.kronT gb.rep.bbT) (by simp [kronT_bt]) fun _ _ _ _ _ _ => rfl

theorem Mat.WF.good {a : Mat K} {S : Shp} (h : a.WF S) (h2 : 2 ≤ (den a).rank) : Good S (den a) := ⟨h2, h.fits⟩

/-- Batch broadcasting, when it returns, denotes the broadcast. -/
theorem broadcastBatchTo_ok {a r : Mat K} {S s : Shp} (h : a.WF S) (hs : Fits s (den a).bt)
    (hr : broadcastBatchTo s a = .ok r) : r.WF s ∧ 2 ≤ (den a).rank ∧ den r = bbT s (den a) ∧ r.kind = a.kind := by
  induction a generalizing S r with
  | num t =>
    simp only [broadcastBatchTo, bind_ok_iff, pure_eq_ok] at hr
    obtain ⟨u, hu, rfl⟩ := hr
    obtain ⟨h1, h2, h3, rfl⟩ := nBroadcastBatchTo_ok hu
    exact ⟨⟨by have := bbT_rank s t; omega, Fits.refl _⟩, h1, rfl, rfl⟩
  | zero bt r c =>
    simp only [broadcastBatchTo, Except.ok.injEq] at hr
    subst hr
    refine ⟨Fits.refl _, by simp [den, Tensor.rank], ?_, rfl⟩
    exact Rep.ext (Rep.fill (Fits.refl _) r c 0) (Rep.fill (bt := bt) hs r c 0).bbT rfl fun _ _ _ _ _ _ => rfl
  | dense t =>
    simp only [broadcastBatchTo, bind_ok_iff, pure_eq_ok] at hr
    obtain ⟨u, hu, rfl⟩ := hr
    obtain ⟨h1, h2, h3, rfl⟩ := nBroadcastBatchTo_ok hu
    rw [mkDense, upT_of_rank (bbT_rank _ _)]
    exact ⟨⟨bbT_rank s t, Fits.refl _⟩, h1, rfl, rfl⟩
  | diag t =>
    simp only [broadcastBatchTo, mkDiag, bind_ok_iff, nBroadcastTo_ok, guardE_ok, pure_eq_ok] at hr
    obtain ⟨u, ⟨_, rfl⟩, _, _, rfl⟩ := hr
    exact ⟨⟨by simp [Tensor.rank], Fits.refl _⟩, by simp [den, Tensor.rank], diagC_bcast ⟨h.1, hs⟩, rfl⟩
  | const t r c =>
    simp only [broadcastBatchTo, bind_ok_iff, nBroadcastTo_ok, pure_eq_ok] at hr
    obtain ⟨u, ⟨⟨hf, _⟩, rfl⟩, rfl⟩ := hr
    refine ⟨Fits.refl _, by simp [den, Tensor.rank], ?_, rfl⟩
    refine Rep.ext (Rep.constM (Fits.refl _) r c) (Rep.constM hf r c).bbT rfl ?_
    intro β _ _ hβ _ _
    exact bcast_get hβ (Fits.refl _) hf
  | lt t =>
    simp only [broadcastBatchTo, mkLT, bind_ok_iff, guardE_ok, pure_eq_ok] at hr
    obtain ⟨u, hu, _, _, rfl⟩ := hr
    obtain ⟨h1, h2, h3, rfl⟩ := nBroadcastBatchTo_ok hu
    exact ⟨⟨bbT_rank s t, Fits.refl _, h.2.2.1, h.2.2.2.bbT ⟨h1, h2⟩⟩, h1, rfl, rfl⟩
  | ut t =>
    simp only [broadcastBatchTo, mkUT, bind_ok_iff, guardE_ok, pure_eq_ok] at hr
    obtain ⟨u, hu, _, _, rfl⟩ := hr
    obtain ⟨h1, h2, h3, rfl⟩ := nBroadcastBatchTo_ok hu
    exact ⟨⟨bbT_rank s t, Fits.refl _, h.2.2.1, h.2.2.2.bbT ⟨h1, h2⟩⟩, h1, rfl, rfl⟩
  | lr l r m ihl ihr ihm =>
    have hw := Mat.WF.mono h hs
    obtain ⟨⟨hl, hr', hm⟩, ⟨rl, rr, rm⟩, h1, h3⟩ := hw
    simp only [broadcastBatchTo, bind_ok_iff] at hr
    obtain ⟨l', el, r', er, m', em, hlr⟩ := hr
    obtain ⟨wl, _, dl, _⟩ := ihl hl hl.fits el
    obtain ⟨wr, _, dr, _⟩ := ihr hr' hr'.fits er
    obtain ⟨wm, _, dm, _⟩ := ihm hm hm.fits em
    obtain ⟨rfl, hw'⟩ := mkLR_inv wl wr wm hlr
    have gl := hl.good rl; have gr := hr'.good rr; have gm := hm.good rm
    refine ⟨hw', by simp [den, Tensor.rank], ?_, rfl⟩
    rw [den, den, dl, dr, dm, bbT_mm (gl.mm gm) gr.tr (by simpa using h3.symm), bbT_mm gl gm h1, bbT_tr gr]
  | wb d l r m ihl ihr ihm =>
    have hw := Mat.WF.mono h hs
    obtain ⟨⟨hd, fd⟩, ⟨hl, hr', hm⟩, ⟨rl, rr, rm⟩, ⟨h1, h3⟩, h4, h5⟩ := hw
    simp only [broadcastBatchTo, bind_ok_iff, nBroadcastTo_ok] at hr
    obtain ⟨d', ⟨_, rfl⟩, _, _, l', el, r', er, m', em, _, _, hwb⟩ := hr
    obtain ⟨wl, _, dl, _⟩ := ihl hl hl.fits el
    obtain ⟨wr, _, dr, _⟩ := ihr hr' hr'.fits er
    obtain ⟨wm, _, dm, _⟩ := ihm hm hm.fits em
    have gl := hl.good rl; have gr := hr'.good rr; have gm := hm.good rm
    have hw' : Mat.WF s (.wb (bcast (d.cols :: s) d) l' r' m') := by
      refine ⟨⟨by simp [Tensor.rank], Fits.refl _⟩, ⟨wl, wr, wm⟩, ?_, ?_, ?_, ?_⟩
      · rw [dl, dr, dm]; exact ⟨bbT_rank _ _, bbT_rank _ _, bbT_rank _ _⟩
      · rw [dl, dr, dm]; exact ⟨h1, h3⟩
      · rw [dl]; exact h4
      · rw [dr]; exact h5
    rw [mkWB_ok hw', Except.ok.injEq] at hwb
    subst hwb
    refine ⟨hw', h.rank rfl, ?_, rfl⟩
    rw [den, den, dl, dr, dm, bbT_zipB _ (Good.diagC ⟨hd, fd⟩) ((gl.mm gm).mm gr.tr) h4.symm h5.symm,
      bbT_mm (gl.mm gm) gr.tr (by simpa using h3.symm), bbT_mm gl gm h1, bbT_tr gr, diagC_bcast ⟨hd, fd⟩]
  | kron l r ihl ihr =>
    have hw := Mat.WF.mono h hs
    obtain ⟨⟨hl, hr'⟩, rl, rr⟩ := hw
    simp only [broadcastBatchTo, bind_ok_iff, pure_eq_ok] at hr
    obtain ⟨l', el, r', er, rfl⟩ := hr
    obtain ⟨wl, _, dl, _⟩ := ihl hl hl.fits el
    obtain ⟨wr, _, dr, _⟩ := ihr hr' hr'.fits er
    refine ⟨⟨⟨wl, wr⟩, by rw [dl]; exact bbT_rank _ _, by rw [dr]; exact bbT_rank _ _⟩, by simp [den, Tensor.rank], ?_, rfl⟩
    rw [den, den, dl, dr, bbT_kronT (hl.good rl) (hr'.good rr)]
  | tiled n blk reps axis ih => simp [broadcastBatchTo] at hr

end Verif
