/-
Success of linear algebra (C50), part 1: what a complete backend returns, and the inverse.
-/
import Verif.Props06
import Verif.Props10

set_option linter.unusedSectionVars false

namespace Verif

variable {K : Type} [Field K] [LinearOrder K]

/-! ### Specification -/

/-- `a` is a batch of invertible matrices. -/
def Tensor.Invertible (a : Tensor K) : Prop := ∃ r, IsInverse a r

/-- `a` is a batch of positive-definite matrices. -/
structure IsPosDef (a : Tensor K) : Prop where
  symm : IsSymm a
  pos : ∀ β (x : ℕ → K), InRange a.bt β → (∃ i < a.rows, x i ≠ 0) →
    0 < ∑ i ∈ Finset.range a.rows, ∑ j ∈ Finset.range a.rows, x i * a.at' β i j * x j

/-- The backend returns where the result exists: inverses, solutions and log-determinants of invertible matrices, Cholesky factors of positive-definite
matrices, decompositions of positive semi-definite matrices, square roots of nonnegative numbers. -/
structure LinEnv.Complete (lin : LinEnv K) : Prop where
  inv : ∀ {a}, a.Invertible → ∃ r, lin.inv a = .ok r
  chol : ∀ {a}, IsPosDef a → ∃ l, lin.chol a = .ok l
  solve : ∀ {a b}, a.Invertible → 2 ≤ b.rank → a.rows = b.rows → Compat a.bt b.bt → ∃ x, lin.solve a b = .ok x
  trisolve : ∀ {lower a b}, 2 ≤ a.rank → (triPart lower a).Invertible → 2 ≤ b.rank → a.rows = b.rows → Compat a.bt b.bt → ∃ x, lin.trisolve lower a b = .ok x
  logdet : ∀ {a}, a.Invertible → ∃ v, lin.logdet a = .ok v
  svd : ∀ {a}, IsPsd a → ∃ us, lin.svd a = .ok us
  sqrt : ∀ {x}, 0 ≤ x → ∃ y, lin.sqrt x = some y

/-- Matrices that `B.inv` inverts: invertible numeric, Dense and Diagonal matrices; Woodbury matrices that are invertible, whose diagonal and middle factor can be inverted
and whose factors are plain; Kronecker products of such matrices. -/
def Mat.InvDom : Mat K → Prop
  | .num t => t.Invertible
  | .dense t => t.Invertible
  | .diag d => (diagC d).Invertible
  | .wb d l r m => (diagC d).Invertible ∧ l.plain = true ∧ r.plain = true ∧ m.InvDom ∧ (den (.wb d l r m)).Invertible
  | .kron l r => l.InvDom ∧ r.InvDom
  | _ => False

/-! ### Invertibility -/

theorem inRange_of_fits {S s : Shp} {β : Idx} (h0 : 0 ∉ S) (hf : Fits S s) (h : InRange s β) : InRange S β := by
  intro k
  have h1 := h k
  have h2 := inRange_clip (s := S) (fun _ => 0) h0 k
  rcases hf k with e | e
  · omega
  · omega

/-- Invertibility, one batch element at a time. -/
theorem invertible_iff {S : Shp} (h0 : 0 ∉ S) {n : ℕ} {a : Tensor K} {A} (ha : MRep S n n a A) :
    a.Invertible ↔ ∀ β, InRange S β → ∃ R, A β * R = 1 := by
  constructor
  · rintro ⟨r, h⟩ β hβ
    have hn := ha.rows
    subst hn
    obtain ⟨A', R', h1, h2, h3⟩ := h.mrep ha.good
    exact ⟨R' β, by rw [ha.unique h1 hβ]; exact h3 β hβ⟩
  · intro h
    choose! R hR using h
    have hf : Fits S a.bt := ha.bt
    let r : Tensor K := mkMat a.bt n n fun β i j => if h : i < n ∧ j < n then R β ⟨i, h.1⟩ ⟨j, h.2⟩ else 0
    have hr : MRep a.bt n n r R := by
      refine ⟨by simp [r, mkMat, Tensor.rank], rfl, rfl, Fits.refl _, fun β i j hβ => ?_⟩
      have := at_mkMat (S := a.bt) (bt := a.bt) (r := n) (c := n) (β := β) (i := i) (j := j)
        (fun β i j => if h : i < n ∧ j < n then R β ⟨i, h.1⟩ ⟨j, h.2⟩ else 0) hβ (Fits.refl _) i.2 j.2
      rw [show r.at' β i j = _ from this, dif_pos ⟨i.2, j.2⟩, clip_of_inRange hβ]
    have ha' : MRep a.bt n n a fun β => mxOf a β n n := MRep.of ⟨ha.rank, Fits.refl _⟩ ha.rows ha.cols
    refine ⟨r, IsInverse.of_mrep ha' hr ?_ fun β hβ => ?_⟩
    · rw [ha'.good.sh, ha.rows, ha.cols]; rfl
    · have hS := inRange_of_fits h0 hf hβ
      rw [ha.mxOf hS]
      exact hR β hS

theorem Tensor.Invertible.rank {a : Tensor K} (h : a.Invertible) : 2 ≤ a.rank := h.elim fun _ h => h.rank
theorem Tensor.Invertible.square {a : Tensor K} (h : a.Invertible) : a.rows = a.cols := h.elim fun _ h => h.square

/-- The Schur complement is invertible. -/
theorem schur_inverse {n k : ℕ} (D Di W Wi : Matrix (Fin n) (Fin n) K) (L R : Matrix (Fin n) (Fin k) K) (M Mi : Matrix (Fin k) (Fin k) K)
    (hD : D * Di = 1) (hM : M * Mi = 1) (hW : W * Wi = 1) (e : W = D + L * M * R.transpose) :
    (Mi + R.transpose * Di * L) * (M - M * R.transpose * Wi * L * M) = 1 := by
  have hD' : Di * D = 1 := mul_eq_one_comm.1 hD
  have hM' : Mi * M = 1 := mul_eq_one_comm.1 hM
  have h1 : Di * (L * M * R.transpose) * Wi = Di - Wi := by
    have : L * M * R.transpose = W - D := by rw [e]; abel
    rw [this, Matrix.mul_sub, hD', Matrix.sub_mul, Matrix.mul_assoc, hW, Matrix.mul_one, Matrix.one_mul]
  have h2 : R.transpose * Di * L * (M * R.transpose * Wi * L * M) = R.transpose * (Di * (L * M * R.transpose) * Wi) * L * M := by
    simp only [Matrix.mul_assoc]
  have h3 : Mi * (M * R.transpose * Wi * L * M) = R.transpose * Wi * L * M := by
    simp only [← Matrix.mul_assoc, hM', Matrix.one_mul]
  rw [Matrix.add_mul, Matrix.mul_sub, Matrix.mul_sub, hM', h2, h3, h1, Matrix.mul_sub, Matrix.sub_mul, Matrix.sub_mul]
  abel

theorem diag_ne {d : Tensor K} (h1 : 1 ≤ d.rank) (h : (diagC d).Invertible) : ∀ i, InRange d.sh i → d.get i ≠ 0 := by
  intro i hi
  obtain ⟨r, h⟩ := h
  obtain ⟨x, s, e⟩ : ∃ x s, d.sh = x :: s := by
    cases e : d.sh with
    | nil => simp [Tensor.rank, e] at h1
    | cons x s => exact ⟨x, s, rfl⟩
  rw [e, inRange_cons'] at hi
  have hc : d.cols = x := by simp [Tensor.cols, e]
  have hb : (diagC d).bt = s := by simp [diagC_bt, e]
  have := h.right (itail i) (i 0) (i 0) (by rw [hb]; exact hi.2) (by rw [diagC_rows, hc]; exact hi.1) (by rw [diagC_rows, hc]; exact hi.1)
  intro h0
  rw [if_pos rfl] at this
  refine zero_ne_one (α := K) (this ▸ (Finset.sum_eq_zero fun k hk => ?_).symm)
  rw [Finset.mem_range, diagC_rows] at hk
  have g : GoodV s d := ⟨h1, by rw [e]; exact Fits.refl _⟩
  have := (MRep.diagC g).at' (itail i) ⟨i 0, by rw [hc]; exact hi.1⟩ ⟨k, hk⟩ hi.2
  simp only at this
  rw [this, Matrix.diagonal_apply]
  split_ifs with hik
  · have : d.vat (itail i) (i 0) = d.get i := by
      show d.get _ = d.get _
      congr 1
      funext q
      rcases q with _ | q <;> rfl
    rw [this, h0, zero_mul]
  · rw [zero_mul]

theorem nDiv_calm {a b : Tensor K} (hc : Compat a.sh b.sh) (h : ∀ i, InRange b.sh i → b.get i ≠ 0) : Calm (nDiv a b) := by
  unfold nDiv
  rw [if_pos hc, if_pos]
  · exact Calm.ok
  · intro n hn
    exact h _ (inRange_unlin hn)

theorem compat_sh {S : Shp} {a b : Tensor K} (ga : Good S a) (gb : Good S b) (hr : a.rows = b.rows) (hc : a.cols = b.cols) : Compat a.sh b.sh := by
  rw [ga.sh, gb.sh, hr, hc]
  exact compat_cons.2 ⟨.inr (.inr rfl), compat_cons.2 ⟨.inr (.inr rfl), ga.fits.compat gb.fits⟩⟩

theorem plain_fit {a : Mat K} (h : a.plain = true) (κ : Bool) : a.fit κ := by
  cases a <;> first | trivial | exact absurd h (by simp [Mat.plain])

theorem kind_dense_fit {a : Mat K} (h : a.kind = some .dense) (κ : Bool) : a.fit κ := by
  cases a <;> first | trivial | simp [Mat.kind] at h

/-- Subtraction of matrices of equal shape raises nothing. -/
theorem subtractM_calm' {S : Shp} {env : Env K} {B : Ops K} (hF : B.Fine S) {v : Tensor K} {b : Mat K} (ha : (Mat.diag v).WF S) (hb : b.WF S) (fb : b.fit true)
    (k : 2 ≤ (den b).rank) (hr : (den b).rows = v.cols) (hc : (den b).cols = v.cols) (hn : b.isAM = true) : Calm (subtractM env B (.diag v) b) := by
  obtain ⟨z, ez, fz, _⟩ := negativeM_keeps hb fb
  obtain ⟨wz, dz, kz⟩ := negativeM_ok hb ez
  have e : convertAM env b = b := by cases b <;> first | rfl | simp [Mat.isAM] at hn
  have e' : convertAM env (.diag v : Mat K) = .diag v := rfl
  have s : subtractM env B (.diag v) b = (do B.add (.diag v) (← negativeM b)) := by
    simp only [subtractM, e, e']
  rw [s]
  refine Calm.step ez ?_
  have rz : (den z).rows = v.cols := by rw [dz]; exact hr
  have cz : (den z).cols = v.cols := by rw [dz]; exact hc
  have r1 : (den (.diag v : Mat K)).rows = v.cols := rfl
  have c1 : (den (.diag v : Mat K)).cols = v.cols := rfl
  have gz : Good S (den z) := wz.good (by rw [dz]; exact k)
  exact hF.add ha wz trivial fz (noStretch_of_eq (r1.trans rz.symm) (c1.trans cz.symm))
    (compat_sh (ha.good (by simp [den, Tensor.rank])) gz (r1.trans rz.symm) (c1.trans cz.symm))

/-! ### The inverse -/

/-- `B.inv` raises nothing. -/
def InvCalm (S : Shp) (L : LOps K) : Prop := ∀ {a}, Mat.WF S a → a.fit true → a.InvDom → Calm (L.inv a)
/-- `B.inv` keeps matrices within the supported classes. -/
def InvFit (L : LOps K) : Prop := ∀ {S κ a}, Mat.WF S a → a.fit κ → Post (Mat.fit κ) (L.inv a)

section
variable {S : Shp} {env env' : Env K} {lin : LinEnv K} {B : Ops K} {L : LOps K}

theorem stepInv_fit (hB : B.Ok) (hK : B.Keeps) (hI : InvC L) (hf : InvFit L) : InvFit (lstep env lin B L) := by
  intro S κ a wa fa x h
  change stepInv env lin B L a = .ok x at h
  unfold stepInv at h
  split at h
  · simp only [bind_ok_iff, pure_eq_ok] at h
    obtain ⟨_, _, rfl⟩ := h
    trivial
  · simp only [bind_ok_iff, pure_eq_ok] at h
    obtain ⟨_, _, rfl⟩ := h
    trivial
  · simp only [bind_ok_iff, mkDiag_ok] at h
    obtain ⟨_, _, _, rfl⟩ := h
    trivial
  · rename_i d l r m
    simp only [invWB, schurM, bind_ok_iff] at h
    obtain ⟨di, hdi, dl, hdl, dr, hdr, s, ⟨di', hdi', sec, hsec, mi, hmi, hs⟩, si, hsi, lr, hlr, h⟩ := h
    rw [hdi] at hdi'
    cases hdi'
    obtain ⟨o1, k1⟩ := hI wa.wbDiag hdi
    obtain ⟨o2, _⟩ := hI wa.wbLr.1.2.2 hmi
    have hs' := schur_ok hB wa o1 o2 hsec hs
    obtain ⟨o3, _⟩ := hI hs'.1 hsi
    obtain ⟨fl, fr, fm⟩ := fa
    obtain ⟨v, rfl⟩ := kind_diag k1
    have fsec := fitp_matmul3 hK fr (fit_diag false v) fl sec hsec
    have fs := hK.add (hf wa.wbLr.1.2.2 fm mi hmi) fsec s hs
    have fsi := hf hs'.1 fs si hsi
    have m1 := hB.matmul o1.wf wa.wbLr.1.1 o1.rank' wa.wbLr.2.1.1 hdl
    have m2 := hB.matmul o1.wf wa.wbLr.1.2.1 o1.rank' wa.wbLr.2.1.2.1 hdr
    obtain ⟨rfl, wlr⟩ := mkLR_inv m1.wf m2.wf o3.wf hlr
    have flr : (Mat.lr dl dr si).fit false := ⟨hK.matmul (fit_diag false v) fl _ hdl, hK.matmul (fit_diag false v) fr _ hdr, fsi⟩
    obtain ⟨z, ez, fz, _⟩ := negativeM_keeps wlr flr
    have h : (do B.add (.diag v) (← negativeM (.lr dl dr si))) = .ok x := h
    rw [ez] at h
    exact (hK.add (fit_diag false v) fz x h).of
  · rename_i l r
    simp only [bind_ok_iff, pure_eq_ok] at h
    obtain ⟨li, h1, ri, h2, rfl⟩ := h
    exact ⟨fa.1, hf wa.1.1 fa.2.1 li h1, hf wa.1.2 fa.2.2 ri h2⟩
  · cases h

theorem stepInv_calm (h0 : 0 ∉ S) (hc : lin.Complete) (hB : B.Ok) (hF : B.Fine S) (hK : B.Keeps) (hA : AddKinds env' B) (hM : MmKinds env' B)
    (hI : InvC L) (hf : InvFit L) (hcalm : InvCalm S L) : InvCalm S (lstep env lin B L) := by
  intro a wa fa da
  show Calm (stepInv env lin B L a)
  unfold stepInv
  split
  · exact Calm.bind (Calm.ex (hc.inv da)) fun _ _ => Calm.pure
  · exact Calm.bind (Calm.ex (hc.inv da)) fun _ _ => Calm.pure
  · rename_i d
    refine Calm.bind (nDiv_calm (Compat.nil_left _) (diag_ne wa.1 da)) fun u hu => ?_
    obtain ⟨_, _, rfl⟩ := nDiv_ok hu
    exact Calm.of (mkDiag_of (by rw [Tensor.rank, recip_sh]; exact wa.1))
  · rename_i d l r m
    obtain ⟨dd, pl, pr, dm, dw⟩ := da
    obtain ⟨fl, fr, fm⟩ := fa
    have wa' := wa
    obtain ⟨⟨hd, fd⟩, ⟨wl, wr, wm⟩, ⟨kl, kr, km⟩, ⟨e1, e2⟩, e3, e4⟩ := wa
    have wd : (Mat.diag d).WF S := ⟨hd, fd⟩
    unfold invWB
    refine Calm.bind (hcalm wd trivial dd) fun di hdi => ?_
    obtain ⟨o1, k1⟩ := hI wd hdi
    obtain ⟨v, rfl⟩ := kind_diag k1
    have vc : v.cols = d.cols := rows_of_sh o1.inv.shape
    have fv : (Mat.diag v).fit false := trivial
    refine Calm.bind (hF.matmul (ta := false) (tb := false) o1.wf wl trivial fl.up o1.rank' kl (vc.trans e3.symm) (KDom.flat rfl (fit_notKron fl))) fun dl hdl => ?_
    refine Calm.bind (hF.matmul (ta := false) (tb := false) o1.wf wr trivial fr.up o1.rank' kr (vc.trans e4.symm) (KDom.flat rfl (fit_notKron fr))) fun dr hdr => ?_
    have sch : Calm (schurM B L d l r m) ∧ ∀ s, schurM B L d l r m = .ok s → s.WF S ∧ s.kind = some .dense ∧ (den s).Invertible ∧ (den s).rows = (den m).rows ∧
        (den m).rows = (den m).cols := by
      unfold schurM
      refine ⟨Calm.step hdi (Calm.bind (matmul3_calm hF hB hK wr o1.wf wl fr fv fl kr o1.rank' kl ?_ ?_) fun sec hsec =>
        Calm.bind (hcalm wm fm.up dm) fun mi hmi => ?_), fun s hs => ?_⟩
      · exact e4.trans vc.symm
      · exact vc.trans e3.symm
      · obtain ⟨o2, _⟩ := hI wm hmi
        obtain ⟨ws, _, _, es⟩ := matmul3_ok hB wr o1.wf wl kr o1.rank' kl hsec
        simp only [trIf_true, trIf_false] at es
        have sq := o2.inv.square
        have r1 : (den sec).rows = (den m).rows := by rw [es, mm_rows, mm_rows, tr_rows, e2, sq]
        have c1 : (den sec).cols = (den m).rows := by rw [es, mm_cols, e1]
        have r2 : (den mi).rows = (den m).rows := rows_of_sh o2.inv.shape
        have c2 : (den mi).cols = (den m).rows := (cols_of_sh o2.inv.shape).trans sq.symm
        have gs : Good S (den sec) := ws.good (by rw [es]; simp [mm, mkMat, Tensor.rank])
        exact hF.add o2.wf ws (hf wm fm _ hmi).up (fitp_matmul3 hK fr fv fl _ hsec).up (noStretch_of_eq (r2.trans r1.symm) (c2.trans c1.symm))
          (compat_sh o2.good' gs (r2.trans r1.symm) (c2.trans c1.symm))
      · simp only [hdi, bind_ok_iff, Except.ok.injEq, exists_eq_left'] at hs
        obtain ⟨sec, hsec, mi, hmi, hs⟩ := hs
        obtain ⟨o2, _⟩ := hI wm hmi
        obtain ⟨ws, es, sr, sc⟩ := schur_ok hB wa' o1 o2 hsec hs
        refine ⟨ws, kind_add_dense hA (kind_second hM wl wr o1.wf kl kr pl pr hB hsec) hs, ?_, sr, o2.inv.square⟩
        obtain ⟨M1, M2, HM⟩ := o2.inv.mrep' (wm.good km) rfl
        obtain ⟨D1, D2, HD⟩ := o1.inv.mrep' (n := d.cols) (o1.good wd) rfl
        have L1 : MRep S d.cols (den m).rows (den l) _ := MRep.of (wl.good kl) e3 e1
        have R1 : MRep S d.cols (den m).rows (den r) _ := MRep.of (wr.good kr) e4 (e2.trans o2.inv.square.symm)
        have S1 := M2.add ((R1.tr.mm D2).mm L1)
        rw [← es] at S1
        have A : MRep S d.cols d.cols (den (.wb d l r m)) _ := D1.add ((L1.mm M1).mm R1.tr)
        refine (invertible_iff h0 S1).2 fun β hβ => ?_
        obtain ⟨Wi, hW⟩ := (invertible_iff h0 A).1 dw β hβ
        exact ⟨_, schur_inverse _ _ _ Wi _ _ _ _ (HD β hβ) (HM β hβ) hW rfl⟩
    refine Calm.bind sch.1 fun s hs => ?_
    obtain ⟨ws, ks, is, sr, msq⟩ := sch.2 s hs
    have ds : s.InvDom := by
      cases s <;> simp [Mat.kind] at ks
      exact is
    refine Calm.bind (hcalm ws (kind_dense_fit ks true) ds) fun si hsi => ?_
    obtain ⟨o3, k3⟩ := hI ws hsi
    have m1 := hB.matmul o1.wf wl o1.rank' kl hdl
    have m2 := hB.matmul o1.wf wr o1.rank' kr hdr
    have m1e := m1.eq
    have m2e := m2.eq
    simp only [trIf_false] at m1e m2e
    have i1 : (den dl).cols = (den si).rows := by rw [m1e, mm_cols, e1, rows_of_sh o3.inv.shape, sr]
    have i2 : (den dr).cols = (den si).cols := by rw [m2e, mm_cols, e2, cols_of_sh o3.inv.shape, ← o3.inv.square, sr, msq]
    refine Calm.step (mkLR_ok m1.wf m2.wf o3.wf ⟨m1.rank, m2.rank, o3.rank'⟩ i1 i2) ?_
    have wlr : (Mat.lr dl dr si).WF S := ⟨⟨m1.wf, m2.wf, o3.wf⟩, ⟨m1.rank, m2.rank, o3.rank'⟩, i1, i2⟩
    refine subtractM_calm' hF o1.wf wlr ⟨hK.matmul fv fl _ hdl, hK.matmul fv fr _ hdr, kind_dense_fit (k3.trans ks) _⟩ (wlr.rank rfl) ?_ ?_ rfl
    · show (mm (mm (den dl) (den si)) (tr (den dr))).rows = _
      rw [mm_rows, mm_rows, m1e, mm_rows]; rfl
    · show (mm (mm (den dl) (den si)) (tr (den dr))).cols = _
      rw [mm_cols, tr_cols, m2e, mm_rows]; rfl
  · rename_i l r
    exact Calm.bind (hcalm wa.1.1 fa.2.1 da.1) fun _ _ => Calm.bind (hcalm wa.1.2 fa.2.2 da.2) fun _ _ => Calm.pure
  · exact absurd da (by simp_all [Mat.InvDom])

end

end Verif
