/-
The inverse: correctness of one unfolding.
-/
import Verif.LinSpec
import Verif.Kinds
import Verif.OpsRest
import Verif.Constr

set_option linter.unusedSectionVars false

namespace Verif

variable {K : Type} [Field K] [LinearOrder K]

/-! ### Tensor level -/

theorem GoodV.self {v : Tensor K} (h : 1 ≤ v.rank) : GoodV v.sh.tail v := ⟨h, Fits.refl _⟩

theorem Tensor.vat_ne {v : Tensor K} (h : 1 ≤ v.rank) (h0 : ∀ i, InRange v.sh i → v.get i ≠ 0) {β : Idx} {i : ℕ} (hβ : InRange v.sh.tail β)
    (hi : i < v.cols) : v.vat β i ≠ 0 := by
  refine h0 _ ?_
  obtain ⟨x, s, e⟩ : ∃ x s, v.sh = x :: s := by
    cases e : v.sh with
    | nil => simp [Tensor.rank, e] at h
    | cons x s => exact ⟨x, s, rfl⟩
  rw [e, inRange_cons]
  simp only [e, List.tail_cons] at hβ
  simp only [Tensor.cols, e, dim] at hi
  exact ⟨by simpa using hi, hβ⟩

theorem recip_sh (d : Tensor K) : (zipB (· / ·) (scalarT 1) d).sh = d.sh := by simp

theorem recip_vrep {S : Shp} {d : Tensor K} (g : GoodV S d) : VRep S d.cols (zipB (· / ·) (scalarT 1) d) fun β i => 1 / d.vat β i := by
  refine ⟨by simpa [Tensor.rank] using g.rank, by simp [Tensor.cols], by rw [recip_sh]; exact g.fits, fun β i hβ hi => ?_⟩
  have := vat_zipB (K := K) (· / ·) (a := scalarT 1) (b := d) (S := S) (n := d.cols) (β := β) (i := i) hβ hi (Fits.nil _) (VRep.self g.rank g.fits).fits
  rw [this]; simp [Tensor.vat]

theorem diag_inverse {d : Tensor K} (h1 : 1 ≤ d.rank) (h0 : ∀ i, InRange d.sh i → d.get i ≠ 0) :
    IsInverse (diagC d) (diagC (zipB (· / ·) (scalarT 1) d)) := by
  have g := GoodV.self h1
  have v := recip_vrep g
  have m1 := MRep.diagC g
  have m2 := MRep.diagC (v := zipB (· / ·) (scalarT 1) d) ⟨v.rank, v.bt⟩
  rw [v.len] at m2
  refine IsInverse.of_mrep (n := d.cols) m1 m2 (by simp only [diagC, mkMat, ofFn, recip_sh, Tensor.cols]) fun β hβ => ?_
  rw [Matrix.diagonal_mul_diagonal, ← Matrix.diagonal_one]
  congr 1
  funext i
  have h := v.vat β i hβ i.2
  rw [h, mul_one_div, div_self (Tensor.vat_ne h1 h0 hβ i.2)]

/-- The inverse over its own batch universe. -/
theorem IsInverse.mrep' {S : Shp} {a r : Tensor K} {n : ℕ} (h : IsInverse a r) (g : Good S a) (hn : a.rows = n) :
    MRep S n n a (fun β => mxOf a β n n) ∧ MRep S n n r (fun β => mxOf r β n n) ∧ ∀ β, InRange S β → mxOf a β n n * mxOf r β n n = 1 := by
  subst hn
  have gr : Good S r := ⟨by rw [rank_of_sh h.shape]; exact g.rank, by rw [bt_of_sh h.shape]; exact g.fits⟩
  refine ⟨MRep.of g rfl h.square.symm, MRep.of gr (rows_of_sh h.shape) ((cols_of_sh h.shape).trans h.square.symm), fun β hβ => ?_⟩
  have hb := inRange_clip β (g.fits.pos hβ.pos)
  have := h.mul hb
  rw [mxOf_clip_self] at this
  rw [← bt_of_sh h.shape, mxOf_clip_self] at this
  exact this

/-- The matrix inversion lemma. -/
theorem woodbury_identity {n k : ℕ} (D Di : Matrix (Fin n) (Fin n) K) (L R : Matrix (Fin n) (Fin k) K) (M Mi Si : Matrix (Fin k) (Fin k) K)
    (hD : D * Di = 1) (hM : M * Mi = 1) (hS : (Mi + R.transpose * Di * L) * Si = 1) :
    (D + L * M * R.transpose) * (Di - Di * L * Si * (Di.transpose * R).transpose) = 1 := by
  rw [Matrix.transpose_mul, Matrix.transpose_transpose]
  have h1 : M * (R.transpose * Di * L * Si) = M - Si := by
    have h : M * ((Mi + R.transpose * Di * L) * Si) = M := by rw [hS, Matrix.mul_one]
    rw [Matrix.add_mul, Matrix.mul_add, ← Matrix.mul_assoc M Mi Si, hM, Matrix.one_mul] at h
    exact eq_sub_of_add_eq' h
  have h2 : D * (Di * L * Si * (R.transpose * Di)) = L * Si * (R.transpose * Di) := by
    simp only [← Matrix.mul_assoc, hD, Matrix.one_mul]
  have h3 : L * M * R.transpose * (Di * L * Si * (R.transpose * Di)) = L * (M - Si) * (R.transpose * Di) := by
    rw [← h1]; simp only [Matrix.mul_assoc]
  rw [Matrix.mul_sub, Matrix.add_mul, Matrix.add_mul, hD, h2, h3, Matrix.mul_sub L M Si, Matrix.sub_mul]
  simp only [Matrix.mul_assoc]
  abel

/-! ### The contract -/

/-- What `B.inv` promises. -/
structure InvOk (S : Shp) (a r : Mat K) : Prop where
  wf : r.WF S
  inv : IsInverse (den a) (den r)

theorem InvOk.good {S : Shp} {a r : Mat K} (h : InvOk S a r) (ha : a.WF S) : Good S (den a) := ha.good h.inv.rank
theorem InvOk.good' {S : Shp} {a r : Mat K} (h : InvOk S a r) : Good S (den r) := h.wf.good (by rw [rank_of_sh h.inv.shape]; exact h.inv.rank)
theorem InvOk.rank' {S : Shp} {a r : Mat K} (h : InvOk S a r) : 2 ≤ (den r).rank := h.good'.rank

section
variable {env : Env K} {B : Ops K} (hB : B.Ok)
include hB

/-- Both Schur complements: `Mi + Rᵀ Di L`. -/
theorem schur_ok {T : Shp} {d : Tensor K} {l r m di mi sec s : Mat K} (ha : Mat.WF T (.wb d l r m)) (hdi : InvOk T (.diag d) di) (hmi : InvOk T m mi)
    (h1 : matmul3 B true false false r di l = .ok sec) (h2 : B.add mi sec = .ok s) :
    s.WF T ∧ den s = zipB (· + ·) (den mi) (mm (mm (tr (den r)) (den di)) (den l)) ∧ (den s).rows = (den m).rows ∧ (den s).cols = (den m).rows := by
  obtain ⟨⟨hd, fd⟩, ⟨wl, wr, wm⟩, ⟨kl, kr, km⟩, ⟨e1, e2⟩, e3, e4⟩ := ha
  obtain ⟨ws, _, _, es⟩ := matmul3_ok hB wr hdi.wf wl kr hdi.rank' kl h1
  simp only [trIf_true, trIf_false] at es
  have sq := hmi.inv.square
  have r1 : (den sec).rows = (den m).rows := by rw [es, mm_rows, mm_rows, tr_rows, e2, sq]
  have c1 : (den sec).cols = (den m).rows := by rw [es, mm_cols, e1]
  have r2 : (den mi).rows = (den m).rows := rows_of_sh hmi.inv.shape
  have c2 : (den mi).cols = (den m).rows := (cols_of_sh hmi.inv.shape).trans sq.symm
  have z := hB.add hmi.wf ws (noStretch_of_eq (r2.trans r1.symm) (c2.trans c1.symm)) h2
  refine ⟨z.wf, by rw [z.eq, es], ?_, ?_⟩
  · rw [z.eq, zipB_rows, r1, r2, bd_self]
  · rw [z.eq, zipB_cols, c1, c2, bd_self]

/-- `Di - (Di L) Si (Di R)ᵀ` is the inverse of `D + L M Rᵀ`. -/
theorem wbInv_ok {T : Shp} {d : Tensor K} {l r m di mi s si dl dr lr x : Mat K} (ha : Mat.WF T (.wb d l r m)) (hT : T = (den (.wb d l r m)).bt)
    (hdi : InvOk T (.diag d) di) (hdd : ∃ v, di = .diag v) (hmi : InvOk T m mi)
    (hs : s.WF T ∧ den s = zipB (· + ·) (den mi) (mm (mm (tr (den r)) (den di)) (den l)) ∧ (den s).rows = (den m).rows ∧ (den s).cols = (den m).rows)
    (hsi : InvOk T s si) (h1 : B.matmul false false di l = .ok dl) (h2 : B.matmul false false di r = .ok dr) (h3 : mkLR dl dr si = .ok lr)
    (h4 : subtractM env B di lr = .ok x) : InvOk T (.wb d l r m) x := by
  have ha' := ha
  obtain ⟨⟨hd, fd⟩, ⟨wl, wr, wm⟩, ⟨kl, kr, km⟩, ⟨e1, e2⟩, e3, e4⟩ := ha
  obtain ⟨ws, es, sr, sc⟩ := hs
  have m1 := hB.matmul hdi.wf wl hdi.rank' kl h1
  have m2 := hB.matmul hdi.wf wr hdi.rank' kr h2
  obtain ⟨rfl, wlr⟩ := mkLR_inv m1.wf m2.wf hsi.wf h3
  have m1e := m1.eq
  have m2e := m2.eq
  simp only [trIf_false] at m1e m2e
  have dr1 : (den di).rows = d.cols := rows_of_sh hdi.inv.shape
  have dc1 : (den di).cols = d.cols := (cols_of_sh hdi.inv.shape).trans rfl
  have elr : den (.lr dl dr si) = mm (mm (den dl) (den si)) (tr (den dr)) := rfl
  have z := subtractM_ok (env := env) hB hdi.wf wlr (noStretch_of_eq (by rw [elr, mm_rows, mm_rows, m1e, mm_rows]) (by rw [elr, mm_cols, tr_cols, m2e, mm_rows, dr1, dc1])) h4
  refine ⟨z.wf, ?_⟩
  -- matrices
  set n := d.cols with hn
  set k := (den m).rows with hk
  obtain ⟨M1, M2, HM⟩ := hmi.inv.mrep' (wm.good km) rfl
  rw [← hk] at M1 M2 HM
  obtain ⟨D1, D2, HD⟩ := hdi.inv.mrep' (n := n) (hdi.good ha'.wbDiag) rfl
  have L1 : MRep T n k (den l) _ := MRep.of (wl.good kl) e3 e1
  have R1 : MRep T n k (den r) _ := MRep.of (wr.good kr) e4 (e2.trans hmi.inv.square.symm)
  obtain ⟨S1, S2, HS⟩ := hsi.inv.mrep' (n := k) (ws.good hsi.inv.rank) sr
  have S1' := (M2.add ((R1.tr.mm D2).mm L1))
  rw [← es] at S1'
  have A : MRep T n n (den (.wb d l r m)) _ := D1.add ((L1.mm M1).mm R1.tr)
  have X := D2.sub (((D2.mm L1).mm S2).mm (D2.mm R1).tr)
  have ex : den x = zipB (· - ·) (den di) (mm (mm (mm (den di) (den l)) (den si)) (tr (mm (den di) (den r)))) := by rw [z.eq, elr, m1e, m2e]
  rw [← ex] at X
  have bd1 : (den di).bt = d.sh.tail := bt_of_sh hdi.inv.shape
  have bm1 : (den mi).bt = (den m).bt := bt_of_sh hmi.inv.shape
  have bs1 : (den si).bt = (den s).bt := bt_of_sh hsi.inv.shape
  have hbt : (den x).bt = (den (.wb d l r m)).bt := by
    rw [ex]
    simp only [den, zipB_bt, diagC_bt, mm_bt, tr_bt, bd1, bs1, es, bm1]
    bsh_ac
  subst hT
  refine IsInverse.of_mrep A X ?_ fun β hβ => ?_
  · rw [X.good.sh, A.good.sh, A.rows, A.cols, X.rows, X.cols, hbt]
  · have hS : (mxOf (den mi) β k k + (mxOf (den r) β n k).transpose * mxOf (den di) β n n * mxOf (den l) β n k) * mxOf (den si) β k k = 1 := by
      have := HS β hβ
      rwa [← S1'.unique S1 hβ] at this
    have sym : (mxOf (den di) β n n).transpose = mxOf (den di) β n n := by
      obtain ⟨v, rfl⟩ := hdd
      have D3 := MRep.diagC (v := v) ⟨hdi.wf.1, hdi.wf.2⟩
      have e : v.cols = n := dc1
      rw [e] at D3
      rw [D2.unique D3 hβ, Matrix.diagonal_transpose]
    have := woodbury_identity _ _ (mxOf (den l) β n k) (mxOf (den r) β n k) _ _ _ (HD β hβ) (HM β hβ) hS
    rw [sym] at this
    exact this

end

/-! ### One unfolding of `B.inv` -/

/-- The contract of `B.inv`: an inverse of the same class. -/
def InvC (L : LOps K) : Prop := ∀ {S a r}, Mat.WF S a → L.inv a = .ok r → InvOk S a r ∧ r.kind = a.kind

theorem kind_diag {a : Mat K} (h : a.kind = some .diag) : ∃ v, a = .diag v := by
  cases a <;> simp_all [Mat.kind]

/-- `Diagonal + LowRank` is a Woodbury matrix. -/
theorem kind_subtract_lr {env env' : Env K} {B : Ops K} (hk : AddKinds env' B) {v : Tensor K} {l r m x : Mat K}
    (h : subtractM env B (.diag v) (.lr l r m) = .ok x) : x.kind = some .wb := by
  simp only [subtractM, convertAM, negativeM, bind_ok_iff] at h
  obtain ⟨y, hy, h⟩ := h
  have e : y.kind = some .lr := by
    obtain ⟨_, _, hy⟩ := hy
    exact kind_mkLR _ hy
  obtain ⟨k, hk1, hk2⟩ := hk.am (a := .diag v) rfl e x h
  simp [addOut] at hk1
  rw [hk2, hk1]

theorem IsInverse.kron {S : Shp} {a b r s : Tensor K} (h1 : IsInverse a r) (h2 : IsInverse b s) (ga : Good S a) (gb : Good S b) :
    IsInverse (kronT a b) (kronT r s) := by
  have g : Good S (kronT a b) := ga.kronT gb
  have gg : (kronT a b).bt = bsh a.bt b.bt := rfl
  have c : Compat a.bt b.bt := ga.fits.compat gb.fits
  have ga' : Good (bsh a.bt b.bt) a := ⟨ga.rank, c.fits_left⟩
  have gb' : Good (bsh a.bt b.bt) b := ⟨gb.rank, c.fits_right⟩
  obtain ⟨A, R, HA⟩ := h1.mrep' ga' rfl
  obtain ⟨B, S, HB⟩ := h2.mrep' gb' rfl
  refine IsInverse.of_mrep (A.kron B) (R.kron S) ?_ fun β hβ => ?_
  · rw [(R.kron S).good.sh, (A.kron B).good.sh, (R.kron S).rows, (R.kron S).cols, (A.kron B).rows, (A.kron B).cols]
    show _ :: _ :: bsh r.bt s.bt = _
    rw [bt_of_sh h1.shape, bt_of_sh h2.shape]; rfl
  · rw [kronMx_mul, HA β hβ, HB β hβ, kronMx_one]

section
variable {env env' : Env K} {lin : LinEnv K} {B : Ops K} {L : LOps K} (hl : lin.Lawful) (hB : B.Ok) (hk : AddKinds env' B)
include hl hB hk

theorem stepInv_ok (hL : InvC L) : InvC (lstep env lin B L) := by
  intro S a r wa h
  change stepInv env lin B L a = .ok r at h
  have num : ∀ {t u : Tensor K}, Fits S t.bt → lin.inv t = .ok u → IsInverse t u ∧ Good S u := fun {t u} ft hu => by
    obtain ⟨h1, h2, h3, h4⟩ := hl.inv hu
    exact ⟨IsInverse.mk' h1 h2 h3 fun β hβ => MRep.of_sum β rfl fun i j hi hj => h4 β i j hβ hi hj,
      by rw [rank_of_sh h3]; exact h1, by rw [bt_of_sh h3]; exact ft⟩
  unfold stepInv at h
  split at h
  · simp only [bind_ok_iff, pure_eq_ok] at h
    obtain ⟨u, hu, rfl⟩ := h
    obtain ⟨i, g⟩ := num wa.2 hu
    exact ⟨⟨⟨by have := g.rank; omega, g.fits⟩, i⟩, rfl⟩
  · simp only [bind_ok_iff, pure_eq_ok] at h
    obtain ⟨u, hu, rfl⟩ := h
    obtain ⟨i, g⟩ := num wa.2 hu
    obtain ⟨w, e⟩ := mkDense_wf g
    exact ⟨⟨w, by rw [e]; exact i⟩, rfl⟩
  · rename_i d
    simp only [bind_ok_iff, mkDiag_ok] at h
    obtain ⟨u, hu, h1, rfl⟩ := h
    obtain ⟨_, h0, rfl⟩ := nDiv_ok hu
    exact ⟨⟨⟨h1, by rw [recip_sh]; exact wa.2⟩, diag_inverse wa.1 h0⟩, rfl⟩
  · rename_i d l r' m
    have ho := wa.valid.own
    simp only [invWB, schurM, bind_ok_iff] at h
    obtain ⟨di, hdi, dl, hdl, dr, hdr, s, ⟨di', hdi', sec, hsec, mi, hmi, hs⟩, si, hsi, lr, hlr, h⟩ := h
    rw [hdi] at hdi'
    cases hdi'
    obtain ⟨o1, k1⟩ := hL ho.wbDiag hdi
    obtain ⟨o2, _⟩ := hL ho.wbLr.1.2.2 hmi
    have hs' := schur_ok hB ho o1 o2 hsec hs
    obtain ⟨o3, _⟩ := hL hs'.1 hsi
    have hd := kind_diag k1
    have o := wbInv_ok hB ho rfl o1 hd o2 hs' o3 hdl hdr hlr h
    refine ⟨⟨o.wf.mono (by rw [bt_of_sh o.inv.shape]; exact wa.fits), o.inv⟩, ?_⟩
    obtain ⟨v, rfl⟩ := hd
    have m1 := hB.matmul o1.wf ho.wbLr.1.1 o1.rank' ho.wbLr.2.1.1 hdl
    have m2 := hB.matmul o1.wf ho.wbLr.1.2.1 o1.rank' ho.wbLr.2.1.2.1 hdr
    obtain ⟨rfl, _⟩ := mkLR_inv m1.wf m2.wf o3.wf hlr
    exact kind_subtract_lr hk h
  · rename_i l r'
    simp only [bind_ok_iff, pure_eq_ok] at h
    obtain ⟨li, h1, ri, h2, rfl⟩ := h
    obtain ⟨⟨wl, wr⟩, kl, kr⟩ := wa
    obtain ⟨o1, _⟩ := hL wl h1
    obtain ⟨o2, _⟩ := hL wr h2
    exact ⟨⟨⟨⟨o1.wf, o2.wf⟩, o1.rank', o2.rank'⟩, o1.inv.kron o2.inv (wl.good kl) (wr.good kr)⟩, rfl⟩
  · simp at h

end

end Verif
