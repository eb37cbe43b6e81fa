/-
Product diagonals, quadratic forms, ratios: correctness.
-/
import Verif.LinMono

set_option linter.unusedSectionVars false

namespace Verif

variable {K : Type} [Field K] [LinearOrder K]

theorem readsDiag_transposeM {a r : Mat K} (h : transposeM a = .ok r) : r.readsDiag = a.readsDiag := by
  induction a generalizing r with
  | kron l r' ihl ihr =>
    simp only [transposeM, bind_ok_iff, pure_eq_ok] at h
    obtain ⟨x, hx, y, hy, rfl⟩ := h
    simp only [Mat.readsDiag, ihl hx, ihr hy]
  | lr l r' m ih1 ih2 ih3 =>
    have := trM_kind (a := .lr l r' m) (t := true) (by simpa [trM] using h) rfl
    cases r <;> simp_all [Mat.kind, Mat.readsDiag]
  | wb d l r' m ih1 ih2 ih3 =>
    rcases kind_transposeM h with e | ⟨e, _⟩ | ⟨e, _⟩
    · cases r <;> simp_all [Mat.kind, Mat.readsDiag]
    · simp [Mat.kind] at e
    · simp [Mat.kind] at e
  | num t => simp only [transposeM, Except.ok.injEq] at h; subst h; rfl
  | lt t => simp only [transposeM, mkUT_ok] at h; obtain ⟨_, rfl⟩ := h; rfl
  | ut t => simp only [transposeM, mkLT_ok] at h; obtain ⟨_, rfl⟩ := h; rfl
  | diag t => simp only [transposeM, Except.ok.injEq] at h; subst h; rfl
  | _ =>
    rcases kind_transposeM h with e | ⟨e, _⟩ | ⟨e, _⟩
    · cases r <;> simp_all [Mat.kind, Mat.readsDiag]
    · simp [Mat.kind] at e
    · simp [Mat.kind] at e

theorem readsDiag_trM {t : Bool} {a r : Mat K} (h : trM t a = .ok r) : r.readsDiag = a.readsDiag := by
  cases t
  · simp [trM] at h; rw [h]
  · exact readsDiag_transposeM (by simpa [trM] using h)

theorem diagOk_trM {t : Bool} {a r : Mat K} {S : Shp} (ha : a.WF S) (hd : a.DiagOk) (h : trM t a = .ok r) : r.DiagOk := by
  cases t
  · simp [trM] at h; rwa [← h]
  · exact diagOk_transposeM ha hd (by simpa [trM] using h)

/-- Summing the columns of `aᵀ ∘ b` gives the diagonal of `a b`. -/
theorem sum_hadamard {S : Shp} {a b : Tensor K} (ga : Good S a) (gb : Good S b) (h1 : a.cols = b.rows) (h2 : a.rows = b.cols) :
    sumAx 1 (zipB (· * ·) (tr a) b) = diagE (mm a b) := by
  have c : Compat a.bt b.bt := ga.fits.compat gb.fits
  have ga' : Good (bsh a.bt b.bt) a := ⟨ga.rank, c.fits_left⟩
  have gb' : Good (bsh a.bt b.bt) b := ⟨gb.rank, c.fits_right⟩
  have A := Rep.self' ga'.rank (rfl : a.rows = a.rows) rfl ga'.fits
  have B := Rep.self' gb'.rank h1.symm h2.symm gb'.fits
  have X := VRep.sumAx1 (Rep.zipB (· * ·) A.tr B)
  have Y := VRep.diagE (A.mm B)
  have e : (sumAx 1 (zipB (· * ·) (tr a) b)).sh.tail = bsh a.bt b.bt := by
    rw [sumAx_tail (Rep.zipB (· * ·) A.tr B).rank (by omega), zipB_bt]; rfl
  have e' : (diagE (mm a b)).sh.tail = bsh a.bt b.bt := rfl
  rw [min_self] at Y
  exact VRep.ext (by rw [e]; exact X) (by rw [e]; exact Y) (by rw [e, e']) fun β i hβ hi => rfl

section
variable {env env' : Env K} {lin : LinEnv K} {B : Ops K} {L : LOps K} (hB : B.Ok) (hm : MmKinds env' B)
include hB hm

theorem kind_matmul_ne {S : Shp} {ta tb : Bool} {a b x : Mat K} {k : Kind} (hk : a.kind = some k) (hne : k ≠ .kron) (wa : a.WF S) (wb : b.WF S)
    (h : B.matmul ta tb a b = .ok x) : x.kind ≠ some .kron := by
  obtain ⟨k', hk', e⟩ := hm ta tb a b (.inl (by cases a <;> simp_all [Mat.kind, Mat.isAM])) (triRk_of_wf wa) (triRk_of_wf wb) x h
  rw [e]
  intro e2
  cases e2
  rw [kindC_am hk] at hk'
  exact hne (mmOut_kron hk').1

theorem kind_matmul_ne' {S : Shp} {ta tb : Bool} {a b x : Mat K} {k : Kind} (hk : b.kind = some k) (hne : k ≠ .kron) (wa : a.WF S) (wb : b.WF S)
    (h : B.matmul ta tb a b = .ok x) : x.kind ≠ some .kron := by
  obtain ⟨k', hk', e⟩ := hm ta tb a b (.inr (by cases b <;> simp_all [Mat.kind, Mat.isAM])) (triRk_of_wf wa) (triRk_of_wf wb) x h
  rw [e]
  intro e2
  cases e2
  rw [kindC_am hk] at hk'
  exact hne (mmOut_kron hk').2

theorem matmulDiag_ok {S : Shp} {ta tb : Bool} {a b : Mat K} {v : Tensor K} (wa : a.WF S) (wb : b.WF S) (ka : 2 ≤ (den a).rank) (kb : 2 ≤ (den b).rank)
    (h1 : (trIf ta (den a)).cols = (trIf tb (den b)).rows) (h2 : (trIf ta (den a)).rows = (trIf tb (den b)).cols)
    (hd1 : a.readsDiag = true → b.DiagOk) (hd2 : b.readsDiag = true → a.DiagOk) (h : matmulDiag B ta tb a b = .ok v) :
    v = diagE (mm (trIf ta (den a)) (trIf tb (den b))) := by
  have gA : Good S (trIf ta (den a)) := by cases ta; exacts [wa.good ka, (wa.good ka).tr]
  have gB : Good S (trIf tb (den b)) := by cases tb; exacts [wb.good kb, (wb.good kb).tr]
  unfold matmulDiag at h
  split at h
  · simp only [bind_ok_iff] at h
    obtain ⟨x, hx, h⟩ := h
    have o := hB.matmul wa wb ka kb hx
    have := hB.diag o.wf o.rank (diagOk_of_kind (kind_matmul_ne hB hm (k := .lr) rfl (by simp) wa wb hx)) h
    rw [this, o.eq]
  · simp only [bind_ok_iff] at h
    obtain ⟨a', ha', b', hb', x, hx, h⟩ := h
    obtain ⟨wa', ea, ka'⟩ := trM_ok wa ka ha'
    obtain ⟨wb', eb, kb'⟩ := trM_ok wb kb hb'
    have et : den a' = tr (trIf ta (den a)) := by
      rw [ea]
      cases ta
      · rfl
      · simp only [Bool.not_true, trIf_false, trIf_true]
        exact (tr_tr ka).symm
    have er : (den a').rows = (den b').rows := by rw [et, eb]; exact h1
    have ec : (den a').cols = (den b').cols := by rw [et, eb]; exact h2
    have o := hB.mul wa' wb' ⟨noStretch_of_eq er ec, fun hh => diagOk_trM wb (hd1 (by rwa [readsDiag_trM ha'] at hh)) hb',
      fun hh => diagOk_trM wa (hd2 (by rwa [readsDiag_trM hb'] at hh)) ha'⟩ hx
    have k2 : 2 ≤ (den x).rank := by
      rw [o.eq]; exact ((wa'.good ka').zipB _ (wb'.good kb')).rank
    have := hB.sumM (k := 1) (by omega) o.wf k2 h
    rw [this, o.eq, et, eb]
    exact sum_hadamard gA gB h1 h2

end

/-! ### Quadratic forms -/

theorem kind_wb {a : Mat K} (h : a.kind = some .wb) : ∃ d l r m, a = .wb d l r m := by
  cases a <;> simp_all [Mat.kind]

/-- Where the Cholesky factor or the inverse used by quadratic forms is right. -/
def Mat.QfDom (a : Mat K) : Prop := (a.kind = some .wb → a.PdDom) ∧ (a.kind ≠ some .wb → a.CholDom)

/-- If `c cᵀ = a` then `(c⁻¹ b)ᵀ (c⁻¹ d) = bᵀ a⁻¹ d`. -/
theorem quad_of_sol {n p q : ℕ} {A Ai C : Matrix (Fin n) (Fin n) K} {Bm X : Matrix (Fin n) (Fin p) K} {D Y : Matrix (Fin n) (Fin q) K} (h1 : A * Ai = 1)
    (h2 : C * C.transpose = A) (h3 : C * X = Bm) (h4 : C * Y = D) : X.transpose * Y = Bm.transpose * Ai * D := by
  have hA : A.transpose = A := by rw [← h2, Matrix.transpose_mul, Matrix.transpose_transpose]
  have hAi := IsInverse.symm h1 hA
  have hC : C * (C.transpose * Ai) = 1 := by rw [← Matrix.mul_assoc, h2, h1]
  have hC' : C.transpose * Ai * C = 1 := mul_eq_one_comm.1 hC
  have hX : X = C.transpose * Ai * Bm := by rw [← h3, ← Matrix.mul_assoc, hC', Matrix.one_mul]
  have hY : Y = C.transpose * Ai * D := by rw [← h4, ← Matrix.mul_assoc, hC', Matrix.one_mul]
  rw [hX, hY, Matrix.transpose_mul, Matrix.transpose_mul, Matrix.transpose_transpose, hAi]
  calc Bm.transpose * (Ai * C) * (C.transpose * Ai * D) = Bm.transpose * Ai * (C * (C.transpose * Ai)) * D := by simp only [Matrix.mul_assoc]
    _ = _ := by rw [hC, Matrix.mul_one]

theorem Fits.trans3 {S a b c : Shp} (h1 : Fits S a) (h2 : Fits S b) (h3 : Fits S c) : Fits (Verif.bsh (Verif.bsh a b) c) a ∧ Fits (Verif.bsh (Verif.bsh a b) c) b ∧ Fits (Verif.bsh (Verif.bsh a b) c) c := by
  refine ⟨?_, ?_, ?_⟩ <;> fitsIn S

theorem zero_mrep {S U : Shp} {b : Mat K} (w : b.WF S) (hk : b.kind = some .zero) (hU : Fits U (den b).bt) :
    MRep U (den b).rows (den b).cols (den b) fun _ => 0 := by
  obtain ⟨bt, r, c, rfl⟩ := kind_zero hk
  exact MRep.mk' (Rep.fill hU r c (0 : K)) fun _ _ _ _ => rfl

/-- The product of the two triangular solutions is the quadratic form. -/
theorem quad_core {S : Shp} {a ch b c x y : Mat K} {ai : Tensor K} (wa : a.WF S) (wc' : ch.WF S) (kch : 2 ≤ (den ch).rank) (wb : b.WF S) (wc : c.WF S) (kb : 2 ≤ (den b).rank) (kc : 2 ≤ (den c).rank)
    (hf : IsFactor (den a) (den ch)) (hi : IsInverse (den a) ai) (ox : SolveOk S ch b x) (oy : SolveOk S ch c y)
    (hz : ¬ (b.kind = some .zero ∧ c.kind = some .zero)) (hb : (den b).rows = (den a).rows) (hc : (den c).rows = (den a).rows) :
    mm (tr (den x)) (den y) = mm (mm (tr (den b)) ai) (den c) := by
  set T := bsh (bsh (den b).bt (den a).bt) (den c).bt with hT
  have fa := (wa.good hi.rank).fits
  have fb := (wb.good kb).fits
  have fc := (wc.good kc).fits
  obtain ⟨f1, f2, f3⟩ := Fits.trans3 fb fa fc
  rw [← hT] at f1 f2 f3
  set n := (den a).rows with hn
  obtain ⟨A, Ai, HA⟩ := hi.mrep' (S := T) (n := n) ⟨hi.rank, f2⟩ rfl
  obtain ⟨A', Ch, HC⟩ := hf.mrep (S := T) ⟨hi.rank, f2⟩ kch
  have Bm := MRep.of (S := T) ⟨kb, f1⟩ hb rfl
  have Cm := MRep.of (S := T) ⟨kc, f3⟩ hc rfl
  have gch : Good T (den ch) := Ch.good
  have hbt : (mm (mm (tr (den b)) ai) (den c)).bt = T := by
    rw [hT, mm_bt, mm_bt, bt_of_sh hi.shape]; rfl
  have fin : ∀ {X Y}, MRep T n (den b).cols (den x) X → MRep T n (den c).cols (den y) Y → bsh (den x).bt (den y).bt = T →
      (∀ β, InRange T β → (X β).transpose * Y β = (mxOf (den b) β n (den b).cols).transpose * mxOf ai β n n * mxOf (den c) β n (den c).cols) →
      mm (tr (den x)) (den y) = mm (mm (tr (den b)) ai) (den c) := by
    intro X Y hX hY e H
    have e' : (mm (tr (den x)) (den y)).bt = T := e
    exact MRep.ext (by rw [e']; exact hX.tr.mm hY) (by rw [e']; exact (Bm.tr.mm Ai).mm Cm) (by rw [e', hbt]) fun β hβ => H β (by rwa [e'] at hβ)
  rcases ox.sol with ⟨zb, rfl⟩ | sx
  · rcases oy.sol with ⟨zc, rfl⟩ | sy
    · exact absurd ⟨zb, zc⟩ hz
    · have X0 := zero_mrep wb zb f1
      rw [hb] at X0
      have yr : (den y).rows = n := by rw [sy.rows, hf.rows]
      have Y := MRep.of (sy.good gch ⟨kc, f3⟩) yr sy.cols
      refine fin X0 Y ?_ fun β hβ => ?_
      · rw [sy.bt, hf.batch, hT, bsh_assoc]
      · rw [Bm.unique X0 hβ]; simp
  · rcases oy.sol with ⟨zc, rfl⟩ | sy
    · have Y0 := zero_mrep wc zc f3
      rw [hc] at Y0
      have xr : (den x).rows = n := by rw [sx.rows, hf.rows]
      have X := MRep.of (sx.good gch ⟨kb, f1⟩) xr sx.cols
      refine fin X Y0 ?_ fun β hβ => ?_
      · rw [sx.bt, hf.batch, hT, bsh_comm (den a).bt]
      · rw [Cm.unique Y0 hβ]; simp
    · obtain ⟨C1, B1, X1, H1⟩ := sx.mrep gch ⟨kb, f1⟩
      obtain ⟨C2, D2, Y2, H2⟩ := sy.mrep gch ⟨kc, f3⟩
      have ecr : (den ch).rows = n := hf.rows
      have ecc : (den ch).cols = n := by rw [← sx.square, hf.rows]
      rw [ecr] at C1 B1 X1 H1 C2 D2 Y2 H2
      rw [ecc, ← hn] at HC
      refine fin X1 Y2 ?_ fun β hβ => ?_
      · rw [sx.bt, sy.bt, hf.batch, hT]
        rw [show bsh (bsh (den a).bt (den b).bt) (bsh (den a).bt (den c).bt) = bsh (bsh (bsh (den a).bt (den a).bt) (den b).bt) (den c).bt by ac_rfl, bsh_self]
        bsh_ac
      · exact quad_of_sol (HA β hβ) (HC β hβ) (H1 β hβ) (H2 β hβ)

section
variable {env env' : Env K} {lin : LinEnv K} {B : Ops K} {L : LOps K} (hB : B.Ok) (hm : MmKinds env' B) (hL : L.Ok lin)
include hB hm hL

theorem iqf_sols {same : Bool} {α : Type} {b c ch : Mat K} {f : Mat K → Mat K → E α} {r : α} (hsame : same = true → c = b)
    (h : (do let cb ← L.solve ch b
             let cc ← if same then pure cb else L.solve ch c
             f cb cc) = .ok r) : ∃ x y, L.solve ch b = .ok x ∧ L.solve ch c = .ok y ∧ f x y = .ok r := by
  simp only [bind_ok_iff] at h
  obtain ⟨x, hx, h⟩ := h
  cases same with
  | false =>
    simp only [Bool.false_eq_true, if_false, bind_ok_iff] at h
    obtain ⟨y, hy, h⟩ := h
    exact ⟨x, y, hx, hy, h⟩
  | true =>
    simp only [if_true] at h
    rw [hsame rfl]
    exact ⟨x, x, hx, hx, h⟩

theorem iqf_ok {S : Shp} {same : Bool} {a b c r : Mat K} {ai : Tensor K} (wa : a.WF S) (wb : b.WF S) (wc : c.WF S) (kb : 2 ≤ (den b).rank) (kc : 2 ≤ (den c).rank)
    (hd : a.QfDom) (hi : IsInverse (den a) ai) (hsame : same = true → c = b) (hz : ¬ (b.kind = some .zero ∧ c.kind = some .zero))
    (h : iqfM B L same a b c = .ok r) :
    r.WF S ∧ (den b).rows = (den a).rows ∧ (den c).rows = (den a).rows ∧ den r = mm (mm (tr (den b)) ai) (den c) := by
  unfold iqfM at h
  split at h
  · simp only [bind_ok_iff] at h
    obtain ⟨x, hx, h⟩ := h
    obtain ⟨o, _⟩ := hL.pd wa (hd.1 rfl) hx
    obtain ⟨w, e1, e2, e⟩ := matmul3_ok hB wb o.wf wc kb o.rank' kc h
    have := o.inv.unique hi
    simp only [trIf_true, trIf_false] at e e1 e2
    rw [cols_of_sh o.inv.shape, ← o.inv.square] at e2
    refine ⟨w, ?_, e2.symm, by rw [e, this]⟩
    rw [rows_of_sh o.inv.shape] at e1
    exact e1
  · rename_i hne
    rw [bind_ok_iff] at h
    obtain ⟨ch, hch, h⟩ := h
    obtain ⟨x, y, hx, hy, h⟩ := iqf_sols hB hm hL (b := b) (c := c) (ch := ch) (f := fun x y => B.matmul true false x y) hsame h
    have oc := hL.chol wa hch
    have hcd : a.CholDom := hd.2 (fun hk => by obtain ⟨d, l, r, m, rfl⟩ := kind_wb hk; exact hne _ _ _ _ rfl)
    have hf := oc.factor hcd
    have ox := hL.solve oc.wf wb oc.rank kb hx
    have oy := hL.solve oc.wf wc oc.rank kc hy
    have rk : ∀ {b x : Mat K}, SolveOk S ch b x → b.WF S → 2 ≤ (den b).rank → 2 ≤ (den x).rank := by
      intro b x o wb kb
      rcases o.sol with ⟨_, rfl⟩ | s
      · exact kb
      · simp [Tensor.rank, s.shape]
    have om := hB.matmul ox.wf oy.wf (rk ox wb kb) (rk oy wc kc) h
    have hcomp : (den x).rows = (den y).rows := om.comp
    have key : (den b).rows = (den a).rows ∧ (den c).rows = (den a).rows := by
      rcases ox.sol with ⟨zb, rfl⟩ | sx
      · rcases oy.sol with ⟨zc, rfl⟩ | sy
        · exact absurd ⟨zb, zc⟩ hz
        · exact ⟨by rw [hcomp, sy.rows, hf.rows], by rw [← sy.inner, hf.rows]⟩
      · rcases oy.sol with ⟨zc, rfl⟩ | sy
        · exact ⟨by rw [← sx.inner, hf.rows], by rw [← hcomp, sx.rows, hf.rows]⟩
        · exact ⟨by rw [← sx.inner, hf.rows], by rw [← sy.inner, hf.rows]⟩
    exact ⟨om.wf, key.1, key.2, by rw [om.eq]; exact quad_core wa oc.wf oc.rank wb wc kb kc hf hi ox oy hz key.1 key.2⟩

theorem iqfDiag_ok {S : Shp} {same : Bool} {a b c : Mat K} {v : Tensor K} {ai : Tensor K} (wa : a.WF S) (wb : b.WF S) (wc : c.WF S) (kb : 2 ≤ (den b).rank) (kc : 2 ≤ (den c).rank)
    (hd : a.QfDom) (hi : IsInverse (den a) ai) (hsame : same = true → c = b) (hz : ¬ (b.kind = some .zero ∧ c.kind = some .zero))
    (hb : (den b).rows = (den a).rows) (hc : (den c).rows = (den a).rows) (hbc : (den b).cols = (den c).cols) (hdb : a.kind = some .wb → b.DiagOk)
    (h : iqfDiagM B L same a b c = .ok v) : v = diagE (mm (mm (tr (den b)) ai) (den c)) := by
  have ga := wa.good hi.rank
  have gi : Good S ai := ⟨by rw [rank_of_sh hi.shape]; exact hi.rank, by rw [bt_of_sh hi.shape]; exact ga.fits⟩
  unfold iqfDiagM at h
  split at h
  · simp only [bind_ok_iff] at h
    obtain ⟨x, hx, y, hy, h⟩ := h
    obtain ⟨o, _⟩ := hL.pd wa (hd.1 rfl) hx
    have ei := o.inv.unique hi
    have om := hB.matmul o.wf wc o.rank' kc hy
    have e : den y = mm ai (den c) := by rw [om.eq, ei]; rfl
    have yk := kind_matmul_ne hB hm (hL.pw wa hx) (by simp) o.wf wc hy
    have := matmulDiag_ok hB hm (ta := true) (tb := false) wb om.wf kb om.rank (by rw [e]; show (den b).rows = ai.rows; rw [rows_of_sh hi.shape, hb])
      (by rw [e]; exact hbc) (fun _ => diagOk_of_kind yk) (fun _ => hdb rfl) h
    rw [this, e]
    show diagE (mm (tr (den b)) (mm ai (den c))) = _
    rw [← mm_assoc (wb.good kb).tr gi (wc.good kc)]
    · show (den b).rows = ai.rows; rw [rows_of_sh hi.shape, hb]
    · rw [cols_of_sh hi.shape, ← hi.square, hc]
  · rename_i hne
    rw [bind_ok_iff] at h
    obtain ⟨ch, hch, h⟩ := h
    obtain ⟨x, y, hx, hy, h⟩ := iqf_sols hB hm hL (b := b) (c := c) (ch := ch) (f := fun x y => matmulDiag B true false x y) hsame h
    have oc := hL.chol wa hch
    have hcd : a.CholDom := hd.2 (fun hk => by obtain ⟨d, l, r, m, rfl⟩ := kind_wb hk; exact hne _ _ _ _ rfl)
    have hf := oc.factor hcd
    have ox := hL.solve oc.wf wb oc.rank kb hx
    have oy := hL.solve oc.wf wc oc.rank kc hy
    have rk : ∀ {b x : Mat K}, SolveOk S ch b x → 2 ≤ (den b).rank → (den b).rows = (den a).rows → 2 ≤ (den x).rank ∧ (den x).rows = (den a).rows ∧ (den x).cols = (den b).cols := by
      intro b x o kb hb
      rcases o.sol with ⟨_, rfl⟩ | s
      · exact ⟨kb, hb, rfl⟩
      · exact ⟨by simp [Tensor.rank, s.shape], by rw [s.rows, hf.rows], s.cols⟩
    obtain ⟨kx, xr, xc⟩ := rk ox kb hb
    obtain ⟨ky, yr, yc⟩ := rk oy kc hc
    have := matmulDiag_ok hB hm (ta := true) (tb := false) ox.wf oy.wf kx ky (by show (den x).rows = (den y).rows; rw [xr, yr])
      (by show (den x).cols = (den y).cols; rw [xc, yc, hbc]) (fun _ => diagOk_of_kind (hL.sk oc.wf wc oc.rank kc hy)) (fun _ => diagOk_of_kind (hL.sk oc.wf wb oc.rank kb hx)) h
    rw [this]
    exact congrArg diagE (quad_core wa oc.wf oc.rank wb wc kb kc hf hi ox oy hz hb hc)

end

/-! ### Ratios -/

instance : Std.IdempotentOp bsh := ⟨bsh_self⟩

/-- Summing a batch of vectors. -/
theorem VRep.sum_get {U : Shp} {n : ℕ} {t : Tensor K} {u : Idx → ℕ → K} (h : VRep U n t u) {β : Idx} (hβ : InRange U β) :
    (Verif.sumAx 0 t).sh = t.sh.tail ∧ (Verif.sumAx 0 t).get β = ∑ i ∈ Finset.range n, u β i := by
  have e : (Verif.sumAx 0 t).sh = t.sh.tail := by rw [sumAx_sh, h.sh]; rfl
  refine ⟨e, ?_⟩
  unfold Verif.sumAx
  rw [ofFn_get_fits (S := U) _ hβ (by rw [← sumAx_sh, e]; exact h.bt)]
  have ed : dim t.sh 0 = n := by rw [h.sh]; rfl
  rw [ed]
  refine Finset.sum_congr rfl fun i hi => ?_
  rw [← h.vat β i hβ (Finset.mem_range.1 hi)]
  have e2 : t.sh = n :: t.sh.tail := h.sh
  have e3 : t.sh.eraseIdx 0 = t.sh.tail := e
  unfold Tensor.vat
  refine t.get_congr fun k => ?_
  rw [e3]
  generalize t.sh.tail = q at e2
  rw [e2]
  cases k with
  | zero => rfl
  | succ k =>
    show (if clip q β k < dim q k then clip q β k else 0) = if β k < dim q k then β k else 0
    unfold clip
    split_ifs <;> simp_all

theorem trace_get {U : Shp} {n : ℕ} {x : Tensor K} {X} (h : MRep U n n x X) {β : Idx} (hβ : InRange U β) :
    (sumAx 0 (diagE x)).sh = x.bt ∧ (sumAx 0 (diagE x)).get β = (X β).trace := by
  have V := VRep.diagE h.rep
  rw [min_self] at V
  obtain ⟨e1, e2⟩ := V.sum_get hβ
  refine ⟨by rw [e1]; rfl, ?_⟩
  rw [e2, Finset.sum_range, Matrix.trace]
  exact Finset.sum_congr rfl fun i _ => h.at' β i i hβ

theorem nSum_last {t v : Tensor K} (h1 : 1 ≤ t.rank) (h : nSum t (some (-1)) = .ok v) : v = sumAx 0 t := by
  have : axPos t.rank (-1) = .ok 0 := by
    obtain ⟨k, hk⟩ : ∃ k, t.rank = k + 1 := ⟨t.rank - 1, by omega⟩
    rw [hk]; unfold axPos; simp
  simp only [nSum, this, bind_ok_iff, pure_eq_ok, Except.ok.injEq, exists_eq_left'] at h
  exact h.symm

/-- `v` is the batch of traces of `b⁻¹ a`, where `bi` is the batch of inverses. -/
structure IsRatio (a bi v : Tensor K) : Prop where
  shape : v.sh = bsh a.bt bi.bt
  entries : ∀ β, InRange (bsh a.bt bi.bt) β → v.get β = ∑ i ∈ Finset.range bi.rows, ∑ k ∈ Finset.range bi.rows, bi.at' β i k * a.at' β k i

theorem IsRatio.of_mrep {n : ℕ} {a bi v : Tensor K} {F G} (ha : MRep (bsh a.bt bi.bt) n n a F) (hb : MRep (bsh a.bt bi.bt) n n bi G) (hs : v.sh = bsh a.bt bi.bt)
    (h : ∀ β, InRange (bsh a.bt bi.bt) β → v.get β = (F β * G β).trace) : IsRatio a bi v := by
  refine ⟨hs, fun β hβ => ?_⟩
  rw [h β hβ, Matrix.trace_mul_comm, hb.rows, Matrix.trace, Finset.sum_range]
  refine Finset.sum_congr rfl fun i _ => ?_
  rw [Matrix.diag_apply, Matrix.mul_apply, Finset.sum_range]
  exact Finset.sum_congr rfl fun k _ => by rw [ha.at' β k i hβ, hb.at' β i k hβ]

/-- `fᵀ b⁻¹ f` has the trace of `(f fᵀ) b⁻¹`. -/
theorem trace_quad {n k : ℕ} (F : Matrix (Fin n) (Fin k) K) (Bi : Matrix (Fin n) (Fin n) K) : (F.transpose * Bi * F).trace = (F * F.transpose * Bi).trace := by
  rw [Matrix.trace_mul_comm, Matrix.mul_assoc]

/-- The two parts of a Woodbury matrix. -/
theorem wb_mrep {S U : Shp} {n : ℕ} {d : Tensor K} {l r m : Mat K} (w : Mat.WF S (.wb d l r m)) (hU : Fits U (den (.wb d l r m)).bt) (hn : (den (.wb d l r m)).rows = n) :
    (den (.wb d l r m)).bt = bsh (den (.diag d)).bt (den (.lr l r m)).bt ∧
    ∃ D X, MRep U n n (den (.diag d)) D ∧ MRep U n n (den (.lr l r m)) X ∧ MRep U n n (den (.wb d l r m)) fun β => D β + X β := by
  have w' := w.valid.own
  have e : (den (.wb d l r m)).bt = bsh (den (.diag d)).bt (den (.lr l r m)).bt := zipB_bt
  have er := wb_rows w
  have ec := wb_cols w
  have gd := w'.wbDiag.good (by simp [den, Tensor.rank])
  have gl := w'.wbLr.good (w.wbLr.rank rfl)
  have D := MRep.of (r := n) (c := n) ⟨gd.rank, hU.trans gd.fits⟩ (by rw [← hn, er]; rfl) (by rw [← hn, er]; rfl)
  have X := MRep.of (r := n) (c := n) ⟨gl.rank, hU.trans gl.fits⟩ (by rw [← hn, er, ← w.2.2.2.2.1]; rfl) (by rw [← hn, er, ← w.2.2.2.2.2]; rfl)
  exact ⟨e, _, _, D, X, D.add X⟩

/-- Adding traces. -/
theorem trace_add {U : Shp} {x y : Tensor K} {v w : Idx → K} (hx : Fits U x.sh ∧ ∀ β, InRange U β → x.get β = v β) (hy : Fits U y.sh ∧ ∀ β, InRange U β → y.get β = w β) :
    (Fits U (zipB (· + ·) x y).sh ∧ ∀ β, InRange U β → (zipB (· + ·) x y).get β = v β + w β) := by
  refine ⟨Fits.bsh hx.1 hy.1, fun β hβ => ?_⟩
  rw [zipB_get (S := U) _ hβ hx.1 hy.1, hx.2 β hβ, hy.2 β hβ]

theorem trace_rep {U : Shp} {n : ℕ} {x : Tensor K} {X} (h : MRep U n n x X) :
    Fits U (sumAx 0 (diagE x)).sh ∧ ∀ β, InRange U β → (sumAx 0 (diagE x)).get β = (X β).trace := by
  refine ⟨?_, fun β hβ => (trace_get h hβ).2⟩
  have : (sumAx 0 (diagE x)).sh = x.bt := by rw [sumAx_sh]; rfl
  rw [this]; exact h.bt

section
variable {env env' : Env K} {lin : LinEnv K} {B : Ops K} {L : LOps K} (hB : B.Ok) (hm : MmKinds env' B) (hL : L.Ok lin)
include hB

theorem traceM_ok {S : Shp} {a : Mat K} {v : Tensor K} (wa : a.WF S) (ka : 2 ≤ (den a).rank) (hd : a.DiagOk) (h : traceM B a = .ok v) : v = sumAx 0 (diagE (den a)) := by
  simp only [traceM, bind_ok_iff] at h
  obtain ⟨d, h1, h⟩ := h
  obtain rfl := hB.diag wa ka hd h1
  exact nSum_last (by simp [Tensor.rank]) h

include hm

theorem traceMm_ok {S : Shp} {a b x : Mat K} {v : Tensor K} {k : Kind} (wa : a.WF S) (wb : b.WF S) (ka : 2 ≤ (den a).rank) (kb : 2 ≤ (den b).rank)
    (hk : a.kind = some k ∨ b.kind = some k) (hne : k ≠ .kron) (hx : B.matmul false false a b = .ok x) (h : traceM B x = .ok v) :
    (den a).cols = (den b).rows ∧ v = sumAx 0 (diagE (mm (den a) (den b))) := by
  have o := hB.matmul wa wb ka kb hx
  have hd : x.DiagOk := diagOk_of_kind (by
    rcases hk with hk | hk
    · exact kind_matmul_ne hB hm hk hne wa wb hx
    · exact kind_matmul_ne' hB hm hk hne wa wb hx)
  have := traceM_ok hB o.wf o.rank hd h
  exact ⟨o.comp, by rw [this, o.eq]; rfl⟩

include hL

theorem ratio_ok {S : Shp} {a b : Mat K} {v : Tensor K} {bi : Tensor K} (wa : a.WF S) (wb : b.WF S) (ka : 2 ≤ (den a).rank) (hs : (den a).rows = (den a).cols)
    (hab : (den a).rows = (den b).rows)
    (hda : b.kind ≠ some .wb → a.CholDom ∧ a.cholNZ = true) (hdb : b.QfDom) (hi : IsInverse (den b) bi) (h : ratioM B L a b = .ok v) : IsRatio (den a) bi v := by
  have kb := hi.rank
  set n := (den a).rows with hn
  have fa := (wa.good ka).fits
  have gbi : Good S bi := ⟨by rw [rank_of_sh hi.shape]; exact kb, by rw [bt_of_sh hi.shape]; exact (wb.good kb).fits⟩
  have c : Compat (den a).bt bi.bt := fa.compat gbi.fits
  set U := bsh (den a).bt bi.bt with hU
  have A : MRep U n n (den a) _ := MRep.of ⟨ka, c.fits_left⟩ rfl hs.symm
  have Bi : MRep U n n bi _ := MRep.of ⟨gbi.rank, c.fits_right⟩ (by rw [rows_of_sh hi.shape, hab]) (by rw [cols_of_sh hi.shape, ← hi.square, hab])
  unfold ratioM at h
  split at h
  · rename_i ad al ar am bd bl br bm
    simp only [bind_ok_iff, nAdd_ok] at h
    obtain ⟨x, hx, p, hp, y1, hy1, t1, ht1, y2, hy2, t2, ht2, y3, hy3, t3, ht3, _, ⟨_, rfl⟩, _, rfl⟩ := h
    obtain ⟨o, _⟩ := hL.pd wb (hdb.1 rfl) hx
    obtain ⟨d, l, r, m, rfl⟩ := kind_wb (hL.pw wb hx)
    simp only [wbParts, Except.ok.injEq] at hp
    subst hp
    have ebi := o.inv.unique hi
    obtain ⟨e1, rfl⟩ := traceMm_ok hB hm wa.wbDiag o.wf (by simp [den, Tensor.rank]) o.rank' (.inl (rfl : (Mat.diag ad : Mat K).kind = some .diag)) (by simp) hy1 ht1
    obtain ⟨e2, rfl⟩ := traceMm_ok hB hm wa.wbLr o.wf.wbDiag (wa.wbLr.rank rfl) (by simp [den, Tensor.rank]) (.inr (rfl : (Mat.diag d : Mat K).kind = some .diag)) (by simp) hy2 ht2
    obtain ⟨e3, rfl⟩ := traceMm_ok hB hm wa.wbLr o.wf.wbLr (wa.wbLr.rank rfl) (o.wf.wbLr.rank rfl) (.inl (rfl : (Mat.lr al ar am : Mat K).kind = some .lr)) (by simp) hy3 ht3
    obtain ⟨ea, Da, Xa, rDa, rXa, rA⟩ := wb_mrep (U := U) (n := n) wa c.fits_left rfl
    obtain ⟨eb, Db, Xb, rDb, rXb, rB⟩ := wb_mrep (U := U) (n := n) o.wf (by rw [ebi]; exact c.fits_right) (by rw [ebi]; exact Bi.rows)
    rw [ebi] at rB eb ⊢
    have T := trace_add (trace_add (trace_rep (rDa.mm Bi)) (trace_rep (rXa.mm rDb))) (trace_rep (rXa.mm rXb))
    refine IsRatio.of_mrep A Bi ?_ fun β hβ => ?_
    · have q : ∀ p q r s : Shp, bsh (bsh (bsh p (bsh r s)) (bsh q r)) (bsh q s) = bsh (bsh p q) (bsh r s) := fun p q r s => by ac_rfl
      have := q (den (.diag ad)).bt (den (.lr al ar am)).bt (den (.diag d)).bt (den (.lr l r m)).bt
      rw [← ea, ← eb] at this
      exact this
    · have h1 := rA.unique A hβ
      have h2 := rB.unique Bi hβ
      rw [T.2 β hβ]
      rw [← h1, ← h2, ← Matrix.trace_add, ← Matrix.trace_add, add_assoc, ← Matrix.mul_add, ← Matrix.add_mul]
  · rename_i bd bl br bm hne
    simp only [bind_ok_iff, nAdd_ok] at h
    obtain ⟨x, hx, p, hp, y1, hy1, t1, ht1, y2, hy2, t2, ht2, _, rfl⟩ := h
    obtain ⟨o, _⟩ := hL.pd wb (hdb.1 rfl) hx
    obtain ⟨d, l, r, m, rfl⟩ := kind_wb (hL.pw wb hx)
    simp only [wbParts, Except.ok.injEq] at hp
    subst hp
    have ebi := o.inv.unique hi
    obtain ⟨e1, rfl⟩ := traceMm_ok hB hm wa o.wf.wbDiag ka (by simp [den, Tensor.rank]) (.inr (rfl : (Mat.diag d : Mat K).kind = some .diag)) (by simp) hy1 ht1
    obtain ⟨e2, rfl⟩ := traceMm_ok hB hm wa o.wf.wbLr ka (o.wf.wbLr.rank rfl) (.inr (rfl : (Mat.lr l r m : Mat K).kind = some .lr)) (by simp) hy2 ht2
    obtain ⟨eb, Db, Xb, rDb, rXb, rB⟩ := wb_mrep (U := U) (n := n) o.wf (by rw [ebi]; exact c.fits_right) (by rw [ebi]; exact Bi.rows)
    rw [ebi] at rB eb
    have T := trace_add (trace_rep (A.mm rDb)) (trace_rep (A.mm rXb))
    refine IsRatio.of_mrep A Bi ?_ fun β hβ => ?_
    · have q : ∀ p r s : Shp, bsh (bsh p r) (bsh p s) = bsh p (bsh r s) := fun p r s => by ac_rfl
      have := q (den a).bt (den (.diag d)).bt (den (.lr l r m)).bt
      rw [← eb] at this
      exact this
    · have h2 := rB.unique Bi hβ
      rw [T.2 β hβ]
      rw [← h2, ← Matrix.trace_add, ← Matrix.mul_add]
  · rename_i hne hne'
    simp only [bind_ok_iff] at h
    obtain ⟨F, hF, w, hw, h⟩ := h
    have nb : b.kind ≠ some .wb := by
      intro hk
      obtain ⟨d, l, r, m, rfl⟩ := kind_wb hk
      exact hne _ _ _ _ rfl
    obtain ⟨cd, nz⟩ := hda nb
    have oc := hL.chol wa hF
    have f := oc.factor cd
    have hw' := iqfDiag_ok hB hm hL wb oc.wf oc.wf oc.rank oc.rank hdb hi (fun _ => rfl) (fun hh => hL.nz wa nz hF hh.1) (by rw [f.rows, ← hab]) (by rw [f.rows, ← hab]) rfl
      (fun hk => absurd hk nb) hw
    subst hw'
    have := nSum_last (by simp [Tensor.rank]) h
    subst this
    obtain ⟨A', Fm, HF⟩ := f.mrep (S := U) ⟨ka, c.fits_left⟩ oc.rank
    have Q := (Fm.tr.mm Bi).mm Fm
    refine IsRatio.of_mrep A Bi ?_ fun β hβ => ?_
    · show bsh (bsh (den F).bt bi.bt) (den F).bt = _
      rw [f.batch, bsh_comm (den a).bt bi.bt, bsh_assoc, bsh_self]
    · rw [(trace_get Q hβ).2, trace_quad, HF β hβ]

end

end Verif
