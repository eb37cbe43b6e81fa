/-
Success of quadratic forms, ratios and sampling (C50), whatever the tolerance.
-/
import Verif.FineMd
import Verif.LinReal
import Verif.Classes

set_option linter.unusedSectionVars false

namespace Verif

variable {K : Type} [Field K] [LinearOrder K] [IsStrictOrderedRing K]

/-- A square factor of an invertible matrix is invertible. -/
theorem factor_invertible' {S : Shp} (h0 : 0 ∉ S) {t c : Tensor K} (g : Good S t) (hi : t.Invertible) (of : IsFactor t c) (hc : 2 ≤ c.rank) (hs : c.rows = c.cols) : c.Invertible := by
  obtain ⟨A, C, H⟩ := of.mrep (S := S) g hc
  have ec : c.cols = t.rows := by rw [← of.rows]; exact hs.symm
  rw [ec] at C H
  refine (invertible_iff h0 C).2 fun β hβ => ?_
  obtain ⟨R, hR⟩ := (invertible_iff h0 A).1 hi β hβ
  refine ⟨(mxOf c β t.rows t.rows).transpose * R, ?_⟩
  rw [← Matrix.mul_assoc, H β hβ]
  exact hR

theorem fit_flat {a : Mat K} (h : a.fit true) (hk : a.isKron = false) : a.fit false := by
  cases a <;> first | exact h | simp [Mat.isKron] at hk

theorem diagDef_flat {T : Shp} {a : Mat K} (h : a.isKron = false) (hn : a.isAM = true) : a.DiagDef T := by
  cases a <;> trivial

theorem wo_notWb {a : Mat K} (h : a.wo false) : a.kind ≠ some .wb := by
  cases a <;> first | exact absurd h.1 (by simp) | simp [Mat.kind]

/-- Nothing stands in the way of the diagonal of a product of two matrices that are no Kronecker products and no Woodbury matrices. -/
theorem MdDef.flat {a b : Mat K} (ha : a.isKron = false) (hb : b.isKron = false) (wa : a.kind ≠ some .wb) (wb : b.kind ≠ some .wb) : MdDef a b :=
  ⟨fun h => by rw [ha] at h; simp at h, fun _ h => diagDef_flat hb h, fun _ h => diagDef_flat ha h, fun _ _ h => h.elim (fun h => absurd h wa) fun h => absurd h wb⟩

section
variable {S : Shp} {env env' : Env K} {lin : LinEnv K} {B : Ops K} {L : LOps K}

/-- The Cholesky factor of a positive-definite matrix is square, and no Woodbury matrix. -/
def CholSq (S : Shp) (L : LOps K) : Prop := ∀ {a}, Mat.WF S a → a.PosDom → Post (fun r => (den r).rows = (den r).cols ∧ r.kind ≠ some .wb) (L.chol a)

theorem stepChol_sq (hl : lin.Lawful) (hC : CholC L) (h : CholSq S L) : CholSq S (lstep env lin B L) := by
  intro a wa da
  show Post _ (stepChol lin B L a)
  have lt : ∀ {t : Tensor K}, Post (fun r : Mat K => (den r).rows = (den r).cols ∧ r.kind ≠ some .wb) (do mkLT (← lin.chol t)) := by
    intro t r h
    simp only [bind_ok_iff] at h
    obtain ⟨u, hu, h⟩ := h
    obtain ⟨h2, hs, e, _⟩ := hl.chol hu
    have hk : 2 ≤ u.rank := by rw [rank_of_sh e]; exact h2
    rw [mkLT_of hk] at h
    cases h
    exact ⟨by show u.rows = u.cols; rw [rows_of_sh e, cols_of_sh e, hs], by simp [Mat.kind]⟩
  cases a with
  | num t =>
    intro r h
    simp only [stepChol, bind_ok_iff, pure_eq_ok] at h
    obtain ⟨u, hu, rfl⟩ := h
    obtain ⟨h2, hs, e, _⟩ := hl.chol hu
    exact ⟨by show u.rows = u.cols; rw [rows_of_sh e, cols_of_sh e, hs], by simp [Mat.kind]⟩
  | dense t => exact Post.skip fun _ => lt
  | diag d =>
    intro r h
    simp only [stepChol, bind_ok_iff] at h
    obtain ⟨_, _, u, hu, h⟩ := h
    obtain ⟨v, rfl⟩ : ∃ v, r = .diag v := by
      simp only [mkDiag, bind_ok_iff] at h
      obtain ⟨_, _, h⟩ := h
      exact ⟨_, (Except.ok.inj h).symm⟩
    exact ⟨rfl, by simp [Mat.kind]⟩
  | wb d l r m => exact Post.skip fun _ => lt
  | kron l r =>
    intro x h
    simp only [stepChol, bind_ok_iff, pure_eq_ok] at h
    obtain ⟨y, hy, z, hz, rfl⟩ := h
    have ey := h wa.1.1 da.1 _ hy
    have ez := h wa.1.2 da.2 _ hz
    refine ⟨?_, by simp [Mat.kind]⟩
    show (kronT (den y) (den z)).rows = (kronT (den y) (den z)).cols
    have oy := hC wa.1.1 hy
    have oz := hC wa.1.2 hz
    show (den y).rows * (den z).rows = (den y).cols * (den z).cols
    rw [ey.1, ez.1]
  | _ => exact da.elim

theorem lops_cholSq (hl : lin.Lawful) (hB : B.Ok) (hA : AddKinds env' B) (hM : MmKinds env' B) (hNum : NumMm B) (n : ℕ) : CholSq S (lops env lin B n) := by
  induction n with
  | zero => intro a _ _ x h; cases h
  | succ n ih => exact stepChol_sq hl (lops_ok hl hB hA hM hNum n).chol ih

/-- What a solution with the Cholesky factor looks like. -/
theorem sol_shape {a ch b x : Mat K} (hf : IsFactor (den a) (den ch)) (o : SolveOk S ch b x) (kb : 2 ≤ (den b).rank) (hb : (den b).rows = (den a).rows) :
    2 ≤ (den x).rank ∧ (den x).rows = (den a).rows ∧ (den x).cols = (den b).cols := by
  rcases o.sol with ⟨_, rfl⟩ | s
  · exact ⟨kb, hb, rfl⟩
  · exact ⟨by simp [Tensor.rank, s.shape], by rw [s.rows, hf.rows], s.cols⟩

/-- The common part of `B.iqf` and `B.iqf_diag`: both triangular systems can be solved. -/
theorem solvePair_calm {α : Type} (h0 : 0 ∉ S) (hL : L.Ok lin) (hF : L.Fine S) (hq : CholSq S L) {same : Bool} {a b c : Mat K} {f : Mat K → Mat K → E α}
    (wa : a.WF S) (wb : b.WF S) (wc : c.WF S) (fa : a.fit true) (fb : b.fit true) (fc : c.fit true) (kb : 2 ≤ (den b).rank) (kc : 2 ≤ (den c).rank)
    (hd : a.PosDom) (hdd : a.CholDom) (hi : (den a).Invertible) (hsame : same = true → c = b) (hb : (den b).rows = (den a).rows) (hc : (den c).rows = (den a).rows)
    (nb : b.isKron = false) (nc : c.isKron = false)
    (hf : ∀ ch x y, L.chol a = .ok ch → L.solve ch b = .ok x → L.solve ch c = .ok y → x.WF S → y.WF S → x.fit false → y.fit false → 2 ≤ (den x).rank → 2 ≤ (den y).rank →
      (den x).rows = (den y).rows → (den x).cols = (den b).cols → (den y).cols = (den c).cols → Calm (f x y)) :
    Calm (do
      let ch ← L.chol a
      let cb ← L.solve ch b
      let cc ← if same then pure cb else L.solve ch c
      f cb cc) := by
  refine Calm.bind (hF.chol wa fa (hd.cholFine h0 wa fa)) fun ch hch => ?_
  have oc := hL.chol wa hch
  have fch := hF.cholFit wa fa ch hch
  have of := oc.factor hdd
  obtain ⟨sq, nw⟩ := hq wa hd ch hch
  have hs : ch.SolveFine := by
    have hi' := factor_invertible' h0 (wa.good oc.rank') hi of oc.rank sq
    cases ch <;> first | exact hi' | exact absurd rfl nw
  refine Calm.bind (hF.solve oc.wf wb fch fb oc.rank kb (of.rows.trans hb.symm) hs fun _ => nb) fun x hx => ?_
  have ox := hL.solve oc.wf wb oc.rank kb hx
  have fx := hF.solveFit oc.wf oc.rank fch fb x hx
  obtain ⟨kx, rx, cx⟩ := sol_shape of ox kb hb
  have fin : ∀ y, L.solve ch c = .ok y → Calm (f x y) := by
    intro y hy
    have oy := hL.solve oc.wf wc oc.rank kc hy
    have fy := hF.solveFit oc.wf oc.rank fch fc y hy
    obtain ⟨ky, ry, cy⟩ := sol_shape of oy kc hc
    exact hf ch x y hch hx hy ox.wf oy.wf fx fy kx ky (rx.trans ry.symm) cx cy
  cases same with
  | true =>
    simp only [if_true]
    have := hsame rfl
    subst this
    exact fin x hx
  | false =>
    simp only [Bool.false_eq_true, if_false]
    exact Calm.bind (hF.solve oc.wf wc fch fc oc.rank kc (of.rows.trans hc.symm) hs fun _ => nc) fun y hy => fin y hy

theorem sim_solvePair {α : Type} {L' : LOps K} (hL : L.Twin L') {same : Bool} {a b c : Mat K} {f g : Mat K → Mat K → E α} (wa : a.wo true) (wb : b.wo false) (wc : c.wo false)
    (hf : ∀ x y, x.wo false → y.wo false → f x y = g x y) :
    (do
      let ch ← L.chol a
      let cb ← L.solve ch b
      let cc ← if same then pure cb else L.solve ch c
      f cb cc) = (do
      let ch ← L'.chol a
      let cb ← L'.solve ch b
      let cc ← if same then pure cb else L'.solve ch c
      g cb cc) := by
  refine ((hL.chol wa).bind (Q := fun _ => True) fun ch hch => ?_).1
  refine (hL.solve hch.up (wo_notWb hch) wb).bind fun x hx => ?_
  cases same with
  | true => simp only [if_true]; exact ⟨hf x x hx hx, Post.any _⟩
  | false =>
    simp only [Bool.false_eq_true, if_false]
    exact (hL.solve hch.up (wo_notWb hch) wc).bind fun y hy => ⟨hf x y hx hy, Post.any _⟩

end


theorem Mat.PosDom.qfDom {S : Shp} (h0 : 0 ∉ S) {a : Mat K} (wa : a.WF S) (fa : a.fit true) (h : a.PosDom) : a.QfDom := ⟨fun _ => h.pdDom, fun _ => (h.cholFine h0 wa fa).dom⟩

theorem plain_kinds {a : Mat K} (h : a.plain = true) : a.isKron = false ∧ a.fit false ∧ a.DiagOk ∧ a.readsDiag = false ∧ a.wo false ∧ a.kind ≠ some .wb := by
  cases a <;> simp_all [Mat.plain, Mat.isKron, Mat.DiagOk, Mat.readsDiag, Mat.kind]

theorem plain_kindC {env : Env K} {a : Mat K} (h : a.plain = true) (h2 : 2 ≤ (den a).rank) : kindC env a = .dense := by
  cases a <;> simp [Mat.plain] at h
  · rename_i t
    have : 2 ≤ t.rank := h2
    exact kindC_num_rk (by omega)
  · rfl

theorem Cfg.lkindsS (c : Cfg K) (lin : LinEnv K) (n m : ℕ) : LKinds c.strict (lops c.code lin (ops c.strict n) m) := by
  rw [lops_env (env := c.code) (env' := c.strict) rfl]
  refine lops_kinds (ops_addKinds _ n) (ops_mmKinds _ n) (fun t => ?_) (fun ta tb s t => ?_) m
  · cases n with
    | zero => exact Post.error
    | succ n => intro v hv; change (Except.ok (diagC t) : E (Tensor K)) = .ok v at hv; cases hv; simp [Tensor.rank]
  · cases n with
    | zero => exact Post.error
    | succ n =>
      change Post _ (do return Mat.num (← nMatmul ta tb s t))
      exact Post.skip fun u => Post.pure ⟨u, rfl⟩

/-! ### Quadratic forms -/

/-- C46.  The tolerance does not influence `B.iqf`: if `a` is no Woodbury matrix for all `b` and `c` without Woodbury matrices, otherwise for plain `b` and `c`. -/
theorem C46_iqf (cf : Cfg K) (lin : LinEnv K) (same : Bool) {S : Shp} {a b c : Mat K} (ha : a.WF S) (hb : b.WF S) (hc : c.WF S) (h2b : 2 ≤ (den b).rank) (h2c : 2 ≤ (den c).rank)
    (wa : a.wo true) (pa : a.plainWb) (wb : b.wo false) (wc : c.wo false) (hp : a.kind = some .wb → b.plain = true ∧ c.plain = true) :
    LToleranceFree cf lin fun B L => iqfM B L same a b c := by
  refine .of fun env' h n k => ?_
  unfold iqfM
  split
  · rename_i d l r m
    obtain ⟨pb, pc⟩ := hp rfl
    have hT := cf.ltwin lin h n k
    have hI := (hT.pd wa (pa.tame ha)).with (Q := fun x => x.kind = some .wb) fun x hx => (cf.lkindsS lin n k).pdInv _ (by simp [Mat.kind]) x hx
    refine (hI.bind (Q := fun _ => True) fun x hx => ⟨?_, Post.any _⟩).1
    obtain ⟨ox, kx⟩ := hx
    obtain ⟨xd, xl, xr, xm, rfl⟩ := kind_wb kx
    have kb := plain_kindC (env := cf.strict) pb h2b
    have kc := plain_kindC (env := cf.strict) pc h2c
    unfold matmul3
    refine E.bind_congr fun _ _ => E.bind_congr fun _ _ => E.bind_congr fun _ _ => ?_
    have tb := triRk_of_wf hb
    have tc := triRk_of_wf hc
    have e1 := ops_twin_matmul (env := cf.strict) h n (ta := true) (tb := false) (a := b) (b := .wb xd xl xr xm) (by cases b <;> trivial) ox.2 tb trivial
      (by rw [kb]; rfl)
    have e2 := ops_twin_matmul (env := cf.strict) h n (ta := false) (tb := false) (a := .wb xd xl xr xm) (b := c) ox.2 (by cases c <;> trivial) trivial tc
      (by rw [kc]; rfl)
    have hM := ops_mmKinds cf.strict n
    simp only []
    split_ifs
    · rw [e1]
      refine E.bind_congr fun y hy => ?_
      rw [← e1] at hy
      obtain ⟨k', hk', ey⟩ := hM true false b (.wb xd xl xr xm) (.inr rfl) tb trivial y hy
      rw [kb] at hk'
      have : k' = .dense := by simpa [mmOut, kindC_am (show (Mat.wb xd xl xr xm).kind = some .wb from rfl)] using hk'
      subst this
      exact ((ops_twin h n).matmul (by cases y <;> first | trivial | simp [Mat.kind] at ey) wc).1
    · rw [e2]
      refine E.bind_congr fun y hy => ?_
      rw [← e2] at hy
      obtain ⟨k', hk', ey⟩ := hM false false (.wb xd xl xr xm) c (.inl rfl) trivial tc y hy
      rw [kc] at hk'
      have : k' = .dense := by simpa [mmOut, kindC_am (show (Mat.wb xd xl xr xm).kind = some .wb from rfl)] using hk'
      subst this
      exact ((ops_twin h n).matmul wb (by cases y <;> first | trivial | simp [Mat.kind] at ey)).1
  · exact sim_solvePair (cf.ltwin lin h n k) wa wb wc fun x y hx hy => ((ops_twin h n).matmul hx hy).1

/-- C50.  `B.iqf(a, b, c)` returns `bᵀ a⁻¹ c`. -/
theorem C50_iqf_always (cf : Cfg K) {lin : LinEnv K} (hl : lin.Good) {S : Shp} (h0 : 0 ∉ S) {same : Bool} {a b c : Mat K} {ai : Tensor K} (ha : a.WF S) (hb : b.WF S) (hc : c.WF S)
    (fa : a.fit true) (fb : b.fit true) (fc : c.fit true) (h2b : 2 ≤ (den b).rank) (h2c : 2 ≤ (den c).rank) (hd : a.PosDom) (hi : IsInverse (den a) ai) (hs : same = true → c = b)
    (hz : ¬ (b.kind = some .zero ∧ c.kind = some .zero)) (hrb : (den b).rows = (den a).rows) (hrc : (den c).rows = (den a).rows)
    (wa : a.wo true) (wb : b.wo false) (wc : c.wo false) (nb : b.isKron = false) (nc : c.isKron = false) (hp : a.kind = some .wb → b.plain = true ∧ c.plain = true) :
    ∃ r, LReturns cf lin (fun B L => iqfM B L same a b c) r ∧ r.Valid ∧ ∃ p, IsMatProd (tr (den b)) ai p ∧ IsMatProd p (den c) (den r) := by
  have hx := (C46_iqf cf lin same ha hb hc h2b h2c wa hd.plainWb wb wc hp).2
  have qd := hd.qfDom h0 ha fa
  obtain ⟨r, h⟩ := (C35_iqf cf hl.total same a b c).returns hx fun n m => by
    have ok := cf.lok hl.lawful n m
    have fi := cf.lfine hl.lawful hl.complete h0 n m
    unfold iqfM
    split
    · rename_i d l r m'
      obtain ⟨pb, pc⟩ := hp rfl
      refine Calm.bind (fi.pd ha fa hd) fun x hx => ?_
      obtain ⟨o, _⟩ := ok.pd ha (qd.1 rfl) hx
      have fx := fi.pdFit (κ := false) ha fa hd x hx
      have er := rows_of_sh o.inv.shape
      have ec := cols_of_sh o.inv.shape
      exact matmul3_calm (cf.fine h0 n) (cf.ok n) (ops_keeps _ n) hb o.wf hc (fit_flat fb nb) fx (fit_flat fc nc) h2b o.rank' h2c (by show (den b).rows = (den x).rows; rw [er, hrb])
        (by show (den x).cols = (den c).rows; rw [ec, hrc, o.inv.square])
    · rename_i hne
      have nw : a.kind ≠ some .wb := fun hk => by obtain ⟨d, l, r, m, rfl⟩ := kind_wb hk; exact hne _ _ _ _ rfl
      refine solvePair_calm h0 ok fi (lops_cholSq hl.lawful (cf.ok n) (ops_addKinds _ n) (ops_mmKinds _ n) (ops_numMm _ n) m) ha hb hc fa fb fc h2b h2c hd (qd.2 nw) ⟨ai, hi⟩ hs hrb hrc nb nc
        fun ch x y hch hx hy wx wy fx fy kx ky er _ _ => ?_
      exact (cf.fine h0 n).matmul wx wy fx.up fy.up kx ky er (KDom.flat (fit_notKron fx) (fit_notKron fy))
  exact ⟨r, h, C23_iqf cf hl.lawful ha hb hc h2b h2c qd hi hs hz h hx⟩

/-- The product of the positive-definite inverse of a Woodbury matrix with a plain matrix. -/
theorem sim_pdMm (cf : Cfg K) (lin : LinEnv K) {env' : Env K} (h : cf.isNumber = env'.isNumber) (n k : ℕ) {S : Shp} {d : Tensor K} {l r m c : Mat K} (ha : (Mat.wb d l r m).WF S) (hc : c.WF S)
    (h2c : 2 ≤ (den c).rank) (wa : (Mat.wb d l r m).wo true) (pa : (Mat.wb d l r m).plainWb) (pc : c.plain = true) :
    Sim (fun y => y.kind = some .dense) (do (ops cf.strict n).matmul false false (← (lops cf.code lin (ops cf.strict n) k).pdInv (.wb d l r m)) c)
      (do (ops env' n).matmul false false (← (lops cf.code lin (ops env' n) k).pdInv (.wb d l r m)) c) := by
  have hT := cf.ltwin lin h n k
  have hI := (hT.pd wa (pa.tame ha)).with (Q := fun x => x.kind = some .wb) fun x hx => (cf.lkindsS lin n k).pdInv _ (by simp [Mat.kind]) x hx
  refine hI.bind fun x hx => ?_
  obtain ⟨ox, kx⟩ := hx
  obtain ⟨xd, xl, xr, xm, rfl⟩ := kind_wb kx
  have kc := plain_kindC (env := cf.strict) pc h2c
  have tc := triRk_of_wf hc
  refine ⟨ops_twin_matmul (env := cf.strict) h n (ta := false) (tb := false) (a := .wb xd xl xr xm) (b := c) ox.2 (by cases c <;> trivial) trivial tc (by rw [kc]; rfl), fun y hy => ?_⟩
  obtain ⟨k', hk', ey⟩ := ops_mmKinds cf.strict n false false (.wb xd xl xr xm) c (.inl rfl) trivial tc y hy
  rw [kc] at hk'
  have : k' = .dense := by simpa [mmOut, kindC_am (show (Mat.wb xd xl xr xm).kind = some .wb from rfl)] using hk'
  subst this
  exact ey

/-- C46.  The tolerance does not influence `B.iqf_diag`, with the conditions of `C46_iqf`. -/
theorem C46_iqf_diag (cf : Cfg K) (lin : LinEnv K) (same : Bool) {S : Shp} {a b c : Mat K} (ha : a.WF S) (hc : c.WF S) (h2c : 2 ≤ (den c).rank)
    (wa : a.wo true) (pa : a.plainWb) (wb : b.wo false) (wc : c.wo false) (hp : a.kind = some .wb → c.plain = true) :
    LToleranceFree cf lin fun B L => iqfDiagM B L same a b c := by
  refine .of fun env' h n k => ?_
  unfold iqfDiagM
  split
  · rename_i d l r m
    have := (sim_pdMm cf lin h n k ha hc h2c wa pa (hp rfl)).bind (Q := fun _ => True) (f := fun y => matmulDiag (ops cf.strict n) true false b y) (g := fun y => matmulDiag (ops env' n) true false b y)
      fun y ky => ⟨twin_matmulDiag (ops_twin h n) wb.up (by cases y <;> first | trivial | simp [Mat.kind] at ky), Post.any _⟩
    simpa using this.1
  · exact sim_solvePair (cf.ltwin lin h n k) wa wb wc fun x y hx hy => twin_matmulDiag (ops_twin h n) hx.up hy.up

theorem iqfDiag_calm (cf : Cfg K) {lin : LinEnv K} (hl : lin.Good) {S : Shp} (h0 : 0 ∉ S) {same : Bool} {a b c : Mat K} {ai : Tensor K} (ha : a.WF S) (hb : b.WF S) (hc : c.WF S)
    (fa : a.fit true) (fb : b.fit true) (fc : c.fit true) (h2b : 2 ≤ (den b).rank) (h2c : 2 ≤ (den c).rank) (hd : a.PosDom) (hi : IsInverse (den a) ai) (hs : same = true → c = b)
    (hrb : (den b).rows = (den a).rows) (hrc : (den c).rows = (den a).rows) (hbc : (den b).cols = (den c).cols)
    (wa : a.wo true) (wb : b.wo false) (wc : c.wo false) (nb : b.isKron = false) (nc : c.isKron = false) (hp : a.kind = some .wb → b.plain = true ∧ c.plain = true) (n m : ℕ) :
    Calm (iqfDiagM (ops cf.strict n) (lops cf.code lin (ops cf.strict n) m) same a b c) := by
  have qd := hd.qfDom h0 ha fa
  have ok := cf.lok hl.lawful n m
  have fi := cf.lfine hl.lawful hl.complete h0 n m
  have tw := cf.ltwin lin (env' := cf.strict) rfl n m
  unfold iqfDiagM
  split
  · rename_i d l r m'
    obtain ⟨pb, pc⟩ := hp rfl
    obtain ⟨_, _, db, rb, _, kb⟩ := plain_kinds pb
    refine Calm.bind (fi.pd ha fa hd) fun x hx => ?_
    obtain ⟨o, _⟩ := ok.pd ha (qd.1 rfl) hx
    have fx := fi.pdFit (κ := false) ha fa hd x hx
    have er := rows_of_sh o.inv.shape
    have ec := cols_of_sh o.inv.shape
    have comp : (den x).cols = (den c).rows := by rw [ec, hrc, o.inv.square]
    refine Calm.bind ((cf.fine h0 n).matmul (ta := false) (tb := false) o.wf hc fx.up fc o.rank' h2c comp (KDom.flat (fit_notKron fx) nc)) fun y hy => ?_
    have oy := (cf.ok n).matmul o.wf hc o.rank' h2c hy
    have ky := (sim_pdMm cf lin (env' := cf.strict) rfl n m ha hc h2c wa hd.plainWb pc).2 y (by rw [bind_ok_iff]; exact ⟨x, hx, hy⟩)
    have e : den y = mm (den x) (den c) := oy.eq
    refine matmulDiag_calm (cf.ok n) (ops_mmKinds _ n) (ops_keeps _ n) (cf.fine h0 n) (ta := true) (tb := false) hb oy.wf fb ?_ h2b oy.rank ?_ ?_ (fun _ => ?_) (fun _ => db) (MdDef.flat nb ?_ kb ?_)
    · exact (ops_keeps cf.strict n).matmul fx.up fc y hy
    · show (den b).rows = (den y).rows
      rw [e, mm_rows, er, hrb]
    · show (den b).cols = (den y).cols
      rw [e, mm_cols, hbc]
    all_goals cases y <;> first | trivial | simp [Mat.kind] at ky ⊢
  · rename_i hne
    have nw : a.kind ≠ some .wb := fun hk => by obtain ⟨d, l, r, m, rfl⟩ := kind_wb hk; exact hne _ _ _ _ rfl
    refine solvePair_calm h0 ok fi (lops_cholSq hl.lawful (cf.ok n) (ops_addKinds _ n) (ops_mmKinds _ n) (ops_numMm _ n) m) ha hb hc fa fb fc h2b h2c hd (qd.2 nw) ⟨ai, hi⟩ hs hrb hrc nb nc
      fun ch x y hch hx hy wx wy fx fy kx ky er cx cy => ?_
    have och := (tw.chol wa).2 ch hch
    have ox := wo_notWb ((tw.solve och.up (wo_notWb och) wb).2 x hx)
    have oy := wo_notWb ((tw.solve och.up (wo_notWb och) wc).2 y hy)
    have oc := ok.chol ha hch
    exact matmulDiag_calm (cf.ok n) (ops_mmKinds _ n) (ops_keeps _ n) (cf.fine h0 n) (ta := true) (tb := false) wx wy fx.up fy.up kx ky er (cx.trans (hbc.trans cy.symm))
      (fun _ => diagOk_of_kind (ok.sk oc.wf hc oc.rank h2c hy)) (fun _ => diagOk_of_kind (ok.sk oc.wf hb oc.rank h2b hx)) (MdDef.flat (fit_notKron fx) (fit_notKron fy) ox oy)

/-- C50.  `B.iqf_diag(a, b, c)` returns the diagonal of `bᵀ a⁻¹ c`. -/
theorem C50_iqf_diag_always (cf : Cfg K) {lin : LinEnv K} (hl : lin.Good) {S : Shp} (h0 : 0 ∉ S) {same : Bool} {a b c : Mat K} {ai : Tensor K} (ha : a.WF S) (hb : b.WF S) (hc : c.WF S)
    (fa : a.fit true) (fb : b.fit true) (fc : c.fit true) (h2b : 2 ≤ (den b).rank) (h2c : 2 ≤ (den c).rank) (hd : a.PosDom) (hi : IsInverse (den a) ai) (hs : same = true → c = b)
    (hz : ¬ (b.kind = some .zero ∧ c.kind = some .zero)) (hrb : (den b).rows = (den a).rows) (hrc : (den c).rows = (den a).rows) (hbc : (den b).cols = (den c).cols)
    (wa : a.wo true) (wb : b.wo false) (wc : c.wo false) (nb : b.isKron = false) (nc : c.isKron = false) (hp : a.kind = some .wb → b.plain = true ∧ c.plain = true) :
    ∃ v, LReturns cf lin (fun B L => iqfDiagM B L same a b c) v ∧ ∃ p q, IsMatProd (tr (den b)) ai p ∧ IsMatProd p (den c) q ∧ IsDiagonalOf q v := by
  have hx := (C46_iqf_diag cf lin same ha hc h2c wa hd.plainWb wb wc fun h => (hp h).2).2
  obtain ⟨r, h⟩ := (C35_iqf_diag cf hl.total same a b c).returns hx
    fun n m => iqfDiag_calm cf hl h0 ha hb hc fa fb fc h2b h2c hd hi hs hrb hrc hbc wa wb wc nb nc hp n m
  exact ⟨r, h, C23_iqf_diag cf hl.lawful ha hb hc h2b h2c (hd.qfDom h0 ha fa) hi hs hz hrb hrc hbc (fun k => (plain_kinds (hp k).1).2.2.1) h hx⟩

/-! ### Ratios -/

theorem traceMm_bind {α : Type} {S : Shp} {env : Env K} {B : Ops K} (hB : B.Ok) (hm : MmKinds env B) (hK : B.Keeps) (hF : B.Fine S) {a b : Mat K} (wa : a.WF S) (wb : b.WF S)
    (fa : a.fit false) (fb : b.fit false) (ka : 2 ≤ (den a).rank) (kb : 2 ≤ (den b).rank) (hc : (den a).cols = (den b).rows) (ham : a.isAM = true ∨ b.isAM = true)
    {f : Tensor K → E α} (hf : ∀ v, Fits S v.sh → Calm (f v)) : Calm (B.matmul false false a b >>= fun x => traceM B x >>= f) := by
  refine Calm.bind (hF.matmul (ta := false) (tb := false) wa wb fa.up fb.up ka kb hc (KDom.flat (fit_notKron fa) (fit_notKron fb))) fun x hx => ?_
  have o := hB.matmul wa wb ka kb hx
  have fx := hK.matmul fa fb x hx
  obtain ⟨k', _, ek⟩ := hm false false a b ham (triRk_of_wf wa) (triRk_of_wf wb) x hx
  have nk := fit_notKron fx
  have am : x.isAM = true := by cases x <;> first | rfl | simp [Mat.kind] at ek
  have dk : x.DiagOk := diagOk_of_kind (by cases x <;> simp [Mat.isKron, Mat.kind] at nk ⊢)
  refine Calm.bind (traceM_calm hB hF o.wf fx.up o.rank (diagDef_flat nk am) dk) fun v hv => hf v ?_
  rw [traceM_ok hB o.wf o.rank dk hv]
  have e : (sumAx 0 (diagE (den x))).sh = (den x).bt := by rw [sumAx_sh, diagE_sh]; rfl
  rw [e]
  exact o.wf.fits

theorem sim_traceMm {α : Type} {X Y : E (Mat K)} {env : Env K} {B C : Ops K} (hT : B.Twin env C) (h : Sim (Mat.wo true) X Y) {f g : Tensor K → E α} (hf : ∀ v, Sim (fun _ => True) (f v) (g v)) :
    Sim (fun _ => True) (X >>= fun x => traceM B x >>= f) (Y >>= fun x => traceM C x >>= g) :=
  h.bind fun _ hx => (twin_trace hT hx).bind fun v _ => hf v

theorem Sim.up {X Y : E (Mat K)} (h : Sim (Mat.wo false) X Y) : Sim (Mat.wo true) X Y := ⟨h.1, fun x hx => (h.2 x hx).up⟩

/-- A Diagonal times a Woodbury matrix. -/
theorem twin_diagWb (cf : Cfg K) {env' : Env K} (h : cf.isNumber = env'.isNumber) (n : ℕ) {t d : Tensor K} {l r m : Mat K} (hw : (Mat.wb d l r m).wo true) :
    Sim (Mat.wo true) ((ops cf.strict n).matmul false false (.diag t) (.wb d l r m)) ((ops env' n).matmul false false (.diag t) (.wb d l r m)) := by
  refine ⟨ops_twin_matmul (env := cf.strict) h n (a := .diag t) (b := .wb d l r m) trivial hw.2 trivial trivial rfl, ?_⟩
  cases n with
  | zero => exact Post.error
  | succ n =>
    have hO := ops_twin (env := cf.strict) (env' := cf.strict) rfl n
    have hM := ops_mmKinds cf.strict n
    change Post _ (do
      let x ← (ops cf.strict n).matmul false false (.diag t) (.diag d)
      let y ← (ops cf.strict n).matmul false false (.diag t) (.lr l r m)
      (ops cf.strict n).add x y)
    refine (((hO.matmul (a := .diag t) (b := .diag d) trivial trivial).2).and (hM.am false false trivial trivial rfl rfl)).bind fun x hx => ?_
    refine (((hO.matmul (a := .diag t) (b := .lr l r m) trivial hw.2).2).and (hM.am false false trivial trivial rfl rfl)).bind fun y hy => ?_
    obtain ⟨ox, k1, h1, e1⟩ := hx
    obtain ⟨oy, k2, h2, e2⟩ := hy
    exact (hO.add' ox.up oy.up e1 e2 (by simp [mmOut] at h1 h2; subst h1 h2; rfl)).2

/-- C46.  The tolerance does not influence `B.ratio`. -/
theorem C46_ratio (cf : Cfg K) (lin : LinEnv K) {S : Shp} {a b : Mat K} (ha : a.WF S) (hb : b.WF S) (wa : a.wo true) (wb : b.wo true) (pb : b.plainWb)
    (na : b.kind = some .wb → a.kind ≠ some .wb → a.wo false) : LToleranceFree cf lin fun B L => ratioM B L a b := by
  refine .of fun env' h n k => ?_
  have hT := cf.ltwin lin h n k
  have hO := ops_twin (env := cf.strict) (env' := env') h n
  unfold ratioM
  split
  · rename_i ad al ar am bd bl br bm
    have hI := (hT.pd wb (pb.tame hb)).with (Q := fun x => x.kind = some .wb) fun x hx => (cf.lkindsS lin n k).pdInv _ (by simp [Mat.kind]) x hx
    refine (hI.bind (Q := fun _ => True) fun x hx => ?_).1
    obtain ⟨ox, kx⟩ := hx
    obtain ⟨xd, xl, xr, xm, rfl⟩ := kind_wb kx
    have e1 : Sim (Mat.wo true) ((ops cf.strict n).matmul false false (.diag ad) (.wb xd xl xr xm)) ((ops env' n).matmul false false (.diag ad) (.wb xd xl xr xm)) :=
      twin_diagWb cf h n ox
    refine sim_traceMm hO e1 fun v1 => sim_traceMm hO (hO.matmul (a := .lr al ar am) (b := .diag xd) wa.2 trivial).up fun v2 =>
      sim_traceMm hO (hO.matmul (a := .lr al ar am) (b := .lr xl xr xm) wa.2 ox.2).up fun v3 => Sim.refl _
  · rename_i bd bl br bm hne
    have nw : a.kind ≠ some .wb := fun hk => by obtain ⟨d, l, r, m, rfl⟩ := kind_wb hk; exact hne _ _ _ _ rfl
    have hI := (hT.pd wb (pb.tame hb)).with (Q := fun x => x.kind = some .wb) fun x hx => (cf.lkindsS lin n k).pdInv _ (by simp [Mat.kind]) x hx
    refine (hI.bind (Q := fun _ => True) fun x hx => ?_).1
    obtain ⟨ox, kx⟩ := hx
    obtain ⟨xd, xl, xr, xm, rfl⟩ := kind_wb kx
    exact sim_traceMm hO (hO.matmul (b := .diag xd) (na rfl nw) trivial).up fun v1 => sim_traceMm hO (hO.matmul (b := .lr xl xr xm) (na rfl nw) ox.2).up fun v2 => Sim.refl _
  · rename_i hne hne'
    refine ((hT.chol wa).bind (Q := fun _ => True) fun ch hch => ?_).1
    have e : iqfDiagM (ops cf.strict n) (lops cf.code lin (ops cf.strict n) k) true b ch ch = iqfDiagM (ops env' n) (lops cf.code lin (ops env' n) k) true b ch ch := by
      unfold iqfDiagM
      split
      · exact absurd rfl (hne _ _ _ _)
      · exact sim_solvePair hT wb hch hch fun x y hx hy => twin_matmulDiag hO hx.up hy.up
    rw [e]
    exact Sim.refl _

theorem wbPart_dims {S : Shp} {d : Tensor K} {l r m : Mat K} (w : (Mat.wb d l r m).WF S) :
    (den (.diag d : Mat K)).rows = (den (.wb d l r m)).rows ∧ (den (.diag d : Mat K)).cols = (den (.wb d l r m)).rows ∧
    (den (.lr l r m)).rows = (den (.wb d l r m)).rows ∧ (den (.lr l r m)).cols = (den (.wb d l r m)).rows := by
  obtain ⟨_, _, _, rD, rX, _⟩ := wb_mrep (U := S) w w.fits rfl
  exact ⟨rD.rows, rD.cols, rX.rows, rX.cols⟩

/-- C50.  `B.ratio(a, b)` returns the trace of `b⁻¹ a`: for positive-definite `b`, and a square matrix `a` that is no Kronecker product; if `b` is no Woodbury matrix, `a` has a Cholesky factor. -/
theorem C50_ratio_always (c : Cfg K) {lin : LinEnv K} (hl : lin.Good) {a b : Mat K} {bi : Tensor K} (ha : a.Supported) (hb : b.Supported) (hc : BatchCompat a b)
    (h2 : 2 ≤ (den a).rank) (hs : (den a).rows = (den a).cols) (hab : (den a).rows = (den b).rows) (nk : a.isKron = false)
    (hda : b.kind ≠ some .wb → a.CholFine ∧ a.cholNZ = true) (hdb : b.PosDom) (hi : IsInverse (den b) bi)
    (wa : a.wo true) (wb : b.wo true) :
    ∃ v, LReturns c lin (fun B L => ratioM B L a b) v ∧ IsRatio (den a) bi v := by
  obtain ⟨va, vb⟩ := ha.valid.common hb.valid hc
  have h0 := zero_bsh ha.batch hb.batch
  have fa := fit_flat ha.fit nk
  have qd := hdb.qfDom h0 vb hb.fit
  have hx := (C46_ratio c lin va vb wa wb hdb.plainWb fun _ nw => by cases a <;> first | exact wa | exact absurd rfl nw | exact absurd nk (by simp [Mat.isKron])).2
  obtain ⟨v, h⟩ := (C35_ratio c hl.total a b).returns hx fun n m => by
    have ok := c.lok hl.lawful n m
    have fi := c.lfine hl.lawful hl.complete h0 n m
    have hB := c.ok n
    have hF := c.fine h0 n
    have hM := ops_mmKinds c.strict n
    have hK := ops_keeps c.strict n
    have add : ∀ {x y : Tensor K}, Fits (bsh (den a).bt (den b).bt) x.sh → Fits (bsh (den a).bt (den b).bt) y.sh → Calm (nAdd x y) := fun hx hy => Calm.of (nAdd_of (hx.compat hy))
    unfold ratioM
    split
    · rename_i ad al ar am bd bl br bm
      refine Calm.bind (fi.pd vb hb.fit hdb) fun x hx => ?_
      obtain ⟨o, _⟩ := ok.pd vb (qd.1 rfl) hx
      have fx := fi.pdFit (κ := false) vb hb.fit hdb x hx
      have er := rows_of_sh o.inv.shape
      obtain ⟨xd, xl, xr, xm, rfl⟩ := kind_wb (ok.pw vb hx)
      refine Calm.step (v := (.diag xd, .lr xl xr xm)) rfl ?_
      obtain ⟨a1, a2, a3, a4⟩ := wbPart_dims va
      obtain ⟨x1, x2, x3, x4⟩ := wbPart_dims o.wf
      refine traceMm_bind hB hM hK hF va.wbDiag o.wf trivial fx (by simp [den, Tensor.rank]) o.rank' (by rw [a2, er, hab]) (.inl rfl) fun v1 s1 => ?_
      refine traceMm_bind hB hM hK hF va.wbLr o.wf.wbDiag fa trivial (va.wbLr.rank rfl) (by simp [den, Tensor.rank]) (by rw [a4, x1, er, hab]) (.inl rfl) fun v2 s2 => ?_
      refine traceMm_bind hB hM hK hF va.wbLr o.wf.wbLr fa fx (va.wbLr.rank rfl) (o.wf.wbLr.rank rfl) (by rw [a4, x3, er, hab]) (.inl rfl) fun v3 s3 => ?_
      refine Calm.bind (add s1 s2) fun y hy => ?_
      obtain ⟨cc, rfl⟩ := nAdd_ok.1 hy
      exact add (s1.bsh s2) s3
    · rename_i bd bl br bm hne
      refine Calm.bind (fi.pd vb hb.fit hdb) fun x hx => ?_
      obtain ⟨o, _⟩ := ok.pd vb (qd.1 rfl) hx
      have fx := fi.pdFit (κ := false) vb hb.fit hdb x hx
      have er := rows_of_sh o.inv.shape
      obtain ⟨xd, xl, xr, xm, rfl⟩ := kind_wb (ok.pw vb hx)
      refine Calm.step (v := (.diag xd, .lr xl xr xm)) rfl ?_
      obtain ⟨x1, x2, x3, x4⟩ := wbPart_dims o.wf
      refine traceMm_bind hB hM hK hF va o.wf.wbDiag fa trivial h2 (by simp [den, Tensor.rank]) (by rw [← hs, x1, er, hab]) (.inr rfl) fun v2 s2 => ?_
      refine traceMm_bind hB hM hK hF va o.wf.wbLr fa fx h2 (o.wf.wbLr.rank rfl) (by rw [← hs, x3, er, hab]) (.inr rfl) fun v3 s3 => ?_
      exact add s2 s3
    · rename_i hne hne'
      have nb : b.kind ≠ some .wb := by
        intro hk
        obtain ⟨d, l, r, m, rfl⟩ := kind_wb hk
        exact hne _ _ _ _ rfl
      obtain ⟨cf, nz⟩ := hda nb
      refine Calm.bind (fi.chol va ha.fit cf) fun F hF' => ?_
      have oc := ok.chol va hF'
      have f := oc.factor cf.dom
      have fF := fi.cholFit va fa F hF'
      have oF := ((c.ltwin lin (env' := c.strict) rfl n m).chol wa).2 F hF'
      refine Calm.bind (iqfDiag_calm c hl h0 vb oc.wf oc.wf hb.fit fF.up fF.up oc.rank oc.rank hdb hi (fun _ => rfl) (by rw [f.rows, hab]) (by rw [f.rows, hab]) rfl wb oF oF
        (fit_notKron fF) (fit_notKron fF) (fun hk => absurd hk nb) n m) fun w hw => ?_
      have hw' := iqfDiag_ok hB hM ok vb oc.wf oc.wf oc.rank oc.rank qd hi (fun _ => rfl) (fun hh => ok.nz va nz hF' hh.1) (by rw [f.rows, ← hab]) (by rw [f.rows, ← hab]) rfl
        (fun hk => absurd hk nb) hw
      subst hw'
      exact nSum_calm (n := (mm (mm (tr (den F)) bi) (den F)).bt.length) (by simp [Tensor.rank, diagE_sh])
  exact ⟨v, h, C23_ratio c hl.lawful ha.valid hb.valid hc h2 hs hab (fun k => ⟨(hda k).1.dom, (hda k).2⟩) qd hi h hx⟩

/-! ### Sampling -/

section
variable {σ : Type} (randn : σ → Shp → σ × Tensor K)

/-- One Cholesky factor times noise. -/
theorem sampleOne_calm {S : Shp} {lin : LinEnv K} {B : Ops K} {L : LOps K} (hF : B.Fine S) (hL : L.Ok lin) (hLF : L.Fine S) (hn : RandnOk randn) (num : ℕ) (st : σ) {a : Mat K}
    (wa : a.WF S) (fa : a.fit false) (hd : a.CholFine) :
    Calm (do
      let ch ← L.chol a
      let bt ← shapeBatch a
      let k := dim (← shape ch) 0
      let x := randn st (num :: k :: bt)
      let s ← B.matmul false false ch (.num x.2)
      (pure (x.1, s) : E (σ × Mat K))) := by
  refine Calm.bind (hLF.chol wa fa.up hd) fun F hF' => ?_
  have o := hL.chol wa hF'
  have fF := hLF.cholFit wa fa F hF'
  refine Calm.step wa.shapeBatch (Calm.step o.wf.shape ?_)
  have e := hn st (num :: dim (den F).sh 0 :: (den a).bt)
  have wn : (Mat.num (randn st (num :: dim (den F).sh 0 :: (den a).bt)).2).WF S := by
    refine wf_num_of ⟨by simp [Tensor.rank, e], ?_⟩
    show Fits S (randn st (num :: dim (den F).sh 0 :: (den a).bt)).2.bt
    simp only [Tensor.bt, e]
    exact wa.fits
  refine Calm.bind (hF.matmul (ta := false) (tb := false) o.wf wn fF.up trivial o.rank (by simp [den, Tensor.rank, e]) ?_ (KDom.flat (fit_notKron fF) rfl)) fun _ _ => Calm.pure
  show (den F).cols = (randn st (num :: dim (den F).sh 0 :: (den a).bt)).2.rows
  simp only [Tensor.rows, e]
  rfl

theorem sim_sampleOne {env : Env K} {B C : Ops K} {L L' : LOps K} (hT : B.Twin env C) (hL : L.Twin L') (num : ℕ) (st : σ) {a : Mat K} (wa : a.wo true) :
    Sim (fun y : σ × Mat K => y.2.wo false) (do
      let ch ← L.chol a
      let bt ← shapeBatch a
      let k := dim (← shape ch) 0
      let x := randn st (num :: k :: bt)
      let s ← B.matmul false false ch (.num x.2)
      (pure (x.1, s) : E (σ × Mat K))) (do
      let ch ← L'.chol a
      let bt ← shapeBatch a
      let k := dim (← shape ch) 0
      let x := randn st (num :: k :: bt)
      let s ← C.matmul false false ch (.num x.2)
      (pure (x.1, s) : E (σ × Mat K))) :=
  (hL.chol wa).bind fun _ hch => Sim.skip fun _ => Sim.skip fun _ => (hT.matmul hch (wo_num _ _)).bind fun _ hs => ⟨rfl, Post.pure hs⟩

end

/-- C46.  The tolerance does not influence `B.sample`. -/
theorem C46_sample (c : Cfg K) (lin : LinEnv K) {σ : Type} (randn : σ → Shp → σ × Tensor K) (num : ℕ) (st : σ) {a : Mat K} (ha : a.kind ≠ some .wb) (wa : a.wo true) :
    LToleranceFree c lin fun B L => sampleM B L randn num st a := by
  refine .of fun env' h n k => ?_
  unfold sampleM
  dsimp only
  split
  · exact absurd rfl ha
  · exact (sim_sampleOne randn (ops_twin (env := c.strict) (env' := env') h n) (c.ltwin lin h n k) num st wa).1

/-- C50.  `B.sample(state, a, num)` returns the generator's new state and a factor of `a` times the noise. -/
theorem C50_sample_always (c : Cfg K) {lin : LinEnv K} (hl : lin.Good) {σ : Type} {randn : σ → Shp → σ × Tensor K} (hn : RandnOk randn) (num : ℕ) (st : σ) {a : Mat K}
    (ha : a.Supported) (nk : a.isKron = false) (hd : a.CholFine) (hw : a.kind ≠ some .wb) (wa : a.wo true) :
    ∃ y, LReturns c lin (fun B L => sampleM B L randn num st a) y ∧
    ∃ F, LReturns c lin (fun _ L => L.chol a) F ∧ IsFactor (den a) (den F) ∧ y.2.Valid ∧
      y.1 = (randn st (num :: (den F).cols :: (den a).bt)).1 ∧ IsMatProd (den F) (randn st (num :: (den F).cols :: (den a).bt)).2 (den y.2) := by
  have hx := (C46_sample c lin randn num st hw wa).2
  obtain ⟨y, h⟩ := (C35_sample c hl.total randn num st a).returns hx fun n m => by
    unfold sampleM
    dsimp only
    split
    · exact absurd rfl hw
    · exact sampleOne_calm randn (c.fine ha.batch n) (c.lok hl.lawful n m) (c.lfine hl.lawful hl.complete ha.batch n m) hn num st ha.valid.own (fit_flat ha.fit nk) hd
  exact ⟨y, h, C26_sample c hl.lawful hn ha.valid hd.dom hw h hx⟩

theorem fit_of_dense {κ : Bool} {x : Mat K} (h : x.kind = some .dense) : x.fit κ := by
  cases x <;> first | trivial | simp [Mat.kind] at h

/-- The sample of a Diagonal matrix is Dense. -/
theorem sampleDiag_kind {σ : Type} (randn : σ → Shp → σ × Tensor K) {S : Shp} {env : Env K} {lin : LinEnv K} {B : Ops K} {L : LOps K} (hM : MmKinds env B) (hL : L.Ok lin)
    (hn : RandnOk randn) (num : ℕ) (st : σ) {d : Tensor K} (wa : (Mat.diag d).WF S) :
    Post (fun y : σ × Mat K => y.2.kind = some .dense) (do
      let ch ← L.chol (.diag d)
      let bt ← shapeBatch (.diag d : Mat K)
      let k := dim (← shape ch) 0
      let x := randn st (num :: k :: bt)
      let s ← B.matmul false false ch (.num x.2)
      (pure (x.1, s) : E (σ × Mat K))) := by
  intro y h
  simp only [bind_ok_iff, pure_eq_ok] at h
  obtain ⟨F, hF, bt, _, sh, _, s, hs, rfl⟩ := h
  have o := hL.chol wa hF
  obtain ⟨k, hk, e⟩ := hM.numR false false (t := (randn st (num :: dim sh 0 :: bt)).2) (by simp [Tensor.rank, hn st]) (triRk_of_wf o.wf) (o.kind.2.2 rfl) s hs
  simp only [mmOut, List.mem_singleton] at hk
  rw [e, hk]

/-- C46.  The tolerance does not influence sampling of Woodbury matrices either. -/
theorem C46_sample_woodbury (c : Cfg K) {lin : LinEnv K} (hl : lin.Lawful) {σ : Type} {randn : σ → Shp → σ × Tensor K} (hn : RandnOk randn) (num : ℕ) (st : σ) {d : Tensor K} {l r m : Mat K}
    (ha : (Mat.wb d l r m).Valid) (wa : (Mat.wb d l r m).wo true) : LToleranceFree c lin fun B L => sampleM B L randn num st (.wb d l r m) := by
  refine .of fun env' h n k => ?_
  have hO := ops_twin (env := c.strict) (env' := env') h n
  have hT := c.ltwin lin h n k
  have k1 := sampleDiag_kind randn (ops_mmKinds c.strict n) (c.lok hl n k) hn num st ha.own.wbDiag
  have s1 := (sim_sampleOne randn hO hT num st (a := .diag d) trivial).with k1
  refine (s1.bind (Q := fun _ => True) fun x hx => ?_).1
  refine (sim_sampleOne randn hO hT num x.1 (a := .lr l r m) wa.2).bind fun y hy => ?_
  refine (hO.add hx.1.up hy.up ?_).bind fun _ _ => Sim.refl _
  rw [kindC_am hx.2, lowSum_comm, lowSum_dense]

/-- C50.  `B.sample` of a Woodbury matrix returns the sum of a sample of the diagonal and, from the state after it, a sample of the low-rank part. -/
theorem C50_sample_woodbury_always (c : Cfg K) {lin : LinEnv K} (hl : lin.Good) {σ : Type} {randn : σ → Shp → σ × Tensor K} (hn : RandnOk randn) (num : ℕ) (st : σ) {d : Tensor K}
    {l r m : Mat K} (ha : (Mat.wb d l r m).Supported) (hd : d.Nonneg) (hlr : (Mat.lr l r m).CholFine) (wa : (Mat.wb d l r m).wo true) :
    ∃ y, LReturns c lin (fun B L => sampleM B L randn num st (.wb d l r m)) y ∧ y.2.Valid ∧
    ∃ F G p q st1, IsFactor (diagC d) F ∧ IsFactor (den (.lr l r m)) G ∧ st1 = (randn st (num :: F.cols :: d.sh.tail)).1 ∧
      y.1 = (randn st1 (num :: G.cols :: (den (.lr l r m)).bt)).1 ∧
      IsMatProd F (randn st (num :: F.cols :: d.sh.tail)).2 p ∧ IsMatProd G (randn st1 (num :: G.cols :: (den (.lr l r m)).bt)).2 q ∧ IsEltwise (· + ·) p q (den y.2) := by
  have hx := (C46_sample_woodbury c hl.lawful hn num st ha.valid wa).2
  have w := ha.valid.own
  obtain ⟨y, h⟩ := (C35_sample c hl.total randn num st (.wb d l r m)).returns hx fun n k => by
    have hF := c.fine ha.batch n
    have ok := c.lok hl.lawful n k
    have fi := c.lfine hl.lawful hl.complete ha.batch n k
    unfold sampleM
    refine Calm.bind (sampleOne_calm randn hF ok fi hn num st w.wbDiag trivial hd) fun x hx => ?_
    refine Calm.bind (sampleOne_calm randn hF ok fi hn num x.1 w.wbLr ha.fit hlr) fun z hz => ?_
    obtain ⟨F, hF', oF, _, w1, d1, k1⟩ := sampleOne_ok (c.ok n) ok randn hn (a := .diag d) w.wbDiag trivial hx
    obtain ⟨G, hG', oG, _, w2, d2, k2⟩ := sampleOne_ok (c.ok n) ok randn hn (a := .lr l r m) w.wbLr hlr.dom hz
    have fF := oF.factor trivial
    have fG := oG.factor hlr.dom
    have er : (den (.diag d : Mat K)).rows = (den (.lr l r m)).rows := w.2.2.2.2.1.symm
    have r1 : (den x.2).rows = (den z.2).rows := by rw [d1, d2, mm_rows, mm_rows, fF.rows, fG.rows, er]
    have c1 : (den x.2).cols = (den z.2).cols := by rw [d1, d2, mm_cols, mm_cols]; simp only [Tensor.cols, hn _ _]; rfl
    have f1 : x.2.fit true := by
      have := sampleDiag_kind randn (ops_mmKinds c.strict n) ok hn num st w.wbDiag x hx
      exact fit_of_dense this
    have f2 : z.2.fit true := by
      simp only [bind_ok_iff, pure_eq_ok] at hz
      obtain ⟨G', hG', _, _, _, _, s, hs, rfl⟩ := hz
      exact ((ops_keeps c.strict n).matmul (κ := false) (fi.cholFit w.wbLr ha.fit G' hG') (fit_num false _) s hs).up
    exact Calm.bind (hF.add w1 w2 f1 f2 (noStretch_of_eq r1 c1) (compat_sh (w1.good k1) (w2.good k2) r1 c1)) fun _ _ => Calm.pure
  obtain ⟨k, n, h'⟩ := h.strict hx
  obtain ⟨F, G, st1, hF, hG, oF, oG, e1, e2, wy, e⟩ := sampleWb_ok (c.ok n) (c.lok hl.lawful n k) randn hn w hlr.dom h'
  have fF := oF.factor trivial
  have fG := oG.factor hlr.dom
  have er : (den (.diag d : Mat K)).rows = (den (.lr l r m)).rows := w.2.2.2.2.1.symm
  have gn : ∀ (s : σ) (k : ℕ) {t : Shp}, Fits (den (.wb d l r m)).bt t → Good (den (.wb d l r m)).bt (randn s (num :: k :: t)).2 :=
    fun s k t ht => ⟨by simp [Tensor.rank, hn _ _], by simp only [Tensor.bt, hn _ _]; exact ht⟩
  have g1 := gn st (den F).cols w.wbDiag.fits
  have g2 := gn st1 (den G).cols w.wbLr.fits
  refine ⟨y, h, ⟨_, wy⟩, den F, den G, _, _, st1, fF, fG, e1, e2, IsMatProd.of_eq (oF.wf.good oF.rank) g1 ?_ rfl, IsMatProd.of_eq (oG.wf.good oG.rank) g2 ?_ rfl,
    IsEltwise.of_eq ?_ e⟩
  · simp only [Tensor.rows, hn _ _]; rfl
  · simp only [Tensor.rows, hn _ _]; rfl
  · exact compat_sh ((oF.wf.good oF.rank).mm g1) ((oG.wf.good oG.rank).mm g2) (by rw [mm_rows, mm_rows, fF.rows, fG.rows]; exact er)
      (by rw [mm_cols, mm_cols]; simp only [Tensor.cols, hn _ _]; rfl)

/-! ### The hypotheses are met -/

namespace Ex

theorem AR_inv : (den AR).Invertible := posInv AR_posDef rfl
theorem PR_inv : (den PR).Invertible := posInv PR_posDef rfl

/- Quadratic forms of a dense, a Woodbury and a Kronecker matrix (the last one with a 4-row right-hand side). -/
example : ∃ ai r, IsInverse (den AR) ai ∧ LReturns cfgR realLin (fun B L => iqfM B L false AR BR DR) r ∧ ∃ p, IsMatProd (tr (den BR)) ai p ∧ IsMatProd p (den DR) (den r) := by
  obtain ⟨ai, hi⟩ := AR_inv
  obtain ⟨r, h1, _, h2⟩ := C50_iqf_always cfgR realLin_good (S := []) (by simp) (same := false) (a := AR) (b := BR) (c := DR) (AR_wf _) (BR_wf _) ⟨le_refl _, Fits.nil _⟩ trivial trivial
    trivial (le_refl _) (le_refl _) AR_posDef hi (by simp) (by simp [BR, Mat.kind]) rfl rfl trivial trivial trivial rfl rfl (by simp [AR, Mat.kind])
  exact ⟨ai, r, hi, h1, h2⟩
example : ∃ ai r, IsInverse (den PR) ai ∧ LReturns cfgR realLin (fun B L => iqfM B L true PR BR BR) r ∧ ∃ p, IsMatProd (tr (den BR)) ai p ∧ IsMatProd p (den BR) (den r) := by
  obtain ⟨ai, hi⟩ := PR_inv
  obtain ⟨r, h1, _, h2⟩ := C50_iqf_always cfgR realLin_good (S := []) (by simp) (same := true) (a := PR) (b := BR) (c := BR) (PR_wf _) (BR_wf _) (BR_wf _) ⟨trivial, trivial, trivial⟩ trivial
    trivial (le_refl _) (le_refl _) PR_posDom hi (fun _ => rfl) (by simp [BR, Mat.kind]) rfl rfl PR_wo trivial trivial rfl rfl (fun _ => ⟨rfl, rfl⟩)
  exact ⟨ai, r, hi, h1, h2⟩
example : ∃ ai v, IsInverse (den PR) ai ∧ LReturns cfgR realLin (fun B L => iqfDiagM B L true PR BR BR) v ∧
    ∃ p q, IsMatProd (tr (den BR)) ai p ∧ IsMatProd p (den BR) q ∧ IsDiagonalOf q v := by
  obtain ⟨ai, hi⟩ := PR_inv
  obtain ⟨r, h1, h2⟩ := C50_iqf_diag_always cfgR realLin_good (S := []) (by simp) (same := true) (a := PR) (b := BR) (c := BR) (PR_wf _) (BR_wf _) (BR_wf _) ⟨trivial, trivial, trivial⟩ trivial
    trivial (le_refl _) (le_refl _) PR_posDom hi (fun _ => rfl) (by simp [BR, Mat.kind]) rfl rfl rfl PR_wo trivial trivial rfl rfl (fun _ => ⟨rfl, rfl⟩)
  exact ⟨ai, r, hi, h1, h2⟩
/- The ratio of a Woodbury matrix to itself, and of a dense to a dense matrix. -/
example : ∃ bi v, IsInverse (den PR) bi ∧ LReturns cfgR realLin (fun B L => ratioM B L PR PR) v ∧ IsRatio (den PR) bi v := by
  obtain ⟨bi, hi⟩ := PR_inv
  obtain ⟨v, h⟩ := C50_ratio_always cfgR realLin_good PR_supported PR_supported (Compat.refl _) (le_refl _) rfl rfl rfl (fun h => absurd rfl h) PR_posDom hi PR_wo PR_wo
  exact ⟨bi, v, hi, h⟩
example : ∃ bi v, IsInverse (den AR) bi ∧ LReturns cfgR realLin (fun B L => ratioM B L PR AR) v ∧ IsRatio (den PR) bi v := by
  obtain ⟨bi, hi⟩ := AR_inv
  obtain ⟨v, h⟩ := C50_ratio_always cfgR realLin_good PR_supported AR_supported (Compat.refl _) (le_refl _) rfl rfl rfl (fun _ => ⟨PR_posDef, rfl⟩) AR_posDef hi PR_wo trivial
  exact ⟨bi, v, hi, h⟩
/- Samples of a dense and a Woodbury matrix; the noise here is constant. -/
example : ∃ y, LReturns cfgR realLin (fun B L => sampleM B L (fun (st : ℕ) sh => (st + 1, fillT sh (1 : ℝ))) 3 0 AR) y := by
  obtain ⟨y, h, _⟩ := C50_sample_always cfgR realLin_good (randn := fun (st : ℕ) sh => (st + 1, fillT sh (1 : ℝ))) (fun _ _ => rfl) 3 0 AR_supported rfl AR_posDef (by simp [AR, Mat.kind]) trivial
  exact ⟨y, h⟩
example : ∃ y, LReturns cfgR realLin (fun B L => sampleM B L (fun (st : ℕ) sh => (st + 1, fillT sh (1 : ℝ))) 3 0 PR) y := by
  obtain ⟨y, h, _⟩ := C50_sample_woodbury_always cfgR realLin_good (randn := fun (st : ℕ) sh => (st + 1, fillT sh (1 : ℝ))) (fun _ _ => rfl) 3 0 PR_supported (fun i hi => (dR_pos i hi).le)
    ⟨rfl, mR1_posDef⟩ PR_wo
  exact ⟨y, h⟩

end Ex

end Verif
