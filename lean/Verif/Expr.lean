/-
Whole expressions (C36) and algebraic laws (C37).
-/
import Verif.DiagPres
import Verif.Props03

set_option linter.unusedSectionVars false

namespace Verif

variable {K : Type} [Field K] [LinearOrder K]

/-- Expressions over matrices, as written with the operators of `matrix/matrix.py` 60-180. -/
inductive Expr (K : Type) [Zero K] where
  | mat (a : Mat K)
  | add (e f : Expr K)
  | sub (e f : Expr K)
  | mul (e f : Expr K)
  | matmul (ta tb : Bool) (e f : Expr K)
  | neg (e : Expr K)
  | tr (e : Expr K)
  | scale (x : K) (e : Expr K)
  | shift (e : Expr K) (x : K)

namespace Expr

/-- Evaluate with the library: every operator calls its function. -/
def eval (env : Env K) (e : Expr K) (B : Ops K) : E (Mat K) :=
  match e with
  | .mat a => .ok a
  | .add e f => do let x ← e.eval env B; let y ← f.eval env B; B.add x y
  | .sub e f => do let x ← e.eval env B; let y ← f.eval env B; subtractM env B x y
  | .mul e f => do let x ← e.eval env B; let y ← f.eval env B; B.mul x y
  | .matmul ta tb e f => do let x ← e.eval env B; let y ← f.eval env B; B.matmul ta tb x y
  | .neg e => do let x ← e.eval env B; negativeM x
  | .tr e => do let x ← e.eval env B; transposeM x
  | .scale k e => do let x ← e.eval env B; B.mul (.num (scalarT k)) x
  | .shift e k => do let x ← e.eval env B; B.add x (.num (scalarT k))

/-- The specification: `t` is the result of the expression on dense matrices. -/
def Denotes (e : Expr K) (t : Tensor K) : Prop :=
  match e with
  | .mat a => t = den a
  | .add e f => ∃ x y, e.Denotes x ∧ f.Denotes y ∧ IsEltwise (· + ·) x y t
  | .sub e f => ∃ x y, e.Denotes x ∧ f.Denotes y ∧ IsEltwise (· - ·) x y t
  | .mul e f => ∃ x y, e.Denotes x ∧ f.Denotes y ∧ IsEltwise (· * ·) x y t
  | .matmul ta tb e f => ∃ x y x' y', e.Denotes x ∧ f.Denotes y ∧ (if ta then IsTranspose x x' else x' = x) ∧ (if tb then IsTranspose y y' else y' = y) ∧ IsMatProd x' y' t
  | .neg e => ∃ x, e.Denotes x ∧ IsMap (fun v => -v) x t
  | .tr e => ∃ x, e.Denotes x ∧ IsTranspose x t
  | .scale k e => ∃ x, e.Denotes x ∧ IsMap (fun v => k * v) x t
  | .shift e k => ∃ x, e.Denotes x ∧ IsMap (fun v => v + k) x t

/-- The expression makes sense with `r × c` result: the leaves are well-formed matrices whose batches broadcast to `S`, element-wise operators combine
matrices of the same size, products of fitting sizes.  Right Kronecker factors are square (`DiagOk`). -/
def Typed (S : Shp) (r c : ℕ) : Expr K → Prop
  | .mat a => a.WF S ∧ 2 ≤ (den a).rank ∧ (den a).rows = r ∧ (den a).cols = c ∧ a.DiagOk
  | .add e f | .sub e f | .mul e f => e.Typed S r c ∧ f.Typed S r c
  | .matmul ta tb e f => ∃ k, (if ta then e.Typed S k r else e.Typed S r k) ∧ (if tb then f.Typed S c k else f.Typed S k c)
  | .neg e => e.Typed S r c
  | .tr e => e.Typed S c r
  | .scale _ e => e.Typed S r c
  | .shift e _ => e.Typed S r c

/-- The dense value (a function meeting `Denotes`). -/
def dense (e : Expr K) : Tensor K :=
  match e with
  | .mat a => den a
  | .add e f => zipB (· + ·) e.dense f.dense
  | .sub e f => zipB (· - ·) e.dense f.dense
  | .mul e f => zipB (· * ·) e.dense f.dense
  | .matmul ta tb e f => mm (trIf ta e.dense) (trIf tb f.dense)
  | .neg e => tneg e.dense
  | .tr e => Verif.tr e.dense
  | .scale k e => tmap (fun v => k * v) e.dense
  | .shift e k => tmap (fun v => v + k) e.dense

theorem Calls_eval (env : Env K) (e : Expr K) : Calls (e.eval env) := by
  induction e with
  | mat a => exact Calls.const _
  | add e f he hf => exact Calls.bind he fun x => Calls.bind hf fun y => Calls.add x y
  | sub e f he hf => exact Calls.bind he fun x => Calls.bind hf fun y => Calls.subtract env x y
  | mul e f he hf => exact Calls.bind he fun x => Calls.bind hf fun y => Calls.mul x y
  | matmul ta tb e f he hf => exact Calls.bind he fun x => Calls.bind hf fun y => Calls.matmul ta tb x y
  | neg e he => exact Calls.bind he fun x => Calls.const _
  | tr e he => exact Calls.bind he fun x => Calls.const _
  | scale k e he => exact Calls.bind he fun x => Calls.mul _ x
  | shift e k he => exact Calls.bind he fun x => Calls.add x _

/-- What is known about a matrix in an expression. -/
structure Sem (S : Shp) (r c : ℕ) (m : Mat K) (t : Tensor K) : Prop where
  wf : m.WF S
  rank : 2 ≤ (den m).rank
  rows : (den m).rows = r
  cols : (den m).cols = c
  dg : m.DiagOk
  eq : den m = t

theorem wf_scalar (S : Shp) (x : K) : (Mat.num (scalarT x)).WF S := ⟨by simp [Tensor.rank], Fits.nil _⟩

theorem zipB_scalar_left (op : K → K → K) (x : K) (t : Tensor K) : zipB op (scalarT x) t = tmap (op x) t :=
  Tensor.ext_inRange (by simp) fun i hi => by
    have hc : Compat (scalarT x).sh t.sh := Compat.nil_left _
    rw [zipB_sh] at hi
    rw [zipB_get op hi hc.fits_left hc.fits_right, tmap_get (op x) (by simpa using hi) (Fits.refl _)]
    simp
theorem zipB_scalar_right (op : K → K → K) (x : K) (t : Tensor K) : zipB op t (scalarT x) = tmap (fun v => op v x) t :=
  Tensor.ext_inRange (by simp) fun i hi => by
    have hc : Compat t.sh (scalarT x).sh := Compat.nil_right _
    rw [zipB_sh] at hi
    rw [zipB_get op hi hc.fits_left hc.fits_right, tmap_get _ (by simpa using hi) (Fits.refl _)]
    simp

variable {env : Env K} {B : Ops K} {S : Shp}

theorem Sem.zip {op : K → K → K} {r c : ℕ} {x y m : Mat K} {t u : Tensor K} (hx : Sem S r c x t) (hy : Sem S r c y u) (z : ZipOk op S x y m) (hd : m.DiagOk) :
    Sem S r c m (zipB op t u) := by
  refine ⟨z.wf, ?_, ?_, ?_, hd, by rw [z.eq, hx.eq, hy.eq]⟩
  · rw [z.eq]; exact ((hx.wf.good hx.rank).zipB op (hy.wf.good hy.rank)).rank
  · rw [z.eq, zipB_rows, hx.rows, hy.rows, bd_self]
  · rw [z.eq, zipB_cols, hx.cols, hy.cols, bd_self]

theorem Sem.noStretch {r c : ℕ} {x y : Mat K} {t u : Tensor K} (hx : Sem S r c x t) (hy : Sem S r c y u) : NoStretch x y :=
  noStretch_of_eq (hx.rows.trans hy.rows.symm) (hx.cols.trans hy.cols.symm)

theorem eval_sem (hB : B.Ok) (hD : B.Dg) (e : Expr K) {r c : ℕ} (ht : e.Typed S r c) {m : Mat K} (h : e.eval env B = .ok m) : Sem S r c m e.dense := by
  induction e generalizing r c m with
  | mat a =>
    simp only [eval, Except.ok.injEq] at h; subst h
    exact ⟨ht.1, ht.2.1, ht.2.2.1, ht.2.2.2.1, ht.2.2.2.2, rfl⟩
  | add e f he hf =>
    simp only [eval, bind_ok_iff] at h
    obtain ⟨x, hx, y, hy, h⟩ := h
    have sx := he ht.1 hx
    have sy := hf ht.2 hy
    exact sx.zip sy (hB.add sx.wf sy.wf (sx.noStretch sy) h) (hD.add sx.wf sy.wf sx.dg sy.dg h)
  | sub e f he hf =>
    simp only [eval, bind_ok_iff] at h
    obtain ⟨x, hx, y, hy, h⟩ := h
    have sx := he ht.1 hx
    have sy := hf ht.2 hy
    refine sx.zip sy (subtractM_ok hB sx.wf sy.wf (sx.noStretch sy) h) ?_
    unfold subtractM at h
    split at h
    · simp only [bind_ok_iff, pure_eq_ok] at h
      obtain ⟨_, _, rfl⟩ := h
      trivial
    · simp only [bind_ok_iff] at h
      obtain ⟨z, hz, h⟩ := h
      obtain ⟨wx, _⟩ := den_convertAM (env := env) sx.wf
      obtain ⟨wy, _⟩ := den_convertAM (env := env) sy.wf
      obtain ⟨wz, _, _⟩ := negativeM_ok wy hz
      exact hD.add wx wz (diagOk_convert.2.2 sx.dg) (diagOk_negativeM wy (diagOk_convert.2.2 sy.dg) hz) h
  | mul e f he hf =>
    simp only [eval, bind_ok_iff] at h
    obtain ⟨x, hx, y, hy, h⟩ := h
    have sx := he ht.1 hx
    have sy := hf ht.2 hy
    exact sx.zip sy (hB.mul sx.wf sy.wf (mulSafe_of (sx.noStretch sy) sx.dg sy.dg) h) (hD.mul sx.wf sy.wf (sx.noStretch sy) sx.dg sy.dg h)
  | matmul ta tb e f he hf =>
    simp only [eval, bind_ok_iff] at h
    obtain ⟨x, hx, y, hy, h⟩ := h
    obtain ⟨k, t1, t2⟩ := ht
    have key : ∃ r1 c1 r2 c2, Sem S r1 c1 x e.dense ∧ Sem S r2 c2 y f.dense ∧ (if ta then c1 else r1) = r ∧ (if tb then r2 else c2) = c := by
      have k1 : ∃ r1 c1, Sem S r1 c1 x e.dense ∧ (if ta then c1 else r1) = r := by
        cases ta
        · exact ⟨_, _, he (by simpa using t1) hx, rfl⟩
        · exact ⟨_, _, he (by simpa using t1) hx, rfl⟩
      have k2 : ∃ r2 c2, Sem S r2 c2 y f.dense ∧ (if tb then r2 else c2) = c := by
        cases tb
        · exact ⟨_, _, hf (by simpa using t2) hy, rfl⟩
        · exact ⟨_, _, hf (by simpa using t2) hy, rfl⟩
      obtain ⟨r1, c1, q1, q2⟩ := k1
      obtain ⟨r2, c2, q3, q4⟩ := k2
      exact ⟨r1, c1, r2, c2, q1, q3, q2, q4⟩
    obtain ⟨r1, c1, r2, c2, sx, sy, e1, e2⟩ := key
    have M := hB.matmul sx.wf sy.wf sx.rank sy.rank h
    refine ⟨M.wf, M.rank, ?_, ?_, hD.matmul sx.wf sy.wf sx.dg sy.dg sx.rank sy.rank h, by rw [M.eq, sx.eq, sy.eq]; rfl⟩
    · rw [M.eq, mm_rows, ← e1, ← sx.rows, ← sx.cols]; cases ta <;> simp
    · rw [M.eq, mm_cols, ← e2, ← sy.rows, ← sy.cols]; cases tb <;> simp
  | neg e he =>
    simp only [eval, bind_ok_iff] at h
    obtain ⟨x, hx, h⟩ := h
    have sx := he ht hx
    obtain ⟨w, e1, _⟩ := negativeM_ok sx.wf h
    refine ⟨w, ?_, ?_, ?_, diagOk_negativeM sx.wf sx.dg h, by rw [e1, sx.eq]; rfl⟩
    · rw [e1]; exact sx.rank
    · rw [e1]; exact sx.rows
    · rw [e1]; exact sx.cols
  | tr e he =>
    simp only [eval, bind_ok_iff] at h
    obtain ⟨x, hx, h⟩ := h
    have sx := he ht hx
    obtain ⟨m', hm', w, e1, _⟩ := transposeM_ok sx.wf
    rw [h] at hm'
    cases hm'
    rw [nTranspose_of_rank sx.rank] at e1
    refine ⟨w, ?_, ?_, ?_, diagOk_transposeM sx.wf sx.dg h, by rw [e1, sx.eq]; rfl⟩
    · rw [e1]; exact (sx.wf.good sx.rank).tr.rank
    · rw [e1, tr_rows]; exact sx.cols
    · rw [e1, tr_cols]; exact sx.rows
  | scale k e he =>
    simp only [eval, bind_ok_iff] at h
    obtain ⟨x, hx, h⟩ := h
    have sx := he ht hx
    have ns : NoStretch (.num (scalarT k)) x := ⟨fun h => by simp [Mat.rigid] at h, fun _ => ⟨Or.inl rfl, Or.inl rfl⟩⟩
    have z := hB.mul (wf_scalar S k) sx.wf (mulSafe_of ns trivial sx.dg) h
    have e1 : den m = tmap (fun v => k * v) (den x) := by rw [z.eq]; exact zipB_scalar_left _ _ _
    refine ⟨z.wf, ?_, ?_, ?_, hD.mul (wf_scalar S k) sx.wf ns trivial sx.dg h, by rw [e1, sx.eq]; rfl⟩
    · rw [e1]; exact sx.rank
    · rw [e1]; exact sx.rows
    · rw [e1]; exact sx.cols
  | shift e k he =>
    simp only [eval, bind_ok_iff] at h
    obtain ⟨x, hx, h⟩ := h
    have sx := he ht hx
    have ns : NoStretch x (.num (scalarT k)) := ⟨fun _ => ⟨Or.inl rfl, Or.inl rfl⟩, fun h => by simp [Mat.rigid] at h⟩
    have z := hB.add sx.wf (wf_scalar S k) ns h
    have e1 : den m = tmap (fun v => v + k) (den x) := by rw [z.eq]; exact zipB_scalar_right _ _ _
    refine ⟨z.wf, ?_, ?_, ?_, hD.add sx.wf (wf_scalar S k) sx.dg trivial h, by rw [e1, sx.eq]; rfl⟩
    · rw [e1]; exact sx.rank
    · rw [e1]; exact sx.rows
    · rw [e1]; exact sx.cols

/-- Shapes of the dense value. -/
structure DSem (S : Shp) (r c : ℕ) (t : Tensor K) : Prop where
  good : Good S t
  rows : t.rows = r
  cols : t.cols = c

theorem DSem.compat {r c : ℕ} {t u : Tensor K} (ht : DSem S r c t) (hu : DSem S r c u) : Compat t.sh u.sh := by
  rw [ht.good.rep.sh, hu.good.rep.sh, ht.rows, hu.rows, ht.cols, hu.cols]
  simp only [compat_cons]
  exact ⟨by simp, by simp, ht.good.fits.compat hu.good.fits⟩

theorem DSem.zip {r c : ℕ} {t u : Tensor K} (op : K → K → K) (ht : DSem S r c t) (hu : DSem S r c u) : DSem S r c (zipB op t u) :=
  ⟨ht.good.zipB op hu.good, by rw [zipB_rows, ht.rows, hu.rows, bd_self], by rw [zipB_cols, ht.cols, hu.cols, bd_self]⟩

theorem DSem.tr {r c : ℕ} {t : Tensor K} (h : DSem S r c t) : DSem S c r (Verif.tr t) := ⟨h.good.tr, h.cols, h.rows⟩
theorem DSem.map {r c : ℕ} {t : Tensor K} (f : K → K) (h : DSem S r c t) : DSem S r c (tmap f t) := ⟨⟨h.good.rank, h.good.fits⟩, h.rows, h.cols⟩
theorem DSem.trIf {r c : ℕ} {t : Tensor K} {x : Bool} (h : if x then DSem S c r t else DSem S r c t) : DSem S r c (trIf x t) := by
  cases x
  · simpa using h
  · exact DSem.tr (by simpa using h)
theorem DSem.mm {r k c : ℕ} {t u : Tensor K} (ht : DSem S r k t) (hu : DSem S k c u) : DSem S r c (mm t u) :=
  ⟨ht.good.mm hu.good, ht.rows, hu.cols⟩

theorem dense_sem (e : Expr K) {r c : ℕ} (ht : e.Typed S r c) : DSem S r c e.dense := by
  induction e generalizing r c with
  | mat a => exact ⟨ht.1.good ht.2.1, ht.2.2.1, ht.2.2.2.1⟩
  | add e f he hf => exact (he ht.1).zip _ (hf ht.2)
  | sub e f he hf => exact (he ht.1).zip _ (hf ht.2)
  | mul e f he hf => exact (he ht.1).zip _ (hf ht.2)
  | matmul ta tb e f he hf =>
    obtain ⟨k, t1, t2⟩ := ht
    refine DSem.mm (k := k) (DSem.trIf ?_) (DSem.trIf ?_)
    · cases ta
      · exact he t1
      · exact he t1
    · cases tb
      · exact hf t2
      · exact hf t2
  | neg e he => exact (he ht).map _
  | tr e he => exact DSem.tr (he ht)
  | scale k e he => exact (he ht).map _
  | shift e k he => exact (he ht).map _

theorem denotes_dense (e : Expr K) {r c : ℕ} (ht : e.Typed S r c) : e.Denotes e.dense := by
  induction e generalizing r c with
  | mat a => rfl
  | add e f he hf => exact ⟨_, _, he ht.1, hf ht.2, IsEltwise.of_eq ((dense_sem e ht.1).compat (dense_sem f ht.2)) rfl⟩
  | sub e f he hf => exact ⟨_, _, he ht.1, hf ht.2, IsEltwise.of_eq ((dense_sem e ht.1).compat (dense_sem f ht.2)) rfl⟩
  | mul e f he hf => exact ⟨_, _, he ht.1, hf ht.2, IsEltwise.of_eq ((dense_sem e ht.1).compat (dense_sem f ht.2)) rfl⟩
  | matmul ta tb e f he hf =>
    obtain ⟨k, t1, t2⟩ := ht
    have q1 : e.Denotes e.dense ∧ DSem S r k (trIf ta e.dense) ∧ 2 ≤ e.dense.rank := by
      cases ta
      · exact ⟨he t1, dense_sem e t1, (dense_sem e t1).good.rank⟩
      · exact ⟨he t1, DSem.tr (dense_sem e t1), (dense_sem e t1).good.rank⟩
    have q2 : f.Denotes f.dense ∧ DSem S k c (trIf tb f.dense) ∧ 2 ≤ f.dense.rank := by
      cases tb
      · exact ⟨hf t2, dense_sem f t2, (dense_sem f t2).good.rank⟩
      · exact ⟨hf t2, DSem.tr (dense_sem f t2), (dense_sem f t2).good.rank⟩
    refine ⟨_, _, trIf ta e.dense, trIf tb f.dense, q1.1, q2.1, ?_, ?_, IsMatProd.of_eq q1.2.1.good q2.2.1.good (q1.2.1.cols.trans q2.2.1.rows.symm) rfl⟩
    · cases ta
      · rfl
      · exact IsTranspose.of_eq q1.2.2 rfl
    · cases tb
      · rfl
      · exact IsTranspose.of_eq q2.2.2 rfl
  | neg e he => exact ⟨_, he ht, IsMap.of_eq rfl⟩
  | tr e he => exact ⟨_, he ht, IsTranspose.of_eq (dense_sem e ht).good.rank rfl⟩
  | scale k e he => exact ⟨_, he ht, IsMap.of_eq rfl⟩
  | shift e k he => exact ⟨_, he ht, IsMap.of_eq rfl⟩

end Expr

/-! ### C36 -/

/-- C36.  If an expression over well-formed matrices evaluates, the result is well formed, has the size of the expression
and denotes the result of the same expression on dense matrices. -/
theorem C36_expression (c : Cfg K) {S : Shp} {p q : ℕ} {e : Expr K} {m : Mat K} (ht : e.Typed S p q)
    (hr : Returns c (e.eval c.code) m) (hx : Exact c (e.eval c.code)) :
    m.Valid ∧ (den m).rows = p ∧ (den m).cols = q ∧ e.Denotes (den m) := by
  obtain ⟨n, h⟩ := hr.strict hx
  have s := Expr.eval_sem (c.ok n) (ops_dg (strictEnv_lawful _ _) n) e ht h
  exact ⟨⟨_, s.wf⟩, s.rows, s.cols, by rw [s.eq]; exact Expr.denotes_dense e ht⟩

/-- The evaluation of `e` returns `m`, with right tolerance tests. -/
def Evals (c : Cfg K) (e : Expr K) (m : Mat K) : Prop := Returns c (e.eval c.code) m ∧ Exact c (e.eval c.code)

/-- Two expressions with the same dense value evaluate to matrices denoting the same. -/
theorem Expr.same (c : Cfg K) {e f : Expr K} {m m' : Mat K} (hr : Evals c e m) (hr' : Evals c f m') (S : Shp) (p q : ℕ) (he : e.Typed S p q) (hf : f.Typed S p q) (h : e.dense = f.dense) :
    den m = den m' := by
  obtain ⟨n, h1⟩ := hr.1.strict hr.2
  obtain ⟨n', h2⟩ := hr'.1.strict hr'.2
  rw [(Expr.eval_sem (c.ok n) (ops_dg (strictEnv_lawful _ _) n) e he h1).eq, (Expr.eval_sem (c.ok n') (ops_dg (strictEnv_lawful _ _) n') f hf h2).eq, h]

namespace Ex

/-- `((W + C) @ L - 2 * D.T) * M`. -/
def e1 : Expr ℚ := .mul (.sub (.matmul false false (.add (.mat W) (.mat C)) (.mat L)) (.scale 2 (.tr (.mat D)))) (.mat M)
/-- `-(Kr @ Kr.T) + 1`. -/
def e2 : Expr ℚ := .shift (.neg (.matmul false true (.mat Kr) (.mat Kr))) 1

theorem e1_typed : e1.Typed [] 2 2 := by
  refine ⟨⟨⟨2, ⟨?_, ?_⟩, ?_⟩, ?_⟩, ?_⟩
  · exact ⟨W_wf _, by decide, rfl, rfl, trivial⟩
  · exact ⟨C_wf _, by decide, rfl, rfl, trivial⟩
  · exact ⟨L_wf _, by decide, rfl, rfl, trivial⟩
  · exact ⟨D_wf _, by decide, rfl, rfl, trivial⟩
  · exact ⟨M_wf _, by decide, rfl, rfl, trivial⟩
theorem e2_typed : e2.Typed [] 4 4 := by
  have : Expr.Typed [] 4 4 (.mat Kr) := ⟨Kr_wf _, by decide, rfl, rfl, rfl, trivial, trivial⟩
  exact ⟨4, this, this⟩
end Ex

example : ∃ r, Returns Ex.cfg (Ex.e1.eval Ex.cfg.code) r ∧ Exact Ex.cfg (Ex.e1.eval Ex.cfg.code) :=
  Ex.meets (Expr.Calls_eval _ _) (n := 10) (by decide +kernel)
example : ∃ r, Returns Ex.cfg (Ex.e2.eval Ex.cfg.code) r ∧ Exact Ex.cfg (Ex.e2.eval Ex.cfg.code) :=
  Ex.meets (Expr.Calls_eval _ _) (n := 10) (by decide +kernel)

/-! ### C37 -/

section laws
variable (c : Cfg K) {S : Shp} {p q k l : ℕ} {a b d : Expr K} {m m' : Mat K}

theorem Expr.fitsT {e : Expr K} {r s : ℕ} (h : e.Typed S r s) : Fits (s :: r :: S) e.dense.sh := by
  have := e.dense_sem h
  rw [this.good.rep.sh, this.rows, this.cols]
  simp only [fits_cons]
  exact ⟨by simp, by simp, this.good.fits⟩

/-- C37.  `a + b` and `b + a` denote the same matrix. -/
theorem C37_add_comm (ha : a.Typed S p q) (hb : b.Typed S p q) (h : Evals c (.add a b) m) (h' : Evals c (.add b a) m') : den m = den m' :=
  Expr.same c h h' S p q ⟨ha, hb⟩ ⟨hb, ha⟩ (zipB_comm _ add_comm _ _)

/-- C37.  `(a + b) + d` and `a + (b + d)` denote the same matrix. -/
theorem C37_add_assoc (ha : a.Typed S p q) (hb : b.Typed S p q) (hd : d.Typed S p q) (h : Evals c (.add (.add a b) d) m) (h' : Evals c (.add a (.add b d)) m') : den m = den m' :=
  Expr.same c h h' S p q ⟨⟨ha, hb⟩, hd⟩ ⟨ha, hb, hd⟩ (zipB_assoc _ add_assoc (Expr.fitsT ha) (Expr.fitsT hb) (Expr.fitsT hd))

/-- C37.  `a * b` and `b * a` denote the same matrix. -/
theorem C37_mul_comm (ha : a.Typed S p q) (hb : b.Typed S p q) (h : Evals c (.mul a b) m) (h' : Evals c (.mul b a) m') : den m = den m' :=
  Expr.same c h h' S p q ⟨ha, hb⟩ ⟨hb, ha⟩ (zipB_comm _ mul_comm _ _)

/-- C37.  `(a * b) * d` and `a * (b * d)` denote the same matrix. -/
theorem C37_mul_assoc (ha : a.Typed S p q) (hb : b.Typed S p q) (hd : d.Typed S p q) (h : Evals c (.mul (.mul a b) d) m) (h' : Evals c (.mul a (.mul b d)) m') : den m = den m' :=
  Expr.same c h h' S p q ⟨⟨ha, hb⟩, hd⟩ ⟨ha, hb, hd⟩ (zipB_assoc _ mul_assoc (Expr.fitsT ha) (Expr.fitsT hb) (Expr.fitsT hd))

/-- C37.  `(a + b) * d` denotes `a * d + b * d`. -/
theorem C37_add_mul (ha : a.Typed S p q) (hb : b.Typed S p q) (hd : d.Typed S p q) (h : Evals c (.mul (.add a b) d) m) (h' : Evals c (.add (.mul a d) (.mul b d)) m') : den m = den m' :=
  Expr.same c h h' S p q ⟨⟨ha, hb⟩, hd⟩ ⟨⟨ha, hd⟩, hb, hd⟩ (zip_mul_add (Expr.fitsT ha) (Expr.fitsT hb) (Expr.fitsT hd))

/-- C37.  `(a @ b) @ d` and `a @ (b @ d)` denote the same matrix. -/
theorem C37_matmul_assoc (ha : a.Typed S p k) (hb : b.Typed S k l) (hd : d.Typed S l q)
    (h : Evals c (.matmul false false (.matmul false false a b) d) m) (h' : Evals c (.matmul false false a (.matmul false false b d)) m') : den m = den m' :=
  Expr.same c h h' S p q ⟨l, ⟨k, ha, hb⟩, hd⟩ ⟨k, ha, l, hb, hd⟩
    (mm_assoc (a.dense_sem ha).good (b.dense_sem hb).good (d.dense_sem hd).good ((a.dense_sem ha).cols.trans (b.dense_sem hb).rows.symm)
      ((b.dense_sem hb).cols.trans (d.dense_sem hd).rows.symm))

/-- C37.  `a @ (b + d)` denotes `a @ b + a @ d`. -/
theorem C37_matmul_add (ha : a.Typed S p k) (hb : b.Typed S k q) (hd : d.Typed S k q)
    (h : Evals c (.matmul false false a (.add b d)) m) (h' : Evals c (.add (.matmul false false a b) (.matmul false false a d)) m') : den m = den m' :=
  Expr.same c h h' S p q ⟨k, ha, hb, hd⟩ ⟨⟨k, ha, hb⟩, k, ha, hd⟩
    (mm_add_right (a.dense_sem ha).good (b.dense_sem hb).good (d.dense_sem hd).good ((b.dense_sem hb).rows.trans (d.dense_sem hd).rows.symm)
      ((b.dense_sem hb).cols.trans (d.dense_sem hd).cols.symm) ((a.dense_sem ha).cols.trans (b.dense_sem hb).rows.symm))

/-- C37.  `(a + b) @ d` denotes `a @ d + b @ d`. -/
theorem C37_add_matmul (ha : a.Typed S p k) (hb : b.Typed S p k) (hd : d.Typed S k q)
    (h : Evals c (.matmul false false (.add a b) d) m) (h' : Evals c (.add (.matmul false false a d) (.matmul false false b d)) m') : den m = den m' :=
  Expr.same c h h' S p q ⟨k, ⟨ha, hb⟩, hd⟩ ⟨⟨k, ha, hd⟩, k, hb, hd⟩
    (mm_add_left (a.dense_sem ha).good (b.dense_sem hb).good (d.dense_sem hd).good ((a.dense_sem ha).rows.trans (b.dense_sem hb).rows.symm)
      ((a.dense_sem ha).cols.trans (b.dense_sem hb).cols.symm) ((a.dense_sem ha).cols.trans (d.dense_sem hd).rows.symm))

/-- C37.  `(a @ b).T` denotes `b.T @ a.T`. -/
theorem C37_transpose_matmul (ha : a.Typed S p k) (hb : b.Typed S k q)
    (h : Evals c (.tr (.matmul false false a b)) m) (h' : Evals c (.matmul false false (.tr b) (.tr a)) m') : den m = den m' :=
  Expr.same c h h' S q p ⟨k, ha, hb⟩ ⟨k, hb, ha⟩
    (tr_mm (a.dense_sem ha).good (b.dense_sem hb).good ((a.dense_sem ha).cols.trans (b.dense_sem hb).rows.symm))

/-- C37.  Transposing by the flags of `B.matmul` is transposing the operands. -/
theorem C37_matmul_flags (ta tb : Bool) (ha : if ta then a.Typed S k p else a.Typed S p k) (hb : if tb then b.Typed S q k else b.Typed S k q)
    (h : Evals c (.matmul ta tb a b) m) (h' : Evals c (.matmul false false (if ta then .tr a else a) (if tb then .tr b else b)) m') : den m = den m' := by
  refine Expr.same c h h' S p q ⟨k, ha, hb⟩ ⟨k, ?_, ?_⟩ ?_
  · cases ta <;> exact ha
  · cases tb <;> exact hb
  · cases ta <;> cases tb <;> rfl

/-- C37.  `(a + b).T` denotes `a.T + b.T`. -/
theorem C37_transpose_add (ha : a.Typed S p q) (hb : b.Typed S p q)
    (h : Evals c (.tr (.add a b)) m) (h' : Evals c (.add (.tr a) (.tr b)) m') : den m = den m' :=
  Expr.same c h h' S q p ⟨ha, hb⟩ ⟨ha, hb⟩
    (tr_zipB _ (a.dense_sem ha).good (b.dense_sem hb).good ((a.dense_sem ha).rows.trans (b.dense_sem hb).rows.symm) ((a.dense_sem ha).cols.trans (b.dense_sem hb).cols.symm))

/-- C37.  `a - b` denotes `a + (-b)`. -/
theorem C37_sub (ha : a.Typed S p q) (hb : b.Typed S p q) (h : Evals c (.sub a b) m) (h' : Evals c (.add a (.neg b)) m') : den m = den m' :=
  Expr.same c h h' S p q ⟨ha, hb⟩ ⟨ha, hb⟩ (zipB_sub ((a.dense_sem ha).compat (b.dense_sem hb))).symm

/-- C37.  `a - a` denotes zero. -/
theorem C37_sub_self (ha : a.Typed S p q) (h : Evals c (.sub a a) m) : ∀ i, InRange (den m).sh i → (den m).get i = 0 := by
  obtain ⟨n, h1⟩ := h.1.strict h.2
  rw [(Expr.eval_sem (c.ok n) (ops_dg (strictEnv_lawful _ _) n) (.sub a a) ⟨ha, ha⟩ h1).eq]
  intro i hi
  have hc := (a.dense_sem ha).compat (a.dense_sem ha)
  have hi' : InRange (bsh a.dense.sh a.dense.sh) i := hi
  show (zipB (· - ·) a.dense a.dense).get i = 0
  rw [zipB_get _ hi' hc.fits_left hc.fits_right, sub_self]

/-- C37.  `-(-a)` denotes `a`. -/
theorem C37_neg_neg (ha : a.Typed S p q) (h : Evals c (.neg (.neg a)) m) (h' : Evals c a m') : den m = den m' :=
  Expr.same c h h' S p q ha ha (tneg_tneg _)

/-- C37.  `x * (a @ b)` denotes `(x * a) @ b`. -/
theorem C37_scale_matmul (x : K) (ha : a.Typed S p k) (hb : b.Typed S k q)
    (h : Evals c (.scale x (.matmul false false a b)) m) (h' : Evals c (.matmul false false (.scale x a) b) m') : den m = den m' := by
  refine Expr.same c h h' S p q ⟨k, ha, hb⟩ ⟨k, ha, hb⟩ ?_
  have da := a.dense_sem ha
  have db := b.dense_sem hb
  show tmap _ (mm a.dense b.dense) = mm (tmap _ a.dense) b.dense
  have fa : Fits (mm a.dense b.dense).bt a.dense.bt := by rw [mm_bt]; exact (da.good.fits.compat db.good.fits).fits_left
  have fb : Fits (mm a.dense b.dense).bt b.dense.bt := by rw [mm_bt]; exact (da.good.fits.compat db.good.fits).fits_right
  have A := Rep.self da.good.rank fa
  have B := Rep.self db.good.rank fb
  rw [← da.cols.trans db.rows.symm] at B
  refine Rep.ext ((A.mm B).tmap _) ((A.tmap _).mm B) rfl ?_
  intro β i j _ _ _
  rw [Finset.mul_sum]
  exact Finset.sum_congr rfl fun _ _ => (mul_assoc _ _ _).symm

end laws

/-! The laws on concrete operands: both sides evaluate. -/

example : ∃ m m', Evals Ex.cfg (.add (.mat Ex.W) (.mat Ex.C)) m ∧ Evals Ex.cfg (.add (.mat Ex.C) (.mat Ex.W)) m' := by
  obtain ⟨m, h⟩ := Ex.meets (Expr.Calls_eval Ex.cfg.code (.add (.mat Ex.W) (.mat Ex.C))) (n := 10) (by decide +kernel)
  obtain ⟨m', h'⟩ := Ex.meets (Expr.Calls_eval Ex.cfg.code (.add (.mat Ex.C) (.mat Ex.W))) (n := 10) (by decide +kernel)
  exact ⟨m, m', h, h'⟩
example : ∃ m m', Evals Ex.cfg (.matmul false false (.mat Ex.W) (.add (.mat Ex.R) (.mat Ex.L))) m ∧
    Evals Ex.cfg (.add (.matmul false false (.mat Ex.W) (.mat Ex.R)) (.matmul false false (.mat Ex.W) (.mat Ex.L))) m' := by
  obtain ⟨m, h⟩ := Ex.meets (Expr.Calls_eval Ex.cfg.code (.matmul false false (.mat Ex.W) (.add (.mat Ex.R) (.mat Ex.L)))) (n := 10) (by decide +kernel)
  obtain ⟨m', h'⟩ := Ex.meets (Expr.Calls_eval Ex.cfg.code (.add (.matmul false false (.mat Ex.W) (.mat Ex.R)) (.matmul false false (.mat Ex.W) (.mat Ex.L)))) (n := 10) (by decide +kernel)
  exact ⟨m, m', h, h'⟩
example : ∃ m, Evals Ex.cfg (.sub (.mat Ex.W) (.mat Ex.W)) m := Ex.meets (Expr.Calls_eval Ex.cfg.code (.sub (.mat Ex.W) (.mat Ex.W))) (n := 10) (by decide +kernel)
example : ∃ m m', Evals Ex.cfg (.tr (.matmul false false (.mat Ex.Kr) (.mat Ex.Kr))) m ∧ Evals Ex.cfg (.matmul false false (.tr (.mat Ex.Kr)) (.tr (.mat Ex.Kr))) m' := by
  obtain ⟨m, h⟩ := Ex.meets (Expr.Calls_eval Ex.cfg.code (.tr (.matmul false false (.mat Ex.Kr) (.mat Ex.Kr)))) (n := 10) (by decide +kernel)
  obtain ⟨m', h'⟩ := Ex.meets (Expr.Calls_eval Ex.cfg.code (.matmul false false (.tr (.mat Ex.Kr)) (.tr (.mat Ex.Kr)))) (n := 10) (by decide +kernel)
  exact ⟨m, m', h, h'⟩

end Verif
