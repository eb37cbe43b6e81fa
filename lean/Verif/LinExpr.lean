/-
Whole expressions with inverses, divisions and linear solves (C55), and independence of the representation.
-/
import Verif.Expr
import Verif.Props05
import Verif.ExLin

set_option linter.unusedSectionVars false

namespace Verif

variable {K : Type} [Field K] [LinearOrder K] [IsStrictOrderedRing K]

/-- Expressions over matrices with the operators of `matrix/matrix.py` 60-180, `B.divide`, `B.inv` and `B.solve`. -/
inductive LExpr (K : Type) [Zero K] where
  | mat (a : Mat K)
  | add (e f : LExpr K)
  | sub (e f : LExpr K)
  | mul (e f : LExpr K)
  | div (e f : LExpr K)
  | matmul (ta tb : Bool) (e f : LExpr K)
  | neg (e : LExpr K)
  | tr (e : LExpr K)
  | scale (x : K) (e : LExpr K)
  | shift (e : LExpr K) (x : K)
  | inv (e : LExpr K)
  | solve (e f : LExpr K)

namespace LExpr

/-- Evaluate with the library: every operator calls its function. -/
def eval (env : Env K) (e : LExpr K) (B : Ops K) (L : LOps K) : E (Mat K) :=
  match e with
  | .mat a => .ok a
  | .add e f => do let x ← e.eval env B L; let y ← f.eval env B L; B.add x y
  | .sub e f => do let x ← e.eval env B L; let y ← f.eval env B L; subtractM env B x y
  | .mul e f => do let x ← e.eval env B L; let y ← f.eval env B L; B.mul x y
  | .div e f => do let x ← e.eval env B L; let y ← f.eval env B L; divideM env B x y
  | .matmul ta tb e f => do let x ← e.eval env B L; let y ← f.eval env B L; B.matmul ta tb x y
  | .neg e => do let x ← e.eval env B L; negativeM x
  | .tr e => do let x ← e.eval env B L; transposeM x
  | .scale k e => do let x ← e.eval env B L; B.mul (.num (scalarT k)) x
  | .shift e k => do let x ← e.eval env B L; B.add x (.num (scalarT k))
  | .inv e => do let x ← e.eval env B L; L.inv x
  | .solve e f => do let x ← e.eval env B L; let y ← f.eval env B L; L.solve x y

/-- All entries are zero. -/
def AllZero (t : Tensor K) : Prop := ∀ i, InRange t.sh i → t.get i = 0

/-- The specification: `t` is a result of the expression on dense matrices.  (A zero right-hand side of `B.solve` is returned as it is, without the
batch dimensions of the matrix.) -/
def Denotes (e : LExpr K) (t : Tensor K) : Prop :=
  match e with
  | .mat a => t = den a
  | .add e f => ∃ x y, e.Denotes x ∧ f.Denotes y ∧ IsEltwise (· + ·) x y t
  | .sub e f => ∃ x y, e.Denotes x ∧ f.Denotes y ∧ IsEltwise (· - ·) x y t
  | .mul e f => ∃ x y, e.Denotes x ∧ f.Denotes y ∧ IsEltwise (· * ·) x y t
  | .div e f => ∃ x y, e.Denotes x ∧ f.Denotes y ∧ (∀ i, InRange y.sh i → y.get i ≠ 0) ∧ IsEltwise (· / ·) x y t
  | .matmul ta tb e f => ∃ x y x' y', e.Denotes x ∧ f.Denotes y ∧ (if ta then IsTranspose x x' else x' = x) ∧ (if tb then IsTranspose y y' else y' = y) ∧ IsMatProd x' y' t
  | .neg e => ∃ x, e.Denotes x ∧ IsMap (fun v => -v) x t
  | .tr e => ∃ x, e.Denotes x ∧ IsTranspose x t
  | .scale k e => ∃ x, e.Denotes x ∧ IsMap (fun v => k * v) x t
  | .shift e k => ∃ x, e.Denotes x ∧ IsMap (fun v => v + k) x t
  | .inv e => ∃ x, e.Denotes x ∧ IsInverse x t
  | .solve e f => ∃ x y, e.Denotes x ∧ f.Denotes y ∧ (IsSolution x y t ∨ AllZero y ∧ t = y)

/-- The expression makes sense with `r × c` result (as `Expr.Typed`); only square matrices are inverted or solved with. -/
def Typed (S : Shp) (r c : ℕ) : LExpr K → Prop
  | .mat a => a.WF S ∧ 2 ≤ (den a).rank ∧ (den a).rows = r ∧ (den a).cols = c ∧ a.DiagOk
  | .add e f | .sub e f | .mul e f | .div e f => e.Typed S r c ∧ f.Typed S r c
  | .matmul ta tb e f => ∃ k, (if ta then e.Typed S k r else e.Typed S r k) ∧ (if tb then f.Typed S c k else f.Typed S k c)
  | .neg e => e.Typed S r c
  | .tr e => e.Typed S c r
  | .scale _ e => e.Typed S r c
  | .shift e _ => e.Typed S r c
  | .inv e => r = c ∧ e.Typed S r c
  | .solve e f => e.Typed S r r ∧ f.Typed S r c

theorem LCalls_eval (env : Env K) (e : LExpr K) : LCalls (e.eval env) := by
  induction e with
  | mat a => exact fun _ _ _ _ _ _ _ => .refl _
  | add e f he hf => exact fun bad B C L M h hL => (he bad B C L M h hL).bind fun x => (hf bad B C L M h hL).bind fun y => h.add x y
  | sub e f he hf => exact fun bad B C L M h hL => (he bad B C L M h hL).bind fun x => (hf bad B C L M h hL).bind fun y => Calls.subtract env x y _ _ _ h
  | mul e f he hf => exact fun bad B C L M h hL => (he bad B C L M h hL).bind fun x => (hf bad B C L M h hL).bind fun y => h.mul x y
  | div e f he hf => exact fun bad B C L M h hL => (he bad B C L M h hL).bind fun x => (hf bad B C L M h hL).bind fun y => Calls.divide env x y _ _ _ h
  | matmul ta tb e f he hf => exact fun bad B C L M h hL => (he bad B C L M h hL).bind fun x => (hf bad B C L M h hL).bind fun y => h.matmul ta tb x y
  | neg e he => exact fun bad B C L M h hL => (he bad B C L M h hL).bind fun x => .refl _
  | tr e he => exact fun bad B C L M h hL => (he bad B C L M h hL).bind fun x => .refl _
  | scale k e he => exact fun bad B C L M h hL => (he bad B C L M h hL).bind fun x => h.mul _ x
  | shift e k he => exact fun bad B C L M h hL => (he bad B C L M h hL).bind fun x => h.add x _
  | inv e he => exact fun bad B C L M h hL => (he bad B C L M h hL).bind fun x => hL.inv x
  | solve e f he hf => exact fun bad B C L M h hL => (he bad B C L M h hL).bind fun x => (hf bad B C L M h hL).bind fun y => hL.solve x y

theorem diagOk_of_kind {a : Mat K} (h : a.kind ≠ some .kron) : a.DiagOk := by
  cases a with
  | kron l r => exact absurd rfl h
  | _ => trivial

/-- Inverses have square right Kronecker factors. -/
theorem inv_dg {env : Env K} {lin : LinEnv K} {B : Ops K} (hO : ∀ m, (lops env lin B m).Ok lin) (m : ℕ) {S : Shp} {a r : Mat K} (wa : a.WF S)
    (h : (lops env lin B m).inv a = .ok r) : r.DiagOk := by
  induction m generalizing a r with
  | zero => cases h
  | succ m ih =>
    by_cases hk : a.kind = some .kron
    · obtain ⟨l, s, rfl⟩ := kind_kron hk
      change stepInv env lin B (lops env lin B m) (.kron l s) = .ok r at h
      simp only [stepInv, bind_ok_iff, pure_eq_ok] at h
      obtain ⟨x, hx, y, hy, rfl⟩ := h
      obtain ⟨oy, _⟩ := (hO m).inv wa.1.2 hy
      refine ⟨?_, ih wa.1.1 hx, ih wa.1.2 hy⟩
      rw [rows_of_sh oy.inv.shape, cols_of_sh oy.inv.shape]
      exact oy.inv.square
    · obtain ⟨_, k⟩ := (hO (m+1)).inv wa h
      exact diagOk_of_kind (by rw [k]; exact hk)

/-- What is known about a matrix in an expression. -/
structure Sem (S : Shp) (r c : ℕ) (m : Mat K) : Prop where
  wf : m.WF S
  rank : 2 ≤ (den m).rank
  rows : (den m).rows = r
  cols : (den m).cols = c
  dg : m.DiagOk

variable {env : Env K} {B : Ops K} {L : LOps K} {S : Shp}

theorem Sem.zip {op : K → K → K} {r c : ℕ} {x y m : Mat K} (hx : Sem S r c x) (hy : Sem S r c y) (z : ZipOk op S x y m) (hd : m.DiagOk) : Sem S r c m := by
  refine ⟨z.wf, ?_, ?_, ?_, hd⟩
  · rw [z.eq]; exact ((hx.wf.good hx.rank).zipB op (hy.wf.good hy.rank)).rank
  · rw [z.eq, zipB_rows, hx.rows, hy.rows, bd_self]
  · rw [z.eq, zipB_cols, hx.cols, hy.cols, bd_self]

theorem Sem.noStretch {r c : ℕ} {x y : Mat K} (hx : Sem S r c x) (hy : Sem S r c y) : NoStretch x y :=
  noStretch_of_eq (hx.rows.trans hy.rows.symm) (hx.cols.trans hy.cols.symm)

theorem Sem.map {r c : ℕ} {x m : Mat K} {f : K → K} (hx : Sem S r c x) (w : m.WF S) (e : den m = tmap f (den x)) (hd : m.DiagOk) : Sem S r c m :=
  ⟨w, by rw [e]; exact hx.rank, by rw [e]; exact hx.rows, by rw [e]; exact hx.cols, hd⟩

theorem eval_sem {lin : LinEnv K} (hB : B.Ok) (hD : B.Dg) (hL : L.Ok lin) (hI : ∀ {S a r}, Mat.WF S a → L.inv a = .ok r → r.DiagOk) (e : LExpr K) {r c : ℕ}
    (ht : e.Typed S r c) {m : Mat K} (h : e.eval env B L = .ok m) : Sem S r c m ∧ e.Denotes (den m) := by
  induction e generalizing r c m with
  | mat a =>
    simp only [eval, Except.ok.injEq] at h; subst h
    exact ⟨⟨ht.1, ht.2.1, ht.2.2.1, ht.2.2.2.1, ht.2.2.2.2⟩, rfl⟩
  | add e f he hf =>
    simp only [eval, bind_ok_iff] at h
    obtain ⟨x, hx, y, hy, h⟩ := h
    obtain ⟨sx, dx⟩ := he ht.1 hx
    obtain ⟨sy, dy⟩ := hf ht.2 hy
    have z := hB.add sx.wf sy.wf (sx.noStretch sy) h
    exact ⟨sx.zip sy z (hD.add sx.wf sy.wf sx.dg sy.dg h), _, _, dx, dy, IsEltwise.of_eq z.compat z.eq⟩
  | sub e f he hf =>
    simp only [eval, bind_ok_iff] at h
    obtain ⟨x, hx, y, hy, h⟩ := h
    obtain ⟨sx, dx⟩ := he ht.1 hx
    obtain ⟨sy, dy⟩ := hf ht.2 hy
    have z := subtractM_ok hB sx.wf sy.wf (sx.noStretch sy) h
    refine ⟨sx.zip sy z ?_, _, _, dx, dy, IsEltwise.of_eq z.compat z.eq⟩
    unfold subtractM at h
    split at h
    · simp only [bind_ok_iff, pure_eq_ok] at h
      obtain ⟨_, _, rfl⟩ := h
      trivial
    · simp only [bind_ok_iff] at h
      obtain ⟨z, hz, h⟩ := h
      obtain ⟨wx, _⟩ := den_convertAM (env := env) sx.wf
      obtain ⟨wy, _⟩ := den_convertAM (env := env) sy.wf
      obtain ⟨wz, _, _⟩ := negativeM_ok wy hz
      exact hD.add wx wz (diagOk_convert.2.2 sx.dg) (diagOk_negativeM wy (diagOk_convert.2.2 sy.dg) hz) h
  | mul e f he hf =>
    simp only [eval, bind_ok_iff] at h
    obtain ⟨x, hx, y, hy, h⟩ := h
    obtain ⟨sx, dx⟩ := he ht.1 hx
    obtain ⟨sy, dy⟩ := hf ht.2 hy
    have z := hB.mul sx.wf sy.wf (mulSafe_of (sx.noStretch sy) sx.dg sy.dg) h
    exact ⟨sx.zip sy z (hD.mul sx.wf sy.wf (sx.noStretch sy) sx.dg sy.dg h), _, _, dx, dy, IsEltwise.of_eq z.compat z.eq⟩
  | div e f he hf =>
    simp only [eval, bind_ok_iff] at h
    obtain ⟨x, hx, y, hy, h⟩ := h
    obtain ⟨sx, dx⟩ := he ht.1 hx
    obtain ⟨sy, dy⟩ := hf ht.2 hy
    obtain ⟨z, h0⟩ := divideM_ok hB sx.wf sy.wf (sx.noStretch sy) h
    refine ⟨sx.zip sy z ?_, _, _, dx, dy, h0, IsEltwise.of_eq z.compat z.eq⟩
    unfold divideM at h
    split at h
    · simp only [bind_ok_iff, pure_eq_ok] at h
      obtain ⟨_, _, rfl⟩ := h
      trivial
    · simp only at h
      split at h
      · next t p q ec =>
        obtain ⟨wx, ex, _⟩ := den_convertAM (env := env) sx.wf
        obtain ⟨wy, ey, _⟩ := den_convertAM (env := env) sy.wf
        unfold divideConst at h
        simp only [bind_ok_iff] at h
        obtain ⟨inv, h1, c', h3, h4⟩ := h
        obtain ⟨_, h0', rfl⟩ := nDiv_ok h1
        have e1 : (zipB (· / ·) (scalarT 1) t).sh = t.sh := by simp
        rw [← e1, mkConst_self] at h3
        simp only [Except.ok.injEq] at h3
        subst h3
        rw [ec] at wy ey
        have wc : Mat.WF S (.const (zipB (· / ·) (scalarT 1) t) p q) := by show Fits S _; rw [e1]; exact wy
        have hp : p = r ∧ q = c := by
          have h1 : (den (Mat.const t p q)).rows = p ∧ (den (Mat.const t p q)).cols = q := ⟨rfl, rfl⟩
          rw [ey] at h1
          rw [upT_of_rank sy.rank, sy.rows, sy.cols] at h1
          exact ⟨h1.1.symm, h1.2.symm⟩
        have ex' : den (convertAM env x) = den x := by rw [ex, upT_of_rank sx.rank]
        exact hD.mul wx wc (noStretch_of_eq (by rw [ex', sx.rows, ← hp.1]; rfl) (by rw [ex', sx.cols, ← hp.2]; rfl)) (diagOk_convert.2.2 sx.dg) trivial h4
      · simp only [bind_ok_iff, pure_eq_ok] at h
        obtain ⟨_, _, _, _, _, _, rfl⟩ := h
        exact diagOk_of_kind (by simp [mkDense, Mat.kind])
  | matmul ta tb e f he hf =>
    simp only [eval, bind_ok_iff] at h
    obtain ⟨x, hx, y, hy, h⟩ := h
    obtain ⟨k, t1, t2⟩ := ht
    obtain ⟨r1, c1, sx, dx, e1, i1⟩ : ∃ r1 c1, Sem S r1 c1 x ∧ e.Denotes (den x) ∧ (if ta then c1 else r1) = r ∧ (if ta then r1 else c1) = k := by
      cases ta
      · obtain ⟨s, d⟩ := he (by simpa using t1) hx; exact ⟨_, _, s, d, rfl, rfl⟩
      · obtain ⟨s, d⟩ := he (by simpa using t1) hx; exact ⟨_, _, s, d, rfl, rfl⟩
    obtain ⟨r2, c2, sy, dy, e2, i2⟩ : ∃ r2 c2, Sem S r2 c2 y ∧ f.Denotes (den y) ∧ (if tb then r2 else c2) = c ∧ (if tb then c2 else r2) = k := by
      cases tb
      · obtain ⟨s, d⟩ := hf (by simpa using t2) hy; exact ⟨_, _, s, d, rfl, rfl⟩
      · obtain ⟨s, d⟩ := hf (by simpa using t2) hy; exact ⟨_, _, s, d, rfl, rfl⟩
    have M := hB.matmul sx.wf sy.wf sx.rank sy.rank h
    have gx := sx.wf.good sx.rank
    have gy := sy.wf.good sy.rank
    have gx' : Good S (trIf ta (den x)) := by cases ta; exacts [gx, gx.tr]
    have gy' : Good S (trIf tb (den y)) := by cases tb; exacts [gy, gy.tr]
    refine ⟨⟨M.wf, M.rank, ?_, ?_, hD.matmul sx.wf sy.wf sx.dg sy.dg sx.rank sy.rank h⟩, den x, den y, trIf ta (den x), trIf tb (den y), dx, dy, ?_, ?_, ?_⟩
    · rw [M.eq, mm_rows, ← e1, ← sx.rows, ← sx.cols]; cases ta <;> simp
    · rw [M.eq, mm_cols, ← e2, ← sy.rows, ← sy.cols]; cases tb <;> simp
    · cases ta
      · rfl
      · exact IsTranspose.of_eq sx.rank rfl
    · cases tb
      · rfl
      · exact IsTranspose.of_eq sy.rank rfl
    · refine IsMatProd.of_eq gx' gy' ?_ M.eq
      have a1 : (trIf ta (den x)).cols = k := by rw [← i1, ← sx.rows, ← sx.cols]; cases ta <;> simp
      have a2 : (trIf tb (den y)).rows = k := by rw [← i2, ← sy.rows, ← sy.cols]; cases tb <;> simp
      rw [a1, a2]
  | neg e he =>
    simp only [eval, bind_ok_iff] at h
    obtain ⟨x, hx, h⟩ := h
    obtain ⟨sx, dx⟩ := he ht hx
    obtain ⟨w, e1, _⟩ := negativeM_ok sx.wf h
    exact ⟨sx.map w e1 (diagOk_negativeM sx.wf sx.dg h), _, dx, IsMap.of_eq e1⟩
  | tr e he =>
    simp only [eval, bind_ok_iff] at h
    obtain ⟨x, hx, h⟩ := h
    obtain ⟨sx, dx⟩ := he ht hx
    obtain ⟨m', hm', w, e1, _⟩ := transposeM_ok sx.wf
    rw [h] at hm'
    cases hm'
    rw [nTranspose_of_rank sx.rank] at e1
    refine ⟨⟨w, ?_, ?_, ?_, diagOk_transposeM sx.wf sx.dg h⟩, _, dx, IsTranspose.of_eq sx.rank e1⟩
    · rw [e1]; exact (sx.wf.good sx.rank).tr.rank
    · rw [e1, tr_rows]; exact sx.cols
    · rw [e1, tr_cols]; exact sx.rows
  | scale k e he =>
    simp only [eval, bind_ok_iff] at h
    obtain ⟨x, hx, h⟩ := h
    obtain ⟨sx, dx⟩ := he ht hx
    have ns : NoStretch (.num (scalarT k)) x := ⟨fun h => by simp [Mat.rigid] at h, fun _ => ⟨Or.inl rfl, Or.inl rfl⟩⟩
    have z := hB.mul (Expr.wf_scalar S k) sx.wf (mulSafe_of ns trivial sx.dg) h
    have e1 : den m = tmap (fun v => k * v) (den x) := by rw [z.eq]; exact Expr.zipB_scalar_left _ _ _
    exact ⟨sx.map z.wf e1 (hD.mul (Expr.wf_scalar S k) sx.wf ns trivial sx.dg h), _, dx, IsMap.of_eq e1⟩
  | shift e k he =>
    simp only [eval, bind_ok_iff] at h
    obtain ⟨x, hx, h⟩ := h
    obtain ⟨sx, dx⟩ := he ht hx
    have ns : NoStretch x (.num (scalarT k)) := ⟨fun _ => ⟨Or.inl rfl, Or.inl rfl⟩, fun h => by simp [Mat.rigid] at h⟩
    have z := hB.add sx.wf (Expr.wf_scalar S k) ns h
    have e1 : den m = tmap (fun v => v + k) (den x) := by rw [z.eq]; exact Expr.zipB_scalar_right _ _ _
    exact ⟨sx.map z.wf e1 (hD.add sx.wf (Expr.wf_scalar S k) sx.dg trivial h), _, dx, IsMap.of_eq e1⟩
  | inv e he =>
    simp only [eval, bind_ok_iff] at h
    obtain ⟨x, hx, h⟩ := h
    obtain ⟨sx, dx⟩ := he ht.2 hx
    obtain ⟨o, _⟩ := hL.inv sx.wf h
    exact ⟨⟨o.wf, o.rank', (rows_of_sh o.inv.shape).trans sx.rows, (cols_of_sh o.inv.shape).trans sx.cols, hI sx.wf h⟩, _, dx, o.inv⟩
  | solve e f he hf =>
    simp only [eval, bind_ok_iff] at h
    obtain ⟨x, hx, y, hy, h⟩ := h
    obtain ⟨sx, dx⟩ := he ht.1 hx
    obtain ⟨sy, dy⟩ := hf ht.2 hy
    have o := hL.solve sx.wf sy.wf sx.rank sy.rank h
    have dg := diagOk_of_kind (hL.sk sx.wf sy.wf sx.rank sy.rank h)
    rcases o.sol with ⟨hz, rfl⟩ | s
    · refine ⟨⟨sy.wf, sy.rank, sy.rows, sy.cols, dg⟩, _, _, dx, dy, .inr ⟨?_, rfl⟩⟩
      obtain ⟨bt, p, q, e⟩ := kind_zero hz
      rw [e]
      exact fun i hi => fillT_get 0 hi (Fits.refl _)
    · refine ⟨⟨o.wf, ?_, ?_, ?_, dg⟩, _, _, dx, dy, .inl s⟩
      · simp [Tensor.rank, s.shape]
      · simp only [Tensor.rows, s.shape]; exact sx.rows
      · simp only [Tensor.cols, s.shape]; exact sy.cols

/-- Replace every matrix in the expression. -/
def mapLeaves (f : Mat K → Mat K) : LExpr K → LExpr K
  | .mat a => .mat (f a)
  | .add e g => .add (e.mapLeaves f) (g.mapLeaves f)
  | .sub e g => .sub (e.mapLeaves f) (g.mapLeaves f)
  | .mul e g => .mul (e.mapLeaves f) (g.mapLeaves f)
  | .div e g => .div (e.mapLeaves f) (g.mapLeaves f)
  | .matmul ta tb e g => .matmul ta tb (e.mapLeaves f) (g.mapLeaves f)
  | .neg e => .neg (e.mapLeaves f)
  | .tr e => .tr (e.mapLeaves f)
  | .scale x e => .scale x (e.mapLeaves f)
  | .shift e x => .shift (e.mapLeaves f) x
  | .inv e => .inv (e.mapLeaves f)
  | .solve e g => .solve (e.mapLeaves f) (g.mapLeaves f)

/-- The expression solves no linear system (whose solution need not be unique). -/
def noSolve : LExpr K → Prop
  | .mat _ => True
  | .add e g | .sub e g | .mul e g | .div e g | .matmul _ _ e g => e.noSolve ∧ g.noSolve
  | .neg e | .tr e | .scale _ e | .shift e _ | .inv e => e.noSolve
  | .solve _ _ => False

theorem denotes_mapLeaves {f : Mat K → Mat K} (hf : ∀ a, den (f a) = den a) (e : LExpr K) (t : Tensor K) : (e.mapLeaves f).Denotes t ↔ e.Denotes t := by
  induction e generalizing t with
  | mat a => simp only [mapLeaves, Denotes, hf]
  | add e g he hg | sub e g he hg | mul e g he hg | div e g he hg | matmul _ _ e g he hg | solve e g he hg => simp only [mapLeaves, Denotes, he, hg]
  | neg e he | tr e he | scale _ e he | shift e _ he | inv e he => simp only [mapLeaves, Denotes, he]

theorem typed_mapLeaves {f : Mat K → Mat K} (hf : ∀ a, den (f a) = den a) (hw : ∀ S a, a.WF S → 2 ≤ (den a).rank → (f a).WF S) (hd : ∀ a, a.DiagOk → (f a).DiagOk) (e : LExpr K) {S : Shp}
    {r c : ℕ} (h : e.Typed S r c) : (e.mapLeaves f).Typed S r c := by
  induction e generalizing r c with
  | mat a => exact ⟨hw _ _ h.1 h.2.1, by rw [hf]; exact h.2.1, by rw [hf]; exact h.2.2.1, by rw [hf]; exact h.2.2.2.1, hd _ h.2.2.2.2⟩
  | add e g he hg | sub e g he hg | mul e g he hg | div e g he hg | solve e g he hg => exact ⟨he h.1, hg h.2⟩
  | matmul ta tb e g he hg =>
    obtain ⟨k, h1, h2⟩ := h
    refine ⟨k, ?_, ?_⟩
    · cases ta <;> exact he h1
    · cases tb <;> exact hg h2
  | neg e he | tr e he | scale _ e he | shift e _ he => exact he h
  | inv e he => exact ⟨h.1, he h.2⟩

theorem _root_.Verif.IsMap.eq {f : K → K} {a r : Tensor K} (h : IsMap f a r) : r = tmap f a :=
  Tensor.ext_inRange h.shape fun i hi => by
    rw [h.entries i hi, tmap_get f (by rw [← h.shape]; exact hi) (Fits.refl _)]

theorem eq_of_entries {s t : Tensor K} (h2 : 2 ≤ s.rank) (hs : s.sh = t.sh) (h : ∀ β i j, InRange s.bt β → i < s.rows → j < s.cols → s.at' β i j = t.at' β i j) : s = t := by
  have h2' : 2 ≤ t.rank := by rw [Tensor.rank, ← hs]; exact h2
  have eb := bt_of_sh hs
  exact Rep.ext (Rep.self' h2 rfl rfl (Fits.refl _)) (Rep.self' h2' (rows_of_sh hs).symm (cols_of_sh hs).symm (by rw [eb]; exact Fits.refl _)) eb h

theorem denotes_unique (e : LExpr K) (hn : e.noSolve) {s t : Tensor K} (hs : e.Denotes s) (ht : e.Denotes t) : s = t := by
  have tru : ∀ {a r r' : Tensor K}, IsTranspose a r → IsTranspose a r' → r = r' := fun h h' =>
    eq_of_entries (by simp [Tensor.rank, h.shape]) (h.shape.trans h'.shape.symm) fun β i j hβ hi hj => by
      have e := h.shape.trans h'.shape.symm
      rw [h.entries β i j hβ hi hj, h'.entries β i j (by rw [← bt_of_sh e]; exact hβ) (by rw [← rows_of_sh e]; exact hi) (by rw [← cols_of_sh e]; exact hj)]
  induction e generalizing s t with
  | mat a => exact hs.trans ht.symm
  | add e g he hg | sub e g he hg | mul e g he hg =>
    obtain ⟨x, y, h1, h2, h3⟩ := hs
    obtain ⟨x', y', h1', h2', h3'⟩ := ht
    rw [h3.eq, h3'.eq, he hn.1 h1 h1', hg hn.2 h2 h2']
  | div e g he hg =>
    obtain ⟨x, y, h1, h2, _, h3⟩ := hs
    obtain ⟨x', y', h1', h2', _, h3'⟩ := ht
    rw [h3.eq, h3'.eq, he hn.1 h1 h1', hg hn.2 h2 h2']
  | matmul ta tb e g he hg =>
    obtain ⟨x, y, u, v, h1, h2, h3, h4, h5⟩ := hs
    obtain ⟨x', y', u', v', h1', h2', h3', h4', h5'⟩ := ht
    obtain rfl := he hn.1 h1 h1'
    obtain rfl := hg hn.2 h2 h2'
    obtain rfl : u = u' := by
      cases ta
      · exact h3.trans h3'.symm
      · exact tru h3 h3'
    obtain rfl : v = v' := by
      cases tb
      · exact h4.trans h4'.symm
      · exact tru h4 h4'
    have ee := h5.shape.trans h5'.shape.symm
    refine eq_of_entries (by simp [Tensor.rank, h5.shape]) ee fun β i j hβ hi hj => ?_
    rw [h5.entries β i j hβ hi hj, h5'.entries β i j (by rw [← bt_of_sh ee]; exact hβ) (by rw [← rows_of_sh ee]; exact hi) (by rw [← cols_of_sh ee]; exact hj)]
  | neg e he | scale _ e he | shift e _ he =>
    obtain ⟨x, h1, h2⟩ := hs
    obtain ⟨x', h1', h2'⟩ := ht
    rw [h2.eq, h2'.eq, he hn h1 h1']
  | tr e he =>
    obtain ⟨x, h1, h2⟩ := hs
    obtain ⟨x', h1', h2'⟩ := ht
    obtain rfl := he hn h1 h1'
    exact tru h2 h2'
  | inv e he =>
    obtain ⟨x, h1, h2⟩ := hs
    obtain ⟨x', h1', h2'⟩ := ht
    obtain rfl := he hn h1 h1'
    exact h2.unique h2'
  | solve e g he hg => exact hn.elim

end LExpr

/-! ### C55 -/

/-- C55.  If an expression with inverses, quotients and linear solves over well-formed matrices evaluates, the result is well formed, has the size of the expression and
is a result of the same expression on dense matrices. -/
theorem C55_expression (c : Cfg K) {lin : LinEnv K} (hl : lin.Lawful) {S : Shp} {p q : ℕ} {e : LExpr K} {m : Mat K} (ht : e.Typed S p q)
    (hr : LReturns c lin (e.eval c.code) m) (hx : LExact c lin (e.eval c.code)) :
    m.Valid ∧ (den m).rows = p ∧ (den m).cols = q ∧ e.Denotes (den m) := by
  obtain ⟨k, n, h⟩ := hr.strict hx
  have s := LExpr.eval_sem (c.ok n) (ops_dg (strictEnv_lawful _ _) n) (c.lok hl n k) (LExpr.inv_dg (c.lok hl n) k) e ht h
  exact ⟨⟨_, s.1.wf⟩, s.1.rows, s.1.cols, s.2⟩

/-- C55.  The representation of the operands does not matter: replacing the matrices in an expression without `B.solve` by others that represent the same arrays
does not change the array the result represents. -/
theorem C55_representation (c : Cfg K) {lin : LinEnv K} (hl : lin.Lawful) {S : Shp} {p q : ℕ} {e : LExpr K} {f : Mat K → Mat K} {m m' : Mat K} (ht : e.Typed S p q) (hn : e.noSolve)
    (hf : ∀ a, den (f a) = den a) (ht' : (e.mapLeaves f).Typed S p q)
    (hr : LReturns c lin (e.eval c.code) m) (hx : LExact c lin (e.eval c.code))
    (hr' : LReturns c lin ((e.mapLeaves f).eval c.code) m') (hx' : LExact c lin ((e.mapLeaves f).eval c.code)) : den m = den m' := by
  have h1 := (C55_expression c hl ht hr hx).2.2.2
  have h2 := (C55_expression c hl ht' hr' hx').2.2.2
  rw [LExpr.denotes_mapLeaves hf] at h2
  exact e.denotes_unique hn h1 h2

/-- C55.  In particular structured computation agrees with dense computation: evaluating on the matrices as they are and on their dense forms gives the same array. -/
theorem C55_dense (c : Cfg K) {lin : LinEnv K} (hl : lin.Lawful) {S : Shp} {p q : ℕ} {e : LExpr K} {m m' : Mat K} (ht : e.Typed S p q) (hn : e.noSolve)
    (hr : LReturns c lin (e.eval c.code) m) (hx : LExact c lin (e.eval c.code))
    (hr' : LReturns c lin ((e.mapLeaves fun a => .dense (den a)).eval c.code) m') (hx' : LExact c lin ((e.mapLeaves fun a => .dense (den a)).eval c.code)) : den m = den m' :=
  C55_representation (f := fun a => .dense (den a)) c hl ht hn (fun _ => rfl) (LExpr.typed_mapLeaves (f := fun a => .dense (den a)) (fun _ => rfl) (fun _ _ w k => ⟨k, (w.good k).fits⟩) (fun _ _ => trivial) e ht) hr hx hr' hx'

/-! ### Laws of inverses -/

theorem IsTranspose.eq {a r : Tensor K} (h2 : 2 ≤ a.rank) (h : IsTranspose a r) : r = tr a := by
  have h' := IsTranspose.of_eq h2 (rfl : tr a = tr a)
  have ee := h.shape.trans h'.shape.symm
  refine LExpr.eq_of_entries (by simp [Tensor.rank, h.shape]) ee fun β i j hβ hi hj => ?_
  rw [h.entries β i j hβ hi hj, h'.entries β i j (by rw [← bt_of_sh ee]; exact hβ) (by rw [← rows_of_sh ee]; exact hi) (by rw [← cols_of_sh ee]; exact hj)]

theorem IsMatProd.eq {a b r : Tensor K} (ha : 2 ≤ a.rank) (hb : 2 ≤ b.rank) (h : IsMatProd a b r) : r = mm a b := by
  have h' := IsMatProd.of_eq (S := bsh a.bt b.bt) ⟨ha, h.batch.fits_left⟩ ⟨hb, h.batch.fits_right⟩ h.inner (rfl : mm a b = mm a b)
  have ee := h.shape.trans h'.shape.symm
  refine LExpr.eq_of_entries (by simp [Tensor.rank, h.shape]) ee fun β i j hβ hi hj => ?_
  rw [h.entries β i j hβ hi hj, h'.entries β i j (by rw [← bt_of_sh ee]; exact hβ) (by rw [← rows_of_sh ee]; exact hi) (by rw [← cols_of_sh ee]; exact hj)]

theorem IsInverse.swap {a r : Tensor K} (h : IsInverse a r) : IsInverse r a := by
  have e1 := rows_of_sh h.shape
  have e2 := bt_of_sh h.shape
  exact ⟨by rw [rank_of_sh h.shape]; exact h.rank, by rw [e1, cols_of_sh h.shape]; exact h.square, h.shape.symm,
    by rw [e1, e2]; exact h.left, by rw [e1, e2]; exact h.right⟩

theorem IsInverse.tr {a r : Tensor K} (h : IsInverse a r) : IsInverse (tr a) (tr r) := by
  obtain ⟨A, R, HA⟩ := h.mrep' (S := a.bt) ⟨h.rank, Fits.refl _⟩ rfl
  refine IsInverse.of_mrep A.tr R.tr ?_ fun β hβ => ?_
  · rw [R.tr.good.sh, A.tr.good.sh, R.tr.rows, R.tr.cols, A.tr.rows, A.tr.cols]
    exact congrArg (fun x => a.rows :: a.rows :: x) (show r.bt = a.bt from bt_of_sh h.shape)
  · rw [← Matrix.transpose_mul, mul_eq_one_comm.1 (HA β hβ), Matrix.transpose_one]

theorem IsInverse.mm {a b r s : Tensor K} (h1 : IsInverse a r) (h2 : IsInverse b s) (hn : a.rows = b.rows) (c : Compat a.bt b.bt) : IsInverse (mm a b) (mm s r) := by
  have ga' : Good (bsh a.bt b.bt) a := ⟨h1.rank, c.fits_left⟩
  have gb' : Good (bsh a.bt b.bt) b := ⟨h2.rank, c.fits_right⟩
  obtain ⟨A, R, HA⟩ := h1.mrep' ga' rfl
  obtain ⟨B, S, HB⟩ := h2.mrep' gb' hn.symm
  refine IsInverse.of_mrep (A.mm B) (S.mm R) ?_ fun β hβ => ?_
  · rw [(S.mm R).good.sh, (A.mm B).good.sh, (S.mm R).rows, (S.mm R).cols, (A.mm B).rows, (A.mm B).cols]
    show _ :: _ :: bsh s.bt r.bt = _
    rw [bt_of_sh h1.shape, bt_of_sh h2.shape, bsh_comm]; rfl
  · rw [Matrix.mul_assoc, ← Matrix.mul_assoc _ (mxOf s β a.rows a.rows), HB β hβ, Matrix.one_mul, HA β hβ]

/-- The expression evaluates to `m`, with correct tolerance tests. -/
def LEvals (c : Cfg K) (lin : LinEnv K) (e : LExpr K) (m : Mat K) : Prop := LReturns c lin (e.eval c.code) m ∧ LExact c lin (e.eval c.code)

section laws
variable (c : Cfg K) {lin : LinEnv K} (hl : lin.Lawful) {S : Shp} {n q : ℕ} {a b : LExpr K} {m m' : Mat K}
include hl

/-- C55.  `B.inv(B.inv(a))` denotes `a`. -/
theorem C55_inv_inv (ha : a.Typed S n n) (na : a.noSolve) (h : LEvals c lin (.inv (.inv a)) m) (h' : LEvals c lin a m') : den m = den m' := by
  obtain ⟨_, _, _, x, ⟨y, hy, h1⟩, h2⟩ := C55_expression c hl (e := .inv (.inv a)) ⟨rfl, rfl, ha⟩ h.1 h.2
  obtain ⟨_, _, _, h3⟩ := C55_expression c hl ha h'.1 h'.2
  obtain rfl := a.denotes_unique na hy h3
  exact h2.unique h1.swap

/-- C55.  `B.inv(a.T)` denotes `B.inv(a).T`. -/
theorem C55_inv_transpose (ha : a.Typed S n n) (na : a.noSolve) (h : LEvals c lin (.inv (.tr a)) m) (h' : LEvals c lin (.tr (.inv a)) m') : den m = den m' := by
  obtain ⟨_, _, _, x, ⟨y, hy, h1⟩, h2⟩ := C55_expression c hl (e := .inv (.tr a)) ⟨rfl, ha⟩ h.1 h.2
  obtain ⟨_, _, _, x', ⟨y', hy', h1'⟩, h2'⟩ := C55_expression c hl (e := .tr (.inv a)) ⟨rfl, ha⟩ h'.1 h'.2
  obtain rfl := a.denotes_unique na hy hy'
  rw [h2'.eq h1'.swap.rank]
  rw [h1.eq h1'.rank] at h2
  exact h2.unique h1'.tr

/-- C55.  `B.inv(a @ b)` denotes `B.inv(b) @ B.inv(a)`. -/
theorem C55_inv_matmul (ha : a.Typed S n n) (hb : b.Typed S n n) (na : a.noSolve) (nb : b.noSolve)
    (h : LEvals c lin (.inv (.matmul false false a b)) m) (h' : LEvals c lin (.matmul false false (.inv b) (.inv a)) m') : den m = den m' := by
  obtain ⟨_, _, _, x, ⟨y, z, y', z', hy, hz, ey, ez, h1⟩, h2⟩ := C55_expression c hl (e := .inv (.matmul false false a b)) ⟨rfl, n, ha, hb⟩ h.1 h.2
  obtain ⟨_, _, _, u, v, u', v', ⟨w1, hw1, i1⟩, ⟨w2, hw2, i2⟩, eu, ev, h3⟩ :=
    C55_expression c hl (e := .matmul false false (.inv b) (.inv a)) ⟨n, ⟨rfl, hb⟩, ⟨rfl, ha⟩⟩ h'.1 h'.2
  cases ey; cases ez; cases eu; cases ev
  obtain rfl := a.denotes_unique na hy hw2
  obtain rfl := b.denotes_unique nb hz hw1
  rw [h3.eq i1.swap.rank i2.swap.rank]
  rw [h1.eq i2.rank i1.rank] at h2
  exact h2.unique (i2.mm i1 (i2.square.trans h1.inner) h1.batch)

/-- C55.  `B.inv(a) @ a` denotes the identity. -/
theorem C55_inv_matmul_self (ha : a.Typed S n n) (na : a.noSolve) (h : LEvals c lin (.matmul false false (.inv a) a) m) :
    ∀ β i j, InRange (den m).bt β → i < n → j < n → (den m).at' β i j = if i = j then 1 else 0 := by
  obtain ⟨_, er, ec, u, v, u', v', ⟨w, hw, i1⟩, hv, eu, ev, h3⟩ := C55_expression c hl (e := .matmul false false (.inv a) a) ⟨n, ⟨rfl, ha⟩, ha⟩ h.1 h.2
  cases eu; cases ev
  obtain rfl := a.denotes_unique na hw hv
  have es : (den m).sh = w.sh := by rw [h3.shape, rows_of_sh i1.shape, bt_of_sh i1.shape, bsh_self, (Good.mk (S := w.bt) i1.rank (Fits.refl _)).sh]
  intro β i j hβ hi hj
  rw [h3.entries β i j hβ (by rw [er]; exact hi) (by rw [ec]; exact hj), cols_of_sh i1.shape, ← i1.square]
  rw [rows_of_sh es] at er
  exact i1.left β i j (by rw [← bt_of_sh es]; exact hβ) (by rw [er]; exact hi) (by rw [er]; exact hj)

/-- C55.  `B.solve(a, b)` denotes `B.inv(a) @ b`, up to the batch dimensions of `a` when `b` is zero: every entry agrees. -/
theorem C55_solve_inv (ha : a.Typed S n n) (hb : b.Typed S n q) (na : a.noSolve) (nb : b.noSolve)
    (h : LEvals c lin (.solve a b) m) (h' : LEvals c lin (.matmul false false (.inv a) b) m') :
    ∀ β i j, InRange (den m').bt β → i < n → j < q → (den m).at' β i j = (den m').at' β i j := by
  obtain ⟨_, er, ec, x, y, hx, hy, h1⟩ := C55_expression c hl (e := .solve a b) ⟨ha, hb⟩ h.1 h.2
  obtain ⟨_, er', ec', u, v, u', v', ⟨w, hw, i1⟩, hv, eu, ev, h3⟩ := C55_expression c hl (e := .matmul false false (.inv a) b) ⟨n, ⟨rfl, ha⟩, hb⟩ h'.1 h'.2
  cases eu; cases ev
  obtain rfl := a.denotes_unique na hx hw
  obtain rfl := b.denotes_unique nb hy hv
  intro β i j hβ hi hj
  rw [h3.entries β i j hβ (by rw [er']; exact hi) (by rw [ec']; exact hj)]
  have hbt : (den m').bt = bsh x.bt y.bt := by simp only [Tensor.bt, h3.shape]; show bsh u.bt _ = _; rw [bt_of_sh i1.shape]
  rw [hbt] at hβ
  have hc : Compat x.bt y.bt := by rw [← bt_of_sh i1.shape]; exact h3.batch
  rcases h1 with s | ⟨hz, e⟩
  · have en : x.rows = n := by rw [Tensor.rows, s.shape] at er; exact er
    have eq : y.cols = q := by rw [Tensor.cols, s.shape] at ec; exact ec
    subst en; subst eq
    obtain ⟨A, R, HA⟩ := i1.mrep' (S := bsh x.bt y.bt) ⟨i1.rank, hc.fits_left⟩ rfl
    have e1 : mxOf x β x.rows x.rows * mxOf (den m) β x.rows y.cols = mxOf y β x.rows y.cols := by
      ext k l
      rw [Matrix.mul_apply]
      have := s.entries β k l hβ k.2 l.2
      rw [Finset.sum_range] at this
      exact this
    have e2 := congrArg (fun M => mxOf u β x.rows x.rows * M) e1
    simp only [← Matrix.mul_assoc, mul_eq_one_comm.1 (HA β hβ), Matrix.one_mul] at e2
    have e3 := congrFun (congrFun e2 ⟨i, hi⟩) ⟨j, hj⟩
    rw [Matrix.mul_apply] at e3
    rw [show u.cols = x.rows from (cols_of_sh i1.shape).trans i1.square.symm, Finset.sum_range]
    exact e3
  · have er2 : y.rows = n := by rw [← e]; exact er
    have ec2 : y.cols = q := by rw [← e]; exact ec
    have z : ∀ k l, k < n → l < q → y.at' β k l = 0 := fun k l hk hl => by
      show y.get _ = 0
      rw [y.canon]
      split_ifs with h0
      · rfl
      · exact hz _ (inRange_clip _ fun h => h0 h)
    rw [e, z i j hi hj]
    refine (Finset.sum_eq_zero fun k hk => ?_).symm
    rw [z k j ?_ hj, mul_zero]
    rw [← er2, ← h3.inner]; exact Finset.mem_range.1 hk

end laws

/-! ### Examples: `inv(W) + D / C` and `solve(W, D)` -/

/-- `B.inv(W) + B.divide(D, C)`: a Woodbury, a diagonal and a constant matrix. -/
def Ex.le : LExpr ℚ := .add (.inv (.mat Ex.W)) (.div (.mat Ex.D) (.mat Ex.C))

theorem Ex.le_typed : Ex.le.Typed [] 2 2 :=
  ⟨⟨rfl, Ex.W_wf _, by decide, rfl, rfl, trivial⟩, ⟨Ex.D_wf _, by decide, rfl, rfl, trivial⟩, ⟨Ex.C_wf _, by decide, rfl, rfl, trivial⟩⟩

example : ∃ m, LReturns Ex.cfg Ex.lin (Ex.le.eval Ex.cfg.code) m ∧ LExact Ex.cfg Ex.lin (Ex.le.eval Ex.cfg.code) :=
  Ex.lmeets (LExpr.LCalls_eval _ _) (n := 8) (m := 8) (by decide +kernel)

/-- Both evaluations, on the matrices as they are and on their dense forms, succeed and agree. -/
example : ∃ m m', LReturns Ex.cfg Ex.lin (Ex.le.eval Ex.cfg.code) m ∧ LReturns Ex.cfg Ex.lin ((Ex.le.mapLeaves fun a => .dense (den a)).eval Ex.cfg.code) m' ∧ den m = den m' := by
  obtain ⟨m, h, hx⟩ := Ex.lmeets (LExpr.LCalls_eval Ex.cfg.code Ex.le) (n := 8) (m := 8) (by decide +kernel)
  obtain ⟨m', h', hx'⟩ := Ex.lmeets (LExpr.LCalls_eval Ex.cfg.code (Ex.le.mapLeaves fun a => .dense (den a))) (n := 8) (m := 8) (by decide +kernel)
  exact ⟨m, m', h, h', C55_dense Ex.cfg Ex.lin_lawful Ex.le_typed ⟨trivial, trivial, trivial⟩ h hx h' hx'⟩

example : ∃ m, LReturns Ex.cfg Ex.lin ((LExpr.solve (.mat Ex.W) (.sub (.mat Ex.D) (.mat Ex.C))).eval Ex.cfg.code) m ∧
    LExact Ex.cfg Ex.lin ((LExpr.solve (.mat Ex.W) (.sub (.mat Ex.D) (.mat Ex.C))).eval Ex.cfg.code) :=
  Ex.lmeets (LExpr.LCalls_eval _ _) (n := 8) (m := 8) (by decide +kernel)

/-! The laws on concrete operands: both sides evaluate. -/

theorem Ex.levals {e : LExpr ℚ} {n m : ℕ} (h : Ex.isOk (e.eval Ex.cfg.code (ops Ex.cfg.strict n) (lops Ex.cfg.code Ex.lin (ops Ex.cfg.strict n) m)) = true) :
    ∃ r, LEvals Ex.cfg Ex.lin e r :=
  Ex.lmeets (LExpr.LCalls_eval _ e) h

example : ∃ r, LEvals Ex.cfg Ex.lin (.inv (.inv (.mat Ex.W))) r := Ex.levals (n := 9) (m := 9) (by decide +kernel)
example : (∃ r, LEvals Ex.cfg Ex.lin (.inv (.tr (.mat Ex.W))) r) ∧ ∃ r, LEvals Ex.cfg Ex.lin (.tr (.inv (.mat Ex.W))) r :=
  ⟨Ex.levals (n := 9) (m := 9) (by decide +kernel), Ex.levals (n := 9) (m := 9) (by decide +kernel)⟩
example : (∃ r, LEvals Ex.cfg Ex.lin (.inv (.matmul false false (.mat Ex.W) (.mat Ex.D))) r) ∧
    ∃ r, LEvals Ex.cfg Ex.lin (.matmul false false (.inv (.mat Ex.D)) (.inv (.mat Ex.W))) r :=
  ⟨Ex.levals (n := 9) (m := 9) (by decide +kernel), Ex.levals (n := 9) (m := 9) (by decide +kernel)⟩
example : ∃ r, LEvals Ex.cfg Ex.lin (.matmul false false (.inv (.mat Ex.K4)) (.mat Ex.K4)) r := Ex.levals (n := 9) (m := 9) (by decide +kernel)
example : (∃ r, LEvals Ex.cfg Ex.lin (.solve (.mat Ex.W) (.mat Ex.C)) r) ∧ ∃ r, LEvals Ex.cfg Ex.lin (.matmul false false (.inv (.mat Ex.W)) (.mat Ex.C)) r :=
  ⟨Ex.levals (n := 9) (m := 9) (by decide +kernel), Ex.levals (n := 9) (m := 9) (by decide +kernel)⟩

end Verif
