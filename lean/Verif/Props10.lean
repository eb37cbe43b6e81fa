/-
Total correctness of whole expressions (C47), and success of the derived operations (C45).
-/
import Verif.Inner
import Verif.Expr
import Verif.Props09

set_option linter.unusedSectionVars false

namespace Verif

variable {K : Type} [Field K] [LinearOrder K] {α : Type}

theorem okBind {β γ : Type} {x : β} {f : β → E γ} : (Except.ok x >>= f : E γ) = f x := rfl

/-! ### Negation returns -/

/-- `B.negative` returns for every well-formed matrix without TiledBlocks, and keeps the conditions. -/
theorem negativeM_keeps {S : Shp} {κ : Bool} {a : Mat K} (h : a.WF S) (hf : a.fit κ) : ∃ r, negativeM a = .ok r ∧ r.fit κ ∧ (a.innerPos → r.innerPos) := by
  induction a generalizing κ with
  | num t => exact ⟨_, rfl, trivial, fun _ => trivial⟩
  | zero bt r c => exact ⟨_, rfl, trivial, fun _ => trivial⟩
  | dense t => exact ⟨_, rfl, trivial, fun _ => trivial⟩
  | diag t => exact ⟨_, mkDiag_of h.1, trivial, fun _ => trivial⟩
  | const t r c => exact ⟨_, rfl, trivial, fun _ => trivial⟩
  | lt t => exact ⟨_, mkLT_of h.1, trivial, fun _ => trivial⟩
  | ut t => exact ⟨_, mkUT_ok.2 ⟨h.1, rfl⟩, trivial, fun _ => trivial⟩
  | lr l r m _ _ ihm =>
    obtain ⟨⟨hl, hr', hm⟩, ⟨kl, kr, km⟩, h1, h2⟩ := h
    obtain ⟨m', em, fm, _⟩ := ihm hm hf.2.2
    obtain ⟨wm, dm, _⟩ := negativeM_ok hm em
    have e := mkLR_ok hl hr' wm ⟨kl, kr, by rw [dm]; exact km⟩ (by rw [dm]; exact h1) (by rw [dm]; exact h2)
    refine ⟨.lr l r m', by simp only [negativeM, em]; exact e, ⟨hf.1, hf.2.1, fm⟩, fun hp => ?_⟩
    show 0 < (den m').rows ∧ 0 < (den m').cols
    rw [dm]; exact hp
  | wb d l r m _ _ ihm =>
    obtain ⟨⟨hd, fd⟩, ⟨hl, hr', hm⟩, ⟨kl, kr, km⟩, ⟨h1, h2⟩, h4, h5⟩ := h
    obtain ⟨m', em, fm, _⟩ := ihm hm hf.2.2
    obtain ⟨wm, dm, _⟩ := negativeM_ok hm em
    have e := mkLR_ok hl hr' wm ⟨kl, kr, by rw [dm]; exact km⟩ (by rw [dm]; exact h1) (by rw [dm]; exact h2)
    have e2 : mkWB (tneg d) l r m' = .ok (.wb (tneg d) l r m') :=
      mkWB_ok (S := S) ⟨⟨hd, fd⟩, ⟨hl, hr', wm⟩, ⟨kl, kr, by rw [dm]; exact km⟩, ⟨by rw [dm]; exact h1, by rw [dm]; exact h2⟩, h4, h5⟩
    refine ⟨.wb (tneg d) l r m', ?_, ⟨hf.1, hf.2.1, fm⟩, fun hp => ?_⟩
    · simp only [negativeM, mkDiag_of (t := tneg d) hd, em, okBind, e]
      exact e2
    · show 0 < (den m').rows ∧ 0 < (den m').cols
      rw [dm]; exact hp
  | kron l r ihl _ =>
    obtain ⟨l', el, fl, _⟩ := ihl h.1.1 hf.2.1
    refine ⟨.kron l' r, by simp only [negativeM, el]; rfl, ⟨hf.1, fl, hf.2.2⟩, fun _ => trivial⟩
  | tiled => exact hf.elim

/-! ### Expressions -/

namespace Expr

/-- The leaves are free of Kronecker products and TiledBlocks, and low-rank leaves have positive rank. -/
def Plain : Expr K → Prop
  | .mat a => a.fit false ∧ a.innerPos
  | .add e f | .sub e f | .mul e f | .matmul _ _ e f => e.Plain ∧ f.Plain
  | .neg e | .tr e | .scale _ e | .shift e _ => e.Plain

theorem done_eval {env : Env K} (h : CoreDone env) (e : Expr K) : Done fun n => e.eval env (ops env n) := by
  induction e with
  | mat a => exact Done.const (NF.ok _)
  | add e f he hf => exact Done.bind he fun x _ => Done.bind hf fun y _ => h.add x y
  | sub e f he hf => exact Done.bind he fun x _ => Done.bind hf fun y _ => h.subtract x y
  | mul e f he hf => exact Done.bind he fun x _ => Done.bind hf fun y _ => h.mul x y
  | matmul ta tb e f he hf => exact Done.bind he fun x _ => Done.bind hf fun y _ => h.matmul ta tb x y
  | neg e he => exact Done.bind he fun x _ => Done.const (nf_negativeM x)
  | tr e he => exact Done.bind he fun x _ => Done.const (nf_transposeM x)
  | scale k e he => exact Done.bind he fun x _ => h.mul _ x
  | shift e k he => exact Done.bind he fun x _ => h.add x _

theorem Sem.dsem {S : Shp} {r c : ℕ} {x : Mat K} {t : Tensor K} (h : Sem S r c x t) : DSem S r c (den x) := ⟨h.wf.good h.rank, h.rows, h.cols⟩

theorem diagDef_of {T : Shp} {a : Mat K} (hf : a.fit false) (ha : a.isAM = true) : a.DiagDef T := by
  cases a <;> first | trivial | exact absurd hf.1 (by simp)

theorem mulDef_of {a b : Mat K} (fa : a.fit false) (fb : b.fit false) (pa : a.innerPos) (pb : b.innerPos) : MulDef a b :=
  MulDef.of (by rw [fit_notKron fa]; simp) ⟨fun _ h => diagDef_of fb h, fun _ h => diagDef_of fa h, fun _ _ => ⟨pa, pb⟩⟩

section
variable {env : Env K} {B : Ops K} {S : Shp} (hB : B.Ok) (hD : B.Dg) (hF : B.Fine S) (hK : B.Keeps) (hI : B.Inner)
include hB hF hK hI

theorem add_total {r c : ℕ} {x y : Mat K} {t u : Tensor K} (sx : Sem S r c x t) (sy : Sem S r c y u) (px : x.fit false ∧ x.innerPos) (py : y.fit false ∧ y.innerPos) :
    Calm (B.add x y) ∧ Post (fun m => m.fit false ∧ m.innerPos) (B.add x y) :=
  ⟨hF.add sx.wf sy.wf px.1.up py.1.up (sx.noStretch sy) (sx.dsem.compat sy.dsem),
    fun m h => ⟨hK.add px.1 py.1 m h, hI.add sx.wf sy.wf (sx.noStretch sy) px.2 py.2 m h⟩⟩

theorem sub_total {r c : ℕ} {x y : Mat K} {t u : Tensor K} (sx : Sem S r c x t) (sy : Sem S r c y u) (px : x.fit false ∧ x.innerPos) (py : y.fit false ∧ y.innerPos) :
    Calm (subtractM env B x y) ∧ Post (fun m => m.fit false ∧ m.innerPos) (subtractM env B x y) := by
  unfold subtractM
  split
  · refine ⟨Calm.step (nZip_ok.2 ⟨sx.dsem.compat sy.dsem, rfl⟩) Calm.pure, Post.skip fun _ => Post.pure ⟨trivial, trivial⟩⟩
  · obtain ⟨wx, ex, _⟩ := den_convertAM (env := env) sx.wf
    obtain ⟨wy, ey, _⟩ := den_convertAM (env := env) sy.wf
    rw [upT_of_rank sx.rank] at ex
    rw [upT_of_rank sy.rank] at ey
    obtain ⟨z, ez, fz, pz⟩ := negativeM_keeps wy (fit_convertAM env py.1)
    obtain ⟨wz, dz, _⟩ := negativeM_ok wy ez
    have fx := fit_convertAM env px.1
    have ix := (lowRk_convert env x).2 px.2
    have iz := pz ((lowRk_convert env y).2 py.2)
    have d1 : DSem S r c (den (convertAM env x)) := by rw [ex]; exact sx.dsem
    have d2 : DSem S r c (den z) := by rw [dz, ey]; exact sy.dsem.map _
    have ns : NoStretch (convertAM env x) z := noStretch_of_eq (d1.rows.trans d2.rows.symm) (d1.cols.trans d2.cols.symm)
    refine ⟨Calm.step ez (hF.add wx wz fx.up fz.up ns (d1.compat d2)), ?_⟩
    simp only [ez, okBind]
    exact fun m h => ⟨hK.add fx fz m h, hI.add wx wz ns ix iz m h⟩

include hD in
/-- Nothing in the evaluation of the expression raises, and the conditions are kept. -/
theorem eval_calm (e : Expr K) {r c : ℕ} (ht : e.Typed S r c) (hp : e.Plain) :
    Calm (e.eval env B) ∧ Post (fun m => m.fit false ∧ m.innerPos) (e.eval env B) := by
  have sem : ∀ (e : Expr K) {r c : ℕ} (_ : e.Typed S r c) {m : Mat K} (_ : e.eval env B = .ok m), Sem S r c m e.dense := fun e _ _ ht _ h => eval_sem hB hD e ht h
  have two : ∀ {e f : Expr K} {g : Mat K → Mat K → E (Mat K)}, (Calm (e.eval env B) ∧ Post (fun m => m.fit false ∧ m.innerPos) (e.eval env B)) →
      (Calm (f.eval env B) ∧ Post (fun m => m.fit false ∧ m.innerPos) (f.eval env B)) →
      (∀ x y, e.eval env B = .ok x → f.eval env B = .ok y → x.fit false ∧ x.innerPos → y.fit false ∧ y.innerPos →
        Calm (g x y) ∧ Post (fun m => m.fit false ∧ m.innerPos) (g x y)) →
      Calm (do let x ← e.eval env B; let y ← f.eval env B; g x y) ∧ Post (fun m => m.fit false ∧ m.innerPos) (do let x ← e.eval env B; let y ← f.eval env B; g x y) := by
    intro e f g he hf hg
    refine ⟨Calm.bind he.1 fun x hx => Calm.bind hf.1 fun y hy => (hg x y hx hy (he.2 x hx) (hf.2 y hy)).1, fun m h => ?_⟩
    simp only [bind_ok_iff] at h
    obtain ⟨x, hx, y, hy, h⟩ := h
    exact (hg x y hx hy (he.2 x hx) (hf.2 y hy)).2 m h
  have one : ∀ {e : Expr K} {g : Mat K → E (Mat K)}, (Calm (e.eval env B) ∧ Post (fun m => m.fit false ∧ m.innerPos) (e.eval env B)) →
      (∀ x, e.eval env B = .ok x → x.fit false ∧ x.innerPos → Calm (g x) ∧ Post (fun m => m.fit false ∧ m.innerPos) (g x)) →
      Calm (do let x ← e.eval env B; g x) ∧ Post (fun m => m.fit false ∧ m.innerPos) (do let x ← e.eval env B; g x) := by
    intro e g he hg
    refine ⟨Calm.bind he.1 fun x hx => (hg x hx (he.2 x hx)).1, fun m h => ?_⟩
    simp only [bind_ok_iff] at h
    obtain ⟨x, hx, h⟩ := h
    exact (hg x hx (he.2 x hx)).2 m h
  induction e generalizing r c with
  | mat a => exact ⟨Calm.ok, Post.ok hp⟩
  | add e f he hf => exact two (he ht.1 hp.1) (hf ht.2 hp.2) fun x y hx hy px py => add_total hB hF hK hI (sem e ht.1 hx) (sem f ht.2 hy) px py
  | sub e f he hf => exact two (he ht.1 hp.1) (hf ht.2 hp.2) fun x y hx hy px py => sub_total hB hF hK hI (sem e ht.1 hx) (sem f ht.2 hy) px py
  | mul e f he hf =>
    refine two (he ht.1 hp.1) (hf ht.2 hp.2) fun x y hx hy px py => ?_
    have sx := sem e ht.1 hx
    have sy := sem f ht.2 hy
    have ms := mulSafe_of (sx.noStretch sy) sx.dg sy.dg
    exact ⟨hF.mul sx.wf sy.wf px.1.up py.1.up ms (mulDef_of px.1 py.1 px.2 py.2) (sx.dsem.compat sy.dsem),
      fun m h => ⟨hK.mul px.1 py.1 m h, hI.mul sx.wf sy.wf ms px.2 py.2 m h⟩⟩
  | matmul ta tb e f he hf =>
    obtain ⟨k, t1, t2⟩ := ht
    obtain ⟨r1, c1, u1, q1⟩ : ∃ r1 c1, e.Typed S r1 c1 ∧ (if ta then r1 else c1) = k := by cases ta <;> exact ⟨_, _, t1, rfl⟩
    obtain ⟨r2, c2, u2, q2⟩ : ∃ r2 c2, f.Typed S r2 c2 ∧ (if tb then c2 else r2) = k := by cases tb <;> exact ⟨_, _, t2, rfl⟩
    refine two (he u1 hp.1) (hf u2 hp.2) fun x y hx hy px py => ?_
    have sx := sem e u1 hx
    have sy := sem f u2 hy
    refine ⟨hF.matmul sx.wf sy.wf px.1.up py.1.up sx.rank sy.rank ?_ (KDom.flat (fit_notKron px.1) (fit_notKron py.1)),
      fun m h => ⟨hK.matmul px.1 py.1 m h, hI.matmul sx.wf sy.wf sx.rank sy.rank px.2 py.2 m h⟩⟩
    have e1 : (trIf ta (den x)).cols = if ta then r1 else c1 := by rw [← sx.rows, ← sx.cols]; cases ta <;> rfl
    have e2 : (trIf tb (den y)).rows = if tb then c2 else r2 := by rw [← sy.rows, ← sy.cols]; cases tb <;> rfl
    rw [e1, e2, q1, q2]
  | neg e he =>
    refine one (he ht hp) fun x hx px => ?_
    obtain ⟨z, ez, fz, pz⟩ := negativeM_keeps (sem e ht hx).wf px.1
    exact ⟨Calm.of ez, by rw [ez]; exact Post.ok ⟨fz, pz px.2⟩⟩
  | tr e he =>
    refine one (he ht hp) fun x hx px => ?_
    have sx := sem e ht hx
    obtain ⟨z, ez, _⟩ := transposeM_ok sx.wf
    exact ⟨Calm.of ez, fun m h => ⟨fitp_transposeM px.1 m h, ip_transposeM sx.wf px.2 m h⟩⟩
  | scale k e he =>
    refine one (he ht hp) fun x hx px => ?_
    have sx := sem e ht hx
    have ns : NoStretch (.num (scalarT k)) x := ⟨fun h => by simp [Mat.rigid] at h, fun _ => ⟨Or.inl rfl, Or.inl rfl⟩⟩
    have ms := mulSafe_of ns trivial sx.dg
    exact ⟨hF.mul (wf_scalar S k) sx.wf (fit_num true _) px.1.up ms (mulDef_of (fit_num false _) px.1 trivial px.2) (Compat.nil_left _),
      fun m h => ⟨hK.mul (fit_num false _) px.1 m h, hI.mul (wf_scalar S k) sx.wf ms trivial px.2 m h⟩⟩
  | shift e k he =>
    refine one (he ht hp) fun x hx px => ?_
    have sx := sem e ht hx
    have ns : NoStretch x (.num (scalarT k)) := ⟨fun _ => ⟨Or.inl rfl, Or.inl rfl⟩, fun h => by simp [Mat.rigid] at h⟩
    exact ⟨hF.add sx.wf (wf_scalar S k) px.1.up (fit_num true _) ns (Compat.nil_right _),
      fun m h => ⟨hK.add px.1 (fit_num false _) m h, hI.add sx.wf (wf_scalar S k) ns px.2 trivial m h⟩⟩

end

end Expr

/-- C47.  Every expression built from well-formed matrices with +, -, *, @ (all transposition flags), unary minus, transposition, scaling and shifting by a number,
whose sizes match, evaluates without raising, and the result is the expression on dense matrices.  Conditions: no Kronecker product or TiledBlocks among the leaves,
low-rank leaves have positive rank, the common batch is not empty, and the tolerance tests made are exact. -/
theorem C47_expression (c : Cfg K) {S : Shp} {p q : ℕ} (h0 : 0 ∉ S) {e : Expr K} (ht : e.Typed S p q) (hp : e.Plain) (hx : Exact c (e.eval c.code)) :
    ∃ m, Returns c (e.eval c.code) m ∧ m.Valid ∧ (den m).rows = p ∧ (den m).cols = q ∧ e.Denotes (den m) := by
  obtain ⟨m, h⟩ := (Done.finishes (Expr.done_eval (CoreDone.of c.nf) e)).returns hx fun n =>
    (Expr.eval_calm (c.ok n) (ops_dg (strictEnv_lawful _ _) n) (c.fine h0 n) (ops_keeps _ n) (ops_inner (strictEnv_lawful _ _) n) e ht hp).1
  exact ⟨m, h, C36_expression c ht h hx⟩

/-- C47, with the tolerance switched off: unconditional. -/
theorem C47_expression_no_tolerance [IsStrictOrderedRing K] (c : Cfg K) (htol : c.tol ≤ 0) {S : Shp} {p q : ℕ} (h0 : 0 ∉ S) {e : Expr K} (ht : e.Typed S p q) (hp : e.Plain) :
    ∃ m, Returns c (e.eval c.code) m ∧ m.Valid ∧ (den m).rows = p ∧ (den m).cols = q ∧ e.Denotes (den m) :=
  C47_expression c h0 ht hp (Exact.of_tol htol _)

/-! C47 on the concrete expression `((W + C) @ L - 2 * D.T) * M` of a Woodbury, a Constant, a triangular, a Diagonal and a Dense matrix. -/

theorem Ex.e1_plain : Ex.e1.Plain := by
  refine ⟨⟨⟨⟨⟨?_, ?_⟩, ?_, ?_⟩, ?_, ?_⟩, ?_, ?_⟩, ?_, ?_⟩
  · exact ⟨trivial, trivial, trivial⟩
  · exact ⟨by decide +kernel, by decide +kernel⟩
  all_goals trivial

example : ∃ m, Returns Ex.cfg (Ex.e1.eval Ex.cfg.code) m ∧ m.Valid ∧ (den m).rows = 2 ∧ (den m).cols = 2 ∧ Ex.e1.Denotes (den m) :=
  C47_expression Ex.cfg (S := []) (by simp) Ex.e1_typed Ex.e1_plain
    ((Ex.meets (Expr.Calls_eval _ _) (n := 10) (by decide +kernel)).elim fun _ h => h.2)

end Verif
