/-
Data types in linear algebra (C59): the property theorems.
-/
import Verif.DFlow5
import Verif.ExLin

set_option linter.unusedSectionVars false
set_option linter.unusedVariables false

namespace Verif

variable {K D : Type} [Field K] [LinearOrder K]

/-- A call of linear algebra on typed matrices: `B.inv(a)`, `B.pd_inv(a)`, `B.cholesky(a)`, `B.root(a)`, `B.solve(a, b)`, `B.cholesky_solve(a, b)`. -/
inductive LDOp (K D : Type) [Zero K] where
  | inv (a : TMat K D)
  | pdInv (a : TMat K D)
  | chol (a : TMat K D)
  | root (a : TMat K D)
  | solve (a b : TMat K D)
  | cholSolve (a b : TMat K D)

/-- Call the function. -/
def LDOp.run (L : LOps K) : LDOp K D → E (Mat K)
  | .inv a => L.inv a.mat
  | .pdInv a => L.pdInv a.mat
  | .chol a => L.chol a.mat
  | .root a => L.root a.mat
  | .solve a b => L.solve a.mat b.mat
  | .cholSolve a b => L.cholSolve a.mat b.mat

/-- The same call without values. -/
def LDOp.call : LDOp K D → LDCall D
  | .inv a => .inv a.skel
  | .pdInv a => .pdInv a.skel
  | .chol a => .chol a.skel
  | .root a => .root a.skel
  | .solve a b => .solve a.skel b.skel
  | .cholSolve a b => .cholSolve a.skel b.skel

/-- The operands are well formed. -/
def LDOp.Valid : LDOp K D → Prop
  | .inv a | .pdInv a | .chol a | .root a => a.mat.Valid
  | .solve a b | .cholSolve a b => a.mat.Valid ∧ b.mat.Valid

/-- An array of an operand has data type `d`. -/
def LDOp.HasD (d : D) : LDOp K D → Prop
  | .inv a | .pdInv a | .chol a | .root a => a.HasD d
  | .solve a b | .cholSolve a b => a.HasD d ∨ b.HasD d

/-- No operand is or contains a Zero. -/
def LDOp.NoZero : LDOp K D → Prop
  | .inv a | .pdInv a | .chol a | .root a => a.skel.NoZero
  | .solve a b | .cholSolve a b => a.skel.NoZero ∧ b.skel.NoZero

/-- The call is `B.inv` or `B.solve`. -/
def LDOp.Direct : LDOp K D → Prop
  | .inv _ | .solve _ _ => True
  | _ => False

theorem LDOp.call_all {S : D → Prop} (op : LDOp K D) : op.call.All S ↔ ∀ d, op.HasD d → S d := by
  cases op with
  | solve a b => exact ⟨fun h d hd => hd.elim (a.all_iff.1 h.1 d) (b.all_iff.1 h.2 d), fun h => ⟨a.all_iff.2 fun d hd => h d (.inl hd), b.all_iff.2 fun d hd => h d (.inr hd)⟩⟩
  | cholSolve a b => exact ⟨fun h d hd => hd.elim (a.all_iff.1 h.1 d) (b.all_iff.1 h.2 d), fun h => ⟨a.all_iff.2 fun d hd => h d (.inl hd), b.all_iff.2 fun d hd => h d (.inr hd)⟩⟩
  | inv a => exact a.all_iff
  | pdInv a => exact a.all_iff
  | chol a => exact a.all_iff
  | root a => exact a.all_iff

theorem LDOp.call_ok (op : LDOp K D) (h : op.Valid) : op.call.Ok := by
  cases op with
  | solve a b => exact ⟨TMat.ok_of_wf h.1.choose_spec, TMat.ok_of_wf h.2.choose_spec⟩
  | cholSolve a b => exact ⟨TMat.ok_of_wf h.1.choose_spec, TMat.ok_of_wf h.2.choose_spec⟩
  | _ => exact TMat.ok_of_wf h.choose_spec

theorem LDOp.call_noZero (op : LDOp K D) (h : op.NoZero) : op.call.NoZero := by cases op <;> exact h

/-- The typed matrix `r` is a result of the call: its values are a result of the run, its data types are those which the call gives to the arrays of the result.
`f` is the data type of the square root of a Python integer. -/
def TLReturns (c : Cfg K) (lin : LinEnv K) (p : D → D → D) (f : D) (op : LDOp K D) (r : TMat K D) : Prop :=
  LReturns c lin (fun _ L => op.run L) r.mat ∧ LRuns p true f true op.call r.skel

/-- The same for runs in which no number is an exact zero, no sum of two low-rank matrices vanishes and no Cholesky factor of a Constant or LowRank matrix is taken. -/
def TLReturnsPlain (c : Cfg K) (lin : LinEnv K) (p : D → D → D) (f : D) (op : LDOp K D) (r : TMat K D) : Prop :=
  LReturns c lin (fun _ L => op.run L) r.mat ∧ LRuns p false f false op.call r.skel

/-- The call returns `r` in a run in which no sum of two low-rank matrices vanishes and no Cholesky factor of a Constant or LowRank matrix is taken:
the run is the same if it has to stop there. -/
def LReturnsPlain {α : Type} (c : Cfg K) (lin : LinEnv K) (g : Ops K → LOps K → E α) (r : α) : Prop :=
  ∃ m n, g (ops c.noCancel n) (lopsPlain c.code lin (ops c.noCancel n) m) = .ok r

theorem LReturnsPlain.returns {α : Type} {c : Cfg K} {lin : LinEnv K} {g : Ops K → LOps K → E α} {r : α} (hg : LCalls g) (h : LReturnsPlain c lin g r) : LReturns c lin g r := by
  obtain ⟨m, n, h⟩ := h
  have := ops_below_env c.noCancel_below n
  exact ⟨m, n, (hg _ _ _ _ _ this (lopsPlain_below (bad := (· = .inexact)) rfl this m)).ok h⟩

theorem LDOp.calls (op : LDOp K D) : LCalls fun _ L => op.run L := by
  cases op with
  | inv a => exact LCalls.inv _
  | pdInv a => exact LCalls.pdInv _
  | chol a => exact LCalls.chol _
  | root a => exact LCalls.root _
  | solve a b => exact LCalls.solve _ _
  | cholSolve a b => exact LCalls.cholSolve _ _

theorem LDOp.cov {p : D → D → D} {z c : Bool} {f : D} {L : LOps K} (G : LCov p z f c L) (op : LDOp K D) (ho : op.call.Ok) {r : Mat K} (h : op.run L = .ok r) :
    ∃ x, Lab r x ∧ LRuns p z f c op.call x := by
  cases op with
  | inv a => exact G.inv a.lab ho h
  | pdInv a => exact G.pdInv a.lab ho h
  | chol a => exact G.chol a.lab ho h
  | root a => exact G.root a.lab ho h
  | solve a b => exact G.solve a.lab b.lab ho.1 ho.2 h
  | cholSolve a b => exact G.cholSolve a.lab b.lab ho.1 ho.2 h

/-- **C59.** Every result of linear algebra on typed matrices is a typed matrix. -/
theorem C59_linalg_covered {c : Cfg K} {lin : LinEnv K} (p : D → D → D) (f : D) {op : LDOp K D} {r : Mat K} (ho : op.Valid) (h : LReturns c lin (fun _ L => op.run L) r) :
    ∃ r' : TMat K D, r'.mat = r ∧ TLReturns c lin p f op r' := by
  obtain ⟨m, n, hr⟩ := h
  obtain ⟨x, l, run⟩ := op.cov (lops_cov (env := c.code) (z := true) (f := f) (lin := lin) (fun h => by cases h) (ops_cov p (z := true) (fun h => by cases h) n) m) (op.call_ok ho) hr
  obtain ⟨t, rfl, rfl⟩ := l.typed
  exact ⟨t, rfl, ⟨m, n, hr⟩, run⟩

/-- **C59.** The same for plain runs. -/
theorem C59_linalg_covered_plain {c : Cfg K} {lin : LinEnv K} (p : D → D → D) (f : D) {op : LDOp K D} {r : Mat K} (ho : op.Valid)
    (hn : ∀ t, c.isNumber t = true → t.get (fun _ => 0) ≠ 0) (h : LReturnsPlain c lin (fun _ L => op.run L) r) :
    ∃ r' : TMat K D, r'.mat = r ∧ TLReturnsPlain c lin p f op r' := by
  have h' := h.returns op.calls
  obtain ⟨m, n, hr⟩ := h
  obtain ⟨x, l, run⟩ := op.cov (lopsPlain_cov (env := c.code) (f := f) (lin := lin) (fun _ => hn) (ops_cov p (Cfg.noCancel_zeros hn) n) m) (op.call_ok ho) hr
  obtain ⟨t, rfl, rfl⟩ := l.typed
  exact ⟨t, rfl, h', run⟩

/-- Inverses and solutions do not take Cholesky factors. -/
theorem LRuns.direct {p : D → D → D} {z c : Bool} {f : D} {k : LDCall D} {r : DM D} (h : LRuns p z f c k r) :
    match k with
    | .inv _ | .schur .. | .solve _ _ => LRuns p z f false k r
    | _ => True := by
  induction h with
  | inv_num => exact .inv_num
  | inv_dense => exact .inv_dense
  | inv_diag => exact .inv_diag
  | inv_wb _ h2 h3 _ _ h6 i1 i4 i5 => exact .inv_wb i1 h2 h3 i4 i5 h6
  | inv_kron _ _ i1 i2 => exact .inv_kron i1 i2
  | schur _ h2 _ h4 i1 i3 => exact .schur i1 h2 i3 h4
  | solve_num => exact .solve_num
  | solve_zero h => exact .solve_zero h
  | solve_any h1 h2 h0 h3 h4 => exact .solve_any h1 h2 h0 h3 h4
  | solve_diag h1 h0 _ h3 i => exact .solve_diag h1 h0 i h3
  | solve_lt h1 h0 h2 => exact .solve_lt h1 h0 h2
  | solve_ut h1 h0 h2 => exact .solve_ut h1 h0 h2
  | solve_wb h1 h0 _ h3 i => exact .solve_wb h1 h0 i h3
  | _ => trivial

/-- **C59.** No data type appears out of nowhere in linear algebra: every data type in the result is in every set of data types that contains those of the operands and is closed under
promotion, and under promotion with the data type of the square root of an integer. -/
theorem C59_linalg_closed {c : Cfg K} {lin : LinEnv K} {p : D → D → D} {f : D} {op : LDOp K D} {r : TMat K D} (h : TLReturns c lin p f op r) {S : D → Prop}
    (hS : ∀ x y, S x → S y → S (p x y)) (hf : ∀ x, S x → S (p x f)) (ho : ∀ d, op.HasD d → S d) (d : D) (hd : r.HasD d) : S d :=
  r.all_iff.1 (h.2.all hS (fun _ => hf) (op.call_all.2 ho)) d hd

/-- **C59.** For inverses and solutions the last condition is not needed. -/
theorem C59_inv_closed {c : Cfg K} {lin : LinEnv K} {p : D → D → D} {f : D} {op : LDOp K D} {r : TMat K D} (hd : op.Direct) (h : TLReturns c lin p f op r) {S : D → Prop}
    (hS : ∀ x y, S x → S y → S (p x y)) (ho : ∀ d, op.HasD d → S d) (d : D) (hd : r.HasD d) : S d := by
  have h' : LRuns p true f false op.call r.skel := by
    cases op with
    | inv a => exact h.2.direct
    | solve a b => exact h.2.direct
    | _ => contradiction
  exact r.all_iff.1 (h'.all hS (fun h => by cases h) (op.call_all.2 ho)) d hd

/-- **C59.** Double precision stays double precision: if all arrays of the operands have data type `d`, and promotion with the square root of an integer does not change it, all arrays of
the result have data type `d`, and so has the result. -/
theorem C59_linalg_uniform {c : Cfg K} {lin : LinEnv K} {δ : DEnv K D} {d f : D} (hδ : δ.promote d d = d) (hf : δ.promote d f = d) {op : LDOp K D} {r : TMat K D} (ho : op.Valid)
    (h : TLReturns c lin δ.promote f op r) (h1 : ∀ e, op.HasD e → e = d) : (∀ e, r.HasD e → e = d) ∧ dtypeM δ r = .ok d := by
  have hc : ∀ e, r.HasD e → e = d := C59_linalg_closed h (S := (· = d)) (by rintro x y rfl rfl; exact hδ) (by rintro x rfl; exact hf) h1
  refine ⟨hc, ?_⟩
  obtain ⟨e, he⟩ := (h.2.ok (op.call_ok ho)).dt δ.promote
  have := he.all (S := (· = d)) (by rintro x y rfl rfl; exact hδ) (r.all_iff.2 hc)
  subst this
  exact (dtypeM_iff r).2 he

/-- **C59.** Inverses and solutions in single precision are in single precision. -/
theorem C59_inv_uniform {c : Cfg K} {lin : LinEnv K} {δ : DEnv K D} {d f : D} (hδ : δ.promote d d = d) {op : LDOp K D} {r : TMat K D} (ho : op.Valid) (hd : op.Direct)
    (h : TLReturns c lin δ.promote f op r) (h1 : ∀ e, op.HasD e → e = d) : (∀ e, r.HasD e → e = d) ∧ dtypeM δ r = .ok d := by
  have hc : ∀ e, r.HasD e → e = d := C59_inv_closed hd h (S := (· = d)) (by rintro x y rfl rfl; exact hδ) h1
  refine ⟨hc, ?_⟩
  obtain ⟨e, he⟩ := (h.2.ok (op.call_ok ho)).dt δ.promote
  have := he.all (S := (· = d)) (by rintro x y rfl rfl; exact hδ) (r.all_iff.2 hc)
  subst this
  exact (dtypeM_iff r).2 he

/-- **C59.** In plain runs the data type of the result is the promotion of the data types of all arrays of the operands. -/
theorem C59_linalg_promoted [SemilatticeSup D] {c : Cfg K} {lin : LinEnv K} {δ : DEnv K D} (hδ : δ.promote = (· ⊔ ·)) {f : D} {op : LDOp K D} {r : TMat K D} (ho : op.Valid)
    (hn : op.NoZero) (h : TLReturnsPlain c lin δ.promote f op r) : ∃ d, dtypeM δ r = .ok d ∧ IsLUB {e | op.HasD e} d := by
  obtain ⟨d, he⟩ := (h.2.ok (op.call_ok ho)).dt δ.promote
  refine ⟨d, (dtypeM_iff r).2 he, ?_⟩
  rw [hδ] at he
  have hr := h.2
  rw [hδ] at hr
  have key : ∀ u, d ≤ u ↔ ∀ e, op.HasD e → e ≤ u := fun u => by rw [he.le, hr.exact (op.call_noZero hn) u, op.call_all]
  exact ⟨fun e hd => (key d).1 (le_refl d) e hd, fun u hu => (key u).2 fun e hd => hu hd⟩

/-! ### Log-determinants -/

/-- The array `r` with its data type is the log-determinant of `a`. -/
def TLogdet (c : Cfg K) (lin : LinEnv K) (p : D → D → D) (z : Bool) (f : D) (plain : Bool) (a : TMat K D) (r : TT K D) : Prop :=
  LReturns c lin (fun _ L => L.logdet a.mat) r.t ∧ LRuns p z f plain (.logdet a.skel) (.num r.dt)

/-- **C59.** Every log-determinant of a typed matrix has a data type. -/
theorem C59_logdet_covered {c : Cfg K} {lin : LinEnv K} (p : D → D → D) (f : D) {a : TMat K D} {r : Tensor K} (ha : a.mat.Valid) (h : LReturns c lin (fun _ L => L.logdet a.mat) r) :
    ∃ d, TLogdet c lin p true f true a ⟨d, r⟩ := by
  obtain ⟨m, n, hr⟩ := h
  obtain ⟨d, hd⟩ := (lops_cov (env := c.code) (z := true) (f := f) (lin := lin) (fun h => by cases h) (ops_cov p (z := true) (fun h => by cases h) n) m).logdet a.lab
    (TMat.ok_of_wf ha.choose_spec) hr
  exact ⟨d, ⟨m, n, hr⟩, hd⟩

/-- **C59.** The same for plain runs. -/
theorem C59_logdet_covered_plain {c : Cfg K} {lin : LinEnv K} (p : D → D → D) (f : D) {a : TMat K D} {r : Tensor K} (ha : a.mat.Valid)
    (hn : ∀ t, c.isNumber t = true → t.get (fun _ => 0) ≠ 0) (h : LReturnsPlain c lin (fun _ L => L.logdet a.mat) r) : ∃ d, TLogdet c lin p false f false a ⟨d, r⟩ := by
  have h' := h.returns (LCalls.logdet _)
  obtain ⟨m, n, hr⟩ := h
  obtain ⟨d, hd⟩ := (lopsPlain_cov (env := c.code) (f := f) (lin := lin) (fun _ => hn) (ops_cov p (Cfg.noCancel_zeros hn) n) m).logdet a.lab (TMat.ok_of_wf ha.choose_spec) hr
  exact ⟨d, h', hd⟩

/-- **C59.** The data type of a log-determinant comes from the arrays of the matrix. -/
theorem C59_logdet_closed {c : Cfg K} {lin : LinEnv K} {p : D → D → D} {z b : Bool} {f : D} {a : TMat K D} {r : TT K D} (h : TLogdet c lin p z f b a r) {S : D → Prop}
    (hS : ∀ x y, S x → S y → S (p x y)) (hf : ∀ x, S x → S (p x f)) (ha : ∀ d, a.HasD d → S d) : S r.dt :=
  h.2.all hS (fun _ => hf) (a.all_iff.2 ha)

/-- **C59.** In plain runs a log-determinant has the data type of the matrix. -/
theorem C59_logdet_promoted [SemilatticeSup D] {c : Cfg K} {lin : LinEnv K} {δ : DEnv K D} (hδ : δ.promote = (· ⊔ ·)) {f : D} {a : TMat K D} {r : TT K D} {da : D} (na : a.skel.NoZero)
    (h : TLogdet c lin δ.promote false f false a r) (h1 : dtypeM δ a = .ok da) : r.dt = da := by
  rw [dtypeM_iff, hδ] at h1
  have hr := h.2
  rw [hδ] at hr
  exact eq_of_forall_ge_iff fun u => by
    rw [h1.le]
    exact hr.exact na u

/-! ### Findings -/

/-- **C59, finding.** The Cholesky factor of a Constant matrix of data type `d` has the data type of `d` promoted with the data type of the square root of an integer
(`B.sqrt(a.cols)`): in single precision it is in double precision if that is. -/
theorem C59_cholesky_constant {p : D → D → D} {z : Bool} {f d : D} {c : Bool} {x : DM D} (h : LRuns p z f c (.chol (.const d)) x) : x = .const (p d f) := by
  cases h; rfl

/-- **C59, finding.** The data type of the right factor of a LowRank matrix has no influence on the data type of its Cholesky factor. -/
theorem C59_cholesky_lowrank {p : D → D → D} {z : Bool} {f : D} {c : Bool} {l r r' m x : DM D} (h : LRuns p z f c (.chol (.lr l r m)) x) : LRuns p z f c (.chol (.lr l r' m)) x := by
  cases h with
  | chol_lr h1 h2 h3 => exact .chol_lr h1 h2 h3

/-- **C59, finding.** A solution for a Zero right-hand side has the data type of the right-hand side. -/
theorem C59_solve_zero {p : D → D → D} {z : Bool} {f e : D} {c : Bool} {a x : DM D} (h : LRuns p z f c (.solve a (.zero e)) x) : x = .zero e := by
  cases h with
  | solve_zero h => exact h.of_kind rfl
  | solve_any _ h h0 => cases h.of_kind rfl; exact (h0 rfl).elim
  | solve_diag h h0 => cases h.of_kind rfl; exact (h0 rfl).elim
  | solve_lt h h0 => cases h.of_kind rfl; exact (h0 rfl).elim
  | solve_ut h h0 => cases h.of_kind rfl; exact (h0 rfl).elim
  | solve_wb h h0 => cases h.of_kind rfl; exact (h0 rfl).elim

end Verif
