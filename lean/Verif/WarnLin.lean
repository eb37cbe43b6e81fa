/-
C56.  The ToDenseWarnings of linear algebra.

The functions of `LinCore` once more, over the core with warnings as errors (`Warn.lean`), with the warnings that `ops/cholesky.py`, `ops/root.py` and
`ops/solve.py` issue themselves.  As in `Warn.lean` a warning is an error: a run that returns has issued none, a run that ends with `warn` has issued one.
-/
import Verif.WarnDer
import Verif.LinMono
import Verif.Classes
import Verif.ExLin

set_option linter.unusedSectionVars false

namespace Verif

variable {K : Type} [Field K] [LinearOrder K]

/-! ### The model -/

section
variable (env : Env K) (lin : LinEnv K) (B : Ops K) (L : LOps K)

/-- `B.cholesky(a)` with the warning for Woodbury matrices, `ops/cholesky.py` 60-68 (`stepChol` otherwise). -/
def wStepChol (a : Mat K) : E (Mat K) :=
  match a with
  | .wb d l r m => do
    warnIf true
    stepChol lin B L (.wb d l r m)
  | a => stepChol lin B L a

/-- `B.solve(a, b)` of two matrices with its warnings, `ops/solve.py` 21-28 (general), 36-43 and 46-53 (triangular); `stepSolve` otherwise. -/
def wSolveAM (a b : Mat K) : E (Mat K) :=
  match a, b with
  | _, .zero bt r c => .ok (.zero bt r c)
  | .diag d, b => do B.matmul false false (← L.inv (.diag d)) b
  | .lt t, b => do
    warnIf b.structured
    solveTri lin B true t b
  | .ut t, b => do
    warnIf b.structured
    solveTri lin B false t b
  | .wb d l r m, b => do B.matmul false false (← L.inv (.wb d l r m)) b
  | a, b => do
    warnIf (a.structured || b.structured)
    solveDense lin B a b

/-- `B.solve(a, b)`, `ops/solve.py` 16-59: two arrays go to the backend (LAB), other numeric operands are converted first, as in `stepSolve`. -/
def wStepSolve (a b : Mat K) : E (Mat K) :=
  match a, b with
  | .num s, .num t => do return .num (← lin.solve s t)
  | a, b => wSolveAM lin B L (convertAM env a) (convertAM env b)

/-- `B.root(a)` with the warning for LowRank and Woodbury matrices, `ops/root.py` 63-68 (`stepRoot` otherwise). -/
def wStepRoot (a : Mat K) : E (Mat K) :=
  match a with
  | .lr l r m => do
    warnIf true
    stepRoot lin B L (.lr l r m)
  | .wb d l r m => do
    warnIf true
    stepRoot lin B L (.wb d l r m)
  | a => stepRoot lin B L a

/-- One unfolding of linear algebra with warnings.  The other functions have no warnings of their own. -/
def wlstep : LOps K where
  inv := stepInv env lin B L
  pdInv := stepPdInv env B L
  chol := wStepChol lin B L
  solve := wStepSolve env lin B L
  cholSolve := stepCholSolve env lin L
  logdet := stepLogdet lin B L
  root := wStepRoot lin B L

/-- Linear algebra with warnings as errors, with recursion depth at most `n` among these functions. -/
def wlops : ℕ → LOps K
  | 0 => LOps.bot
  | n+1 => wlstep env lin B (wlops n)

end

/-- `f` runs without any ToDenseWarning and returns `r`. -/
def LQuiet {α : Type} (c : Cfg K) (lin : LinEnv K) (f : Ops K → LOps K → E α) (r : α) : Prop :=
  ∃ n m, f (wops c.code n) (wlops c.code lin (wops c.code n) m) = .ok r
/-- `f` issues a ToDenseWarning. -/
def LWarns {α : Type} (c : Cfg K) (lin : LinEnv K) (f : Ops K → LOps K → E α) : Prop :=
  ∃ n m, f (wops c.code n) (wlops c.code lin (wops c.code n) m) = .error .warn

/-! ### Comparison of runs -/

section
variable {bad : Err → Prop} {B C : Ops K} {L M : LOps K} {env : Env K} {lin : LinEnv K}

theorem wStepChol_below (h : Ops.Below bad B C) (hL : LOps.Below bad L M) (a : Mat K) : Below bad (wStepChol lin B L a) (wStepChol lin C M a) := by
  unfold wStepChol
  split
  · exact Below.bind (.refl _) fun _ => stepChol_below lin h hL _
  · exact stepChol_below lin h hL _

theorem wSolveAM_below (h : Ops.Below bad B C) (hL : LOps.Below bad L M) (a b : Mat K) : Below bad (wSolveAM lin B L a b) (wSolveAM lin C M a b) := by
  unfold wSolveAM
  split
  · exact .refl _
  · exact Below.bind (hL.inv _) fun _ => h.matmul _ _ _ _
  · exact Below.bind (.refl _) fun _ => solveTri_below lin h _ _ _
  · exact Below.bind (.refl _) fun _ => solveTri_below lin h _ _ _
  · exact Below.bind (hL.inv _) fun _ => h.matmul _ _ _ _
  · exact Below.bind (.refl _) fun _ => solveDense_below lin h _ _

theorem wStepSolve_below (h : Ops.Below bad B C) (hL : LOps.Below bad L M) (a b : Mat K) : Below bad (wStepSolve env lin B L a b) (wStepSolve env lin C M a b) := by
  unfold wStepSolve
  split
  · exact .refl _
  · exact wSolveAM_below h hL _ _

theorem wStepRoot_below (h : Ops.Below bad B C) (hL : LOps.Below bad L M) (a : Mat K) : Below bad (wStepRoot lin B L a) (wStepRoot lin C M a) := by
  unfold wStepRoot
  split
  · exact Below.bind (.refl _) fun _ => stepRoot_below lin h hL _
  · exact Below.bind (.refl _) fun _ => stepRoot_below lin h hL _
  · exact stepRoot_below lin h hL _

theorem wlstep_below (h : Ops.Below bad B C) (hL : LOps.Below bad L M) : LOps.Below bad (wlstep env lin B L) (wlstep env lin C M) :=
  ⟨stepInv_below env lin h hL, stepPdInv_below env h hL, wStepChol_below h hL, wStepSolve_below h hL, stepCholSolve_below env lin hL,
    stepLogdet_below lin h hL, wStepRoot_below h hL⟩

theorem wlops_below (h : Ops.Below bad B C) (n : ℕ) : LOps.Below bad (wlops env lin B n) (wlops env lin C n) := by
  induction n with
  | zero => exact .refl _
  | succ n ih => exact wlstep_below h ih

theorem wlops_below_succ (n : ℕ) : LOps.Below (· = .fuel) (wlops env lin B n) (wlops env lin B (n+1)) := by
  induction n with
  | zero => exact ⟨fun _ => Below.of_bad (bad := (· = .fuel)) rfl _, fun _ => Below.of_bad (bad := (· = .fuel)) rfl _, fun _ => Below.of_bad (bad := (· = .fuel)) rfl _,
      fun _ _ => Below.of_bad (bad := (· = .fuel)) rfl _, fun _ _ => Below.of_bad (bad := (· = .fuel)) rfl _,
      fun _ => Below.of_bad (bad := (· = .fuel)) rfl _, fun _ => Below.of_bad (bad := (· = .fuel)) rfl _⟩
  | succ n ih => exact wlstep_below (.refl _) ih

theorem wlops_below_le {n m : ℕ} (h : n ≤ m) : LOps.Below (· = .fuel) (wlops env lin B n) (wlops env lin B m) := by
  induction m, h using Nat.le_induction with
  | base => exact .refl _
  | succ m _ ih => exact ih.trans (wlops_below_succ m)

/-- A possible warning, then the same run. -/
theorem Below.warnIf {α : Type} {b : Bool} {x y : E α} (h : Below (· = .warn) x y) : Below (· = .warn) (warnIf b >>= fun _ => x) y :=
  Below.warn (fun _ he => .inl (warnIf_err.1 he).2) h

/-- `stepSolve` on two matrices, without the conversion of numeric operands. -/
def solveAM (lin : LinEnv K) (B : Ops K) (L : LOps K) (a b : Mat K) : E (Mat K) :=
  match a, b with
  | _, .zero bt r c => .ok (.zero bt r c)
  | .diag d, b => do B.matmul false false (← L.inv (.diag d)) b
  | .lt t, b => solveTri lin B true t b
  | .ut t, b => solveTri lin B false t b
  | .wb d l r m, b => do B.matmul false false (← L.inv (.wb d l r m)) b
  | a, b => solveDense lin B a b

theorem wSolveAM_warn (h : Ops.Below (· = .warn) B C) (hL : LOps.Below (· = .warn) L M) (a b : Mat K) :
    Below (· = .warn) (wSolveAM lin B L a b) (solveAM lin C M a b) := by
  cases b <;> try exact .refl _
  all_goals cases a
  all_goals first
    | exact Below.warnIf (solveDense_below lin h _ _)
    | exact Below.warnIf (solveTri_below lin h _ _ _)
    | exact Below.bind (hL.inv _) fun _ => h.matmul _ _ _ _

theorem stepSolve_am (a b : Mat K) : (∃ s t, a = .num s ∧ b = .num t) ∨ stepSolve env lin B L a b = solveAM lin B L (convertAM env a) (convertAM env b) := by
  cases a <;> cases b <;> first | exact .inl ⟨_, _, rfl, rfl⟩ | exact .inr rfl

theorem wStepSolve_am (a b : Mat K) : (∃ s t, a = .num s ∧ b = .num t) ∨ wStepSolve env lin B L a b = wSolveAM lin B L (convertAM env a) (convertAM env b) := by
  cases a <;> cases b <;> first | exact .inl ⟨_, _, rfl, rfl⟩ | exact .inr rfl

theorem wStepSolve_warn (h : Ops.Below (· = .warn) B C) (hL : LOps.Below (· = .warn) L M) (a b : Mat K) :
    Below (· = .warn) (wStepSolve env lin B L a b) (stepSolve env lin C M a b) := by
  rcases stepSolve_am (env := env) (lin := lin) (B := C) (L := M) a b with ⟨s, t, rfl, rfl⟩ | h1
  · exact .refl _
  rcases wStepSolve_am (env := env) (lin := lin) (B := B) (L := L) a b with ⟨s, t, rfl, rfl⟩ | h2
  · exact .refl _
  rw [h1, h2]
  exact wSolveAM_warn h hL _ _

theorem wlstep_warn (h : Ops.Below (· = .warn) B C) (hL : LOps.Below (· = .warn) L M) : LOps.Below (· = .warn) (wlstep env lin B L) (lstep env lin C M) := by
  refine ⟨stepInv_below env lin h hL, stepPdInv_below env h hL, fun a => ?_, fun a b => ?_, stepCholSolve_below env lin hL, stepLogdet_below lin h hL, fun a => ?_⟩
  · show Below _ (wStepChol lin B L a) (stepChol lin C M a)
    unfold wStepChol
    split
    · exact Below.warnIf (stepChol_below lin h hL _)
    · exact stepChol_below lin h hL _
  · show Below _ (wStepSolve env lin B L a b) (stepSolve env lin C M a b)
    exact wStepSolve_warn h hL a b
  · show Below _ (wStepRoot lin B L a) (stepRoot lin C M a)
    unfold wStepRoot
    split
    · exact Below.warnIf (stepRoot_below lin h hL _)
    · exact Below.warnIf (stepRoot_below lin h hL _)
    · exact stepRoot_below lin h hL _

theorem wlops_warn (h : Ops.Below (· = .warn) B C) (m : ℕ) : LOps.Below (· = .warn) (wlops env lin B m) (lops env lin C m) := by
  induction m with
  | zero => exact .refl _
  | succ m ih => exact wlstep_warn h ih

end

theorem LWarns.le {α : Type} {c : Cfg K} {lin : LinEnv K} {f : Ops K → LOps K → E α} (hf : LCalls f) {n n' m m' : ℕ} (hn : n ≤ n') (hm : m ≤ m') :
    Below (· = .fuel) (f (wops c.code n) (wlops c.code lin (wops c.code n) m)) (f (wops c.code n') (wlops c.code lin (wops c.code n') m')) :=
  hf _ _ _ _ _ (wops_below_le hn) ((wlops_below (wops_below_le hn) m).trans (wlops_below_le hm))

/-- A run that returns without warnings and one that warns exclude each other. -/
theorem LQuiet.not_warns {α : Type} {c : Cfg K} {lin : LinEnv K} {f : Ops K → LOps K → E α} {r : α} (hf : LCalls f) (h : LQuiet c lin f r) : ¬ LWarns c lin f := by
  rintro ⟨n', m', h'⟩
  obtain ⟨n, m, h⟩ := h
  have h1 := (LWarns.le (c := c) (lin := lin) hf (Nat.le_max_left n n') (Nat.le_max_left m m')).ok h
  rcases LWarns.le (c := c) (lin := lin) hf (Nat.le_max_right n n') (Nat.le_max_right m m') with h2 | ⟨_, rfl, h2⟩
  · rw [← h2, h'] at h1; cases h1
  · rw [h'] at h2; cases h2

/-- C56.  A call of linear algebra that returns does so either without a warning, and then with the same result when warnings are made errors, or it warns; not both. -/
theorem C56_erase {α : Type} (c : Cfg K) (lin : LinEnv K) {f : Ops K → LOps K → E α} (hf : LCalls f) {r : α} (h : LReturns c lin f r) :
    (LQuiet c lin f r ∨ LWarns c lin f) ∧ ¬ (LQuiet c lin f r ∧ LWarns c lin f) := by
  refine ⟨?_, fun ⟨h1, h2⟩ => h1.not_warns hf h2⟩
  obtain ⟨m, n, h⟩ := h
  rcases hf _ _ _ _ _ (wops_warn (env := c.code) n) (wlops_warn (env := c.code) (lin := lin) (wops_warn n) m) with h1 | ⟨e, rfl, h1⟩
  · exact .inl ⟨n, m, h1.trans h⟩
  · exact .inr ⟨n, m, h1⟩

theorem LQuiet.returns {α : Type} {c : Cfg K} {lin : LinEnv K} {f : Ops K → LOps K → E α} {r : α} (hf : LCalls f) (h : LQuiet c lin f r) : LReturns c lin f r := by
  obtain ⟨n, m, h⟩ := h
  exact ⟨m, n, (hf _ _ _ _ _ (wops_warn n) (wlops_warn (wops_warn n) m)).ok h⟩

/-! ### Calls that warn -/

/-- C56.  The Cholesky factor of a Woodbury matrix is computed from the dense matrix, always with a warning. -/
theorem C56_cholesky_woodbury (c : Cfg K) (lin : LinEnv K) (d : Tensor K) (l r m : Mat K) : LWarns c lin (fun _ L => L.chol (.wb d l r m)) := ⟨0, 1, rfl⟩

/-- C56.  The root of a structured matrix is Dense only with a warning. -/
theorem C56_root (c : Cfg K) (lin : LinEnv K) {a r : Mat K} (ha : a.structured = true) (h : LReturns c lin (fun _ L => L.root a) r) (hr : r.kind = some .dense) :
    LWarns c lin (fun _ L => L.root a) := by
  have hk := C51_root c lin h
  rw [hr] at hk
  cases a with
  | lr l r m => exact ⟨0, 1, rfl⟩
  | wb d l r m => exact ⟨0, 1, rfl⟩
  | dense t => simp [Mat.structured] at ha
  | _ => simp [Mat.kind, rootOut] at hk

/-- C56.  No silent loss of structure when solving: if the right-hand side is structured, or the matrix is structured and not of a class with a method of its
own, and the solution is an array or a Dense matrix, then a ToDenseWarning was issued. -/
theorem C56_solve (c : Cfg K) (lin : LinEnv K) {a b r : Mat K} (va : a.Valid) (vb : b.Valid) (ha : a.isAM = true) (hb : b.isAM = true)
    (hs : b.structured = true ∨ a.structured = true ∧ a.kind ∉ [some .diag, some .lt, some .ut, some .wb])
    (h : LReturns c lin (fun _ L => L.solve a b) r) (hr : r.kind = some .dense ∨ r.kind = none) : LWarns c lin (fun _ L => L.solve a b) := by
  rcases (C56_erase c lin (LCalls.solve a b) h).1 with ⟨n, m, hq⟩ | hw
  swap
  · exact hw
  exfalso
  have ea : convertAM c.code a = a := by cases a <;> first | rfl | cases ha
  have eb : convertAM c.code b = b := by cases b <;> first | rfl | cases hb
  cases m with
  | zero => cases hq
  | succ m =>
  change wStepSolve c.code lin (wops c.code n) (wlops c.code lin (wops c.code n) m) a b = .ok r at hq
  rcases wStepSolve_am (env := c.code) (lin := lin) (B := wops c.code n) (L := wlops c.code lin (wops c.code n) m) a b with ⟨s, t, rfl, rfl⟩ | e
  · cases ha
  rw [e, ea, eb] at hq
  unfold wSolveAM at hq
  have key : ∀ x : Mat K, x.structured = true → x.kind ≠ some .dense := by intro x hx; cases x <;> simp [Mat.structured] at hx <;> simp [Mat.kind]
  have mm : ∀ {x : Mat K} {k : Kind}, x.kind = some k → k ≠ .dense → TriRk x → b.structured = true → ¬ (wops c.code n).matmul false false x b = .ok r := by
    intro x k hx hk rx hb' e
    obtain ⟨k', h1', h2', _⟩ := isAM_of_structured hb'
    rcases hr with hr | hr
    · exact wops_mmSilent n false false x b k k' hx h1' rx (triRk_of_valid vb) hk h2' r e hr
    · obtain ⟨_, _, h3⟩ := wops_mmKinds n false false hx h1' rx (triRk_of_valid vb) r e
      rw [hr] at h3; cases h3
  have invk : ∀ {x y : Mat K}, (wlops c.code lin (wops c.code n) m).inv x = .ok y → y.kind = x.kind := by
    intro x y e
    exact (c.lkinds lin n m).inv x y (((wlops_warn (wops_warn n) m).inv x).ok e)
  split at hq
  · cases hq; rcases hr with hr | hr <;> simp [Mat.kind] at hr
  · obtain ⟨x, hx, hq⟩ := bind_ok_iff.1 hq
    have hk := invk hx
    refine mm hk (by decide) ?_ (hs.resolve_right fun h => h.2 (by simp [Mat.kind])) hq
    cases x <;> first | exact True.intro | simp [Mat.kind] at hk
  · obtain ⟨_, hx, hq⟩ := bind_ok_iff.1 hq
    rw [warnIf_ok] at hx
    exact absurd (hs.resolve_right fun h => h.2 (by simp [Mat.kind])) (by rw [hx]; decide)
  · obtain ⟨_, hx, hq⟩ := bind_ok_iff.1 hq
    rw [warnIf_ok] at hx
    exact absurd (hs.resolve_right fun h => h.2 (by simp [Mat.kind])) (by rw [hx]; decide)
  · obtain ⟨x, hx, hq⟩ := bind_ok_iff.1 hq
    have hk := invk hx
    refine mm hk (by decide) ?_ (hs.resolve_right fun h => h.2 (by simp [Mat.kind])) hq
    cases x <;> first | exact True.intro | simp [Mat.kind] at hk
  · obtain ⟨_, hx, hq⟩ := bind_ok_iff.1 hq
    rw [warnIf_ok, Bool.or_eq_false_iff] at hx
    rcases hs with hs | hs
    · rw [hx.2] at hs; cases hs
    · rw [hx.1] at hs; cases hs.1

end Verif
