/-
Multiple dispatch of the other functions of two matrices: `ops/solve.py`, `ops/cholesky_solve.py`, `ops/kron.py`, `ops/divide.py`, `ops/subtract.py`, `ops/ratio.py`,
`ops/matmul_diag.py` (C31).  For every pair of classes plum's resolution selects one method, or none; the model runs that one.
-/
import Verif.Dispatch
import Verif.Kron
import Verif.LinCore

set_option linter.unusedSectionVars false

namespace Verif

variable {K : Type} [Field K] [LinearOrder K]

/-! ### The registered methods -/

/-- The methods of `B.solve`. -/
inductive SolveM | amZero | amAm | diagAm | ltAm | utAm | wbAm
  deriving DecidableEq, Repr
/-- The methods of `B.cholesky_solve`; the first is registered for a union of three classes. -/
inductive CholSolveM | triAm | kronKron
  deriving DecidableEq, Repr
/-- The methods of `B.kron`. -/
inductive KronM | amZero | zeroAm | amAm | constConst
  deriving DecidableEq, Repr
/-- The methods of `B.divide`. -/
inductive DivM | amAm | amConst
  deriving DecidableEq, Repr
/-- The methods of `B.ratio`. -/
inductive RatioM | any | anyWb | wbWb
  deriving DecidableEq, Repr
/-- The methods of `B.matmul_diag`. -/
inductive MdM | any | lrLr
  deriving DecidableEq, Repr

open Reg in
/-- `ops/solve.py`, in order; `p` is the precedence generated by `proven()`. -/
def solveRegs (p : ℕ) : List (Reg SolveM) := [
  def' .am (.cls .zero) p .amZero,  -- 16
  def' .am .am 0 .amAm,  -- 21
  def' (.cls .diag) .am 0 .diagAm,  -- 31
  def' (.cls .lt) .am 0 .ltAm,  -- 36
  def' (.cls .ut) .am 0 .utAm,  -- 46
  def' (.cls .wb) .am 0 .wbAm]  -- 56

open Reg in
/-- `ops/cholesky_solve.py`, in order; a union in a signature is one method per class. -/
def cholSolveRegs : List (Reg CholSolveM) := [
  def' (.cls .diag) .am 0 .triAm,  -- 13
  def' (.cls .lt) .am 0 .triAm,  -- 13
  def' (.cls .ut) .am 0 .triAm,  -- 13
  def' (.cls .kron) (.cls .kron) 0 .kronKron]  -- 21

open Reg in
/-- `ops/kron.py`, in order; `p q` are the precedences generated by the two calls of `proven()`. -/
def kronRegs (p q : ℕ) : List (Reg KronM) := [
  def' .am (.cls .zero) p .amZero,  -- 20
  def' (.cls .zero) .am q .zeroAm,  -- 25
  def' .am .am 0 .amAm,  -- 33
  def' (.cls .const) (.cls .const) 0 .constConst]  -- 41

open Reg in
/-- `ops/divide.py`, in order. -/
def divRegs : List (Reg DivM) := [
  def' .am .am 0 .amAm,  -- 11
  def' .am (.cls .const) 0 .amConst]  -- 20

open Reg in
/-- `ops/ratio.py`, in order; a parameter without annotation accepts everything. -/
def ratioRegs : List (Reg RatioM) := [
  def' .am .am 0 .any,  -- 8
  def' .am (.cls .wb) 0 .anyWb,  -- 23
  def' (.cls .wb) (.cls .wb) 0 .wbWb]  -- 30

open Reg in
/-- `ops/matmul_diag.py`, in order. -/
def mdRegs : List (Reg MdM) := [
  def' .am .am 0 .any,  -- 9
  def' (.cls .lr) (.cls .lr) 0 .lrLr]  -- 30

/-! ### The bodies of the methods -/

section
variable (env : Env K) (lin : LinEnv K) (B : Ops K) (L : LOps K)

/-- The bodies in `ops/solve.py`; a method called with operands outside its signature is an AttributeError. -/
def solveRun (m : SolveM) (a b : Mat K) : E (Mat K) :=
  match m, a, b with
  | .amZero, _, b => .ok b  -- 18
  | .amAm, a, b => solveDense lin B a b  -- 27-28
  | .diagAm, a, b => do B.matmul false false (← L.inv a) b  -- 33
  | .ltAm, .lt t, b => solveTri lin B true t b  -- 42-43
  | .utAm, .ut t, b => solveTri lin B false t b  -- 52-53
  | .wbAm, a, b => do B.matmul false false (← L.inv a) b  -- 59
  | _, _, _ => .error .attribute

/-- The bodies in `ops/cholesky_solve.py`. -/
def cholSolveRun (m : CholSolveM) (a b : Mat K) : E (Mat K) :=
  match m, a, b with
  | .triAm, a, b => do
    let x ← L.solve a b
    L.solve (← transposeM a) x  -- 18
  | .kronKron, .kron l r, .kron l' r' => do return .kron (← L.cholSolve l l') (← L.cholSolve r r')  -- 23-26
  | _, _, _ => .error .attribute

/-- The bodies in `ops/divide.py`. -/
def divRun (m : DivM) (a b : Mat K) : E (Mat K) :=
  match m, a, b with
  | .amAm, a, b => do return mkDense (← nDiv (← B.dense a) (← B.dense b))  -- 17
  | .amConst, a, .const t r c => divideConst B a t r c  -- 22
  | _, _, _ => .error .attribute

/-- The bodies in `ops/kron.py`; the second calls `kron` again with the operands exchanged. -/
def kronRun (rec : Mat K → Mat K → E (Mat K)) (m : KronM) (a b : Mat K) : E (Mat K) :=
  match m, a, b with
  | .amZero, a, b => kronZero a b  -- 22
  | .zeroAm, a, b => rec b a  -- 27
  | .amAm, a, b => .ok (.kron a b)  -- 35
  | .constConst, .const s r c, .const t r' c' => do mkConst (← nMul s t) [c * c', r * r']  -- 43
  | _, _, _ => .error .attribute

/-- `B.kron` of two matrices by dispatch on the registered methods, with at most `n` nested calls. -/
def kronDisp (p q : ℕ) : ℕ → Mat K → Mat K → E (Mat K)
  | 0, _, _ => .error .fuel
  | n+1, a, b => do
    match a.kind, b.kind with
    | some k, some k' => kronRun (kronDisp p q n) (← resolve (table (kronRegs p q)) (.cls k) (.cls k')) a b
    | _, _ => .error .notFound

end

/-! ### C31 -/

/-- The method of `B.solve` for a matrix and a right-hand side of the given classes. -/
def solveId : Kind → Kind → SolveM
  | _, .zero => .amZero
  | .diag, _ => .diagAm
  | .lt, _ => .ltAm
  | .ut, _ => .utAm
  | .wb, _ => .wbAm
  | _, _ => .amAm

/-- C31 for `B.solve`: for every pair of classes exactly one method is called, whatever the precedence `proven()` generates, and its body is what the model runs. -/
theorem C31_solve {p : ℕ} (hp : 0 < p) (env : Env K) (lin : LinEnv K) (B : Ops K) (L : LOps K) {a b : Mat K} {k k' : Kind} (ha : a.kind = some k) (hb : b.kind = some k') :
    ∃ m, resolve (table (solveRegs p)) (.cls k) (.cls k') = .ok m ∧ stepSolve env lin B L a b = solveRun lin B L m a b := by
  refine ⟨solveId k k', ?_, ?_⟩
  · rw [resolve_regs (fun p _ => solveRegs p) (fun f p q h => by simp [solveRegs, Reg.mapP, h]) hp (Nat.succ_pos p) (Nat.ne_of_lt (Nat.lt_succ_self p))]
    rw [if_neg (by omega)]
    have h1 : ∀ a ∈ Kind.all, ∀ b ∈ Kind.all, resolve (table (solveRegs 1)) (.cls a) (.cls b) = .ok (solveId a b) := by decide +kernel
    exact h1 k k.mem_all k' k'.mem_all
  · cases a <;> simp only [Mat.kind, Option.some.injEq, reduceCtorEq] at ha <;> subst ha <;>
      cases b <;> simp only [Mat.kind, Option.some.injEq, reduceCtorEq] at hb <;> subst hb <;> rfl

/-- C31 for `B.cholesky_solve`: at most one method; without one NotFoundLookupError is raised. -/
theorem C31_cholesky_solve (env : Env K) (lin : LinEnv K) (L : LOps K) {a b : Mat K} {k k' : Kind} (ha : a.kind = some k) (hb : b.kind = some k') :
    (∃ m, resolve (table cholSolveRegs) (.cls k) (.cls k') = .ok m ∧ stepCholSolve env lin L a b = cholSolveRun L m a b) ∨
      resolve (table cholSolveRegs) (.cls k) (.cls k') = .error .notFound ∧ stepCholSolve env lin L a b = .error .notFound := by
  cases a <;> simp only [Mat.kind, Option.some.injEq, reduceCtorEq] at ha <;> subst ha <;>
    cases b <;> simp only [Mat.kind, Option.some.injEq, reduceCtorEq] at hb <;> subst hb <;>
    first
    | exact .inr ⟨by decide +kernel, rfl⟩
    | exact .inl ⟨.triAm, by decide +kernel, rfl⟩
    | exact .inl ⟨.kronKron, by decide +kernel, rfl⟩

/-- C31 for `B.divide`. -/
theorem C31_divide (env : Env K) (B : Ops K) {a b : Mat K} {k k' : Kind} (ha : a.kind = some k) (hb : b.kind = some k') :
    ∃ m, resolve (table divRegs) (.cls k) (.cls k') = .ok m ∧ divideM env B a b = divRun B m a b := by
  cases a <;> simp only [Mat.kind, Option.some.injEq, reduceCtorEq] at ha <;> subst ha <;>
    cases b <;> simp only [Mat.kind, Option.some.injEq, reduceCtorEq] at hb <;> subst hb <;>
    first
    | exact ⟨.amAm, by decide +kernel, rfl⟩
    | exact ⟨.amConst, by decide +kernel, rfl⟩

/-- The method of `B.kron`. -/
def kronId : Kind → Kind → KronM
  | _, .zero => .amZero
  | .zero, _ => .zeroAm
  | .const, .const => .constConst
  | _, _ => .amAm

theorem resolve_kron {p q : ℕ} (hp : 0 < p) (hq : 0 < q) (hpq : p ≠ q) (k k' : Kind) :
    resolve (table (kronRegs p q)) (.cls k) (.cls k') = .ok (if k = .zero ∧ k' = .zero then zz p q .amZero .zeroAm else kronId k k') := by
  rw [resolve_regs kronRegs (fun f p q h => by simp [kronRegs, Reg.mapP, h]) hp hq hpq]
  have h1 : ∀ a ∈ Kind.all, ∀ b ∈ Kind.all, resolve (table (kronRegs 2 1)) (.cls a) (.cls b) =
    .ok (if a = .zero ∧ b = .zero then .amZero else kronId a b) := by decide +kernel
  have h2 : ∀ a ∈ Kind.all, ∀ b ∈ Kind.all, resolve (table (kronRegs 1 2)) (.cls a) (.cls b) =
    .ok (if a = .zero ∧ b = .zero then .zeroAm else kronId a b) := by decide +kernel
  rw [h1 k k.mem_all k' k'.mem_all, h2 k k.mem_all k' k'.mem_all, zz]
  split_ifs <;> rfl

/-- C31 for `B.kron`: exactly one method is called, and unless both operands are Zero dispatch gives what the model computes (with two nested calls). -/
theorem C31_kron {p q : ℕ} (hp : 0 < p) (hq : 0 < q) (hpq : p ≠ q) (env : Env K) {a b : Mat K} {k k' : Kind} (ha : a.kind = some k) (hb : b.kind = some k')
    (hz : ¬ (k = .zero ∧ k' = .zero)) (n : ℕ) : kronDisp p q (n+2) a b = kronM env a b := by
  have key : ∀ {n : ℕ} {a b : Mat K} {k k' : Kind}, a.kind = some k → b.kind = some k' → ¬ (k = .zero ∧ k' = .zero) →
      kronDisp p q (n+1) a b = kronRun (kronDisp p q n) (kronId k k') a b := by
    intro n a b k k' ha hb hz
    show (match a.kind, b.kind with
      | some k, some k' => resolve (table (kronRegs p q)) (.cls k) (.cls k') >>= fun m => kronRun (kronDisp p q n) m a b
      | _, _ => .error .notFound) = _
    rw [ha, hb]
    simp only [resolve_kron hp hq hpq, if_neg hz]
    rfl
  rw [key ha hb hz]
  cases a <;> simp only [Mat.kind, Option.some.injEq, reduceCtorEq] at ha <;> subst ha <;>
    cases b <;> simp only [Mat.kind, Option.some.injEq, reduceCtorEq] at hb <;> subst hb <;>
    first
    | exact absurd ⟨rfl, rfl⟩ hz
    | rfl

/-- C31 for `B.kron` of two Zero matrices: if the method registered first has the higher precedence, the result is the one of the model; if the method registered second
has, it calls itself with the operands exchanged and never returns. -/
theorem C31_kron_zero {p q : ℕ} (hp : 0 < p) (hq : 0 < q) (hpq : p ≠ q) (env : Env K) (s t : Shp) (r c r' c' n : ℕ) :
    (q < p → kronDisp p q (n+1) (.zero s r c : Mat K) (.zero t r' c') = kronM env (.zero s r c) (.zero t r' c')) ∧
      (p < q → kronDisp p q n (.zero s r c : Mat K) (.zero t r' c') = .error .fuel) := by
  have key : ∀ (n : ℕ) (s t : Shp) (r c r' c' : ℕ), kronDisp p q (n+1) (.zero s r c : Mat K) (.zero t r' c') =
      kronRun (kronDisp p q n) (zz p q .amZero .zeroAm) (.zero s r c) (.zero t r' c') := by
    intro n s t r c r' c'
    show (resolve (table (kronRegs p q)) (.cls .zero) (.cls .zero) >>= fun m => kronRun (kronDisp p q n) m (.zero s r c : Mat K) (.zero t r' c')) = _
    rw [resolve_kron hp hq hpq, if_pos ⟨rfl, rfl⟩]
    rfl
  constructor
  · intro h
    rw [key, zz, if_pos h]
    rfl
  · intro h
    induction n generalizing s t r c r' c' with
    | zero => rfl
    | succ n ih =>
      rw [key, zz, if_neg (by omega)]
      exact ih _ _ _ _ _ _

example : kronDisp 1 2 5 (.zero [] 2 3 : Mat ℚ) (.zero [] 1 2) = .error .fuel := (C31_kron_zero (by decide) (by decide) (by decide) (codeEnv (fun _ => true) 0) [] [] 2 3 1 2 5).2 (by decide)

/-- C31 for `B.ratio` and `B.matmul_diag`: the most specific method exists for every pair of classes; the general one is called exactly where the model's last case applies. -/
theorem C31_ratio (k k' : Kind) : resolve (table ratioRegs) (.cls k) (.cls k') = .ok (if k' = .wb then (if k = .wb then .wbWb else .anyWb) else .any) ∧
    resolve (table mdRegs) (.cls k) (.cls k') = .ok (if k = .lr ∧ k' = .lr then .lrLr else .any) := by
  have h1 : ∀ a ∈ Kind.all, ∀ b ∈ Kind.all, resolve (table ratioRegs) (.cls a) (.cls b) = .ok (if b = .wb then (if a = .wb then .wbWb else .anyWb) else .any) := by decide +kernel
  have h2 : ∀ a ∈ Kind.all, ∀ b ∈ Kind.all, resolve (table mdRegs) (.cls a) (.cls b) = .ok (if a = .lr ∧ b = .lr then .lrLr else .any) := by decide +kernel
  exact ⟨h1 k k.mem_all k' k'.mem_all, h2 k k.mem_all k' k'.mem_all⟩

end Verif
