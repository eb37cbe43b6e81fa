/-
Termination.
-/
import Verif.TermDone
import Verif.Props03

set_option linter.unusedSectionVars false

namespace Verif

variable {K : Type} [Field K] [LinearOrder K] {α : Type}

/-- The call finishes: it returns a value or raises an exception, at some finite depth of the recursion; `RecursionError` is not among the outcomes. -/
def Finishes (c : Cfg K) (f : Ops K → E α) : Prop := (∃ r, Returns c f r) ∨ ∃ e, Raises c f e

theorem Done.finishes {c : Cfg K} {f : Ops K → E α} (h : Done fun n => f (ops c.code n)) : Finishes c f := by
  obtain ⟨n, v, hv, h⟩ := h
  have := h n le_rfl
  cases v with
  | ok r => exact .inl ⟨r, n, this⟩
  | error e => exact .inr ⟨e, hv.real e rfl, n, this⟩

/-- A call that finishes has one outcome only, however deep it is allowed to recurse. -/
theorem Done.of {env : Env K} (he : env.NF) :
    (∀ a : Mat K, Done fun n => (ops env n).dense a) ∧ (∀ a : Mat K, Done fun n => (ops env n).diag a) ∧
    (∀ k (a : Mat K), Done fun n => (ops env n).sumM k a) ∧ (∀ a b : Mat K, Done fun n => (ops env n).add a b) ∧
    (∀ a b : Mat K, Done fun n => (ops env n).mul a b) ∧ (∀ ta tb (a b : Mat K), Done fun n => (ops env n).matmul ta tb a b) :=
  ⟨fun a => (allDone he _).dense a (Nat.lt_succ_self _), fun a => (allDone he _).diag a (Nat.lt_succ_self _),
    fun k a => (allDone he _).sumM k a (Nat.lt_succ_self _), fun a b => (allDone he _).add a b (Nat.lt_succ_self _),
    fun a b => (allDone he _).mul a b (Nat.lt_succ_self _), fun ta tb a b => (allDone he _).matmul ta tb a b (Nat.lt_succ_self _)⟩

/-- C35.  Addition of any two matrices (well formed or not, of any nesting) finishes. -/
theorem C35_add (c : Cfg K) (a b : Mat K) : Finishes c fun B => B.add a b :=
  Done.finishes ((Done.of (codeEnv_nf _ _)).2.2.2.1 a b)
/-- C35.  Element-wise multiplication finishes. -/
theorem C35_multiply (c : Cfg K) (a b : Mat K) : Finishes c fun B => B.mul a b :=
  Done.finishes ((Done.of (codeEnv_nf _ _)).2.2.2.2.1 a b)
/-- C35.  Matrix multiplication finishes, for all transposition flags. -/
theorem C35_matmul (c : Cfg K) (ta tb : Bool) (a b : Mat K) : Finishes c fun B => B.matmul ta tb a b :=
  Done.finishes ((Done.of (codeEnv_nf _ _)).2.2.2.2.2 ta tb a b)
/-- C35.  `B.dense` finishes. -/
theorem C35_dense (c : Cfg K) (a : Mat K) : Finishes c fun B => B.dense a := Done.finishes ((Done.of (codeEnv_nf _ _)).1 a)
/-- C35.  `B.diag` finishes. -/
theorem C35_diag (c : Cfg K) (a : Mat K) : Finishes c fun B => B.diag a := Done.finishes ((Done.of (codeEnv_nf _ _)).2.1 a)
/-- C35.  `B.sum` over a matrix axis finishes. -/
theorem C35_sum (c : Cfg K) (k : ℕ) (a : Mat K) : Finishes c fun B => B.sumM k a := Done.finishes ((Done.of (codeEnv_nf _ _)).2.2.1 k a)

/- The theorems have no hypotheses.  A call that needs several levels of recursion does not finish at a smaller depth: -/
example : Ex.isOk ((ops Ex.cfg.code 2).mul Ex.W Ex.W) = false ∧ ∃ r, Returns Ex.cfg (fun B => B.mul Ex.W Ex.W) r :=
  ⟨by decide +kernel, (Ex.meets (Calls.mul _ _) (n := 10) (by decide +kernel)).elim fun r h => ⟨r, h.1⟩⟩

end Verif
