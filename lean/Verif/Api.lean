/-
The interface of the properties: what it means that a call returns, and that a run is exact.
-/
import Verif.Envs

set_option linter.unusedSectionVars false

namespace Verif

variable {K : Type} [Field K] [LinearOrder K] {α : Type}

/-- What the library is run with: which rank-0 values are Python numbers, and the tolerance (1e-10 in the code). -/
structure Cfg (K : Type) [Zero K] where
  isNumber : Tensor K → Bool
  tol : K

/-- The environment of the code. -/
def Cfg.code (c : Cfg K) : Env K := codeEnv c.isNumber c.tol
/-- The same, stopping when a tolerance test merges unequal columns or drops a non-zero matrix. -/
def Cfg.strict (c : Cfg K) : Env K := strictEnv c.isNumber c.tol

/-- The call `f` (written against the functions `B.*`) returns `r`. -/
def Returns (c : Cfg K) (f : Ops K → E α) (r : α) : Prop := ∃ n, f (ops c.code n) = .ok r

/-- The call `f` raises the Python exception `e`. -/
def Raises (c : Cfg K) (f : Ops K → E α) (e : Err) : Prop := e.real ∧ ∃ n, f (ops c.code n) = .error e

/-- The tolerance tests inside the call are right: the run is the same when it would stop as soon as an addition of LowRank matrices merges
columns that are unequal in some batch element or drops a matrix that is not zero.
Only runs that add LowRank matrices can violate this (`C33`). -/
def Exact (c : Cfg K) (f : Ops K → E α) : Prop := ∀ n, f (ops c.strict n) = f (ops c.code n)

/-- The call uses the functions `B.*` only by calling them. -/
def Calls (f : Ops K → E α) : Prop := ∀ bad (B C : Ops K), Ops.Below bad B C → Below bad (f B) (f C)

/-- Broadcasting is possible between all the batch shapes involved. -/
def BatchCompat (a b : Mat K) : Prop := Compat (den a).bt (den b).bt

theorem Returns.strict {c : Cfg K} {f : Ops K → E α} {r : α} (h : Returns c f r) (hx : Exact c f) :
    ∃ n, f (ops c.strict n) = .ok r := by
  obtain ⟨n, h⟩ := h
  exact ⟨n, (hx n).trans h⟩

/-- A call has at most one result. -/
theorem Returns.unique {c : Cfg K} {f : Ops K → E α} {r r' : α} (hf : Calls f) (h : Returns c f r) (h' : Returns c f r') : r = r' := by
  obtain ⟨n, h⟩ := h
  obtain ⟨m, h'⟩ := h'
  have h1 := (hf _ _ _ (ops_below_le (e := c.code) (Nat.le_max_left n m))).ok h
  have h2 := (hf _ _ _ (ops_below_le (e := c.code) (Nat.le_max_right n m))).ok h'
  rw [h1] at h2
  cases h2; rfl

/-- A call that returns does not raise. -/
theorem Returns.not_raises {c : Cfg K} {f : Ops K → E α} {r : α} {e : Err} (hf : Calls f) (h : Returns c f r) : ¬ Raises c f e := by
  rintro ⟨he, m, h'⟩
  obtain ⟨n, h⟩ := h
  have h1 := (hf _ _ _ (ops_below_le (e := c.code) (Nat.le_max_left n m))).ok h
  rcases hf _ _ _ (ops_below_le (e := c.code) (Nat.le_max_right n m)) with h2 | ⟨_, rfl, h2⟩
  · rw [← h2, h'] at h1; cases h1
  · rw [h'] at h2; cases h2; exact he.1 rfl

/-- One strict run that returns is enough. -/
theorem Exact.of_ok {c : Cfg K} {f : Ops K → E α} {r : α} (hf : Calls f) {n : ℕ} (h : f (ops c.strict n) = .ok r) : Exact c f := by
  intro m
  rcases hf _ _ _ (ops_below_env (strict_below c.isNumber c.tol) m) with h1 | ⟨_, rfl, hm⟩
  · exact h1
  · have h1 := (hf _ _ _ (ops_below_le (e := c.strict) (Nat.le_max_left n m))).ok h
    rcases hf _ _ _ (ops_below_le (e := c.strict) (Nat.le_max_right n m)) with h2 | ⟨_, rfl, h2⟩
    · have h3 := h2.symm.trans hm
      erw [h1] at h3; cases h3
    · have h3 := h2.symm.trans hm; cases h3

/-- A run with the strict tests is a run of the code. -/
theorem Returns.of_strict {c : Cfg K} {f : Ops K → E α} {r : α} (hf : Calls f) {n : ℕ} (h : f (ops c.strict n) = .ok r) : Returns c f r :=
  ⟨n, (hf _ _ _ (ops_below_env (strict_below c.isNumber c.tol) n)).ok h⟩

theorem Cfg.ok (c : Cfg K) (n : ℕ) : (ops c.strict n).Ok := ops_ok (strictEnv_lawful _ _) n

theorem Calls.dense (a : Mat K) : Calls fun B : Ops K => B.dense a := fun _ _ _ h => h.dense a
theorem Calls.add (a b : Mat K) : Calls fun B : Ops K => B.add a b := fun _ _ _ h => h.add a b
theorem Calls.mul (a b : Mat K) : Calls fun B : Ops K => B.mul a b := fun _ _ _ h => h.mul a b
theorem Calls.matmul (ta tb : Bool) (a b : Mat K) : Calls fun B : Ops K => B.matmul ta tb a b := fun _ _ _ h => h.matmul ta tb a b
theorem Calls.diag (a : Mat K) : Calls fun B : Ops K => B.diag a := fun _ _ _ h => h.diag a
theorem Calls.sumM (k : ℕ) (a : Mat K) : Calls fun B : Ops K => B.sumM k a := fun _ _ _ h => h.sumM k a
theorem Calls.bind {β : Type} {f : Ops K → E α} {g : α → Ops K → E β} (hf : Calls f) (hg : ∀ x, Calls (g x)) :
    Calls fun B => f B >>= fun x => g x B := fun bad B C h => (hf bad B C h).bind fun x => hg x bad B C h
theorem Calls.const (x : E α) : Calls fun _ : Ops K => x := fun _ _ _ _ => .refl _

/-- Matrices that are well formed on their own, with compatible batch shapes, are well formed in the common batch shape. -/
theorem Mat.Valid.common {a b : Mat K} (ha : a.Valid) (hb : b.Valid) (h : BatchCompat a b) :
    a.WF (bsh (den a).bt (den b).bt) ∧ b.WF (bsh (den a).bt (den b).bt) := by
  obtain ⟨S, ha⟩ := ha
  obtain ⟨T, hb⟩ := hb
  exact ⟨ha.mono h.fits_left, hb.mono h.fits_right⟩

theorem Mat.Valid.own {a : Mat K} (ha : a.Valid) : a.WF (den a).bt := by
  obtain ⟨S, ha⟩ := ha
  exact ha.mono (Fits.refl _)

theorem Mat.WF.valid {a : Mat K} {S : Shp} (h : a.WF S) : a.Valid := ⟨S, h⟩

theorem Mat.WF.batchCompat {a b : Mat K} {S : Shp} (ha : a.WF S) (hb : b.WF S) : BatchCompat a b := ha.fits.compat hb.fits

/-- With tolerance 0 every run is exact. -/
theorem Exact.of_tol [IsStrictOrderedRing K] {c : Cfg K} (h : c.tol ≤ 0) (f : Ops K → E α) : Exact c f := by
  intro n
  rw [Cfg.strict, Cfg.code, strict_eq_code c.isNumber h]

end Verif
