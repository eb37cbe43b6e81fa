/-
Comparison of runs of the functions of linear algebra (see `Mono.lean`): more fuel never changes an answer,
strict tests give the answer of the code or stop.
-/
import Verif.LinAll

set_option linter.unusedSectionVars false

namespace Verif

variable {K : Type} [Field K] [LinearOrder K] {bad : Err → Prop} {α : Type}

/-- All functions are below. -/
structure LOps.Below (bad : Err → Prop) (L M : LOps K) : Prop where
  inv : ∀ a, Verif.Below bad (L.inv a) (M.inv a)
  pdInv : ∀ a, Verif.Below bad (L.pdInv a) (M.pdInv a)
  chol : ∀ a, Verif.Below bad (L.chol a) (M.chol a)
  solve : ∀ a b, Verif.Below bad (L.solve a b) (M.solve a b)
  cholSolve : ∀ a b, Verif.Below bad (L.cholSolve a b) (M.cholSolve a b)
  logdet : ∀ a, Verif.Below bad (L.logdet a) (M.logdet a)
  root : ∀ a, Verif.Below bad (L.root a) (M.root a)

theorem LOps.Below.refl (L : LOps K) : LOps.Below bad L L :=
  ⟨fun _ => .refl _, fun _ => .refl _, fun _ => .refl _, fun _ _ => .refl _, fun _ _ => .refl _, fun _ => .refl _, fun _ => .refl _⟩

theorem LOps.Below.trans {L M N : LOps K} (h : LOps.Below bad L M) (h' : LOps.Below bad M N) : LOps.Below bad L N :=
  ⟨fun _ => (h.inv _).trans (h'.inv _), fun _ => (h.pdInv _).trans (h'.pdInv _), fun _ => (h.chol _).trans (h'.chol _),
   fun _ _ => (h.solve _ _).trans (h'.solve _ _), fun _ _ => (h.cholSolve _ _).trans (h'.cholSolve _ _), fun _ => (h.logdet _).trans (h'.logdet _),
   fun _ => (h.root _).trans (h'.root _)⟩

variable {B C : Ops K} {L M : LOps K} (env : Env K) (lin : LinEnv K)

theorem subtractM_below (h : Ops.Below bad B C) (a b : Mat K) : Below bad (subtractM env B a b) (subtractM env C a b) := Calls.subtract env a b bad B C h

theorem traceM_below (h : Ops.Below bad B C) (a : Mat K) : Below bad (traceM B a) (traceM C a) := Calls.trace a bad B C h

theorem stepInv_below (h : Ops.Below bad B C) (hL : LOps.Below bad L M) (a : Mat K) : Below bad (stepInv env lin B L a) (stepInv env lin C M a) := by
  have h2 := h.add
  have h3 := h.matmul
  have h5 := matmul3_below h
  have h6 := subtractM_below env h
  have g1 := hL.inv
  cases a <;> simp only [stepInv, invWB, schurM] <;> below

theorem stepPdInv_below (h : Ops.Below bad B C) (hL : LOps.Below bad L M) (a : Mat K) : Below bad (stepPdInv env B L a) (stepPdInv env C M a) := by
  have h1 := h.dense
  have h2 := h.add
  have h3 := h.matmul
  have h5 := matmul3_below h
  have h6 := subtractM_below env h
  have g1 := hL.inv
  have g2 := hL.pdInv
  have g3 := hL.chol
  have g5 := hL.cholSolve
  cases a <;> simp only [stepPdInv, pdInvWB, pdSchurM] <;> below

theorem stepChol_below (h : Ops.Below bad B C) (hL : LOps.Below bad L M) (a : Mat K) : Below bad (stepChol lin B L a) (stepChol lin C M a) := by
  have h1 := h.dense
  have h3 := h.matmul
  have g3 := hL.chol
  cases a <;> simp only [stepChol] <;> below

theorem solveTri_below (h : Ops.Below bad B C) (lower : Bool) (t : Tensor K) (b : Mat K) : Below bad (solveTri lin B lower t b) (solveTri lin C lower t b) := by
  have h1 := h.dense
  unfold solveTri; below

theorem solveDense_below (h : Ops.Below bad B C) (a b : Mat K) : Below bad (solveDense lin B a b) (solveDense lin C a b) := by
  have h1 := h.dense
  unfold solveDense; below

theorem stepSolve_below (h : Ops.Below bad B C) (hL : LOps.Below bad L M) (a b : Mat K) : Below bad (stepSolve env lin B L a b) (stepSolve env lin C M a b) := by
  unfold stepSolve
  split
  · exact .refl _
  · generalize convertAM env a = a'
    generalize convertAM env b = b'
    split
    · exact .refl _
    · exact Below.bind (hL.inv _) fun _ => h.matmul _ _ _ _
    · exact solveTri_below lin h _ _ _
    · exact solveTri_below lin h _ _ _
    · exact Below.bind (hL.inv _) fun _ => h.matmul _ _ _ _
    · exact solveDense_below lin h _ _

theorem cholSolveTri_below (hL : LOps.Below bad L M) (a b : Mat K) : Below bad (cholSolveTri L a b) (cholSolveTri M a b) := by
  have g4 := hL.solve
  unfold cholSolveTri; below

theorem stepCholSolve_below (hL : LOps.Below bad L M) (a b : Mat K) : Below bad (stepCholSolve env lin L a b) (stepCholSolve env lin M a b) := by
  unfold stepCholSolve
  split
  · exact .refl _
  · generalize convertAM env a = a'
    generalize convertAM env b = b'
    split
    · exact cholSolveTri_below hL _ _
    · exact cholSolveTri_below hL _ _
    · exact cholSolveTri_below hL _ _
    · exact Below.bind (hL.cholSolve _ _) fun _ => Below.bind (hL.cholSolve _ _) fun _ => .refl _
    · exact .refl _

theorem stepLogdet_below (h : Ops.Below bad B C) (hL : LOps.Below bad L M) (a : Mat K) : Below bad (stepLogdet lin B L a) (stepLogdet lin C M a) := by
  have h2 := h.add
  have h4 := h.diag
  have h5 := matmul3_below h
  have g1 := hL.inv
  have g2 := hL.pdInv
  have g3 := hL.chol
  have g6 := hL.logdet
  cases a <;> simp only [stepLogdet, logdetTri, pdSchurM] <;> below

theorem stepRoot_below (h : Ops.Below bad B C) (hL : LOps.Below bad L M) (a : Mat K) : Below bad (stepRoot lin B L a) (stepRoot lin C M a) := by
  have h1 := h.dense
  have h5 := matmul3_below h
  have g3 := hL.chol
  have g7 := hL.root
  cases a <;> simp only [stepRoot, rootNum] <;> below

theorem lstep_below (h : Ops.Below bad B C) (hL : LOps.Below bad L M) : LOps.Below bad (lstep env lin B L) (lstep env lin C M) :=
  ⟨stepInv_below env lin h hL, stepPdInv_below env h hL, stepChol_below lin h hL, stepSolve_below env lin h hL, stepCholSolve_below env lin hL,
    stepLogdet_below lin h hL, stepRoot_below lin h hL⟩

theorem lops_below (h : Ops.Below bad B C) (n : ℕ) : LOps.Below bad (lops env lin B n) (lops env lin C n) := by
  induction n with
  | zero => exact .refl _
  | succ n ih => exact lstep_below env lin h ih

theorem lops_below_succ (n : ℕ) : LOps.Below (· = .fuel) (lops env lin B n) (lops env lin B (n+1)) := by
  induction n with
  | zero => exact ⟨fun _ => Below.of_bad (bad := (· = .fuel)) rfl _, fun _ => Below.of_bad (bad := (· = .fuel)) rfl _, fun _ => Below.of_bad (bad := (· = .fuel)) rfl _,
      fun _ _ => Below.of_bad (bad := (· = .fuel)) rfl _, fun _ _ => Below.of_bad (bad := (· = .fuel)) rfl _,
      fun _ => Below.of_bad (bad := (· = .fuel)) rfl _, fun _ => Below.of_bad (bad := (· = .fuel)) rfl _⟩
  | succ n ih => exact lstep_below env lin (.refl _) ih

theorem lops_below_le {n m : ℕ} (h : n ≤ m) : LOps.Below (· = .fuel) (lops env lin B n) (lops env lin B m) := by
  induction m, h using Nat.le_induction with
  | base => exact .refl _
  | succ m _ ih => exact ih.trans (lops_below_succ env lin m)

/-- The call uses the functions of the core and of linear algebra only by calling them. -/
def LCalls (f : Ops K → LOps K → E α) : Prop :=
  ∀ bad (B C : Ops K) (L M : LOps K), Ops.Below bad B C → LOps.Below bad L M → Below bad (f B L) (f C M)

variable {env lin}

theorem LCalls.le {f : Ops K → LOps K → E α} (hf : LCalls f) {env : Env K} {e : Env K} {n n' m m' : ℕ} (hn : n ≤ n') (hm : m ≤ m') :
    Below (· = .fuel) (f (ops e n) (lops env lin (ops e n) m)) (f (ops e n') (lops env lin (ops e n') m')) :=
  hf _ _ _ _ _ (ops_below_le hn) ((lops_below env lin (ops_below_le hn) m).trans (lops_below_le env lin hm))

/-- A call has at most one result. -/
theorem LReturns.unique {c : Cfg K} {f : Ops K → LOps K → E α} {r r' : α} (hf : LCalls f) (h : LReturns c lin f r) (h' : LReturns c lin f r') : r = r' := by
  obtain ⟨m, n, h⟩ := h
  obtain ⟨m', n', h'⟩ := h'
  have h1 := (hf.le (lin := lin) (env := c.code) (e := c.code) (Nat.le_max_left n n') (Nat.le_max_left m m')).ok h
  have h2 := (hf.le (lin := lin) (env := c.code) (e := c.code) (Nat.le_max_right n n') (Nat.le_max_right m m')).ok h'
  rw [h1] at h2
  cases h2; rfl

theorem LReturns.strict {c : Cfg K} {f : Ops K → LOps K → E α} {r : α} (h : LReturns c lin f r) (hx : LExact c lin f) :
    ∃ m n, f (ops c.strict n) (lops c.code lin (ops c.strict n) m) = .ok r := by
  obtain ⟨m, h⟩ := h
  exact ⟨m, h.strict (hx m)⟩

theorem LReturns.of_strict {c : Cfg K} {f : Ops K → LOps K → E α} {r : α} (hf : LCalls f) {n m : ℕ}
    (h : f (ops c.strict n) (lops c.code lin (ops c.strict n) m) = .ok r) : LReturns c lin f r :=
  ⟨m, n, (hf _ _ _ _ _ (ops_below_env (strict_below c.isNumber c.tol) n) (lops_below _ _ (ops_below_env (strict_below c.isNumber c.tol) n) m)).ok h⟩

/-- One strict run that returns is enough. -/
theorem LExact.of_ok {c : Cfg K} {f : Ops K → LOps K → E α} {r : α} (hf : LCalls f) {n m : ℕ}
    (h : f (ops c.strict n) (lops c.code lin (ops c.strict n) m) = .ok r) : LExact c lin f := by
  intro m' n'
  rcases hf _ _ _ _ _ (ops_below_env (strict_below c.isNumber c.tol) n') (lops_below c.code lin (ops_below_env (strict_below c.isNumber c.tol) n') m') with h1 | ⟨_, rfl, hm⟩
  · exact h1
  · have h1 := (hf.le (lin := lin) (env := c.code) (e := c.strict) (Nat.le_max_left n n') (Nat.le_max_left m m')).ok h
    rcases hf.le (lin := lin) (env := c.code) (e := c.strict) (Nat.le_max_right n n') (Nat.le_max_right m m') with h2 | ⟨_, rfl, h2⟩
    · have h3 := h2.symm.trans hm
      erw [h1] at h3; cases h3
    · have h3 := h2.symm.trans hm; cases h3

/-- With tolerance 0 every run is exact. -/
theorem LExact.of_tol [IsStrictOrderedRing K] {c : Cfg K} (h : c.tol ≤ 0) (f : Ops K → LOps K → E α) : LExact c lin f := fun _ => Exact.of_tol h _

theorem LCalls.inv (a : Mat K) : LCalls fun (_ : Ops K) (L : LOps K) => L.inv a := fun _ _ _ _ _ _ h => h.inv a
theorem LCalls.pdInv (a : Mat K) : LCalls fun (_ : Ops K) (L : LOps K) => L.pdInv a := fun _ _ _ _ _ _ h => h.pdInv a
theorem LCalls.chol (a : Mat K) : LCalls fun (_ : Ops K) (L : LOps K) => L.chol a := fun _ _ _ _ _ _ h => h.chol a
theorem LCalls.solve (a b : Mat K) : LCalls fun (_ : Ops K) (L : LOps K) => L.solve a b := fun _ _ _ _ _ _ h => h.solve a b
theorem LCalls.cholSolve (a b : Mat K) : LCalls fun (_ : Ops K) (L : LOps K) => L.cholSolve a b := fun _ _ _ _ _ _ h => h.cholSolve a b
theorem LCalls.logdet (a : Mat K) : LCalls fun (_ : Ops K) (L : LOps K) => L.logdet a := fun _ _ _ _ _ _ h => h.logdet a
theorem LCalls.root (a : Mat K) : LCalls fun (_ : Ops K) (L : LOps K) => L.root a := fun _ _ _ _ _ _ h => h.root a
theorem LCalls.schur (d : Tensor K) (l r m : Mat K) : LCalls fun (B : Ops K) (L : LOps K) => schurM B L d l r m := by
  intro bad B C L M h hL
  have g1 := hL.inv
  have h2 := h.add
  have h5 := matmul3_below h
  unfold schurM; below
theorem LCalls.pdSchur (d : Tensor K) (l r m : Mat K) : LCalls fun (B : Ops K) (L : LOps K) => pdSchurM B L d l r m := by
  intro bad B C L M h hL
  have g1 := hL.inv
  have g2 := hL.pdInv
  have h2 := h.add
  have h5 := matmul3_below h
  unfold pdSchurM; below
theorem matmulDiag_below (h : Ops.Below bad B C) (ta tb : Bool) (a b : Mat K) : Below bad (matmulDiag B ta tb a b) (matmulDiag C ta tb a b) := by
  unfold matmulDiag
  split
  · exact Below.bind (h.matmul _ _ _ _) fun _ => h.diag _
  · exact Below.bind (.refl _) fun _ => Below.bind (.refl _) fun _ => Below.bind (h.mul _ _) fun _ => h.sumM _ _
theorem Calls.matmulDiag (ta tb : Bool) (a b : Mat K) : Calls fun B : Ops K => matmulDiag B ta tb a b := fun _ _ _ h => matmulDiag_below h ta tb a b
theorem LCalls.iqf (same : Bool) (a b c : Mat K) : LCalls fun (B : Ops K) (L : LOps K) => iqfM B L same a b c := by
  intro bad B C L M h hL
  unfold iqfM
  split
  · exact Below.bind (hL.pdInv _) fun _ => matmul3_below h _ _ _ _ _ _
  · exact Below.bind (hL.chol _) fun _ => Below.bind (hL.solve _ _) fun _ => Below.ite (h.matmul _ _ _ _) (Below.bind (hL.solve _ _) fun _ => h.matmul _ _ _ _)
theorem LCalls.iqfDiag (same : Bool) (a b c : Mat K) : LCalls fun (B : Ops K) (L : LOps K) => iqfDiagM B L same a b c := by
  intro bad B C L M h hL
  unfold iqfDiagM
  split
  · exact Below.bind (hL.pdInv _) fun _ => Below.bind (h.matmul _ _ _ _) fun _ => matmulDiag_below h _ _ _ _
  · exact Below.bind (hL.chol _) fun _ => Below.bind (hL.solve _ _) fun _ => Below.ite (matmulDiag_below h _ _ _ _) (Below.bind (hL.solve _ _) fun _ => matmulDiag_below h _ _ _ _)
theorem LCalls.ratio (a b : Mat K) : LCalls fun (B : Ops K) (L : LOps K) => ratioM B L a b := by
  intro bad B C L M h hL
  have ht : ∀ x y : Mat K, Below bad (B.matmul false false x y >>= traceM B) (C.matmul false false x y >>= traceM C) := fun x y =>
    Below.bind (h.matmul _ _ _ _) fun _ => traceM_below h _
  unfold ratioM
  split
  · refine Below.bind (hL.pdInv _) fun _ => Below.bind (.refl _) fun _ => ?_
    refine Below.bind (h.matmul _ _ _ _) fun _ => Below.bind (traceM_below h _) fun _ => ?_
    refine Below.bind (h.matmul _ _ _ _) fun _ => Below.bind (traceM_below h _) fun _ => ?_
    exact Below.bind (h.matmul _ _ _ _) fun _ => Below.bind (traceM_below h _) fun _ => .refl _
  · refine Below.bind (hL.pdInv _) fun _ => Below.bind (.refl _) fun _ => ?_
    refine Below.bind (h.matmul _ _ _ _) fun _ => Below.bind (traceM_below h _) fun _ => ?_
    exact Below.bind (h.matmul _ _ _ _) fun _ => Below.bind (traceM_below h _) fun _ => .refl _
  · exact Below.bind (hL.chol _) fun _ => Below.bind (LCalls.iqfDiag _ _ _ _ _ _ _ _ _ h hL) fun _ => .refl _
theorem LCalls.sample {σ : Type} (randn : σ → Shp → σ × Tensor K) (num : ℕ) (st : σ) (a : Mat K) : LCalls fun (B : Ops K) (L : LOps K) => sampleM B L randn num st a := by
  intro bad B C L M h hL
  unfold sampleM
  have one : ∀ (st : σ) (a : Mat K), Below bad
      (do let ch ← L.chol a
          let bt ← shapeBatch a
          let k := dim (← shape ch) 0
          let x := randn st (num :: k :: bt)
          let s ← B.matmul false false ch (.num x.2)
          (pure (x.1, s) : E (σ × Mat K)))
      (do let ch ← M.chol a
          let bt ← shapeBatch a
          let k := dim (← shape ch) 0
          let x := randn st (num :: k :: bt)
          let s ← C.matmul false false ch (.num x.2)
          (pure (x.1, s) : E (σ × Mat K))) := fun st a =>
    Below.bind (hL.chol _) fun _ => Below.bind (.refl _) fun _ => Below.bind (.refl _) fun _ => Below.bind (h.matmul _ _ _ _) fun _ => .refl _
  split
  · exact Below.bind (one _ _) fun _ => Below.bind (one _ _) fun _ => Below.bind (h.add _ _) fun _ => .refl _
  · exact one _ _

end Verif
