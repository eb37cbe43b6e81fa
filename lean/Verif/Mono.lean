/-
Comparison of runs.  `x ⊑ y` (for a set of "bad" errors): either the two runs give the same result, or the first stops with a bad error.
The core is monotone in the functions it calls and in the environment, so
* more fuel never changes an answer (bad = out of fuel);
* a run with strict comparisons gives the answer of the code, or stops with the ghost error `inexact`.
-/
import Verif.OpsRest

set_option linter.unusedSectionVars false

namespace Verif

/-- The runs agree, or the first stops with a bad error. -/
def Below {α : Type} (bad : Err → Prop) (x y : E α) : Prop := x = y ∨ ∃ e, bad e ∧ x = .error e

variable {bad : Err → Prop} {α β : Type}

theorem Below.refl (x : E α) : Below bad x x := Or.inl rfl
theorem Below.of_eq {x y : E α} (h : x = y) : Below bad x y := Or.inl h
theorem Below.of_bad {e : Err} (h : bad e) (y : E α) : Below bad (.error e) y := Or.inr ⟨e, h, rfl⟩
theorem Below.trans {x y z : E α} (h : Below bad x y) (h' : Below bad y z) : Below bad x z := by
  rcases h with rfl | h
  · exact h'
  · exact Or.inr h
theorem Below.ok {x y : E α} {r : α} (h : Below bad x y) (hx : x = .ok r) : y = .ok r := by
  rcases h with rfl | ⟨e, _, he⟩
  · exact hx
  · rw [hx] at he; cases he
theorem Below.bind {x y : E α} {f g : α → E β} (h : Below bad x y) (hf : ∀ a, Below bad (f a) (g a)) :
    Below bad (x >>= f) (y >>= g) := by
  rcases h with rfl | ⟨e, he, rfl⟩
  · cases x with
    | error e => exact Below.refl _
    | ok a => exact hf a
  · exact Or.inr ⟨e, he, rfl⟩
theorem Below.ite {c : Prop} [Decidable c] {x y x' y' : E α} (h : Below bad x x') (h' : Below bad y y') :
    Below bad (if c then x else y) (if c then x' else y') := by
  split_ifs
  exacts [h, h']
theorem Below.seqFin {n : ℕ} {f g : Fin n → E α} (h : ∀ i, Below bad (f i) (g i)) : Below bad (seqFin f) (seqFin g) := by
  induction n with
  | zero => exact Below.refl _
  | succ n ih =>
    exact (h 0).bind fun x => (ih fun i => h i.succ).bind fun _ => Below.refl _

variable {K : Type} [Field K] [LinearOrder K]

/-- All functions are below. -/
structure Ops.Below (bad : Err → Prop) (B C : Ops K) : Prop where
  dense : ∀ a, Verif.Below bad (B.dense a) (C.dense a)
  add : ∀ a b, Verif.Below bad (B.add a b) (C.add a b)
  mul : ∀ a b, Verif.Below bad (B.mul a b) (C.mul a b)
  matmul : ∀ ta tb a b, Verif.Below bad (B.matmul ta tb a b) (C.matmul ta tb a b)
  diag : ∀ a, Verif.Below bad (B.diag a) (C.diag a)
  sumM : ∀ k a, Verif.Below bad (B.sumM k a) (C.sumM k a)

theorem Ops.Below.refl (B : Ops K) : Ops.Below bad B B :=
  ⟨fun _ => .refl _, fun _ _ => .refl _, fun _ _ => .refl _, fun _ _ _ _ => .refl _, fun _ => .refl _, fun _ _ => .refl _⟩

theorem Ops.Below.trans {B C D : Ops K} (h : Ops.Below bad B C) (h' : Ops.Below bad C D) : Ops.Below bad B D :=
  ⟨fun _ => (h.dense _).trans (h'.dense _), fun _ _ => (h.add _ _).trans (h'.add _ _), fun _ _ => (h.mul _ _).trans (h'.mul _ _),
   fun _ _ _ _ => (h.matmul _ _ _ _).trans (h'.matmul _ _ _ _), fun _ => (h.diag _).trans (h'.diag _), fun _ _ => (h.sumM _ _).trans (h'.sumM _ _)⟩

/-- The environments agree on what is a number and on sorting, and the tests are below. -/
structure Env.Below (bad : Err → Prop) (e f : Env K) : Prop where
  isNumber : e.isNumber = f.isNumber
  argsort : e.argsort = f.argsort
  colEq : ∀ a b i j, Verif.Below bad (e.colEq a b i j) (f.colEq a b i j)
  isZero : ∀ t, Verif.Below bad (e.isZero t) (f.isZero t)

theorem Env.Below.refl (e : Env K) : Env.Below bad e e := ⟨rfl, rfl, fun _ _ _ _ => .refl _, fun _ => .refl _⟩

/-- Closes goals comparing two runs of the same program text. -/
macro "below" : tactic => `(tactic|
  repeat' first
    | with_reducible exact Below.refl _
    | apply_assumption
    | refine Below.bind ?_ fun _ => ?_
    | refine Below.seqFin fun _ => ?_
    | refine Below.ite ?_ ?_
    | split)

variable {B C : Ops K} {e f : Env K}

theorem alignLoop_below {eq eq' : ℕ → ℕ → E Bool} (h : ∀ i j, Below bad (eq i j) (eq' i j)) (na nb : ℕ → K) :
    ∀ as bs, Below bad (alignLoop eq na nb as bs) (alignLoop eq' na nb as bs)
  | i :: as, j :: bs => by
    rw [alignLoop, alignLoop]
    refine (h i j).bind fun c => ?_
    refine Below.ite ?_ (Below.ite ?_ ?_)
    · exact (alignLoop_below h na nb as bs).bind fun _ => Below.refl _
    · exact (alignLoop_below h na nb as (j :: bs)).bind fun _ => Below.refl _
    · exact (alignLoop_below h na nb (i :: as) bs).bind fun _ => Below.refl _
  | [], bs => by cases bs <;> (rw [alignLoop, alignLoop]; exact Below.refl _)
  | a :: as, [] => by rw [alignLoop, alignLoop] <;> first | exact Below.refl _ | simp
termination_by as bs => as.length + bs.length

theorem align_below (he : Env.Below bad e f) (a b : Tensor K) : Below bad (align e a b) (align f a b) := by
  unfold align
  refine (Below.refl _).bind fun _ => (Below.refl _).bind fun _ => ?_
  rw [he.argsort]
  exact alignLoop_below (he.colEq a b) _ _ _ _

theorem convertAM_below (he : Env.Below bad e f) (a : Mat K) : convertAM e a = convertAM f a := by
  cases a <;> simp [convertAM, he.isNumber]

theorem broadcastTo_below (h : Ops.Below bad B C) (a : Mat K) (s : Shp) : Below bad (broadcastTo B a s) (broadcastTo C a s) := by
  have := h.dense
  refine Below.bind (Below.refl _) fun sa => Below.ite (Below.refl _) ?_
  cases a <;> below

theorem matmul3_below (h : Ops.Below bad B C) (ta tb tc : Bool) (a b c : Mat K) : Below bad (matmul3 B ta tb tc a b c) (matmul3 C ta tb tc a b c) := by
  have := h.matmul
  unfold matmul3; below

theorem stepDense_below (h : Ops.Below bad B C) (a : Mat K) : Below bad (stepDense B a) (stepDense C a) := by
  have h1 := h.dense
  have h2 := matmul3_below h
  cases a <;> simp only [stepDense, denseTiled] <;> below

theorem stepDiag_below (h : Ops.Below bad B C) (a : Mat K) : Below bad (stepDiag B a) (stepDiag C a) := by
  have h1 := h.dense
  have h2 := h.matmul
  have h3 := h.diag
  cases a <;> simp only [stepDiag, diagLR] <;> below

theorem stepSumM_below (h : Ops.Below bad B C) (k : ℕ) (a : Mat K) : Below bad (stepSumM B k a) (stepSumM C k a) := by
  have h1 := h.sumM
  have h2 := h.matmul
  have h3 := h.mul
  cases a <;> simp only [stepSumM, sumLR, sumKron] <;> below

theorem addLRLR_below (he : Env.Below bad e f) (h : Ops.Below bad B C) (al ar am bl br bm : Mat K) :
    Below bad (addLRLR e B al ar am bl br bm) (addLRLR f C al ar am bl br bm) := by
  have h1 := h.dense
  have h2 := h.add
  have h3 := he.isZero
  have h4 := align_below he
  simp only [addLRLR, takeGen, padZeroCol, padZeroRow]
  below

theorem addRun_below (he : Env.Below bad e f) (h : Ops.Below bad B C) (m : AddM) (a b : Mat K) :
    Below bad (addRun e B m a b) (addRun f C m a b) := by
  have h1 := h.dense
  have h2 := h.add
  have h3 := broadcastTo_below h
  have h4 := addLRLR_below he h
  unfold addRun
  below

theorem stepAdd_below (he : Env.Below bad e f) (h : Ops.Below bad B C) (a b : Mat K) :
    Below bad (stepAdd e B a b) (stepAdd f C a b) := by
  have h1 := addRun_below he h
  have hc := convertAM_below he
  cases a <;> cases b <;> first
    | (simp only [stepAdd, hc]; first | with_reducible exact Below.refl _ | split <;> first | exact h1 _ _ _ | with_reducible exact Below.refl _)

theorem mulRun_below (h : Ops.Below bad B C) (m : MulM) (a b : Mat K) : Below bad (mulRun B m a b) (mulRun C m a b) := by
  have h1 := h.dense
  have h2 := h.add
  have h3 := broadcastTo_below h
  have h4 := h.mul
  have h5 := h.diag
  unfold mulRun mulLRLR mulDiagAm
  below

theorem stepMul_below (he : Env.Below bad e f) (h : Ops.Below bad B C) (a b : Mat K) :
    Below bad (stepMul e B a b) (stepMul f C a b) := by
  have h1 := mulRun_below h
  have hc := convertAM_below he
  cases a <;> cases b <;> first
    | (simp only [stepMul, hc]; first | with_reducible exact Below.refl _ | split <;> first | exact h1 _ _ _ | with_reducible exact Below.refl _)

theorem mmRun_below (h : Ops.Below bad B C) (m : MmM) (ta tb : Bool) (a b : Mat K) : Below bad (mmRun B m ta tb a b) (mmRun C m ta tb a b) := by
  have h1 := h.dense
  have h2 := h.add
  have h3 := matmul3_below h
  have h4 := h.mul
  have h5 := h.sumM
  have h6 := h.matmul
  unfold mmRun matmulLRLR matmulKronAm kronIdAB kronAIdB
  below

theorem stepMatmul_below (he : Env.Below bad e f) (h : Ops.Below bad B C) (ta tb : Bool) (a b : Mat K) :
    Below bad (stepMatmul e B ta tb a b) (stepMatmul f C ta tb a b) := by
  have h1 := mmRun_below h
  have hc := convertAM_below he
  cases a <;> cases b <;> first
    | (simp only [stepMatmul, hc]; first | with_reducible exact Below.refl _ | split <;> first | with_reducible exact Below.refl _ | (split <;> first | exact h1 _ _ _ _ _ | with_reducible exact Below.refl _))

theorem step_below (he : Env.Below bad e f) (h : Ops.Below bad B C) : Ops.Below bad (step e B) (step f C) where
  dense := stepDense_below h
  add := stepAdd_below he h
  mul := stepMul_below he h
  matmul := stepMatmul_below he h
  diag := stepDiag_below h
  sumM := stepSumM_below h

/-- Same depth, stricter environment. -/
theorem ops_below_env (he : Env.Below bad e f) (n : ℕ) : Ops.Below bad (ops e n) (ops f n) := by
  induction n with
  | zero => exact Ops.Below.refl _
  | succ n ih => exact step_below he ih

/-- More fuel. -/
theorem ops_below_succ (n : ℕ) : Ops.Below (· = .fuel) (ops e n) (ops e (n+1)) := by
  induction n with
  | zero =>
    have h : ∀ {α : Type} (y : E α), Below (· = .fuel) (.error .fuel : E α) y := fun y => Or.inr ⟨.fuel, rfl, rfl⟩
    exact ⟨fun _ => h _, fun _ _ => h _, fun _ _ => h _, fun _ _ _ _ => h _, fun _ => h _, fun _ _ => h _⟩
  | succ n ih => exact step_below (Env.Below.refl _) ih

theorem ops_below_le {n m : ℕ} (h : n ≤ m) : Ops.Below (· = .fuel) (ops e n) (ops e m) := by
  induction m, h using Nat.le_induction with
  | base => exact Ops.Below.refl _
  | succ m _ ih => exact ih.trans (ops_below_succ m)

end Verif
