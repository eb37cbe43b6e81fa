/-
Caches (C30): matrices store their dense form, Cholesky factor and Schur complement once computed. The functions of `OpsCore` and `LinCore` recompute them
every time; here is the program that looks into the caches first, and the states its caches can be in after any history of calls.
Simplification: two objects with equal contents share their caches (which gives every object at least the entries it has in Python); the contents of an object,
apart from the caches, never change (no method of the library assigns to them).
-/
import Verif.Props06

set_option linter.unusedSectionVars false

namespace Verif

variable {K : Type} [Field K] [LinearOrder K] {α β : Type}

/-! ### The program with caches -/

/-- The contents of the attributes `dense`, `cholesky`, `schur` of all matrices; `none` is Python's `None`.
`diagonal.py` 35-36, `constant.py` 37, 89-90, `lowrank.py` 78-79, `woodbury.py` 42-44, `kronecker.py` 32-33, `matrix.py` 117, `tiledblocks.py` 50. -/
structure Slots (K : Type) [Zero K] where
  dense : Mat K → Option (Tensor K)
  chol : Mat K → Option (Mat K)
  schur : Mat K → Option (Mat K)

/-- All matrices are new: nothing is stored. -/
def Slots.empty : Slots K := ⟨fun _ => none, fun _ => none, fun _ => none⟩

/-- `if a.x is None: a.x = ...` followed by `return a.x`. -/
def look (o : Option α) (x : E α) : E α :=
  match o with
  | some v => .ok v
  | none => x

/-- The matrices with an attribute `dense`, `ops/dense.py` 40-111; Dense and triangular matrices return their array. -/
def Mat.hasDense : Mat K → Bool
  | .num _ | .dense _ | .lt _ | .ut _ => false
  | _ => true

/-- The matrices whose Cholesky factor is stored, `ops/cholesky.py` 27-75. -/
def Mat.hasChol : Mat K → Bool
  | .dense _ | .diag _ | .const _ _ _ | .lr _ _ _ | .wb _ _ _ _ | .kron _ _ => true
  | _ => false

section
variable (env : Env K) (lin : LinEnv K) (s : Slots K)

/-- One unfolding of the core functions (`step`) with `B.dense` looking into the cache, `ops/dense.py`. -/
def cstep (B : Ops K) : Ops K := { step env B with dense := fun a => look (s.dense a) (stepDense B a) }

/-- The core functions with caches, recursion depth `n`. -/
def cops : ℕ → Ops K
  | 0 => Ops.bot
  | n+1 => cstep env s (cops n)

/-- `B.schur(a: Woodbury)`, `ops/schur.py` 19-22: the cache first. -/
def cSchur (B : Ops K) (L : LOps K) (d : Tensor K) (l r m : Mat K) : E (Mat K) := look (s.schur (.wb d l r m)) (schurM B L d l r m)

/-- `B.pd_schur(a: Woodbury)`, `ops/pd_schur.py` 19-22: the same attribute of the object. -/
def cPdSchur (B : Ops K) (L : LOps K) (d : Tensor K) (l r m : Mat K) : E (Mat K) := look (s.schur (.wb d l r m)) (pdSchurM B L d l r m)

/-- `B.inv(a)`, `ops/inv.py`: as `stepInv`, `invWB`, with the Schur complement from the cache. -/
def cInv (B : Ops K) (L : LOps K) (a : Mat K) : E (Mat K) :=
  match a with
  | .wb d l r m => do
    let di ← L.inv (.diag d)
    let dl ← B.matmul false false di l
    let dr ← B.matmul false false di r
    let si ← L.inv (← cSchur s B L d l r m)
    subtractM env B di (← mkLR dl dr si)
  | a => stepInv env lin B L a

/-- `B.pd_inv(a)`, `ops/pd_inv.py`: as `stepPdInv`, `pdInvWB`, with the Schur complement from the cache. -/
def cPdInv (B : Ops K) (L : LOps K) (a : Mat K) : E (Mat K) :=
  match a with
  | .wb d l r m => do
    let di ← L.inv (.diag d)
    let dl ← B.matmul false false di l
    let dr ← B.matmul false false di r
    let si ← L.pdInv (← cPdSchur s B L d l r m)
    subtractM env B di (← mkLR dl dr si)
  | a => stepPdInv env B L a

/-- `B.logdet(a)`, `ops/logdet.py`: as `stepLogdet`, with the Schur complement from the cache. -/
def cLogdet (B : Ops K) (L : LOps K) (a : Mat K) : E (Tensor K) :=
  match a with
  | .wb d l r m => do
    let x ← L.logdet (.diag d)
    let y ← L.logdet m
    let z ← L.logdet (← cPdSchur s B L d l r m)
    nAdd (← nAdd x y) z
  | a => stepLogdet lin B L a

/-- One unfolding of the functions of linear algebra with caches. -/
def clstep (B : Ops K) (L : LOps K) : LOps K :=
  { lstep env lin B L with
    inv := cInv env lin s B L
    pdInv := cPdInv env s B L
    logdet := cLogdet lin s B L
    chol := fun a => look (s.chol a) (stepChol lin B L a) }

/-- The functions of linear algebra with caches, recursion depth `n`. -/
def clops (B : Ops K) : ℕ → LOps K
  | 0 => LOps.bot
  | n+1 => clstep env lin s B (clops B n)

end

/-- The states of the caches after any finite history of calls. In one step, attributes that are `None`, of one or of several objects, get the value their method
computes in the current state; no method ever resets one. (The attributes computed by nested calls are filled before the attribute of the outer call.)
`B.schur` and `B.pd_schur` fill the same attribute. -/
inductive Reach (c : Cfg K) (lin : LinEnv K) : Slots K → Prop
  | new : Reach c lin .empty
  | fill {s s' : Slots K} : Reach c lin s →
      (∀ a, s'.dense a = s.dense a ∨ s.dense a = none ∧ a.hasDense = true ∧ ∃ n t, s'.dense a = some t ∧ stepDense (cops c.code s n) a = .ok t) →
      (∀ a, s'.chol a = s.chol a ∨ s.chol a = none ∧ a.hasChol = true ∧ ∃ m n x, s'.chol a = some x ∧
        stepChol lin (cops c.code s n) (clops c.code lin s (cops c.code s n) m) a = .ok x) →
      (∀ a, s'.schur a = s.schur a ∨ s.schur a = none ∧ ∃ d l r k m n x, a = .wb d l r k ∧ s'.schur a = some x ∧
        (schurM (cops c.code s n) (clops c.code lin s (cops c.code s n) m) d l r k = .ok x ∨
         pdSchurM (cops c.code s n) (clops c.code lin s (cops c.code s n) m) d l r k = .ok x)) →
      Reach c lin s'

/-- The call `f` returns `r` when the caches are in state `s`. -/
def CReturns (c : Cfg K) (lin : LinEnv K) (s : Slots K) (f : Ops K → LOps K → E α) (r : α) : Prop :=
  ∃ m n, f (cops c.code s n) (clops c.code lin s (cops c.code s n) m) = .ok r

/-- `B.schur` and `B.pd_schur` of a Woodbury matrix, computed without caches, are the same. -/
def SchurAgrees (c : Cfg K) (lin : LinEnv K) (d : Tensor K) (l r m : Mat K) : Prop :=
  ∀ x, LReturns c lin (fun B L => schurM B L d l r m) x ↔ LReturns c lin (fun B L => pdSchurM B L d l r m) x

/-! ### Limits of the runs -/

/-- The run settles on an outcome other than the recursion bound. -/
def Stable (x : ℕ → E α) : Prop := ∃ N v, v ≠ .error .fuel ∧ ∀ n, N ≤ n → x n = v

/-- The same, with the two depths of the linear-algebra functions. -/
def Stable2 (x : ℕ → ℕ → E α) : Prop := ∃ N v, v ≠ .error .fuel ∧ ∀ m n, N ≤ m → N ≤ n → x m n = v

theorem Done.stable {x : ℕ → E α} (h : Done x) : Stable x := by
  obtain ⟨N, v, hv, h⟩ := h
  exact ⟨N, v, hv.ne, h⟩

theorem Done2.stable {x : ℕ → ℕ → E α} (h : Done2 x) : Stable2 x := by
  obtain ⟨N, v, hv, h⟩ := h
  exact ⟨N, v, hv.ne, h⟩

open Classical in
/-- The value on which a run settles. -/
noncomputable def lim (x : ℕ → E α) : E α := if h : Stable x then h.choose_spec.choose else .error .fuel

open Classical in
noncomputable def lim2 (x : ℕ → ℕ → E α) : E α := if h : Stable2 x then h.choose_spec.choose else .error .fuel

theorem lim_spec {x : ℕ → E α} (hd : Done x) : lim x ≠ .error .fuel ∧ ∃ N, ∀ n, N ≤ n → x n = lim x := by
  have h := hd.stable
  unfold lim
  rw [dif_pos h]
  exact ⟨h.choose_spec.choose_spec.1, h.choose, h.choose_spec.choose_spec.2⟩

theorem lim2_spec' {x : ℕ → ℕ → E α} (h : Stable2 x) : lim2 x ≠ .error .fuel ∧ ∃ N, ∀ m n, N ≤ m → N ≤ n → x m n = lim2 x := by
  unfold lim2
  rw [dif_pos h]
  exact ⟨h.choose_spec.choose_spec.1, h.choose, h.choose_spec.choose_spec.2⟩

theorem lim2_spec {x : ℕ → ℕ → E α} (h : Done2 x) : lim2 x ≠ .error .fuel ∧ ∃ N, ∀ m n, N ≤ m → N ≤ n → x m n = lim2 x :=
  lim2_spec' h.stable

theorem lim2_eq {x : ℕ → ℕ → E α} {v : E α} (hv : v ≠ .error .fuel) {N : ℕ} (h : ∀ m n, N ≤ m → N ≤ n → x m n = v) : lim2 x = v := by
  obtain ⟨_, N', h'⟩ := lim2_spec' ⟨N, v, hv, h⟩
  rw [← h' (max N N') (max N N') (le_max_right _ _) (le_max_right _ _), h _ _ (le_max_left _ _) (le_max_left _ _)]

abbrev BelowF (x y : E α) : Prop := Below (· = .fuel) x y

/-- A run that grows with the depth is below its limit. -/
theorem below_lim {x : ℕ → E α} (hd : Done x) (hx : ∀ n m, n ≤ m → BelowF (x n) (x m)) (n : ℕ) : BelowF (x n) (lim x) := by
  obtain ⟨_, N, h⟩ := lim_spec hd
  rw [← h (max n N) (le_max_right _ _)]
  exact hx _ _ (le_max_left _ _)

theorem below_lim2 {x : ℕ → ℕ → E α} (hx : ∀ m n m' n', m ≤ m' → n ≤ n' → BelowF (x m n) (x m' n')) (m n : ℕ) : BelowF (x m n) (lim2 x) := by
  by_cases e : x m n = .error .fuel
  · rw [e]; exact .of_bad (bad := (· = .fuel)) rfl _
  · have h : ∀ m' n', max m n ≤ m' → max m n ≤ n' → x m' n' = x m n := by
      intro m' n' hm hn
      rcases hx m n m' n' (le_trans (le_max_left _ _) hm) (le_trans (le_max_right _ _) hn) with h | ⟨_, rfl, h⟩
      · exact h.symm
      · exact absurd h e
    rw [lim2_eq e h]
    exact .refl _

/-- What is above all approximations agrees with a limit that exists. -/
theorem eq_lim_of_above {x : ℕ → E α} (hd : Done x) {y : E α} (h : ∀ n, BelowF (x n) y) : y = lim x := by
  obtain ⟨hv, N, hN⟩ := lim_spec hd
  rcases h N with h | ⟨_, rfl, h⟩
  · rw [← h, hN N le_rfl]
  · rw [hN N le_rfl] at h; exact absurd h hv

theorem eq_lim2_of_above {x : ℕ → ℕ → E α} (hd : Done2 x) {y : E α} (h : ∀ m n, BelowF (x m n) y) : y = lim2 x := by
  obtain ⟨hv, N, hN⟩ := lim2_spec hd
  rcases h N N with h | ⟨_, rfl, h⟩
  · rw [← h, hN N N le_rfl le_rfl]
  · rw [hN N N le_rfl le_rfl] at h; exact absurd h hv

section
variable (c : Cfg K) (lin : LinEnv K)

/-- The core functions without bound on the recursion. -/
noncomputable def opsLim : Ops K where
  dense a := lim fun n => (ops c.code n).dense a
  add a b := lim fun n => (ops c.code n).add a b
  mul a b := lim fun n => (ops c.code n).mul a b
  matmul ta tb a b := lim fun n => (ops c.code n).matmul ta tb a b
  diag a := lim fun n => (ops c.code n).diag a
  sumM k a := lim fun n => (ops c.code n).sumM k a

/-- The functions of linear algebra without bound on the recursion; where it never ends, `Err.fuel`. -/
noncomputable def lopsLim : LOps K where
  inv a := lim2 fun m n => (lops c.code lin (ops c.code n) m).inv a
  pdInv a := lim2 fun m n => (lops c.code lin (ops c.code n) m).pdInv a
  chol a := lim2 fun m n => (lops c.code lin (ops c.code n) m).chol a
  solve a b := lim2 fun m n => (lops c.code lin (ops c.code n) m).solve a b
  cholSolve a b := lim2 fun m n => (lops c.code lin (ops c.code n) m).cholSolve a b
  logdet a := lim2 fun m n => (lops c.code lin (ops c.code n) m).logdet a
  root a := lim2 fun m n => (lops c.code lin (ops c.code n) m).root a

theorem ops_below_lim (n : ℕ) : Ops.Below (· = .fuel) (ops c.code n) (opsLim c) := by
  have h := CoreDone.of c.nf
  refine ⟨fun a => ?_, fun a b => ?_, fun a b => ?_, fun ta tb a b => ?_, fun a => ?_, fun k a => ?_⟩
  · exact below_lim (h.dense a) (fun n m hnm => (ops_below_le hnm).dense a) n
  · exact below_lim (h.add a b) (fun n m hnm => (ops_below_le hnm).add a b) n
  · exact below_lim (h.mul a b) (fun n m hnm => (ops_below_le hnm).mul a b) n
  · exact below_lim (h.matmul ta tb a b) (fun n m hnm => (ops_below_le hnm).matmul ta tb a b) n
  · exact below_lim (h.diag a) (fun n m hnm => (ops_below_le hnm).diag a) n
  · exact below_lim (h.sumM k a) (fun n m hnm => (ops_below_le hnm).sumM k a) n

theorem lops_below_lim (m n : ℕ) : LOps.Below (· = .fuel) (lops c.code lin (ops c.code n) m) (lopsLim c lin) := by
  refine ⟨fun a => ?_, fun a => ?_, fun a => ?_, fun a b => ?_, fun a b => ?_, fun a => ?_, fun a => ?_⟩
  · exact below_lim2 (x := fun m n => (lops c.code lin (ops c.code n) m).inv a) (fun m n m' n' hm hn => (LCalls.inv a).le hn hm) m n
  · exact below_lim2 (x := fun m n => (lops c.code lin (ops c.code n) m).pdInv a) (fun m n m' n' hm hn => (LCalls.pdInv a).le hn hm) m n
  · exact below_lim2 (x := fun m n => (lops c.code lin (ops c.code n) m).chol a) (fun m n m' n' hm hn => (LCalls.chol a).le hn hm) m n
  · exact below_lim2 (x := fun m n => (lops c.code lin (ops c.code n) m).solve a b) (fun m n m' n' hm hn => (LCalls.solve a b).le hn hm) m n
  · exact below_lim2 (x := fun m n => (lops c.code lin (ops c.code n) m).cholSolve a b) (fun m n m' n' hm hn => (LCalls.cholSolve a b).le hn hm) m n
  · exact below_lim2 (x := fun m n => (lops c.code lin (ops c.code n) m).logdet a) (fun m n m' n' hm hn => (LCalls.logdet a).le hn hm) m n
  · exact below_lim2 (x := fun m n => (lops c.code lin (ops c.code n) m).root a) (fun m n m' n' hm hn => (LCalls.root a).le hn hm) m n

/-- The limit is a fixed point of the methods. -/
theorem step_lim : step c.code (opsLim c) = opsLim c := by
  have h := CoreDone.of c.nf
  have hb : ∀ n, Ops.Below (· = .fuel) (ops c.code n) (step c.code (opsLim c)) := by
    intro n
    cases n with
    | zero => exact (ops_below_succ 0).trans (step_below (Env.Below.refl _) (ops_below_lim c 0))
    | succ n => exact step_below (Env.Below.refl _) (ops_below_lim c n)
  have h1 : (step c.code (opsLim c)).dense = (opsLim c).dense := funext fun a => eq_lim_of_above (h.dense a) fun n => (hb n).dense a
  have h2 : (step c.code (opsLim c)).add = (opsLim c).add := funext fun a => funext fun b => eq_lim_of_above (h.add a b) fun n => (hb n).add a b
  have h3 : (step c.code (opsLim c)).mul = (opsLim c).mul := funext fun a => funext fun b => eq_lim_of_above (h.mul a b) fun n => (hb n).mul a b
  have h4 : (step c.code (opsLim c)).matmul = (opsLim c).matmul :=
    funext fun ta => funext fun tb => funext fun a => funext fun b => eq_lim_of_above (h.matmul ta tb a b) fun n => (hb n).matmul ta tb a b
  have h5 : (step c.code (opsLim c)).diag = (opsLim c).diag := funext fun a => eq_lim_of_above (h.diag a) fun n => (hb n).diag a
  have h6 : (step c.code (opsLim c)).sumM = (opsLim c).sumM := funext fun k => funext fun a => eq_lim_of_above (h.sumM k a) fun n => (hb n).sumM k a
  generalize step c.code (opsLim c) = X at *
  generalize opsLim c = Y at *
  cases X; cases Y
  simp only at h1 h2 h3 h4 h5 h6
  subst h1 h2 h3 h4 h5 h6
  rfl

variable {c lin}

theorem lopsLim_returns {f : Ops K → LOps K → E α} {r : α} (h : lim2 (fun m n => f (ops c.code n) (lops c.code lin (ops c.code n) m)) = .ok r) : LReturns c lin f r := by
  by_cases hd : Stable2 fun m n => f (ops c.code n) (lops c.code lin (ops c.code n) m)
  · obtain ⟨_, N, hN⟩ := lim2_spec' hd
    exact ⟨N, N, (hN N N le_rfl le_rfl).trans h⟩
  · unfold lim2 at h; rw [dif_neg hd] at h; cases h

theorem LReturns.lim {f : Ops K → LOps K → E α} {r : α} (hf : LCalls f) (h : LReturns c lin f r) : f (opsLim c) (lopsLim c lin) = .ok r := by
  obtain ⟨m, n, h⟩ := h
  exact (hf _ _ _ _ _ (ops_below_lim c n) (lops_below_lim c lin m n)).ok h

/-! ### Linear algebra -/

/-- The run comes to `y`, unless `y` is "out of fuel". -/
def Conv (x : ℕ → ℕ → E α) (y : E α) : Prop := y ≠ .error .fuel → ∃ N, ∀ m n, N ≤ m → N ≤ n → x m n = y

theorem Conv.const (y : E α) : Conv (fun _ _ => y) y := fun _ => ⟨0, fun _ _ _ _ => rfl⟩
theorem Conv.lim2 (x : ℕ → ℕ → E α) : Conv x (lim2 x) := by
  intro h
  by_cases hd : Stable2 x
  · exact (lim2_spec' hd).2
  · unfold Verif.lim2 at h; rw [dif_neg hd] at h; exact absurd rfl h
theorem Conv.lim {x : ℕ → E α} (hd : Done x) : Conv (fun _ n => x n) (lim x) := by
  intro _
  obtain ⟨_, N, h⟩ := lim_spec hd
  exact ⟨N, fun _ n _ hn => h n hn⟩
theorem Conv.bind {x : ℕ → ℕ → E α} {y : E α} {f : α → ℕ → ℕ → E β} {g : α → E β} (h : Conv x y) (hf : ∀ a, Conv (f a) (g a)) :
    Conv (fun m n => x m n >>= fun a => f a m n) (y >>= g) := by
  intro hy
  cases y with
  | error e =>
    obtain ⟨N, hN⟩ := h (by intro he; apply hy; rw [he]; rfl)
    exact ⟨N, fun m n hm hn => by
      show x m n >>= _ = _
      rw [hN m n hm hn]; rfl⟩
  | ok a =>
    obtain ⟨N, hN⟩ := h (by simp)
    obtain ⟨N', hN'⟩ := hf a hy
    refine ⟨max N N', fun m n hm hn => ?_⟩
    show x m n >>= _ = g a
    rw [hN m n (by omega) (by omega)]
    exact hN' m n (by omega) (by omega)
theorem Conv.ite {p : Prop} [Decidable p] {x x' : ℕ → ℕ → E α} {y y' : E α} (h : Conv x y) (h' : Conv x' y') :
    Conv (fun m n => if p then x m n else x' m n) (if p then y else y') := by
  by_cases hp : p
  · simpa only [hp, if_true] using h
  · simpa only [hp, if_false] using h'

theorem conv_matmul3 (ta tb tc : Bool) (x y z : Mat K) : Conv (fun _ n => matmul3 (ops c.code n) ta tb tc x y z) (matmul3 (opsLim c) ta tb tc x y z) := by
  have h := CoreDone.of c.nf
  unfold matmul3
  refine Conv.bind (.const _) fun _ => Conv.bind (.const _) fun _ => Conv.bind (.const _) fun _ => Conv.ite ?_ ?_
  · exact Conv.bind (.lim (h.matmul _ _ _ _)) fun _ => .lim (h.matmul _ _ _ _)
  · exact Conv.bind (.lim (h.matmul _ _ _ _)) fun _ => .lim (h.matmul _ _ _ _)

theorem conv_schurM (d : Tensor K) (l r m : Mat K) :
    Conv (fun i n => schurM (ops c.code n) (lops c.code lin (ops c.code n) i) d l r m) (schurM (opsLim c) (lopsLim c lin) d l r m) :=
  Conv.bind (.lim2 _) fun _ => Conv.bind (conv_matmul3 _ _ _ _ _ _) fun _ => Conv.bind (.lim2 _) fun _ => .lim ((CoreDone.of c.nf).add _ _)

theorem conv_pdSchurM (d : Tensor K) (l r m : Mat K) :
    Conv (fun i n => pdSchurM (ops c.code n) (lops c.code lin (ops c.code n) i) d l r m) (pdSchurM (opsLim c) (lopsLim c lin) d l r m) :=
  Conv.bind (.lim2 _) fun _ => Conv.bind (conv_matmul3 _ _ _ _ _ _) fun _ => Conv.bind (.lim2 _) fun _ => .lim ((CoreDone.of c.nf).add _ _)

theorem conv_stepLogdet (a : Mat K) : Conv (fun m n => stepLogdet lin (ops c.code n) (lops c.code lin (ops c.code n) m) a) (stepLogdet lin (opsLim c) (lopsLim c lin) a) := by
  have h := CoreDone.of c.nf
  have ht : ∀ x : Mat K, Conv (fun _ n => logdetTri lin (ops c.code n) x) (logdetTri lin (opsLim c) x) := fun x =>
    Conv.bind (.lim (h.diag x)) fun _ => .const _
  have hg : ∀ x : Mat K, Conv (fun m n => (do nMul (scalarT 2) (← (lops c.code lin (ops c.code n) m).logdet (← (lops c.code lin (ops c.code n) m).chol x)) : E (Tensor K)))
      (do nMul (scalarT 2) (← (lopsLim c lin).logdet (← (lopsLim c lin).chol x))) := fun x => Conv.bind (.lim2 _) fun _ => Conv.bind (.lim2 _) fun _ => .const _
  cases a with
  | num t => exact .const _
  | diag d => exact ht _
  | lt t => exact ht _
  | ut t => exact ht _
  | wb d l r m =>
    exact Conv.bind (.lim2 _) fun _ => Conv.bind (.lim2 _) fun _ => Conv.bind (conv_pdSchurM d l r m) fun _ => Conv.bind (.lim2 _) fun _ => .const _
  | kron l r =>
    exact Conv.bind (.const _) fun _ => Conv.bind (.const _) fun _ => Conv.bind (.const _) fun _ => Conv.bind (.const _) fun _ => Conv.bind (.lim2 _) fun _ =>
      Conv.bind (.const _) fun _ => Conv.bind (.lim2 _) fun _ => .const _
  | zero bt r c => exact hg _
  | dense t => exact hg _
  | const t r c => exact hg _
  | lr l r m => exact hg _
  | tiled n blk reps ax => exact hg _

variable (c lin)

theorem logdet_lim (a : Mat K) : BelowF (stepLogdet lin (opsLim c) (lopsLim c lin) a) ((lopsLim c lin).logdet a) := by
  by_cases e : stepLogdet lin (opsLim c) (lopsLim c lin) a = .error .fuel
  · rw [e]; exact .of_bad (bad := (· = .fuel)) rfl _
  · obtain ⟨N, h⟩ := conv_stepLogdet a e
    refine .inl (Eq.symm (lim2_eq e (N := N+1) fun m n hm hn => ?_))
    obtain ⟨k, rfl⟩ : ∃ k, m = k+1 := ⟨m-1, by omega⟩
    exact h k n (by omega) (by omega)

/-- The limits satisfy the equations of the methods. -/
theorem lstep_lim (hlin : lin.Total) : LOps.Below (· = .fuel) (lstep c.code lin (opsLim c) (lopsLim c lin)) (lopsLim c lin) := by
  have hb : ∀ m n, LOps.Below (· = .fuel) (lops c.code lin (ops c.code n) m) (lstep c.code lin (opsLim c) (lopsLim c lin)) := by
    intro m n
    exact (lops_below_succ _ _ m).trans (lstep_below _ _ (ops_below_lim c n) (lops_below_lim c lin m n))
  refine ⟨fun a => .inl ?_, fun a => .inl ?_, fun a => .inl ?_, fun a b => .inl ?_, fun a b => .inl ?_, logdet_lim c lin, fun a => .inl ?_⟩
  · exact eq_lim2_of_above (done_inv c.nf hlin _ a (Nat.lt_succ_self _)) fun m n => (hb m n).inv a
  · exact eq_lim2_of_above (done_pdInv c.nf hlin _ a (Nat.lt_succ_self _)) fun m n => (hb m n).pdInv a
  · exact eq_lim2_of_above (done_chol c.nf hlin a) fun m n => (hb m n).chol a
  · exact eq_lim2_of_above (done_solve c.nf hlin a b) fun m n => (hb m n).solve a b
  · exact eq_lim2_of_above (done_cholSolve c.nf hlin _ a b (Nat.lt_succ_self _)) fun m n => (hb m n).cholSolve a b
  · exact eq_lim2_of_above (done_root c.nf hlin a) fun m n => (hb m n).root a

/-! ### Caches with right contents change nothing -/

/-- Every stored value is what the method computes without caches. -/
structure SlotsOk (s : Slots K) : Prop where
  dense : ∀ {a : Mat K} {t : Tensor K}, s.dense a = some t → (opsLim c).dense a = .ok t
  chol : ∀ {a x : Mat K}, s.chol a = some x → (lopsLim c lin).chol a = .ok x
  schur : ∀ {d : Tensor K} {l r m x : Mat K}, s.schur (.wb d l r m) = some x →
    schurM (opsLim c) (lopsLim c lin) d l r m = .ok x ∧ pdSchurM (opsLim c) (lopsLim c lin) d l r m = .ok x

variable {c lin} {s : Slots K}

theorem look_below {o : Option α} {x y : E α} (h : BelowF x y) (ho : ∀ v, o = some v → y = .ok v) : BelowF (look o x) y := by
  cases o with
  | none => exact h
  | some v => exact .inl (ho v rfl).symm

theorem below_look {o : Option α} {x y z : E α} (h : BelowF x y) (hz : BelowF x z) (ho : ∀ v, o = some v → z = .ok v) : BelowF x (look o y) := by
  cases o with
  | none => exact h
  | some v => rw [ho v rfl] at hz; exact hz

theorem cops_below (hs : SlotsOk c lin s) (n : ℕ) : Ops.Below (· = .fuel) (cops c.code s n) (opsLim c) := by
  induction n with
  | zero => exact ops_below_lim c 0
  | succ n ih =>
    have h := step_below (Env.Below.refl c.code) ih
    rw [step_lim] at h
    exact ⟨fun a => look_below (h.dense a) fun v hv => hs.dense hv, h.add, h.mul, h.matmul, h.diag, h.sumM⟩

theorem below_cops (hs : SlotsOk c lin s) (n : ℕ) : Ops.Below (· = .fuel) (ops c.code n) (cops c.code s n) := by
  induction n with
  | zero => exact .refl _
  | succ n ih =>
    have h := step_below (Env.Below.refl c.code) ih
    exact ⟨fun a => below_look (h.dense a) ((ops_below_lim c (n+1)).dense a) fun v hv => hs.dense hv, h.add, h.mul, h.matmul, h.diag, h.sumM⟩

theorem clops_below (hlin : lin.Total) (hs : SlotsOk c lin s) {B : Ops K} (hB : Ops.Below (· = .fuel) B (opsLim c)) (m : ℕ) :
    LOps.Below (· = .fuel) (clops c.code lin s B m) (lopsLim c lin) := by
  induction m with
  | zero => exact lops_below_lim c lin 0 0
  | succ m ih =>
    have hL := lstep_lim c lin hlin
    have h := (lstep_below c.code lin hB ih).trans hL
    have hsub := fun x y => subtractM_below (bad := (· = .fuel)) c.code hB x y
    refine ⟨fun a => ?_, fun a => ?_, fun a => look_below (h.chol a) fun v hv => hs.chol hv, h.solve, h.cholSolve, fun a => ?_, h.root⟩
    · have h' := h.inv a
      cases a with
      | wb d l r k =>
        refine Below.trans ?_ (hL.inv _)
        refine Below.bind (ih.inv _) fun _ => Below.bind (hB.matmul _ _ _ _) fun _ => Below.bind (hB.matmul _ _ _ _) fun _ =>
          Below.bind ?_ fun _ => Below.bind (ih.inv _) fun _ => Below.bind (.refl _) fun _ => hsub _ _
        exact look_below (LCalls.schur d l r k _ _ _ _ _ hB ih) fun v hv => (hs.schur hv).1
      | _ => exact h'
    · have h' := h.pdInv a
      cases a with
      | wb d l r k =>
        refine Below.trans ?_ (hL.pdInv _)
        refine Below.bind (ih.inv _) fun _ => Below.bind (hB.matmul _ _ _ _) fun _ => Below.bind (hB.matmul _ _ _ _) fun _ =>
          Below.bind ?_ fun _ => Below.bind (ih.pdInv _) fun _ => Below.bind (.refl _) fun _ => hsub _ _
        exact look_below (LCalls.pdSchur d l r k _ _ _ _ _ hB ih) fun v hv => (hs.schur hv).2
      | _ => exact h'
    · have h' := h.logdet a
      cases a with
      | wb d l r k =>
        refine Below.trans ?_ (hL.logdet _)
        refine Below.bind (ih.logdet _) fun _ => Below.bind (ih.logdet _) fun _ => Below.bind ?_ fun _ => Below.bind (ih.logdet _) fun _ => .refl _
        exact look_below (LCalls.pdSchur d l r k _ _ _ _ _ hB ih) fun v hv => (hs.schur hv).2
      | _ => exact h'

theorem below_clops (hs : SlotsOk c lin s) {B : Ops K} {n : ℕ} (hB : Ops.Below (· = .fuel) (ops c.code n) B) (m : ℕ) :
    LOps.Below (· = .fuel) (lops c.code lin (ops c.code n) m) (clops c.code lin s B m) := by
  induction m with
  | zero => exact .refl _
  | succ m ih =>
    have h := lstep_below c.code lin hB ih
    have hl := lops_below_lim c lin m n
    have hc := ops_below_lim c n
    have hsub := fun x y => subtractM_below (bad := (· = .fuel)) c.code hB x y
    refine ⟨fun a => ?_, fun a => ?_, fun a => below_look (h.chol a) ((lops_below_lim c lin (m+1) n).chol a) fun v hv => hs.chol hv, h.solve, h.cholSolve, fun a => ?_, h.root⟩
    · have h' := h.inv a
      cases a with
      | wb d l r k =>
        refine Below.bind (ih.inv _) fun _ => Below.bind (hB.matmul _ _ _ _) fun _ => Below.bind (hB.matmul _ _ _ _) fun _ =>
          Below.bind ?_ fun _ => Below.bind (ih.inv _) fun _ => Below.bind (.refl _) fun _ => hsub _ _
        exact below_look (LCalls.schur d l r k _ _ _ _ _ hB ih) (LCalls.schur d l r k _ _ _ _ _ hc hl) fun v hv => (hs.schur hv).1
      | _ => exact h'
    · have h' := h.pdInv a
      cases a with
      | wb d l r k =>
        refine Below.bind (ih.inv _) fun _ => Below.bind (hB.matmul _ _ _ _) fun _ => Below.bind (hB.matmul _ _ _ _) fun _ =>
          Below.bind ?_ fun _ => Below.bind (ih.pdInv _) fun _ => Below.bind (.refl _) fun _ => hsub _ _
        exact below_look (LCalls.pdSchur d l r k _ _ _ _ _ hB ih) (LCalls.pdSchur d l r k _ _ _ _ _ hc hl) fun v hv => (hs.schur hv).2
      | _ => exact h'
    · have h' := h.logdet a
      cases a with
      | wb d l r k =>
        refine Below.bind (ih.logdet _) fun _ => Below.bind (ih.logdet _) fun _ => Below.bind ?_ fun _ => Below.bind (ih.logdet _) fun _ => .refl _
        exact below_look (LCalls.pdSchur d l r k _ _ _ _ _ hB ih) (LCalls.pdSchur d l r k _ _ _ _ _ hc hl) fun v hv => (hs.schur hv).2
      | _ => exact h'

/-! ### Every history leaves right contents -/

theorem Conv.returns {f : Ops K → LOps K → E α} {x : α} (hf : Conv (fun m n => f (ops c.code n) (lops c.code lin (ops c.code n) m)) (.ok x)) : LReturns c lin f x := by
  obtain ⟨N, h⟩ := hf (by simp)
  exact ⟨N, N, h N N le_rfl le_rfl⟩

theorem schur_agree {d : Tensor K} {l r m x : Mat K} (h : SchurAgrees c lin d l r m) :
    schurM (opsLim c) (lopsLim c lin) d l r m = .ok x ↔ pdSchurM (opsLim c) (lopsLim c lin) d l r m = .ok x := by
  constructor
  · intro e
    refine ((h x).1 (Conv.returns (f := fun B L => schurM B L d l r m) ?_)).lim (LCalls.pdSchur d l r m)
    rw [← e]; exact conv_schurM d l r m
  · intro e
    refine ((h x).2 (Conv.returns (f := fun B L => pdSchurM B L d l r m) ?_)).lim (LCalls.schur d l r m)
    rw [← e]; exact conv_pdSchurM d l r m

theorem Reach.ok (hlin : lin.Total) (hr : Reach c lin s) (ha : ∀ d l r m, (s.schur (.wb d l r m)).isSome = true → SchurAgrees c lin d l r m) : SlotsOk c lin s := by
  induction hr with
  | new => exact ⟨fun {_ _} h => (nomatch h), fun {_ _} h => (nomatch h), fun {_ _ _ _ _} h => (nomatch h)⟩
  | @fill s s' _ h1 h2 h3 ih =>
    have hs := ih fun d l r m h => by
      refine ha d l r m ?_
      rcases h3 (.wb d l r m) with e | ⟨e, _⟩
      · rw [e]; exact h
      · rw [e] at h; cases h
    refine ⟨fun {a t} h => ?_, fun {a x} h => ?_, fun {d l r k x} h => ?_⟩
    · rcases h1 a with e | ⟨_, _, n, t', e, hn⟩
      · rw [e] at h; exact hs.dense h
      · rw [e] at h; cases h
        rw [← step_lim]
        exact (stepDense_below (cops_below hs n) a).ok hn
    · rcases h2 a with e | ⟨_, _, m, n, t', e, hn⟩
      · rw [e] at h; exact hs.chol h
      · rw [e] at h; cases h
        have hB := cops_below hs n
        exact ((stepChol_below lin hB (clops_below hlin hs hB m) a).trans ((lstep_lim c lin hlin).chol a)).ok hn
    · have hag := ha d l r k (by rw [h]; rfl)
      rcases h3 (.wb d l r k) with e | ⟨_, d', l', r', k', m, n, x', e', e, hn⟩
      · rw [e] at h; exact hs.schur h
      · cases e'
        rw [e] at h; cases h
        have hB := cops_below hs n
        rcases hn with hn | hn
        · have hx := (LCalls.schur d l r k _ _ _ _ _ hB (clops_below hlin hs hB m)).ok hn
          exact ⟨hx, (schur_agree hag).1 hx⟩
        · have hx := (LCalls.pdSchur d l r k _ _ _ _ _ hB (clops_below hlin hs hB m)).ok hn
          exact ⟨(schur_agree hag).2 hx, hx⟩

/-! ### C30: caching is invisible -/

/-- The outcome of a call with caches: a value or an exception other than `RecursionError`. -/
def COutcome (c : Cfg K) (lin : LinEnv K) (s : Slots K) (f : Ops K → LOps K → E α) (v : E α) : Prop :=
  (∀ e, v = .error e → e.real) ∧ ∃ m n, f (cops c.code s n) (clops c.code lin s (cops c.code s n) m) = v

theorem SlotsOk.outcome (hlin : lin.Total) (hs : SlotsOk c lin s) {f : Ops K → LOps K → E α} (hf : LCalls f) (hfin : LFinishes c lin f) {v : E α} :
    COutcome c lin s f v ↔ (∀ e, v = .error e → e.real) ∧ ∃ m n, f (ops c.code n) (lops c.code lin (ops c.code n) m) = v := by
  have pure_lim : ∀ {m n : ℕ}, BelowF (f (ops c.code n) (lops c.code lin (ops c.code n) m)) (f (opsLim c) (lopsLim c lin)) := fun {m n} =>
    hf _ _ _ _ _ (ops_below_lim c n) (lops_below_lim c lin m n)
  constructor
  · rintro ⟨hv, m, n, h⟩
    refine ⟨hv, ?_⟩
    have h1 : v = f (opsLim c) (lopsLim c lin) := by
      have hB := cops_below hs n
      rcases hf _ _ _ _ _ hB (clops_below hlin hs hB m) with e | ⟨_, rfl, e⟩
      · rw [← h, e]
      · exact absurd rfl (hv _ (h.symm.trans e)).1
    obtain ⟨w, hw, m', n', h'⟩ : ∃ w : E α, (∀ e, w = .error e → e.real) ∧ ∃ m n, f (ops c.code n) (lops c.code lin (ops c.code n) m) = w := by
      rcases hfin with ⟨r, m', n', h'⟩ | ⟨e, m', he, n', h'⟩
      · exact ⟨_, by simp, m', n', h'⟩
      · exact ⟨_, by rintro _ ⟨⟩; exact he, m', n', h'⟩
    rcases pure_lim (m := m') (n := n') with e | ⟨_, rfl, e⟩
    · exact ⟨m', n', e.trans h1.symm⟩
    · exact absurd rfl (hw _ (h'.symm.trans e)).1
  · rintro ⟨hv, m, n, h⟩
    refine ⟨hv, m, n, ?_⟩
    have hB := below_cops hs n
    rcases hf _ _ _ _ _ hB (below_clops hs hB m) with e | ⟨_, rfl, e⟩
    · rw [← e, h]
    · exact absurd rfl (hv _ (h.symm.trans e)).1

/-- **C30.** Let `s` be the contents of all caches after any finite history of calls, on any matrices, in which the Schur complement of a matrix was computed only where
`B.schur` and `B.pd_schur` agree. Then every call that finishes (see C35) returns exactly what it returns without caches. -/
theorem C30_returns (hlin : lin.Total) (hr : Reach c lin s) (ha : ∀ d l r m, (s.schur (.wb d l r m)).isSome = true → SchurAgrees c lin d l r m)
    {f : Ops K → LOps K → E α} (hf : LCalls f) (hfin : LFinishes c lin f) (x : α) : CReturns c lin s f x ↔ LReturns c lin f x := by
  have h := (hr.ok hlin ha).outcome hlin hf hfin (v := .ok x)
  constructor
  · rintro h'; exact (h.1 ⟨by simp, h'⟩).2
  · rintro h'; exact (h.2 ⟨by simp, h'⟩).2

/-- C30: it raises an exception exactly if it does so without caches, and the same exception. -/
theorem C30_raises (hlin : lin.Total) (hr : Reach c lin s) (ha : ∀ d l r m, (s.schur (.wb d l r m)).isSome = true → SchurAgrees c lin d l r m)
    {f : Ops K → LOps K → E α} (hf : LCalls f) (hfin : LFinishes c lin f) (e : Err) : COutcome c lin s f (.error e) ↔ LRaises c lin f e := by
  have h := (hr.ok hlin ha).outcome hlin hf hfin (v := .error e)
  constructor
  · rintro h'
    obtain ⟨he, m, n, h⟩ := h.1 h'
    exact ⟨m, he e rfl, n, h⟩
  · rintro ⟨m, he, n, h'⟩
    exact h.2 ⟨by rintro _ ⟨⟩; exact he, m, n, h'⟩

section
variable (hlin : lin.Total) (hr : Reach c lin s) (ha : ∀ d l r m, (s.schur (.wb d l r m)).isSome = true → SchurAgrees c lin d l r m)
include hlin hr ha

theorem C30_dense (a : Mat K) (x : Tensor K) : CReturns c lin s (fun B _ => B.dense a) x ↔ Returns c (fun B => B.dense a) x := by
  rw [C30_returns hlin hr ha (fun _ _ _ _ _ h _ => h.dense a) (Done2.finishes (Done2.core ((CoreDone.of c.nf).dense a)))]
  exact ⟨fun ⟨_, h⟩ => h, fun h => ⟨0, h⟩⟩

theorem C30_cholesky (a x : Mat K) : CReturns c lin s (fun _ L => L.chol a) x ↔ LReturns c lin (fun _ L => L.chol a) x :=
  C30_returns hlin hr ha (LCalls.chol a) (C35_cholesky c hlin a) x

theorem C30_inv (a x : Mat K) : CReturns c lin s (fun _ L => L.inv a) x ↔ LReturns c lin (fun _ L => L.inv a) x :=
  C30_returns hlin hr ha (LCalls.inv a) (C35_inv c hlin a) x

theorem C30_pd_inv (a x : Mat K) : CReturns c lin s (fun _ L => L.pdInv a) x ↔ LReturns c lin (fun _ L => L.pdInv a) x :=
  C30_returns hlin hr ha (LCalls.pdInv a) (C35_pd_inv c hlin a) x

/-- C30 for log-determinants, whether or not the computation ends. -/
theorem C30_logdet (a : Mat K) (x : Tensor K) : CReturns c lin s (fun _ L => L.logdet a) x ↔ LReturns c lin (fun _ L => L.logdet a) x := by
  have hs := hr.ok hlin ha
  constructor
  · rintro ⟨m, n, h⟩
    have hB := cops_below hs n
    exact lopsLim_returns (f := fun _ L => L.logdet a) (((clops_below hlin hs hB m).logdet a).ok h)
  · rintro ⟨m, n, h⟩
    have hB := below_cops hs n
    exact ⟨m, n, ((below_clops hs hB m).logdet a).ok h⟩

/-- C30 for `B.schur`. -/
theorem C30_schur (d : Tensor K) (l r m x : Mat K) :
    CReturns c lin s (fun B L => cSchur s B L d l r m) x ↔ LReturns c lin (fun B L => schurM B L d l r m) x := by
  have hs := hr.ok hlin ha
  constructor
  · rintro ⟨k, n, h⟩
    have hB := cops_below hs n
    have := (look_below (o := s.schur (.wb d l r m)) (LCalls.schur d l r m _ _ _ _ _ hB (clops_below hlin hs hB k)) fun v hv => (hs.schur hv).1).ok h
    refine Conv.returns (f := fun B L => schurM B L d l r m) ?_
    rw [← this]; exact conv_schurM d l r m
  · rintro ⟨k, n, h⟩
    have hB := below_cops hs n
    exact ⟨k, n, (below_look (o := s.schur (.wb d l r m)) (LCalls.schur d l r m _ _ _ _ _ hB (below_clops hs hB k))
      (LCalls.schur d l r m _ _ _ _ _ (ops_below_lim c n) (lops_below_lim c lin k n)) fun v hv => (hs.schur hv).1).ok h⟩

/-- C30 for `B.pd_schur`. -/
theorem C30_pd_schur (d : Tensor K) (l r m x : Mat K) :
    CReturns c lin s (fun B L => cPdSchur s B L d l r m) x ↔ LReturns c lin (fun B L => pdSchurM B L d l r m) x := by
  have hs := hr.ok hlin ha
  constructor
  · rintro ⟨k, n, h⟩
    have hB := cops_below hs n
    have := (look_below (o := s.schur (.wb d l r m)) (LCalls.pdSchur d l r m _ _ _ _ _ hB (clops_below hlin hs hB k)) fun v hv => (hs.schur hv).2).ok h
    refine Conv.returns (f := fun B L => pdSchurM B L d l r m) ?_
    rw [← this]; exact conv_pdSchurM d l r m
  · rintro ⟨k, n, h⟩
    have hB := below_cops hs n
    exact ⟨k, n, (below_look (o := s.schur (.wb d l r m)) (LCalls.pdSchur d l r m _ _ _ _ _ hB (below_clops hs hB k))
      (LCalls.pdSchur d l r m _ _ _ _ _ (ops_below_lim c n) (lops_below_lim c lin k n)) fun v hv => (hs.schur hv).2).ok h⟩

end

/-! ### Where the two Schur complements agree -/

theorem SchurAgrees.of_inv {d : Tensor K} {l r m : Mat K} (h : ∀ x, LReturns c lin (fun _ L => L.inv m) x ↔ LReturns c lin (fun _ L => L.pdInv m) x) :
    SchurAgrees c lin d l r m := by
  have e : ∀ y, (lopsLim c lin).inv m = .ok y ↔ (lopsLim c lin).pdInv m = .ok y := fun y =>
    ⟨fun hy => ((h y).1 (lopsLim_returns (f := fun _ L => L.inv m) hy)).lim (LCalls.pdInv m),
     fun hy => ((h y).2 (lopsLim_returns (f := fun _ L => L.pdInv m) hy)).lim (LCalls.inv m)⟩
  have e' : ∀ x, schurM (opsLim c) (lopsLim c lin) d l r m = .ok x ↔ pdSchurM (opsLim c) (lopsLim c lin) d l r m = .ok x := by
    intro x
    unfold schurM pdSchurM
    simp only [bind_ok_iff, e]
  intro x
  constructor
  · intro hx
    have := (e' x).1 (hx.lim (LCalls.schur d l r m))
    exact Conv.returns (f := fun B L => pdSchurM B L d l r m) (this ▸ conv_pdSchurM d l r m)
  · intro hx
    have := (e' x).2 (hx.lim (LCalls.pdSchur d l r m))
    exact Conv.returns (f := fun B L => schurM B L d l r m) (this ▸ conv_schurM d l r m)

/-- They agree if the middle factor is Diagonal, as it is when none is given. -/
theorem C30_agree_diagonal (d e : Tensor K) (l r : Mat K) : SchurAgrees c lin d l r (.diag e) := by
  refine SchurAgrees.of_inv fun x => ⟨?_, ?_⟩
  · rintro ⟨m, n, h⟩
    cases m with
    | zero => cases h
    | succ m => exact ⟨m+2, n, h⟩
  · rintro ⟨m, n, h⟩
    cases m with
    | zero => cases h
    | succ m => exact ⟨m, n, h⟩

end

end Verif
