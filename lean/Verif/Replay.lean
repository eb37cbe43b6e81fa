/-
The control-flow cache (C43): a first run records the outcome of every decision that depends on the values of the entries (the permutations of `align`, the test whether a
sum of LowRank matrices is zero); later runs read the outcomes instead of deciding.
LAB's `B.control_flow` (not part of the repository) is modelled in two ways: one queue of named outcomes, or one queue per name; the theorems hold for both.
-/
import Verif.Ex
import Verif.Api

set_option linter.unusedSectionVars false

namespace Verif.Flow

variable {K : Type} [Field K] [LinearOrder K] {α β : Type}

/-- An outcome: a permutation of `align` or the answer of the test for zero. -/
inductive Out where
  | perm (l : List Int)
  | flag (b : Bool)
  deriving DecidableEq, Repr

/-- A computation that makes decisions: it ends with a value or an exception, or it decides something.
A decision has the names under which its outcomes are recorded, the computation of the outcomes, and the rest of the program. -/
inductive Prog (α : Type) where
  | ret (x : E α)
  | ask (names : List String) (outs : E (List Out)) (k : List Out → Prog α)

def Prog.bind (p : Prog α) (f : α → Prog β) : Prog β :=
  match p with
  | .ret (.ok x) => f x
  | .ret (.error e) => .ret (.error e)
  | .ask ns o k => .ask ns o fun l => (k l).bind f

instance : Monad Prog where
  pure x := .ret (.ok x)
  bind := Prog.bind

/-- A computation without decisions. -/
def lift (x : E α) : Prog α := .ret x

/-- A run without control-flow cache. -/
def plain : Prog α → E α
  | .ret x => x
  | .ask _ o k => do plain (k (← o))

/-- A run in a `with` block of a new cache: decide, and record the outcomes (`B.control_flow.set_outcome`) in order. -/
def record : Prog α → E (α × List (String × Out))
  | .ret x => do return (← x, [])
  | .ask ns o k => do
    let l ← o
    let r ← record (k l)
    return (r.1, ns.zip l ++ r.2)

/-- `B.control_flow.get_outcome(name)` with one queue: the next outcome, which must have the name. -/
def getOne (name : String) : List (String × Out) → E (Out × List (String × Out))
  | (n, o) :: q => if n = name then .ok (o, q) else .error .runtime
  | [] => .error .runtime

/-- `B.control_flow.get_outcome(name)` with one queue per name: the first outcome of that name. -/
def getKey (name : String) : List (String × Out) → E (Out × List (String × Out))
  | (n, o) :: q => if n = name then .ok (o, q) else do
    let r ← getKey name q
    return (r.1, (n, o) :: r.2)
  | [] => .error .runtime

/-- `get_outcome` for several names. -/
def getAll (get : String → List (String × Out) → E (Out × List (String × Out))) : List String → List (String × Out) → E (List Out × List (String × Out))
  | [], q => .ok ([], q)
  | n :: ns, q => do
    let r ← get n q
    let s ← getAll get ns r.2
    return (r.1 :: s.1, s.2)

/-- A run in a `with` block of a cache that is populated: no decision is computed, the outcomes are read. -/
def replay (get : String → List (String × Out) → E (Out × List (String × Out))) : Prog α → List (String × Out) → E (α × List (String × Out))
  | .ret x, q => do return (← x, q)
  | .ask ns _ k, q => do
    let r ← getAll get ns q
    replay get (k r.1) r.2

/-- Every decision delivers one outcome per name. -/
def Prog.Tidy : Prog α → Prop
  | .ret _ => True
  | .ask ns o k => (∀ l, o = .ok l → l.length = ns.length) ∧ ∀ l, (k l).Tidy

theorem Prog.Tidy.bind {p : Prog α} {f : α → Prog β} (hp : p.Tidy) (hf : ∀ x, (f x).Tidy) : (p.bind f).Tidy := by
  induction p with
  | ret x => cases x with
    | ok x => exact hf x
    | error e => trivial
  | ask ns o k ih => exact ⟨hp.1, fun l => ih l (hp.2 l)⟩

theorem plain_bind (p : Prog α) (f : α → Prog β) : plain (p >>= f) = plain p >>= fun x => plain (f x) := by
  show plain (p.bind f) = _
  induction p with
  | ret x => cases x <;> rfl
  | ask ns o k ih =>
    simp only [Prog.bind, plain]
    cases o with
    | error e => rfl
    | ok l => exact ih l

/-- The recording run computes what the run without cache computes, and raises the same exceptions. -/
theorem record_plain (p : Prog α) : (record p).map Prod.fst = plain p := by
  induction p with
  | ret x => cases x <;> rfl
  | ask ns o k ih =>
    simp only [record, plain]
    cases o with
    | error e => rfl
    | ok l =>
      have := ih l
      show Except.map Prod.fst (record (k l) >>= fun r => pure (r.1, ns.zip l ++ r.2)) = plain (k l)
      rw [← this]
      cases record (k l) <;> rfl

/-- What is read is what was recorded first. -/
structure Queue (get : String → List (String × Out) → E (Out × List (String × Out))) : Prop where
  head : ∀ n o q, get n ((n, o) :: q) = .ok (o, q)

theorem queue_one : Queue getOne := ⟨fun n o q => by simp [getOne]⟩
theorem queue_key : Queue getKey := ⟨fun n o q => by simp [getKey]⟩

theorem getAll_zip {get : String → List (String × Out) → E (Out × List (String × Out))} (hg : Queue get) (ns : List String) (l : List Out) (h : l.length = ns.length)
    (q : List (String × Out)) : getAll get ns (ns.zip l ++ q) = .ok (l, q) := by
  induction ns generalizing l with
  | nil =>
    cases l with
    | nil => rfl
    | cons _ _ => simp at h
  | cons n ns ih =>
    cases l with
    | nil => simp at h
    | cons o l =>
      simp only [getAll, List.zip_cons_cons, List.cons_append, hg.head]
      show (getAll get ns (ns.zip l ++ q) >>= _) = _
      rw [ih l (by simpa using h)]
      rfl

/-- **C43.** Whatever a computation decides and however often: if the run that records returns `x`, then the run that reads the recorded outcomes returns the same `x`
(and uses up exactly the recorded outcomes, so that another computation can follow). -/
theorem C43_replay {get : String → List (String × Out) → E (Out × List (String × Out))} (hg : Queue get) (p : Prog α) (hp : p.Tidy) {x : α} {log : List (String × Out)}
    (h : record p = .ok (x, log)) (q : List (String × Out)) : replay get p (log ++ q) = .ok (x, q) := by
  induction p generalizing log with
  | ret y =>
    simp only [record, bind_ok_iff, pure_eq_ok, Prod.mk.injEq] at h
    obtain ⟨y', rfl, rfl, rfl⟩ := h
    rfl
  | ask ns o k ih =>
    simp only [record, bind_ok_iff, pure_eq_ok, Prod.mk.injEq] at h
    obtain ⟨l, ho, ⟨x', log'⟩, hr, rfl, rfl⟩ := h
    simp only [replay, List.append_assoc]
    rw [getAll_zip hg ns l (hp.1 l ho)]
    exact ih l (hp.2 l) hr

/-- A run that reads outcomes does not depend on what the decisions would have been: two programs that differ only there do the same. -/
inductive SameBranches : Prog α → Prog α → Prop
  | ret (x) : SameBranches (.ret x) (.ret x)
  | ask (ns o o' k k') : (∀ l, SameBranches (k l) (k' l)) → SameBranches (.ask ns o k) (.ask ns o' k')

theorem C43_branches (get : String → List (String × Out) → E (Out × List (String × Out))) {p p' : Prog α} (h : SameBranches p p') (q : List (String × Out)) :
    replay get p q = replay get p' q := by
  induction h generalizing q with
  | ret x => rfl
  | ask ns o o' k k' _ ih =>
    simp only [replay]
    cases getAll get ns q with
    | error e => rfl
    | ok r => exact ih r.1 r.2

/-! ### The decisions of the library -/

def outPerm : Out → List Int
  | .perm l => l
  | .flag _ => []
def outFlag : Out → Bool
  | .flag b => b
  | .perm _ => false

/-- The four permutations as outcomes, in the order of `align.py` 80-83. -/
def alignOuts (r : Align) : List Out := [.perm r.aPerm, .perm r.bPerm, .perm r.aJoin, .perm r.bJoin]

/-- `align(a, b)` with the control-flow cache, `ops/algorithms/align.py` 17-22, 80-85. -/
def alignP (env : Env K) (a b : Tensor K) : Prog Align :=
  .ask ["align:a_perm", "align:b_perm", "align:a_join_perm", "align:b_join_perm"] (do return alignOuts (← align env a b)) fun l =>
    match l with
    | [x, y, z, w] => .ret (.ok ⟨outPerm x, outPerm y, outPerm z, outPerm w⟩)
    | _ => .ret (.error .runtime)

/-- `is_zero` of `ops/add.py` 189-194. -/
def isZeroP (env : Env K) (t : Tensor K) : Prog Bool :=
  .ask ["add:is_zero"] (do return [.flag (← env.isZero t)]) fun l =>
    match l with
    | [x] => .ret (.ok (outFlag x))
    | _ => .ret (.error .runtime)

/-- `add(a: LowRank, b: LowRank)`, `ops/add.py` 163-207, with the control-flow cache; as `addLRLR`. Calls of other functions (`B.dense`, and `B.add` of arrays or Dense matrices)
are taken as computations without decisions. -/
def addLRLRP (env : Env K) (B : Ops K) (al ar am bl br bm : Mat K) : Prog (Mat K) := do
  let s ← lift (shape (.lr al ar am))
  let t ← lift (shape (.lr bl br bm))
  let _ ← lift (assertCompatible s t)
  let dal ← lift (B.dense al)
  let dbl ← lift (B.dense bl)
  let L ← alignP env dal dbl
  let dar ← lift (B.dense ar)
  let dbr ← lift (B.dense br)
  let R ← alignP env dar dbr
  let aLeft ← lift (do takeGen B (← padZeroCol B al) L.aJoin (-1))
  let bLeft ← lift (do takeGen B (← padZeroCol B bl) L.bJoin (-1))
  let joinLeft ← lift (B.add aLeft bLeft)
  let aRight ← lift (do takeGen B (← padZeroCol B ar) R.aJoin (-1))
  let bRight ← lift (do takeGen B (← padZeroCol B br) R.bJoin (-1))
  let joinRight ← lift (B.add aRight bRight)
  let aMid ← lift (do takeGen B (← takeGen B (← padZeroCol B (← padZeroRow B am)) L.aPerm (-2)) R.aPerm (-1))
  let bMid ← lift (do takeGen B (← takeGen B (← padZeroCol B (← padZeroRow B bm)) L.bPerm (-2)) R.bPerm (-1))
  let joinMid ← lift (B.add aMid bMid)
  let lr ← lift (mkLR joinLeft joinRight joinMid)
  let dm ← lift (B.dense joinMid)
  let z ← isZeroP env dm
  if z then lift (do mkZero (← shape lr)) else lift (.ok lr)

theorem plain_lift (x : E α) : plain (lift x) = x := rfl
theorem plain_align (env : Env K) (a b : Tensor K) : plain (alignP env a b) = align env a b := by
  simp only [alignP, plain]
  cases align env a b <;> rfl
theorem plain_isZero (env : Env K) (t : Tensor K) : plain (isZeroP env t) = env.isZero t := by
  simp only [isZeroP, plain]
  cases env.isZero t <;> rfl

theorem plain_ite (b : Bool) (p q : Prog α) : plain (if b then p else q) = if b then plain p else plain q := by cases b <;> rfl

/-- Without the cache this is the sum of two LowRank matrices of the model (`addLRLR`, the method `add(LowRank, LowRank)`). -/
theorem C43_add_plain (env : Env K) (B : Ops K) (al ar am bl br bm : Mat K) : plain (addLRLRP env B al ar am bl br bm) = addLRLR env B al ar am bl br bm := by
  unfold addLRLRP addLRLR
  simp only [plain_bind, plain_lift, plain_align, plain_isZero, plain_ite, bind_assoc]
  rfl

theorem tidy_lift (x : E α) : (lift x).Tidy := trivial
theorem tidy_align (env : Env K) (a b : Tensor K) : (alignP env a b).Tidy := by
  refine ⟨fun l h => ?_, fun l => ?_⟩
  · simp only [bind_ok_iff, pure_eq_ok] at h
    obtain ⟨r, _, rfl⟩ := h
    rfl
  · dsimp only; split <;> trivial
theorem tidy_isZero (env : Env K) (t : Tensor K) : (isZeroP env t).Tidy := by
  refine ⟨fun l h => ?_, fun l => ?_⟩
  · simp only [bind_ok_iff, pure_eq_ok] at h
    obtain ⟨r, _, rfl⟩ := h
    rfl
  · dsimp only; split <;> trivial

theorem tidy_bind {p : Prog α} {f : α → Prog β} (hp : p.Tidy) (hf : ∀ x, (f x).Tidy) : (p >>= f).Tidy := hp.bind hf

theorem tidy_add (env : Env K) (B : Ops K) (al ar am bl br bm : Mat K) : (addLRLRP env B al ar am bl br bm).Tidy := by
  unfold addLRLRP
  repeat' (first | exact tidy_lift _ | exact tidy_align _ _ _ | exact tidy_isZero _ _ | refine tidy_bind ?_ fun _ => ?_ | split)

/-- `a + b`, `(a + b) + c`, ...: the sum of a list of LowRank matrices from left to right, as long as the sums are LowRank. -/
def sumP (env : Env K) (B : Ops K) : Mat K → List (Mat K × Mat K × Mat K) → Prog (Mat K)
  | a, [] => .ret (.ok a)
  | .lr l r m, (l', r', m') :: rest => do
    let x ← addLRLRP env B l r m l' r' m'
    sumP env B x rest
  | a, (l', r', m') :: rest => do
    let x ← lift (B.add a (.lr l' r' m'))
    sumP env B x rest

theorem tidy_sum (env : Env K) (B : Ops K) (a : Mat K) (bs : List (Mat K × Mat K × Mat K)) : (sumP env B a bs).Tidy := by
  induction bs generalizing a with
  | nil => cases a <;> exact trivial
  | cons b bs ih =>
    obtain ⟨l', r', m'⟩ := b
    cases a <;> first | exact tidy_bind (tidy_add _ _ _ _ _ _ _ _) fun x => ih x | exact tidy_bind (tidy_lift _) fun x => ih x

/-- C43 for sums of any number of LowRank matrices: the run with the recorded outcomes returns what the recording run returned. -/
theorem C43_sum {get : String → List (String × Out) → E (Out × List (String × Out))} (hg : Queue get) (env : Env K) (B : Ops K) (a : Mat K)
    (bs : List (Mat K × Mat K × Mat K)) {x : Mat K} {log : List (String × Out)} (h : record (sumP env B a bs) = .ok (x, log)) :
    replay get (sumP env B a bs) log = .ok (x, []) := by
  have := C43_replay hg _ (tidy_sum env B a bs) h []
  rwa [List.append_nil] at this

/-! ### Examples -/

/-- Three LowRank matrices: the first two share a column, the third cancels the first. -/
def exL : Mat ℚ := .lr (.num (Ex.m 2 1 [1, 2])) (.num (Ex.m 2 1 [1, 2])) (.num (Ex.m 1 1 [3]))
def exs : List (Mat ℚ × Mat ℚ × Mat ℚ) :=
  [(.num (Ex.m 2 2 [1, 0, 2, 1]), .num (Ex.m 2 2 [1, 0, 2, 1]), .num (Ex.m 2 2 [1, 0, 0, 1])),
   (.num (Ex.m 2 1 [1, 2]), .num (Ex.m 2 1 [1, 2]), .num (Ex.m 1 1 [-4]))]

/- The recording run makes 18 decisions and returns. -/
example : (match record (sumP Ex.cfg.code (ops Ex.cfg.code 6) exL exs) with | .ok (_, log) => decide (log.length = 18) | .error _ => false) = true := by decide +kernel
example : Queue getOne ∧ Queue getKey := ⟨queue_one, queue_key⟩

end Verif.Flow
