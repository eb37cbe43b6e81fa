/-
C60: programs.  A history of calls of the library on a store of values refines the same history of calls on dense arrays.
-/
import Verif.LinExpr
import Verif.Props02
import Verif.Props03
import Verif.Elt
import Verif.Take
import Verif.Submat
import Verif.Block
import Verif.Concat
import Verif.Kron
import Verif.Sum

set_option linter.unusedSectionVars false

namespace Verif

variable {K : Type} [Field K] [LinearOrder K] [IsStrictOrderedRing K]

/-- A call of the library that gives a matrix, with operands of type `V`. -/
inductive Call (K V : Type) where
  | lit (x : K)
  | add (a b : V)
  | sub (a b : V)
  | mul (a b : V)
  | div (a b : V)
  | matmul (ta tb : Bool) (a b : V)
  | neg (a : V)
  | tr (a : V)
  | abs (a : V)
  | power (n : ℤ) (a : V)
  | sqrt (a : V)
  | kron (a b : V)
  | take (a : V) (sel : Sel) (axis : Int)
  | submatrix (a : V) (sel : Sel)
  | block (rows : List (List V))
  | blockDiag (as : List V)
  | concat (as : List V) (axis : Int)
  | tile (a : V) (reps : List ℕ)
  | broadcastBatchTo (s : Shp) (a : V)
  | broadcastTo (a : V) (n k : ℕ) (s : Shp)
  | inv (a : V)
  | pdInv (a : V)
  | solve (a b : V)
  | cholSolve (a b : V)
  | triSolve (lower : Bool) (a b : V)
  | chol (a : V)
  | root (a : V)
  | iqf (same : Bool) (a b c : V)

namespace Call

/-- The operands. -/
def args {V : Type} : Call K V → List V
  | .lit _ => []
  | .add a b | .sub a b | .mul a b | .div a b | .matmul _ _ a b | .kron a b | .solve a b | .cholSolve a b | .triSolve _ a b => [a, b]
  | .neg a | .tr a | .abs a | .power _ a | .sqrt a | .take a _ _ | .submatrix a _ | .tile a _ | .broadcastBatchTo _ a | .broadcastTo a _ _ _
  | .inv a | .pdInv a | .chol a | .root a => [a]
  | .block rows => rows.flatten
  | .blockDiag as | .concat as _ => as
  | .iqf _ a b c => [a, b, c]

/-- The same call on other operands. -/
def map {V W : Type} (f : V → W) : Call K V → Call K W
  | .lit x => .lit x
  | .add a b => .add (f a) (f b)
  | .sub a b => .sub (f a) (f b)
  | .mul a b => .mul (f a) (f b)
  | .div a b => .div (f a) (f b)
  | .matmul ta tb a b => .matmul ta tb (f a) (f b)
  | .neg a => .neg (f a)
  | .tr a => .tr (f a)
  | .abs a => .abs (f a)
  | .power n a => .power n (f a)
  | .sqrt a => .sqrt (f a)
  | .kron a b => .kron (f a) (f b)
  | .take a sel axis => .take (f a) sel axis
  | .submatrix a sel => .submatrix (f a) sel
  | .block rows => .block (rows.map fun row => row.map f)
  | .blockDiag as => .blockDiag (as.map f)
  | .concat as axis => .concat (as.map f) axis
  | .tile a reps => .tile (f a) reps
  | .broadcastBatchTo s a => .broadcastBatchTo s (f a)
  | .broadcastTo a n k s => .broadcastTo (f a) n k s
  | .inv a => .inv (f a)
  | .pdInv a => .pdInv (f a)
  | .solve a b => .solve (f a) (f b)
  | .cholSolve a b => .cholSolve (f a) (f b)
  | .triSolve lower a b => .triSolve lower (f a) (f b)
  | .chol a => .chol (f a)
  | .root a => .root (f a)
  | .iqf same a b c => .iqf same (f a) (f b) (f c)

/-- What the library does: the functions of the model (`B.take` and `B.submatrix` call themselves at most `fuel` deep). -/
def run (env : Env K) (lin : LinEnv K) (fuel : ℕ) (B : Ops K) (L : LOps K) : Call K (Mat K) → E (Mat K)
  | .lit x => .ok (.num (scalarT x))
  | .add a b => B.add a b
  | .sub a b => subtractM env B a b
  | .mul a b => B.mul a b
  | .div a b => divideM env B a b
  | .matmul ta tb a b => B.matmul ta tb a b
  | .neg a => negativeM a
  | .tr a => transposeM a
  | .abs a => absM B a
  | .power n a => powerM n B a
  | .sqrt a => sqrtM lin B a
  | .kron a b => kronM env a b
  | .take a sel axis => takeM B fuel a sel axis
  | .submatrix a sel => submatrixM B fuel a sel
  | .block rows => blockM B rows
  | .blockDiag as => blockDiagM env B as
  | .concat as axis => concatM B as axis
  | .tile a reps => tileM B a reps
  | .broadcastBatchTo s a => Verif.broadcastBatchTo s a
  | .broadcastTo a n k s => Verif.broadcastTo B a (n :: k :: s)
  | .inv a => L.inv a
  | .pdInv a => L.pdInv a
  | .solve a b => L.solve a b
  | .cholSolve a b => L.cholSolve a b
  | .triSolve lower a b => triangularSolve L lower a b
  | .chol a => L.chol a
  | .root a => L.root a
  | .iqf same a b c => iqfM B L same a b c

/-- When the call is covered: the documented domain of the operation, minus the cases in which the code is known to be wrong (see the properties of the single operations). -/
def Dom : Call K (Mat K) → Prop
  | .lit _ => True
  | .add a b | .sub a b | .div a b => BatchCompat a b ∧ NoStretch a b
  | .mul a b => BatchCompat a b ∧ MulSafe a b
  | .matmul _ _ a b | .solve a b => BatchCompat a b ∧ 2 ≤ (den a).rank ∧ 2 ≤ (den b).rank
  | .neg _ | .abs _ | .sqrt _ | .inv _ => True
  | .tr a => 2 ≤ (den a).rank
  | .power n a => 1 ≤ n ∨ a.explicit = true
  | .kron a b | .triSolve _ a b => BatchCompat a b
  | .cholSolve a b => BatchCompat a b ∧ 2 ≤ (den a).rank ∧ 2 ≤ (den b).rank ∧ CsDom a b
  | .take a sel axis => 2 ≤ (den a).rank ∧ ∃ k js, AxisAt (den a).rank axis k ∧ a.takeOk k ∧ sel.Picks (dim (den a).sh k) js
  | .submatrix a sel => 2 ≤ (den a).rank ∧ ∃ js js', a.subOk js ∧ a.triOk js ∧ sel.Picks (den a).rows js ∧ sel.Picks (den a).cols js'
  | .block rows => (∀ row ∈ rows, ∀ a ∈ row, 2 ≤ (den a).rank) ∧ ∃ hs ws, hs ≠ [] ∧ ws ≠ [] ∧ IsGrid hs ws (rows.map fun row => row.map den)
  | .blockDiag as => (∀ a ∈ as, 2 ≤ (den a).rank) ∧ ∀ a, as = [a] → a.isAM = true ∧ a.kind ≠ some .tiled
  | .concat as axis => as ≠ [] ∧ (∀ a ∈ as, 2 ≤ (den a).rank) ∧ ∃ k, (∀ a ∈ as, AxisAt (den a).rank axis k) ∧ ∀ a ∈ as, ∀ b ∈ as, AgreeExcept k (den a).sh (den b).sh
  | .tile a _ => 2 ≤ (den a).rank
  | .broadcastBatchTo s a => 2 ≤ (den a).rank ∧ Fits s (den a).bt ∧ (den a).bt.length ≤ s.length
  | .broadcastTo a n k s => a.isAM = true ∧ Fits (n :: k :: s) (den a).sh ∧ (den a).bt.length ≤ s.length
  | .pdInv a => a.PdDom
  | .chol a => a.CholDom
  | .root a => a.RootDom
  | .iqf same a b c => (∃ S, Fits S (den a).bt ∧ Fits S (den b).bt ∧ Fits S (den c).bt) ∧ 2 ≤ (den b).rank ∧ 2 ≤ (den c).rank ∧ a.QfDom ∧ (∃ ai, IsInverse (den a) ai) ∧
      (same = true → c = b) ∧ ¬ (b.kind = some .zero ∧ c.kind = some .zero)

/-- The specification: `t` is a result of the call on dense arrays. -/
def Spec : Call K (Tensor K) → Tensor K → Prop
  | .lit x, t => t = scalarT x
  | .add a b, t => IsEltwise (· + ·) a b t
  | .sub a b, t => IsEltwise (· - ·) a b t
  | .mul a b, t => IsEltwise (· * ·) a b t
  | .div a b, t => IsEltwise (· / ·) a b t ∧ ∀ i, InRange b.sh i → b.get i ≠ 0
  | .matmul ta tb a b, t => IsMatProd (if ta then Verif.tr a else a) (if tb then Verif.tr b else b) t
  | .neg a, t => IsMap (fun x => -x) a t
  | .tr a, t => IsTranspose a t
  | .abs a, t => IsMap (fun x => |x|) a t
  | .power n a, t => IsMap (fun x => x ^ n) a t
  | .sqrt a, t => IsRel (fun x y => 0 ≤ y ∧ y * y = x) a t
  | .kron a b, t => IsKron (upT a) (upT b) t
  | .take a sel axis, t => ∃ k js, AxisAt a.rank axis k ∧ sel.Picks (dim a.sh k) js ∧ IsTake k js a t
  | .submatrix a sel, t => ∃ js js', sel.Picks a.rows js ∧ sel.Picks a.cols js' ∧ IsSubmatrix js js' a t
  | .block rows, t => ∃ hs ws, hs ≠ [] ∧ ws ≠ [] ∧ IsGrid hs ws rows ∧ IsBlock (btAll rows.flatten) hs ws rows t
  | .blockDiag as, t => IsBlockDiag (btAll as) as t
  | .concat as axis, t => as ≠ [] ∧ ∃ k, (∀ a ∈ as, AxisAt a.rank axis k) ∧ IsConcat k as t
  | .tile a reps, t => IsTile reps a t
  | .broadcastBatchTo s a, t => IsBroadcast (a.cols :: a.rows :: s) a t
  | .broadcastTo a n k s, t => IsBroadcast (n :: k :: s) a t
  | .inv a, t | .pdInv a, t => IsInverse a t
  | .solve a b, t | .triSolve _ a b, t => IsSolution a b t ∨ LExpr.AllZero b ∧ t = b
  | .cholSolve a b, t => ∃ p, IsMatProd a (Verif.tr a) p ∧ IsSolution p b t
  | .chol a, t => IsFactor a t
  | .root a, t => IsRoot a t
  | .iqf _ a b c, t => ∃ ai p, IsInverse a ai ∧ IsMatProd (Verif.tr b) ai p ∧ IsMatProd p c t

theorem args_map {V W : Type} (f : V → W) (k : Call K V) : (k.map f).args = k.args.map f := by
  cases k with
  | block rows => simp [map, args, List.map_flatten]
  | _ => simp [map, args]

theorem map_map {V W U : Type} (f : V → W) (g : W → U) (k : Call K V) : (k.map f).map g = k.map fun v => g (f v) := by
  cases k <;> simp [map, Function.comp_def]

/-- One call on valid operands: the result is valid and is a result of the same call on the dense arrays. -/
theorem run_spec (c : Cfg K) {lin : LinEnv K} (hl : lin.Lawful) {fuel : ℕ} {k : Call K (Mat K)} {r : Mat K} (hv : ∀ a ∈ k.args, a.Valid) (hd : k.Dom)
    (hr : LReturns c lin (fun B L => k.run c.code lin fuel B L) r) (hx : LExact c lin fun B L => k.run c.code lin fuel B L) :
    r.Valid ∧ (k.map den).Spec (den r) := by
  have hr' : ∃ m, Returns c (fun B => k.run c.code lin fuel B (lops c.code lin B m)) r := hr
  have hx' : ∀ m, Exact c fun B => k.run c.code lin fuel B (lops c.code lin B m) := hx
  cases k with
  | lit x =>
    obtain ⟨_, n, h⟩ := hr
    cases h
    exact ⟨⟨[], Expr.wf_scalar [] x⟩, rfl⟩
  | add a b =>
    obtain ⟨m, hr'⟩ := hr'
    exact C01_add c (hv a (by simp [args])) (hv b (by simp [args])) hd.1 hd.2 hr' (hx' m)
  | sub a b =>
    obtain ⟨m, hr'⟩ := hr'
    exact C07_subtract c (hv a (by simp [args])) (hv b (by simp [args])) hd.1 hd.2 hr' (hx' m)
  | mul a b =>
    obtain ⟨m, hr'⟩ := hr'
    exact C02_multiply c (hv a (by simp [args])) (hv b (by simp [args])) hd.1 hd.2 hr' (hx' m)
  | div a b =>
    obtain ⟨m, hr'⟩ := hr'
    exact C07_divide c (hv a (by simp [args])) (hv b (by simp [args])) hd.1 hd.2 hr' (hx' m)
  | matmul ta tb a b =>
    obtain ⟨m, hr'⟩ := hr'
    exact C03_matmul c (hv a (by simp [args])) (hv b (by simp [args])) hd.1 hd.2.1 hd.2.2 hr' (hx' m)
  | neg a =>
    obtain ⟨_, n, h⟩ := hr
    obtain ⟨w, e, _⟩ := negativeM_ok (hv a (by simp [args])).own h
    exact ⟨⟨_, w⟩, IsMap.of_eq e⟩
  | tr a =>
    obtain ⟨_, n, h⟩ := hr
    obtain ⟨r', h', w, s⟩ := C06_transpose (hv a (by simp [args])) hd
    have h : transposeM a = .ok r := h
    rw [h] at h'; cases h'
    exact ⟨w, s⟩
  | abs a =>
    obtain ⟨m, hr'⟩ := hr'
    exact C34_abs c (hv a (by simp [args])) hr' (hx' m)
  | power n a =>
    obtain ⟨m, hr'⟩ := hr'
    exact C34_power c (hv a (by simp [args])) hd hr' (hx' m)
  | sqrt a =>
    obtain ⟨m, hr'⟩ := hr'
    exact C34_sqrt c hl (hv a (by simp [args])) hr' (hx' m)
  | kron a b =>
    obtain ⟨_, n, h⟩ := hr
    exact C18_kron c (hv a (by simp [args])) (hv b (by simp [args])) hd h
  | take a sel axis =>
    obtain ⟨m, hr'⟩ := hr'
    obtain ⟨h2, k, js, hk, ho, hp⟩ := hd
    obtain ⟨w, s⟩ := C13_take c (hv a (by simp [args])) h2 hk ho hp hr' (hx' m)
    exact ⟨w, k, js, hk, hp, s⟩
  | submatrix a sel =>
    obtain ⟨m, hr'⟩ := hr'
    obtain ⟨h2, js, js', ho, ht, h1, h0⟩ := hd
    obtain ⟨s, w⟩ := C14_submatrix c (hv a (by simp [args])) h2 ho h1 h0 hr' (hx' m)
    exact ⟨w ht, js, js', h1, h0, s⟩
  | block rows =>
    obtain ⟨m, hr'⟩ := hr'
    obtain ⟨h2, hs, ws, e1, e2, hg⟩ := hd
    obtain ⟨w, s⟩ := C15_block c e2 (fun row hrow a ha => hv a (List.mem_flatten.2 ⟨row, hrow, ha⟩)) h2 hg hr' (hx' m)
    refine ⟨w, hs, ws, e1, e2, hg, ?_⟩
    rw [List.map_flatten] at s
    exact s
  | blockDiag as =>
    obtain ⟨m, hr'⟩ := hr'
    exact C16_block_diag c hv hd.1 hd.2 hr' (hx' m)
  | concat as axis =>
    obtain ⟨m, hr'⟩ := hr'
    obtain ⟨h0, h2, k, hk, hs⟩ := hd
    obtain ⟨w, s⟩ := C17_concat c hv h2 hk hs hr' (hx' m)
    refine ⟨w, by simpa [map, Spec] using h0, k, ?_, s⟩
    intro t ht
    obtain ⟨a, ha, rfl⟩ := List.mem_map.1 ht
    exact hk a ha
  | tile a reps =>
    obtain ⟨m, hr'⟩ := hr'
    exact C17_tile c (hv a (by simp [args])) hd hr' (hx' m)
  | broadcastBatchTo s a =>
    obtain ⟨_, n, h⟩ := hr
    obtain ⟨S, w⟩ := hv a (by simp [args])
    obtain ⟨h2, hs, _⟩ := hd
    obtain ⟨w', _, d, _⟩ := broadcastBatchTo_ok (w.mono hs) hs h
    exact ⟨⟨_, w'⟩, IsBroadcast.of_eq (Fits.mat h2 rfl rfl hs) d⟩
  | broadcastTo a n k s =>
    obtain ⟨m, hr'⟩ := hr'
    exact C28_broadcast_to c (hv a (by simp [args])) hd.1 hd.2.1 hd.2.2 hr' (hx' m)
  | inv a =>
    obtain ⟨w, s, _⟩ := C19_inv c hl (hv a (by simp [args])) hr hx
    exact ⟨w, s⟩
  | pdInv a => exact C20_pd_inv c hl (hv a (by simp [args])) hd hr hx
  | solve a b =>
    obtain ⟨w, s⟩ := C24_solve c hl (hv a (by simp [args])) (hv b (by simp [args])) hd.1 hd.2.1 hd.2.2 hr hx
    refine ⟨w, s.imp id ?_⟩
    rintro ⟨hz, rfl⟩
    refine ⟨?_, rfl⟩
    obtain ⟨bt, p, q, e⟩ := kind_zero hz
    rw [e]
    exact fun i hi => fillT_get 0 hi (Fits.refl _)
  | cholSolve a b => exact C24_cholesky_solve c hl (hv a (by simp [args])) (hv b (by simp [args])) hd.1 hd.2.1 hd.2.2.1 hd.2.2.2 hr hx
  | triSolve lower a b =>
    obtain ⟨w, s⟩ := C24_triangular_solve c hl (lower := lower) (hv a (by simp [args])) (hv b (by simp [args])) hd hr hx
    refine ⟨w, s.imp id ?_⟩
    rintro ⟨hz, rfl⟩
    refine ⟨?_, rfl⟩
    obtain ⟨bt, p, q, e⟩ := kind_zero hz
    rw [e]
    exact fun i hi => fillT_get 0 hi (Fits.refl _)
  | chol a =>
    obtain ⟨w, s, _⟩ := C21_cholesky c hl (hv a (by simp [args])) hd hr hx
    exact ⟨w, s⟩
  | root a => exact C25_root c hl (hv a (by simp [args])) hd hr hx
  | iqf same a b d =>
    obtain ⟨⟨S, fa, fb, fd⟩, h2b, h2d, hq, ⟨ai, hi⟩, hs, hz⟩ := hd
    obtain ⟨w, p, h1, h2⟩ := C23_iqf c hl ((hv a (by simp [args])).own.mono fa) ((hv b (by simp [args])).own.mono fb) ((hv d (by simp [args])).own.mono fd) h2b h2d hq hi hs hz hr hx
    exact ⟨w, ai, p, hi, h1, h2⟩

end Call

/-! ### Histories -/

/-- The value in variable `i` of a store (programs only read variables that exist). -/
def readVar {V : Type} (d : V) (st : List V) (i : ℕ) : V := st.getD i d

/-- A history of the library: starting with the store `st`, every call reads variables, returns, and appends its result to the store; `st'` is the store in the end. -/
inductive Hist (c : Cfg K) (lin : LinEnv K) : List (Mat K) → List (Call K ℕ) → List (Mat K) → Prop
  | nil (st) : Hist c lin st [] st
  | step {st st' : List (Mat K)} {k : Call K ℕ} {ks : List (Call K ℕ)} {r : Mat K} (fuel : ℕ) (hv : ∀ i ∈ k.args, i < st.length)
      (hd : (k.map (readVar (.num (scalarT 0)) st)).Dom)
      (hr : LReturns c lin (fun B L => (k.map (readVar (.num (scalarT 0)) st)).run c.code lin fuel B L) r)
      (hx : LExact c lin fun B L => (k.map (readVar (.num (scalarT 0)) st)).run c.code lin fuel B L) (h : Hist c lin (st ++ [r]) ks st') : Hist c lin st (k :: ks) st'

/-- The same history on dense arrays, by the specification of the calls alone. -/
inductive DHist : List (Tensor K) → List (Call K ℕ) → List (Tensor K) → Prop
  | nil (st) : DHist st [] st
  | step {st st' : List (Tensor K)} {k : Call K ℕ} {ks : List (Call K ℕ)} {t : Tensor K} (hv : ∀ i ∈ k.args, i < st.length)
      (hs : (k.map (readVar (scalarT 0) st)).Spec t) (h : DHist (st ++ [t]) ks st') : DHist st (k :: ks) st'

theorem readVar_map (st : List (Mat K)) (i : ℕ) : readVar (scalarT 0) (st.map den) i = den (readVar (.num (scalarT 0)) st i) := by
  simp only [readVar, List.getD_eq_getElem?_getD, List.getElem?_map]
  cases st[i]? <;> rfl

theorem readVar_valid {st : List (Mat K)} (h : ∀ a ∈ st, a.Valid) {i : ℕ} (hi : i < st.length) : (readVar (.num (scalarT 0)) st i).Valid := by
  simp only [readVar, List.getD_eq_getElem?_getD, List.getElem?_eq_getElem hi]
  exact h _ (List.getElem_mem hi)

/-- C60.  Every history of the library refines the same history on dense arrays: in the end all values are well formed, and the arrays they represent are what the
calls give on the arrays which the initial values represent. -/
theorem C60_refines (c : Cfg K) {lin : LinEnv K} (hl : lin.Lawful) {st st' : List (Mat K)} {ks : List (Call K ℕ)} (hv : ∀ a ∈ st, a.Valid) (h : Hist c lin st ks st') :
    (∀ a ∈ st', a.Valid) ∧ DHist (st.map den) ks (st'.map den) := by
  induction h with
  | nil st => exact ⟨hv, .nil _⟩
  | @step st st' k ks r fuel ha hd hr hx h ih =>
    obtain ⟨w, s⟩ := Call.run_spec c hl (by
      intro a hm
      rw [Call.args_map] at hm
      obtain ⟨i, hi, rfl⟩ := List.mem_map.1 hm
      exact readVar_valid hv (ha i hi)) hd hr hx
    obtain ⟨v', d'⟩ := ih (by
      intro a hm
      rcases List.mem_append.1 hm with hm | hm
      · exact hv a hm
      · rw [List.mem_singleton.1 hm]; exact w)
    refine ⟨v', .step (t := den r) (by simpa using ha) ?_ (by simpa using d')⟩
    rw [Call.map_map] at s
    have e : (fun v => den (readVar (.num (scalarT 0)) st v)) = readVar (scalarT 0) (st.map den) := by funext i; rw [readVar_map]
    rw [e] at s
    exact s

end Verif
