/-
The tolerance (C46): it is consulted only where low-rank matrices are added, so all the other calls give the same result with every tolerance, and C45 holds for them
without further conditions.
-/
import Verif.Quiet
import Verif.Props08

set_option linter.unusedSectionVars false

namespace Verif

variable {K : Type} [Field K] [LinearOrder K] {α : Type}

/-- The call has the same outcome under the two configurations: it returns the same, or raises the same exception. -/
def SameOutcome (c c' : Cfg K) (f : Ops K → E α) : Prop := (∀ r, Returns c f r ↔ Returns c' f r) ∧ ∀ e, Raises c f e ↔ Raises c' f e

/-- The outcome of the call does not depend on the tolerance, and the tolerance tests in it, if any, are exact. -/
def ToleranceFree (c : Cfg K) (f : Ops K → E α) : Prop := (∀ tol : K, SameOutcome c { c with tol := tol } f) ∧ Exact c f

theorem ToleranceFree.of {c : Cfg K} {f : Ops K → E α} (h : ∀ env' : Env K, c.isNumber = env'.isNumber → ∀ n, f (ops c.code n) = f (ops env' n)) : ToleranceFree c f := by
  refine ⟨fun tol => ⟨fun r => exists_congr fun n => ?_, fun e => and_congr Iff.rfl (exists_congr fun n => ?_)⟩, fun n => (h c.strict rfl n).symm⟩
  · rw [h (Cfg.code { c with tol := tol }) rfl n]
  · rw [h (Cfg.code { c with tol := tol }) rfl n]

theorem ToleranceFree.bind {β : Type} {c : Cfg K} {f : Ops K → E α} {g : α → Ops K → E β} (hf : ∀ env' : Env K, c.isNumber = env'.isNumber → ∀ n, f (ops c.code n) = f (ops env' n))
    (hg : ∀ x, ∀ env' : Env K, c.isNumber = env'.isNumber → ∀ n, g x (ops c.code n) = g x (ops env' n)) : ToleranceFree c fun B => f B >>= fun x => g x B :=
  .of fun env' h n => by
    show f (ops c.code n) >>= (fun x => g x (ops c.code n)) = f (ops env' n) >>= fun x => g x (ops env' n)
    rw [hf env' h n]
    exact congrArg _ (funext fun x => hg x env' h n)

/-- C46.  `B.dense` does not depend on the tolerance. -/
theorem C46_dense (c : Cfg K) {a : Mat K} (ha : a.wo true) : ToleranceFree c fun B => B.dense a := .of fun _ h n => ((ops_twin h n).dense ha).1
/-- C46.  Neither does `B.diag`, -/
theorem C46_diag (c : Cfg K) {a : Mat K} (ha : a.wo true) : ToleranceFree c fun B => B.diag a := .of fun _ h n => ((ops_twin h n).diag ha).1
/-- C46.  `B.sum`, -/
theorem C46_sum (c : Cfg K) (k : ℕ) {a : Mat K} (ha : a.wo true) : ToleranceFree c fun B => B.sumM k a := .of fun _ h n => ((ops_twin h n).sumM ha).1
/-- C46.  nor `B.multiply`, -/
theorem C46_multiply (c : Cfg K) {a b : Mat K} (ha : a.wo true) (hb : b.wo true) : ToleranceFree c fun B => B.mul a b := .of fun _ h n => ((ops_twin h n).mul ha hb).1
/-- C46.  nor `B.add`, unless both are low-rank matrices, or one is and the other is constant, -/
theorem C46_add (c : Cfg K) {a b : Mat K} (ha : a.wo true) (hb : b.wo true) (h : lowSum (classOf c a) (classOf c b) = false) : ToleranceFree c fun B => B.add a b :=
  .of fun _ hn n => ((ops_twin hn n).add ha hb (by rwa [classOf_eq, classOf_eq])).1
/-- C46.  nor `B.matmul`, unless one is a Woodbury matrix and the other is a Woodbury, LowRank or Constant matrix. -/
theorem C46_matmul (c : Cfg K) {ta tb : Bool} {a b : Mat K} (va : a.Valid) (vb : b.Valid) (ha : a.woTop) (hb : b.woTop) (h : lowProd (classOf c a) (classOf c b) = false) :
    ToleranceFree c fun B => B.matmul ta tb a b :=
  .of fun _ hn n => ops_twin_matmul hn n ha hb (triRk_of_valid va) (triRk_of_valid vb) (by rwa [classOf_eq, classOf_eq])

/-! ### C45 without conditions on the tolerance -/

/-- C45.  `B.dense` of a supported matrix, without a Woodbury matrix inside a low-rank one, returns the matrix. -/
theorem C45_dense_always (c : Cfg K) {a : Mat K} (ha : a.Supported) (hw : a.wo true) : Returns c (fun B => B.dense a) (den a) := C45_dense c ha (C46_dense c hw).2

theorem C45_add_always (c : Cfg K) {a b : Mat K} (ha : a.Supported) (hb : b.Supported) (wa : a.wo true) (wb : b.wo true) (hc : Compat (den a).sh (den b).sh) (hs : NoStretch a b)
    (hl : lowSum (classOf c a) (classOf c b) = false) : ∃ r, Returns c (fun B => B.add a b) r ∧ r.Valid ∧ IsEltwise (· + ·) (den a) (den b) (den r) :=
  C45_add c ha hb hc hs (C46_add c wa wb hl).2

theorem C45_multiply_always (c : Cfg K) {a b : Mat K} (ha : a.Supported) (hb : b.Supported) (wa : a.wo true) (wb : b.wo true) (hc : Compat (den a).sh (den b).sh) (hs : MulSafe a b)
    (hd : MulDef a b) : ∃ r, Returns c (fun B => B.mul a b) r ∧ r.Valid ∧ IsEltwise (· * ·) (den a) (den b) (den r) := C45_multiply c ha hb hc hs hd (C46_multiply c wa wb).2

theorem C45_matmul_always (c : Cfg K) {ta tb : Bool} {a b : Mat K} (ha : a.Supported) (hb : b.Supported) (wa : a.woTop) (wb : b.woTop) (hc : BatchCompat a b) (h2a : 2 ≤ (den a).rank)
    (h2b : 2 ≤ (den b).rank) (hi : (if ta then tr (den a) else den a).cols = (if tb then tr (den b) else den b).rows) (hk : KDom ta tb a b)
    (hl : lowProd (classOf c a) (classOf c b) = false) :
    ∃ r, Returns c (fun B => B.matmul ta tb a b) r ∧ r.Valid ∧ IsMatProd (if ta then tr (den a) else den a) (if tb then tr (den b) else den b) (den r) :=
  C45_matmul c ha hb hc h2a h2b hi hk (C46_matmul c ha.valid hb.valid wa wb hl).2

theorem C45_diag_always (c : Cfg K) {a : Mat K} (ha : a.Supported) (wa : a.wo true) (h2 : 2 ≤ (den a).rank) (hd : a.DiagDef (den a).bt) :
    ∃ t, Returns c (fun B => B.diag a) t ∧ (a.DiagOk → IsDiagonalOf (den a) t) := C45_diag c ha h2 hd (C46_diag c wa).2

theorem C45_sum_always (c : Cfg K) {k : ℕ} {a : Mat K} (hk : k ≤ 1) (ha : a.Supported) (wa : a.wo true) (h2 : 2 ≤ (den a).rank) :
    ∃ t, Returns c (fun B => B.sumM k a) t ∧ IsSumAxis k (den a) t := C45_sum c hk ha h2 (C46_sum c k wa).2

/-! ### The hypotheses are met, and needed -/

/- A Woodbury matrix times a LowRank matrix, element-wise; a Woodbury matrix plus a triangular one and times a diagonal one. -/
example : ToleranceFree Ex.cfg fun B => B.mul Ex.W Ex.R := C46_multiply _ ⟨rfl, trivial, trivial, trivial⟩ ⟨trivial, trivial, trivial⟩
example : ToleranceFree Ex.cfg fun B => B.add Ex.W Ex.L := C46_add _ ⟨rfl, trivial, trivial, trivial⟩ trivial (by decide +kernel)
example : ToleranceFree Ex.cfg fun B => B.matmul true false Ex.W Ex.D :=
  C46_matmul _ ⟨_, Ex.W_wf []⟩ ⟨_, Ex.D_wf []⟩ ⟨trivial, trivial, trivial⟩ trivial (by decide +kernel)
example : ToleranceFree Ex.cfg fun B => B.sumM 0 (.kron Ex.W Ex.R) := C46_sum _ _ ⟨⟨rfl, trivial, trivial, trivial⟩, ⟨trivial, trivial, trivial⟩⟩
example : Returns Ex.cfg (fun B => B.dense (.kron Ex.W Ex.R)) (den (.kron Ex.W Ex.R)) :=
  C45_dense_always _ Ex.KW_supported ⟨⟨rfl, trivial, trivial, trivial⟩, ⟨trivial, trivial, trivial⟩⟩

/-- C46, refuted for a sum of two LowRank matrices. -/
theorem C46_add_refuted : ∃ a b : Mat ℚ, a.Supported ∧ b.Supported ∧ a.wo true ∧ b.wo true ∧ (den a).sh = (den b).sh ∧ ¬ ToleranceFree Ex.cfg fun B => B.add a b := by
  let one : Mat ℚ := .num (Ex.m 1 1 [1])
  let a : Mat ℚ := .lr (.num (Ex.m 2 1 [1, 2])) (.num (Ex.m 2 1 [1, 2])) one
  let b : Mat ℚ := .lr (.num (Ex.m 2 1 [1, 2 + 1 / 10^12])) (.num (Ex.m 2 1 [1, 2 + 1 / 10^12])) one
  obtain ⟨r, hr, hP⟩ := Ex.of_holds (P := Ex.entryNe (zipB (· + ·) (den a) (den b)) fun k => if k ≤ 1 then 1 else 0) (f := fun B => B.add a b) (n := 5) (by decide +kernel)
  have wa : a.WF [] := ⟨⟨Ex.num_wf _ _ _ _, Ex.num_wf _ _ _ _, Ex.num_wf _ _ _ _⟩, ⟨by decide +kernel, by decide +kernel, by decide +kernel⟩, by decide +kernel, by decide +kernel⟩
  have wb : b.WF [] := ⟨⟨Ex.num_wf _ _ _ _, Ex.num_wf _ _ _ _, Ex.num_wf _ _ _ _⟩, ⟨by decide +kernel, by decide +kernel, by decide +kernel⟩, by decide +kernel, by decide +kernel⟩
  refine ⟨a, b, Ex.supported wa ⟨trivial, trivial, trivial⟩ rfl, Ex.supported wb ⟨trivial, trivial, trivial⟩ rfl, ⟨trivial, trivial, trivial⟩, ⟨trivial, trivial, trivial⟩, by decide +kernel, fun h => ?_⟩
  have h1 := (C01_add Ex.cfg ⟨_, wa⟩ ⟨_, wb⟩ (by decide +kernel) ⟨fun _ => ⟨by decide +kernel, by decide +kernel⟩, fun _ => ⟨by decide +kernel, by decide +kernel⟩⟩ hr h.2).2
  simp only [Ex.entryNe, decide_eq_true_eq] at hP
  exact hP (by rw [h1.eq])

/-- C46, refuted for the product of a Woodbury and a LowRank matrix. -/
theorem C46_matmul_refuted : ∃ a b : Mat ℚ, a.Supported ∧ b.Supported ∧ a.woTop ∧ b.woTop ∧ (den a).cols = (den b).rows ∧ ¬ ToleranceFree Ex.cfg fun B => B.matmul false false a b := by
  let one : Mat ℚ := .num (Ex.m 1 1 [1])
  let a : Mat ℚ := .wb (Ex.v [1, 1]) (.num (Ex.m 2 1 [1, 2])) (.num (Ex.m 2 1 [1, 2])) one
  let b : Mat ℚ := .lr (.num (Ex.m 2 1 [1, 2 + 1 / 10^12])) (.num (Ex.m 2 1 [1, 2])) one
  obtain ⟨r, hr, hP⟩ := Ex.of_holds (P := fun r : Mat ℚ => decide ((den r).at' Ex.o 1 1 ≠ ∑ k ∈ Finset.range 2, (den a).at' Ex.o 1 k * (den b).at' Ex.o k 1))
    (f := fun B => B.matmul false false a b) (n := 8) (by decide +kernel)
  have wa : a.WF [] := ⟨⟨le_refl _, Fits.nil _⟩, ⟨Ex.num_wf _ _ _ _, Ex.num_wf _ _ _ _, Ex.num_wf _ _ _ _⟩, ⟨by decide +kernel, by decide +kernel, by decide +kernel⟩, ⟨rfl, rfl⟩, by decide +kernel, by decide +kernel⟩
  have wb : b.WF [] := ⟨⟨Ex.num_wf _ _ _ _, Ex.num_wf _ _ _ _, Ex.num_wf _ _ _ _⟩, ⟨by decide +kernel, by decide +kernel, by decide +kernel⟩, by decide +kernel, by decide +kernel⟩
  refine ⟨a, b, Ex.supported wa ⟨trivial, trivial, trivial⟩ rfl, Ex.supported wb ⟨trivial, trivial, trivial⟩ rfl, ⟨trivial, trivial, trivial⟩, ⟨trivial, trivial, trivial⟩, by decide +kernel, fun h => ?_⟩
  have h1 := (C03_matmul Ex.cfg (ta := false) (tb := false) ⟨_, wa⟩ ⟨_, wb⟩ (by decide +kernel) (by decide +kernel) (by decide +kernel) hr h.2).2
  simp only [decide_eq_true_eq] at hP
  have hs : (den r).sh = [2, 2] := by rw [h1.shape]; decide +kernel
  exact hP (h1.entries Ex.o 1 1 (by rw [Tensor.bt, hs]; intro k; exact Nat.zero_lt_one) (by rw [Tensor.rows, hs]; decide) (by rw [Tensor.cols, hs]; decide))

end Verif
