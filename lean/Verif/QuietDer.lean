/-
The derived functions and the tolerance (C46, C53): trace, element-wise functions, sums, means, quotients, reshaping, tiling and concatenation never consult it, differences only
where sums would.
-/
import Verif.FineDer
import Verif.LinQuiet

set_option linter.unusedSectionVars false

namespace Verif

variable {K : Type} [Field K] [LinearOrder K]

theorem kindC_convert (env : Env K) (x : Mat K) : kindC env (convertAM env x) = kindC env x := by
  have h : convertAM env (convertAM env x) = convertAM env x := by
    have := kind_convertAM env x
    cases hx : convertAM env x with
    | num t => rw [hx] at this; simp [Mat.kind] at this
    | _ => rfl
  unfold kindC; rw [h]

section
variable {env : Env K} {B C : Ops K} (hT : B.Twin env C)
include hT

theorem twin_subtract {e : Env K} {a b : Mat K} (ha : a.wo true) (hb : b.wo true) (vb : b.Valid)
    (h : lowSum (kindC env (convertAM e a)) (kindC env (convertAM e b)) = false) : Sim (Mat.wo true) (subtractM e B a b) (subtractM e C a b) := by
  obtain ⟨S, wb⟩ := vb
  have rest : Sim (Mat.wo true) (negativeM (convertAM e b) >>= fun z => B.add (convertAM e a) z) (negativeM (convertAM e b) >>= fun z => C.add (convertAM e a) z) := by
    refine Sim.on (P := fun z : Mat K => z.wo true ∧ z.kind = (convertAM e b).kind) ?_ fun z hz => ?_
    · intro z hz
      exact ⟨wop_negativeM (wo_convertAM e hb) z hz, (negativeM_ok (den_convertAM (env := e) wb).1 hz).2.2⟩
    · refine hT.add (wo_convertAM e ha) hz.1 ?_
      have am := (den_convertAM (env := e) wb).2.2.1
      obtain ⟨k, hk⟩ : ∃ k, (convertAM e b).kind = some k := by
        revert am; cases convertAM e b <;> simp [Mat.isAM, Mat.kind]
      rw [kindC_am (hz.2.trans hk), ← kindC_am (env := env) hk]
      exact h
  unfold subtractM
  split
  · exact Sim.same (Post.skip fun _ => Post.pure trivial)
  · exact rest

theorem twin_divide {e : Env K} {a b : Mat K} (ha : a.wo true) (hb : b.wo true) : Sim (Mat.wo true) (divideM e B a b) (divideM e C a b) := by
  unfold divideM
  split
  · exact Sim.same (Post.skip fun _ => Post.pure trivial)
  · dsimp only
    split
    · exact Sim.skip fun _ => Sim.on (wop_mkConst true _ _) fun v hv => hT.mul (wo_convertAM e ha) hv
    · exact (hT.dense (wo_convertAM e ha)).go fun _ => (hT.dense (wo_convertAM e hb)).go fun _ => Sim.same (Post.skip fun _ => Post.pure trivial)

theorem twin_trace {a : Mat K} (ha : a.wo true) : Sim (fun _ => True) (traceM B a) (traceM C a) := (hT.diag ha).go fun _ => Sim.refl _

theorem twin_elt {g : Tensor K → E (Tensor K)} {a : Mat K} (ha : a.wo true) : Sim (Mat.wo true) (eltM g B a) (eltM g C a) := by
  have dns : ∀ {a : Mat K}, a.wo true → Sim (Mat.wo true) (do return mkDense (← g (← B.dense a)) : E (Mat K)) (do return mkDense (← g (← C.dense a))) := fun h =>
    (hT.dense h).go fun _ => Sim.same (Post.skip fun _ => Post.pure trivial)
  induction a with
  | num t => exact Sim.same (Post.skip fun _ => Post.pure trivial)
  | zero bt r c => exact Sim.same (Post.ok trivial)
  | dense t => exact dns ha
  | diag t => exact Sim.same (Post.skip fun _ => wop_mkDiag true _)
  | const t r c => exact Sim.same (Post.skip fun _ => wop_mkConst true _ _)
  | lt t => exact Sim.same (Post.skip fun _ => wop_mkLT true _)
  | ut t => exact Sim.same (Post.skip fun _ => wop_mkUT true _)
  | lr l r m => exact dns ha
  | wb d l r m => exact dns ha
  | kron l r ihl ihr => exact (ihl ha.1).bind fun x hx => (ihr ha.2).bind fun y hy => Sim.pure ⟨hx, hy⟩
  | tiled => exact dns ha

theorem twin_sumAll {a : Mat K} (ha : a.wo true) : Sim (fun _ => True) (sumAllM B a) (sumAllM C a) := by
  cases a with
  | lr l r m =>
    exact (hT.matmul ha.1 ha.2.2).bind fun x hx => (hT.sumM hx.up).go fun _ => (hT.sumM ha.2.1.up).go fun _ => Sim.refl _
  | wb d l r m => exact (hT.sumM (a := .diag d) trivial).go fun _ => Sim.skip fun _ => (hT.sumM (a := .lr l r m) ha.2).go fun _ => Sim.refl _
  | kron l r => exact (hT.sumM ha.1).go fun _ => Sim.skip fun _ => (hT.sumM ha.2).go fun _ => Sim.refl _
  | _ => exact Sim.refl _

theorem twin_sumBatch {n k : ℕ} {a : Mat K} (ha : a.wo true) : Sim (Mat.wo true) (sumBatchM B n k a) (sumBatchM C n k a) := by
  cases a with
  | num t => exact Sim.same (Post.skip fun _ => Post.pure trivial)
  | zero bt r c => exact Sim.same (Post.ok trivial)
  | dense t => exact Sim.same (Post.skip fun _ => Post.pure trivial)
  | lt t => exact Sim.same (Post.skip fun _ => Post.pure trivial)
  | ut t => exact Sim.same (Post.skip fun _ => Post.pure trivial)
  | diag d => exact Sim.same (Post.skip fun _ => wop_mkDiag true _)
  | const t r c => exact Sim.same (Post.skip fun _ => wop_mkConst true _ _)
  | lr l r m => exact (hT.dense ha).go fun _ => Sim.same (Post.skip fun _ => Post.pure trivial)
  | kron l r => exact (hT.dense ha).go fun _ => Sim.same (Post.skip fun _ => Post.pure trivial)
  | wb d l r m =>
    refine Sim.on (wop_alignBatch2 (κ := true) (κ' := true) (a := .diag d) (b := .lr l r m) trivial ha.2) fun p hp => ?_
    split
    · refine Sim.skip fun v => Sim.on (P := fun z : Mat K => z.wo true ∧ z.kind = some .diag) (fun z hz => ?_) fun z hz => (hT.dense hp.2).go fun y => Sim.skip fun y' =>
        hT.add hz.1 trivial ?_
      · refine ⟨wop_mkDiag true _ z hz, ?_⟩
        unfold mkDiag at hz
        obtain ⟨_, _, h⟩ := bind_ok_iff.1 hz
        rw [pure_eq_ok] at h
        rw [← h]; rfl
      · rw [kindC_am hz.2]
        rcases kindC_num env y' with h | h | h <;> rw [h] <;> rfl
    · exact Sim.error
  | tiled => exact Sim.error

theorem twin_sumFull {axis : Option Int} {a : Mat K} (ha : a.wo true) : Sim (Mat.wo true) (sumFull B a axis) (sumFull C a axis) := by
  unfold sumFull
  split
  · exact (twin_sumAll hT ha).go fun _ => Sim.pure trivial
  · exact Sim.skip fun _ => Sim.skip fun _ => Sim.ite ((hT.sumM ha).go fun _ => Sim.pure trivial) (twin_sumBatch hT ha)

theorem twin_mean {e : Env K} {axis : Option Int} {a : Mat K} (ha : a.wo true) : Sim (Mat.wo true) (meanM e B a axis) (meanM e C a axis) := by
  unfold meanM
  exact Sim.skip fun _ => Sim.skip fun _ => (twin_sumFull hT ha).bind fun s hs => twin_divide hT hs trivial

theorem twin_tile {reps : List ℕ} {a : Mat K} (ha : a.wo true) : tileM B a reps = tileM C a reps := by
  have := (hT.dense ha).1
  unfold tileM
  split <;> first | rfl | simp only [this]

theorem twin_mapM {as : List (Mat K)} (ha : ∀ a ∈ as, a.wo true) : as.mapM B.dense = as.mapM C.dense := by
  induction as with
  | nil => rfl
  | cons a as ih => simp only [List.mapM_cons, (hT.dense (ha a (by simp))).1, ih fun b hb => ha b (by simp [hb])]

theorem twin_concat {as : List (Mat K)} {axis : Int} (ha : ∀ a ∈ as, a.wo true) : concatM B as axis = concatM C as axis := by
  unfold concatM
  rw [twin_mapM hT ha]
end

/-! ### C46 -/

/-- C46.  `B.subtract` depends on the tolerance only if `B.add` would. -/
theorem C46_subtract (c : Cfg K) {a b : Mat K} (ha : a.wo true) (hb : b.wo true) (vb : b.Valid) (h : lowSum (classOf c a) (classOf c b) = false) :
    ToleranceFree c fun B => subtractM c.code B a b :=
  .of fun _ hn n => (twin_subtract (ops_twin hn n) ha hb vb (by rw [kindC_convert, kindC_convert, classOf_eq, classOf_eq]; exact h)).1
/-- C46.  Division, -/
theorem C46_divide (c : Cfg K) {a b : Mat K} (ha : a.wo true) (hb : b.wo true) : ToleranceFree c fun B => divideM c.code B a b := .of fun _ hn n => (twin_divide (ops_twin hn n) ha hb).1
/-- C46.  traces, -/
theorem C46_trace (c : Cfg K) {a : Mat K} (ha : a.wo true) : ToleranceFree c fun B => traceM B a := .of fun _ hn n => (twin_trace (ops_twin hn n) ha).1
/-- C46.  element-wise functions, -/
theorem C46_abs (c : Cfg K) {a : Mat K} (ha : a.wo true) : ToleranceFree c fun B => absM B a := .of fun _ hn n => (twin_elt (ops_twin hn n) ha).1
theorem C46_sqrt (c : Cfg K) (lin : LinEnv K) {a : Mat K} (ha : a.wo true) : ToleranceFree c fun B => sqrtM lin B a := .of fun _ hn n => (twin_elt (ops_twin hn n) ha).1
theorem C46_power (c : Cfg K) (k : ℤ) {a : Mat K} (ha : a.wo true) : ToleranceFree c fun B => powerM k B a := .of fun _ hn n => (twin_elt (ops_twin hn n) ha).1
/-- C46.  sums and means along any axis, -/
theorem C46_sum_axis (c : Cfg K) (axis : Option Int) {a : Mat K} (ha : a.wo true) : ToleranceFree c fun B => sumFull B a axis := .of fun _ hn n => (twin_sumFull (ops_twin hn n) ha).1
theorem C46_mean (c : Cfg K) (axis : Option Int) {a : Mat K} (ha : a.wo true) : ToleranceFree c fun B => meanM c.code B a axis := .of fun _ hn n => (twin_mean (ops_twin hn n) ha).1
/-- C46.  reshaping, tiling and concatenation do not depend on the tolerance. -/
theorem C46_reshape (c : Cfg K) (s : Shp) {a : Mat K} (ha : a.wo true) : ToleranceFree c fun B => reshapeM B a s :=
  .of fun _ hn n => (((ops_twin hn n).dense ha).go fun _ => Sim.refl (nReshape s _)).1
theorem C46_tile (c : Cfg K) (reps : List ℕ) {a : Mat K} (ha : a.wo true) : ToleranceFree c fun B => tileM B a reps := .of fun _ hn n => twin_tile (ops_twin hn n) ha
theorem C46_concat (c : Cfg K) (axis : Int) {as : List (Mat K)} (ha : ∀ a ∈ as, a.wo true) : ToleranceFree c fun B => concatM B as axis := .of fun _ hn n => twin_concat (ops_twin hn n) ha

end Verif
