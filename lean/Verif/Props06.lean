/-
Termination of linear algebra and of the derived operations (C35).
-/
import Verif.LinDone
import Verif.LinDer
import Verif.Block
import Verif.Elt
import Verif.Submat
import Mathlib.Analysis.Real.Sqrt

set_option linter.unusedSectionVars false

namespace Verif

variable {K : Type} [Field K] [LinearOrder K] {α β : Type}

/-- The call of linear algebra `f` raises the exception `e`, at some finite depths of the recursion. -/
def LRaises (c : Cfg K) (lin : LinEnv K) (f : Ops K → LOps K → E α) (e : Err) : Prop := ∃ m, Raises c (fun B => f B (lops c.code lin B m)) e

/-- The call of linear algebra finishes: it returns a value or raises an exception (not `RecursionError`). -/
def LFinishes (c : Cfg K) (lin : LinEnv K) (f : Ops K → LOps K → E α) : Prop := (∃ r, LReturns c lin f r) ∨ ∃ e, LRaises c lin f e

theorem Done2.finishes {c : Cfg K} {lin : LinEnv K} {f : Ops K → LOps K → E α} (h : Done2 fun m n => f (ops c.code n) (lops c.code lin (ops c.code n) m)) :
    LFinishes c lin f := by
  obtain ⟨N, v, hv, h⟩ := h
  have := h N N le_rfl le_rfl
  cases v with
  | ok r => exact .inl ⟨r, N, N, this⟩
  | error e => exact .inr ⟨e, N, hv.real e rfl, N, this⟩

theorem Cfg.nf (c : Cfg K) : c.code.NF := codeEnv_nf _ _

section
variable (c : Cfg K) {lin : LinEnv K} (hlin : lin.Total)

/-! ### Core operations and what is built from them -/

theorem C35_subtract (a b : Mat K) : Finishes c fun B => subtractM c.code B a b := Done.finishes ((CoreDone.of c.nf).subtract a b)

theorem CoreDone.divide {env : Env K} (h : CoreDone env) (a b : Mat K) : Done fun n => divideM env (ops env n) a b := by
  unfold divideM
  split
  · exact Done.const ((nf_nDiv _ _).bind fun _ => NF.pure _)
  · dsimp only
    split
    · exact Done.bind' (nf_nDiv _ _) fun _ _ => Done.bind' (nf_mkConst _ _) fun _ _ => h.mul _ _
    · exact Done.bind (h.dense _) fun _ _ => Done.bind (h.dense _) fun _ _ => Done.const ((nf_nDiv _ _).bind fun _ => NF.pure _)
theorem C35_divide (a b : Mat K) : Finishes c fun B => divideM c.code B a b := Done.finishes ((CoreDone.of c.nf).divide a b)

theorem CoreDone.trace {env : Env K} (h : CoreDone env) (a : Mat K) : Done fun n => traceM (ops env n) a :=
  Done.bind (h.diag a) fun _ _ => Done.const (nf_nSum _ _)
theorem C35_trace (a : Mat K) : Finishes c fun B => traceM B a := Done.finishes ((CoreDone.of c.nf).trace a)

theorem CoreDone.matmulDiag {env : Env K} (h : CoreDone env) (ta tb : Bool) (a b : Mat K) : Done fun n => Verif.matmulDiag (ops env n) ta tb a b := by
  unfold Verif.matmulDiag
  split
  · exact Done.bind (h.matmul _ _ _ _) fun _ _ => h.diag _
  · exact Done.bind' (nf_trM _ _) fun _ _ => Done.bind' (nf_trM _ _) fun _ _ => Done.bind (h.mul _ _) fun _ _ => h.sumM _ _
theorem C35_matmul_diag (ta tb : Bool) (a b : Mat K) : Finishes c fun B => matmulDiag B ta tb a b := Done.finishes ((CoreDone.of c.nf).matmulDiag ta tb a b)

theorem CoreDone.elt {env : Env K} (h : CoreDone env) {g : Tensor K → E (Tensor K)} (hg : ∀ t, NF (g t)) (a : Mat K) : Done fun n => eltM g (ops env n) a := by
  have hd : ∀ a : Mat K, Done fun n => (do return mkDense (← g (← (ops env n).dense a)) : E (Mat K)) := fun a =>
    Done.bind (h.dense a) fun _ _ => Done.const ((hg _).bind fun _ => NF.pure _)
  induction a with
  | num t => exact Done.const ((hg _).bind fun _ => NF.pure _)
  | zero bt r c => exact Done.const (NF.ok _)
  | diag d => exact Done.const ((hg _).bind fun _ => nf_mkDiag _)
  | const t r c => exact Done.const ((hg _).bind fun _ => nf_mkConst _ _)
  | lt t => exact Done.const ((hg _).bind fun _ => nf_mkLT _)
  | ut t => exact Done.const ((hg _).bind fun _ => nf_mkUT _)
  | kron l r ihl ihr => exact Done.bind ihl fun _ _ => Done.bind ihr fun _ _ => Done.const (NF.pure _)
  | dense t => exact hd _
  | lr l r m _ _ _ => exact hd _
  | wb d l r m _ _ _ => exact hd _
  | tiled n blk reps ax _ => exact hd _
theorem C35_abs (a : Mat K) : Finishes c fun B => absM B a := Done.finishes ((CoreDone.of c.nf).elt (fun _ => NF.ok _) a)
theorem C35_sqrt (a : Mat K) : Finishes c fun B => sqrtM lin B a := Done.finishes ((CoreDone.of c.nf).elt (nf_nSqrt lin) a)
theorem C35_power (n : ℤ) (a : Mat K) : Finishes c fun B => powerM n B a :=
  Done.finishes ((CoreDone.of c.nf).elt (fun _ => by unfold nPow; exact NF.ite (NF.err (by decide)) (NF.ok _)) a)

theorem nf_sumBatch_num (t : Tensor K) (ax : Int) : NF (do return .num (← nSum t (some ax)) : E (Mat K)) := (nf_nSum _ _).bind fun _ => NF.pure _

theorem CoreDone.sumAll {env : Env K} (h : CoreDone env) (a : Mat K) : Done fun n => sumAllM (ops env n) a := by
  cases a with
  | num t => exact Done.const (NF.ok _)
  | zero bt r c => exact Done.const (NF.ok _)
  | dense t => exact Done.const (NF.ok _)
  | lt t => exact Done.const (NF.ok _)
  | ut t => exact Done.const (NF.ok _)
  | diag t => exact Done.const (NF.ok _)
  | const t r c => exact Done.const (NF.ok _)
  | lr l r m => exact Done.bind (h.matmul _ _ _ _) fun _ _ => Done.bind (h.sumM _ _) fun _ _ => Done.bind (h.sumM _ _) fun _ _ => Done.const ((nf_nMul _ _).bind fun _ => nf_nSum _ _)
  | wb d l r m =>
    exact Done.bind (h.sumM _ _) fun _ _ => Done.bind' (nf_nSum _ _) fun _ _ => Done.bind (h.sumM _ _) fun _ _ => Done.bind' (nf_nSum _ _) fun _ _ =>
      Done.const ((nf_nAdd _ _).bind fun _ => nf_nSum _ _)
  | kron l r =>
    exact Done.bind (h.sumM _ _) fun _ _ => Done.bind' (nf_nSum _ _) fun _ _ => Done.bind (h.sumM _ _) fun _ _ => Done.bind' (nf_nSum _ _) fun _ _ =>
      Done.const ((nf_nMul _ _).bind fun _ => nf_nSum _ _)
  | tiled n blk reps ax => exact Done.const (NF.err (by decide))

theorem CoreDone.sumBatch {env : Env K} (h : CoreDone env) (n k : ℕ) (a : Mat K) : Done fun m => sumBatchM (ops env m) n k a := by
  cases a with
  | num t => exact Done.const (nf_sumBatch_num _ _)
  | zero bt r c => exact Done.const (NF.ok _)
  | dense t => exact Done.const (nf_sumBatch_num _ _)
  | lt t => exact Done.const (nf_sumBatch_num _ _)
  | ut t => exact Done.const (nf_sumBatch_num _ _)
  | diag t => exact Done.const ((nf_nSum _ _).bind fun _ => nf_mkDiag _)
  | const t r c => exact Done.const ((nf_nSum _ _).bind fun _ => nf_mkConst _ _)
  | lr l r m => exact Done.bind (h.dense _) fun _ _ => Done.const (nf_sumBatch_num _ _)
  | wb d l r m =>
    refine Done.bind' (nf_alignBatch2 _ _) fun p _ => ?_
    split
    · exact Done.bind' (nf_nSum _ _) fun _ _ => Done.bind' (nf_mkDiag _) fun _ _ => Done.bind (h.dense _) fun _ _ => Done.bind' (nf_nSum _ _) fun _ _ => h.add _ _
    · exact Done.const (NF.err (by decide))
  | kron l r => exact Done.bind (h.dense _) fun _ _ => Done.const (nf_sumBatch_num _ _)
  | tiled n blk reps ax => exact Done.const (NF.err (by decide))

theorem CoreDone.sumFull {env : Env K} (h : CoreDone env) (a : Mat K) (axis : Option Int) : Done fun n => Verif.sumFull (ops env n) a axis := by
  unfold Verif.sumFull
  split
  · exact Done.bind (h.sumAll a) fun _ _ => Done.const (NF.pure _)
  · exact Done.bind' (nf_rankM _) fun _ _ => Done.bind' (nf_axPos _ _) fun _ _ => Done.ite (Done.bind (h.sumM _ _) fun _ _ => Done.const (NF.pure _)) (h.sumBatch _ _ _)
theorem C35_sum_axis (a : Mat K) (axis : Option Int) : Finishes c fun B => sumFull B a axis := Done.finishes ((CoreDone.of c.nf).sumFull a axis)

theorem C35_mean (a : Mat K) (axis : Option Int) : Finishes c fun B => meanM c.code B a axis := by
  have h := CoreDone.of c.nf
  refine Done.finishes ?_
  unfold meanM
  refine Done.bind' (nf_shape _) fun s _ => Done.bind' ?_ fun _ _ => Done.bind (h.sumFull _ _) fun _ _ => h.divide _ _
  split
  · exact NF.ok _
  · exact (nf_axPos _ _).bind fun _ => NF.pure _

/-! ### Lists of matrices -/

theorem Done.mapM {ι : Type} {f : ι → ℕ → E α} (h : ∀ i, Done (f i)) (l : List ι) : Done fun n => l.mapM fun i => f i n := by
  induction l with
  | nil => simp only [List.mapM_nil]; exact Done.const (NF.pure _)
  | cons i l ih => simp only [List.mapM_cons]; exact (h i).bind fun _ _ => ih.bind fun _ _ => Done.const (NF.pure _)
theorem NF.mapM {ι : Type} {f : ι → E α} (h : ∀ i, NF (f i)) (l : List ι) : NF (l.mapM f) := by
  induction l with
  | nil => simp only [List.mapM_nil]; exact NF.pure _
  | cons i l ih => simp only [List.mapM_cons]; exact (h i).bind fun _ => ih.bind fun _ => NF.pure _

theorem CoreDone.concat {env : Env K} (h : CoreDone env) (as : List (Mat K)) (axis : Int) : Done fun n => concatM (ops env n) as axis := by
  unfold concatM
  refine Done.ite (Done.const ((nf_nConcat _ _).bind fun _ => NF.pure _)) (Done.ite (Done.const (NF.err (by decide))) ?_)
  split
  · exact Done.const (nf_mkTiled _ _ _)
  · exact Done.bind (Done.mapM h.dense as) fun _ _ => Done.const ((nf_nConcat _ _).bind fun _ => NF.pure _)
theorem C35_concat (as : List (Mat K)) (axis : Int) : Finishes c fun B => concatM B as axis := Done.finishes ((CoreDone.of c.nf).concat as axis)

theorem C35_tile (a : Mat K) (reps : List ℕ) : Finishes c fun B => tileM B a reps := by
  have h := CoreDone.of c.nf
  refine Done.finishes ?_
  unfold tileM
  split
  · exact Done.const (NF.ok _)
  · exact Done.const ((NF.guardE (by decide)).bind fun _ => nf_mkZero _)
  · exact Done.const ((NF.guardE (by decide)).bind fun _ => nf_mkConst _ _)
  · exact Done.bind (h.dense _) fun _ _ => Done.const (NF.pure _)
theorem C35_reshape (a : Mat K) (s : Shp) : Finishes c fun B => reshapeM B a s :=
  Done.finishes (Done.bind ((CoreDone.of c.nf).dense a) fun _ _ => Done.const (nf_nReshape _ _))

theorem nf_shapeBatchBroadcastL (as : List (Mat K)) : NF (shapeBatchBroadcastL as) :=
  (NF.mapM nf_shapeBatch _).bind fun _ => NF.foldlM (fun _ _ => nf_bsE _ _) _ _
theorem nf_alignBatchL (as : List (Mat K)) : NF (alignBatchL as) := (nf_shapeBatchBroadcastL as).bind fun _ => NF.mapM (fun _ => nf_broadcastBatchTo _ _) _
theorem nf_alignBatchRows (rows : List (List (Mat K))) : NF (alignBatchRows rows) :=
  (nf_shapeBatchBroadcastL _).bind fun _ => NF.mapM (fun _ => NF.mapM (fun _ => nf_broadcastBatchTo _ _) _) _
theorem nf_allE {l : List (E Bool)} (h : ∀ x ∈ l, NF x) : NF (allE l) := by
  induction l with
  | nil => exact NF.ok _
  | cons x l ih => exact (h x (by simp)).bind fun _ => NF.ite (ih fun y hy => h y (by simp [hy])) (NF.pure _)
theorem nf_blockCell (r c : ℕ) (x : Mat K) : NF (blockCell r c x) := (nf_shapeMatrix x).bind fun _ => NF.pure _

theorem CoreDone.blockDiagonal {env : Env K} (h : CoreDone env) (rows : List (List (Mat K))) : Done fun n => Verif.blockDiagonal (ops env n) rows := by
  unfold Verif.blockDiagonal
  refine Done.ite (Done.const (NF.pure _)) (Done.bind' (nf_allE ?_) fun _ _ => Done.ite (Done.const (NF.pure _)) ?_)
  · intro x hx
    simp only [List.mem_flatMap, List.mem_map] at hx
    obtain ⟨_, _, _, _, rfl⟩ := hx
    exact nf_blockCell _ _ _
  · exact Done.bind' (nf_shapeBatchBroadcastL _) fun _ _ => Done.bind' (NF.mapM (fun _ => nf_broadcastBatchTo _ _) _) fun _ _ => Done.bind (Done.mapM h.diag _) fun _ _ =>
      Done.const ((nf_nConcat _ _).bind fun _ => (nf_mkDiag _).bind fun _ => NF.pure _)

theorem nf_blockZero (rows : List (List (Mat K))) : NF (blockZero rows) := by
  unfold blockZero
  refine (nf_shapeBatchBroadcastL _).bind fun _ => NF.bind (NF.mapM (fun row => ?_) _) fun _ =>
    (NF.mapM (fun _ => (nf_shapeMatrix _).bind fun _ => NF.pure _) _).bind fun _ => nf_mkZero _
  split
  · exact NF.err (by decide)
  · exact (nf_shapeMatrix _).bind fun _ => NF.pure _

theorem CoreDone.block {env : Env K} (h : CoreDone env) (rows : List (List (Mat K))) : Done fun n => blockM (ops env n) rows := by
  unfold blockM
  split
  · exact Done.const (NF.err (by decide))
  · exact Done.const (NF.ok _)
  · refine Done.ite (Done.const (nf_blockZero _)) (Done.bind' (nf_alignBatchRows _) fun _ _ => Done.bind (h.blockDiagonal _) fun o _ => ?_)
    cases o with
    | some r => exact Done.const (NF.pure _)
    | none =>
      exact Done.bind' (nf_alignBatchRows _) fun _ _ => Done.bind (Done.mapM (fun _ => Done.mapM h.dense _) _) fun _ _ =>
        Done.const (((NF.mapM (fun _ => nf_nConcat _ _) _).bind fun _ => nf_nConcat _ _).bind fun _ => NF.pure _)
theorem C35_block (rows : List (List (Mat K))) : Finishes c fun B => blockM B rows := Done.finishes ((CoreDone.of c.nf).block rows)

theorem nf_bdRows (bt : Shp) (total : ℕ) (b : ℕ) (l : List (Tensor K × (ℕ × ℕ))) : NF (bdRows bt total b l) := by
  induction l generalizing b with
  | nil => exact NF.ok _
  | cons x l ih => exact (nf_nConcat _ _).bind fun _ => (ih _).bind fun _ => NF.pure _
theorem nf_blockDiagNum (ts : List (Tensor K)) : NF (blockDiagNum ts) := by
  unfold blockDiagNum
  refine (nf_alignBatchL _).bind fun _ => (NF.mapM (fun _ => nf_shapeMatrix _) _).bind fun _ => NF.bind ?_ fun _ => (nf_bdRows _ _ _ _).bind fun _ => nf_nConcat _ _
  unfold headBatch
  split
  · exact NF.err (by decide)
  · exact nf_shapeBatch _
theorem CoreDone.blockDiagList {env : Env K} (h : CoreDone env) (as : List (Mat K)) : Done fun n => Verif.blockDiagList (ops env n) as := by
  unfold Verif.blockDiagList
  split
  · exact Done.const (NF.err (by decide))
  · refine Done.ite (Done.const ((nf_blockDiagNum _).bind fun _ => NF.pure _)) ?_
    unfold blockDiagAM
    split
    · exact Done.const (NF.ok _)
    · refine Done.ite (Done.const ?_) (Done.ite ?_ ?_)
      · exact (nf_shapeBatchBroadcastL _).bind fun _ => (NF.mapM (fun _ => (nf_shapeMatrix _).bind fun _ => NF.pure _) _).bind fun _ =>
          (NF.mapM (fun _ => (nf_shapeMatrix _).bind fun _ => NF.pure _) _).bind fun _ => nf_mkZero _
      · exact Done.bind' (nf_alignBatchL _) fun _ _ => Done.bind (Done.mapM h.diag _) fun _ _ => Done.const ((nf_nConcat _ _).bind fun _ => nf_mkDiag _)
      · exact Done.bind (Done.mapM h.dense _) fun _ _ => Done.const ((nf_blockDiagNum _).bind fun _ => NF.pure _)
theorem nf_kronM (env : Env K) (a b : Mat K) : NF (kronM env a b) := by
  have hz : ∀ a b : Mat K, NF (kronZero a b) := fun a b => (nf_shapeBatchBroadcast _ _).bind fun _ => (nf_shapeMatrix _).bind fun _ => (nf_shapeMatrix _).bind fun _ => nf_mkZero _
  unfold kronM
  split
  · exact (NF.guardE (by decide)).bind fun _ => NF.pure _
  · dsimp only
    split
    · exact hz _ _
    · split
      · exact hz _ _
      · split
        · exact (nf_nMul _ _).bind fun _ => nf_mkConst _ _
        · exact NF.ok _
      · exact NF.ok _
theorem C35_kron (a b : Mat K) : Finishes c fun _ => kronM c.code a b := Done.finishes (Done.const (nf_kronM _ _ _))
theorem C35_block_diag (as : List (Mat K)) : Finishes c fun B => blockDiagM c.code B as := by
  have h := CoreDone.of c.nf
  refine Done.finishes ?_
  unfold blockDiagM
  split
  · exact Done.bind' (NF.seqFin fun _ => nf_kronM _ _ _) fun _ _ => h.blockDiagList _
  · exact h.blockDiagList _

/-! ### Taking rows, columns and batch elements -/

theorem nf_nTakeSel (t : Tensor K) (sel : Sel) (axis : Int) : NF (nTakeSel t sel axis) := by
  unfold nTakeSel
  refine (nf_axPos _ _).bind fun _ => NF.bind ?_ fun _ => NF.pure _
  cases sel with
  | idx l => exact nf_normIdxs _ _
  | mask l => exact NF.ite (NF.ok _) (NF.err (by decide))

theorem post_alignBatch2 (a b : Mat K) : Post (fun p => p.1.wt ≤ a.wt ∧ p.2.wt ≤ b.wt) (alignBatch2 a b) := by
  unfold alignBatch2
  exact Post.skip fun _ => (post_broadcastBatchTo _ _).bind fun x hx => (post_broadcastBatchTo _ _).bind fun y hy => Post.pure ⟨hx, hy⟩
theorem post_alignBatch3 (a b c : Mat K) : Post (fun p => p.1.wt ≤ a.wt ∧ p.2.1.wt ≤ b.wt ∧ p.2.2.wt ≤ c.wt) (alignBatch3 a b c) := by
  unfold alignBatch3
  exact Post.skip fun _ => Post.skip fun _ => Post.skip fun _ => (post_broadcastBatchTo _ _).bind fun x hx => (post_broadcastBatchTo _ _).bind fun y hy =>
    (post_broadcastBatchTo _ _).bind fun z hz => Post.pure ⟨hx, hy, hz⟩
theorem nf_alignBatch3 (a b c : Mat K) : NF (alignBatch3 a b c) := by
  unfold alignBatch3
  exact (nf_shapeBatchBroadcast _ _).bind fun _ => (nf_shapeBatch _).bind fun _ => (nf_bsE _ _).bind fun _ => (nf_broadcastBatchTo _ _).bind fun _ =>
    (nf_broadcastBatchTo _ _).bind fun _ => (nf_broadcastBatchTo _ _).bind fun _ => NF.pure _

/-- 1 for a Woodbury matrix. -/
def isWb : Mat K → ℕ
  | .wb .. => 1
  | _ => 0
theorem isWb_le (a : Mat K) : isWb a ≤ 1 := by cases a <;> simp [isWb]

theorem CoreDone.take {env : Env K} (h : CoreDone env) (sel : Sel) (N : ℕ) : ∀ (a : Mat K) (axis : Int), 2 * a.wt + isWb a < N →
    Done2 fun m n => takeM (ops env n) m a sel axis := by
  have hd : ∀ (a : Mat K) (axis : Int), Done2 fun _ n => takeDense (ops env n) a sel axis := fun a axis =>
    Done2.bindC (h.dense _) fun _ _ => Done2.const ((nf_nTakeSel _ _ _).bind fun _ => NF.pure _)
  induction N with
  | zero => intro a axis hN; omega
  | succ N ih =>
    intro a axis hN
    have ih' : ∀ (b : Mat K) (axis : Int), 2 * b.wt + 1 < N → Done2 fun m n => takeM (ops env n) m b sel axis := fun b ax hb =>
      ih b ax (by have := isWb_le b; omega)
    refine Done2.succ ?_
    show Done2 fun m n => takeStep (takeM (ops env n) m) (ops env n) a sel axis
    unfold takeStep
    refine Done2.bind' (nf_rankM _) fun n _ => Done2.bind' (nf_axPos _ _) fun k _ => ?_
    cases a with
    | num t => exact Done2.const ((nf_nTakeSel _ _ _).bind fun _ => NF.pure _)
    | zero bt r c => exact Done2.const (nf_mkZero _)
    | diag d => exact Done2.ite (hd _ _) (Done2.const ((nf_nTakeSel _ _ _).bind fun _ => nf_mkDiag _))
    | const t r c => exact Done2.ite (Done2.const (nf_mkConst _ _)) (Done2.ite (Done2.const (nf_mkConst _ _)) (Done2.const ((nf_nTakeSel _ _ _).bind fun _ => nf_mkConst _ _)))
    | lt t => exact Done2.const ((nf_nTakeSel _ _ _).bind fun _ => NF.ite (NF.pure _) (nf_mkLT _))
    | ut t => exact Done2.const ((nf_nTakeSel _ _ _).bind fun _ => NF.ite (NF.pure _) (nf_mkUT _))
    | lr l r m =>
      simp only [Mat.wt, isWb] at hN
      have hf : ∀ b : Mat K, 2 * b.wt + 1 < N → Done2 fun m n => takeFactor (takeM (ops env n) m) b sel := fun b hb => by
        unfold takeFactor
        split
        · exact Done2.const ((nf_nTakeSel _ _ _).bind fun _ => NF.pure _)
        · exact ih' _ _ hb
      unfold takeLR
      refine Done2.ite (Done2.bind (hf l (by omega)) fun _ _ => Done2.const (nf_mkLR _ _ _)) (Done2.ite (Done2.bind (hf r (by omega)) fun _ _ => Done2.const (nf_mkLR _ _ _)) ?_)
      refine Done2.bind' (nf_alignBatch3 _ _ _) fun p hp => ?_
      have := post_alignBatch3 _ _ _ p hp
      exact Done2.bind (ih' _ _ (by omega)) fun _ _ => Done2.bind (ih' _ _ (by omega)) fun _ _ => Done2.bind (ih' _ _ (by omega)) fun _ _ => Done2.const (nf_mkLR _ _ _)
    | wb d l r m =>
      simp only [Mat.wt, isWb] at hN
      refine Done2.ite ?_ ?_
      · exact Done2.bind (ih _ _ (by simp only [Mat.wt, isWb]; omega)) fun _ _ => Done2.bind (ih _ _ (by simp only [Mat.wt, isWb]; omega)) fun _ _ => Done2.core (h.add _ _)
      · refine Done2.bind' (nf_alignBatch2 _ _) fun p hp => ?_
        obtain ⟨h1, h2⟩ := post_alignBatch2 _ _ p hp
        have h3 : isWb p.2 = 0 := by
          simp only [alignBatch2, bind_ok_iff, pure_eq_ok] at hp
          obtain ⟨s, _, x, _, y, hy, rfl⟩ := hp
          simp only [broadcastBatchTo, bind_ok_iff] at hy
          obtain ⟨_, _, _, _, _, _, hy⟩ := hy
          rw [post_mkLR _ _ _ _ hy]
          rfl
        simp only [Mat.wt] at h1 h2
        exact Done2.bind (ih _ _ (by have := isWb_le p.1; omega)) fun _ _ => Done2.bind (ih _ _ (by omega)) fun _ _ => Done2.core (h.add _ _)
    | kron l r =>
      simp only [Mat.wt, isWb] at hN
      refine Done2.ite (hd _ _) (Done2.bind' (nf_alignBatch2 _ _) fun p hp => ?_)
      obtain ⟨h1, h2⟩ := post_alignBatch2 _ _ p hp
      exact Done2.bind (ih' _ _ (by omega)) fun _ _ => Done2.bind (ih' _ _ (by omega)) fun _ _ => Done2.const (NF.pure _)
    | dense t => exact hd _ _
    | tiled n blk reps ax => exact hd _ _

/-- The call finishes, where `f` has the recursion depth of `B.take` as an argument. -/
theorem Done2.finishes' {c : Cfg K} {f : ℕ → Ops K → E α} (h : Done2 fun m n => f m (ops c.code n)) : ∃ m, Finishes c (f m) := by
  obtain ⟨N, v, hv, h⟩ := h
  have := h N N le_rfl le_rfl
  refine ⟨N, ?_⟩
  cases v with
  | ok r => exact .inl ⟨r, N, this⟩
  | error e => exact .inr ⟨e, hv.real e rfl, N, this⟩

theorem C35_take (a : Mat K) (sel : Sel) (axis : Int) : ∃ m, Finishes c fun B => takeM B m a sel axis :=
  Done2.finishes' ((CoreDone.of c.nf).take sel _ a axis (Nat.lt_succ_self _))

theorem nf_nSubmatrix (t : Tensor K) (sel : Sel) : NF (nSubmatrix t sel) := (nf_nTakeSel _ _ _).bind fun _ => nf_nTakeSel _ _ _
theorem C35_submatrix (a : Mat K) (sel : Sel) : ∃ m, Finishes c fun B => submatrixM B m a sel := by
  have h := CoreDone.of c.nf
  refine Done2.finishes' (f := fun m B => submatrixM B m a sel) ?_
  have hl : ∀ l r m' : Mat K, Done2 fun m n => submatrixLR (ops c.code n) m l r m' sel := fun l r m' =>
    Done2.bind (h.take sel _ _ _ (Nat.lt_succ_self _)) fun _ _ => Done2.bind (h.take sel _ _ _ (Nat.lt_succ_self _)) fun _ _ => Done2.const (nf_mkLR _ _ _)
  have hd : ∀ a : Mat K, Done2 fun _ n => (do return mkDense (← nSubmatrix (← (ops c.code n).dense a) sel) : E (Mat K)) := fun a =>
    Done2.bindC (h.dense _) fun _ _ => Done2.const ((nf_nSubmatrix _ _).bind fun _ => NF.pure _)
  cases a with
  | num t => exact Done2.const ((nf_nSubmatrix _ _).bind fun _ => NF.pure _)
  | zero bt r c => exact Done2.const (NF.ok _)
  | diag d => exact Done2.const ((nf_nTakeSel _ _ _).bind fun _ => nf_mkDiag _)
  | const t r c => exact Done2.const (nf_mkConst _ _)
  | lt t => exact Done2.const ((nf_nSubmatrix _ _).bind fun _ => nf_mkLT _)
  | ut t => exact Done2.const ((nf_nSubmatrix _ _).bind fun _ => nf_mkUT _)
  | lr l r m => exact hl _ _ _
  | wb d l r m =>
    refine Done2.bind' (nf_nTakeSel _ _ _) fun _ _ => Done2.bind' (NF.guardE (by decide)) fun _ _ => Done2.bind (hl _ _ _) fun y _ => Done2.const ?_
    split
    · exact nf_mkWB _ _ _ _
    · exact NF.err (by decide)
  | kron l r => exact hd _
  | dense t => exact hd _
  | tiled n blk reps ax => exact hd _

/-! ### Linear algebra -/

theorem nf_wbParts (x : Mat K) : NF (wbParts x) := by
  unfold wbParts
  split
  · exact NF.ok _
  · exact NF.err (by decide)

include hlin

theorem C35_inv (a : Mat K) : LFinishes c lin fun _ L => L.inv a := Done2.finishes (done_inv c.nf hlin _ a (Nat.lt_succ_self _))
theorem C35_pd_inv (a : Mat K) : LFinishes c lin fun _ L => L.pdInv a := Done2.finishes (done_pdInv c.nf hlin _ a (Nat.lt_succ_self _))
theorem C35_cholesky (a : Mat K) : LFinishes c lin fun _ L => L.chol a := Done2.finishes (done_chol c.nf hlin a)
theorem C35_solve (a b : Mat K) : LFinishes c lin fun _ L => L.solve a b := Done2.finishes (done_solve c.nf hlin a b)
theorem C35_cholesky_solve (a b : Mat K) : LFinishes c lin fun _ L => L.cholSolve a b := Done2.finishes (done_cholSolve c.nf hlin _ a b (Nat.lt_succ_self _))
theorem C35_root (a : Mat K) : LFinishes c lin fun _ L => L.root a := Done2.finishes (done_root c.nf hlin a)

theorem done_solvePair (same : Bool) (a b d : Mat K) (k : Mat K → Mat K → ℕ → ℕ → E α) (hk : ∀ x y, Done2 (k x y)) :
    Done2 fun m n => (do
      let ch ← (lops c.code lin (ops c.code n) m).chol a
      let cb ← (lops c.code lin (ops c.code n) m).solve ch b
      let cc ← if same then pure cb else (lops c.code lin (ops c.code n) m).solve ch d
      k cb cc m n) := by
  refine Done2.bind (done_chol c.nf hlin a) fun ch _ => Done2.bind (done_solve c.nf hlin _ _) fun cb _ => ?_
  cases same
  · exact Done2.bind (done_solve c.nf hlin _ _) fun cc _ => hk _ _
  · exact Done2.bind' (NF.pure cb) fun cc _ => hk _ _

theorem done_iqfDiag (same : Bool) (a b d : Mat K) : Done2 fun m n => iqfDiagM (ops c.code n) (lops c.code lin (ops c.code n) m) same a b d := by
  have h := CoreDone.of c.nf
  unfold iqfDiagM
  split
  · exact Done2.bind (done_pdInv c.nf hlin _ _ (Nat.lt_succ_self _)) fun _ _ => Done2.bindC (h.matmul _ _ _ _) fun _ _ => Done2.core (h.matmulDiag _ _ _ _)
  · exact done_solvePair c hlin same _ b d _ fun _ _ => Done2.core (h.matmulDiag _ _ _ _)

theorem C35_iqf (same : Bool) (a b d : Mat K) : LFinishes c lin fun B L => iqfM B L same a b d := by
  have h := CoreDone.of c.nf
  refine Done2.finishes ?_
  unfold iqfM
  split
  · exact Done2.bind (done_pdInv c.nf hlin _ _ (Nat.lt_succ_self _)) fun _ _ => Done2.core (h.matmul3 _ _ _ _ _ _)
  · exact done_solvePair c hlin same _ b d _ fun _ _ => Done2.core (h.matmul _ _ _ _)
theorem C35_iqf_diag (same : Bool) (a b d : Mat K) : LFinishes c lin fun B L => iqfDiagM B L same a b d := Done2.finishes (done_iqfDiag c hlin same a b d)

theorem C35_ratio (a b : Mat K) : LFinishes c lin fun B L => ratioM B L a b := by
  have h := CoreDone.of c.nf
  refine Done2.finishes ?_
  unfold ratioM
  split
  · exact Done2.bind (done_pdInv c.nf hlin _ _ (Nat.lt_succ_self _)) fun _ _ => Done2.bind' (nf_wbParts _) fun _ _ => Done2.bindC (h.matmul _ _ _ _) fun _ _ =>
      Done2.bindC (h.trace _) fun _ _ => Done2.bindC (h.matmul _ _ _ _) fun _ _ => Done2.bindC (h.trace _) fun _ _ => Done2.bindC (h.matmul _ _ _ _) fun _ _ =>
      Done2.bindC (h.trace _) fun _ _ => Done2.const ((nf_nAdd _ _).bind fun _ => nf_nAdd _ _)
  · exact Done2.bind (done_pdInv c.nf hlin _ _ (Nat.lt_succ_self _)) fun _ _ => Done2.bind' (nf_wbParts _) fun _ _ => Done2.bindC (h.matmul _ _ _ _) fun _ _ =>
      Done2.bindC (h.trace _) fun _ _ => Done2.bindC (h.matmul _ _ _ _) fun _ _ => Done2.bindC (h.trace _) fun _ _ => Done2.const (nf_nAdd _ _)
  · exact Done2.bind (done_chol c.nf hlin _) fun _ _ => Done2.bind (done_iqfDiag c hlin _ _ _ _) fun _ _ => Done2.const (nf_nSum _ _)

theorem C35_sample {σ : Type} (randn : σ → Shp → σ × Tensor K) (num : ℕ) (st : σ) (a : Mat K) : LFinishes c lin fun B L => sampleM B L randn num st a := by
  have h := CoreDone.of c.nf
  refine Done2.finishes ?_
  have h1 : ∀ (st : σ) (a : Mat K), Done2 fun m n => (do
      let ch ← (lops c.code lin (ops c.code n) m).chol a
      let bt ← shapeBatch a
      let k := dim (← shape ch) 0
      let x := randn st (num :: k :: bt)
      let s ← (ops c.code n).matmul false false ch (.num x.2)
      (pure (x.1, s) : E (σ × Mat K))) := fun st a =>
    Done2.bind (done_chol c.nf hlin _) fun _ _ => Done2.bind' (nf_shapeBatch _) fun _ _ => Done2.bind' (nf_shape _) fun _ _ => Done2.bindC (h.matmul _ _ _ _) fun _ _ => Done2.const (NF.pure _)
  unfold sampleM
  split
  · exact Done2.bind (h1 _ _) fun _ _ => Done2.bind (h1 _ _) fun _ _ => Done2.bindC (h.add _ _) fun _ _ => Done2.const (NF.pure _)
  · exact h1 _ _

end

/-! ### The log-determinant -/

/-- A numeric matrix or a Dense matrix. -/
def IsND (x : Mat K) : Prop := (∃ t, x = .num t ∧ t.rank ≠ 0) ∨ ∃ t, x = .dense t

/-- Matrices whose log-determinant finishes: no Zero or Constant matrix may come up as a Cholesky factor. -/
inductive LdFin : Mat K → Prop
  | num (t) : LdFin (.num t)
  | dense (t) : LdFin (.dense t)
  | diag (t) : LdFin (.diag t)
  | lt (t) : LdFin (.lt t)
  | ut (t) : LdFin (.ut t)
  | tiled (n) (blk : Fin n → Mat K) (reps) (axis) : LdFin (.tiled n blk reps axis)
  | kron {l r} : LdFin l → LdFin r → LdFin (.kron l r)
  | wb (d) {l r m} : IsND l → IsND r → LdFin m → LdFin (.wb d l r m)
  | lr {l} (r) {m} : IsND l → IsND m ∨ (∃ d, m = .diag d) → LdFin (.lr l r m)

section
variable {env : Env K}

theorem IsND.convert (env : Env K) {x : Mat K} (h : IsND x) : ∃ t, convertAM env x = .dense t := by
  obtain ⟨t, rfl, h0⟩ | ⟨t, rfl⟩ := h
  · simp only [convertAM]
    rw [if_neg h0]
    exact ⟨_, rfl⟩
  · exact ⟨t, rfl⟩

theorem convertAM_diag (env : Env K) (d : Tensor K) : convertAM env (.diag d) = .diag d := rfl
theorem convertAM_lt (env : Env K) (d : Tensor K) : convertAM env (.lt d) = .lt d := rfl

theorem nd_mul (n : ℕ) (s t : Tensor K) : Post (fun r => ∃ t, r = .dense t) ((ops env n).mul (.dense s) (.dense t)) := by
  cases n with
  | zero => exact Post.error
  | succ n => exact Post.skip fun _ => Post.pure ⟨_, rfl⟩

theorem nd_matmul (n : ℕ) (ta tb : Bool) {x y : Mat K} (hx : IsND x) (hy : IsND y) : Post IsND ((ops env n).matmul ta tb x y) := by
  cases n with
  | zero => exact Post.error
  | succ n =>
    show Post _ (stepMatmul env (ops env n) ta tb x y)
    unfold stepMatmul
    split
    · unfold nMatmul
      split_ifs
      · exact Post.pure (.inl ⟨_, rfl, by simp [Tensor.rank]⟩)
      · exact Post.error
    · obtain ⟨s, hs⟩ := hx.convert env
      obtain ⟨t, ht⟩ := hy.convert env
      simp only [hs, ht, Mat.kind, mmId]
      exact Post.skip fun _ => Post.pure (.inr ⟨_, rfl⟩)

theorem nd_matmulDiag (n : ℕ) (ta tb : Bool) {x : Mat K} (hx : IsND x) (d : Tensor K) : Post IsND ((ops env n).matmul ta tb x (.diag d)) := by
  cases n with
  | zero => exact Post.error
  | succ n =>
    show Post _ (stepMatmul env (ops env n) ta tb x (.diag d))
    obtain ⟨s, hs⟩ := hx.convert env
    simp only [stepMatmul, hs, convertAM_diag, Mat.kind, mmId]
    refine Post.skip fun _ => Post.bind (P := fun z : Mat K => ∃ t, z = .dense t) ?_ ?_
    · unfold trM
      exact Post.ite (Post.ok ⟨_, rfl⟩) (Post.ok ⟨_, rfl⟩)
    · rintro _ ⟨t, rfl⟩
      exact (nd_mul n _ _).mono fun r h => .inr h

theorem nd_diagMatmul (n : ℕ) (ta tb : Bool) {x : Mat K} (hx : IsND x) (d : Tensor K) : Post IsND ((ops env n).matmul ta tb (.diag d) x) := by
  cases n with
  | zero => exact Post.error
  | succ n =>
    show Post _ (stepMatmul env (ops env n) ta tb (.diag d) x)
    obtain ⟨s, hs⟩ := hx.convert env
    simp only [stepMatmul, hs, convertAM_diag, Mat.kind, mmId]
    refine Post.skip fun _ => Post.bind (P := fun z : Mat K => ∃ t, z = .dense t) ?_ ?_
    · unfold trM
      exact Post.ite (Post.ok ⟨_, rfl⟩) (Post.ok ⟨_, rfl⟩)
    · rintro _ ⟨t, rfl⟩
      exact (nd_mul n _ _).mono fun r h => .inr h

theorem nd_matmulLT (n : ℕ) {x : Mat K} (hx : IsND x) {t : Tensor K} (h0 : t.rank ≠ 0) : Post IsND ((ops env n).matmul false false x (.lt t)) := by
  cases n with
  | zero => exact Post.error
  | succ n =>
    show Post _ (stepMatmul env (ops env n) false false x (.lt t))
    obtain ⟨s, hs⟩ := hx.convert env
    simp only [stepMatmul, hs, convertAM_lt, Mat.kind, mmId]
    exact nd_matmul n _ _ (.inr ⟨_, rfl⟩) (.inl ⟨_, rfl, h0⟩)

theorem nd_matmul3 (n : ℕ) {r l : Mat K} (hr : IsND r) (hl : IsND l) (d : Tensor K) : Post IsND (matmul3 (ops env n) true false false r (.diag d) l) := by
  unfold matmul3
  refine Post.skip fun _ => Post.skip fun _ => Post.skip fun _ => Post.ite ?_ ?_
  · exact (nd_matmulDiag n _ _ hr d).bind fun x hx => nd_matmul n _ _ hx hl
  · exact (nd_diagMatmul n _ _ hl d).bind fun x hx => nd_matmul n _ _ hr hx

theorem nd_add (n : ℕ) (x : Mat K) {y : Mat K} (hy : IsND y) : Post (fun r => (∃ t, r = .num t) ∨ ∃ t, r = .dense t) ((ops env n).add x y) := by
  cases n with
  | zero => exact Post.error
  | succ n =>
    show Post _ (stepAdd env (ops env n) x y)
    unfold stepAdd
    split
    · exact Post.skip fun _ => Post.pure (.inl ⟨_, rfl⟩)
    · obtain ⟨t, ht⟩ := hy.convert env
      simp only [ht]
      generalize convertAM env x = z
      have hd : ∀ m : AddM, m = .amAm ∨ m = .denseDense ∨ m = .constAm ∨ m = .zeroAm → Post (fun r => (∃ t, r = .num t) ∨ ∃ t, r = .dense t) (addRun env (ops env n) m z (.dense t)) := by
        rintro m (rfl | rfl | rfl | rfl)
        · exact Post.skip fun _ => Post.skip fun _ => Post.skip fun _ => Post.pure (.inr ⟨_, rfl⟩)
        · cases z <;> first | exact Post.error | exact Post.skip fun _ => Post.pure (.inr ⟨_, rfl⟩)
        · cases z <;> first | exact Post.error | exact Post.skip fun _ => Post.skip fun _ => Post.skip fun _ => Post.skip fun _ => Post.pure (.inr ⟨_, rfl⟩)
        · refine Post.skip fun _ => Post.skip fun _ => Post.skip fun _ => ?_
          cases z
          case zero bt r c =>
            refine Post.skip fun s => ?_
            unfold broadcastTo
            refine Post.skip fun _ => Post.ite (Post.ok (.inr ⟨_, rfl⟩)) ?_
            exact Post.ite (Post.skip fun _ => Post.pure (.inr ⟨_, rfl⟩)) (Post.skip fun _ => Post.skip fun _ => Post.pure (.inr ⟨_, rfl⟩))
          all_goals exact Post.error
      split
      · rename_i ka kb h1 h2
        obtain rfl : kb = .dense := by simpa [Mat.kind] using h2.symm
        apply hd
        cases ka <;> simp [addId]
      · exact Post.error

variable {lin : LinEnv K} (he : env.NF) (hlin : lin.Total)
include he hlin

theorem done_logdetTri {a : Mat K} (ha : (∃ t, a = .diag t) ∨ (∃ t, a = .lt t) ∨ ∃ t, a = .ut t) : Done2 fun m n => (lops env lin (ops env n) m).logdet a := by
  have hc : CoreDone env := CoreDone.of he
  have h : ∀ a : Mat K, Done2 fun _ n => logdetTri lin (ops env n) a := fun a =>
    Done2.bindC (hc.diag _) fun _ _ => Done2.const ((nf_nLog _ _).bind fun _ => nf_nSum _ _)
  obtain ⟨t, rfl⟩ | ⟨t, rfl⟩ | ⟨t, rfl⟩ := ha <;> exact Done2.succ (h _)

theorem done_logdetND {a : Mat K} (ha : (∃ t, a = .num t) ∨ ∃ t, a = .dense t) : Done2 fun m n => (lops env lin (ops env n) m).logdet a := by
  obtain ⟨t, rfl⟩ | ⟨t, rfl⟩ := ha
  · exact Done2.succ (Done2.const (hlin.logdet t))
  · refine Done2.succ (Done2.bind (done_chol he hlin _) fun ch hch => ?_)
    obtain ⟨t', rfl, _⟩ := ok_of_two hch fun m n => (lops_light hlin (ops_light env n) (ops_lightMd env n) m).cholDense t
    exact Done2.bind (done_logdetTri he hlin (.inr (.inl ⟨_, rfl⟩))) fun _ _ => Done2.const (nf_nMul _ _)

theorem done_logdet {a : Mat K} (ha : LdFin a) (hchol : ∀ t r, lin.chol t = .ok r → r.rank = t.rank) : Done2 fun m n => (lops env lin (ops env n) m).logdet a := by
  have hc : CoreDone env := CoreDone.of he
  have hl : ∀ m n, (lops env lin (ops env n) m).Light := fun m n => lops_light hlin (ops_light env n) (ops_lightMd env n) m
  induction ha with
  | num t => exact done_logdetND he hlin (.inl ⟨_, rfl⟩)
  | dense t => exact done_logdetND he hlin (.inr ⟨_, rfl⟩)
  | diag t => exact done_logdetTri he hlin (.inl ⟨_, rfl⟩)
  | lt t => exact done_logdetTri he hlin (.inr (.inl ⟨_, rfl⟩))
  | ut t => exact done_logdetTri he hlin (.inr (.inr ⟨_, rfl⟩))
  | tiled n blk reps ax =>
    refine Done2.succ (Done2.bind (done_chol he hlin _) fun ch hch => ?_)
    exact (ok_of_two hch fun m n => (hl m n).cholTiled _ _ _ _).elim
  | kron _ _ ihl ihr =>
    exact Done2.succ (Done2.bind' (nf_assertSquare _) fun _ _ => Done2.bind' (nf_assertSquare _) fun _ _ => Done2.bind' (nf_shapeMatrix _) fun _ _ =>
      Done2.bind' (nf_shapeMatrix _) fun _ _ => Done2.bind ihl fun _ _ => Done2.bind' (nf_nMul _ _) fun _ _ => Done2.bind ihr fun _ _ =>
      Done2.const ((nf_nMul _ _).bind fun _ => nf_nAdd _ _))
  | @wb d l r m hl' hr' _ ih =>
    refine Done2.succ (Done2.bind (done_logdetTri he hlin (.inl ⟨_, rfl⟩)) fun _ _ => Done2.bind ih fun _ _ => Done2.bind ?_ fun s hs => ?_)
    · unfold pdSchurM
      exact Done2.bind (done_inv he hlin _ _ (Nat.lt_succ_self _)) fun _ _ => Done2.bindC (hc.matmul3 _ _ _ _ _ _) fun _ _ =>
        Done2.bind (done_pdInv he hlin _ _ (Nat.lt_succ_self _)) fun _ _ => Done2.core (hc.add _ _)
    · have := ok_of_two (P := fun r => (∃ t, r = .num t) ∨ ∃ t, r = .dense t) hs fun m' n => by
        unfold pdSchurM
        refine ((hl m' n).invDiag d).bind ?_
        rintro _ ⟨_, d', rfl⟩
        exact (nd_matmul3 n hr' hl' d').bind fun y hy => Post.skip fun x => nd_add n x hy
      exact Done2.bind (done_logdetND he hlin this) fun _ _ => Done2.const ((nf_nAdd _ _).bind fun _ => nf_nAdd _ _)
  | @lr l r m hl' hm =>
    refine Done2.succ (Done2.bind (done_chol he hlin _) fun ch hch => ?_)
    have : IsND ch := by
      obtain ⟨m', n, hch⟩ := hch
      cases m' with
      | zero => cases hch
      | succ m' =>
        refine (show Post IsND (stepChol lin (ops env n) (lops env lin (ops env n) m') (.lr l r m)) from ?_) ch hch
        refine Post.skip fun _ => ?_
        cases m' with
        | zero => exact Post.bind (P := fun _ => False) Post.error fun _ h => h.elim
        | succ m' =>
          obtain (⟨t, rfl, h0⟩ | ⟨t, rfl⟩) | ⟨d, rfl⟩ := hm
          · refine Post.bind (P := fun z => ∃ t', z = .num t' ∧ t'.rank ≠ 0) ?_ fun z hz => nd_matmul n _ _ hl' (.inl hz)
            exact Post.bind (P := fun z => z.rank ≠ 0) (fun z hz => by show z.rank ≠ 0; rw [hchol t z hz]; exact h0) fun z hz => Post.pure ⟨_, rfl, hz⟩
          · refine ((hl (m'+1) n).cholDense t).bind ?_
            rintro _ ⟨t', rfl, h0⟩
            refine nd_matmulLT n hl' ?_
            intro h
            simp [Mat.wt, h] at h0
          · refine Post.bind (P := fun z => ∃ d', z = .diag d') ?_ ?_
            · exact Post.skip fun _ => Post.skip fun _ => (post_mkDiag _).mono fun _ h => h.2
            · rintro _ ⟨d', rfl⟩
              exact nd_matmulDiag n _ _ hl' d'
    refine Done2.bind (done_logdetND he hlin ?_) fun _ _ => Done2.const (nf_nMul _ _)
    obtain ⟨t, rfl, _⟩ | h := this
    · exact .inl ⟨_, rfl⟩
    · exact .inr h

end

/-- C35.  The log-determinant finishes for numeric, Dense, Diagonal, triangular and TiledBlocks matrices, Kronecker products of such matrices, and LowRank and Woodbury
matrices with numeric or Dense factors. -/
theorem C35_logdet (c : Cfg K) {lin : LinEnv K} (hlin : lin.Total) (hchol : ∀ t r, lin.chol t = .ok r → r.rank = t.rank) {a : Mat K} (ha : LdFin a) :
    LFinishes c lin fun _ L => L.logdet a := Done2.finishes (done_logdet c.nf hlin ha hchol)

theorem not_finishes {c : Cfg K} {lin : LinEnv K} {f : Ops K → LOps K → E α} (h : ∀ m n, f (ops c.code n) (lops c.code lin (ops c.code n) m) = .error .fuel) :
    ¬ LFinishes c lin f := by
  rintro (⟨r, m, n, h'⟩ | ⟨e, m, he, n, h'⟩)
  · have := (h m n).symm.trans h'
    cases this
  · have := (h m n).symm.trans h'
    cases this
    exact he.1 rfl

/-- A matrix whose Cholesky factor is again such a matrix: its log-determinant never finishes. -/
theorem logdet_loops {env : Env K} {lin : LinEnv K} {P : Mat K → Prop}
    (hs : ∀ a, P a → ∀ B L, stepLogdet lin B L a = (do nMul (scalarT 2) (← L.logdet (← L.chol a)) : E (Tensor K)))
    (hP : ∀ a, P a → ∀ B L, ∃ b, P b ∧ stepChol lin B L a = .ok b) (m n : ℕ) : ∀ a, P a → (lops env lin (ops env n) m).logdet a = .error .fuel := by
  induction m with
  | zero => exact fun _ _ => rfl
  | succ m ih =>
    intro a ha
    refine (hs a ha _ _).trans ?_
    cases m with
    | zero => rfl
    | succ m =>
      obtain ⟨b, hb, e⟩ := hP a ha (ops env n) (lops env lin (ops env n) m)
      have e : (lops env lin (ops env n) (m+1)).chol a = .ok b := e
      rw [e]
      show (do nMul (scalarT 2) (← (lops env lin (ops env n) (m+1)).logdet b) : E (Tensor K)) = _
      rw [ih b hb]
      rfl

/-- C35, refuted for Zero matrices: `B.logdet` of a square Zero matrix calls itself with a Zero matrix again and never finishes. -/
theorem C35_logdet_zero_refuted (c : Cfg K) (lin : LinEnv K) (bt : Shp) (k : ℕ) : ¬ LFinishes c lin fun _ L => L.logdet (.zero bt k k) := by
  refine not_finishes fun m n => logdet_loops (P := fun a => a = .zero bt k k) ?_ ?_ m n _ rfl
  · rintro _ rfl B L
    rfl
  · rintro _ rfl B L
    refine ⟨_, rfl, ?_⟩
    simp [stepChol, assertSquare, assertMatrix, rankM, shape, shapeBatch, shapeMatrix, shp, guardE]

/-- C35, refuted for Constant matrices: `B.logdet` of a square Constant matrix with a positive value calls itself with a Constant matrix again and never finishes
(for any backend in which positive numbers have positive square roots). -/
theorem C35_logdet_constant_refuted [IsStrictOrderedRing K] (c : Cfg K) (lin : LinEnv K) (hsq : ∀ x : K, 0 < x → ∃ y, 0 < y ∧ lin.sqrt x = some y) {x : K} (hx : 0 < x) {k : ℕ}
    (hk : 0 < k) : ¬ LFinishes c lin fun _ L => L.logdet (.const (scalarT x) k k) := by
  refine not_finishes fun m n => logdet_loops (P := fun a => ∃ x : K, 0 < x ∧ a = .const (scalarT x) k k) ?_ ?_ m n _ ⟨x, hx, rfl⟩
  · rintro _ ⟨x, _, rfl⟩ B L
    rfl
  · rintro _ ⟨x, hx, rfl⟩ B L
    have hq : ∀ x : K, 0 < x → ∃ y, 0 < y ∧ nSqrt lin (scalarT x) = .ok (scalarT y) := by
      intro x hx
      obtain ⟨y, hy, e⟩ := hsq x hx
      refine ⟨y, hy, ?_⟩
      have hg : ∀ i, (scalarT x).get i = x := fun i => rfl
      unfold nSqrt
      rw [if_pos (fun n _ => by rw [hg, e]; rfl)]
      refine congrArg Except.ok (Tensor.ext_inRange rfl fun i hi => ?_)
      rw [tmap_get (t := scalarT x) _ hi (Fits.refl _), hg, e]
      rfl
    obtain ⟨y, hy, e1⟩ := hq x hx
    obtain ⟨z, hz, e2⟩ := hq (k : K) (by exact_mod_cast hk)
    have e3 : nDiv (scalarT y) (scalarT z) = .ok (scalarT (y / z)) := by
      unfold nDiv
      rw [if_pos (show Compat (scalarT y).sh (scalarT z).sh from Compat.refl _), if_pos (show ∀ n < size (scalarT z).sh, (scalarT z).get (unlin (scalarT z).sh n) ≠ 0 from fun n _ => hz.ne')]
      refine congrArg Except.ok (Tensor.ext_inRange rfl fun i hi => ?_)
      have hi : InRange (bsh [] []) i := hi
      rw [zipB_get _ hi (Fits.refl _) (Fits.refl _)]
      rfl
    refine ⟨_, ⟨y / z, div_pos hy hz, rfl⟩, ?_⟩
    have e0 : assertSquare (.const (scalarT x) k k) = .ok () := by
      simp [assertSquare, assertMatrix, rankM, shape, shapeBatch, shapeMatrix, shp, guardE]
    simp only [stepChol, e0, e1, e2, e3, mkConst, bind_ok']

/-! ### Non-vacuity -/

namespace Ex

/-- The concrete backend meets the assumption of the theorems. -/
theorem lin_total : lin.Total := by
  refine ⟨fun t => ?_, fun t => ?_, fun s t => ?_, fun l s t => ?_, fun t => ?_, fun t => ?_, fun t r h => ?_⟩
  · show NF (invQ t); unfold invQ; nf
  · show NF (cholQ t); unfold cholQ; nf
  · show NF (solveQ s t); unfold solveQ; nf
  · show NF (trisolveQ l s t); unfold trisolveQ; nf
  · show NF (logdetQ t); unfold logdetQ; nf
  · show NF (svdQ t); unfold svdQ; nf
  · obtain ⟨h1, h3, h4, _⟩ := lin_lawful.inv h
    simp [Tensor.rank, h4]

/- A Woodbury matrix is inverted through its Schur complement, which needs several levels of recursion; the theorem says that it finishes. -/
example : LFinishes cfg lin fun _ L => L.inv W := C35_inv cfg lin_total W
example : LdFin W := .wb _ (.inl ⟨_, rfl, by decide⟩) (.inl ⟨_, rfl, by decide⟩) (.num _)

/- The real numbers have square roots, so that `B.logdet(Constant(1, 2, 2))` never finishes there. -/
example (lin : LinEnv ℝ) (h : lin.sqrt = fun x => some (Real.sqrt x)) (c : Cfg ℝ) : ¬ LFinishes c lin fun _ L => L.logdet (.const (scalarT 1) 2 2) :=
  C35_logdet_constant_refuted c lin (fun x hx => ⟨Real.sqrt x, Real.sqrt_pos.2 hx, by rw [h]⟩) one_pos two_pos

end Ex

end Verif
