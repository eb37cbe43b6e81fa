/-
The functions outside the recursive core never run out of fuel; limits of runs of the core as the fuel grows.
-/
import Verif.Term

set_option linter.unusedSectionVars false

namespace Verif

variable {K : Type} [Field K] [LinearOrder K] {α β : Type}

/-- The run does not stop for lack of fuel (nor at an inexact merge): if it stops, it raises. -/
structure NF (x : E α) : Prop where
  real : ∀ e, x = .error e → e.real

theorem NF.ne {x : E α} (h : NF x) : x ≠ .error .fuel := fun h' => (h.real _ h').1 rfl

theorem NF.bind {x : E α} {f : α → E β} (h : NF x) (hf : ∀ v, NF (f v)) : NF (x >>= f) := by
  cases x with
  | error e => exact ⟨fun e' h' => h.real e' (by simpa [Bind.bind, Except.bind] using h')⟩
  | ok v => exact hf v
theorem NF.ok (v : α) : NF (.ok v : E α) := ⟨by simp⟩
theorem NF.pure (v : α) : NF (Pure.pure v : E α) := NF.ok v
theorem NF.err {e : Err} (h : e.real) : NF (.error e : E α) := ⟨by rintro _ ⟨⟩; exact h⟩
theorem NF.ite {c : Prop} [Decidable c] {x y : E α} (h : NF x) (h' : NF y) : NF (if c then x else y) := by split_ifs <;> assumption
theorem NF.seqFin {n : ℕ} {f : Fin n → E α} (h : ∀ i, NF (f i)) : NF (Verif.seqFin f) := by
  induction n with
  | zero => exact NF.ok _
  | succ n ih => exact (h 0).bind fun _ => (ih fun i => h i.succ).bind fun _ => NF.pure _
theorem NF.guardE {c : Prop} [Decidable c] {e : Err} (h : e.real) : NF (Verif.guardE c e) := NF.ite (NF.ok _) (NF.err h)
theorem NF.foldlM {f : β → α → E β} (h : ∀ b a, NF (f b a)) (l : List α) (b : β) : NF (l.foldlM f b) := by
  induction l generalizing b with
  | nil => exact NF.pure _
  | cons a l ih => rw [List.foldlM_cons]; exact (h b a).bind fun _ => ih _

/-- Closes goals `NF` of programs without recursive calls. -/
macro "nf" : tactic => `(tactic|
  repeat' first
    | with_reducible assumption
    | with_reducible exact NF.ok _
    | with_reducible exact NF.pure _
    | with_reducible exact NF.err (by decide)
    | with_reducible exact NF.guardE (by decide)
    | with_reducible apply_assumption
    | refine NF.ite ?_ ?_
    | refine NF.bind ?_ fun _ => ?_
    | refine NF.seqFin fun _ => ?_
    | split)

theorem nf_nZip (f : K → K → K) (a b : Tensor K) : NF (nZip f a b) := by unfold nZip; nf
theorem nf_nAdd (a b : Tensor K) : NF (nAdd a b) := nf_nZip _ _ _
theorem nf_nMul (a b : Tensor K) : NF (nMul a b) := nf_nZip _ _ _
theorem nf_nBroadcastTo (s : Shp) (t : Tensor K) : NF (nBroadcastTo s t) := by unfold nBroadcastTo; nf
theorem nf_nBroadcastBatchTo (s : Shp) (t : Tensor K) : NF (nBroadcastBatchTo s t) := by
  have := nf_nBroadcastTo (t.cols :: t.rows :: s) t
  unfold nBroadcastBatchTo; nf
theorem nf_nMatmul (ta tb : Bool) (a b : Tensor K) : NF (nMatmul ta tb a b) := by unfold nMatmul; nf
theorem nf_axPos (r : ℕ) (a : Int) : NF (axPos r a) := by unfold axPos; nf
theorem nf_nSum (t : Tensor K) (a : Option Int) : NF (nSum t a) := by
  unfold nSum
  have := nf_axPos t.rank
  nf
theorem nf_nReshape (s : Shp) (t : Tensor K) : NF (nReshape s t) := by unfold nReshape; nf
theorem nf_normIdx (n : ℕ) (i : Int) : NF (normIdx n i) := by unfold normIdx; nf
theorem nf_normIdxs (n : ℕ) (l : List Int) : NF (normIdxs n l) := by
  induction l with
  | nil => exact NF.ok _
  | cons i l ih => exact (nf_normIdx n i).bind fun _ => ih.bind fun _ => NF.pure _
theorem nf_nTake (t : Tensor K) (l : List Int) (a : Int) : NF (nTake t l a) :=
  (nf_axPos _ _).bind fun _ => (nf_normIdxs _ _).bind fun _ => NF.pure _
theorem nf_nConcat (a : Int) (l : List (Tensor K)) : NF (nConcat a l) := by
  unfold nConcat
  have := nf_axPos
  nf
theorem nf_nSqueeze (k : ℕ) (t : Tensor K) : NF (nSqueeze k t) := by unfold nSqueeze; nf
theorem nf_bsE (s t : Shp) : NF (bsE s t) := by unfold bsE; nf
theorem nf_assertCompatible (s t : Shp) : NF (assertCompatible s t) := NF.guardE (by decide)
theorem nf_tiledShape {n : ℕ} (sh : Fin n → Shp) (reps : Fin n → ℕ) (a : Int) : NF (tiledShape sh reps a) := by
  unfold tiledShape
  refine NF.ite (NF.err (by decide)) ?_
  dsimp only
  split
  · exact NF.err (by decide)
  · exact (NF.foldlM nf_bsE _ _).bind fun _ => NF.pure _

theorem nf_shp (a : Mat K) : NF (shp a).1 ∧ NF (shp a).2 := by
  have := nf_bsE
  induction a with
  | lr l r m ihl ihr ihm =>
    obtain ⟨l1, l2⟩ := ihl; obtain ⟨r1, r2⟩ := ihr; obtain ⟨m1, m2⟩ := ihm
    constructor <;> simp only [shp] <;> nf
  | wb d l r m ihl ihr ihm =>
    obtain ⟨l1, l2⟩ := ihl; obtain ⟨r1, r2⟩ := ihr; obtain ⟨m1, m2⟩ := ihm
    constructor <;> simp only [shp] <;> nf
  | kron l r ihl ihr =>
    obtain ⟨l1, l2⟩ := ihl; obtain ⟨r1, r2⟩ := ihr
    constructor <;> simp only [shp] <;> nf
  | tiled n blk reps ax ih =>
    have h1 := fun i => (ih i).1
    have h2 := fun i => (ih i).2
    have h3 := fun (sh : Fin n → Shp) => nf_tiledShape sh reps ax
    constructor <;> simp only [shp] <;> nf
  | _ => exact ⟨NF.ok _, NF.ok _⟩

theorem nf_shapeBatch (a : Mat K) : NF (shapeBatch a) := (nf_shp a).1
theorem nf_shapeMatrix (a : Mat K) : NF (shapeMatrix a) := (nf_shp a).2
theorem nf_shape (a : Mat K) : NF (shape a) := by
  have h1 := nf_shapeBatch a
  have h2 := nf_shapeMatrix a
  cases a with
  | num t => exact NF.ok _
  | _ => exact h1.bind fun _ => h2.bind fun _ => NF.pure _
theorem nf_rankM (a : Mat K) : NF (rankM a) := (nf_shape a).bind fun _ => NF.pure _
theorem nf_shapeBroadcast (a b : Mat K) : NF (shapeBroadcast a b) := (nf_shape a).bind fun _ => (nf_shape b).bind fun _ => nf_bsE _ _
theorem nf_shapeBatchBroadcast (a b : Mat K) : NF (shapeBatchBroadcast a b) := (nf_shapeBatch a).bind fun _ => (nf_shapeBatch b).bind fun _ => nf_bsE _ _
theorem nf_shapeMatrixBroadcast (a b : Mat K) : NF (shapeMatrixBroadcast a b) :=
  (nf_shapeMatrix a).bind fun _ => (nf_shapeMatrix b).bind fun _ => (nf_bsE _ _).bind fun _ => NF.pure _
theorem nf_mkDiag (t : Tensor K) : NF (mkDiag t) := by unfold mkDiag; nf
theorem nf_mkLT (t : Tensor K) : NF (mkLT t) := by unfold mkLT; nf
theorem nf_mkUT (t : Tensor K) : NF (mkUT t) := by unfold mkUT; nf
theorem nf_mkConst (t : Tensor K) (s : Shp) : NF (mkConst t s) := by
  have h1 := nf_bsE
  have h2 := fun s => nf_nBroadcastTo s t
  unfold mkConst
  split
  · exact NF.ok _
  · exact (h1 _ _).bind fun _ => (h2 _).bind fun _ => NF.pure _
  · exact NF.err (by decide)
theorem nf_mkZero (s : Shp) : NF (mkZero s : E (Mat K)) := by unfold mkZero; nf
theorem nf_assertMatrix (a : Mat K) : NF (assertMatrix a) := (nf_rankM a).bind fun _ => NF.guardE (by decide)
theorem nf_mkLR (l r m : Mat K) : NF (mkLR l r m) := by
  have h1 := nf_assertMatrix (K := K)
  have h2 := nf_shapeMatrix (K := K)
  unfold mkLR; nf
theorem nf_mkWB (d : Tensor K) (l r m : Mat K) : NF (mkWB d l r m) := by
  have h1 := nf_assertCompatible
  have h2 := nf_shape (K := K)
  unfold mkWB; nf
theorem nf_mkTiled {n : ℕ} (blk : Fin n → Mat K) (reps : Fin n → ℕ) (a : Int) : NF (mkTiled blk reps a) := by
  have h1 := nf_assertMatrix (K := K)
  unfold mkTiled; nf
theorem nf_transposeM (a : Mat K) : NF (transposeM a) := by
  have h1 := nf_mkLR (K := K)
  have h2 := nf_mkWB (K := K)
  have h3 := nf_mkUT (K := K)
  have h4 := nf_mkLT (K := K)
  have h5 := nf_mkConst (K := K)
  induction a with
  | tiled n blk reps ax ih =>
    have h6 := nf_rankM (K := K)
    have h7 := nf_axPos
    unfold transposeM
    refine (h6 _).bind fun _ => (h7 _ _).bind fun _ => (NF.seqFin ih).bind fun _ => nf_mkTiled _ _ _
  | _ => unfold transposeM; nf
theorem nf_trM (t : Bool) (a : Mat K) : NF (trM t a) := by
  have := nf_transposeM a
  unfold trM; nf
theorem nf_broadcastBatchTo (s : Shp) (a : Mat K) : NF (broadcastBatchTo s a) := by
  have h1 := nf_mkLR (K := K)
  have h2 := nf_mkWB (K := K)
  have h3 := nf_mkUT (K := K)
  have h4 := nf_mkLT (K := K)
  have h5 := nf_mkDiag (K := K)
  have h6 := nf_nBroadcastTo (K := K)
  have h7 := nf_nBroadcastBatchTo (K := K)
  induction a with
  | _ => unfold broadcastBatchTo; nf
theorem nf_alignBatch2 (a b : Mat K) : NF (alignBatch2 a b) :=
  (nf_shapeBatchBroadcast _ _).bind fun _ => (nf_broadcastBatchTo _ _).bind fun _ => (nf_broadcastBatchTo _ _).bind fun _ => NF.pure _
theorem nf_fillDiag (t : Tensor K) (n : ℕ) : NF (fillDiag t n) := (nf_nMul _ _).bind fun _ => nf_mkDiag _
theorem nf_constToLR (t : Tensor K) (r c : ℕ) : NF (constToLR t r c) := (nf_fillDiag _ _).bind fun _ => nf_mkLR _ _ _
theorem nf_shapeMatrixTr (a : Mat K) (t : Bool) : NF (shapeMatrixTr a t) := (nf_shapeMatrix a).bind fun _ => NF.pure _
theorem nf_assertComposable (ta tb : Bool) (a b : Mat K) : NF (assertComposable ta tb a b) :=
  (nf_shapeMatrixTr _ _).bind fun _ => (nf_shapeMatrixTr _ _).bind fun _ => NF.guardE (by decide)
theorem nf_inferDim (n d : ℕ) : NF (inferDim n d) := by unfold inferDim; nf
theorem nf_reshapeMat (r c : ℕ) (t : Tensor K) : NF (reshapeMat r c t) := nf_nReshape _ _
theorem nf_reshapeRows (r c : Option ℕ) (t : Tensor K) : NF (reshapeRows r c t) := by
  have h1 := nf_inferDim
  have h2 := nf_reshapeMat (K := K)
  unfold reshapeRows; nf
theorem nf_reshapeCols (r c : Option ℕ) (t : Tensor K) : NF (reshapeCols r c t) := (nf_reshapeRows _ _ _).bind fun _ => NF.pure _
theorem nf_hadamardFactors (a b c d e f : Tensor K) : NF (hadamardFactors a b c d e f) := by unfold hadamardFactors; nf
theorem nf_denseConst (t : Tensor K) (r c : ℕ) : NF (denseConst t r c) := nf_nMul _ _

/-- The tests of the environment do not run out of fuel. -/
structure Env.NF (env : Env K) : Prop where
  colEq : ∀ a b i j, Verif.NF (env.colEq a b i j)
  isZero : ∀ t, Verif.NF (env.isZero t)

theorem codeEnv_nf (isNumber : Tensor K → Bool) (tol : K) : (codeEnv isNumber tol).NF :=
  ⟨fun a b i j => by simp only [codeEnv, codeColEq]; nf, fun t => NF.ok _⟩

theorem nf_alignLoop {eq : ℕ → ℕ → E Bool} (h : ∀ i j, NF (eq i j)) (na nb : ℕ → K) (as bs : List ℕ) : NF (alignLoop eq na nb as bs) := by
  induction as, bs using alignLoop.induct with
  | case1 i as j bs ih1 ih2 ih3 => rw [alignLoop]; nf
  | case2 bs => rw [alignLoop]; nf
  | case3 as hne =>
    cases as with
    | nil => exact absurd rfl hne
    | cons x as => rw [alignLoop]; nf

theorem nf_align {env : Env K} (h : env.NF) (a b : Tensor K) : NF (align env a b) := by
  have := nf_alignLoop (K := K) (h.colEq a b)
  unfold align; nf

/-! ### Runs with growing fuel -/

/-- The run settles (not on "out of fuel") once there is enough fuel. -/
def Done (x : ℕ → E α) : Prop := ∃ n v, NF v ∧ ∀ m, n ≤ m → x m = v

theorem Done.const {x : E α} (h : NF x) : Done fun _ => x := ⟨0, x, h, fun _ _ => rfl⟩
theorem Done.bind {x : ℕ → E α} {f : α → ℕ → E β} (h : Done x) (hf : ∀ v, (∃ n, x n = .ok v) → Done (f v)) : Done fun m => x m >>= fun v => f v m := by
  obtain ⟨n, w, hw, hn⟩ := h
  cases w with
  | error e =>
    exact ⟨n, .error e, NF.err (hw.real e rfl), fun m hm => by simp only [hn m hm]; rfl⟩
  | ok v =>
    obtain ⟨n', w', hw', hn'⟩ := hf v ⟨n, hn n le_rfl⟩
    refine ⟨max n n', w', hw', fun m hm => ?_⟩
    simp only [hn m (by omega)]
    exact hn' m (by omega)
theorem Done.bind' {x : E α} {f : α → ℕ → E β} (h : NF x) (hf : ∀ v, x = .ok v → Done (f v)) : Done fun m => x >>= fun v => f v m :=
  (Done.const h).bind fun v ⟨_, hv⟩ => hf v hv
theorem Done.ite {c : Prop} [Decidable c] {x y : ℕ → E α} (h : Done x) (h' : Done y) : Done fun m => if c then x m else y m := by
  by_cases hc : c <;> simpa only [hc, if_true, if_false] using by assumption
theorem Done.ite' {c : Prop} [Decidable c] {x y : ℕ → E α} (h : c → Done x) (h' : ¬ c → Done y) : Done fun m => if c then x m else y m := by
  by_cases hc : c <;> simp only [hc, if_true, if_false] <;> [exact h hc; exact h' hc]
theorem Done.succ {x : ℕ → E α} (h : Done fun m => x (m+1)) : Done x := by
  obtain ⟨n, w, hw, hn⟩ := h
  refine ⟨n+1, w, hw, fun m hm => ?_⟩
  obtain ⟨k, rfl⟩ : ∃ k, m = k+1 := ⟨m-1, by omega⟩
  exact hn k (by omega)
theorem Done.seqFin {k : ℕ} {f : Fin k → ℕ → E α} (h : ∀ i, Done (f i)) : Done fun m => Verif.seqFin fun i => f i m := by
  induction k with
  | zero => exact Done.const (NF.ok _)
  | succ k ih =>
    exact (h 0).bind fun _ _ => (ih fun i => h i.succ).bind fun _ _ => Done.const (NF.pure _)

end Verif
