/-
Termination of linear algebra (C35): the calls settle.
-/
import Verif.LinTerm
import Verif.ExLin

set_option linter.unusedSectionVars false

namespace Verif

variable {K : Type} [Field K] [LinearOrder K] {α β : Type}

/-! ### Runs with two recursion depths -/

/-- The run settles (not on "out of fuel") once both recursion depths are large enough. -/
def Done2 (x : ℕ → ℕ → E α) : Prop := ∃ N v, NF v ∧ ∀ m n, N ≤ m → N ≤ n → x m n = v

theorem Done2.core {x : ℕ → E α} (h : Done x) : Done2 fun _ n => x n := by
  obtain ⟨N, v, hv, h⟩ := h
  exact ⟨N, v, hv, fun _ n _ hn => h n hn⟩
theorem Done2.const {x : E α} (h : NF x) : Done2 fun _ _ => x := ⟨0, x, h, fun _ _ _ _ => rfl⟩
theorem Done2.bind {x : ℕ → ℕ → E α} {f : α → ℕ → ℕ → E β} (h : Done2 x) (hf : ∀ v, (∃ m n, x m n = .ok v) → Done2 (f v)) :
    Done2 fun m n => x m n >>= fun v => f v m n := by
  obtain ⟨N, w, hw, hn⟩ := h
  cases w with
  | error e => exact ⟨N, .error e, NF.err (hw.real e rfl), fun m n hm hn' => by simp only [hn m n hm hn']; rfl⟩
  | ok v =>
    obtain ⟨N', w', hw', hn'⟩ := hf v ⟨N, N, hn N N le_rfl le_rfl⟩
    refine ⟨max N N', w', hw', fun m n hm h => ?_⟩
    simp only [hn m n (by omega) (by omega)]
    exact hn' m n (by omega) (by omega)
theorem Done2.bind' {x : E α} {f : α → ℕ → ℕ → E β} (h : NF x) (hf : ∀ v, x = .ok v → Done2 (f v)) : Done2 fun m n => x >>= fun v => f v m n :=
  (Done2.const h).bind fun v ⟨_, _, hv⟩ => hf v hv
theorem Done2.bindC {x : ℕ → E α} {f : α → ℕ → ℕ → E β} (h : Done x) (hf : ∀ v, (∃ n, x n = .ok v) → Done2 (f v)) : Done2 fun m n => x n >>= fun v => f v m n :=
  (Done2.core h).bind fun v ⟨_, n, hv⟩ => hf v ⟨n, hv⟩
theorem Done2.ite {c : Prop} [Decidable c] {x y : ℕ → ℕ → E α} (h : Done2 x) (h' : Done2 y) : Done2 fun m n => if c then x m n else y m n := by
  by_cases hc : c <;> simpa only [hc, if_true, if_false] using by assumption
theorem Done2.succ {x : ℕ → ℕ → E α} (h : Done2 fun m n => x (m+1) n) : Done2 x := by
  obtain ⟨N, w, hw, hn⟩ := h
  refine ⟨N+1, w, hw, fun m n hm hn' => ?_⟩
  obtain ⟨k, rfl⟩ : ∃ k, m = k+1 := ⟨m-1, by omega⟩
  exact hn k n (by omega) (by omega)

theorem ok_of_two {x : ℕ → ℕ → E α} {P : α → Prop} {v : α} (h : ∃ m n, x m n = .ok v) (hp : ∀ m n, Post P (x m n)) : P v := by
  obtain ⟨m, n, h⟩ := h
  exact hp m n v h

/-! ### Programs without recursive calls -/

theorem nf_nDiv (a b : Tensor K) : NF (nDiv a b) := by unfold nDiv; nf
theorem nf_nSqrt (lin : LinEnv K) (t : Tensor K) : NF (nSqrt lin t) := by unfold nSqrt; nf
theorem nf_nLog (lin : LinEnv K) (t : Tensor K) : NF (nLog lin t) := by unfold nLog; nf
theorem nf_negativeM (a : Mat K) : NF (negativeM a) := by
  induction a with
  | const t r c => exact nf_mkConst _ _
  | diag t => exact nf_mkDiag _
  | lt t => exact nf_mkLT _
  | ut t => exact nf_mkUT _
  | lr l r m _ _ ih => exact ih.bind fun _ => nf_mkLR _ _ _
  | wb d l r m _ _ ih => exact (nf_mkDiag _).bind fun _ => ih.bind fun _ => (nf_mkLR _ _ _).bind fun _ => nf_mkWB _ _ _ _
  | kron l r ih _ => exact ih.bind fun _ => NF.pure _
  | tiled n blk reps axis ih => exact NF.err (by decide)
  | _ => exact NF.ok _
theorem nf_assertSquare (a : Mat K) : NF (assertSquare a) := by
  have := nf_shape a
  have := nf_shapeMatrix a
  unfold assertSquare; nf
theorem nf_eyeM (a : Mat K) : NF (eyeM a) := (nf_assertSquare a).bind fun _ => (nf_shapeMatrix a).bind fun _ => nf_fillDiag _ _

/-! ### The calls settle -/

section
variable {env : Env K} {lin : LinEnv K}

/-- The core settles. -/
structure CoreDone (env : Env K) : Prop where
  dense : ∀ a : Mat K, Done fun n => (ops env n).dense a
  diag : ∀ a : Mat K, Done fun n => (ops env n).diag a
  sumM : ∀ k (a : Mat K), Done fun n => (ops env n).sumM k a
  add : ∀ a b : Mat K, Done fun n => (ops env n).add a b
  mul : ∀ a b : Mat K, Done fun n => (ops env n).mul a b
  matmul : ∀ ta tb (a b : Mat K), Done fun n => (ops env n).matmul ta tb a b

theorem CoreDone.of (he : env.NF) : CoreDone env :=
  have h := Done.of (K := K) he
  ⟨h.1, h.2.1, h.2.2.1, h.2.2.2.1, h.2.2.2.2.1, h.2.2.2.2.2⟩

theorem CoreDone.matmul3 (h : CoreDone env) (ta tb tc : Bool) (a b c : Mat K) : Done fun n => Verif.matmul3 (ops env n) ta tb tc a b c := by
  unfold Verif.matmul3
  exact Done.bind' (nf_shapeMatrixTr _ _) fun _ _ => Done.bind' (nf_shapeMatrixTr _ _) fun _ _ => Done.bind' (nf_shapeMatrixTr _ _) fun _ _ =>
    Done.ite (Done.bind (h.matmul _ _ _ _) fun _ _ => h.matmul _ _ _ _) (Done.bind (h.matmul _ _ _ _) fun _ _ => h.matmul _ _ _ _)

theorem nf_subNum (s t : Tensor K) : NF (nZip (· - ·) s t) := nf_nZip _ _ _

theorem CoreDone.subtract (h : CoreDone env) (a b : Mat K) : Done fun n => subtractM env (ops env n) a b := by
  unfold subtractM
  split
  · exact Done.const ((nf_subNum _ _).bind fun _ => NF.pure _)
  · exact Done.bind' (nf_negativeM _) fun _ _ => h.add _ _

variable (he : env.NF) (hlin : lin.Total)
include he hlin

theorem done_inv (N : ℕ) : ∀ a : Mat K, a.md < N → Done2 fun m n => (lops env lin (ops env n) m).inv a := by
  have hc : CoreDone env := CoreDone.of he
  have hl : ∀ m n, (lops env lin (ops env n) m).Light := fun m n => lops_light hlin (ops_light env n) (ops_lightMd env n) m
  induction N with
  | zero => intro a h; omega
  | succ N ih =>
    intro a h
    refine Done2.succ ?_
    show Done2 fun m n => stepInv env lin (ops env n) (lops env lin (ops env n) m) a
    cases a with
    | num t => exact Done2.const ((hlin.inv t).bind fun _ => NF.pure _)
    | dense t => exact Done2.const ((hlin.inv t).bind fun _ => NF.pure _)
    | diag d => exact Done2.const ((nf_nDiv _ _).bind fun _ => nf_mkDiag _)
    | wb d l r m =>
      simp only [Mat.md] at h
      have hd : Done2 fun m n => (lops env lin (ops env n) m).inv (.diag d) := ih _ (by simp only [Mat.md]; omega)
      simp only [stepInv, invWB]
      refine Done2.bind hd fun di hdi => Done2.bindC (hc.matmul _ _ _ _) fun dl _ => Done2.bindC (hc.matmul _ _ _ _) fun dr _ => ?_
      refine Done2.bind ?_ fun s hs => Done2.bind (ih s ?_) fun si _ => Done2.bind' (nf_mkLR _ _ _) fun x _ => Done2.core (hc.subtract _ _)
      · unfold schurM
        exact Done2.bind hd fun _ _ => Done2.bindC (hc.matmul3 _ _ _ _ _ _) fun _ _ => Done2.bind (ih m (by omega)) fun _ _ => Done2.core (hc.add _ _)
      · have := ok_of_two hs fun m' n => md_schurM (ops_light env n) (ops_lightMd env n) (hl m' n) d l r m
        omega
    | kron l r =>
      simp only [Mat.md] at h
      exact Done2.bind (ih l (by omega)) fun _ _ => Done2.bind (ih r (by omega)) fun _ _ => Done2.const (NF.pure _)
    | _ => exact Done2.const (NF.err (by decide))

theorem done_chol (a : Mat K) : Done2 fun m n => (lops env lin (ops env n) m).chol a := by
  have hc : CoreDone env := CoreDone.of he
  induction a with
  | num t => exact Done2.succ (Done2.const ((hlin.chol t).bind fun _ => NF.pure _))
  | zero bt r c => exact Done2.succ (Done2.const ((nf_assertSquare _).bind fun _ => NF.pure _))
  | dense t => exact Done2.succ (Done2.const ((nf_assertSquare _).bind fun _ => (hlin.chol t).bind fun _ => nf_mkLT _))
  | diag d => exact Done2.succ (Done2.const ((nf_assertSquare _).bind fun _ => (nf_nSqrt _ _).bind fun _ => nf_mkDiag _))
  | const t r c =>
    exact Done2.succ (Done2.const ((nf_assertSquare _).bind fun _ => (nf_nSqrt _ _).bind fun _ => (nf_nSqrt _ _).bind fun _ => (nf_nDiv _ _).bind fun _ => nf_mkConst _ _))
  | lr l r m _ _ ih => exact Done2.succ (Done2.bind' (nf_assertSquare _) fun _ _ => Done2.bind ih fun _ _ => Done2.core (hc.matmul _ _ _ _))
  | wb d l r m _ _ _ => exact Done2.succ (Done2.bindC (hc.dense _) fun _ _ => Done2.const ((hlin.chol _).bind fun _ => nf_mkLT _))
  | kron l r ihl ihr => exact Done2.succ (Done2.bind ihl fun _ _ => Done2.bind ihr fun _ _ => Done2.const (NF.pure _))
  | _ => exact Done2.succ (Done2.const (NF.err (by decide)))

theorem done_solve (a b : Mat K) : Done2 fun m n => (lops env lin (ops env n) m).solve a b := by
  have hc : CoreDone env := CoreDone.of he
  refine Done2.succ ?_
  show Done2 fun m n => stepSolve env lin (ops env n) (lops env lin (ops env n) m) a b
  have ht : ∀ lower (t : Tensor K) b, Done2 fun _ n => solveTri lin (ops env n) lower t b := fun lower t b => by
    unfold solveTri
    exact Done2.bind' (nf_alignBatch2 _ _) fun _ _ => Done2.bindC (hc.dense _) fun _ _ => Done2.bindC (hc.dense _) fun _ _ =>
      Done2.const ((hlin.trisolve _ _ _).bind fun _ => NF.pure _)
  unfold stepSolve
  split
  · exact Done2.const ((hlin.solve _ _).bind fun _ => NF.pure _)
  · split
    · exact Done2.const (NF.ok _)
    · exact Done2.bind (done_inv he hlin _ _ (Nat.lt_succ_self _)) fun _ _ => Done2.core (hc.matmul _ _ _ _)
    · exact ht _ _ _
    · exact ht _ _ _
    · exact Done2.bind (done_inv he hlin _ _ (Nat.lt_succ_self _)) fun _ _ => Done2.core (hc.matmul _ _ _ _)
    · unfold solveDense
      exact Done2.bind' (nf_alignBatch2 _ _) fun _ _ => Done2.bindC (hc.dense _) fun _ _ => Done2.bindC (hc.dense _) fun _ _ =>
        Done2.const ((hlin.solve _ _).bind fun _ => NF.pure _)

theorem done_cholSolve (N : ℕ) : ∀ a b : Mat K, a.wt < N → Done2 fun m n => (lops env lin (ops env n) m).cholSolve a b := by
  induction N with
  | zero => intro a b h; omega
  | succ N ih =>
    intro a b h
    refine Done2.succ ?_
    show Done2 fun m n => stepCholSolve env lin (lops env lin (ops env n) m) a b
    have ht : ∀ a b : Mat K, Done2 fun m n => cholSolveTri (lops env lin (ops env n) m) a b := fun a b => by
      unfold cholSolveTri
      exact Done2.bind (done_solve he hlin _ _) fun _ _ => Done2.bind' (nf_transposeM _) fun _ _ => done_solve he hlin _ _
    have hw := wt_convertAM env a
    unfold stepCholSolve
    split
    · exact Done2.const ((hlin.trisolve _ _ _).bind fun _ => (hlin.trisolve _ _ _).bind fun _ => NF.pure _)
    · split
      · exact ht _ _
      · exact ht _ _
      · exact ht _ _
      · rename_i e _
        rw [e] at hw
        simp only [Mat.wt] at hw
        exact Done2.bind (ih _ _ (by omega)) fun _ _ => Done2.bind (ih _ _ (by omega)) fun _ _ => Done2.const (NF.pure _)
      · exact Done2.const (NF.err (by decide))

theorem done_pdInv (N : ℕ) : ∀ a : Mat K, a.md < N → Done2 fun m n => (lops env lin (ops env n) m).pdInv a := by
  have hc : CoreDone env := CoreDone.of he
  have hl : ∀ m n, (lops env lin (ops env n) m).Light := fun m n => lops_light hlin (ops_light env n) (ops_lightMd env n) m
  have hg : ∀ a : Mat K, Done2 fun m n => pdInvGen env (ops env n) (lops env lin (ops env n) m) a := fun a => by
    unfold pdInvGen
    exact Done2.bind (done_chol he hlin _) fun _ _ => Done2.bind' (nf_eyeM _) fun _ _ => Done2.bindC (hc.dense _) fun _ _ => done_cholSolve he hlin _ _ _ (Nat.lt_succ_self _)
  induction N with
  | zero => intro a h; omega
  | succ N ih =>
    intro a h
    refine Done2.succ ?_
    show Done2 fun m n => stepPdInv env (ops env n) (lops env lin (ops env n) m) a
    cases a with
    | diag d => exact done_inv he hlin _ _ (Nat.lt_succ_self _)
    | wb d l r m =>
      simp only [Mat.md] at h
      have hd : Done2 fun m n => (lops env lin (ops env n) m).inv (.diag d) := done_inv he hlin _ _ (Nat.lt_succ_self _)
      simp only [stepPdInv, pdInvWB]
      refine Done2.bind hd fun di hdi => Done2.bindC (hc.matmul _ _ _ _) fun dl _ => Done2.bindC (hc.matmul _ _ _ _) fun dr _ => ?_
      refine Done2.bind ?_ fun s hs => Done2.bind (ih s ?_) fun si _ => Done2.bind' (nf_mkLR _ _ _) fun x _ => Done2.core (hc.subtract _ _)
      · unfold pdSchurM
        exact Done2.bind hd fun _ _ => Done2.bindC (hc.matmul3 _ _ _ _ _ _) fun _ _ => Done2.bind (ih m (by omega)) fun _ _ => Done2.core (hc.add _ _)
      · have := ok_of_two hs fun m' n => md_pdSchurM (ops_light env n) (ops_lightMd env n) (hl m' n) d l r m
        omega
    | kron l r =>
      simp only [Mat.md] at h
      exact Done2.bind (ih l (by omega)) fun _ _ => Done2.bind (ih r (by omega)) fun _ _ => Done2.const (NF.pure _)
    | num t => exact hg _
    | dense t => exact hg _
    | zero bt r c => exact hg _
    | const t r c => exact hg _
    | lt t => exact hg _
    | ut t => exact hg _
    | lr l r m => exact hg _
    | tiled n blk reps ax => exact hg _

theorem done_rootNum (t : Tensor K) : Done2 fun m n => (lops env lin (ops env n) m).root (.num t) := by
  have hc : CoreDone env := CoreDone.of he
  exact Done2.succ (Done2.bind' (nf_assertSquare _) fun _ _ => Done2.bind' (hlin.svd _) fun _ _ => Done2.bind' (nf_nSqrt _ _) fun _ _ => Done2.core (hc.matmul3 _ _ _ _ _ _))

theorem done_root (a : Mat K) : Done2 fun m n => (lops env lin (ops env n) m).root a := by
  have hc : CoreDone env := CoreDone.of he
  have hn : ∀ t : Tensor K, Done2 fun m n => (do return mkDense (← (ops env n).dense (← (lops env lin (ops env n) m).root (.num t))) : E (Mat K)) := fun t =>
    Done2.bind (done_rootNum he hlin t) fun _ _ => Done2.bindC (hc.dense _) fun _ _ => Done2.const (NF.pure _)
  induction a with
  | num t => exact done_rootNum he hlin t
  | zero bt r c => exact Done2.succ (Done2.const ((nf_assertSquare _).bind fun _ => NF.pure _))
  | dense t => exact Done2.succ (hn t)
  | diag d => exact Done2.succ (Done2.bind' (nf_assertSquare _) fun _ _ => done_chol he hlin _)
  | const t r c => exact Done2.succ (Done2.bind' (nf_assertSquare _) fun _ _ => done_chol he hlin _)
  | lr l r m _ _ ih => exact Done2.succ (Done2.bindC (hc.dense _) fun _ _ => hn _)
  | wb d l r m _ _ _ => exact Done2.succ (Done2.bindC (hc.dense _) fun _ _ => hn _)
  | kron l r ihl ihr => exact Done2.succ (Done2.bind ihl fun _ _ => Done2.bind ihr fun _ _ => Done2.const (NF.pure _))
  | _ => exact Done2.succ (Done2.const (NF.err (by decide)))

end

end Verif
