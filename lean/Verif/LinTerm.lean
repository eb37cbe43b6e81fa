/-
Termination of linear algebra (C35): a measure that the recursion through the Schur complement decreases.
-/
import Verif.Props04
import Verif.LinMono

set_option linter.unusedSectionVars false

namespace Verif

variable {K : Type} [Field K] [LinearOrder K] {α β : Type}

/-! ### The measure -/

/-- The depth of a matrix along middle factors. -/
def Mat.md : Mat K → ℕ
  | .num t => if t.rank = 0 then 1 else 0
  | .lt t => if t.rank = 0 then 1 else 0
  | .ut t => if t.rank = 0 then 1 else 0
  | .const .. => 1
  | .lr l r m => 1 + max m.md (l.wt + r.wt)
  | .wb _ l r m => 1 + max m.md (l.wt + r.wt)
  | .kron l r => 1 + max l.md r.md
  | .tiled n blk reps axis => (Mat.tiled n blk reps axis).wt
  | _ => 0

theorem md_le_wt (a : Mat K) : a.md ≤ a.wt := by
  induction a with
  | lr l r m _ _ ih => simp only [Mat.md, Mat.wt]; omega
  | wb d l r m _ _ ih => simp only [Mat.md, Mat.wt]; omega
  | kron l r ihl ihr => simp only [Mat.md, Mat.wt]; omega
  | _ => simp [Mat.md, Mat.wt]

theorem md_of_wt {a : Mat K} {n : ℕ} (h : a.wt ≤ n) : a.md ≤ n := (md_le_wt a).trans h

theorem md_convertAM (env : Env K) (a : Mat K) : (convertAM env a).md ≤ a.md := by
  cases a with
  | num t =>
    refine md_of_wt ((wt_convertAM env _).trans ?_)
    simp [Mat.md, Mat.wt]
  | _ => exact le_rfl

theorem md_broadcastBatchTo (s : Shp) (a : Mat K) : Post (fun r => r.md ≤ a.md) (broadcastBatchTo s a) := by
  induction a with
  | lr l r m ihl ihr ihm =>
    refine (post_broadcastBatchTo s l).bind fun l' hl => (post_broadcastBatchTo s r).bind fun r' hr => ihm.bind fun m' hm => (post_mkLR _ _ _).mono ?_
    rintro _ rfl
    simp only [Mat.md]; omega
  | wb d l r m ihl ihr ihm =>
    refine Post.skip fun _ => Post.skip fun _ => (post_broadcastBatchTo s l).bind fun l' hl => (post_broadcastBatchTo s r).bind fun r' hr => ihm.bind fun m' hm =>
      Post.skip fun _ => (post_mkWB _ _ _ _).mono ?_
    rintro _ rfl
    simp only [Mat.md]; omega
  | kron l r ihl ihr =>
    refine ihl.bind fun l' hl => ihr.bind fun r' hr => Post.pure ?_
    simp only [Mat.md]; omega
  | tiled n blk reps axis ih => exact Post.error
  | num t => exact (post_broadcastBatchTo s (.num t)).mono fun r h => md_of_wt h
  | lt t => exact (post_broadcastBatchTo s (.lt t)).mono fun r h => md_of_wt h
  | ut t => exact (post_broadcastBatchTo s (.ut t)).mono fun r h => md_of_wt h
  | zero bt r c => exact (post_broadcastBatchTo s (.zero bt r c)).mono fun r h => md_of_wt h
  | dense t => exact (post_broadcastBatchTo s (.dense t)).mono fun r h => md_of_wt h
  | diag t => exact (post_broadcastBatchTo s (.diag t)).mono fun r h => md_of_wt h
  | const t r c => exact (post_broadcastBatchTo s (.const t r c)).mono fun r h => md_of_wt h

theorem md_broadcastTo (B : Ops K) (a : Mat K) (s : Shp) : Post (fun r => r.md ≤ a.md) (broadcastTo B a s) := by
  unfold broadcastTo
  refine Post.skip fun sa => Post.ite (Post.ok le_rfl) ?_
  split
  · exact Post.skip fun _ => (post_mkZero _).mono fun r h => md_of_wt (by rw [h.1]; omega)
  · exact Post.skip fun _ => (post_mkConst _ _).mono fun r h => md_of_wt (by rw [h]; simp [Mat.md])
  · exact Post.ite (md_broadcastBatchTo _ _) (Post.skip fun _ => Post.skip fun _ => Post.pure (md_of_wt (by simp)))

theorem wt_negativeM (a : Mat K) : Post (fun r => r.wt ≤ a.wt ∧ r.md ≤ a.md) (negativeM a) := by
  have hh : ∀ {r : Mat K} {n m : ℕ}, r.wt ≤ n → n ≤ m → r.wt ≤ n ∧ r.md ≤ m := fun h h' => ⟨h, (md_of_wt h).trans h'⟩
  induction a with
  | num t => exact Post.ok ⟨le_rfl, le_rfl⟩
  | zero bt r c => exact Post.ok ⟨le_rfl, le_rfl⟩
  | dense t => exact Post.ok ⟨le_rfl, le_rfl⟩
  | diag t => exact (post_mkDiag _).mono fun r h => hh (by rw [h.1]; omega) (by simp [Mat.md, Mat.wt])
  | const t r c => exact (post_mkConst _ _).mono fun r h => hh (by rw [h]; simp [Mat.wt]) (by simp [Mat.md, Mat.wt])
  | lt t => exact (post_mkLT _).mono fun r h => hh (by rw [h]; omega) (by simp [Mat.md, Mat.wt])
  | ut t => exact (post_mkUT _).mono fun r h => hh (by rw [h]; omega) (by simp [Mat.md, Mat.wt])
  | lr l r m _ _ ihm =>
    refine ihm.bind fun m' hm => (post_mkLR _ _ _).mono ?_
    rintro _ rfl
    simp only [Mat.wt, Mat.md]; omega
  | wb d l r m _ _ ihm =>
    refine Post.skip fun _ => ihm.bind fun m' hm => Post.skip fun _ => (post_mkWB _ _ _ _).mono ?_
    rintro _ rfl
    simp only [Mat.wt, Mat.md]; omega
  | kron l r ihl ihr =>
    refine ihl.bind fun l' hl => Post.pure ?_
    simp only [Mat.wt, Mat.md]; omega
  | tiled n blk reps axis ih => exact Post.error

/-! ### Sums -/

/-- The measure of a sum. -/
def Ops.LightMd (B : Ops K) : Prop := ∀ a b, Post (fun r => r.md ≤ max a.md b.md) (B.add a b)

theorem md_addRun {env : Env K} {B : Ops K} (hL : B.Light) (hB : B.LightMd) (m : AddM) (a b : Mat K) : Post (fun r => r.md ≤ max a.md b.md) (addRun env B m a b) := by
  have hD : ∀ t : Tensor K, Post (fun r => r.md ≤ max a.md b.md) (mkDiag t) := fun t => (post_mkDiag t).mono fun r h => md_of_wt (by rw [h.1]; omega)
  have hl : ∀ t : Tensor K, Post (fun r => r.md ≤ max a.md b.md) (mkLT t) := fun t => (post_mkLT t).mono fun r h => md_of_wt (by rw [h]; omega)
  have hu : ∀ t : Tensor K, Post (fun r => r.md ≤ max a.md b.md) (mkUT t) := fun t => (post_mkUT t).mono fun r h => md_of_wt (by rw [h]; omega)
  have hd : ∀ t : Tensor K, (mkDense t).md ≤ max a.md b.md := fun t => md_of_wt (by simp)
  unfold addRun
  split
  · refine Post.skip fun _ => Post.skip fun _ => Post.skip fun _ => ?_
    split
    · exact Post.skip fun _ => (md_broadcastTo _ _ _).mono fun r h => by omega
    · exact Post.error
  · refine Post.skip fun _ => Post.skip fun _ => Post.skip fun _ => ?_
    split
    · exact Post.skip fun _ => (md_broadcastTo _ _ _).mono fun r h => by omega
    · exact Post.error
  · exact Post.skip fun _ => Post.skip fun _ => Post.skip fun _ => Post.pure (hd _)
  · exact Post.skip fun _ => Post.pure (hd _)
  · exact Post.skip fun _ => hD _
  · refine Post.skip fun _ => Post.skip fun _ => Post.skip fun _ => (post_mkConst _ _).mono fun r h => md_of_wt ?_
    rw [h]; simp [Mat.md]
  · exact Post.skip fun _ => Post.skip fun _ => Post.skip fun _ => Post.skip fun _ => Post.pure (hd _)
  · refine Post.skip fun _ => Post.skip fun _ => Post.skip fun _ => Post.skip fun _ => (post_constToLR _ _ _).bind fun lr h => (hB _ _).mono fun r hr => ?_
    have := md_of_wt h.1.le
    simp only [Mat.md] at *
    omega
  · exact (hB _ _).mono fun r h => by omega
  · exact Post.skip fun _ => hl _
  · exact Post.skip fun _ => Post.skip fun _ => hl _
  · exact Post.skip fun _ => hu _
  · exact Post.skip fun _ => Post.pure (hd _)
  · exact Post.skip fun _ => Post.skip fun _ => hu _
  · exact (post_addLRLR hL _ _ _ _ _ _).mono fun r h => md_of_wt (by simp only [Mat.md]; omega)
  · refine Post.skip fun _ => (post_constToLR _ _ _).bind fun lr h => (hB _ _).mono fun r hr => ?_
    have := md_of_wt h.1.le
    simp only [Mat.md] at *
    omega
  · refine (post_mkWB _ _ _ _).mono ?_
    rintro _ rfl
    simp [Mat.md]
  · refine (post_mkWB _ _ _ _).mono ?_
    rintro _ rfl
    simp [Mat.md]
  · refine (hB _ _).bind fun x hx => (hB _ _).bind fun y hy => (hB _ _).mono fun r hr => ?_
    simp only [Mat.md] at *
    omega
  · refine (hB _ _).bind fun x hx => (hB _ _).mono fun r hr => ?_
    simp only [Mat.md] at *
    omega
  · refine (hB _ _).bind fun x hx => (hB _ _).mono fun r hr => ?_
    simp only [Mat.md] at *
    omega
  · exact Post.error

theorem md_stepAdd {env : Env K} {B : Ops K} (hL : B.Light) (hB : B.LightMd) (a b : Mat K) : Post (fun r => r.md ≤ max a.md b.md) (stepAdd env B a b) := by
  unfold stepAdd
  split
  · rename_i s t
    have := post_stepAdd (env := env) hL (.num s) (.num t)
    refine Post.mono this fun r h => md_of_wt h
  · dsimp only
    split
    · refine (md_addRun hL hB _ _ _).mono fun r h => ?_
      have h1 := md_convertAM env a
      have h2 := md_convertAM env b
      omega
    · exact Post.error

theorem ops_lightMd (env : Env K) (n : ℕ) : (ops env n).LightMd := by
  induction n with
  | zero => exact fun _ _ => Post.error
  | succ n ih => exact md_stepAdd (ops_light env n) ih

theorem md_subtractM {env : Env K} {B : Ops K} (hB : B.LightMd) {a b : Mat K} (ha : a.isAM = true) : Post (fun r => r.md ≤ max a.md b.md) (subtractM env B a b) := by
  unfold subtractM
  split
  · simp [Mat.isAM] at ha
  · refine (wt_negativeM _).bind fun x hx => (hB _ _).mono fun r hr => ?_
    have h1 := md_convertAM env a
    have h2 := md_convertAM env b
    omega

/-! ### Backends -/

/-- What termination needs of the backend: its functions finish, and the inverse has as many axes as the matrix. -/
structure LinEnv.Total (lin : LinEnv K) : Prop where
  inv : ∀ t, NF (lin.inv t)
  chol : ∀ t, NF (lin.chol t)
  solve : ∀ s t, NF (lin.solve s t)
  trisolve : ∀ l s t, NF (lin.trisolve l s t)
  logdet : ∀ t, NF (lin.logdet t)
  svd : ∀ t, NF (lin.svd t)
  inv_rank : ∀ t r, lin.inv t = .ok r → r.rank = t.rank

/-! ### The measure of inverses -/

section
variable {env : Env K} {lin : LinEnv K} {B : Ops K} {L : LOps K}

/-- The measure of the results of `inv` and `pdInv`, and what the other functions return for a Diagonal matrix. -/
structure LOps.Light (L : LOps K) : Prop where
  inv : ∀ a, Post (fun r => r.md ≤ a.md) (L.inv a)
  invDiag : ∀ d, Post (fun r => r.wt = 0 ∧ ∃ d', r = .diag d') (L.inv (.diag d))
  pdInv : ∀ a, Post (fun r => r.md ≤ a.md) (L.pdInv a)
  cholDense : ∀ t, Post (fun r => ∃ t', r = .lt t' ∧ r.wt = 0) (L.chol (.dense t))
  cholZero : ∀ bt r c, Post (fun x => ∃ bt r c, x = .zero bt r c) (L.chol (.zero bt r c))
  cholConst : ∀ t r c, Post (fun x => ∃ t r c, x = .const t r c) (L.chol (.const t r c))
  cholLT : ∀ t, Post (fun _ => False) (L.chol (.lt t))
  cholUT : ∀ t, Post (fun _ => False) (L.chol (.ut t))
  cholTiled : ∀ n (blk : Fin n → Mat K) reps ax, Post (fun _ => False) (L.chol (.tiled n blk reps ax))
  solveTri : ∀ a, (∃ s, a = .lt s ∨ a = .ut s) → ∀ b, Post (fun r => r.wt = 0) (L.solve a b)
  solveDiag : ∀ s b, Post (fun r => r.wt ≤ b.wt) (L.solve (.diag s) b)
  cholSolveLT : ∀ s t, Post (fun r => r.wt = 0) (L.cholSolve (.lt s) (.num t))
  cholSolveZero : ∀ bt r c b, Post (fun _ => False) (L.cholSolve (.zero bt r c) b)
  cholSolveConst : ∀ t r c b, Post (fun _ => False) (L.cholSolve (.const t r c) b)
  cholSolveNum : ∀ a t, Post (fun r => r.wt ≤ 1) (L.cholSolve a (.num t))

theorem LOps.Light.bot : (LOps.bot : LOps K).Light := by
  constructor <;> intros <;> exact Post.error

theorem md_schurM (hB : B.Light) (hM : B.LightMd) (hL : L.Light) (d : Tensor K) (l r m : Mat K) : Post (fun x => x.md ≤ max m.md (l.wt + r.wt)) (schurM B L d l r m) := by
  unfold schurM
  refine (hL.invDiag d).bind fun di hd => (post_matmul3 hB _ _ _ _ _ _).bind fun s hs => (hL.inv m).bind fun i hi => (hM _ _).mono fun x hx => ?_
  have := md_le_wt s
  omega

theorem md_pdSchurM (hB : B.Light) (hM : B.LightMd) (hL : L.Light) (d : Tensor K) (l r m : Mat K) : Post (fun x => x.md ≤ max m.md (l.wt + r.wt)) (pdSchurM B L d l r m) := by
  unfold pdSchurM
  refine (hL.invDiag d).bind fun di hd => (post_matmul3 hB _ _ _ _ _ _).bind fun s hs => (hL.pdInv m).bind fun i hi => (hM _ _).mono fun x hx => ?_
  have := md_le_wt s
  omega

theorem md_invWB (hB : B.Light) (hM : B.LightMd) (hL : L.Light) (d : Tensor K) (l r m : Mat K) : Post (fun x => x.md ≤ (Mat.wb d l r m).md) (invWB env B L d l r m) := by
  unfold invWB
  refine (hL.invDiag d).bind fun di hd => (hB.matmul _ _ _ _).bind fun dl hl => (hB.matmul _ _ _ _).bind fun dr hr => ?_
  refine (md_schurM hB hM hL d l r m).bind fun s hs => (hL.inv s).bind fun si hsi => (post_mkLR _ _ _).bind fun x hx => ?_
  obtain ⟨h0, d', rfl⟩ := hd
  subst hx
  refine (md_subtractM hM rfl).mono fun y hy => ?_
  simp only [Mat.md] at *
  omega

theorem md_pdInvWB (hB : B.Light) (hM : B.LightMd) (hL : L.Light) (d : Tensor K) (l r m : Mat K) : Post (fun x => x.md ≤ (Mat.wb d l r m).md) (pdInvWB env B L d l r m) := by
  unfold pdInvWB
  refine (hL.invDiag d).bind fun di hd => (hB.matmul _ _ _ _).bind fun dl hl => (hB.matmul _ _ _ _).bind fun dr hr => ?_
  refine (md_pdSchurM hB hM hL d l r m).bind fun s hs => (hL.pdInv s).bind fun si hsi => (post_mkLR _ _ _).bind fun x hx => ?_
  obtain ⟨h0, d', rfl⟩ := hd
  subst hx
  refine (md_subtractM hM rfl).mono fun y hy => ?_
  simp only [Mat.md] at *
  omega

theorem post_stepInvDiag (d : Tensor K) : Post (fun r => r.wt = 0 ∧ ∃ d', r = .diag d') (stepInv env lin B L (.diag d)) :=
  Post.skip fun _ => post_mkDiag _

theorem md_stepInv (hlin : lin.Total) (hB : B.Light) (hM : B.LightMd) (hL : L.Light) (a : Mat K) : Post (fun r => r.md ≤ a.md) (stepInv env lin B L a) := by
  cases a with
  | num t =>
    refine Post.bind (P := fun r => r.rank = t.rank) (fun r hr => hlin.inv_rank t r hr) fun r hr => Post.pure ?_
    simp [Mat.md, hr]
  | dense t => exact Post.skip fun _ => Post.pure (md_of_wt (by simp))
  | diag d => exact (post_stepInvDiag d).mono fun r h => md_of_wt (by rw [h.1]; omega)
  | wb d l r m => exact md_invWB hB hM hL d l r m
  | kron l r =>
    refine (hL.inv l).bind fun l' hl => (hL.inv r).bind fun r' hr => Post.pure ?_
    simp only [Mat.md]; omega
  | _ => exact Post.error

theorem wt_eyeM (a : Mat K) : Post (fun x => x.wt = 0) (eyeM a) := by
  unfold eyeM
  exact Post.skip fun _ => Post.skip fun _ => post_fillDiag _ _

/-- The method of `pd_inv` for general matrices. -/
def pdInvGen (env : Env K) (B : Ops K) (L : LOps K) (a : Mat K) : E (Mat K) := do
  let a := convertAM env a
  let ch ← L.chol a
  let id ← B.dense (← eyeM a)
  L.cholSolve ch (.num id)

theorem md_pdInvGen (hL : L.Light) (a : Mat K) (ha : a.kind = none ∨ a.kind = some .dense ∨ a.kind = some .lt ∨ a.kind = some .ut ∨ a.kind = some .zero ∨ a.kind = some .const ∨ a.kind = some .tiled) :
    Post (fun r => r.wt = 0) (pdInvGen env B L a) := by
  have hd : ∀ (a : Mat K) (t : Tensor K), convertAM env a = .dense t → Post (fun r => r.wt = 0) (pdInvGen env B L a) := by
    intro a t h
    unfold pdInvGen
    rw [h]
    refine (hL.cholDense t).bind ?_
    rintro _ ⟨t', rfl, h⟩
    exact Post.skip fun _ => Post.skip fun _ => hL.cholSolveLT _ _
  have hz : ∀ (a : Mat K) (bt : Shp) (r c : ℕ), convertAM env a = .zero bt r c → Post (fun r => r.wt = 0) (pdInvGen env B L a) := by
    intro a bt r c h
    unfold pdInvGen
    rw [h]
    refine (hL.cholZero bt r c).bind ?_
    rintro _ ⟨bt', r', c', rfl⟩
    exact Post.skip fun _ => Post.skip fun _ => (hL.cholSolveZero _ _ _ _).mono fun _ h => h.elim
  have hc : ∀ (a : Mat K) (t : Tensor K) (r c : ℕ), convertAM env a = .const t r c → Post (fun r => r.wt = 0) (pdInvGen env B L a) := by
    intro a bt r c h
    unfold pdInvGen
    rw [h]
    refine (hL.cholConst bt r c).bind ?_
    rintro _ ⟨bt', r', c', rfl⟩
    exact Post.skip fun _ => Post.skip fun _ => (hL.cholSolveConst _ _ _ _).mono fun _ h => h.elim
  cases a with
  | num t =>
    by_cases h0 : t.rank = 0
    · by_cases h1 : env.isNumber t = true ∧ t.get (fun _ => 0) = 0
      · exact hz _ [] 1 1 (by simp only [convertAM]; rw [if_pos h0, if_pos h1])
      · exact hc _ t 1 1 (by simp only [convertAM]; rw [if_pos h0, if_neg h1])
    · exact hd _ _ (by simp only [convertAM]; rw [if_neg h0]; rfl)
  | dense t => exact hd _ t rfl
  | zero bt r c => exact hz _ bt r c rfl
  | const t r c => exact hc _ t r c rfl
  | lt t => exact (hL.cholLT t).bind fun _ h => h.elim
  | ut t => exact (hL.cholUT t).bind fun _ h => h.elim
  | tiled n blk reps ax => exact (hL.cholTiled n blk reps ax).bind fun _ h => h.elim
  | _ => simp [Mat.kind] at ha

theorem md_stepPdInv (hB : B.Light) (hM : B.LightMd) (hL : L.Light) (a : Mat K) : Post (fun r => r.md ≤ a.md) (stepPdInv env B L a) := by
  cases a with
  | diag d => exact (hL.invDiag d).mono fun r h => md_of_wt (by rw [h.1]; omega)
  | wb d l r m => exact md_pdInvWB hB hM hL d l r m
  | kron l r =>
    refine (hL.pdInv l).bind fun l' hl => (hL.pdInv r).bind fun r' hr => Post.pure ?_
    simp only [Mat.md]; omega
  | lr l r m =>
    refine Post.skip fun _ => Post.skip fun _ => Post.skip fun _ => (hL.cholSolveNum _ _).mono fun x h => md_of_wt ?_
    simp only [Mat.md]; omega
  | num t => exact (md_pdInvGen hL (.num t) (by simp [Mat.kind])).mono fun r h => md_of_wt (by rw [h]; omega)
  | dense t => exact (md_pdInvGen hL (.dense t) (by simp [Mat.kind])).mono fun r h => md_of_wt (by rw [h]; omega)
  | zero bt r c => exact (md_pdInvGen hL (.zero bt r c) (by simp [Mat.kind])).mono fun r h => md_of_wt (by rw [h]; omega)
  | const t r c => exact (md_pdInvGen hL (.const t r c) (by simp [Mat.kind])).mono fun r h => md_of_wt (by rw [h]; omega)
  | lt t => exact (md_pdInvGen hL (.lt t) (by simp [Mat.kind])).mono fun r h => md_of_wt (by rw [h]; omega)
  | ut t => exact (md_pdInvGen hL (.ut t) (by simp [Mat.kind])).mono fun r h => md_of_wt (by rw [h]; omega)
  | tiled n blk reps ax => exact (md_pdInvGen hL (.tiled n blk reps ax) (by simp [Mat.kind])).mono fun r h => md_of_wt (by rw [h]; omega)

theorem wt_solveTri (lower : Bool) (t : Tensor K) (b : Mat K) : Post (fun r => r.wt = 0) (solveTri lin B lower t b) := by
  unfold solveTri
  exact Post.skip fun _ => Post.skip fun _ => Post.skip fun _ => Post.skip fun _ => Post.pure rfl

theorem wt_stepSolveTri {a : Mat K} (ha : ∃ s, a = .lt s ∨ a = .ut s) (b : Mat K) : Post (fun r => r.wt = 0) (stepSolve env lin B L a b) := by
  obtain ⟨s, rfl | rfl⟩ := ha
  · simp only [stepSolve, convertAM]
    split
    · exact Post.ok rfl
    · simp_all
    · exact wt_solveTri _ _ _
    · simp_all
    · simp_all
    · simp_all
  · simp only [stepSolve, convertAM]
    split
    · exact Post.ok rfl
    · simp_all
    · simp_all
    · exact wt_solveTri _ _ _
    · simp_all
    · simp_all

theorem wt_stepSolveDiag (hB : B.Light) (hL : L.Light) (s : Tensor K) (b : Mat K) : Post (fun r => r.wt ≤ b.wt) (stepSolve env lin B L (.diag s) b) := by
  have hb := wt_convertAM env b
  simp only [stepSolve, convertAM]
  split
  · exact Post.ok (by simp [Mat.wt])
  · refine (hL.invDiag _).bind fun di hd => (hB.matmul _ _ _ _).mono fun r hr => ?_
    simp only [convertAM] at hb
    omega
  all_goals simp_all

theorem wt_convert_num (t : Tensor K) : (convertAM env (.num t)).wt ≤ 1 := (wt_convertAM env _).trans (wt_num_le t)

theorem num_convert (env : Env K) (t : Tensor K) :
    (∃ t', convertAM env (.num t) = .dense t') ∨ (∃ bt r c, convertAM env (.num t) = .zero bt r c) ∨ ∃ t' r c, convertAM env (.num t) = .const t' r c := by
  simp only [convertAM]
  split_ifs
  · exact .inr (.inl ⟨_, _, _, rfl⟩)
  · exact .inr (.inr ⟨_, _, _, rfl⟩)
  · exact .inl ⟨_, rfl⟩

theorem wt_cholSolveTri' (hL : L.Light) {a : Mat K} (ha : ∃ s, a = .lt s ∨ a = .ut s) (b : Mat K) : Post (fun r => r.wt = 0) (cholSolveTri L a b) := by
  unfold cholSolveTri
  refine (hL.solveTri a ha b).bind fun x hx => ?_
  obtain ⟨s, rfl | rfl⟩ := ha
  · refine Post.bind (P := fun y => ∃ s, y = .lt s ∨ y = .ut s) (Post.skip fun _ => Post.pure ⟨_, .inr rfl⟩) fun y hy => hL.solveTri y hy x
  · refine Post.bind (P := fun y => ∃ s, y = .lt s ∨ y = .ut s) (Post.skip fun _ => Post.pure ⟨_, .inl rfl⟩) fun y hy => hL.solveTri y hy x

theorem wt_stepCholSolveNum (hL : L.Light) (a : Mat K) (t : Tensor K) : Post (fun r => r.wt ≤ 1) (stepCholSolve env lin L a (.num t)) := by
  have hn := wt_convert_num (env := env) t
  unfold stepCholSolve
  split
  · exact Post.skip fun _ => Post.skip fun _ => Post.pure (wt_num_le _)
  · split
    · unfold cholSolveTri
      refine (hL.solveDiag _ _).bind fun x hx => Post.bind (P := fun y => ∃ s, y = .diag s) (Post.ok ⟨_, rfl⟩) fun y hy => ?_
      obtain ⟨s, rfl⟩ := hy
      exact (hL.solveDiag _ _).mono fun r hr => by omega
    · exact (wt_cholSolveTri' hL ⟨_, .inl rfl⟩ _).mono fun r hr => by omega
    · exact (wt_cholSolveTri' hL ⟨_, .inr rfl⟩ _).mono fun r hr => by omega
    · rename_i e
      rcases num_convert env t with ⟨_, h⟩ | ⟨_, _, _, h⟩ | ⟨_, _, _, h⟩ <;> rw [h] at e <;> cases e
    · exact Post.error

theorem LOps.Light.step (hlin : lin.Total) (hB : B.Light) (hM : B.LightMd) (hL : L.Light) : (lstep env lin B L).Light where
  inv := md_stepInv hlin hB hM hL
  invDiag d := post_stepInvDiag (env := env) (lin := lin) (B := B) (L := L) d
  pdInv := md_stepPdInv hB hM hL
  cholDense t := Post.skip fun _ => Post.skip fun x v hv => by
    have h0 := post_mkLT _ _ hv
    obtain ⟨_, _, h⟩ := bind_ok_iff.1 hv
    exact ⟨_, (pure_eq_ok.1 h).symm, h0⟩
  cholZero bt r c := Post.skip fun _ => Post.pure ⟨_, _, _, rfl⟩
  cholConst t r c := Post.skip fun _ => Post.skip fun _ => Post.skip fun _ => Post.skip fun _ => by
    exact Post.ok ⟨_, _, _, rfl⟩
  cholLT _ := Post.error
  cholUT _ := Post.error
  cholTiled _ _ _ _ := Post.error
  solveTri a ha b := wt_stepSolveTri ha b
  solveDiag s b := wt_stepSolveDiag hB hL s b
  cholSolveLT s t := by
    show Post _ (stepCholSolve env lin L (.lt s) (.num t))
    exact wt_cholSolveTri' hL ⟨_, .inl rfl⟩ _
  cholSolveZero bt r c b := by
    show Post _ (stepCholSolve env lin L (.zero bt r c) b)
    unfold stepCholSolve
    exact Post.error
  cholSolveConst t r c b := by
    show Post _ (stepCholSolve env lin L (.const t r c) b)
    unfold stepCholSolve
    exact Post.error
  cholSolveNum a t := wt_stepCholSolveNum hL a t

theorem lops_light (hlin : lin.Total) (hB : B.Light) (hM : B.LightMd) (m : ℕ) : (lops env lin B m).Light := by
  induction m with
  | zero => exact LOps.Light.bot
  | succ m ih => exact ih.step hlin hB hM

end

end Verif
