/-
Termination (C35): a weight on matrices that the recursion of the core decreases.
-/
import Verif.Envs

set_option linter.unusedSectionVars false

namespace Verif

variable {K : Type} [Field K] [LinearOrder K] {α β : Type}

/-! ### What results look like -/

/-- If the run returns, its result satisfies `P`. -/
def Post (P : α → Prop) (x : E α) : Prop := ∀ v, x = .ok v → P v

theorem Post.bind {P : α → Prop} {Q : β → Prop} {x : E α} {f : α → E β} (h : Post P x) (hf : ∀ v, P v → Post Q (f v)) : Post Q (x >>= f) := by
  intro v hv
  obtain ⟨u, hu, hv⟩ := bind_ok_iff.1 hv
  exact hf u (h u hu) v hv
theorem Post.any (x : E α) : Post (fun _ => True) x := fun _ _ => trivial
theorem Post.skip {Q : β → Prop} {x : E α} {f : α → E β} (hf : ∀ v, Post Q (f v)) : Post Q (x >>= f) := (Post.any x).bind fun v _ => hf v
theorem Post.ok {P : α → Prop} {v : α} (h : P v) : Post P (.ok v : E α) := by rintro _ ⟨⟩; exact h
theorem Post.pure {P : α → Prop} {v : α} (h : P v) : Post P (Pure.pure v : E α) := Post.ok h
theorem Post.error {P : α → Prop} {e : Err} : Post P (.error e : E α) := by rintro _ ⟨⟩
theorem Post.ite {P : α → Prop} {c : Prop} [Decidable c] {x y : E α} (h : Post P x) (h' : Post P y) : Post P (if c then x else y) := by
  split_ifs <;> assumption
theorem Post.mono {P Q : α → Prop} {x : E α} (h : Post P x) (hpq : ∀ v, P v → Q v) : Post Q x := fun v hv => hpq v (h v hv)

/-- The weight of a matrix: how deeply it is built. -/
def Mat.wt : Mat K → ℕ
  | .num t => if t.rank = 0 then 1 else 0
  | .lt t => if t.rank = 0 then 1 else 0
  | .ut t => if t.rank = 0 then 1 else 0
  | .const .. => 1
  | .lr l r m => 1 + (l.wt + r.wt + m.wt)
  | .wb _ l r m => 1 + (l.wt + r.wt + m.wt)
  | .kron l r => 1 + (l.wt + r.wt)
  | .tiled _ blk _ _ => 1 + ∑ i, (blk i).wt
  | _ => 0

theorem wt_num {t : Tensor K} (h : t.rank ≠ 0) : (Mat.num t).wt = 0 := by simp [Mat.wt, h]
theorem wt_num_le (t : Tensor K) : (Mat.num t).wt ≤ 1 := by simp only [Mat.wt]; split_ifs <;> omega

theorem post_mkDiag (t : Tensor K) : Post (fun r => r.wt = 0 ∧ ∃ t', r = .diag t') (mkDiag t) :=
  Post.skip fun _ => Post.pure ⟨rfl, _, rfl⟩
theorem post_mkLT (t : Tensor K) : Post (fun r => r.wt = 0) (mkLT t) :=
  Post.bind (P := fun _ => 2 ≤ t.rank) (fun v hv => by simpa using hv) fun _ h => Post.pure (if_neg (by omega))
theorem post_mkUT (t : Tensor K) : Post (fun r => r.wt = 0) (mkUT t) :=
  Post.bind (P := fun _ => 2 ≤ t.rank) (fun v hv => by simpa using hv) fun _ h => Post.pure (if_neg (by omega))
theorem post_mkConst (t : Tensor K) (s : Shp) : Post (fun r => r.wt = 1) (mkConst t s) := by
  unfold mkConst
  split
  · exact Post.ok rfl
  · exact Post.skip fun _ => Post.skip fun _ => Post.pure rfl
  · exact Post.error
theorem post_mkZero (s : Shp) : Post (fun r : Mat K => r.wt = 0 ∧ ∃ bt n m, r = .zero bt n m) (mkZero s) := by
  unfold mkZero
  split
  · exact Post.ok ⟨rfl, _, _, _, rfl⟩
  · exact Post.error
theorem post_mkLR (l r m : Mat K) : Post (fun x => x = .lr l r m) (mkLR l r m) := by
  unfold mkLR
  exact Post.skip fun _ => Post.skip fun _ => Post.skip fun _ => Post.skip fun _ => Post.skip fun _ => Post.skip fun _ => Post.skip fun _ =>
    Post.skip fun _ => Post.skip fun _ => Post.pure rfl
theorem post_mkWB (d : Tensor K) (l r m : Mat K) : Post (fun x => x = .wb d l r m) (mkWB d l r m) := by
  unfold mkWB
  exact Post.skip fun _ => Post.skip fun _ => Post.skip fun _ => Post.pure rfl
theorem post_mkTiled {n : ℕ} (blk : Fin n → Mat K) (reps : Fin n → ℕ) (ax : Int) : Post (fun x => x = .tiled n blk reps ax) (mkTiled blk reps ax) := by
  unfold mkTiled
  exact Post.skip fun _ => Post.skip fun _ => Post.pure rfl
@[simp] theorem wt_mkDense (t : Tensor K) : (mkDense t).wt = 0 := rfl

theorem post_constToLR (t : Tensor K) (r c : ℕ) : Post (fun x => x.wt = 1 ∧ ∃ l r m, x = .lr l r m) (constToLR t r c) := by
  unfold constToLR
  refine Post.bind (P := fun m => m.wt = 0) (by unfold fillDiag; exact Post.skip fun _ => (post_mkDiag _).mono fun _ h => h.1) fun m hm => ?_
  refine (post_mkLR _ _ _).mono ?_
  rintro _ rfl
  exact ⟨by simp [Mat.wt, hm, Tensor.rank], _, _, _, rfl⟩

theorem wt_convertAM (env : Env K) (a : Mat K) : (convertAM env a).wt ≤ a.wt := by
  cases a with
  | num t =>
    simp only [convertAM]
    split_ifs with h1 h2
    · simp [Mat.wt]
    · simp [Mat.wt, h1]
    · simp
  | _ => exact le_rfl

theorem post_transposeM (a : Mat K) : Post (fun r => r.wt ≤ a.wt) (transposeM a) := by
  induction a with
  | num t =>
    refine Post.ok ?_
    unfold nTranspose
    split_ifs with h
    · have : (tr t).rank ≠ 0 := by rw [length_tr h]; omega
      rw [wt_num this]; omega
    · exact le_rfl
  | zero bt r c => exact Post.ok le_rfl
  | dense t => exact Post.ok le_rfl
  | diag t => exact Post.ok le_rfl
  | const t r c => exact (post_mkConst _ _).mono fun r h => by rw [h]; rfl
  | lt t => exact (post_mkUT _).mono fun r h => by rw [h]; omega
  | ut t => exact (post_mkLT _).mono fun r h => by rw [h]; omega
  | lr l r m _ _ ihm =>
    refine ihm.bind fun m' hm => (post_mkLR _ _ _).mono ?_
    rintro _ rfl
    simp only [Mat.wt]; omega
  | wb d l r m _ _ ihm =>
    refine ihm.bind fun m' hm => Post.skip fun _ => (post_mkWB _ _ _ _).mono ?_
    rintro _ rfl
    simp only [Mat.wt]; omega
  | kron l r ihl ihr =>
    refine ihl.bind fun l' hl => ihr.bind fun r' hr => Post.pure ?_
    simp only [Mat.wt]; omega
  | tiled n blk reps axis ih =>
    refine Post.skip fun _ => Post.skip fun _ => ?_
    refine Post.bind (P := fun b => ∀ i, (b i).wt ≤ (blk i).wt) (fun b hb i => ih i _ (seqFin_ok.1 hb i)) fun b hb => (post_mkTiled _ _ _).mono ?_
    rintro _ rfl
    simp only [Mat.wt]
    exact Nat.add_le_add_left (Finset.sum_le_sum fun i _ => hb i) 1

theorem post_trM (t : Bool) (a : Mat K) : Post (fun r => r.wt ≤ a.wt) (trM t a) := by
  unfold trM
  exact Post.ite (post_transposeM a) (Post.ok le_rfl)

theorem nBroadcastBatchTo_rank {s : Shp} {t : Tensor K} : Post (fun r => r.rank ≠ 0) (nBroadcastBatchTo s t) := by
  unfold nBroadcastBatchTo nBroadcastTo
  split_ifs
  · exact Post.ok (by simp [Tensor.rank])
  · exact Post.error
  · exact Post.error

theorem post_broadcastBatchTo (s : Shp) (a : Mat K) : Post (fun r => r.wt ≤ a.wt) (broadcastBatchTo s a) := by
  induction a with
  | num t => exact nBroadcastBatchTo_rank.bind fun r hr => Post.pure (by rw [wt_num hr]; omega)
  | zero bt r c => exact Post.ok le_rfl
  | dense t => exact Post.skip fun _ => Post.pure le_rfl
  | diag t => exact Post.skip fun _ => (post_mkDiag _).mono fun r h => by rw [h.1]; omega
  | const t r c => exact Post.skip fun _ => Post.pure le_rfl
  | lt t => exact Post.skip fun _ => (post_mkLT _).mono fun r h => by rw [h]; omega
  | ut t => exact Post.skip fun _ => (post_mkUT _).mono fun r h => by rw [h]; omega
  | lr l r m ihl ihr ihm =>
    refine ihl.bind fun l' hl => ihr.bind fun r' hr => ihm.bind fun m' hm => (post_mkLR _ _ _).mono ?_
    rintro _ rfl
    simp only [Mat.wt]; omega
  | wb d l r m ihl ihr ihm =>
    refine Post.skip fun _ => Post.skip fun _ => ihl.bind fun l' hl => ihr.bind fun r' hr => ihm.bind fun m' hm => Post.skip fun _ => (post_mkWB _ _ _ _).mono ?_
    rintro _ rfl
    simp only [Mat.wt]; omega
  | kron l r ihl ihr =>
    refine ihl.bind fun l' hl => ihr.bind fun r' hr => Post.pure ?_
    simp only [Mat.wt]; omega
  | tiled n blk reps axis ih => exact Post.error

/-! ### The results of the core are not heavier than the operands -/

/-- The results of the core are not heavier than the operands. -/
structure Ops.Light (B : Ops K) : Prop where
  add : ∀ a b, Post (fun r => r.wt ≤ max a.wt b.wt) (B.add a b)
  mul : ∀ a b, Post (fun r => r.wt ≤ a.wt + b.wt) (B.mul a b)
  matmul : ∀ ta tb a b, Post (fun r => r.wt ≤ a.wt + b.wt) (B.matmul ta tb a b)
  /-- The sum of two Diagonal matrices is Diagonal, of two LowRank matrices LowRank or Zero. -/
  addDiag : ∀ s t, Post (fun r => ∃ t', r = .diag t') (B.add (.diag s) (.diag t))
  addLR : ∀ l r m l' r' m', Post (fun x => (∃ l r m, x = .lr l r m) ∨ ∃ bt n m, x = .zero bt n m) (B.add (.lr l r m) (.lr l' r' m'))
  addLRConst : ∀ l r m t n k, Post (fun x => (∃ l r m, x = .lr l r m) ∨ ∃ bt n m, x = .zero bt n m) (B.add (.lr l r m) (.const t n k))

theorem Ops.Light.bot : (Ops.bot : Ops K).Light :=
  ⟨fun _ _ => Post.error, fun _ _ => Post.error, fun _ _ _ _ => Post.error, fun _ _ => Post.error, fun _ _ _ _ _ _ => Post.error,
   fun _ _ _ _ _ _ => Post.error⟩

theorem post_broadcastTo (B : Ops K) (a : Mat K) (s : Shp) : Post (fun r => r.wt ≤ a.wt) (broadcastTo B a s) := by
  unfold broadcastTo
  refine Post.skip fun sa => Post.ite (Post.ok le_rfl) ?_
  split
  · exact Post.skip fun _ => (post_mkZero _).mono fun r h => by rw [h.1]; omega
  · exact Post.skip fun _ => (post_mkConst _ _).mono fun r h => by rw [h]; rfl
  · exact Post.ite (post_broadcastBatchTo _ _) (Post.skip fun _ => Post.skip fun _ => Post.pure (by simp))

theorem post_matmul3 {B : Ops K} (hB : B.Light) (ta tb tc : Bool) (a b c : Mat K) :
    Post (fun r => r.wt ≤ a.wt + b.wt + c.wt) (matmul3 B ta tb tc a b c) := by
  unfold matmul3
  refine Post.skip fun _ => Post.skip fun _ => Post.skip fun _ => Post.ite ?_ ?_
  · exact (hB.matmul _ _ _ _).bind fun x hx => (hB.matmul _ _ _ _).mono fun r hr => by omega
  · exact (hB.matmul _ _ _ _).bind fun x hx => (hB.matmul _ _ _ _).mono fun r hr => by omega

theorem nTake_rank {t : Tensor K} {idx : List Int} {ax : Int} : Post (fun r => r.rank ≠ 0) (nTake t idx ax) := by
  unfold nTake
  refine Post.bind (P := fun k => k < t.rank) (fun k hk => axPos_lt hk) fun k hk => Post.skip fun js => Post.pure ?_
  simp only [takeAx, Tensor.rank, ofFn_sh, List.length_set] at *
  omega

theorem post_takeGen (B : Ops K) (a : Mat K) (idx : List Int) (ax : Int) : Post (fun r => r.wt = 0) (takeGen B a idx ax) := by
  unfold takeGen
  refine Post.skip fun _ => nTake_rank.bind fun r hr => Post.pure ?_
  unfold wrapLike
  split_ifs
  · rfl
  · exact wt_num hr

theorem post_addLRLR {env : Env K} {B : Ops K} (hB : B.Light) (al ar am bl br bm : Mat K) :
    Post (fun x => x.wt ≤ 1 ∧ ((∃ l r m, x = .lr l r m) ∨ ∃ bt n m, x = .zero bt n m)) (addLRLR env B al ar am bl br bm) := by
  unfold addLRLR
  refine Post.skip fun _ => Post.skip fun _ => Post.skip fun _ => Post.skip fun _ => Post.skip fun _ => Post.skip fun L =>
    Post.skip fun _ => Post.skip fun _ => Post.skip fun R => ?_
  refine Post.skip fun _ => (post_takeGen B _ _ _).bind fun l1 h1 => Post.skip fun _ => (post_takeGen B _ _ _).bind fun l2 h2 => (hB.add _ _).bind fun jl hl => ?_
  refine Post.skip fun _ => (post_takeGen B _ _ _).bind fun l3 h3 => Post.skip fun _ => (post_takeGen B _ _ _).bind fun l4 h4 => (hB.add _ _).bind fun jr hr => ?_
  refine Post.skip fun _ => Post.skip fun _ => Post.skip fun _ => (post_takeGen B _ _ _).bind fun l5 h5 => ?_
  refine Post.skip fun _ => Post.skip fun _ => Post.skip fun _ => (post_takeGen B _ _ _).bind fun l6 h6 => (hB.add _ _).bind fun jm hm => ?_
  refine (post_mkLR _ _ _).bind ?_
  rintro _ rfl
  refine Post.skip fun _ => Post.skip fun z => Post.ite (Post.skip fun _ => (post_mkZero _).mono fun r h => ⟨by rw [h.1]; omega, Or.inr h.2⟩) (Post.pure ⟨?_, Or.inl ⟨_, _, _, rfl⟩⟩)
  simp only [Mat.wt]
  omega

theorem post_addRun {env : Env K} {B : Ops K} (hB : B.Light) (m : AddM) (a b : Mat K) : Post (fun r => r.wt ≤ max a.wt b.wt) (addRun env B m a b) := by
  unfold addRun
  split
  · refine Post.skip fun _ => Post.skip fun _ => Post.skip fun _ => ?_
    split
    · exact Post.skip fun _ => (post_broadcastTo _ _ _).mono fun r h => by omega
    · exact Post.error
  · refine Post.skip fun _ => Post.skip fun _ => Post.skip fun _ => ?_
    split
    · exact Post.skip fun _ => (post_broadcastTo _ _ _).mono fun r h => by omega
    · exact Post.error
  · exact Post.skip fun _ => Post.skip fun _ => Post.skip fun _ => Post.pure (by simp)
  · exact Post.skip fun _ => Post.pure (by simp)
  · exact Post.skip fun _ => (post_mkDiag _).mono fun r h => by rw [h.1]; omega
  · refine Post.skip fun _ => Post.skip fun _ => Post.skip fun _ => (post_mkConst _ _).mono fun r h => ?_
    rw [h]; simp [Mat.wt]
  · exact Post.skip fun _ => Post.skip fun _ => Post.skip fun _ => Post.skip fun _ => Post.pure (by simp)
  · refine Post.skip fun _ => Post.skip fun _ => Post.skip fun _ => Post.skip fun _ => (post_constToLR _ _ _).bind fun lr h => (hB.add _ _).mono fun r hr => ?_
    rw [h.1] at hr
    simpa [Mat.wt] using hr
  · exact (hB.add _ _).mono fun r h => by omega
  · exact Post.skip fun _ => (post_mkLT _).mono fun r h => by rw [h]; omega
  · exact Post.skip fun _ => Post.skip fun _ => (post_mkLT _).mono fun r h => by rw [h]; omega
  · exact Post.skip fun _ => (post_mkUT _).mono fun r h => by rw [h]; omega
  · exact Post.skip fun _ => Post.pure (by simp)
  · exact Post.skip fun _ => Post.skip fun _ => (post_mkUT _).mono fun r h => by rw [h]; omega
  · exact (post_addLRLR hB _ _ _ _ _ _).mono fun r h => by simp only [Mat.wt]; omega
  · refine Post.skip fun _ => (post_constToLR _ _ _).bind fun lr h => (hB.add _ _).mono fun r hr => ?_
    rw [h.1] at hr
    exact hr
  · refine (post_mkWB _ _ _ _).mono ?_
    rintro _ rfl
    simp [Mat.wt]
  · refine (post_mkWB _ _ _ _).mono ?_
    rintro _ rfl
    simp [Mat.wt]
  · refine (hB.add _ _).bind fun x hx => (hB.add _ _).bind fun y hy => (hB.add _ _).mono fun r hr => ?_
    simp only [Mat.wt] at *
    omega
  · refine (hB.add _ _).bind fun x hx => (hB.add _ _).mono fun r hr => ?_
    simp only [Mat.wt] at *
    omega
  · refine (hB.add _ _).bind fun x hx => (hB.add _ _).mono fun r hr => ?_
    simp only [Mat.wt] at *
    omega
  · exact Post.error

theorem post_stepAdd {env : Env K} {B : Ops K} (hB : B.Light) (a b : Mat K) : Post (fun r => r.wt ≤ max a.wt b.wt) (stepAdd env B a b) := by
  unfold stepAdd
  split
  · rename_i s t
    refine Post.bind (P := fun r => r = zipB (· + ·) s t) (fun r h => by simp only [nAdd, nZip_ok] at h; exact h.2.symm) ?_
    rintro _ rfl
    refine Post.pure ?_
    simp only [Mat.wt, Tensor.rank, zipB_sh, length_bsh]
    split_ifs <;> omega
  · dsimp only
    split
    · refine (post_addRun hB _ _ _).mono fun r h => ?_
      have h1 := wt_convertAM env a
      have h2 := wt_convertAM env b
      omega
    · exact Post.error

theorem post_mulLRLR (B : Ops K) (al ar am bl br bm : Mat K) : Post (fun x => x.wt ≤ 1) (mulLRLR B al ar am bl br bm) := by
  unfold mulLRLR
  iterate 20 refine Post.skip fun _ => ?_
  refine Post.bind (P := fun f => f.1.rank ≠ 0 ∧ f.2.1.rank ≠ 0 ∧ f.2.2.rank ≠ 0) ?_ fun f hf => (post_mkLR _ _ _).mono ?_
  · unfold hadamardFactors
    exact Post.skip fun _ => Post.skip fun _ => Post.skip fun _ => Post.pure ⟨by simp [Tensor.rank], by simp [Tensor.rank], by simp [Tensor.rank]⟩
  · rintro _ rfl
    simp [Mat.wt, hf.1, hf.2.1, hf.2.2]

theorem post_mulDiagAm (B : Ops K) (d : Tensor K) (b : Mat K) : Post (fun r => r.wt = 0) (mulDiagAm B d b) := by
  unfold mulDiagAm
  refine Post.skip fun _ => Post.skip fun _ => Post.skip fun _ => Post.skip fun _ => ?_
  have h : ∀ x : Tensor K, Post (fun r => r.wt = 0) (do mkDiag (← nMul d x)) := fun x => Post.skip fun _ => (post_mkDiag _).mono fun r h => h.1
  exact Post.ite (Post.skip fun _ => Post.skip fun _ => h _) (Post.ite (Post.skip fun _ => Post.skip fun _ => h _) (Post.skip fun _ => h _))

theorem wt_expandIgn (s : Tensor K) : (Mat.num (expandIgn 2 s)).wt ≤ 1 := wt_num_le _

theorem post_mulRun {B : Ops K} (hB : B.Light) (m : MulM) (a b : Mat K) : Post (fun r => r.wt ≤ a.wt + b.wt) (mulRun B m a b) := by
  unfold mulRun
  split
  · refine Post.skip fun _ => Post.skip fun _ => Post.skip fun _ => ?_
    split
    · exact Post.skip fun _ => (post_broadcastTo _ _ _).mono fun r h => by omega
    · exact Post.error
  · refine Post.skip fun _ => Post.skip fun _ => Post.skip fun _ => ?_
    split
    · exact Post.skip fun _ => (post_broadcastTo _ _ _).mono fun r h => by omega
    · exact Post.error
  · exact Post.skip fun _ => Post.skip fun _ => Post.skip fun _ => Post.pure (by simp)
  · exact Post.skip fun _ => Post.pure (by simp)
  · exact Post.skip fun _ => (post_mkDiag _).mono fun r h => by rw [h.1]; omega
  · exact (post_mulDiagAm _ _ _).mono fun r h => by rw [h]; omega
  · exact (hB.mul _ _).mono fun r h => by omega
  · refine Post.skip fun _ => Post.skip fun _ => Post.skip fun _ => (post_mkConst _ _).mono fun r h => ?_
    rw [h]; simp [Mat.wt]
  · exact Post.skip fun _ => Post.skip fun _ => Post.skip fun _ => Post.skip fun _ => Post.skip fun _ => Post.skip fun _ => Post.skip fun _ => Post.pure (by simp)
  · exact Post.skip fun _ => Post.skip fun _ => Post.skip fun _ => Post.skip fun _ => (post_mkDiag _).mono fun r h => by rw [h.1]; omega
  · exact Post.skip fun _ => (post_mkLT _).mono fun r h => by rw [h]; omega
  · exact Post.skip fun _ => Post.skip fun _ => (post_mkLT _).mono fun r h => by rw [h]; omega
  · exact Post.skip fun _ => (post_mkLT _).mono fun r h => by rw [h]; omega
  · exact Post.skip fun _ => (post_mkUT _).mono fun r h => by rw [h]; omega
  · exact Post.skip fun _ => Post.skip fun _ => Post.skip fun _ => (post_mkDiag _).mono fun r h => by rw [h.1]; omega
  · exact Post.skip fun _ => Post.skip fun _ => (post_mkUT _).mono fun r h => by rw [h]; omega
  · exact Post.skip fun _ => (post_mkUT _).mono fun r h => by rw [h]; omega
  · exact (post_mulLRLR _ _ _ _ _ _ _).mono fun r h => by simp only [Mat.wt]; omega
  · rename_i s r c l r' m
    refine Post.skip fun _ => Post.skip fun _ => Post.skip fun _ => (hB.mul _ _).bind fun m' hm => (post_mkLR _ _ _).mono ?_
    rintro _ rfl
    have := wt_expandIgn s
    simp only [Mat.wt] at *
    omega
  · refine (hB.mul _ _).bind fun x hx => (hB.mul _ _).bind fun y hy => (hB.add _ _).mono fun r hr => ?_
    simp only [Mat.wt] at *
    omega
  · refine Post.skip fun _ => Post.skip fun _ => Post.skip fun _ => Post.skip fun _ => Post.skip fun _ => (hB.mul _ _).bind fun x hx => (hB.mul _ _).bind fun y hy => Post.pure ?_
    simp only [Mat.wt]
    omega
  · rename_i s r c l r'
    refine Post.skip fun _ => Post.skip fun _ => Post.skip fun _ => (hB.mul _ _).bind fun x hx => Post.pure ?_
    have := wt_expandIgn s
    simp only [Mat.wt] at *
    omega
  · exact Post.error

theorem post_stepMul {env : Env K} {B : Ops K} (hB : B.Light) (a b : Mat K) : Post (fun r => r.wt ≤ a.wt + b.wt) (stepMul env B a b) := by
  unfold stepMul
  split
  · rename_i s t
    refine Post.bind (P := fun r => r = zipB (· * ·) s t) (fun r h => by simp only [nMul, nZip_ok] at h; exact h.2.symm) ?_
    rintro _ rfl
    refine Post.pure ?_
    simp only [Mat.wt, Tensor.rank, zipB_sh, length_bsh]
    split_ifs <;> omega
  · dsimp only
    split
    · refine (post_mulRun hB _ _ _).mono fun r h => ?_
      have h1 := wt_convertAM env a
      have h2 := wt_convertAM env b
      omega
    · exact Post.error

theorem post_matmulLRLR {B : Ops K} (hB : B.Light) (ta tb : Bool) (a b : Mat K) : Post (fun r => r.wt ≤ a.wt + b.wt) (matmulLRLR B ta tb a b) := by
  unfold matmulLRLR
  refine Post.skip fun _ => (post_trM ta a).bind fun a' ha => (post_trM tb b).bind fun b' hb => ?_
  split
  · refine (hB.matmul _ _ _ _).bind fun x hx => (post_matmul3 hB _ _ _ _ _ _).bind fun y hy => Post.skip fun _ => Post.ite ?_ ?_
    · refine Post.skip fun _ => (post_mkDiag _).bind fun d hd => (post_mkLR _ _ _).mono ?_
      rintro _ rfl
      simp only [Mat.wt] at *
      omega
    · refine (post_mkLR _ _ _).mono ?_
      rintro _ rfl
      simp only [Mat.wt] at *
      omega
  · exact Post.error

theorem post_matmulKronAm (B : Ops K) (ta tb : Bool) (l r b : Mat K) : Post (fun r => r.wt = 0) (matmulKronAm B ta tb l r b) := by
  unfold matmulKronAm
  iterate 7 refine Post.skip fun _ => ?_
  exact Post.ite (Post.skip fun _ => Post.skip fun _ => Post.pure rfl) (Post.skip fun _ => Post.skip fun _ => Post.pure rfl)

theorem post_fillDiag (t : Tensor K) (n : ℕ) : Post (fun r => r.wt = 0) (fillDiag t n) :=
  Post.skip fun _ => (post_mkDiag _).mono fun _ h => h.1

theorem post_mmRun {B : Ops K} (hB : B.Light) (m : MmM) (ta tb : Bool) (a b : Mat K) (h1 : m = .kronDiag → 1 ≤ a.wt) (h2 : m = .diagKron → 1 ≤ b.wt) :
    Post (fun r => r.wt ≤ a.wt + b.wt) (mmRun B m ta tb a b) := by
  unfold mmRun
  split
  · exact Post.skip fun _ => Post.skip fun _ => Post.skip fun _ => Post.skip fun _ => Post.skip fun _ => Post.pure (by simp [Mat.wt])
  · exact Post.skip fun _ => Post.skip fun _ => Post.skip fun _ => Post.skip fun _ => Post.skip fun _ => Post.pure (by simp [Mat.wt])
  · exact Post.skip fun _ => Post.pure (by simp)
  · exact Post.skip fun _ => Post.skip fun _ => (post_mkDiag _).mono fun r h => by rw [h.1]; omega
  · exact Post.skip fun _ => (post_trM _ _).bind fun b' hb => (hB.mul _ _).mono fun r hr => by simp only [Mat.wt, wt_mkDense] at *; omega
  · exact Post.skip fun _ => (post_trM _ _).bind fun b' hb => (hB.mul _ _).mono fun r hr => by simp only [Mat.wt, wt_mkDense] at *; omega
  · exact Post.skip fun _ => Post.skip fun _ => Post.pure (by simp [Mat.wt])
  · refine Post.skip fun _ => (post_trM _ _).bind fun b' hb => Post.skip fun v => (post_fillDiag _ _).bind fun d hd => (post_mkLR _ _ _).mono ?_
    rintro _ rfl
    simp [Mat.wt, hd, Tensor.rank, expandEnd]
  · refine Post.skip fun _ => (post_trM _ _).bind fun b' hb => Post.skip fun v => (post_fillDiag _ _).bind fun d hd => (post_mkLR _ _ _).mono ?_
    rintro _ rfl
    simp [Mat.wt, hd, Tensor.rank, expandEnd]
  · split_ifs
    · exact Post.skip fun _ => (post_mkLT _).mono fun r h => by rw [h]; omega
    · exact (post_trM _ _).bind fun a' ha => (post_trM _ _).bind fun b' hb => (hB.matmul _ _ _ _).mono fun r hr => by omega
  · split
    · exact (hB.matmul _ _ _ _).mono fun r hr => by simp only [Mat.wt] at *; omega
    · exact (hB.matmul _ _ _ _).mono fun r hr => by simp only [Mat.wt] at *; omega
    · exact Post.error
  · split
    · exact (hB.matmul _ _ _ _).mono fun r hr => by simp only [Mat.wt] at *; omega
    · exact (hB.matmul _ _ _ _).mono fun r hr => by simp only [Mat.wt] at *; omega
    · exact Post.error
  · split_ifs
    · exact Post.skip fun _ => Post.skip fun _ => (post_mkLT _).mono fun r h => by rw [h]; omega
    · exact (post_trM _ _).bind fun a' ha => (hB.matmul _ _ _ _).mono fun r hr => by omega
  · split_ifs
    · exact Post.skip fun _ => Post.skip fun _ => (post_mkLT _).mono fun r h => by rw [h]; omega
    · exact (post_trM _ _).bind fun a' ha => (hB.matmul _ _ _ _).mono fun r hr => by omega
  · split_ifs
    · exact Post.skip fun _ => (post_mkUT _).mono fun r h => by rw [h]; omega
    · exact (post_trM _ _).bind fun a' ha => (post_trM _ _).bind fun b' hb => (hB.matmul _ _ _ _).mono fun r hr => by omega
  · split_ifs
    · exact Post.skip fun _ => Post.skip fun _ => (post_mkUT _).mono fun r h => by rw [h]; omega
    · exact (post_trM _ _).bind fun a' ha => (hB.matmul _ _ _ _).mono fun r hr => by omega
  · split_ifs
    · exact Post.skip fun _ => Post.skip fun _ => (post_mkUT _).mono fun r h => by rw [h]; omega
    · exact (post_trM _ _).bind fun a' ha => (hB.matmul _ _ _ _).mono fun r hr => by omega
  · exact post_matmulLRLR hB _ _ _ _
  · refine Post.skip fun _ => (post_trM _ _).bind fun a' ha => ?_
    split
    · refine (post_trM _ _).bind fun b' hb => (hB.matmul _ _ _ _).bind fun x hx => (post_mkLR _ _ _).mono ?_
      rintro _ rfl
      simp only [Mat.wt] at *
      omega
    · exact Post.error
  · refine Post.skip fun _ => (post_trM _ _).bind fun a' ha => ?_
    split
    · refine (post_trM _ _).bind fun b' hb => (hB.matmul _ _ _ _).bind fun x hx => (post_mkLR _ _ _).mono ?_
      rintro _ rfl
      simp only [Mat.wt] at *
      omega
    · exact Post.error
  · refine (post_constToLR _ _ _).bind fun x hx => (hB.matmul _ _ _ _).mono fun r hr => ?_
    rw [hx.1] at hr
    exact hr
  · refine (post_constToLR _ _ _).bind fun x hx => (hB.matmul _ _ _ _).mono fun r hr => ?_
    rw [hx.1] at hr
    exact hr
  · refine (hB.matmul _ _ _ _).bind fun x hx => (hB.matmul _ _ _ _).bind fun y hy => (hB.add _ _).mono fun r hr => ?_
    simp only [Mat.wt] at *
    omega
  · refine (hB.matmul _ _ _ _).bind fun x hx => (hB.matmul _ _ _ _).bind fun y hy => (hB.add _ _).mono fun r hr => ?_
    simp only [Mat.wt] at *
    omega
  · refine Post.skip fun _ => Post.skip fun _ => (hB.matmul _ _ _ _).bind fun x hx => (hB.matmul _ _ _ _).bind fun y hy => Post.pure ?_
    simp only [Mat.wt] at *
    omega
  · exact (post_matmulKronAm _ _ _ _ _ _).mono fun r h => by rw [h]; omega
  · exact (hB.matmul _ _ _ _).bind fun x hx => (post_transposeM _).mono fun r hr => by omega
  · refine Post.skip fun d => (hB.matmul _ _ _ _).mono fun r hr => ?_
    have := h1 rfl
    have := wt_num_le d
    omega
  · refine Post.skip fun d => (hB.matmul _ _ _ _).mono fun r hr => ?_
    have := h2 rfl
    have := wt_num_le d
    omega
  · exact Post.error

theorem mmId_kron {k k' : Kind} {m : MmM} (h : mmId k k' = some m) : (m = .kronDiag → k = .kron) ∧ (m = .diagKron → k' = .kron) := by
  revert h m
  cases k <;> cases k' <;> intro m h <;> simp only [mmId, Option.some.injEq, reduceCtorEq] at h <;> subst h <;> simp

theorem wt_kron {a : Mat K} (h : a.kind = some .kron) : 1 ≤ a.wt := by
  cases a <;> simp [Mat.kind, Mat.wt] at *

theorem post_stepMatmul {env : Env K} {B : Ops K} (hB : B.Light) (ta tb : Bool) (a b : Mat K) :
    Post (fun r => r.wt ≤ a.wt + b.wt) (stepMatmul env B ta tb a b) := by
  unfold stepMatmul
  split
  · rename_i s t
    unfold nMatmul
    split_ifs
    · refine Post.pure ?_
      simp [Mat.wt, Tensor.rank]
    · exact Post.error
  · dsimp only
    split
    · split
      · rename_i ka kb ea eb _ m e
        obtain ⟨e1, e2⟩ := mmId_kron e
        refine (post_mmRun hB _ _ _ _ _ (fun h => wt_kron (ea.trans (by rw [e1 h]))) (fun h => wt_kron (eb.trans (by rw [e2 h])))).mono fun r h => ?_
        have h1 := wt_convertAM env a
        have h2 := wt_convertAM env b
        omega
      · exact Post.error
    · exact Post.error

theorem Ops.Light.step {env : Env K} {B : Ops K} (hB : B.Light) : (step env B).Light where
  add := post_stepAdd hB
  mul := post_stepMul hB
  matmul := post_stepMatmul hB
  addDiag s t := by
    show Post _ (addRun env B .diagDiag (.diag s) (.diag t))
    exact Post.skip fun _ => (post_mkDiag _).mono fun r h => h.2
  addLR l r m l' r' m' := (post_addLRLR hB _ _ _ _ _ _).mono fun r h => h.2
  addLRConst l r m t n k := by
    show Post _ (addRun env B .lrConst (.lr l r m) (.const t n k))
    refine Post.skip fun _ => (post_constToLR _ _ _).bind fun x hx => ?_
    obtain ⟨_, _, _, _, rfl⟩ := hx
    exact hB.addLR _ _ _ _ _ _

theorem ops_light (env : Env K) (n : ℕ) : (ops env n).Light := by
  induction n with
  | zero => exact Ops.Light.bot
  | succ n ih => exact ih.step

end Verif
