/-
Termination (C35): every call of the core settles.
-/
import Verif.TermNF
import Verif.Api

set_option linter.unusedSectionVars false

namespace Verif

variable {K : Type} [Field K] [LinearOrder K] {α β : Type}

/-! ### The measure -/

/-- Level of `B.dense`, `B.diag` and `B.sum` of a matrix. -/
def lvlD : Mat K → ℕ
  | .wb .. => 1
  | _ => 0

/-- Level of an addition. -/
def lvlAddM : AddM → ℕ
  | .swap => 5
  | .wbAny => 4
  | .constDiag | .lrConst | .wbDiag | .wbWb => 3
  | _ => 2

/-- Level of an addition of two classes. -/
def lvlAdd (k k' : Kind) : ℕ := lvlAddM (addId k k')

/-- Level of a multiplication. -/
def lvlMul (k k' : Kind) : ℕ :=
  match mulId k k' with
  | .swap => if k = .wb ∨ k' = .wb then 9 else 7
  | .wbAm => if k' = .wb then 10 else 8
  | _ => 6

/-- Level of a matrix multiplication. -/
def lvlMm (ta tb : Bool) (k k' : Kind) : ℕ :=
  match mmId k k' with
  | some .ltLt | some .utUt => if ta = false ∧ tb = false then 11 else 15
  | some .amLt => if k = .lt ∨ k = .ut then 14 else 12
  | some .ltAm => 13
  | some .ltDiag | some .utDiag => if ta = false then 12 else 13
  | some .diagLt | some .diagUt => if tb = false then 12 else 13
  | some .kronDiag | some .diagKron | some .lrConst | some .constLr | some .amKron => 12
  | some .amWb => 13
  | some .wbAm => 14
  | _ => 11

/-- The class after promotion. -/
def kindC (env : Env K) (a : Mat K) : Kind := ((convertAM env a).kind).getD .dense

theorem kind_convertAM (env : Env K) (a : Mat K) : (convertAM env a).kind = some (kindC env a) := by
  unfold kindC
  cases a with
  | num t =>
    simp only [convertAM]
    split_ifs <;> rfl
  | _ => rfl

theorem kindC_am {env : Env K} {a : Mat K} {k : Kind} (h : a.kind = some k) : kindC env a = k := by
  cases a <;> simp_all [Mat.kind, kindC, convertAM]

theorem kindC_num (env : Env K) (t : Tensor K) : kindC env (.num t) = .dense ∨ kindC env (.num t) = .zero ∨ kindC env (.num t) = .const := by
  simp only [kindC, convertAM]
  split_ifs <;> simp [Mat.kind, mkDense]

/-- All calls with measure below `N` settle. -/
structure AllDone (env : Env K) (N : ℕ) : Prop where
  dense : ∀ a : Mat K, 16 * a.wt + lvlD a < N → Done fun n => (ops env n).dense a
  diag : ∀ a : Mat K, 16 * a.wt + lvlD a < N → Done fun n => (ops env n).diag a
  sumM : ∀ k (a : Mat K), 16 * a.wt + lvlD a < N → Done fun n => (ops env n).sumM k a
  add : ∀ a b : Mat K, 16 * max a.wt b.wt + lvlAdd (kindC env a) (kindC env b) < N → Done fun n => (ops env n).add a b
  mul : ∀ a b : Mat K, 16 * (a.wt + b.wt) + lvlMul (kindC env a) (kindC env b) < N → Done fun n => (ops env n).mul a b
  matmul : ∀ ta tb (a b : Mat K), 16 * (a.wt + b.wt) + lvlMm ta tb (kindC env a) (kindC env b) < N → Done fun n => (ops env n).matmul ta tb a b

theorem lvlD_le (a : Mat K) : lvlD a ≤ 1 := by cases a <;> simp [lvlD]
theorem lvlAdd_le (k k' : Kind) : 2 ≤ lvlAdd k k' ∧ lvlAdd k k' ≤ 5 := by unfold lvlAdd lvlAddM; split <;> omega
theorem lvlMul_le (k k' : Kind) : 6 ≤ lvlMul k k' ∧ lvlMul k k' ≤ 10 := by unfold lvlMul; split <;> (try split_ifs) <;> omega
theorem lvlMm_le (ta tb : Bool) (k k' : Kind) : 11 ≤ lvlMm ta tb k k' ∧ lvlMm ta tb k k' ≤ 15 := by
  unfold lvlMm; split <;> (try split_ifs) <;> omega

section
variable {env : Env K} {N : ℕ}

/-! Weakened forms: it is enough that the weight is smaller, or the weight is not larger and the level is. -/

theorem AllDone.dense' (h : AllDone env N) {a : Mat K} {w : ℕ} (hw : a.wt ≤ w) (hN : 16 * w + 2 ≤ N) : Done fun n => (ops env n).dense a :=
  h.dense a (by have := lvlD_le a; omega)
theorem AllDone.diag' (h : AllDone env N) {a : Mat K} {w : ℕ} (hw : a.wt ≤ w) (hN : 16 * w + 2 ≤ N) : Done fun n => (ops env n).diag a :=
  h.diag a (by have := lvlD_le a; omega)
theorem AllDone.sumM' (h : AllDone env N) {k : ℕ} {a : Mat K} {w : ℕ} (hw : a.wt ≤ w) (hN : 16 * w + 2 ≤ N) : Done fun n => (ops env n).sumM k a :=
  h.sumM k a (by have := lvlD_le a; omega)
theorem AllDone.add' (h : AllDone env N) {a b : Mat K} {w : ℕ} (hw : max a.wt b.wt ≤ w) (hN : 16 * w + 6 ≤ N) : Done fun n => (ops env n).add a b :=
  h.add a b (by have := lvlAdd_le (kindC env a) (kindC env b); omega)
theorem AllDone.mul' (h : AllDone env N) {a b : Mat K} {w : ℕ} (hw : a.wt + b.wt ≤ w) (hN : 16 * w + 11 ≤ N) : Done fun n => (ops env n).mul a b :=
  h.mul a b (by have := lvlMul_le (kindC env a) (kindC env b); omega)
theorem AllDone.matmul' (h : AllDone env N) {ta tb : Bool} {a b : Mat K} {w : ℕ} (hw : a.wt + b.wt ≤ w) (hN : 16 * w + 16 ≤ N) :
    Done fun n => (ops env n).matmul ta tb a b :=
  h.matmul ta tb a b (by have := lvlMm_le ta tb (kindC env a) (kindC env b); omega)

/-! ### `B.dense`, `B.diag`, `B.sum` -/

theorem ok_of_ops {x : ℕ → E α} {P : α → Prop} {v : α} (h : ∃ n, x n = .ok v) (hp : ∀ n, Post P (x n)) : P v := by
  obtain ⟨n, hn⟩ := h
  exact hp n v hn

theorem done_matmul3 (h : AllDone env N) {ta tb tc : Bool} {a b c : Mat K} (hN : 16 * (a.wt + b.wt + c.wt) + 16 ≤ N) :
    Done fun n => matmul3 (ops env n) ta tb tc a b c := by
  unfold matmul3
  refine Done.bind' (nf_shapeMatrixTr _ _) fun _ _ => Done.bind' (nf_shapeMatrixTr _ _) fun _ _ => Done.bind' (nf_shapeMatrixTr _ _) fun _ _ => Done.ite ?_ ?_
  · refine Done.bind (h.matmul' le_rfl (by omega)) fun v hv => ?_
    have := ok_of_ops hv fun n => (ops_light env n).matmul _ _ _ _
    exact h.matmul' le_rfl (by omega)
  · refine Done.bind (h.matmul' le_rfl (by omega)) fun v hv => ?_
    have := ok_of_ops hv fun n => (ops_light env n).matmul _ _ _ _
    exact h.matmul' le_rfl (by omega)

theorem wt_blk {n : ℕ} (blk : Fin n → Mat K) (reps : Fin n → ℕ) (ax : Int) (i : Fin n) : (blk i).wt + 1 ≤ (Mat.tiled n blk reps ax).wt := by
  have := Finset.single_le_sum (f := fun i => (blk i).wt) (fun _ _ => Nat.zero_le _) (Finset.mem_univ i)
  simp only [Mat.wt]
  omega

theorem done_dense (h : AllDone env N) (a : Mat K) (hN : 16 * a.wt + lvlD a ≤ N) : Done fun n => (ops env n).dense a := by
  refine Done.succ ?_
  show Done fun n => stepDense (ops env n) a
  cases a with
  | const t r c => exact Done.const (nf_denseConst _ _ _)
  | lr l r m =>
    simp only [stepDense, Mat.wt, lvlD] at *
    refine Done.bind (done_matmul3 h (by omega)) fun v hv => ?_
    have := ok_of_ops hv fun n => post_matmul3 (ops_light env n) _ _ _ _ _ _
    exact h.dense' this (by omega)
  | wb d l r m =>
    simp only [stepDense, Mat.wt, lvlD] at *
    refine Done.bind (h.dense _ (by simp only [Mat.wt, lvlD]; omega)) fun _ _ => Done.bind (h.dense _ (by simp only [Mat.wt, lvlD]; omega)) fun _ _ => Done.const (nf_nAdd _ _)
  | kron l r =>
    simp only [stepDense, Mat.wt, lvlD] at *
    refine Done.bind' (nf_alignBatch2 _ _) fun lr hlr => ?_
    have hw : lr.1.wt ≤ l.wt ∧ lr.2.wt ≤ r.wt := by
      simp only [alignBatch2, bind_ok_iff, pure_eq_ok] at hlr
      obtain ⟨s, _, x, hx, y, hy, rfl⟩ := hlr
      exact ⟨post_broadcastBatchTo _ _ _ hx, post_broadcastBatchTo _ _ _ hy⟩
    exact Done.bind (h.dense' hw.1 (by omega)) fun _ _ => Done.bind (h.dense' hw.2 (by omega)) fun _ _ => Done.const (NF.pure _)
  | tiled k blk reps ax =>
    simp only [stepDense, denseTiled, lvlD] at *
    refine Done.bind' (nf_shape _) fun s _ => Done.bind' (nf_axPos _ _) fun k _ => ?_
    refine Done.bind (Done.seqFin fun i => ?_) fun p _ => Done.const (nf_nConcat _ _)
    refine Done.bind' (nf_shapeBatch _) fun bb _ => Done.bind' (nf_broadcastBatchTo _ _) fun x hx => ?_
    have h1 := post_broadcastBatchTo _ _ _ hx
    have h2 := wt_blk blk reps ax i
    exact Done.bind (h.dense' h1 (by omega)) fun _ _ => Done.const (NF.pure _)
  | _ => exact Done.const (NF.ok _)

theorem done_diag (h : AllDone env N) (a : Mat K) (hN : 16 * a.wt + lvlD a ≤ N) : Done fun n => (ops env n).diag a := by
  refine Done.succ ?_
  show Done fun n => stepDiag (ops env n) a
  cases a with
  | num t => simp only [stepDiag]; exact Done.const (by nf)
  | const t r c => exact Done.const (nf_nMul _ _)
  | tiled k blk reps ax => exact Done.const (NF.err (by decide))
  | lr l r m =>
    simp only [stepDiag, diagLR, Mat.wt, lvlD] at *
    refine Done.bind' (nf_shapeMatrix _) fun _ _ => Done.bind (h.matmul' le_rfl (by omega)) fun v hv => ?_
    have := ok_of_ops hv fun n => (ops_light env n).matmul _ _ _ _
    exact Done.bind (h.dense' this (by omega)) fun _ _ => Done.bind (h.dense' le_rfl (by omega)) fun _ _ => Done.bind' (nf_nMul _ _) fun _ _ => Done.const (nf_nSum _ _)
  | wb d l r m =>
    simp only [stepDiag, Mat.wt, lvlD] at *
    refine Done.bind (h.diag _ (by simp only [Mat.wt, lvlD]; omega)) fun _ _ => Done.bind (h.diag _ (by simp only [Mat.wt, lvlD]; omega)) fun _ _ => Done.const (nf_nAdd _ _)
  | kron l r =>
    simp only [stepDiag, Mat.wt, lvlD] at *
    refine Done.bind' (nf_alignBatch2 _ _) fun lr hlr => ?_
    have hw : lr.1.wt ≤ l.wt ∧ lr.2.wt ≤ r.wt := by
      simp only [alignBatch2, bind_ok_iff, pure_eq_ok] at hlr
      obtain ⟨s, _, x, hx, y, hy, rfl⟩ := hlr
      exact ⟨post_broadcastBatchTo _ _ _ hx, post_broadcastBatchTo _ _ _ hy⟩
    exact Done.bind (h.diag' hw.1 (by omega)) fun _ _ => Done.bind (h.diag' hw.2 (by omega)) fun _ _ => Done.const (NF.pure _)
  | _ => exact Done.const (NF.ok _)

theorem wt_expandRow (t : Tensor K) : (Mat.num (expandRow t)).wt ≤ 0 := by
  rw [wt_num]
  simp [expandRow, Tensor.rank]

theorem done_sumM (h : AllDone env N) (k : ℕ) (a : Mat K) (hN : 16 * a.wt + lvlD a ≤ N) : Done fun n => (ops env n).sumM k a := by
  refine Done.succ ?_
  show Done fun n => stepSumM (ops env n) k a
  cases a with
  | num t => simp only [stepSumM]; exact Done.const (nf_nSum _ _)
  | dense t => simp only [stepSumM]; exact Done.const (nf_nSum _ _)
  | lt t => simp only [stepSumM]; exact Done.const (nf_nSum _ _)
  | ut t => simp only [stepSumM]; exact Done.const (nf_nSum _ _)
  | const t r c => exact Done.const (nf_nMul _ _)
  | tiled k blk reps ax => exact Done.const (NF.err (by decide))
  | lr l r m =>
    simp only [stepSumM, sumLR, Mat.wt, lvlD] at *
    refine Done.ite ?_ ?_
    · refine Done.bind (h.sumM' le_rfl (by omega)) fun s _ => Done.bind (h.matmul' le_rfl (by omega)) fun v hv => ?_
      have h1 := ok_of_ops hv fun n => (ops_light env n).matmul _ _ _ _
      have h2 := wt_expandRow s
      refine Done.bind (h.mul' le_rfl (by omega)) fun p hp => ?_
      have h3 := ok_of_ops hp fun n => (ops_light env n).mul _ _
      exact h.sumM' le_rfl (by omega)
    · refine Done.bind (h.matmul' le_rfl (by omega)) fun v hv => Done.bind (h.sumM' le_rfl (by omega)) fun s _ => ?_
      have h1 := ok_of_ops hv fun n => (ops_light env n).matmul _ _ _ _
      have h2 := wt_expandRow s
      refine Done.bind (h.mul' le_rfl (by omega)) fun p hp => ?_
      have h3 := ok_of_ops hp fun n => (ops_light env n).mul _ _
      exact h.sumM' le_rfl (by omega)
  | wb d l r m =>
    simp only [stepSumM, Mat.wt, lvlD] at *
    refine Done.bind (h.sumM _ _ (by simp only [Mat.wt, lvlD]; omega)) fun _ _ => Done.bind (h.sumM _ _ (by simp only [Mat.wt, lvlD]; omega)) fun _ _ => Done.const (nf_nAdd _ _)
  | kron l r =>
    simp only [stepSumM, sumKron, Mat.wt, lvlD] at *
    exact Done.bind (h.sumM' le_rfl (by omega)) fun _ _ => Done.bind (h.sumM' le_rfl (by omega)) fun _ _ => Done.bind' (nf_nMul _ _) fun _ _ =>
      Done.bind' (nf_shapeBatch _) fun _ _ => Done.bind' (nf_shapeMatrix _) fun _ _ => Done.const (nf_nReshape _ _)
  | _ => exact Done.const (NF.ok _)

/-! ### `B.add` -/

theorem done_broadcastTo (h : AllDone env N) (a : Mat K) (s : Shp) (hN : 16 * a.wt + 2 ≤ N) : Done fun n => broadcastTo (ops env n) a s := by
  unfold broadcastTo
  refine Done.bind' (nf_shape _) fun sa _ => Done.ite (Done.const (NF.ok _)) ?_
  cases a with
  | zero bt r c => exact Done.const ((nf_bsE _ _).bind fun _ => nf_mkZero _)
  | const t r c => exact Done.const ((nf_bsE _ _).bind fun _ => nf_mkConst _ _)
  | _ =>
    exact Done.ite (Done.const (nf_broadcastBatchTo _ _))
      (Done.bind (h.dense' le_rfl hN) fun _ _ => Done.const ((nf_nBroadcastTo _ _).bind fun _ => NF.pure _))

theorem done_takeGen (h : AllDone env N) (a : Mat K) (l : List Int) (ax : Int) (hN : 16 * a.wt + 2 ≤ N) : Done fun n => takeGen (ops env n) a l ax := by
  unfold takeGen
  exact Done.bind (h.dense' le_rfl hN) fun _ _ => Done.const ((nf_nTake _ _ _).bind fun _ => NF.pure _)
theorem done_padZeroRow (h : AllDone env N) (a : Mat K) (hN : 16 * a.wt + 2 ≤ N) : Done fun n => padZeroRow (ops env n) a := by
  unfold padZeroRow
  exact Done.bind' (nf_shape _) fun _ _ => Done.bind (h.dense' le_rfl hN) fun _ _ => Done.const ((nf_nConcat _ _).bind fun _ => NF.pure _)
theorem done_padZeroCol (h : AllDone env N) (a : Mat K) (hN : 16 * a.wt + 2 ≤ N) : Done fun n => padZeroCol (ops env n) a := by
  unfold padZeroCol
  exact Done.bind' (nf_shape _) fun _ _ => Done.bind (h.dense' le_rfl hN) fun _ _ => Done.const ((nf_nConcat _ _).bind fun _ => NF.pure _)

theorem wrapLike_wt (a : Mat K) (t : Tensor K) : (wrapLike a t).wt ≤ 1 := by
  unfold wrapLike
  split_ifs
  · simp
  · exact wt_num_le _

theorem nConcat_rank {ax : Int} {l : List (Tensor K)} : Post (fun r => r.rank ≠ 0) (nConcat ax l) := by
  unfold nConcat
  split
  · exact Post.error
  · rename_i t ts
    refine Post.bind (P := fun k => k < t.rank) (fun k hk => axPos_lt hk) fun k hk => Post.skip fun _ => Post.pure ?_
    have : (concatAx k (t :: ts)).rank = t.rank := by simp [concatAx, Tensor.rank]
    omega

theorem wt_wrapLike {a : Mat K} {t : Tensor K} (h : t.rank ≠ 0) : (wrapLike a t).wt = 0 := by
  unfold wrapLike
  split_ifs
  · rfl
  · exact wt_num h

theorem post_padZeroCol (B : Ops K) (a : Mat K) : Post (fun r => r.wt = 0) (padZeroCol B a) := by
  unfold padZeroCol
  exact Post.skip fun _ => Post.skip fun _ => nConcat_rank.bind fun r hr => Post.pure (wt_wrapLike hr)
theorem post_padZeroRow (B : Ops K) (a : Mat K) : Post (fun r => r.wt = 0) (padZeroRow B a) := by
  unfold padZeroRow
  exact Post.skip fun _ => Post.skip fun _ => nConcat_rank.bind fun r hr => Post.pure (wt_wrapLike hr)

/-- Select from a padded factor. -/
theorem done_takePad (h : AllDone env N) (a : Mat K) (l : List Int) (ax : Int) (hN : 16 * a.wt + 2 ≤ N) {f : Mat K → ℕ → E β}
    (hf : ∀ v : Mat K, v.wt = 0 → Done (f v)) :
    Done fun n => padZeroCol (ops env n) a >>= fun x => takeGen (ops env n) x l ax >>= fun v => f v n := by
  refine Done.bind (done_padZeroCol h _ hN) fun x hx => ?_
  have h1 := ok_of_ops hx fun n => post_padZeroCol (ops env n) a
  refine Done.bind (done_takeGen h _ _ _ (by omega)) fun v hv => hf v ?_
  exact ok_of_ops (P := fun r : Mat K => r.wt = 0) hv fun n => post_takeGen (ops env n) x l ax

theorem done_takePad2 (h : AllDone env N) (a : Mat K) (l l' : List Int) (ax ax' : Int) (hN : 16 * a.wt + 2 ≤ N) {f : Mat K → ℕ → E β}
    (hf : ∀ v : Mat K, v.wt = 0 → Done (f v)) :
    Done fun n => padZeroRow (ops env n) a >>= fun w => padZeroCol (ops env n) w >>= fun x => takeGen (ops env n) x l ax >>= fun y =>
      takeGen (ops env n) y l' ax' >>= fun v => f v n := by
  refine Done.bind (done_padZeroRow h _ hN) fun w hw => ?_
  have h0 := ok_of_ops hw fun n => post_padZeroRow (ops env n) a
  refine done_takePad h _ _ _ (by omega) fun y hy => ?_
  refine Done.bind (done_takeGen h _ _ _ (by omega)) fun v hv => hf v ?_
  exact ok_of_ops (P := fun r : Mat K => r.wt = 0) hv fun n => post_takeGen (ops env n) y l' ax'

theorem done_addLRLR (he : env.NF) (h : AllDone env N) (al ar am bl br bm : Mat K)
    (hN : 16 * (1 + max (al.wt + ar.wt + am.wt) (bl.wt + br.wt + bm.wt)) ≤ N) : Done fun n => addLRLR env (ops env n) al ar am bl br bm := by
  unfold addLRLR
  have g : ∀ {w : ℕ}, w ≤ max (al.wt + ar.wt + am.wt) (bl.wt + br.wt + bm.wt) → 16 * w + 2 ≤ N := fun h => by omega
  refine Done.bind' (nf_shape _) fun _ _ => Done.bind' (nf_shape _) fun _ _ => Done.bind' (nf_assertCompatible _ _) fun _ _ => ?_
  refine Done.bind (h.dense' le_rfl (g (by omega))) fun _ _ => Done.bind (h.dense' le_rfl (g (by omega))) fun _ _ => Done.bind' (nf_align he _ _) fun L _ => ?_
  refine Done.bind (h.dense' le_rfl (g (by omega))) fun _ _ => Done.bind (h.dense' le_rfl (g (by omega))) fun _ _ => Done.bind' (nf_align he _ _) fun R _ => ?_
  refine done_takePad h _ _ _ (g (by omega)) fun v1 h1 => done_takePad h _ _ _ (g (by omega)) fun v2 h2 => ?_
  refine Done.bind (h.add' le_rfl (by omega)) fun jl hjl => ?_
  refine done_takePad h _ _ _ (g (by omega)) fun v3 h3 => done_takePad h _ _ _ (g (by omega)) fun v4 h4 => ?_
  refine Done.bind (h.add' le_rfl (by omega)) fun jr hjr => ?_
  refine done_takePad2 h _ _ _ _ _ (g (by omega)) fun v5 h5 => done_takePad2 h _ _ _ _ _ (g (by omega)) fun v6 h6 => ?_
  refine Done.bind (h.add' le_rfl (by omega)) fun jm hjm => ?_
  have h7 := ok_of_ops hjm fun n => (ops_light env n).add _ _
  refine Done.bind' (nf_mkLR _ _ _) fun lr _ => Done.bind (h.dense' le_rfl (g (by omega))) fun _ _ => Done.bind' (he.isZero _) fun z _ => Done.const ?_
  have := nf_shape lr
  have := nf_mkZero (K := K)
  nf

theorem swap_add {k k' : Kind} (h : addId k k' = .swap) : lvlAdd k k' = 5 ∧ lvlAdd k' k ≤ 4 := by
  revert h; cases k <;> cases k' <;> decide

theorem done_addRun (he : env.NF) (h : AllDone env N) {a b : Mat K} {k k' : Kind} (ha : a.kind = some k) (hb : b.kind = some k')
    (hN : 16 * max a.wt b.wt + lvlAdd k k' ≤ N) : Done fun n => addRun env (ops env n) (addId k k') a b := by
  have hl := lvlAdd_le k k'
  have da : Done fun n => (ops env n).dense a := h.dense' (w := max a.wt b.wt) (by omega) (by omega)
  have db : Done fun n => (ops env n).dense b := h.dense' (w := max a.wt b.wt) (by omega) (by omega)
  have c1 := nf_shape a
  have c2 := nf_shape b
  generalize e : addId k k' = m
  have hlv : lvlAdd k k' = lvlAddM m := by unfold lvlAdd; rw [e]
  unfold addRun
  split
  · refine Done.bind' c1 fun _ _ => Done.bind' c2 fun _ _ => Done.bind' (nf_assertCompatible _ _) fun _ _ => ?_
    split
    · exact Done.bind' (nf_shapeBroadcast _ _) fun _ _ => done_broadcastTo h _ _ (by omega)
    · exact Done.const (NF.err (by decide))
  · refine Done.bind' c1 fun _ _ => Done.bind' c2 fun _ _ => Done.bind' (nf_assertCompatible _ _) fun _ _ => ?_
    split
    · exact Done.bind' (nf_shapeBroadcast _ _) fun _ _ => done_broadcastTo h _ _ (by omega)
    · exact Done.const (NF.err (by decide))
  · exact Done.bind da fun _ _ => Done.bind db fun _ _ => Done.const ((nf_nAdd _ _).bind fun _ => NF.pure _)
  · exact Done.const ((nf_nAdd _ _).bind fun _ => NF.pure _)
  · exact Done.const ((nf_nAdd _ _).bind fun _ => nf_mkDiag _)
  · exact Done.const ((nf_assertCompatible _ _).bind fun _ => (nf_nAdd _ _).bind fun _ => (nf_bsE _ _).bind fun _ => nf_mkConst _ _)
  · exact Done.bind db fun _ _ => Done.const ((nf_nAdd _ _).bind fun _ => (nf_shapeBroadcast _ _).bind fun _ => (nf_nBroadcastTo _ _).bind fun _ => NF.pure _)
  · refine Done.bind' (nf_shape _) fun _ _ => Done.bind' (nf_shape _) fun _ _ => Done.bind' (nf_assertCompatible _ _) fun _ _ => Done.bind' (nf_shapeMatrixBroadcast _ _) fun _ _ => Done.bind' (nf_constToLR _ _ _) fun x hx => ?_
    obtain ⟨hx, l, r, m, rfl⟩ := post_constToLR _ _ _ _ hx
    refine h.add _ _ ?_
    rw [kindC_am (k := .lr) rfl, kindC_am (k := .diag) rfl, hx]
    simp only [Mat.wt, lvlAddM] at *
    have : lvlAdd .lr .diag = 2 := rfl
    omega
  · refine h.add _ _ ?_
    obtain ⟨h1, h2⟩ := swap_add e
    rw [kindC_am ha, kindC_am hb]
    omega
  · exact Done.const ((nf_nAdd _ _).bind fun _ => nf_mkLT _)
  · exact Done.bind db fun _ _ => Done.const ((nf_nAdd _ _).bind fun _ => nf_mkLT _)
  · exact Done.const ((nf_nAdd _ _).bind fun _ => nf_mkUT _)
  · exact Done.const ((nf_nAdd _ _).bind fun _ => NF.pure _)
  · exact Done.bind db fun _ _ => Done.const ((nf_nAdd _ _).bind fun _ => nf_mkUT _)
  · exact done_addLRLR he h _ _ _ _ _ _ (by simp only [Mat.wt] at hN; omega)
  · refine Done.bind' (nf_shapeMatrixBroadcast _ _) fun _ _ => Done.bind' (nf_constToLR _ _ _) fun x hx => ?_
    obtain ⟨hx, l, r, m, rfl⟩ := post_constToLR _ _ _ _ hx
    refine h.add _ _ ?_
    rw [kindC_am (k := .lr) rfl, kindC_am (k := .lr) rfl, hx]
    have : lvlAdd .lr .lr = 2 := rfl
    simp only [Mat.wt, lvlAddM] at *
    omega
  · exact Done.const (nf_mkWB _ _ _ _)
  · exact Done.const (nf_mkWB _ _ _ _)
  · have q1 : lvlAdd .lr .lr = 2 := rfl
    have q2 : lvlAdd .diag .diag = 2 := rfl
    have q3 : lvlAdd .diag .lr = 2 := rfl
    have q4 : lvlAdd .diag .zero = 2 := rfl
    refine Done.bind (h.add _ _ ?_) fun x hx => Done.bind (h.add _ _ ?_) fun y hy => h.add _ _ ?_
    · rw [kindC_am (k := .diag) rfl, kindC_am (k := .diag) rfl, q2]
      simp only [Mat.wt, lvlAddM] at *; omega
    · rw [kindC_am (k := .lr) rfl, kindC_am (k := .lr) rfl, q1]
      simp only [Mat.wt, lvlAddM] at *; omega
    · obtain ⟨t', rfl⟩ := ok_of_ops hx fun n => (ops_light env n).addDiag _ _
      have h2 := ok_of_ops hy fun n => (ops_light env n).add _ _
      rcases ok_of_ops (P := fun x => (∃ l r m, x = .lr l r m) ∨ ∃ bt n m, x = .zero bt n m) hy fun n => (ops_light env n).addLR _ _ _ _ _ _ with ⟨l, r, m, rfl⟩ | ⟨bt, n, m, rfl⟩
      · rw [kindC_am (k := .diag) rfl, kindC_am (k := .lr) rfl, q3]
        simp only [Mat.wt, lvlAddM] at *; omega
      · rw [kindC_am (k := .diag) rfl, kindC_am (k := .zero) rfl, q4]
        simp only [Mat.wt, lvlAddM] at *; omega
  · have q2 : lvlAdd .diag .diag = 2 := rfl
    have q3 : lvlAdd .diag .lr = 2 := rfl
    refine Done.bind (h.add _ _ ?_) fun x hx => h.add _ _ ?_
    · rw [kindC_am (k := .diag) rfl, kindC_am (k := .diag) rfl, q2]
      simp only [Mat.wt, lvlAddM] at *; omega
    · obtain ⟨t', rfl⟩ := ok_of_ops hx fun n => (ops_light env n).addDiag _ _
      rw [kindC_am (k := .diag) rfl, kindC_am (k := .lr) rfl, q3]
      simp only [Mat.wt, lvlAddM] at *; omega
  · have q1 : lvlAdd .lr .lr = 2 := rfl
    have q2 : lvlAdd .lr .const = 3 := rfl
    have q3 : lvlAdd .diag .lr = 2 := rfl
    have q4 : lvlAdd .diag .zero = 2 := rfl
    obtain rfl : k = .wb := by simpa [Mat.kind] using ha.symm
    have : k' = .const ∨ k' = .lr := by revert e; cases k' <;> simp [addId]
    refine Done.bind (h.add _ _ ?_) fun y hy => h.add _ _ ?_
    · rw [kindC_am (k := .lr) rfl, kindC_am hb]
      simp only [Mat.wt, lvlAddM] at *
      rcases this with rfl | rfl <;> omega
    · have h2 := ok_of_ops hy fun n => (ops_light env n).add _ _
      have h3 : (∃ l r m, y = .lr l r m) ∨ ∃ bt n m, y = .zero bt n m := by
        clear hlv
        rcases this with rfl | rfl
        · cases b <;> simp [Mat.kind] at hb
          exact ok_of_ops (P := fun x => (∃ l r m, x = .lr l r m) ∨ ∃ bt n m, x = .zero bt n m) hy fun n => (ops_light env n).addLRConst _ _ _ _ _ _
        · cases b <;> simp [Mat.kind] at hb
          exact ok_of_ops (P := fun x => (∃ l r m, x = .lr l r m) ∨ ∃ bt n m, x = .zero bt n m) hy fun n => (ops_light env n).addLR _ _ _ _ _ _
      rcases h3 with ⟨l, r, m, rfl⟩ | ⟨bt, n, m, rfl⟩
      · rw [kindC_am (k := .diag) rfl, kindC_am (k := .lr) rfl, q3]
        simp only [Mat.wt, lvlAddM] at *; omega
      · rw [kindC_am (k := .diag) rfl, kindC_am (k := .zero) rfl, q4]
        simp only [Mat.wt, lvlAddM] at *; omega
  · exact Done.const (NF.err (by decide))

theorem done_add (he : env.NF) (h : AllDone env N) (a b : Mat K) (hN : 16 * max a.wt b.wt + lvlAdd (kindC env a) (kindC env b) ≤ N) :
    Done fun n => (ops env n).add a b := by
  refine Done.succ ?_
  show Done fun n => stepAdd env (ops env n) a b
  unfold stepAdd
  split
  · exact Done.const ((nf_nAdd _ _).bind fun _ => NF.pure _)
  · simp only [kind_convertAM]
    have h1 := wt_convertAM env a
    have h2 := wt_convertAM env b
    exact done_addRun he h (kind_convertAM env a) (kind_convertAM env b) (by omega)

/-! ### `B.multiply` -/

theorem swap_mul {k k' : Kind} (h : mulId k k' = .swap) : lvlMul k' k < lvlMul k k' := by
  revert h; cases k <;> cases k' <;> decide

theorem wbAm_mul {k k' : Kind} (h : mulId k k' = .wbAm) : lvlMul .lr k' < lvlMul k k' ∧ k = .wb := by
  revert h; cases k <;> cases k' <;> decide

theorem done_mulLRLR (h : AllDone env N) (al ar am bl br bm : Mat K)
    (hN : 16 * (1 + (al.wt + ar.wt + am.wt) + (bl.wt + br.wt + bm.wt)) ≤ N) : Done fun n => mulLRLR (ops env n) al ar am bl br bm := by
  unfold mulLRLR
  have g : ∀ a : Mat K, a.wt ≤ (al.wt + ar.wt + am.wt) + (bl.wt + br.wt + bm.wt) → Done fun n => (ops env n).dense a := fun a ha => h.dense' ha (by omega)
  refine Done.bind' (nf_shape _) fun _ _ => Done.bind' (nf_shape _) fun _ _ => Done.bind' (nf_assertCompatible _ _) fun _ _ => ?_
  refine Done.bind (g _ (by omega)) fun _ _ => Done.bind (g _ (by omega)) fun _ _ => Done.bind (g _ (by omega)) fun _ _ =>
    Done.bind (g _ (by omega)) fun _ _ => Done.bind (g _ (by omega)) fun _ _ => Done.bind (g _ (by omega)) fun _ _ => Done.const ?_
  have h1 := nf_bsE
  have h2 := nf_nBroadcastBatchTo (K := K)
  have h3 := nf_hadamardFactors (K := K)
  have h4 := nf_mkLR (K := K)
  nf

theorem done_mulDiagAm (h : AllDone env N) (d : Tensor K) (b : Mat K) (hN : 16 * b.wt + 2 ≤ N) : Done fun n => mulDiagAm (ops env n) d b := by
  unfold mulDiagAm
  have db : Done fun n => (ops env n).dense b := h.dense' le_rfl hN
  have gb : Done fun n => (ops env n).diag b := h.diag' le_rfl hN
  have g : ∀ x : Tensor K, Done fun _ => (do mkDiag (← nMul d x) : E (Mat K)) := fun x => Done.const ((nf_nMul _ _).bind fun _ => nf_mkDiag _)
  refine Done.bind' (nf_shape _) fun _ _ => Done.bind' (nf_shape _) fun _ _ => Done.bind' (nf_assertCompatible _ _) fun _ _ => Done.bind' (nf_shapeMatrix _) fun _ _ => ?_
  exact Done.ite (Done.bind db fun _ _ => Done.bind' (nf_nSqueeze _ _) fun _ _ => g _)
    (Done.ite (Done.bind db fun _ _ => Done.bind' (nf_nSqueeze _ _) fun _ _ => g _) (Done.bind gb fun _ _ => g _))

theorem done_mulRun (h : AllDone env N) {a b : Mat K} {k k' : Kind} (ha : a.kind = some k) (hb : b.kind = some k')
    (hN : 16 * (a.wt + b.wt) + lvlMul k k' ≤ N) : Done fun n => mulRun (ops env n) (mulId k k') a b := by
  have hl := lvlMul_le k k'
  have da : Done fun n => (ops env n).dense a := h.dense' (w := a.wt + b.wt) (by omega) (by omega)
  have db : Done fun n => (ops env n).dense b := h.dense' (w := a.wt + b.wt) (by omega) (by omega)
  have ga : Done fun n => (ops env n).diag a := h.diag' (w := a.wt + b.wt) (by omega) (by omega)
  have gb : Done fun n => (ops env n).diag b := h.diag' (w := a.wt + b.wt) (by omega) (by omega)
  have c1 := nf_shape a
  have c2 := nf_shape b
  generalize e : mulId k k' = m
  unfold mulRun
  split
  · refine Done.bind' c1 fun _ _ => Done.bind' c2 fun _ _ => Done.bind' (nf_assertCompatible _ _) fun _ _ => ?_
    split
    · exact Done.bind' (nf_shapeBroadcast _ _) fun _ _ => done_broadcastTo h _ _ (by omega)
    · exact Done.const (NF.err (by decide))
  · refine Done.bind' c1 fun _ _ => Done.bind' c2 fun _ _ => Done.bind' (nf_assertCompatible _ _) fun _ _ => ?_
    split
    · exact Done.bind' (nf_shapeBroadcast _ _) fun _ _ => done_broadcastTo h _ _ (by omega)
    · exact Done.const (NF.err (by decide))
  · exact Done.bind da fun _ _ => Done.bind db fun _ _ => Done.const ((nf_nMul _ _).bind fun _ => NF.pure _)
  · exact Done.const ((nf_nMul _ _).bind fun _ => NF.pure _)
  · exact Done.const ((nf_nMul _ _).bind fun _ => nf_mkDiag _)
  · exact done_mulDiagAm h _ _ (by omega)
  · refine h.mul _ _ ?_
    have := swap_mul e
    rw [kindC_am ha, kindC_am hb]
    omega
  · exact Done.const ((nf_assertCompatible _ _).bind fun _ => (nf_nMul _ _).bind fun _ => (nf_bsE _ _).bind fun _ => nf_mkConst _ _)
  · refine Done.bind' (nf_shape _) fun _ _ => Done.bind' (nf_shape _) fun _ _ => Done.bind' (nf_assertCompatible _ _) fun _ _ => ?_
    exact Done.bind db fun _ _ => Done.const ((nf_nMul _ _).bind fun _ => (nf_shapeBroadcast _ _).bind fun _ => (nf_nBroadcastTo _ _).bind fun _ => NF.pure _)
  · exact Done.const ((nf_shape _).bind fun _ => (nf_shape _).bind fun _ => (nf_assertCompatible _ _).bind fun _ => (nf_nMul _ _).bind fun _ => nf_mkDiag _)
  · exact Done.const ((nf_nMul _ _).bind fun _ => nf_mkLT _)
  · exact Done.bind db fun _ _ => Done.const ((nf_nMul _ _).bind fun _ => nf_mkLT _)
  · exact Done.const ((nf_nMul _ _).bind fun _ => nf_mkLT _)
  · exact Done.const ((nf_nMul _ _).bind fun _ => nf_mkUT _)
  · exact Done.bind ga fun _ _ => Done.bind gb fun _ _ => Done.const ((nf_nMul _ _).bind fun _ => nf_mkDiag _)
  · exact Done.bind db fun _ _ => Done.const ((nf_nMul _ _).bind fun _ => nf_mkUT _)
  · exact Done.const ((nf_nMul _ _).bind fun _ => nf_mkUT _)
  · exact done_mulLRLR h _ _ _ _ _ _ (by simp only [Mat.wt] at hN; omega)
  · rename_i s _ _ l r' m
    have hs := wt_expandIgn s
    refine Done.bind' (nf_shape _) fun _ _ => Done.bind' (nf_shape _) fun _ _ => Done.bind' (nf_assertCompatible _ _) fun _ _ => ?_
    refine Done.bind (h.mul' (w := 1 + m.wt) ?_ ?_) fun _ _ => Done.const (nf_mkLR _ _ _)
    · omega
    · simp only [Mat.wt] at hN; omega
  · obtain ⟨h1, rfl⟩ := wbAm_mul e
    refine Done.bind (h.mul' le_rfl ?_) fun x hx => Done.bind (h.mul _ _ ?_) fun y hy => ?_
    · simp only [Mat.wt] at *; omega
    · rw [kindC_am (k := .lr) rfl, kindC_am hb]
      simp only [Mat.wt] at *; omega
    · have h2 := ok_of_ops hx fun n => (ops_light env n).mul _ _
      have h3 := ok_of_ops hy fun n => (ops_light env n).mul _ _
      refine h.add' le_rfl ?_
      simp only [Mat.wt] at *; omega
  · refine Done.bind' (nf_shapeMatrix _) fun _ _ => Done.bind' (nf_shapeMatrix _) fun _ _ => Done.bind' (nf_shapeMatrix _) fun _ _ => Done.bind' (nf_shapeMatrix _) fun _ _ =>
      Done.bind' (NF.guardE (by decide)) fun _ _ => ?_
    refine Done.bind (h.mul' le_rfl ?_) fun x hx => Done.bind (h.mul' le_rfl ?_) fun y hy => Done.const (NF.pure _)
    · simp only [Mat.wt] at *; omega
    · simp only [Mat.wt] at *; omega
  · rename_i s _ _ l r'
    have hs := wt_expandIgn s
    refine Done.bind' (nf_shape _) fun _ _ => Done.bind' (nf_shape _) fun _ _ => Done.bind' (nf_assertCompatible _ _) fun _ _ => ?_
    refine Done.bind (h.mul' (w := 1 + l.wt) ?_ ?_) fun _ _ => Done.const (NF.pure _)
    · omega
    · simp only [Mat.wt] at hN; omega
  · exact Done.const (NF.err (by decide))

theorem done_mul (h : AllDone env N) (a b : Mat K) (hN : 16 * (a.wt + b.wt) + lvlMul (kindC env a) (kindC env b) ≤ N) :
    Done fun n => (ops env n).mul a b := by
  refine Done.succ ?_
  show Done fun n => stepMul env (ops env n) a b
  unfold stepMul
  split
  · exact Done.const ((nf_nMul _ _).bind fun _ => NF.pure _)
  · simp only [kind_convertAM]
    have h1 := wt_convertAM env a
    have h2 := wt_convertAM env b
    exact done_mulRun h (kind_convertAM env a) (kind_convertAM env b) (by omega)

/-! ### `B.matmul` -/

theorem kind_transposeM {a r : Mat K} (h : transposeM a = .ok r) :
    r.kind = a.kind ∨ (a.kind = some .lt ∧ r.kind = some .ut) ∨ (a.kind = some .ut ∧ r.kind = some .lt) := by
  cases a with
  | lt t => exact .inr (.inl ⟨rfl, by simp only [transposeM, mkUT_ok] at h; rw [← h.2]; rfl⟩)
  | ut t => exact .inr (.inr ⟨rfl, by simp only [transposeM, mkLT_ok] at h; rw [← h.2]; rfl⟩)
  | const t n m =>
    left
    simp only [transposeM, mkConst_self, Except.ok.injEq] at h
    rw [← h]; rfl
  | lr l r' m =>
    left
    simp only [transposeM, bind_ok_iff] at h
    obtain ⟨m', _, h⟩ := h
    rw [post_mkLR _ _ _ _ h]; rfl
  | wb d l r' m =>
    left
    simp only [transposeM, bind_ok_iff] at h
    obtain ⟨m', _, _, _, h⟩ := h
    rw [post_mkWB _ _ _ _ _ h]; rfl
  | kron l r' =>
    left
    simp only [transposeM, bind_ok_iff, pure_eq_ok] at h
    obtain ⟨_, _, _, _, rfl⟩ := h; rfl
  | tiled n blk reps ax =>
    left
    simp only [transposeM, bind_ok_iff] at h
    obtain ⟨_, _, _, _, _, _, h⟩ := h
    rw [post_mkTiled _ _ _ _ h]; rfl
  | _ =>
    left
    simp only [transposeM, Except.ok.injEq, mkDense] at h
    subst h; rfl

/-- Multiplying by a triangular matrix with its numeric value instead lowers the level. -/
theorem lvl_num_left {ta tb : Bool} {k k' kn : Kind} (h : mmId k k' = some .ltAm) (hn : kn = .dense ∨ kn = .zero ∨ kn = .const) :
    lvlMm ta tb kn k' < lvlMm ta tb k k' := by
  revert h; rcases hn with rfl | rfl | rfl <;> cases k <;> cases k' <;> cases ta <;> cases tb <;> decide
theorem lvl_num_right {ta tb : Bool} {k k' kn : Kind} (h : mmId k k' = some .amLt) (hn : kn = .dense ∨ kn = .zero ∨ kn = .const) :
    lvlMm ta tb k kn < lvlMm ta tb k k' := by
  revert h; rcases hn with rfl | rfl | rfl <;> cases k <;> cases k' <;> cases ta <;> cases tb <;> decide
theorem lvl_num_diag (ta tb : Bool) {kn : Kind} (hn : kn = .dense ∨ kn = .zero ∨ kn = .const) : lvlMm ta tb kn .diag ≤ 11 ∧ lvlMm ta tb .diag kn ≤ 11 := by
  rcases hn with rfl | rfl | rfl <;> cases ta <;> cases tb <;> decide
theorem wb_mm {ta tb : Bool} {k k' : Kind} : (mmId k k' = some .wbAm → lvlMm ta tb .lr k' < lvlMm ta tb k k') ∧
    (mmId k k' = some .amWb → lvlMm ta tb k .lr < lvlMm ta tb k k') := by
  cases k <;> cases k' <;> cases ta <;> cases tb <;> decide
theorem amKron_mm {ta tb : Bool} {k k' : Kind} : mmId k k' = some .amKron → lvlMm (!tb) (!ta) k' k < lvlMm ta tb k k' := by
  cases k <;> cases k' <;> cases ta <;> cases tb <;> decide
theorem const_mm {ta tb : Bool} {k k' : Kind} : (mmId k k' = some .lrConst → lvlMm ta tb k .lr < lvlMm ta tb k k') ∧
    (mmId k k' = some .constLr → lvlMm ta tb .lr k' < lvlMm ta tb k k') := by
  cases k <;> cases k' <;> cases ta <;> cases tb <;> decide

/-- Two triangular matrices, transposed. -/
theorem tri_mm {a b a' b' : Mat K} {ta tb : Bool} (hk : a.kind = some .lt ∨ a.kind = some .ut) (hk' : b.kind = some .lt ∨ b.kind = some .ut)
    (ha : trM ta a = .ok a') (hb : trM tb b = .ok b') : lvlMm false false (kindC env a') (kindC env b') ≤ 14 := by
  have tri : ∀ {t : Bool} {c c' : Mat K}, (c.kind = some .lt ∨ c.kind = some .ut) → trM t c = .ok c' → kindC env c' = .lt ∨ kindC env c' = .ut := by
    intro t c c' hc hcc
    cases t
    · simp only [trM, Bool.false_eq_true, if_false, Except.ok.injEq] at hcc
      subst hcc
      exact hc.imp kindC_am kindC_am
    · simp only [trM, if_true] at hcc
      rcases kind_transposeM hcc with h | h | h
      · rw [← h] at hc
        exact hc.imp kindC_am kindC_am
      · exact .inr (kindC_am h.2)
      · exact .inl (kindC_am h.2)
  rcases tri hk ha with h1 | h1 <;> rcases tri hk' hb with h2 | h2 <;> rw [h1, h2] <;> decide

theorem tri_diag {a a' : Mat K} {ta : Bool} (hk : a.kind = some .lt ∨ a.kind = some .ut)
    (ha : trM ta a = .ok a') : lvlMm false false (kindC env a') .diag ≤ 12 ∧ lvlMm false false .diag (kindC env a') ≤ 12 := by
  have tri : kindC env a' = .lt ∨ kindC env a' = .ut := by
    cases ta
    · simp only [trM, Bool.false_eq_true, if_false, Except.ok.injEq] at ha
      subst ha
      exact hk.imp kindC_am kindC_am
    · simp only [trM, if_true] at ha
      rcases kind_transposeM ha with h | h | h
      · rw [← h] at hk
        exact hk.imp kindC_am kindC_am
      · exact .inr (kindC_am h.2)
      · exact .inl (kindC_am h.2)
  rcases tri with h1 | h1 <;> rw [h1] <;> decide

theorem done_kronIdAB (h : AllDone env N) (a : Mat K) (b : Tensor K) (hN : 16 * (a.wt + 1) ≤ N) : Done fun n => kronIdAB (ops env n) a b := by
  unfold kronIdAB
  refine Done.bind' (nf_shape _) fun _ _ => Done.bind' (nf_reshapeCols _ _ _) fun x hx => ?_
  have hr : (Mat.num x).wt = 0 := by
    refine wt_num ?_
    simp only [reshapeCols, reshapeRows, bind_ok_iff, pure_eq_ok] at hx
    obtain ⟨y, hy, rfl⟩ := hx
    simp only [reshapeMat, nReshape] at hy
    obtain ⟨_, _, hy⟩ := hy
    split_ifs at hy
    simp only [Except.ok.injEq] at hy
    subst hy
    simp [nTranspose, reshapeT, Tensor.rank]
  refine Done.bind (h.matmul' (w := a.wt) (by omega) (by omega)) fun y hy => ?_
  have h1 := ok_of_ops hy fun n => (ops_light env n).matmul _ _ _ _
  exact Done.bind (h.dense' le_rfl (by omega)) fun _ _ => Done.const (nf_reshapeCols _ _ _)

theorem done_kronAIdB (h : AllDone env N) (a : Mat K) (b : Tensor K) (hN : 16 * (a.wt + 1) ≤ N) : Done fun n => kronAIdB (ops env n) a b := by
  unfold kronAIdB
  refine Done.bind' (nf_shape _) fun _ _ => Done.bind' (nf_reshapeRows _ _ _) fun x hx => ?_
  have hr : (Mat.num x).wt = 0 := by
    refine wt_num ?_
    simp only [reshapeRows, reshapeMat, nReshape, bind_ok_iff] at hx
    obtain ⟨_, _, hy⟩ := hx
    split_ifs at hy
    simp only [Except.ok.injEq] at hy
    subst hy
    simp [reshapeT, Tensor.rank]
  refine Done.bind (h.matmul' (w := a.wt) (by omega) (by omega)) fun y hy => ?_
  have h1 := ok_of_ops hy fun n => (ops_light env n).matmul _ _ _ _
  exact Done.bind (h.dense' le_rfl (by omega)) fun _ _ => Done.const (nf_reshapeRows _ _ _)

theorem done_matmulKronAm (h : AllDone env N) (ta tb : Bool) (l r b : Mat K) (hN : 16 * (1 + (l.wt + r.wt) + b.wt) ≤ N) :
    Done fun n => matmulKronAm (ops env n) ta tb l r b := by
  unfold matmulKronAm
  refine Done.bind' (nf_assertComposable _ _ _ _) fun _ _ => Done.bind' (nf_trM _ _) fun l' hl => Done.bind' (nf_trM _ _) fun r' hr => Done.bind' (nf_trM _ _) fun b' hb => ?_
  have h1 := post_trM _ _ _ hl
  have h2 := post_trM _ _ _ hr
  have h3 := post_trM _ _ _ hb
  refine Done.bind' (nf_shapeMatrix _) fun _ _ => Done.bind' (nf_shapeMatrix _) fun _ _ => Done.bind (h.dense' le_rfl (by omega)) fun _ _ => Done.ite ?_ ?_
  · exact Done.bind (done_kronAIdB h _ _ (by omega)) fun _ _ => Done.bind (done_kronIdAB h _ _ (by omega)) fun _ _ => Done.const (NF.pure _)
  · exact Done.bind (done_kronIdAB h _ _ (by omega)) fun _ _ => Done.bind (done_kronAIdB h _ _ (by omega)) fun _ _ => Done.const (NF.pure _)

theorem done_matmulLRLR (h : AllDone env N) (ta tb : Bool) (a b : Mat K) (hN : 16 * (a.wt + b.wt) ≤ N) : Done fun n => matmulLRLR (ops env n) ta tb a b := by
  unfold matmulLRLR
  refine Done.bind' (nf_assertComposable _ _ _ _) fun _ _ => Done.bind' (nf_trM _ _) fun a' ha => Done.bind' (nf_trM _ _) fun b' hb => ?_
  have h1 := post_trM _ _ _ ha
  have h2 := post_trM _ _ _ hb
  split
  · simp only [Mat.wt] at h1 h2
    refine Done.bind (h.matmul' le_rfl (by omega)) fun x hx => ?_
    have h3 := ok_of_ops hx fun n => (ops_light env n).matmul _ _ _ _
    refine Done.bind (done_matmul3 h (by omega)) fun y hy => ?_
    have h4 := ok_of_ops hy fun n => post_matmul3 (ops_light env n) _ _ _ _ _ _
    refine Done.bind' (nf_shapeMatrix _) fun _ _ => Done.ite ?_ (Done.const (nf_mkLR _ _ _))
    exact Done.bind (h.dense' le_rfl (by omega)) fun _ _ => Done.const ((nf_mkDiag _).bind fun _ => nf_mkLR _ _ _)
  · exact Done.const (NF.err (by decide))

theorem done_mmRun (h : AllDone env N) {ta tb : Bool} {a b : Mat K} {k k' : Kind} {m : MmM} (ha : a.kind = some k) (hb : b.kind = some k') (e : mmId k k' = some m)
    (hN : 16 * (a.wt + b.wt) + lvlMm ta tb k k' ≤ N) : Done fun n => mmRun (ops env n) m ta tb a b := by
  have hl := lvlMm_le ta tb k k'
  have da : Done fun n => (ops env n).dense a := h.dense' (w := a.wt + b.wt) (by omega) (by omega)
  have db : Done fun n => (ops env n).dense b := h.dense' (w := a.wt + b.wt) (by omega) (by omega)
  have cc := nf_assertComposable ta tb a b
  unfold mmRun
  split
  · exact Done.const (cc.bind fun _ => (nf_shapeMatrixTr _ _).bind fun _ => (nf_shapeMatrixTr _ _).bind fun _ => (nf_shapeBatch _).bind fun _ => (nf_bsE _ _).bind fun _ => NF.pure _)
  · exact Done.const (cc.bind fun _ => (nf_shapeMatrixTr _ _).bind fun _ => (nf_shapeMatrixTr _ _).bind fun _ => (nf_shapeBatch _).bind fun _ => (nf_bsE _ _).bind fun _ => NF.pure _)
  · exact Done.const ((nf_nMatmul _ _ _ _).bind fun _ => NF.pure _)
  · exact Done.const (cc.bind fun _ => (nf_nMul _ _).bind fun _ => nf_mkDiag _)
  · refine Done.bind' cc fun _ _ => Done.bind' (nf_trM _ _) fun x hx => ?_
    have := post_trM _ _ _ hx
    exact h.mul' (w := b.wt) (by simp only [wt_mkDense]; omega) (by omega)
  · refine Done.bind' cc fun _ _ => Done.bind' (nf_trM _ _) fun x hx => ?_
    have := post_trM _ _ _ hx
    exact h.mul' (w := a.wt) (by simp only [wt_mkDense]; omega) (by omega)
  · exact Done.const (cc.bind fun _ => (nf_nMul _ _).bind fun _ => NF.pure _)
  · refine Done.bind' cc fun _ _ => Done.bind' (nf_trM _ _) fun x hx => ?_
    have := post_trM _ _ _ hx
    exact Done.bind (h.sumM' this (by omega)) fun _ _ => Done.const ((nf_fillDiag _ _).bind fun _ => nf_mkLR _ _ _)
  · refine Done.bind' cc fun _ _ => Done.bind' (nf_trM _ _) fun x hx => ?_
    have := post_trM _ _ _ hx
    exact Done.bind (h.sumM' this (by omega)) fun _ _ => Done.const ((nf_fillDiag _ _).bind fun _ => nf_mkLR _ _ _)
  · -- ltLt
    obtain rfl : k = .lt := by simpa [Mat.kind] using ha.symm
    obtain rfl : k' = .lt := by simpa [Mat.kind] using hb.symm
    refine Done.ite' (fun _ => Done.const ((nf_nMatmul _ _ _ _).bind fun _ => nf_mkLT _)) fun hc => ?_
    refine Done.bind' (nf_trM _ _) fun x hx => Done.bind' (nf_trM _ _) fun y hy => h.matmul _ _ _ _ ?_
    have h1 := post_trM _ _ _ hx
    have h2 := post_trM _ _ _ hy
    have h3 := tri_mm (env := env) (.inl rfl) (.inl rfl) hx hy
    have h4 : lvlMm ta tb .lt .lt = 15 := by simp [lvlMm, mmId, hc]
    omega
  · -- ltAm
    split
    · rename_i s0
      refine h.matmul _ _ _ _ ?_
      have := lvl_num_left (ta := ta) (tb := tb) e (kindC_num env s0)
      rw [kindC_am hb]
      simp only [Mat.wt] at *
      omega
    · rename_i s0
      refine h.matmul _ _ _ _ ?_
      have := lvl_num_left (ta := ta) (tb := tb) e (kindC_num env s0)
      rw [kindC_am hb]
      simp only [Mat.wt] at *
      omega
    · exact Done.const (NF.err (by decide))
  · -- amLt
    split
    · rename_i s0
      refine h.matmul _ _ _ _ ?_
      have := lvl_num_right (ta := ta) (tb := tb) e (kindC_num env s0)
      rw [kindC_am ha]
      simp only [Mat.wt] at *
      omega
    · rename_i s0
      refine h.matmul _ _ _ _ ?_
      have := lvl_num_right (ta := ta) (tb := tb) e (kindC_num env s0)
      rw [kindC_am ha]
      simp only [Mat.wt] at *
      omega
    · exact Done.const (NF.err (by decide))
  · -- ltDiag
    rename_i s0 t0
    obtain rfl : k = .lt := by simpa [Mat.kind] using ha.symm
    obtain rfl : k' = .diag := by simpa [Mat.kind] using hb.symm
    refine Done.ite' (fun hc => ?_) fun hc => ?_
    · refine Done.bind (h.matmul _ _ _ _ ?_) fun x hx => ?_
      · have := (lvl_num_diag false false (kindC_num env s0)).1
        rw [show ∀ t : Tensor K, kindC env (.diag t) = .diag from fun _ => kindC_am rfl]
        have h4 : lvlMm ta tb .lt .diag = 12 := by simp [lvlMm, mmId, hc]
        simp only [Mat.wt] at *
        omega
      · have h1 := ok_of_ops hx fun n => (ops_light env n).matmul _ _ _ _
        exact Done.bind (h.dense' h1 (by simp only [Mat.wt] at *; omega)) fun _ _ => Done.const (nf_mkLT _)
    · refine Done.bind' (nf_trM _ _) fun x hx => h.matmul _ _ _ _ ?_
      have h1 := post_trM _ _ _ hx
      have h4 : lvlMm ta tb .lt .diag = 13 := by simp [lvlMm, mmId, hc]
      have h5 := (tri_diag (env := env) (.inl rfl) hx).1
      rw [show ∀ t : Tensor K, kindC env (.diag t) = .diag from fun _ => kindC_am rfl]
      omega
  · -- diaglt
    rename_i s0 t0
    obtain rfl : k' = .lt := by simpa [Mat.kind] using hb.symm
    obtain rfl : k = .diag := by simpa [Mat.kind] using ha.symm
    refine Done.ite' (fun hc => ?_) fun hc => ?_
    · refine Done.bind (h.matmul _ _ _ _ ?_) fun x hx => ?_
      · have := (lvl_num_diag false false (kindC_num env t0)).2
        rw [kindC_am (k := .diag) rfl]
        have h4 : lvlMm ta tb .diag .lt = 12 := by simp [lvlMm, mmId, hc]
        simp only [Mat.wt] at *
        omega
      · have h1 := ok_of_ops hx fun n => (ops_light env n).matmul _ _ _ _
        exact Done.bind (h.dense' h1 (by simp only [Mat.wt] at *; omega)) fun _ _ => Done.const (nf_mkLT _)
    · refine Done.bind' (nf_trM _ _) fun x hx => h.matmul _ _ _ _ ?_
      have h1 := post_trM _ _ _ hx
      have h4 : lvlMm ta tb .diag .lt = 13 := by simp [lvlMm, mmId, hc]
      have h5 := (tri_diag (env := env) (.inl rfl) hx).2
      rw [kindC_am (k := .diag) rfl]
      omega
  · -- utUt
    obtain rfl : k = .ut := by simpa [Mat.kind] using ha.symm
    obtain rfl : k' = .ut := by simpa [Mat.kind] using hb.symm
    refine Done.ite' (fun _ => Done.const ((nf_nMatmul _ _ _ _).bind fun _ => nf_mkUT _)) fun hc => ?_
    refine Done.bind' (nf_trM _ _) fun x hx => Done.bind' (nf_trM _ _) fun y hy => h.matmul _ _ _ _ ?_
    have h1 := post_trM _ _ _ hx
    have h2 := post_trM _ _ _ hy
    have h3 := tri_mm (env := env) (.inr rfl) (.inr rfl) hx hy
    have h4 : lvlMm ta tb .ut .ut = 15 := by simp [lvlMm, mmId, hc]
    omega
  · -- utDiag
    rename_i s0 t0
    obtain rfl : k = .ut := by simpa [Mat.kind] using ha.symm
    obtain rfl : k' = .diag := by simpa [Mat.kind] using hb.symm
    refine Done.ite' (fun hc => ?_) fun hc => ?_
    · refine Done.bind (h.matmul _ _ _ _ ?_) fun x hx => ?_
      · have := (lvl_num_diag false false (kindC_num env s0)).1
        rw [show ∀ t : Tensor K, kindC env (.diag t) = .diag from fun _ => kindC_am rfl]
        have h4 : lvlMm ta tb .ut .diag = 12 := by simp [lvlMm, mmId, hc]
        simp only [Mat.wt] at *
        omega
      · have h1 := ok_of_ops hx fun n => (ops_light env n).matmul _ _ _ _
        exact Done.bind (h.dense' h1 (by simp only [Mat.wt] at *; omega)) fun _ _ => Done.const (nf_mkUT _)
    · refine Done.bind' (nf_trM _ _) fun x hx => h.matmul _ _ _ _ ?_
      have h1 := post_trM _ _ _ hx
      have h4 : lvlMm ta tb .ut .diag = 13 := by simp [lvlMm, mmId, hc]
      have h5 := (tri_diag (env := env) (.inr rfl) hx).1
      rw [show ∀ t : Tensor K, kindC env (.diag t) = .diag from fun _ => kindC_am rfl]
      omega
  · -- diagut
    rename_i s0 t0
    obtain rfl : k' = .ut := by simpa [Mat.kind] using hb.symm
    obtain rfl : k = .diag := by simpa [Mat.kind] using ha.symm
    refine Done.ite' (fun hc => ?_) fun hc => ?_
    · refine Done.bind (h.matmul _ _ _ _ ?_) fun x hx => ?_
      · have := (lvl_num_diag false false (kindC_num env t0)).2
        rw [kindC_am (k := .diag) rfl]
        have h4 : lvlMm ta tb .diag .ut = 12 := by simp [lvlMm, mmId, hc]
        simp only [Mat.wt] at *
        omega
      · have h1 := ok_of_ops hx fun n => (ops_light env n).matmul _ _ _ _
        exact Done.bind (h.dense' h1 (by simp only [Mat.wt] at *; omega)) fun _ _ => Done.const (nf_mkUT _)
    · refine Done.bind' (nf_trM _ _) fun x hx => h.matmul _ _ _ _ ?_
      have h1 := post_trM _ _ _ hx
      have h4 : lvlMm ta tb .diag .ut = 13 := by simp [lvlMm, mmId, hc]
      have h5 := (tri_diag (env := env) (.inr rfl) hx).2
      rw [kindC_am (k := .diag) rfl]
      omega
  · exact done_matmulLRLR h _ _ _ _ (by omega)
  · refine Done.bind' cc fun _ _ => Done.bind' (nf_trM _ _) fun x hx => ?_
    have h1 := post_trM _ _ _ hx
    split
    · refine Done.bind' (nf_trM _ _) fun y hy => ?_
      have h2 := post_trM _ _ _ hy
      simp only [Mat.wt] at h1
      exact Done.bind (h.matmul' le_rfl (by omega)) fun _ _ => Done.const (nf_mkLR _ _ _)
    · exact Done.const (NF.err (by decide))
  · refine Done.bind' cc fun _ _ => Done.bind' (nf_trM _ _) fun x hx => ?_
    have h1 := post_trM _ _ _ hx
    split
    · refine Done.bind' (nf_trM _ _) fun y hy => ?_
      have h2 := post_trM _ _ _ hy
      simp only [Mat.wt] at h1
      exact Done.bind (h.matmul' le_rfl (by omega)) fun _ _ => Done.const (nf_mkLR _ _ _)
    · exact Done.const (NF.err (by decide))
  · refine Done.bind' (nf_constToLR _ _ _) fun x hx => h.matmul _ _ _ _ ?_
    obtain ⟨hx, l, r, m, rfl⟩ := post_constToLR _ _ _ _ hx
    have := (const_mm (ta := ta) (tb := tb)).1 e
    rw [kindC_am ha, kindC_am (k := .lr) rfl, hx]
    simp only [Mat.wt] at hN
    omega
  · refine Done.bind' (nf_constToLR _ _ _) fun x hx => h.matmul _ _ _ _ ?_
    obtain ⟨hx, l, r, m, rfl⟩ := post_constToLR _ _ _ _ hx
    have := (const_mm (ta := ta) (tb := tb)).2 e
    rw [kindC_am hb, kindC_am (k := .lr) rfl, hx]
    simp only [Mat.wt] at hN
    omega
  · have h0 := (wb_mm (ta := ta) (tb := tb)).1 e
    refine Done.bind (h.matmul' le_rfl (by simp only [Mat.wt] at *; omega)) fun x hx => Done.bind (h.matmul _ _ _ _ ?_) fun y hy => ?_
    · rw [kindC_am hb, kindC_am (k := .lr) rfl]
      simp only [Mat.wt] at *
      omega
    · have h1 := ok_of_ops hx fun n => (ops_light env n).matmul _ _ _ _
      have h2 := ok_of_ops hy fun n => (ops_light env n).matmul _ _ _ _
      simp only [Mat.wt] at *
      exact h.add' le_rfl (by omega)
  · have h0 := (wb_mm (ta := ta) (tb := tb)).2 e
    refine Done.bind (h.matmul' le_rfl (by simp only [Mat.wt] at *; omega)) fun x hx => Done.bind (h.matmul _ _ _ _ ?_) fun y hy => ?_
    · rw [kindC_am ha, kindC_am (k := .lr) rfl]
      simp only [Mat.wt] at *
      omega
    · have h1 := ok_of_ops hx fun n => (ops_light env n).matmul _ _ _ _
      have h2 := ok_of_ops hy fun n => (ops_light env n).matmul _ _ _ _
      simp only [Mat.wt] at *
      exact h.add' le_rfl (by omega)
  · simp only [Mat.wt] at hN
    exact Done.bind' (nf_assertComposable _ _ _ _) fun _ _ => Done.bind' (nf_assertComposable _ _ _ _) fun _ _ =>
      Done.bind (h.matmul' le_rfl (by omega)) fun _ _ => Done.bind (h.matmul' le_rfl (by omega)) fun _ _ => Done.const (NF.pure _)
  · exact done_matmulKronAm h _ _ _ _ _ (by simp only [Mat.wt] at hN; omega)
  · refine Done.bind (h.matmul _ _ _ _ ?_) fun _ _ => Done.const (nf_transposeM _)
    have := amKron_mm (ta := ta) (tb := tb) e
    rw [kindC_am ha, kindC_am hb]
    omega
  · obtain rfl := (mmId_kron e).1 rfl
    obtain rfl : k' = .diag := by simpa [Mat.kind] using hb.symm
    have := wt_kron ha
    refine Done.bind da fun t _ => h.matmul _ _ _ _ ?_
    have h1 := (lvl_num_diag ta tb (kindC_num env t)).1
    have h2 := wt_num_le t
    have h3 : lvlMm ta tb .kron .diag = 12 := rfl
    rw [show ∀ t : Tensor K, kindC env (.diag t) = .diag from fun _ => kindC_am rfl]
    omega
  · obtain rfl := (mmId_kron e).2 rfl
    obtain rfl : k = .diag := by simpa [Mat.kind] using ha.symm
    have := wt_kron hb
    refine Done.bind db fun t _ => h.matmul _ _ _ _ ?_
    have h1 := (lvl_num_diag ta tb (kindC_num env t)).2
    have h2 := wt_num_le t
    have h3 : lvlMm ta tb .diag .kron = 12 := rfl
    rw [kindC_am (k := .diag) rfl]
    omega
  · exact Done.const (NF.err (by decide))

theorem done_matmul (h : AllDone env N) (ta tb : Bool) (a b : Mat K) (hN : 16 * (a.wt + b.wt) + lvlMm ta tb (kindC env a) (kindC env b) ≤ N) :
    Done fun n => (ops env n).matmul ta tb a b := by
  refine Done.succ ?_
  show Done fun n => stepMatmul env (ops env n) ta tb a b
  unfold stepMatmul
  split
  · exact Done.const ((nf_nMatmul _ _ _ _).bind fun _ => NF.pure _)
  · simp only [kind_convertAM]
    have h1 := wt_convertAM env a
    have h2 := wt_convertAM env b
    split
    · rename_i m hm
      exact done_mmRun h (kind_convertAM env a) (kind_convertAM env b) hm (by omega)
    · exact Done.const (NF.err (by decide))

/-- Every call settles. -/
theorem allDone (he : env.NF) : ∀ N, AllDone env N
  | 0 => ⟨fun _ h => by omega, fun _ h => by omega, fun _ _ h => by omega, fun _ _ h => by omega, fun _ _ h => by omega, fun _ _ _ _ h => by omega⟩
  | N+1 =>
    have ih := allDone he N
    ⟨fun a h => done_dense ih a (by omega), fun a h => done_diag ih a (by omega), fun k a h => done_sumM ih k a (by omega),
      fun a b h => done_add he ih a b (by omega), fun a b h => done_mul ih a b (by omega), fun ta tb a b h => done_matmul ih ta tb a b (by omega)⟩

end

end Verif
