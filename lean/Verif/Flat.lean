/-
Success (C45), part 1: which matrices the operations accept as operands, and that their results are of the same sort.
-/
import Verif.Term

set_option linter.unusedSectionVars false

namespace Verif

variable {K : Type} [Field K] [LinearOrder K] {α β : Type}

/-- No TiledBlocks anywhere, no Kronecker product inside a LowRank or Woodbury matrix, and, if `κ` is false, no Kronecker product at all. -/
def Mat.fit : Bool → Mat K → Prop
  | κ, .kron l r => κ = true ∧ l.fit κ ∧ r.fit κ
  | _, .lr l r m => l.fit false ∧ r.fit false ∧ m.fit false
  | _, .wb _ l r m => l.fit false ∧ r.fit false ∧ m.fit false
  | _, .tiled .. => False
  | _, _ => True

@[simp] theorem fit_num (κ : Bool) (t : Tensor K) : (Mat.num t).fit κ := trivial
@[simp] theorem fit_zero (κ : Bool) (bt : Shp) (r c : ℕ) : (Mat.zero bt r c : Mat K).fit κ := trivial
@[simp] theorem fit_dense (κ : Bool) (t : Tensor K) : (Mat.dense t).fit κ := trivial
@[simp] theorem fit_mkDense (κ : Bool) (t : Tensor K) : (mkDense t).fit κ := trivial
@[simp] theorem fit_diag (κ : Bool) (t : Tensor K) : (Mat.diag t).fit κ := trivial
@[simp] theorem fit_const (κ : Bool) (t : Tensor K) (r c : ℕ) : (Mat.const t r c).fit κ := trivial
@[simp] theorem fit_lt (κ : Bool) (t : Tensor K) : (Mat.lt t).fit κ := trivial
@[simp] theorem fit_ut (κ : Bool) (t : Tensor K) : (Mat.ut t).fit κ := trivial

theorem Mat.fit.mono {κ κ' : Bool} {a : Mat K} (h : a.fit κ) (hk : κ = true → κ' = true) : a.fit κ' := by
  induction a with
  | kron l r ihl ihr => exact ⟨hk h.1, ihl h.2.1, ihr h.2.2⟩
  | lr l r m => exact h
  | wb d l r m => exact h
  | tiled => exact h
  | _ => trivial

theorem Mat.fit.up {κ : Bool} {a : Mat K} (h : a.fit κ) : a.fit true := h.mono fun _ => rfl
theorem Mat.fit.of {κ : Bool} {a : Mat K} (h : a.fit false) : a.fit κ := h.mono (by simp)

theorem Mat.fit.lr {κ : Bool} {d : Tensor K} {l r m : Mat K} (h : (Mat.wb d l r m).fit κ) : (Mat.lr l r m).fit κ := h

theorem fit_convertAM (env : Env K) {κ : Bool} {a : Mat K} (h : a.fit κ) : (convertAM env a).fit κ := by
  cases a with
  | num t =>
    simp only [convertAM]
    split_ifs <;> trivial
  | _ => exact h

theorem fitp_mkDiag (κ : Bool) (t : Tensor K) : Post (Mat.fit κ) (mkDiag t) := Post.skip fun _ => Post.pure trivial
theorem fitp_mkLT (κ : Bool) (t : Tensor K) : Post (Mat.fit κ) (mkLT t) := Post.skip fun _ => Post.pure trivial
theorem fitp_mkUT (κ : Bool) (t : Tensor K) : Post (Mat.fit κ) (mkUT t) := Post.skip fun _ => Post.pure trivial
theorem fitp_mkConst (κ : Bool) (t : Tensor K) (s : Shp) : Post (Mat.fit κ) (mkConst t s) := by
  unfold mkConst
  split
  · exact Post.ok trivial
  · exact Post.skip fun _ => Post.skip fun _ => Post.pure trivial
  · exact Post.error
theorem fitp_mkZero (κ : Bool) (s : Shp) : Post (Mat.fit κ) (mkZero s : E (Mat K)) := by
  unfold mkZero
  split
  · exact Post.ok trivial
  · exact Post.error
theorem fitp_mkLR {κ : Bool} {l r m : Mat K} (hl : l.fit false) (hr : r.fit false) (hm : m.fit false) : Post (Mat.fit κ) (mkLR l r m) :=
  (post_mkLR l r m).mono (by rintro _ rfl; exact ⟨hl, hr, hm⟩)
theorem fitp_mkWB {κ : Bool} {d : Tensor K} {l r m : Mat K} (hl : l.fit false) (hr : r.fit false) (hm : m.fit false) : Post (Mat.fit κ) (mkWB d l r m) :=
  (post_mkWB d l r m).mono (by rintro _ rfl; exact ⟨hl, hr, hm⟩)
theorem fitp_fillDiag (κ : Bool) (t : Tensor K) (n : ℕ) : Post (Mat.fit κ) (fillDiag t n) := Post.skip fun _ => fitp_mkDiag κ _
theorem fitp_constToLR (κ : Bool) (t : Tensor K) (r c : ℕ) : Post (Mat.fit κ) (constToLR t r c) :=
  (fitp_fillDiag false t 1).bind fun _ hm => fitp_mkLR trivial trivial hm

theorem fitp_transposeM {κ : Bool} {a : Mat K} (h : a.fit κ) : Post (Mat.fit κ) (transposeM a) := by
  induction a generalizing κ with
  | num t => exact Post.ok trivial
  | zero bt r c => exact Post.ok trivial
  | dense t => exact Post.ok trivial
  | diag t => exact Post.ok trivial
  | const t r c => exact fitp_mkConst _ _ _
  | lt t => exact fitp_mkUT _ _
  | ut t => exact fitp_mkLT _ _
  | lr l r m _ _ ihm => exact (ihm h.2.2).bind fun m' hm => fitp_mkLR h.2.1 h.1 hm
  | wb d l r m _ _ ihm => exact (ihm h.2.2).bind fun m' hm => Post.skip fun _ => fitp_mkWB h.2.1 h.1 hm
  | kron l r ihl ihr => exact (ihl h.2.1).bind fun l' hl => (ihr h.2.2).bind fun r' hr => Post.pure ⟨h.1, hl, hr⟩
  | tiled n blk reps axis ih => exact h.elim

theorem fitp_trM {κ : Bool} {a : Mat K} (t : Bool) (h : a.fit κ) : Post (Mat.fit κ) (trM t a) := by
  unfold trM
  exact Post.ite (fitp_transposeM h) (Post.ok h)

theorem fitp_broadcastBatchTo {κ : Bool} (s : Shp) {a : Mat K} (h : a.fit κ) : Post (Mat.fit κ) (broadcastBatchTo s a) := by
  induction a generalizing κ with
  | num t => exact Post.skip fun _ => Post.pure trivial
  | zero bt r c => exact Post.ok trivial
  | dense t => exact Post.skip fun _ => Post.pure trivial
  | diag t => exact Post.skip fun _ => fitp_mkDiag _ _
  | const t r c => exact Post.skip fun _ => Post.pure trivial
  | lt t => exact Post.skip fun _ => fitp_mkLT _ _
  | ut t => exact Post.skip fun _ => fitp_mkUT _ _
  | lr l r m ihl ihr ihm => exact (ihl h.1).bind fun l' hl => (ihr h.2.1).bind fun r' hr => (ihm h.2.2).bind fun m' hm => fitp_mkLR hl hr hm
  | wb d l r m ihl ihr ihm =>
    exact Post.skip fun _ => Post.skip fun _ => (ihl h.1).bind fun l' hl => (ihr h.2.1).bind fun r' hr => (ihm h.2.2).bind fun m' hm =>
      Post.skip fun _ => fitp_mkWB hl hr hm
  | kron l r ihl ihr => exact (ihl h.2.1).bind fun l' hl => (ihr h.2.2).bind fun r' hr => Post.pure ⟨h.1, hl, hr⟩
  | tiled n blk reps axis ih => exact Post.error

theorem fitp_alignBatch2 {κ κ' : Bool} {a b : Mat K} (ha : a.fit κ) (hb : b.fit κ') : Post (fun p => p.1.fit κ ∧ p.2.fit κ') (alignBatch2 a b) :=
  Post.skip fun s => (fitp_broadcastBatchTo s ha).bind fun _ h1 => (fitp_broadcastBatchTo s hb).bind fun _ h2 => Post.pure ⟨h1, h2⟩

/-- The results of the core are of the same sort as the operands. -/
structure Ops.Keeps (B : Ops K) : Prop where
  add : ∀ {κ a b}, Mat.fit κ a → Mat.fit κ b → Post (Mat.fit κ) (B.add a b)
  mul : ∀ {κ a b}, Mat.fit κ a → Mat.fit κ b → Post (Mat.fit κ) (B.mul a b)
  matmul : ∀ {κ κ' ta tb a b}, Mat.fit κ a → Mat.fit κ' b → Post (Mat.fit (κ && κ')) (B.matmul ta tb a b)

theorem Ops.Keeps.bot : (Ops.bot : Ops K).Keeps := ⟨fun _ _ => Post.error, fun _ _ => Post.error, fun _ _ => Post.error⟩

theorem fitp_broadcastTo (B : Ops K) {κ : Bool} {a : Mat K} (h : a.fit κ) (s : Shp) : Post (Mat.fit κ) (broadcastTo B a s) := by
  unfold broadcastTo
  refine Post.skip fun sa => Post.ite (Post.ok h) ?_
  split
  · exact Post.skip fun _ => fitp_mkZero _ _
  · exact Post.skip fun _ => fitp_mkConst _ _ _
  · exact Post.ite (fitp_broadcastBatchTo _ h) (Post.skip fun _ => Post.skip fun _ => Post.pure trivial)

theorem fitp_matmul3 {B : Ops K} (hB : B.Keeps) {ta tb tc : Bool} {a b c : Mat K} (ha : a.fit false) (hb : b.fit false) (hc : c.fit false) :
    Post (Mat.fit false) (matmul3 B ta tb tc a b c) := by
  unfold matmul3
  refine Post.skip fun _ => Post.skip fun _ => Post.skip fun _ => Post.ite ?_ ?_
  · exact (hB.matmul ha hb).bind fun x hx => hB.matmul hx hc
  · exact (hB.matmul hb hc).bind fun x hx => hB.matmul ha hx

theorem fit_wrapLike (κ : Bool) (a : Mat K) (t : Tensor K) : (wrapLike a t).fit κ := by
  unfold wrapLike
  split_ifs <;> trivial
theorem fitp_takeGen (B : Ops K) (κ : Bool) (a : Mat K) (idx : List Int) (ax : Int) : Post (Mat.fit κ) (takeGen B a idx ax) :=
  Post.skip fun _ => Post.skip fun _ => Post.pure (fit_wrapLike _ _ _)

theorem fitp_addLRLR {env : Env K} {B : Ops K} (hB : B.Keeps) (κ : Bool) (al ar am bl br bm : Mat K) : Post (Mat.fit κ) (addLRLR env B al ar am bl br bm) := by
  unfold addLRLR
  refine Post.skip fun _ => Post.skip fun _ => Post.skip fun _ => Post.skip fun _ => Post.skip fun _ => Post.skip fun L =>
    Post.skip fun _ => Post.skip fun _ => Post.skip fun R => ?_
  refine Post.skip fun _ => (fitp_takeGen B false _ _ _).bind fun l1 h1 => Post.skip fun _ => (fitp_takeGen B false _ _ _).bind fun l2 h2 => (hB.add h1 h2).bind fun jl hl => ?_
  refine Post.skip fun _ => (fitp_takeGen B false _ _ _).bind fun l3 h3 => Post.skip fun _ => (fitp_takeGen B false _ _ _).bind fun l4 h4 => (hB.add h3 h4).bind fun jr hr => ?_
  refine Post.skip fun _ => Post.skip fun _ => Post.skip fun _ => (fitp_takeGen B false _ _ _).bind fun l5 h5 => ?_
  refine Post.skip fun _ => Post.skip fun _ => Post.skip fun _ => (fitp_takeGen B false _ _ _).bind fun l6 h6 => (hB.add h5 h6).bind fun jm hm => ?_
  refine (fitp_mkLR (κ := κ) hl hr hm).bind fun x hx => ?_
  exact Post.skip fun _ => Post.skip fun z => Post.ite (Post.skip fun _ => fitp_mkZero _ _) (Post.pure hx)

theorem fitp_addRun {env : Env K} {B : Ops K} (hB : B.Keeps) {κ : Bool} (m : AddM) {a b : Mat K} (ha : a.fit κ) (hb : b.fit κ) :
    Post (Mat.fit κ) (addRun env B m a b) := by
  unfold addRun
  split
  · refine Post.skip fun _ => Post.skip fun _ => Post.skip fun _ => ?_
    split
    · exact Post.skip fun _ => fitp_broadcastTo _ ha _
    · exact Post.error
  · refine Post.skip fun _ => Post.skip fun _ => Post.skip fun _ => ?_
    split
    · exact Post.skip fun _ => fitp_broadcastTo _ hb _
    · exact Post.error
  · exact Post.skip fun _ => Post.skip fun _ => Post.skip fun _ => Post.pure trivial
  · exact Post.skip fun _ => Post.pure trivial
  · exact Post.skip fun _ => fitp_mkDiag _ _
  · exact Post.skip fun _ => Post.skip fun _ => Post.skip fun _ => fitp_mkConst _ _ _
  · exact Post.skip fun _ => Post.skip fun _ => Post.skip fun _ => Post.skip fun _ => Post.pure trivial
  · exact Post.skip fun _ => Post.skip fun _ => Post.skip fun _ => Post.skip fun _ => (fitp_constToLR κ _ _ _).bind fun lr h => hB.add h hb
  · exact hB.add hb ha
  · exact Post.skip fun _ => fitp_mkLT _ _
  · exact Post.skip fun _ => Post.skip fun _ => fitp_mkLT _ _
  · exact Post.skip fun _ => fitp_mkUT _ _
  · exact Post.skip fun _ => Post.pure trivial
  · exact Post.skip fun _ => Post.skip fun _ => fitp_mkUT _ _
  · exact fitp_addLRLR hB κ _ _ _ _ _ _
  · exact Post.skip fun _ => (fitp_constToLR κ _ _ _).bind fun lr h => hB.add ha h
  · exact fitp_mkWB ha.1 ha.2.1 ha.2.2
  · exact fitp_mkWB hb.1 hb.2.1 hb.2.2
  · exact (hB.add (fit_diag κ _) (fit_diag κ _)).bind fun x hx => (hB.add ha.lr hb.lr).bind fun y hy => hB.add hx hy
  · exact (hB.add (fit_diag κ _) (fit_diag κ _)).bind fun x hx => hB.add hx ha.lr
  · exact (hB.add ha.lr hb).bind fun x hx => hB.add (fit_diag κ _) hx
  · exact Post.error

theorem fitp_stepAdd {env : Env K} {B : Ops K} (hB : B.Keeps) {κ : Bool} {a b : Mat K} (ha : a.fit κ) (hb : b.fit κ) : Post (Mat.fit κ) (stepAdd env B a b) := by
  unfold stepAdd
  split
  · exact Post.skip fun _ => Post.pure trivial
  · dsimp only
    split
    · exact fitp_addRun hB _ (fit_convertAM env ha) (fit_convertAM env hb)
    · exact Post.error

theorem fitp_mulRun {B : Ops K} (hB : B.Keeps) {κ : Bool} (m : MulM) {a b : Mat K} (ha : a.fit κ) (hb : b.fit κ) : Post (Mat.fit κ) (mulRun B m a b) := by
  unfold mulRun
  split
  · refine Post.skip fun _ => Post.skip fun _ => Post.skip fun _ => ?_
    split
    · exact Post.skip fun _ => fitp_broadcastTo _ (fit_zero κ _ _ _) _
    · exact Post.error
  · refine Post.skip fun _ => Post.skip fun _ => Post.skip fun _ => ?_
    split
    · exact Post.skip fun _ => fitp_broadcastTo _ (fit_zero κ _ _ _) _
    · exact Post.error
  · exact Post.skip fun _ => Post.skip fun _ => Post.skip fun _ => Post.pure trivial
  · exact Post.skip fun _ => Post.pure trivial
  · exact Post.skip fun _ => fitp_mkDiag _ _
  · unfold mulDiagAm
    refine Post.skip fun _ => Post.skip fun _ => Post.skip fun _ => Post.skip fun _ => ?_
    have h : ∀ d x : Tensor K, Post (Mat.fit κ) (do mkDiag (← nMul d x)) := fun d x => Post.skip fun _ => fitp_mkDiag _ _
    exact Post.ite (Post.skip fun _ => Post.skip fun _ => h _ _) (Post.ite (Post.skip fun _ => Post.skip fun _ => h _ _) (Post.skip fun _ => h _ _))
  · exact hB.mul hb ha
  · exact Post.skip fun _ => Post.skip fun _ => Post.skip fun _ => fitp_mkConst _ _ _
  · exact Post.skip fun _ => Post.skip fun _ => Post.skip fun _ => Post.skip fun _ => Post.skip fun _ => Post.skip fun _ => Post.skip fun _ => Post.pure trivial
  · exact Post.skip fun _ => Post.skip fun _ => Post.skip fun _ => Post.skip fun _ => fitp_mkDiag _ _
  · exact Post.skip fun _ => fitp_mkLT _ _
  · exact Post.skip fun _ => Post.skip fun _ => fitp_mkLT _ _
  · exact Post.skip fun _ => fitp_mkLT _ _
  · exact Post.skip fun _ => fitp_mkUT _ _
  · exact Post.skip fun _ => Post.skip fun _ => Post.skip fun _ => fitp_mkDiag _ _
  · exact Post.skip fun _ => Post.skip fun _ => fitp_mkUT _ _
  · exact Post.skip fun _ => fitp_mkUT _ _
  · unfold mulLRLR
    iterate 21 refine Post.skip fun _ => ?_
    exact fitp_mkLR trivial trivial trivial
  · exact Post.skip fun _ => Post.skip fun _ => Post.skip fun _ => (hB.mul (fit_num false _) hb.2.2).bind fun m' hm => fitp_mkLR hb.1 hb.2.1 hm
  · exact (hB.mul (fit_diag κ _) hb).bind fun x hx => (hB.mul ha.lr hb).bind fun y hy => hB.add hx hy
  · exact Post.skip fun _ => Post.skip fun _ => Post.skip fun _ => Post.skip fun _ => Post.skip fun _ =>
      (hB.mul ha.2.1 hb.2.1).bind fun x hx => (hB.mul ha.2.2 hb.2.2).bind fun y hy => Post.pure ⟨ha.1, hx, hy⟩
  · exact Post.skip fun _ => Post.skip fun _ => Post.skip fun _ => (hB.mul (fit_num κ _) hb.2.1).bind fun x hx => Post.pure ⟨hb.1, hx, hb.2.2⟩
  · exact Post.error

theorem fitp_stepMul {env : Env K} {B : Ops K} (hB : B.Keeps) {κ : Bool} {a b : Mat K} (ha : a.fit κ) (hb : b.fit κ) : Post (Mat.fit κ) (stepMul env B a b) := by
  unfold stepMul
  split
  · exact Post.skip fun _ => Post.pure trivial
  · dsimp only
    split
    · exact fitp_mulRun hB _ (fit_convertAM env ha) (fit_convertAM env hb)
    · exact Post.error

theorem fitp_mmRun {B : Ops K} (hB : B.Keeps) {κ κ' : Bool} (m : MmM) (ta tb : Bool) {a b : Mat K} (ha : a.fit κ) (hb : b.fit κ')
    (h1 : m = .amDiag → a.fit false) (h2 : m = .diagAm → b.fit false) : Post (Mat.fit (κ && κ')) (mmRun B m ta tb a b) := by
  unfold mmRun
  split
  · exact Post.skip fun _ => Post.skip fun _ => Post.skip fun _ => Post.skip fun _ => Post.skip fun _ => Post.pure trivial
  · exact Post.skip fun _ => Post.skip fun _ => Post.skip fun _ => Post.skip fun _ => Post.skip fun _ => Post.pure trivial
  · exact Post.skip fun _ => Post.pure trivial
  · exact Post.skip fun _ => Post.skip fun _ => fitp_mkDiag _ _
  · exact Post.skip fun _ => (fitp_trM _ (h2 rfl)).bind fun b' hb => (hB.mul (fit_mkDense false _) hb).mono fun r hr => hr.of
  · exact Post.skip fun _ => (fitp_trM _ (h1 rfl)).bind fun b' hb => (hB.mul hb (fit_mkDense false _)).mono fun r hr => hr.of
  · exact Post.skip fun _ => Post.skip fun _ => Post.pure trivial
  · exact Post.skip fun _ => Post.skip fun b' => Post.skip fun v => (fitp_fillDiag _ _ _).bind fun d hd => fitp_mkLR trivial trivial hd
  · exact Post.skip fun _ => Post.skip fun b' => Post.skip fun v => (fitp_fillDiag _ _ _).bind fun d hd => fitp_mkLR trivial trivial hd
  · split_ifs
    · exact Post.skip fun _ => fitp_mkLT _ _
    · exact (fitp_trM _ ha).bind fun a' ha => (fitp_trM _ hb).bind fun b' hb => hB.matmul ha hb
  · split
    · exact hB.matmul (fit_num κ _) hb
    · exact hB.matmul (fit_num κ _) hb
    · exact Post.error
  · split
    · exact hB.matmul ha (fit_num κ' _)
    · exact hB.matmul ha (fit_num κ' _)
    · exact Post.error
  · split_ifs
    · exact Post.skip fun _ => Post.skip fun _ => fitp_mkLT _ _
    · exact (fitp_trM _ ha).bind fun a' ha => hB.matmul ha hb
  · split_ifs
    · exact Post.skip fun _ => Post.skip fun _ => fitp_mkLT _ _
    · exact (fitp_trM _ hb).bind fun a' hb => hB.matmul ha hb
  · split_ifs
    · exact Post.skip fun _ => fitp_mkUT _ _
    · exact (fitp_trM _ ha).bind fun a' ha => (fitp_trM _ hb).bind fun b' hb => hB.matmul ha hb
  · split_ifs
    · exact Post.skip fun _ => Post.skip fun _ => fitp_mkUT _ _
    · exact (fitp_trM _ ha).bind fun a' ha => hB.matmul ha hb
  · split_ifs
    · exact Post.skip fun _ => Post.skip fun _ => fitp_mkUT _ _
    · exact (fitp_trM _ hb).bind fun a' hb => hB.matmul ha hb
  · unfold matmulLRLR
    refine Post.skip fun _ => (fitp_trM ta ha).bind fun a' ha => (fitp_trM tb hb).bind fun b' hb => ?_
    split
    · refine (hB.matmul ha.2.1 hb.1).bind fun x hx => (fitp_matmul3 hB ha.2.2 hx hb.2.2).bind fun y hy => Post.skip fun _ => Post.ite ?_ ?_
      · exact Post.skip fun _ => (fitp_mkDiag _ _).bind fun d hd => fitp_mkLR ha.1 hb.2.1 hd
      · exact fitp_mkLR ha.1 hb.2.1 hy
    · exact Post.error
  · refine Post.skip fun _ => (fitp_trM _ ha).bind fun a' ha => ?_
    split
    · exact (fitp_trM _ hb).bind fun b' hb => (hB.matmul hb ha.2.1).bind fun x hx => fitp_mkLR ha.1 (hx.mono (by simp)) ha.2.2
    · exact Post.error
  · refine Post.skip fun _ => (fitp_trM _ hb).bind fun b' hb => ?_
    split
    · exact (fitp_trM _ ha).bind fun a' ha => (hB.matmul ha hb.1).bind fun x hx => fitp_mkLR (hx.mono (by simp)) hb.2.1 hb.2.2
    · exact Post.error
  · exact (fitp_constToLR _ _ _ _).bind fun x hx => hB.matmul ha hx
  · exact (fitp_constToLR _ _ _ _).bind fun x hx => hB.matmul hx hb
  · exact (hB.matmul (fit_diag κ _) hb).bind fun x hx => (hB.matmul ha.lr hb).bind fun y hy => hB.add hx hy
  · exact (hB.matmul ha (fit_diag κ' _)).bind fun x hx => (hB.matmul ha hb.lr).bind fun y hy => hB.add hx hy
  · refine Post.skip fun _ => Post.skip fun _ => (hB.matmul ha.2.1 hb.2.1).bind fun x hx => (hB.matmul ha.2.2 hb.2.2).bind fun y hy => Post.pure ⟨?_, hx, hy⟩
    rw [ha.1, hb.1]; rfl
  · unfold matmulKronAm
    iterate 7 refine Post.skip fun _ => ?_
    exact Post.ite (Post.skip fun _ => Post.skip fun _ => Post.pure trivial) (Post.skip fun _ => Post.skip fun _ => Post.pure trivial)
  · exact (hB.matmul hb ha).bind fun x hx => fitp_transposeM (by rw [Bool.and_comm]; exact hx)
  · exact Post.skip fun d => hB.matmul (fit_num κ _) (fit_diag κ' _)
  · exact Post.skip fun d => hB.matmul (fit_diag κ _) (fit_num κ' _)
  · exact Post.error

theorem mmId_dense {k k' : Kind} {m : MmM} (h : mmId k k' = some m) :
    (m = .amDiag → k = .dense ∨ k = .tiled) ∧ (m = .diagAm → k' = .dense ∨ k' = .tiled) := by
  revert h m
  cases k <;> cases k' <;> intro m h <;> simp only [mmId, Option.some.injEq, reduceCtorEq] at h <;> subst h <;> simp

theorem fit_of_kind {κ : Bool} {a : Mat K} (h : a.fit κ) (hk : a.kind = some .dense ∨ a.kind = some .tiled) : a.fit false := by
  cases a with
  | dense t => trivial
  | tiled => exact h
  | _ => simp [Mat.kind] at hk

theorem fitp_stepMatmul {env : Env K} {B : Ops K} (hB : B.Keeps) {κ κ' : Bool} {ta tb : Bool} {a b : Mat K} (ha : a.fit κ) (hb : b.fit κ') :
    Post (Mat.fit (κ && κ')) (stepMatmul env B ta tb a b) := by
  unfold stepMatmul
  split
  · exact Post.skip fun _ => Post.pure trivial
  · dsimp only
    split
    · split
      · rename_i ka kb ea eb _ m e
        obtain ⟨e1, e2⟩ := mmId_dense e
        have ha' := fit_convertAM env ha
        have hb' := fit_convertAM env hb
        exact fitp_mmRun hB _ _ _ ha' hb' (fun h => fit_of_kind ha' (by rw [ea]; simpa using e1 h)) (fun h => fit_of_kind hb' (by rw [eb]; simpa using e2 h))
      · exact Post.error
    · exact Post.error

theorem ops_keeps (env : Env K) (n : ℕ) : (ops env n).Keeps := by
  induction n with
  | zero => exact Ops.Keeps.bot
  | succ n ih => exact ⟨fitp_stepAdd ih, fitp_stepMul ih, fitp_stepMatmul ih⟩

end Verif
