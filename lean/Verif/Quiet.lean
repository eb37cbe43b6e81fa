/-
Where the tolerances are consulted (C46), part 1: two environments with the same numbers agree on every call that adds no low-rank matrices.
-/
import Verif.Kinds
import Verif.Flat

set_option linter.unusedSectionVars false
set_option linter.unusedVariables false

namespace Verif

variable {K : Type} [Field K] [LinearOrder K] {α β : Type}

/-- Woodbury matrices do not occur inside LowRank or Woodbury matrices and, if `κ` is false, nowhere except in blocks of TiledBlocks. -/
def Mat.wo : Bool → Mat K → Prop
  | κ, .wb _ l r m => κ = true ∧ l.wo false ∧ r.wo false ∧ m.wo false
  | _, .lr l r m => l.wo false ∧ r.wo false ∧ m.wo false
  | κ, .kron l r => l.wo κ ∧ r.wo κ
  | _, .tiled _ blk _ _ => ∀ i, (blk i).wo true
  | _, _ => True

@[simp] theorem wo_num (κ : Bool) (t : Tensor K) : (Mat.num t).wo κ := trivial
@[simp] theorem wo_zero (κ : Bool) (bt : Shp) (r c : ℕ) : (Mat.zero bt r c : Mat K).wo κ := trivial
@[simp] theorem wo_dense (κ : Bool) (t : Tensor K) : (Mat.dense t).wo κ := trivial
@[simp] theorem wo_mkDense (κ : Bool) (t : Tensor K) : (mkDense t).wo κ := trivial
@[simp] theorem wo_diag (κ : Bool) (t : Tensor K) : (Mat.diag t).wo κ := trivial
@[simp] theorem wo_const (κ : Bool) (t : Tensor K) (r c : ℕ) : (Mat.const t r c).wo κ := trivial
@[simp] theorem wo_lt (κ : Bool) (t : Tensor K) : (Mat.lt t).wo κ := trivial
@[simp] theorem wo_ut (κ : Bool) (t : Tensor K) : (Mat.ut t).wo κ := trivial

theorem Mat.wo.mono {κ κ' : Bool} {a : Mat K} (h : a.wo κ) (hk : κ = true → κ' = true) : a.wo κ' := by
  induction a generalizing κ κ' with
  | wb d l r m => exact ⟨hk h.1, h.2⟩
  | lr l r m => exact h
  | kron l r ihl ihr => exact ⟨ihl h.1 hk, ihr h.2 hk⟩
  | tiled => exact h
  | _ => trivial
theorem Mat.wo.up {κ : Bool} {a : Mat K} (h : a.wo κ) : a.wo true := h.mono fun _ => rfl
theorem Mat.wo.of {κ : Bool} {a : Mat K} (h : a.wo false) : a.wo κ := h.mono (by simp)
theorem Mat.wo.lr {κ : Bool} {d : Tensor K} {l r m : Mat K} (h : (Mat.wb d l r m).wo κ) (κ' : Bool) : (Mat.lr l r m).wo κ' := h.2

theorem wo_convertAM (env : Env K) {κ : Bool} {a : Mat K} (h : a.wo κ) : (convertAM env a).wo κ := by
  cases a with
  | num t =>
    simp only [convertAM]
    split_ifs <;> trivial
  | _ => exact h

theorem wop_mkDiag (κ : Bool) (t : Tensor K) : Post (Mat.wo κ) (mkDiag t) := Post.skip fun _ => Post.pure trivial
theorem wop_mkLT (κ : Bool) (t : Tensor K) : Post (Mat.wo κ) (mkLT t) := Post.skip fun _ => Post.pure trivial
theorem wop_mkUT (κ : Bool) (t : Tensor K) : Post (Mat.wo κ) (mkUT t) := Post.skip fun _ => Post.pure trivial
theorem wop_mkConst (κ : Bool) (t : Tensor K) (s : Shp) : Post (Mat.wo κ) (mkConst t s) := by
  unfold mkConst
  split
  · exact Post.ok trivial
  · exact Post.skip fun _ => Post.skip fun _ => Post.pure trivial
  · exact Post.error
theorem wop_mkZero (κ : Bool) (s : Shp) : Post (Mat.wo κ) (mkZero s : E (Mat K)) := by
  unfold mkZero
  split
  · exact Post.ok trivial
  · exact Post.error
theorem wop_mkLR {κ : Bool} {l r m : Mat K} (hl : l.wo false) (hr : r.wo false) (hm : m.wo false) : Post (Mat.wo κ) (mkLR l r m) :=
  (post_mkLR l r m).mono (by rintro _ rfl; exact ⟨hl, hr, hm⟩)
theorem wop_mkWB {d : Tensor K} {l r m : Mat K} (hl : l.wo false) (hr : r.wo false) (hm : m.wo false) : Post (Mat.wo true) (mkWB d l r m) :=
  (post_mkWB d l r m).mono (by rintro _ rfl; exact ⟨rfl, hl, hr, hm⟩)
theorem wop_fillDiag (κ : Bool) (t : Tensor K) (n : ℕ) : Post (Mat.wo κ) (fillDiag t n) := Post.skip fun _ => wop_mkDiag κ _
theorem wop_constToLR (κ : Bool) (t : Tensor K) (r c : ℕ) : Post (Mat.wo κ) (constToLR t r c) :=
  (wop_fillDiag false t 1).bind fun _ hm => wop_mkLR trivial trivial hm

theorem post_seqFin {n : ℕ} {f : Fin n → E α} {P : α → Prop} (h : ∀ i, Post P (f i)) : Post (fun g => ∀ i, P (g i)) (seqFin f) := by
  intro g hg i
  exact h i _ (seqFin_ok.1 hg i)

theorem wop_transposeM {κ : Bool} {a : Mat K} (h : a.wo κ) : Post (Mat.wo κ) (transposeM a) := by
  induction a generalizing κ with
  | num t => exact Post.ok trivial
  | zero bt r c => exact Post.ok trivial
  | dense t => exact Post.ok trivial
  | diag t => exact Post.ok trivial
  | const t r c => exact wop_mkConst _ _ _
  | lt t => exact wop_mkUT _ _
  | ut t => exact wop_mkLT _ _
  | lr l r m _ _ ihm => exact (ihm h.2.2).bind fun m' hm => wop_mkLR h.2.1 h.1 hm
  | wb d l r m _ _ ihm =>
    obtain ⟨rfl, h⟩ := h
    exact (ihm h.2.2).bind fun m' hm => Post.skip fun _ => wop_mkWB h.2.1 h.1 hm
  | kron l r ihl ihr => exact (ihl h.1).bind fun l' hl => (ihr h.2).bind fun r' hr => Post.pure ⟨hl, hr⟩
  | tiled n blk reps axis ih =>
    refine Post.skip fun _ => Post.skip fun _ => (post_seqFin fun i => ih i (h i)).bind fun blk' hb => ?_
    exact (post_mkTiled blk' _ _).mono (by rintro _ rfl; exact hb)

theorem wop_trM {κ : Bool} {a : Mat K} (t : Bool) (h : a.wo κ) : Post (Mat.wo κ) (trM t a) := by
  unfold trM
  exact Post.ite (wop_transposeM h) (Post.ok h)

theorem wop_broadcastBatchTo {κ : Bool} (s : Shp) {a : Mat K} (h : a.wo κ) : Post (Mat.wo κ) (broadcastBatchTo s a) := by
  induction a generalizing κ with
  | num t => exact Post.skip fun _ => Post.pure trivial
  | zero bt r c => exact Post.ok trivial
  | dense t => exact Post.skip fun _ => Post.pure trivial
  | diag t => exact Post.skip fun _ => wop_mkDiag _ _
  | const t r c => exact Post.skip fun _ => Post.pure trivial
  | lt t => exact Post.skip fun _ => wop_mkLT _ _
  | ut t => exact Post.skip fun _ => wop_mkUT _ _
  | lr l r m ihl ihr ihm => exact (ihl h.1).bind fun l' hl => (ihr h.2.1).bind fun r' hr => (ihm h.2.2).bind fun m' hm => wop_mkLR hl hr hm
  | wb d l r m ihl ihr ihm =>
    obtain ⟨rfl, h⟩ := h
    exact Post.skip fun _ => Post.skip fun _ => (ihl h.1).bind fun l' hl => (ihr h.2.1).bind fun r' hr => (ihm h.2.2).bind fun m' hm =>
      Post.skip fun _ => wop_mkWB hl hr hm
  | kron l r ihl ihr => exact (ihl h.1).bind fun l' hl => (ihr h.2).bind fun r' hr => Post.pure ⟨hl, hr⟩
  | tiled n blk reps axis ih => exact Post.error

theorem wop_alignBatch2 {κ κ' : Bool} {a b : Mat K} (ha : a.wo κ) (hb : b.wo κ') : Post (fun p => p.1.wo κ ∧ p.2.wo κ') (alignBatch2 a b) :=
  Post.skip fun s => (wop_broadcastBatchTo s ha).bind fun _ h1 => (wop_broadcastBatchTo s hb).bind fun _ h2 => Post.pure ⟨h1, h2⟩

/-! ### Agreement -/

theorem Post.and {P Q : α → Prop} {x : E α} (h : Post P x) (h' : Post Q x) : Post (fun v => P v ∧ Q v) x := fun v hv => ⟨h v hv, h' v hv⟩

/-- The two computations are the same, and a result satisfies `P`. -/
def Sim (P : α → Prop) (x y : E α) : Prop := x = y ∧ Post P x

theorem Sim.same {P : α → Prop} {x : E α} (h : Post P x) : Sim P x x := ⟨rfl, h⟩
theorem Sim.refl (x : E α) : Sim (fun _ => True) x x := ⟨rfl, Post.any x⟩
theorem Sim.pure {P : α → Prop} {v : α} (h : P v) : Sim P (Pure.pure v : E α) (Pure.pure v) := Sim.same (Post.pure h)
theorem Sim.error {P : α → Prop} {e : Err} : Sim P (.error e : E α) (.error e) := Sim.same Post.error
theorem Sim.bind {P : α → Prop} {Q : β → Prop} {x y : E α} {f g : α → E β} (h : Sim P x y) (hf : ∀ v, P v → Sim Q (f v) (g v)) : Sim Q (x >>= f) (y >>= g) := by
  obtain ⟨rfl, h⟩ := h
  refine ⟨?_, h.bind fun v hv => (hf v hv).2⟩
  cases hx : x with
  | error e => rfl
  | ok v => exact (hf v (h v hx)).1
theorem Sim.skip {Q : β → Prop} {x : E α} {f g : α → E β} (hf : ∀ v, Sim Q (f v) (g v)) : Sim Q (x >>= f) (x >>= g) := (Sim.refl x).bind fun v _ => hf v
theorem Sim.go {P : α → Prop} {Q : β → Prop} {x y : E α} {f g : α → E β} (h : Sim P x y) (hf : ∀ v, Sim Q (f v) (g v)) : Sim Q (x >>= f) (y >>= g) := h.bind fun v _ => hf v
theorem Sim.on {P : α → Prop} {Q : β → Prop} {x : E α} {f g : α → E β} (h : Post P x) (hf : ∀ v, P v → Sim Q (f v) (g v)) : Sim Q (x >>= f) (x >>= g) := (Sim.same h).bind hf
theorem Sim.ite {P : α → Prop} {c : Prop} [Decidable c] {x y x' y' : E α} (h : Sim P x x') (h' : Sim P y y') : Sim P (if c then x else y) (if c then x' else y') := by
  split_ifs <;> assumption
theorem Sim.mono {P Q : α → Prop} {x y : E α} (h : Sim P x y) (hpq : ∀ v, P v → Q v) : Sim Q x y := ⟨h.1, h.2.mono hpq⟩
theorem Sim.any {P : α → Prop} {x y : E α} (h : Sim P x y) : Sim (fun _ => True) x y := h.mono fun _ _ => trivial

/-- LowRank and Woodbury. -/
def Kind.low : Kind → Bool
  | .lr | .wb => true
  | _ => false

/-- The sum of matrices of these classes adds low-rank parts. -/
def lowSum (k k' : Kind) : Bool := (k.low && (k'.low || k' == .const)) || (k'.low && k == .const)

theorem lowSum_comm (k k' : Kind) : lowSum k k' = lowSum k' k := by cases k <;> cases k' <;> rfl

/-- Two instances of the core agree on calls that add no low-rank matrices. -/
structure Ops.Twin (env : Env K) (B C : Ops K) : Prop where
  dense : ∀ {a}, Mat.wo true a → Sim (fun _ => True) (B.dense a) (C.dense a)
  diag : ∀ {a}, Mat.wo true a → Sim (fun _ => True) (B.diag a) (C.diag a)
  sumM : ∀ {k a}, Mat.wo true a → Sim (fun _ => True) (B.sumM k a) (C.sumM k a)
  add : ∀ {a b}, Mat.wo true a → Mat.wo true b → lowSum (kindC env a) (kindC env b) = false → Sim (Mat.wo true) (B.add a b) (C.add a b)
  mul : ∀ {κ a b}, Mat.wo κ a → Mat.wo κ b → Sim (Mat.wo κ) (B.mul a b) (C.mul a b)
  matmul : ∀ {ta tb a b}, Mat.wo false a → Mat.wo false b → Sim (Mat.wo false) (B.matmul ta tb a b) (C.matmul ta tb a b)

theorem Ops.Twin.bot (env : Env K) : (Ops.bot : Ops K).Twin env Ops.bot :=
  ⟨fun _ => Sim.error, fun _ => Sim.error, fun _ => Sim.error, fun _ _ _ => Sim.error, fun _ _ => Sim.error, fun _ _ => Sim.error⟩

section
variable {env : Env K} {B C : Ops K} (hT : B.Twin env C)
include hT

theorem Ops.Twin.add' {a b : Mat K} {k k' : Kind} (ha : a.wo true) (hb : b.wo true) (ea : a.kind = some k) (eb : b.kind = some k') (h : lowSum k k' = false) :
    Sim (Mat.wo true) (B.add a b) (C.add a b) := hT.add ha hb (by rwa [kindC_am ea, kindC_am eb])

theorem sim_broadcastTo {κ : Bool} {a : Mat K} (h : a.wo κ) (s : Shp) : Sim (Mat.wo κ) (broadcastTo B a s) (broadcastTo C a s) := by
  unfold broadcastTo
  refine Sim.skip fun sa => Sim.ite (Sim.same (Post.ok h)) ?_
  split
  · exact Sim.skip fun _ => Sim.same (wop_mkZero _ _)
  · exact Sim.skip fun _ => Sim.same (wop_mkConst _ _ _)
  · exact Sim.ite (Sim.same (wop_broadcastBatchTo _ h)) ((hT.dense h.up).go fun _ => Sim.skip fun _ => Sim.pure trivial)

theorem sim_matmul3 {ta tb tc : Bool} {a b c : Mat K} (ha : a.wo false) (hb : b.wo false) (hc : c.wo false) :
    Sim (Mat.wo false) (matmul3 B ta tb tc a b c) (matmul3 C ta tb tc a b c) := by
  unfold matmul3
  refine Sim.skip fun _ => Sim.skip fun _ => Sim.skip fun _ => Sim.ite ?_ ?_
  · exact (hT.matmul ha hb).bind fun x hx => hT.matmul hx hc
  · exact (hT.matmul hb hc).bind fun x hx => hT.matmul ha hx

theorem seqFin_congr {n : ℕ} {f g : Fin n → E α} (h : ∀ i, f i = g i) : seqFin f = seqFin g := by rw [funext h]

theorem sim_stepDense {a : Mat K} (h : a.wo true) : Sim (fun _ => True) (stepDense B a) (stepDense C a) := by
  unfold stepDense
  split
  iterate 6 exact Sim.refl _
  · exact Sim.refl _
  · exact (sim_matmul3 hT h.1 h.2.2 h.2.1).bind fun x hx => hT.dense hx.up
  · exact (hT.dense (wo_diag _ _)).go fun x => (hT.dense (Mat.wo.lr h true)).go fun y => Sim.refl _
  · exact Sim.on (wop_alignBatch2 h.1 h.2) fun p hp => (hT.dense hp.1).go fun x => (hT.dense hp.2).go fun y => Sim.refl _
  · unfold denseTiled
    refine Sim.skip fun s => Sim.skip fun k => Sim.go (P := fun _ => True) ⟨seqFin_congr hT fun i => ?_, Post.any _⟩ fun _ => Sim.refl _
    exact (Sim.skip (Q := fun _ => True) fun _ => Sim.on (wop_broadcastBatchTo _ (h i)) fun x hx => (hT.dense hx).go fun _ => Sim.refl _).1

theorem sim_diagLR {l r m : Mat K} (h : (Mat.lr l r m).wo true) : Sim (fun _ => True) (diagLR B l r m) (diagLR C l r m) := by
  unfold diagLR
  exact Sim.skip fun _ => (hT.matmul h.1 h.2.2).bind fun x hx => (hT.dense hx.up).go fun _ => (hT.dense h.2.1.up).go fun _ => Sim.refl _

theorem sim_stepDiag {a : Mat K} (h : a.wo true) : Sim (fun _ => True) (stepDiag B a) (stepDiag C a) := by
  unfold stepDiag
  split
  iterate 7 exact Sim.refl _
  · exact sim_diagLR hT h
  · exact (hT.diag (wo_diag _ _)).go fun x => (hT.diag (Mat.wo.lr h true)).go fun y => Sim.refl _
  · exact Sim.on (wop_alignBatch2 h.1 h.2) fun p hp => (hT.diag hp.1).go fun x => (hT.diag hp.2).go fun y => Sim.refl _
  · exact Sim.error

theorem sim_sumLR {k : ℕ} {l r m : Mat K} (h : (Mat.lr l r m).wo true) : Sim (fun _ => True) (sumLR B k l r m) (sumLR C k l r m) := by
  unfold sumLR
  refine Sim.ite ?_ ?_
  · exact (hT.sumM h.1.up).go fun x => (hT.matmul h.2.1 h.2.2).bind fun y hy => (hT.mul (wo_num _ _) hy).bind fun z hz => hT.sumM hz.up
  · exact (hT.matmul h.1 h.2.2).bind fun y hy => (hT.sumM h.2.1.up).go fun x => (hT.mul hy (wo_num _ _)).bind fun z hz => hT.sumM hz.up

theorem sim_stepSumM {k : ℕ} {a : Mat K} (h : a.wo true) : Sim (fun _ => True) (stepSumM B k a) (stepSumM C k a) := by
  unfold stepSumM
  split
  iterate 7 exact Sim.refl _
  · exact sim_sumLR hT h
  · exact (hT.sumM (wo_diag _ _)).go fun x => (hT.sumM (Mat.wo.lr h true)).go fun y => Sim.refl _
  · unfold sumKron
    exact (hT.sumM h.1).go fun _ => (hT.sumM h.2).go fun _ => Sim.refl _
  · exact Sim.error

theorem sim_addRun {env' : Env K} (hA : AddKinds env B) (m : AddM) {a b : Mat K} {k k' : Kind} (ha : a.wo true) (hb : b.wo true) (ea : a.kind = some k) (eb : b.kind = some k')
    (h : lowSum k k' = false) : Sim (Mat.wo true) (addRun env B m a b) (addRun env' C m a b) := by
  unfold addRun
  split
  · refine Sim.skip fun _ => Sim.skip fun _ => Sim.skip fun _ => ?_
    split
    · exact Sim.skip fun _ => sim_broadcastTo hT ha _
    · exact Sim.error
  · refine Sim.skip fun _ => Sim.skip fun _ => Sim.skip fun _ => ?_
    split
    · exact Sim.skip fun _ => sim_broadcastTo hT hb _
    · exact Sim.error
  · exact (hT.dense ha).go fun _ => (hT.dense hb).go fun _ => Sim.skip fun _ => Sim.pure trivial
  · exact Sim.skip fun _ => Sim.pure trivial
  · exact Sim.skip fun _ => Sim.same (wop_mkDiag _ _)
  · exact Sim.skip fun _ => Sim.skip fun _ => Sim.skip fun _ => Sim.same (wop_mkConst _ _ _)
  · exact (hT.dense hb).go fun _ => Sim.skip fun _ => Sim.skip fun _ => Sim.skip fun _ => Sim.pure trivial
  · exact Sim.skip fun _ => Sim.skip fun _ => Sim.skip fun _ => Sim.skip fun _ => Sim.on ((wop_constToLR true _ _ _).and kind_constToLR) fun lr hl =>
      hT.add' hl.1 hb hl.2 rfl rfl
  · exact hT.add' hb ha eb ea (by rw [lowSum_comm]; exact h)
  · exact Sim.skip fun _ => Sim.same (wop_mkLT _ _)
  · exact (hT.dense (wo_diag _ _)).go fun _ => Sim.skip fun _ => Sim.same (wop_mkLT _ _)
  · exact Sim.skip fun _ => Sim.same (wop_mkUT _ _)
  · exact Sim.skip fun _ => Sim.pure trivial
  · exact (hT.dense (wo_diag _ _)).go fun _ => Sim.skip fun _ => Sim.same (wop_mkUT _ _)
  · cases ea; cases eb; exact absurd h (by decide)
  · cases ea; cases eb; exact absurd h (by decide)
  · exact Sim.same (wop_mkWB ha.1 ha.2.1 ha.2.2)
  · exact Sim.same (wop_mkWB hb.1 hb.2.1 hb.2.2)
  · cases ea; cases eb; exact absurd h (by decide)
  · refine Sim.bind (P := fun x => x.wo true ∧ KindIn (addOut .diag .diag) x) ?_ fun x hx => ?_
    · have this (s t : Tensor K) := hT.add' (wo_diag true s) (wo_diag true t) (k := .diag) (k' := .diag) rfl rfl rfl
      exact ⟨(this _ _).1, (this _ _).2.and (hA.am rfl rfl)⟩
    · obtain ⟨hx, k, hk, e⟩ := hx
      refine hT.add' hx (Mat.wo.lr ha true) e (k' := .lr) rfl ?_
      revert hk; cases k <;> decide
  · cases ea
    refine (hT.add' (Mat.wo.lr ha true) hb (k := .lr) rfl eb ?_).bind fun x hx => ?_
    · revert h; cases k' <;> decide
    · refine hT.add (wo_diag true _) hx ?_
      rw [kindC_am (k := .diag) rfl]
      cases kindC env x <;> rfl
  · exact Sim.error

theorem sim_mulRun {κ : Bool} (hM : MulKinds env B) (m : MulM) {a b : Mat K} {k k' : Kind} (ha : a.wo κ) (hb : b.wo κ) (ea : a.kind = some k) (eb : b.kind = some k') :
    Sim (Mat.wo κ) (mulRun B m a b) (mulRun C m a b) := by
  unfold mulRun
  split
  · refine Sim.skip fun _ => Sim.skip fun _ => Sim.skip fun _ => ?_
    split
    · exact Sim.skip fun _ => sim_broadcastTo hT (wo_zero κ _ _ _) _
    · exact Sim.error
  · refine Sim.skip fun _ => Sim.skip fun _ => Sim.skip fun _ => ?_
    split
    · exact Sim.skip fun _ => sim_broadcastTo hT (wo_zero κ _ _ _) _
    · exact Sim.error
  · exact (hT.dense ha.up).go fun _ => (hT.dense hb.up).go fun _ => Sim.skip fun _ => Sim.pure trivial
  · exact Sim.skip fun _ => Sim.pure trivial
  · exact Sim.skip fun _ => Sim.same (wop_mkDiag _ _)
  · unfold mulDiagAm
    refine Sim.skip fun _ => Sim.skip fun _ => Sim.skip fun _ => Sim.skip fun _ => ?_
    have h : ∀ d x : Tensor K, Sim (Mat.wo κ) (do mkDiag (← nMul d x)) (do mkDiag (← nMul d x)) := fun d x => Sim.skip fun _ => Sim.same (wop_mkDiag _ _)
    exact Sim.ite ((hT.dense hb.up).go fun _ => Sim.skip fun _ => h _ _) (Sim.ite ((hT.dense hb.up).go fun _ => Sim.skip fun _ => h _ _) ((hT.diag hb.up).go fun _ => h _ _))
  · exact hT.mul hb ha
  · exact Sim.skip fun _ => Sim.skip fun _ => Sim.skip fun _ => Sim.same (wop_mkConst _ _ _)
  · exact Sim.skip fun _ => Sim.skip fun _ => Sim.skip fun _ => (hT.dense hb.up).go fun _ => Sim.skip fun _ => Sim.skip fun _ => Sim.skip fun _ => Sim.pure trivial
  · exact Sim.skip fun _ => Sim.skip fun _ => Sim.skip fun _ => Sim.skip fun _ => Sim.same (wop_mkDiag _ _)
  · exact Sim.skip fun _ => Sim.same (wop_mkLT _ _)
  · exact (hT.dense hb.up).go fun _ => Sim.skip fun _ => Sim.same (wop_mkLT _ _)
  · exact Sim.skip fun _ => Sim.same (wop_mkLT _ _)
  · exact Sim.skip fun _ => Sim.same (wop_mkUT _ _)
  · exact (hT.diag (wo_ut _ _)).go fun _ => (hT.diag (wo_lt _ _)).go fun _ => Sim.skip fun _ => Sim.same (wop_mkDiag _ _)
  · exact (hT.dense hb.up).go fun _ => Sim.skip fun _ => Sim.same (wop_mkUT _ _)
  · exact Sim.skip fun _ => Sim.same (wop_mkUT _ _)
  · unfold mulLRLR
    iterate 3 refine Sim.skip fun _ => ?_
    refine (hT.dense ha.1.up).go fun _ => (hT.dense ha.2.2.up).go fun _ => (hT.dense ha.2.1.up).go fun _ =>
      (hT.dense hb.1.up).go fun _ => (hT.dense hb.2.2.up).go fun _ => (hT.dense hb.2.1.up).go fun _ => ?_
    iterate 12 refine Sim.skip fun _ => ?_
    exact Sim.same (wop_mkLR trivial trivial trivial)
  · exact Sim.skip fun _ => Sim.skip fun _ => Sim.skip fun _ => (hT.mul (wo_num false _) hb.2.2).bind fun m' hm => Sim.same (wop_mkLR hb.1 hb.2.1 hm)
  · obtain rfl : κ = true := ha.1
    refine Sim.bind (P := fun x => x.wo true ∧ x.kind = some (mulOut .diag k')) ?_ fun x hx => ?_
    · have this (s : Tensor K) := hT.mul (κ := true) (wo_diag true s) hb
      exact ⟨(this _).1, (this _).2.and (hM.am rfl eb)⟩
    · refine (hT.mul (Mat.wo.lr ha true) hb).bind fun y hy => hT.add hx.1 hy ?_
      rw [kindC_am hx.2]
      generalize kindC env y = k2
      clear * -
      cases k' <;> cases k2 <;> rfl
  · exact Sim.skip fun _ => Sim.skip fun _ => Sim.skip fun _ => Sim.skip fun _ => Sim.skip fun _ =>
      (hT.mul ha.1 hb.1).bind fun x hx => (hT.mul ha.2 hb.2).bind fun y hy => Sim.pure ⟨hx, hy⟩
  · exact Sim.skip fun _ => Sim.skip fun _ => Sim.skip fun _ => (hT.mul (wo_num κ _) hb.1).bind fun x hx => Sim.pure ⟨hx, hb.2⟩
  · exact Sim.error

theorem sim_kronIdAB {a : Mat K} (ha : a.wo false) (b : Tensor K) : Sim (fun _ => True) (kronIdAB B a b) (kronIdAB C a b) := by
  unfold kronIdAB
  exact Sim.skip fun _ => Sim.skip fun _ => (hT.matmul ha (wo_num _ _)).bind fun x hx => (hT.dense hx.up).go fun _ => Sim.refl _
theorem sim_kronAIdB {a : Mat K} (ha : a.wo false) (b : Tensor K) : Sim (fun _ => True) (kronAIdB B a b) (kronAIdB C a b) := by
  unfold kronAIdB
  exact Sim.skip fun _ => Sim.skip fun _ => (hT.matmul ha (wo_num _ _)).bind fun x hx => (hT.dense hx.up).go fun _ => Sim.refl _

theorem sim_mmRun (m : MmM) (ta tb : Bool) {a b : Mat K} (ha : a.wo false) (hb : b.wo false) : Sim (Mat.wo false) (mmRun B m ta tb a b) (mmRun C m ta tb a b) := by
  unfold mmRun
  split
  · exact Sim.skip fun _ => Sim.skip fun _ => Sim.skip fun _ => Sim.skip fun _ => Sim.skip fun _ => Sim.pure trivial
  · exact Sim.skip fun _ => Sim.skip fun _ => Sim.skip fun _ => Sim.skip fun _ => Sim.skip fun _ => Sim.pure trivial
  · exact Sim.skip fun _ => Sim.pure trivial
  · exact Sim.skip fun _ => Sim.skip fun _ => Sim.same (wop_mkDiag _ _)
  · exact Sim.skip fun _ => Sim.on (wop_trM _ hb) fun b' hb => hT.mul (wo_mkDense false _) hb
  · exact Sim.skip fun _ => Sim.on (wop_trM _ ha) fun b' hb => hT.mul hb (wo_mkDense false _)
  · exact Sim.skip fun _ => Sim.skip fun _ => Sim.pure trivial
  · exact Sim.skip fun _ => Sim.on (wop_trM _ hb) fun b' hb => (hT.sumM hb.up).go fun v => Sim.on (wop_fillDiag _ _ _) fun d hd => Sim.same (wop_mkLR trivial trivial hd)
  · exact Sim.skip fun _ => Sim.on (wop_trM _ ha) fun b' hb => (hT.sumM hb.up).go fun v => Sim.on (wop_fillDiag _ _ _) fun d hd => Sim.same (wop_mkLR trivial trivial hd)
  · split_ifs
    · exact Sim.skip fun _ => Sim.same (wop_mkLT _ _)
    · exact Sim.on (wop_trM _ ha) fun a' ha => Sim.on (wop_trM _ hb) fun b' hb => hT.matmul ha hb
  · split
    · exact hT.matmul (wo_num _ _) hb
    · exact hT.matmul (wo_num _ _) hb
    · exact Sim.error
  · split
    · exact hT.matmul ha (wo_num _ _)
    · exact hT.matmul ha (wo_num _ _)
    · exact Sim.error
  · split_ifs
    · exact (hT.matmul (wo_num _ _) (wo_diag _ _)).bind fun x hx => (hT.dense hx.up).go fun _ => Sim.same (wop_mkLT _ _)
    · exact Sim.on (wop_trM _ ha) fun a' ha => hT.matmul ha hb
  · split_ifs
    · exact (hT.matmul (wo_diag _ _) (wo_num _ _)).bind fun x hx => (hT.dense hx.up).go fun _ => Sim.same (wop_mkLT _ _)
    · exact Sim.on (wop_trM _ hb) fun a' hb => hT.matmul ha hb
  · split_ifs
    · exact Sim.skip fun _ => Sim.same (wop_mkUT _ _)
    · exact Sim.on (wop_trM _ ha) fun a' ha => Sim.on (wop_trM _ hb) fun b' hb => hT.matmul ha hb
  · split_ifs
    · exact (hT.matmul (wo_num _ _) (wo_diag _ _)).bind fun x hx => (hT.dense hx.up).go fun _ => Sim.same (wop_mkUT _ _)
    · exact Sim.on (wop_trM _ ha) fun a' ha => hT.matmul ha hb
  · split_ifs
    · exact (hT.matmul (wo_diag _ _) (wo_num _ _)).bind fun x hx => (hT.dense hx.up).go fun _ => Sim.same (wop_mkUT _ _)
    · exact Sim.on (wop_trM _ hb) fun a' hb => hT.matmul ha hb
  · unfold matmulLRLR
    refine Sim.skip fun _ => Sim.on (wop_trM ta ha) fun a' ha => Sim.on (wop_trM tb hb) fun b' hb => ?_
    split
    · refine (hT.matmul ha.2.1 hb.1).bind fun x hx => (sim_matmul3 hT ha.2.2 hx hb.2.2).bind fun y hy => Sim.skip fun _ => Sim.ite ?_ ?_
      · exact (hT.dense hy.up).go fun _ => Sim.on (wop_mkDiag _ _) fun d hd => Sim.same (wop_mkLR ha.1 hb.2.1 hd)
      · exact Sim.same (wop_mkLR ha.1 hb.2.1 hy)
    · exact Sim.error
  · refine Sim.skip fun _ => Sim.on (wop_trM _ ha) fun a' ha => ?_
    split
    · exact Sim.on (wop_trM _ hb) fun b' hb => (hT.matmul hb ha.2.1).bind fun x hx => Sim.same (wop_mkLR ha.1 hx ha.2.2)
    · exact Sim.error
  · refine Sim.skip fun _ => Sim.on (wop_trM _ hb) fun b' hb => ?_
    split
    · exact Sim.on (wop_trM _ ha) fun a' ha => (hT.matmul ha hb.1).bind fun x hx => Sim.same (wop_mkLR hx hb.2.1 hb.2.2)
    · exact Sim.error
  · exact Sim.on (wop_constToLR _ _ _ _) fun x hx => hT.matmul ha hx
  · exact Sim.on (wop_constToLR _ _ _ _) fun x hx => hT.matmul hx hb
  · exact absurd ha.1 (by simp)
  · exact absurd hb.1 (by simp)
  · exact Sim.skip fun _ => Sim.skip fun _ => (hT.matmul ha.1 hb.1).bind fun x hx => (hT.matmul ha.2 hb.2).bind fun y hy => Sim.pure ⟨hx, hy⟩
  · unfold matmulKronAm
    refine Sim.skip fun _ => Sim.on (wop_trM _ ha.1) fun l hl => Sim.on (wop_trM _ ha.2) fun r hr => Sim.on (wop_trM _ hb) fun b hb => Sim.skip fun _ => Sim.skip fun _ =>
      (hT.dense hb.up).go fun _ => Sim.ite ?_ ?_
    · exact (sim_kronAIdB hT hl _).go fun _ => (sim_kronIdAB hT hr _).go fun _ => Sim.pure trivial
    · exact (sim_kronIdAB hT hr _).go fun _ => (sim_kronAIdB hT hl _).go fun _ => Sim.pure trivial
  · exact (hT.matmul hb ha).bind fun x hx => Sim.same (wop_transposeM hx)
  · exact (hT.dense ha.up).go fun d => hT.matmul (wo_num _ _) (wo_diag _ _)
  · exact (hT.dense hb.up).go fun d => hT.matmul (wo_diag _ _) (wo_num _ _)
  · exact Sim.error

end

/-- The same numbers count as Python numbers. -/
theorem convertAM_congr {env env' : Env K} (h : env.isNumber = env'.isNumber) (a : Mat K) : convertAM env a = convertAM env' a := by
  cases a with
  | num t => simp only [convertAM, h]
  | _ => rfl

/-- The environment enters only through the tolerance tests of low-rank sums. -/
theorem ops_twin {env env' : Env K} (h : env.isNumber = env'.isNumber) (n : ℕ) : (ops env n).Twin env (ops env' n) := by
  induction n with
  | zero => exact Ops.Twin.bot env
  | succ n ih =>
    refine ⟨fun ha => sim_stepDense ih ha, fun ha => sim_stepDiag ih ha, fun ha => sim_stepSumM ih ha, fun {a b} ha hb hl => ?_, fun {κ a b} ha hb => ?_, fun {ta tb a b} ha hb => ?_⟩
    · show Sim _ (stepAdd env (ops env n) a b) (stepAdd env' (ops env' n) a b)
      unfold stepAdd
      split
      · exact Sim.skip fun _ => Sim.pure trivial
      · dsimp only
        rw [← convertAM_congr h a, ← convertAM_congr h b, kind_convertAM, kind_convertAM]
        exact sim_addRun ih (ops_addKinds env n) _ (wo_convertAM env ha) (wo_convertAM env hb) (kind_convertAM env a) (kind_convertAM env b) hl
    · show Sim _ (stepMul env (ops env n) a b) (stepMul env' (ops env' n) a b)
      unfold stepMul
      split
      · exact Sim.skip fun _ => Sim.pure trivial
      · dsimp only
        rw [← convertAM_congr h a, ← convertAM_congr h b, kind_convertAM, kind_convertAM]
        exact sim_mulRun ih (ops_mulKinds env n) _ (wo_convertAM env ha) (wo_convertAM env hb) (kind_convertAM env a) (kind_convertAM env b)
    · show Sim _ (stepMatmul env (ops env n) ta tb a b) (stepMatmul env' (ops env' n) ta tb a b)
      unfold stepMatmul
      split
      · exact Sim.skip fun _ => Sim.pure trivial
      · dsimp only
        rw [← convertAM_congr h a, ← convertAM_congr h b, kind_convertAM, kind_convertAM]
        dsimp only
        split
        · exact sim_mmRun ih _ _ _ (wo_convertAM env ha) (wo_convertAM env hb)
        · exact Sim.error

/-- The product of matrices of these classes adds low-rank matrices: a Woodbury matrix with a Woodbury, LowRank or Constant matrix. -/
def lowProd : Kind → Kind → Bool
  | .wb, .wb | .wb, .lr | .lr, .wb | .wb, .const | .const, .wb => true
  | _, _ => false

/-- No Woodbury matrix is part of `a`, but `a` itself may be one. -/
def Mat.woTop : Mat K → Prop
  | .wb _ l r m => l.wo false ∧ r.wo false ∧ m.wo false
  | a => a.wo false

theorem lowProd_left (ta tb : Bool) (k : Kind) : lowProd .wb k = false → k ≠ .zero → ∀ k1 ∈ mmOut ta tb .diag k, ∀ k2 ∈ mmOut ta tb .lr k, lowSum k1 k2 = false := by
  cases ta <;> cases tb <;> cases k <;> decide
theorem lowProd_right (ta tb : Bool) (k : Kind) : lowProd k .wb = false → k ≠ .zero → ∀ k1 ∈ mmOut ta tb k .diag, ∀ k2 ∈ mmOut ta tb k .lr, lowSum k1 k2 = false := by
  cases ta <;> cases tb <;> cases k <;> decide

theorem woTop_convertAM (env : Env K) {a : Mat K} (h : a.woTop) : (convertAM env a).woTop := by
  cases a with
  | num t =>
    simp only [convertAM]
    split_ifs <;> trivial
  | _ => exact h

theorem twin_mmRun {env : Env K} {B C : Ops K} (hT : B.Twin env C) (hK : MmKinds env B) {ta tb : Bool} {a b : Mat K} {k k' : Kind} {m : MmM} (ha : a.woTop) (hb : b.woTop)
    (ra : TriRk a) (rb : TriRk b) (ea : a.kind = some k) (eb : b.kind = some k') (hl : lowProd k k' = false) (em : mmId k k' = some m) :
    mmRun B m ta tb a b = mmRun C m ta tb a b := by
  by_cases wa : k = .wb
  · subst wa
    obtain ⟨d, l, r, mid, rfl⟩ : ∃ d l r m, a = .wb d l r m := by
      cases a <;> simp [Mat.kind] at ea
      exact ⟨_, _, _, _, rfl⟩
    by_cases z : k' = .zero
    · subst z
      obtain ⟨bt, x, y, rfl⟩ : ∃ bt x y, b = .zero bt x y := by
        cases b <;> simp [Mat.kind] at eb
        exact ⟨_, _, _, rfl⟩
      simp only [mmId, Option.some.injEq] at em
      subst em
      rfl
    · have hb' : b.wo false := by
        cases b <;> simp only [Mat.kind, Option.some.injEq, reduceCtorEq] at eb
        case wb => subst eb; exact absurd hl (by decide)
        all_goals exact hb
      obtain rfl : m = .wbAm := by
        have : mmId .wb k' = some .wbAm := by
          clear em hl
          revert z
          cases k' <;> decide
        exact Option.some.inj (em.symm.trans this)
      show (B.matmul ta tb (.diag d) b >>= fun x => B.matmul ta tb (.lr l r mid) b >>= fun y => B.add x y) =
        (C.matmul ta tb (.diag d) b >>= fun x => C.matmul ta tb (.lr l r mid) b >>= fun y => C.add x y)
      have h1 := hT.matmul (ta := ta) (tb := tb) (wo_diag false d) hb'
      have h2 := hT.matmul (ta := ta) (tb := tb) (show (Mat.lr l r mid).wo false from ha) hb'
      refine (Sim.bind (P := fun x => Mat.wo false x ∧ KindIn (mmOut ta tb .diag k') x) ⟨h1.1, h1.2.and (hK.am ta tb trivial rb rfl eb)⟩ fun x hx =>
        Sim.bind (P := fun x => Mat.wo false x ∧ KindIn (mmOut ta tb .lr k') x) (Q := fun _ => True) ⟨h2.1, h2.2.and (hK.am ta tb trivial rb rfl eb)⟩ fun y hy => ?_).1
      obtain ⟨wx, k1, m1, e1⟩ := hx
      obtain ⟨wy, k2, m2, e2⟩ := hy
      exact (hT.add' wx.up wy.up e1 e2 (lowProd_left ta tb k' hl z k1 m1 k2 m2)).any
  by_cases wb : k' = .wb
  · subst wb
    obtain ⟨d, l, r, mid, rfl⟩ : ∃ d l r m, b = .wb d l r m := by
      cases b <;> simp [Mat.kind] at eb
      exact ⟨_, _, _, _, rfl⟩
    by_cases z : k = .zero
    · subst z
      obtain ⟨bt, x, y, rfl⟩ : ∃ bt x y, a = .zero bt x y := by
        cases a <;> simp [Mat.kind] at ea
        exact ⟨_, _, _, rfl⟩
      simp only [mmId, Option.some.injEq] at em
      subst em
      rfl
    · have ha' : a.wo false := by
        cases a <;> simp only [Mat.kind, Option.some.injEq, reduceCtorEq] at ea
        case wb => exact absurd ea.symm wa
        all_goals exact ha
      obtain rfl : m = .amWb := by
        have : mmId k .wb = some .amWb := by
          clear em hl ea
          revert z wa
          cases k <;> decide
        exact Option.some.inj (em.symm.trans this)
      have key : (B.matmul ta tb a (.diag d) >>= fun x => B.matmul ta tb a (.lr l r mid) >>= fun y => B.add x y) =
          (C.matmul ta tb a (.diag d) >>= fun x => C.matmul ta tb a (.lr l r mid) >>= fun y => C.add x y) := by
        have h1 := hT.matmul (ta := ta) (tb := tb) ha' (wo_diag false d)
        have h2 := hT.matmul (ta := ta) (tb := tb) ha' (show (Mat.lr l r mid).wo false from hb)
        refine (Sim.bind (P := fun x => Mat.wo false x ∧ KindIn (mmOut ta tb k .diag) x) ⟨h1.1, h1.2.and (hK.am ta tb ra trivial ea rfl)⟩ fun x hx =>
          Sim.bind (P := fun x => Mat.wo false x ∧ KindIn (mmOut ta tb k .lr) x) (Q := fun _ => True) ⟨h2.1, h2.2.and (hK.am ta tb ra trivial ea rfl)⟩ fun y hy => ?_).1
        obtain ⟨wx, k1, m1, e1⟩ := hx
        obtain ⟨wy, k2, m2, e2⟩ := hy
        exact (hT.add' wx.up wy.up e1 e2 (lowProd_right ta tb k hl z k1 m1 k2 m2)).any
      cases a <;> exact key
  have ha' : a.wo false := by
    cases a <;> simp only [Mat.kind, Option.some.injEq, reduceCtorEq] at ea
    case wb => exact absurd ea.symm wa
    all_goals exact ha
  have hb' : b.wo false := by
    cases b <;> simp only [Mat.kind, Option.some.injEq, reduceCtorEq] at eb
    case wb => exact absurd eb.symm wb
    all_goals exact hb
  exact (sim_mmRun hT m ta tb ha' hb').1

/-- The environment enters a matrix product only where it adds low-rank matrices. -/
theorem ops_twin_matmul {env env' : Env K} (h : env.isNumber = env'.isNumber) (n : ℕ) {ta tb : Bool} {a b : Mat K} (ha : a.woTop) (hb : b.woTop) (ra : TriRk a) (rb : TriRk b)
    (hl : lowProd (kindC env a) (kindC env b) = false) : (ops env n).matmul ta tb a b = (ops env' n).matmul ta tb a b := by
  cases n with
  | zero => rfl
  | succ n =>
    show stepMatmul env (ops env n) ta tb a b = stepMatmul env' (ops env' n) ta tb a b
    unfold stepMatmul
    split
    · rfl
    · dsimp only
      rw [← convertAM_congr h a, ← convertAM_congr h b, kind_convertAM, kind_convertAM]
      dsimp only
      split
      · rename_i em
        exact twin_mmRun (ops_twin h n) (ops_mmKinds env n) (woTop_convertAM env ha) (woTop_convertAM env hb) (triRk_convert ra) (triRk_convert rb) (kind_convertAM env a)
          (kind_convertAM env b) hl em
      · rfl

end Verif
