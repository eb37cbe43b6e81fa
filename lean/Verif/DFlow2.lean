/-
Data types of results (C59): every run of the operations is one of the runs of `DFlow.lean`.
-/
import Verif.DFlow
import Verif.Rank

set_option linter.unusedSectionVars false
set_option linter.unusedVariables false

namespace Verif

variable {K D : Type} [Field K] [LinearOrder K]

/-- `s` gives a data type to every array of `a`. -/
inductive Lab : Mat K → DM D → Prop
  | num {t d} : Lab (.num t) (.num d)
  | zero {bt r c d} : Lab (.zero bt r c) (.zero d)
  | dense {t d} : Lab (.dense t) (.dense d)
  | diag {t d} : Lab (.diag t) (.diag d)
  | const {t r c d} : Lab (.const t r c) (.const d)
  | lt {t d} : Lab (.lt t) (.lt d)
  | ut {t d} : Lab (.ut t) (.ut d)
  | lr {l r m l' r' m'} : Lab l l' → Lab r r' → Lab m m' → Lab (.lr l r m) (.lr l' r' m')
  | wb {e l r m d l' r' m'} : Lab l l' → Lab r r' → Lab m m' → Lab (.wb e l r m) (.wb d l' r' m')
  | kron {l r l' r'} : Lab l l' → Lab r r' → Lab (.kron l r) (.kron l' r')
  | tiled {n blk blk' reps axis} : (∀ i, Lab (blk i) (blk' i)) → Lab (.tiled n blk reps axis) (.tiled n blk')

theorem TMat.lab (a : TMat K D) : Lab a.mat a.skel := by
  induction a with
  | lr l r m hl hr hm => exact .lr hl hr hm
  | wb d l r m hl hr hm => exact .wb hl hr hm
  | kron l r hl hr => exact .kron hl hr
  | tiled n blk reps axis h => exact .tiled h
  | _ => constructor

/-- Labels are typed matrices. -/
theorem Lab.typed {a : Mat K} {s : DM D} (h : Lab a s) : ∃ t : TMat K D, t.mat = a ∧ t.skel = s := by
  induction h with
  | @num t d => exact ⟨.num ⟨d, t⟩, rfl, rfl⟩
  | @zero bt r c d => exact ⟨.zero d bt r c, rfl, rfl⟩
  | @dense t d => exact ⟨.dense ⟨d, t⟩, rfl, rfl⟩
  | @diag t d => exact ⟨.diag ⟨d, t⟩, rfl, rfl⟩
  | @const t r c d => exact ⟨.const ⟨d, t⟩ r c, rfl, rfl⟩
  | @lt t d => exact ⟨.lt ⟨d, t⟩, rfl, rfl⟩
  | @ut t d => exact ⟨.ut ⟨d, t⟩, rfl, rfl⟩
  | lr _ _ _ h1 h2 h3 =>
    obtain ⟨l, rfl, rfl⟩ := h1
    obtain ⟨r, rfl, rfl⟩ := h2
    obtain ⟨m, rfl, rfl⟩ := h3
    exact ⟨.lr l r m, rfl, rfl⟩
  | @wb e _ _ _ d _ _ _ _ _ _ h1 h2 h3 =>
    obtain ⟨l, rfl, rfl⟩ := h1
    obtain ⟨r, rfl, rfl⟩ := h2
    obtain ⟨m, rfl, rfl⟩ := h3
    exact ⟨.wb ⟨d, e⟩ l r m, rfl, rfl⟩
  | kron _ _ h1 h2 =>
    obtain ⟨l, rfl, rfl⟩ := h1
    obtain ⟨r, rfl, rfl⟩ := h2
    exact ⟨.kron l r, rfl, rfl⟩
  | @tiled n blk blk' reps axis _ ih =>
    choose f h1 h2 using ih
    exact ⟨.tiled n f reps axis, by simp only [TMat.mat, h1], by simp only [TMat.skel, h2]⟩

/-- Every TiledBlocks has a block (`tiledblocks.py` 33-54). -/
def DM.Ok : DM D → Prop
  | .lr l r m => l.Ok ∧ r.Ok ∧ m.Ok
  | .wb _ l r m => l.Ok ∧ r.Ok ∧ m.Ok
  | .kron l r => l.Ok ∧ r.Ok
  | .tiled n blk => n ≠ 0 ∧ ∀ i, (blk i).Ok
  | _ => True

/-- A matrix has a data type. -/
theorem DM.Ok.dt {a : DM D} (h : a.Ok) (p : D → D → D) : ∃ d, a.DtIs p d := by
  induction a with
  | lr l r m hl hr hm =>
    obtain ⟨x, hx⟩ := hl h.1
    obtain ⟨y, hy⟩ := hr h.2.1
    obtain ⟨w, hw⟩ := hm h.2.2
    exact ⟨_, x, y, w, hx, hy, hw, rfl⟩
  | wb e l r m hl hr hm =>
    obtain ⟨x, hx⟩ := hl h.1
    obtain ⟨y, hy⟩ := hr h.2.1
    obtain ⟨w, hw⟩ := hm h.2.2
    exact ⟨_, x, y, w, hx, hy, hw, rfl⟩
  | kron l r hl hr =>
    obtain ⟨x, hx⟩ := hl h.1
    obtain ⟨y, hy⟩ := hr h.2
    exact ⟨_, x, y, hx, hy, rfl⟩
  | tiled n blk ih =>
    choose ds hd using fun i => ih i (h.2 i)
    obtain ⟨m, rfl⟩ := Nat.exists_eq_succ_of_ne_zero h.1
    refine ⟨(List.ofFn fun i : Fin m => ds i.succ).foldl p (ds 0), ds, hd, ?_⟩
    rw [List.ofFn_succ]
    rfl
  | _ => exact ⟨_, rfl⟩

theorem DM.ok_tr {a : DM D} (h : a.Ok) : a.tr.Ok := by
  induction a with
  | lr l r m hl hr hm => exact ⟨h.2.1, h.1, hm h.2.2⟩
  | wb d l r m hl hr hm => exact ⟨h.2.1, h.1, hm h.2.2⟩
  | kron l r hl hr => exact ⟨hl h.1, hr h.2⟩
  | tiled n blk ih => exact ⟨h.1, fun i => ih i (h.2 i)⟩
  | _ => exact h

theorem DM.ok_tr' {a : DM D} (t : Bool) (h : a.Ok) : (a.tr' t).Ok := by
  cases t
  · exact h
  · exact DM.ok_tr h

theorem DM.ok_like (a : DM D) (d : D) : (a.like d).Ok := by cases a <;> exact True.intro

/-- The operands have data types. -/
def DCall.Ok : DCall D → Prop
  | .add a b | .addAM a b | .mul a b | .mulAM a b | .matmul _ _ a b | .mmAM _ _ a b => a.Ok ∧ b.Ok
  | .matmul3 _ _ _ a b c => a.Ok ∧ b.Ok ∧ c.Ok
  | .dense a | .diag a | .sum a | .bcast a | .pad a => a.Ok

theorem DConv.ok {z : Bool} {a b : DM D} (h : DConv z a b) (ha : a.Ok) : b.Ok := by
  cases h with
  | am => exact ha
  | _ => trivial

theorem Runs.ok {p : D → D → D} {z : Bool} {c : DCall D} {r : DM D} (h : Runs p z c r) (hc : c.Ok) : r.Ok := by
  induction h with
  | pad_one => exact DM.ok_like _ _
  | pad_both => exact DM.ok_like _ _
  | dense_tiled => trivial
  | add_am _ h1 h2 _ ih => exact ih ⟨h1.ok hc.1, h2.ok hc.2⟩
  | mul_am _ h1 h2 _ ih => exact ih ⟨h1.ok hc.1, h2.ok hc.2⟩
  | mm_am _ h1 h2 _ ih => exact ih ⟨h1.ok hc.1, h2.ok hc.2⟩
  | mm_lrLr _ _ ha hb _ _ i1 i2 =>
    have ha' := ha ▸ DM.ok_tr' _ hc.1
    have hb' := hb ▸ DM.ok_tr' _ hc.2
    exact ⟨ha'.1, hb'.2.1, i2 ⟨ha'.2.2, i1 ⟨ha'.2.1, hb'.1⟩, hb'.2.2⟩⟩
  | mm_lrLr_one _ _ ha hb _ _ _ i1 i2 i3 =>
    have ha' := ha ▸ DM.ok_tr' _ hc.1
    have hb' := hb ▸ DM.ok_tr' _ hc.2
    exact ⟨ha'.1, hb'.2.1, trivial⟩
  | mm_lrAm _ _ _ ha _ i1 =>
    have ha' := ha ▸ DM.ok_tr' _ hc.1
    exact ⟨ha'.1, i1 ⟨DM.ok_tr' _ hc.2, ha'.2.1⟩, ha'.2.2⟩
  | mm_amLr _ _ _ hb _ i1 =>
    have hb' := hb ▸ DM.ok_tr' _ hc.2
    exact ⟨i1 ⟨DM.ok_tr' _ hc.1, hb'.1⟩, hb'.2.1, hb'.2.2⟩
  | mm_diagAm _ _ _ ih => exact ih ⟨trivial, DM.ok_tr' _ hc.2⟩
  | mm_amDiag _ _ _ ih => exact ih ⟨DM.ok_tr' _ hc.1, trivial⟩
  | mm_ltLt_tr _ ih => exact ih ⟨DM.ok_tr' _ hc.1, DM.ok_tr' _ hc.2⟩
  | mm_utUt_tr _ ih => exact ih ⟨DM.ok_tr' _ hc.1, DM.ok_tr' _ hc.2⟩
  | mm_amKron _ _ _ _ ih => exact DM.ok_tr (ih ⟨hc.2, hc.1⟩)
  | _ => first
    | exact True.intro
    | exact hc
    | simp_all [DCall.Ok, DM.Ok, DM.constLR]

/-! ### Labels through transposition and broadcasting -/

theorem mkConst_lab {t : Tensor K} {s : Shp} {x : Mat K} (h : mkConst t s = .ok x) (d : D) : Lab x (.const d) := by
  unfold mkConst at h
  split at h
  · cases h; constructor
  · simp only [bind_ok_iff, pure_eq_ok] at h
    obtain ⟨_, _, _, _, rfl⟩ := h
    constructor
  · cases h

theorem mkDiag_lab {t : Tensor K} {x : Mat K} (h : mkDiag t = .ok x) (d : D) : Lab x (.diag d) := by
  obtain ⟨_, rfl⟩ := mkDiag_ok.1 h; constructor

theorem mkLT_lab {t : Tensor K} {x : Mat K} (h : mkLT t = .ok x) (d : D) : Lab x (.lt d) := by
  obtain ⟨_, rfl⟩ := mkLT_ok.1 h; constructor

theorem mkUT_lab {t : Tensor K} {x : Mat K} (h : mkUT t = .ok x) (d : D) : Lab x (.ut d) := by
  obtain ⟨_, rfl⟩ := mkUT_ok.1 h; constructor

theorem mkZero_lab {s : Shp} {x : Mat K} (h : mkZero s = .ok x) (d : D) : Lab x (.zero d) := by
  obtain ⟨_, _, _, _, rfl⟩ := mkZero_ok.1 h; constructor

theorem mkLR_lab {l r m x : Mat K} {l' r' m' : DM D} (h : mkLR l r m = .ok x) (hl : Lab l l') (hr : Lab r r') (hm : Lab m m') : Lab x (.lr l' r' m') := by
  rw [mkLR_inv' h]; exact .lr hl hr hm

theorem mkWB_lab {d : Tensor K} {l r m x : Mat K} {l' r' m' : DM D} (h : mkWB d l r m = .ok x) (hl : Lab l l') (hr : Lab r r') (hm : Lab m m') (e : D) : Lab x (.wb e l' r' m') := by
  rw [mkWB_inv h]; exact .wb hl hr hm

theorem transposeM_lab {a x : Mat K} {s : DM D} (h : Lab a s) (hx : transposeM a = .ok x) : Lab x s.tr := by
  induction h generalizing x with
  | num => cases hx; constructor
  | zero => cases hx; constructor
  | dense => cases hx; constructor
  | diag => cases hx; constructor
  | const => exact mkConst_lab hx _
  | lt => exact mkUT_lab hx _
  | ut => exact mkLT_lab hx _
  | lr hl hr hm _ _ im =>
    simp only [transposeM, bind_ok_iff] at hx
    obtain ⟨m', h1, h2⟩ := hx
    exact mkLR_lab h2 hr hl (im h1)
  | wb hl hr hm _ _ im =>
    simp only [transposeM, bind_ok_iff] at hx
    obtain ⟨m', h1, _, _, h2⟩ := hx
    exact mkWB_lab h2 hr hl (im h1) _
  | kron hl hr il ir =>
    simp only [transposeM, bind_ok_iff, pure_eq_ok] at hx
    obtain ⟨l', h1, r', h2, rfl⟩ := hx
    exact .kron (il h1) (ir h2)
  | tiled _ ih =>
    simp only [transposeM, mkTiled, bind_ok_iff, pure_eq_ok] at hx
    obtain ⟨rk, h1, k, h2, blk', h3, _, _, _, _, rfl⟩ := hx
    exact .tiled fun i => ih i (seqFin_ok.1 h3 i)

theorem trM_lab {a x : Mat K} {s : DM D} {t : Bool} (h : Lab a s) (hx : trM t a = .ok x) : Lab x (s.tr' t) := by
  cases t
  · cases hx; exact h
  · exact transposeM_lab h hx

theorem broadcastBatchTo_lab {S : Shp} {a x : Mat K} {s : DM D} (h : Lab a s) (hx : broadcastBatchTo S a = .ok x) : Lab x s := by
  induction h generalizing x with
  | num => simp only [broadcastBatchTo, bind_ok_iff, pure_eq_ok] at hx; obtain ⟨_, _, rfl⟩ := hx; constructor
  | zero => cases hx; constructor
  | dense => simp only [broadcastBatchTo, bind_ok_iff, pure_eq_ok] at hx; obtain ⟨_, _, rfl⟩ := hx; constructor
  | diag => simp only [broadcastBatchTo, bind_ok_iff] at hx; obtain ⟨_, _, h⟩ := hx; exact mkDiag_lab h _
  | const => simp only [broadcastBatchTo, bind_ok_iff, pure_eq_ok] at hx; obtain ⟨_, _, rfl⟩ := hx; constructor
  | lt => simp only [broadcastBatchTo, bind_ok_iff] at hx; obtain ⟨_, _, h⟩ := hx; exact mkLT_lab h _
  | ut => simp only [broadcastBatchTo, bind_ok_iff] at hx; obtain ⟨_, _, h⟩ := hx; exact mkUT_lab h _
  | lr hl hr hm il ir im =>
    simp only [broadcastBatchTo, bind_ok_iff] at hx
    obtain ⟨l', h1, r', h2, m', h3, h4⟩ := hx
    exact mkLR_lab h4 (il h1) (ir h2) (im h3)
  | wb hl hr hm il ir im =>
    simp only [broadcastBatchTo, bind_ok_iff] at hx
    obtain ⟨_, _, _, _, l', h1, r', h2, m', h3, _, _, h4⟩ := hx
    exact mkWB_lab h4 (il h1) (ir h2) (im h3) _
  | kron hl hr il ir =>
    simp only [broadcastBatchTo, bind_ok_iff, pure_eq_ok] at hx
    obtain ⟨l', h1, r', h2, rfl⟩ := hx
    exact .kron (il h1) (ir h2)
  | tiled => cases hx

theorem alignBatch2_lab {a b : Mat K} {x : Mat K × Mat K} {s s' : DM D} (ha : Lab a s) (hb : Lab b s') (h : alignBatch2 a b = .ok x) : Lab x.1 s ∧ Lab x.2 s' := by
  simp only [alignBatch2, bind_ok_iff, pure_eq_ok] at h
  obtain ⟨_, _, _, h1, _, h2, rfl⟩ := h
  exact ⟨broadcastBatchTo_lab ha h1, broadcastBatchTo_lab hb h2⟩

/-- With `z = false`: no exact zero is a Python number, and no sum of low-rank matrices is found to be zero. -/
def Env.Zeros (env : Env K) (z : Bool) : Prop := z = false → (∀ t, env.isNumber t = true → t.get (fun _ => 0) ≠ 0) ∧ ∀ t, env.isZero t ≠ .ok true

theorem convertAM_lab {env : Env K} {z : Bool} (hz : env.Zeros z) {a : Mat K} {s : DM D} (h : Lab a s) : ∃ s', Lab (convertAM env a) s' ∧ DConv z s s' := by
  cases h with
  | num =>
    simp only [convertAM]
    split_ifs with h0 h1
    · refine ⟨_, .zero, .zero ?_⟩
      cases z
      · exact absurd h1.2 ((hz rfl).1 _ h1.1)
      · rfl
    · exact ⟨_, .const, .const⟩
    · exact ⟨_, .dense, .dense⟩
  | zero => exact ⟨_, .zero, .am rfl⟩
  | dense => exact ⟨_, .dense, .am rfl⟩
  | diag => exact ⟨_, .diag, .am rfl⟩
  | const => exact ⟨_, .const, .am rfl⟩
  | lt => exact ⟨_, .lt, .am rfl⟩
  | ut => exact ⟨_, .ut, .am rfl⟩
  | lr h1 h2 h3 => exact ⟨_, .lr h1 h2 h3, .am rfl⟩
  | wb h1 h2 h3 => exact ⟨_, .wb h1 h2 h3, .am rfl⟩
  | kron h1 h2 => exact ⟨_, .kron h1 h2, .am rfl⟩
  | tiled h => exact ⟨_, .tiled h, .am rfl⟩

theorem Lab.kind {a : Mat K} {s : DM D} (h : Lab a s) : s.kind = a.kind := by cases h <;> rfl

theorem constToLR_lab {t : Tensor K} {i j : ℕ} {x : Mat K} (p : D → D → D) (d : D) (h : constToLR t i j = .ok x) : Lab x (DM.constLR p d) := by
  simp only [constToLR, bind_ok_iff, fillDiag] at h
  obtain ⟨m, ⟨_, _, h1⟩, h2⟩ := h
  exact mkLR_lab h2 .num .num (mkDiag_lab h1 _)

theorem wrapLike_lab {a : Mat K} {s : DM D} {t : Tensor K} (h : Lab a s) (d : D) : Lab (wrapLike a t) (s.like d) := by
  cases h <;> constructor

/-! ### Every run is covered -/

/-- Every result of the functions of `B` is the result of a run. -/
structure Cov (p : D → D → D) (z : Bool) (B : Ops K) : Prop where
  dense {a t s} : Lab a s → s.Ok → B.dense a = .ok t → ∃ d, Runs p z (.dense s) (.num d)
  diag {a t s} : Lab a s → s.Ok → B.diag a = .ok t → ∃ d, Runs p z (.diag s) (.num d)
  sum {k a t s} : Lab a s → s.Ok → B.sumM k a = .ok t → ∃ d, Runs p z (.sum s) (.num d)
  add {a b r s s'} : Lab a s → Lab b s' → s.Ok → s'.Ok → B.add a b = .ok r → ∃ x, Lab r x ∧ Runs p z (.add s s') x
  mul {a b r s s'} : Lab a s → Lab b s' → s.Ok → s'.Ok → B.mul a b = .ok r → ∃ x, Lab r x ∧ Runs p z (.mul s s') x
  matmul {ta tb a b r s s'} : Lab a s → Lab b s' → s.Ok → s'.Ok → B.matmul ta tb a b = .ok r → ∃ x, Lab r x ∧ Runs p z (.matmul ta tb s s') x

variable {p : D → D → D} {z : Bool} {B : Ops K}

theorem Cov.mm3 (H : Cov p z B) {ta tb tc : Bool} {a b c r : Mat K} {s s' s'' : DM D} (ha : Lab a s) (hb : Lab b s') (hc : Lab c s'') (oa : s.Ok) (ob : s'.Ok) (oc : s''.Ok)
    (h : matmul3 B ta tb tc a b c = .ok r) : ∃ x, Lab r x ∧ Runs p z (.matmul3 ta tb tc s s' s'') x := by
  simp only [matmul3, bind_ok_iff] at h
  obtain ⟨_, _, _, _, _, _, h⟩ := h
  split_ifs at h
  · obtain ⟨ab, h1, h2⟩ := bind_ok_iff.1 h
    obtain ⟨x, l1, r1⟩ := H.matmul ha hb oa ob h1
    obtain ⟨y, l2, r2⟩ := H.matmul l1 hc (r1.ok ⟨oa, ob⟩) oc h2
    exact ⟨y, l2, .mm3_left r1 r2⟩
  · obtain ⟨bc, h1, h2⟩ := bind_ok_iff.1 h
    obtain ⟨x, l1, r1⟩ := H.matmul hb hc ob oc h1
    obtain ⟨y, l2, r2⟩ := H.matmul ha l1 oa (r1.ok ⟨ob, oc⟩) h2
    exact ⟨y, l2, .mm3_right r1 r2⟩

theorem Cov.stepDense (H : Cov p z B) {a : Mat K} {t : Tensor K} {s : DM D} (ha : Lab a s) (o : s.Ok) (h : stepDense B a = .ok t) : ∃ d, Runs p z (.dense s) (.num d) := by
  cases ha with
  | num => exact ⟨_, .dense_num⟩
  | zero => exact ⟨_, .dense_zero⟩
  | dense => exact ⟨_, .dense_dense⟩
  | diag => exact ⟨_, .dense_diag⟩
  | const => exact ⟨_, .dense_const⟩
  | lt => exact ⟨_, .dense_lt⟩
  | ut => exact ⟨_, .dense_ut⟩
  | lr hl hr hm =>
    simp only [Verif.stepDense, bind_ok_iff] at h
    obtain ⟨x, h1, h2⟩ := h
    obtain ⟨y, l1, r1⟩ := H.mm3 hl hm hr o.1 o.2.2 o.2.1 h1
    obtain ⟨d, r2⟩ := H.dense l1 (r1.ok ⟨o.1, o.2.2, o.2.1⟩) h2
    exact ⟨d, .dense_lr r1 r2⟩
  | wb hl hr hm =>
    simp only [Verif.stepDense, bind_ok_iff] at h
    obtain ⟨x, h1, y, h2, _⟩ := h
    obtain ⟨d, r1⟩ := H.dense (.diag) trivial h1
    obtain ⟨e, r2⟩ := H.dense (.lr hl hr hm) o h2
    exact ⟨_, .dense_wb r1 r2⟩
  | kron hl hr =>
    simp only [Verif.stepDense, bind_ok_iff] at h
    obtain ⟨lr, h0, x, h1, y, h2, _⟩ := h
    obtain ⟨l1, l2⟩ := alignBatch2_lab hl hr h0
    obtain ⟨d, r1⟩ := H.dense l1 o.1 h1
    obtain ⟨e, r2⟩ := H.dense l2 o.2 h2
    exact ⟨_, .dense_kron r1 r2⟩
  | @tiled n blk blk' reps axis hb =>
    simp only [Verif.stepDense, denseTiled, bind_ok_iff] at h
    obtain ⟨_, _, _, _, parts, h1, _⟩ := h
    have : ∀ i, ∃ d, Runs p z (.dense (blk' i)) (.num d) := by
      intro i
      have := seqFin_ok.1 h1 i
      simp only [bind_ok_iff] at this
      obtain ⟨_, _, x, hx, d, hd, _⟩ := this
      exact H.dense (broadcastBatchTo_lab (hb i) hx) (o.2 i) hd
    choose ds hd using this
    obtain ⟨m, rfl⟩ := Nat.exists_eq_succ_of_ne_zero o.1
    exact ⟨_, .dense_tiled hd (by rw [List.ofFn_succ]; rfl)⟩

theorem Cov.stepDiag (H : Cov p z B) {a : Mat K} {t : Tensor K} {s : DM D} (ha : Lab a s) (o : s.Ok) (h : stepDiag B a = .ok t) : ∃ d, Runs p z (.diag s) (.num d) := by
  cases ha with
  | num => exact ⟨_, .diag_num⟩
  | zero => exact ⟨_, .diag_zero⟩
  | dense => exact ⟨_, .diag_dense⟩
  | diag => exact ⟨_, .diag_diag⟩
  | const => exact ⟨_, .diag_const⟩
  | lt => exact ⟨_, .diag_lt⟩
  | ut => exact ⟨_, .diag_ut⟩
  | lr hl hr hm =>
    simp only [Verif.stepDiag, diagLR, bind_ok_iff] at h
    obtain ⟨_, _, x, h1, y, h2, w, h3, _⟩ := h
    obtain ⟨_, l1, r1⟩ := H.matmul hl hm o.1 o.2.2 h1
    obtain ⟨d, r2⟩ := H.dense l1 (r1.ok ⟨o.1, o.2.2⟩) h2
    obtain ⟨e, r3⟩ := H.dense hr o.2.1 h3
    exact ⟨_, .diag_lr r1 r2 r3⟩
  | wb hl hr hm =>
    simp only [Verif.stepDiag, bind_ok_iff] at h
    obtain ⟨x, h1, y, h2, _⟩ := h
    obtain ⟨d, r1⟩ := H.diag (.diag) trivial h1
    obtain ⟨e, r2⟩ := H.diag (.lr hl hr hm) o h2
    exact ⟨_, .diag_wb r1 r2⟩
  | kron hl hr =>
    simp only [Verif.stepDiag, bind_ok_iff] at h
    obtain ⟨lr, h0, x, h1, y, h2, _⟩ := h
    obtain ⟨l1, l2⟩ := alignBatch2_lab hl hr h0
    obtain ⟨d, r1⟩ := H.diag l1 o.1 h1
    obtain ⟨e, r2⟩ := H.diag l2 o.2 h2
    exact ⟨_, .diag_kron r1 r2⟩
  | tiled => cases h

theorem Cov.stepSum (H : Cov p z B) {k : ℕ} {a : Mat K} {t : Tensor K} {s : DM D} (ha : Lab a s) (o : s.Ok) (h : stepSumM B k a = .ok t) : ∃ d, Runs p z (.sum s) (.num d) := by
  cases ha with
  | num => exact ⟨_, .sum_num⟩
  | zero => exact ⟨_, .sum_zero⟩
  | dense => exact ⟨_, .sum_dense⟩
  | diag => exact ⟨_, .sum_diag⟩
  | const => exact ⟨_, .sum_const⟩
  | lt => exact ⟨_, .sum_lt⟩
  | ut => exact ⟨_, .sum_ut⟩
  | lr hl hr hm =>
    simp only [Verif.stepSumM, sumLR] at h
    split_ifs at h
    · simp only [bind_ok_iff] at h
      obtain ⟨_, h1, _, h2, _, h3, h4⟩ := h
      obtain ⟨d, r1⟩ := H.sum hl o.1 h1
      obtain ⟨x, l2, r2⟩ := H.matmul hr hm o.2.1 o.2.2 h2
      obtain ⟨y, l3, r3⟩ := H.mul (.num (d := d)) l2 trivial (r2.ok ⟨o.2.1, o.2.2⟩) h3
      obtain ⟨e, r4⟩ := H.sum l3 (r3.ok ⟨trivial, r2.ok ⟨o.2.1, o.2.2⟩⟩) h4
      exact ⟨_, .sum_lr1 r1 r2 r3 r4⟩
    · simp only [bind_ok_iff] at h
      obtain ⟨_, h1, _, h2, _, h3, h4⟩ := h
      obtain ⟨x, l1, r1⟩ := H.matmul hl hm o.1 o.2.2 h1
      obtain ⟨d, r2⟩ := H.sum hr o.2.1 h2
      obtain ⟨y, l3, r3⟩ := H.mul l1 (.num (d := d)) (r1.ok ⟨o.1, o.2.2⟩) trivial h3
      obtain ⟨e, r4⟩ := H.sum l3 (r3.ok ⟨r1.ok ⟨o.1, o.2.2⟩, trivial⟩) h4
      exact ⟨_, .sum_lr0 r1 r2 r3 r4⟩
  | wb hl hr hm =>
    simp only [Verif.stepSumM, bind_ok_iff] at h
    obtain ⟨x, h1, y, h2, _⟩ := h
    obtain ⟨d, r1⟩ := H.sum (.diag) trivial h1
    obtain ⟨e, r2⟩ := H.sum (.lr hl hr hm) o h2
    exact ⟨_, .sum_wb r1 r2⟩
  | kron hl hr =>
    simp only [Verif.stepSumM, sumKron, bind_ok_iff] at h
    obtain ⟨x, h1, y, h2, _⟩ := h
    obtain ⟨d, r1⟩ := H.sum hl o.1 h1
    obtain ⟨e, r2⟩ := H.sum hr o.2 h2
    exact ⟨_, .sum_kron r1 r2⟩
  | tiled => cases h

theorem Cov.bcast (H : Cov p z B) {a x : Mat K} {S : Shp} {s : DM D} (ha : Lab a s) (o : s.Ok) (h : broadcastTo B a S = .ok x) : ∃ y, Lab x y ∧ Runs p z (.bcast s) y := by
  simp only [broadcastTo, bind_ok_iff] at h
  obtain ⟨sa, _, h⟩ := h
  by_cases h0 : sa = S
  · rw [if_pos h0] at h
    cases h
    exact ⟨s, ha, .bcast_same⟩
  · rw [if_neg h0] at h
    split at h
    · obtain ⟨_, _, h⟩ := bind_ok_iff.1 h
      cases ha
      exact ⟨_, mkZero_lab h _, .bcast_same⟩
    · obtain ⟨_, _, h⟩ := bind_ok_iff.1 h
      cases ha
      exact ⟨_, mkConst_lab h _, .bcast_same⟩
    · rename_i n1 n2
      by_cases h1 : sa.take 2 = S.take 2
      · rw [if_pos h1] at h
        exact ⟨s, broadcastBatchTo_lab ha h, .bcast_same⟩
      · rw [if_neg h1] at h
        simp only [bind_ok_iff, pure_eq_ok] at h
        obtain ⟨t, h2, _, _, rfl⟩ := h
        obtain ⟨d, r⟩ := H.dense ha o h2
        refine ⟨_, .dense, .bcast_dense ?_ ?_ r⟩
        · rw [ha.kind]
          cases a <;> simp [Mat.kind] at n1 ⊢
        · rw [ha.kind]
          cases a <;> simp [Mat.kind] at n2 ⊢

theorem Lab.like {a : Mat K} {s e : DM D} {t : Tensor K} (h : Lab (wrapLike a t) e) : ∃ d, e = .num d ∨ e = .dense d := by
  unfold wrapLike at h
  split_ifs at h
  · cases h; exact ⟨_, .inr rfl⟩
  · cases h; exact ⟨_, .inl rfl⟩

theorem wrapLike_wrapLike (a : Mat K) (t u : Tensor K) : wrapLike (wrapLike a t) u = wrapLike a u := by
  cases a <;> rfl

theorem padZeroCol_eq {a x : Mat K} (h : padZeroCol B a = .ok x) : ∃ t d, B.dense a = .ok d ∧ x = wrapLike a t := by
  simp only [padZeroCol, bind_ok_iff, pure_eq_ok] at h
  obtain ⟨_, _, d, hd, t, _, rfl⟩ := h
  exact ⟨t, d, hd, rfl⟩

theorem padZeroRow_eq {a x : Mat K} (h : padZeroRow B a = .ok x) : ∃ t d, B.dense a = .ok d ∧ x = wrapLike a t := by
  simp only [padZeroRow, bind_ok_iff, pure_eq_ok] at h
  obtain ⟨_, _, d, hd, t, _, rfl⟩ := h
  exact ⟨t, d, hd, rfl⟩

theorem takeGen_eq {a x : Mat K} {i : List Int} {k : Int} (h : takeGen B a i k = .ok x) : ∃ t, x = wrapLike a t := by
  simp only [takeGen, bind_ok_iff, pure_eq_ok] at h
  obtain ⟨d, hd, t, _, rfl⟩ := h
  exact ⟨t, rfl⟩

theorem Cov.padCol (H : Cov p z B) {a x y : Mat K} {s : DM D} {i : List Int} {k : Int} (ha : Lab a s) (o : s.Ok) (h : padZeroCol B a = .ok x) (h' : takeGen B x i k = .ok y) :
    ∃ w, Lab y w ∧ Runs p z (.pad s) w := by
  obtain ⟨t, d, h1, rfl⟩ := padZeroCol_eq h
  obtain ⟨u, rfl⟩ := takeGen_eq h'
  rw [wrapLike_wrapLike]
  obtain ⟨e, r⟩ := H.dense ha o h1
  obtain ⟨f, hf⟩ := o.dt p
  exact ⟨_, wrapLike_lab ha _, .pad_one r hf⟩

theorem Cov.padBoth (H : Cov p z B) {a v w x y : Mat K} {s : DM D} {i i' : List Int} {k k' : Int} (ha : Lab a s) (o : s.Ok) (h : padZeroRow B a = .ok v) (h' : padZeroCol B v = .ok w)
    (h1 : takeGen B w i k = .ok x) (h2 : takeGen B x i' k' = .ok y) : ∃ y', Lab y y' ∧ Runs p z (.pad s) y' := by
  obtain ⟨t, d, hd, rfl⟩ := padZeroRow_eq h
  obtain ⟨_, _, _, rfl⟩ := padZeroCol_eq h'
  obtain ⟨_, rfl⟩ := takeGen_eq h1
  obtain ⟨_, rfl⟩ := takeGen_eq h2
  rw [wrapLike_wrapLike, wrapLike_wrapLike, wrapLike_wrapLike]
  obtain ⟨e, r⟩ := H.dense ha o hd
  obtain ⟨f, hf⟩ := o.dt p
  exact ⟨_, wrapLike_lab ha _, .pad_both r hf⟩

theorem Cov.addLRLR {env : Env K} (hz : env.Zeros z) (H : Cov p z B) {al ar am bl br bm r : Mat K} {al' ar' am' bl' br' bm' : DM D} (h1 : Lab al al') (h2 : Lab ar ar') (h3 : Lab am am') (h4 : Lab bl bl') (h5 : Lab br br') (h6 : Lab bm bm')
    (o1 : al'.Ok) (o2 : ar'.Ok) (o3 : am'.Ok) (o4 : bl'.Ok) (o5 : br'.Ok) (o6 : bm'.Ok) (h : addLRLR env B al ar am bl br bm = .ok r) :
    ∃ x, Lab r x ∧ Runs p z (.addAM (.lr al' ar' am') (.lr bl' br' bm')) x := by
  simp only [Verif.addLRLR, bind_ok_iff] at h
  obtain ⟨_, _, _, _, _, _, _, _, _, _, L, _, _, _, _, _, R, _, p1, hp1, q1, hq1, p2, hp2, q2, hq2, jl, hjl, p3, hp3, q3, hq3, p4, hp4, q4, hq4, jr, hjr,
    p5, hp5, p5', hp5', q5, hq5, q5', hq5', p6, hp6, p6', hp6', q6, hq6, q6', hq6', jm, hjm, lr, hlr, _, _, b, _, h⟩ := h
  obtain ⟨x1, l1, r1⟩ := H.padCol h1 o1 hp1 hq1
  obtain ⟨x2, l2, r2⟩ := H.padCol h4 o4 hp2 hq2
  have k1 := r1.ok o1
  have k2 := r2.ok o4
  obtain ⟨x3, l3, r3⟩ := H.add l1 l2 k1 k2 hjl
  obtain ⟨x4, l4, r4⟩ := H.padCol h2 o2 hp3 hq3
  obtain ⟨x5, l5, r5⟩ := H.padCol h5 o5 hp4 hq4
  have k4 := r4.ok o2
  have k5 := r5.ok o5
  obtain ⟨x6, l6, r6⟩ := H.add l4 l5 k4 k5 hjr
  obtain ⟨x7, l7, r7⟩ := H.padBoth h3 o3 hp5 hp5' hq5 hq5'
  obtain ⟨x8, l8, r8⟩ := H.padBoth h6 o6 hp6 hp6' hq6 hq6'
  have k7 := r7.ok o3
  have k8 := r8.ok o6
  obtain ⟨x9, l9, r9⟩ := H.add l7 l8 k7 k8 hjm
  split_ifs at h with h0
  · have hz1 : z = true := by
      cases z
      · subst h0
        exact absurd ‹env.isZero _ = Except.ok true› ((hz rfl).2 _)
      · rfl
    obtain ⟨_, _, h⟩ := bind_ok_iff.1 h
    obtain ⟨d, hd⟩ := DM.Ok.dt (a := .lr x3 x6 x9) ⟨r3.ok ⟨k1, k2⟩, r6.ok ⟨k4, k5⟩, r9.ok ⟨k7, k8⟩⟩ p
    exact ⟨_, mkZero_lab h d, .add_lrLr_zero hz1 r1 r2 r3 r4 r5 r6 r7 r8 r9 hd⟩
  · cases h
    exact ⟨_, mkLR_lab hlr l3 l6 l9, .add_lrLr r1 r2 r3 r4 r5 r6 r7 r8 r9⟩

theorem Cov.addRun {env : Env K} (hz : env.Zeros z) (H : Cov p z B) {a b r : Mat K} {s s' : DM D} {ka kb : Kind} (ha : Lab a s) (hb : Lab b s') (oa : s.Ok) (ob : s'.Ok)
    (hka : a.kind = some ka) (hkb : b.kind = some kb) (h : addRun env B (addId ka kb) a b = .ok r) : ∃ x, Lab r x ∧ Runs p z (.addAM s s') x := by
  have ea : s.kind = some ka := ha.kind.trans hka
  have eb : s'.kind = some kb := hb.kind.trans hkb
  generalize hm : addId ka kb = m at h
  unfold Verif.addRun at h
  split at h
  · simp only [bind_ok_iff] at h
    obtain ⟨_, _, _, _, _, _, h⟩ := h
    split at h
    · obtain ⟨_, _, h⟩ := bind_ok_iff.1 h
      cases hb
      obtain ⟨y, l, r⟩ := H.bcast ha oa h
      exact ⟨y, l, .add_amZero r⟩
    · cases h
  · simp only [bind_ok_iff] at h
    obtain ⟨_, _, _, _, _, _, h⟩ := h
    split at h
    · obtain ⟨_, _, h⟩ := bind_ok_iff.1 h
      cases ha
      obtain ⟨y, l, r⟩ := H.bcast hb ob h
      exact ⟨y, l, .add_zeroAm r⟩
    · cases h
  · simp only [bind_ok_iff, pure_eq_ok] at h
    obtain ⟨_, h1, _, h2, _, _, rfl⟩ := h
    obtain ⟨d, r1⟩ := H.dense ha oa h1
    obtain ⟨e, r2⟩ := H.dense hb ob h2
    exact ⟨_, .dense, .add_amAm ea eb hm r1 r2⟩
  · simp only [bind_ok_iff, pure_eq_ok] at h
    obtain ⟨_, _, rfl⟩ := h
    cases ha; cases hb
    exact ⟨_, .dense, .add_denseDense⟩
  · simp only [bind_ok_iff] at h
    obtain ⟨_, _, h⟩ := h
    cases ha; cases hb
    exact ⟨_, mkDiag_lab h _, .add_diagDiag⟩
  · simp only [bind_ok_iff] at h
    obtain ⟨_, _, _, _, _, _, h⟩ := h
    cases ha; cases hb
    exact ⟨_, mkConst_lab h _, .add_constConst⟩
  · simp only [bind_ok_iff, pure_eq_ok] at h
    obtain ⟨_, h1, _, _, _, _, _, _, rfl⟩ := h
    cases ha
    cases hka
    obtain ⟨e, r2⟩ := H.dense hb ob h1
    exact ⟨_, .dense, .add_constAm eb hm r2⟩
  · simp only [bind_ok_iff] at h
    obtain ⟨_, _, _, _, _, _, rc, _, lr, h1, h⟩ := h
    cases ha; cases hb
    rename_i d1 d2
    obtain ⟨x, l, r⟩ := H.add (constToLR_lab p d1 h1) (.diag (d := d2)) ⟨trivial, trivial, trivial⟩ trivial h
    exact ⟨x, l, .add_constDiag r⟩
  · obtain ⟨x, l, r⟩ := H.add hb ha ob oa h
    exact ⟨x, l, .add_swap ea eb hm r⟩
  · simp only [bind_ok_iff] at h
    obtain ⟨_, _, h⟩ := h
    cases ha; cases hb
    exact ⟨_, mkLT_lab h _, .add_ltLt⟩
  · simp only [bind_ok_iff] at h
    obtain ⟨_, h1, _, _, h⟩ := h
    cases ha
    obtain ⟨d, r⟩ := H.dense hb ob h1
    cases hb
    exact ⟨_, mkLT_lab h _, .add_ltDiag r⟩
  · simp only [bind_ok_iff] at h
    obtain ⟨_, _, h⟩ := h
    cases ha; cases hb
    exact ⟨_, mkUT_lab h _, .add_utUt⟩
  · simp only [bind_ok_iff, pure_eq_ok] at h
    obtain ⟨_, _, rfl⟩ := h
    cases ha; cases hb
    exact ⟨_, .dense, .add_utLt⟩
  · simp only [bind_ok_iff] at h
    obtain ⟨_, h1, _, _, h⟩ := h
    cases ha
    obtain ⟨d, r⟩ := H.dense hb ob h1
    cases hb
    exact ⟨_, mkUT_lab h _, .add_utDiag r⟩
  · cases ha with
    | lr h1 h2 h3 =>
      cases hb with
      | lr h4 h5 h6 => exact addLRLR hz H h1 h2 h3 h4 h5 h6 oa.1 oa.2.1 oa.2.2 ob.1 ob.2.1 ob.2.2 h
  · simp only [bind_ok_iff] at h
    obtain ⟨_, _, lr, h1, h⟩ := h
    cases hb
    rename_i d
    obtain ⟨x, l, r⟩ := H.add ha (constToLR_lab p d h1) oa ⟨trivial, trivial, trivial⟩ h
    cases ha
    exact ⟨x, l, .add_lrConst r⟩
  · cases hb
    cases ha with
    | lr h1 h2 h3 => exact ⟨_, mkWB_lab h h1 h2 h3 _, .add_lrDiag⟩
  · cases ha
    cases hb with
    | lr h1 h2 h3 => exact ⟨_, mkWB_lab h h1 h2 h3 _, .add_diagLr⟩
  · simp only [bind_ok_iff] at h
    obtain ⟨x, hx, y, hy, h⟩ := h
    cases ha with
    | @wb _ _ _ _ d1 _ _ _ h1 h2 h3 =>
      cases hb with
      | @wb _ _ _ _ d2 _ _ _ h4 h5 h6 =>
        obtain ⟨w1, l1, r1⟩ := H.add (.diag (d := d1)) (.diag (d := d2)) trivial trivial hx
        obtain ⟨w2, l2, r2⟩ := H.add (.lr h1 h2 h3) (.lr h4 h5 h6) oa ob hy
        obtain ⟨w3, l3, r3⟩ := H.add l1 l2 (r1.ok ⟨trivial, trivial⟩) (r2.ok ⟨oa, ob⟩) h
        exact ⟨_, l3, .add_wbWb r1 r2 r3⟩
  · simp only [bind_ok_iff] at h
    obtain ⟨x, hx, h⟩ := h
    cases hb
    rename_i d2
    cases ha with
    | @wb _ _ _ _ d1 _ _ _ h1 h2 h3 =>
      obtain ⟨w1, l1, r1⟩ := H.add (.diag (d := d1)) (.diag (d := d2)) trivial trivial hx
      obtain ⟨w3, l3, r3⟩ := H.add l1 (.lr h1 h2 h3) (r1.ok ⟨trivial, trivial⟩) oa h
      exact ⟨_, l3, .add_wbDiag r1 r3⟩
  · simp only [bind_ok_iff] at h
    obtain ⟨x, hx, h⟩ := h
    cases hka
    cases ha with
    | @wb _ _ _ _ d1 _ _ _ h1 h2 h3 =>
      obtain ⟨w1, l1, r1⟩ := H.add (.lr h1 h2 h3) hb oa ob hx
      obtain ⟨w3, l3, r3⟩ := H.add (.diag (d := d1)) l1 trivial (r1.ok ⟨oa, ob⟩) h
      exact ⟨_, l3, .add_wbAny eb hm r1 r3⟩
  · cases h

theorem Cov.stepAdd {env : Env K} (hz : env.Zeros z) (H : Cov p z B) {a b r : Mat K} {s s' : DM D} (ha : Lab a s) (hb : Lab b s') (oa : s.Ok) (ob : s'.Ok)
    (h : stepAdd env B a b = .ok r) : ∃ x, Lab r x ∧ Runs p z (.add s s') x := by
  unfold Verif.stepAdd at h
  split at h
  · simp only [bind_ok_iff, pure_eq_ok] at h
    obtain ⟨_, _, rfl⟩ := h
    cases ha; cases hb
    exact ⟨_, .num, .add_num⟩
  · rename_i hne
    obtain ⟨sa, la, ca⟩ := convertAM_lab (env := env) hz ha
    obtain ⟨sb, lb, cb⟩ := convertAM_lab (env := env) hz hb
    dsimp only at h
    split at h
    · rename_i ka kb hka hkb
      obtain ⟨x, l, r⟩ := addRun hz H la lb (ca.ok oa) (cb.ok ob) hka hkb h
      have : ∃ k, s.kind = some k ∨ s'.kind = some k := by
        cases ha <;> first
          | exact ⟨_, .inl rfl⟩
          | (cases hb <;> first
            | exact ⟨_, .inr rfl⟩
            | exact (hne _ _ rfl rfl).elim)
      obtain ⟨k, hk⟩ := this
      exact ⟨x, l, .add_am hk ca cb r⟩
    · cases h

theorem Cov.mulRun (H : Cov p z B) {a b r : Mat K} {s s' : DM D} {ka kb : Kind} (ha : Lab a s) (hb : Lab b s') (oa : s.Ok) (ob : s'.Ok)
    (hka : a.kind = some ka) (hkb : b.kind = some kb) (h : mulRun B (mulId ka kb) a b = .ok r) : ∃ x, Lab r x ∧ Runs p z (.mulAM s s') x := by
  have ea : s.kind = some ka := ha.kind.trans hka
  have eb : s'.kind = some kb := hb.kind.trans hkb
  generalize hm : mulId ka kb = m at h
  unfold Verif.mulRun at h
  split at h
  · simp only [bind_ok_iff] at h
    obtain ⟨_, _, _, _, _, _, h⟩ := h
    split at h
    · obtain ⟨_, _, h⟩ := bind_ok_iff.1 h
      obtain ⟨y, l, r⟩ := H.bcast hb ob h
      cases hb
      exact ⟨y, l, .mul_amZero r⟩
    · cases h
  · simp only [bind_ok_iff] at h
    obtain ⟨_, _, _, _, _, _, h⟩ := h
    split at h
    · obtain ⟨_, _, h⟩ := bind_ok_iff.1 h
      obtain ⟨y, l, r⟩ := H.bcast ha oa h
      cases ha
      exact ⟨y, l, .mul_zeroAm r⟩
    · cases h
  · simp only [bind_ok_iff, pure_eq_ok] at h
    obtain ⟨_, h1, _, h2, _, _, rfl⟩ := h
    obtain ⟨d, r1⟩ := H.dense ha oa h1
    obtain ⟨e, r2⟩ := H.dense hb ob h2
    exact ⟨_, .dense, .mul_amAm ea eb hm r1 r2⟩
  · simp only [bind_ok_iff, pure_eq_ok] at h
    obtain ⟨_, _, rfl⟩ := h
    cases ha; cases hb
    exact ⟨_, .dense, .mul_denseDense⟩
  · simp only [bind_ok_iff] at h
    obtain ⟨_, _, h⟩ := h
    cases ha; cases hb
    exact ⟨_, mkDiag_lab h _, .mul_diagDiag⟩
  · simp only [mulDiagAm, bind_ok_iff] at h
    obtain ⟨_, _, _, _, _, _, rc, _, h⟩ := h
    cases ha
    cases hka
    by_cases c1 : rc.1 = 1
    · simp only [if_pos c1, bind_ok_iff] at h
      obtain ⟨_, h1, _, _, _, _, h⟩ := h
      obtain ⟨d, r⟩ := H.dense hb ob h1
      exact ⟨_, mkDiag_lab h _, .mul_diagAm_dense eb hm r⟩
    · by_cases c2 : rc.2 = 1
      · simp only [if_neg c1, if_pos c2, bind_ok_iff] at h
        obtain ⟨_, h1, _, _, _, _, h⟩ := h
        obtain ⟨d, r⟩ := H.dense hb ob h1
        exact ⟨_, mkDiag_lab h _, .mul_diagAm_dense eb hm r⟩
      · simp only [if_neg c1, if_neg c2, bind_ok_iff] at h
        obtain ⟨_, h1, _, _, h⟩ := h
        obtain ⟨d, r⟩ := H.diag hb ob h1
        exact ⟨_, mkDiag_lab h _, .mul_diagAm_diag eb hm r⟩
  · obtain ⟨x, l, r⟩ := H.mul hb ha ob oa h
    exact ⟨x, l, .mul_swap ea eb hm r⟩
  · simp only [bind_ok_iff] at h
    obtain ⟨_, _, _, _, _, _, h⟩ := h
    cases ha; cases hb
    exact ⟨_, mkConst_lab h _, .mul_constConst⟩
  · simp only [bind_ok_iff, pure_eq_ok] at h
    obtain ⟨_, _, _, _, _, _, _, h1, _, _, _, _, _, _, rfl⟩ := h
    cases ha
    cases hka
    obtain ⟨e, r2⟩ := H.dense hb ob h1
    exact ⟨_, .dense, .mul_constAm eb hm r2⟩
  · simp only [bind_ok_iff] at h
    obtain ⟨_, _, _, _, _, _, _, _, h⟩ := h
    cases ha; cases hb
    exact ⟨_, mkDiag_lab h _, .mul_constDiag⟩
  · simp only [bind_ok_iff] at h
    obtain ⟨_, _, h⟩ := h
    cases ha; cases hb
    exact ⟨_, mkLT_lab h _, .mul_ltLt⟩
  · simp only [bind_ok_iff] at h
    obtain ⟨_, h1, _, _, h⟩ := h
    cases ha
    cases hka
    obtain ⟨d, r⟩ := H.dense hb ob h1
    exact ⟨_, mkLT_lab h _, .mul_ltAm eb hm r⟩
  · simp only [bind_ok_iff] at h
    obtain ⟨_, _, h⟩ := h
    cases ha; cases hb
    exact ⟨_, mkLT_lab h _, .mul_ltConst⟩
  · simp only [bind_ok_iff] at h
    obtain ⟨_, _, h⟩ := h
    cases ha; cases hb
    exact ⟨_, mkUT_lab h _, .mul_utUt⟩
  · simp only [bind_ok_iff] at h
    obtain ⟨_, h1, _, h2, _, _, h⟩ := h
    obtain ⟨d, r1⟩ := H.diag ha oa h1
    obtain ⟨e, r2⟩ := H.diag hb ob h2
    cases ha; cases hb
    exact ⟨_, mkDiag_lab h _, .mul_utLt r1 r2⟩
  · simp only [bind_ok_iff] at h
    obtain ⟨_, h1, _, _, h⟩ := h
    cases ha
    cases hka
    obtain ⟨d, r⟩ := H.dense hb ob h1
    exact ⟨_, mkUT_lab h _, .mul_utAm eb hm r⟩
  · simp only [bind_ok_iff] at h
    obtain ⟨_, _, h⟩ := h
    cases ha; cases hb
    exact ⟨_, mkUT_lab h _, .mul_utConst⟩
  · simp only [mulLRLR, bind_ok_iff] at h
    obtain ⟨_, _, _, _, _, _, _, h1, _, h2, _, h3, _, h4, _, h5, _, h6, _, _, _, _, _, _, _, _, _, _, _, _, _, _, _, _, _, _, _, _, _, _, f, _, h⟩ := h
    cases ha with
    | lr l1 l2 l3 =>
      cases hb with
      | lr l4 l5 l6 =>
        obtain ⟨_, r1⟩ := H.dense l1 oa.1 h1
        obtain ⟨_, r2⟩ := H.dense l3 oa.2.2 h2
        obtain ⟨_, r3⟩ := H.dense l2 oa.2.1 h3
        obtain ⟨_, r4⟩ := H.dense l4 ob.1 h4
        obtain ⟨_, r5⟩ := H.dense l6 ob.2.2 h5
        obtain ⟨_, r6⟩ := H.dense l5 ob.2.1 h6
        exact ⟨_, mkLR_lab h .num .num .num, .mul_lrLr r1 r4 r3 r6 r2 r5⟩
  · simp only [bind_ok_iff] at h
    obtain ⟨_, _, _, _, _, _, m', h1, h⟩ := h
    cases ha
    rename_i d
    cases hb with
    | lr l1 l2 l3 =>
      obtain ⟨x, l, r⟩ := H.mul (.num (d := d)) l3 trivial ob.2.2 h1
      exact ⟨_, mkLR_lab h l1 l2 l, .mul_constLr r⟩
  · simp only [bind_ok_iff] at h
    obtain ⟨x, hx, y, hy, h⟩ := h
    cases hka
    cases ha with
    | @wb _ _ _ _ d1 _ _ _ h1 h2 h3 =>
      obtain ⟨w1, l1, r1⟩ := H.mul (.diag (d := d1)) hb trivial ob hx
      obtain ⟨w2, l2, r2⟩ := H.mul (.lr h1 h2 h3) hb oa ob hy
      obtain ⟨w3, l3, r3⟩ := H.add l1 l2 (r1.ok ⟨trivial, ob⟩) (r2.ok ⟨oa, ob⟩) h
      exact ⟨_, l3, .mul_wbAm eb hm r1 r2 r3⟩
  · simp only [bind_ok_iff, pure_eq_ok] at h
    obtain ⟨_, _, _, _, _, _, _, _, _, _, x, hx, y, hy, rfl⟩ := h
    cases ha with
    | kron l1 l2 =>
      cases hb with
      | kron l3 l4 =>
        obtain ⟨_, k1, r1⟩ := H.mul l1 l3 oa.1 ob.1 hx
        obtain ⟨_, k2, r2⟩ := H.mul l2 l4 oa.2 ob.2 hy
        exact ⟨_, .kron k1 k2, .mul_kronKron r1 r2⟩
  · simp only [bind_ok_iff, pure_eq_ok] at h
    obtain ⟨_, _, _, _, _, _, x, hx, rfl⟩ := h
    cases ha
    rename_i d
    cases hb with
    | kron l3 l4 =>
      obtain ⟨_, k1, r1⟩ := H.mul (.num (d := d)) l3 trivial ob.1 hx
      exact ⟨_, .kron k1 l4, .mul_constKron r1⟩
  · cases h

theorem Cov.stepMul {env : Env K} (hz : env.Zeros z) (H : Cov p z B) {a b r : Mat K} {s s' : DM D} (ha : Lab a s) (hb : Lab b s') (oa : s.Ok) (ob : s'.Ok)
    (h : stepMul env B a b = .ok r) : ∃ x, Lab r x ∧ Runs p z (.mul s s') x := by
  unfold Verif.stepMul at h
  split at h
  · simp only [bind_ok_iff, pure_eq_ok] at h
    obtain ⟨_, _, rfl⟩ := h
    cases ha; cases hb
    exact ⟨_, .num, .mul_num⟩
  · rename_i hne
    obtain ⟨sa, la, ca⟩ := convertAM_lab (env := env) hz ha
    obtain ⟨sb, lb, cb⟩ := convertAM_lab (env := env) hz hb
    dsimp only at h
    split at h
    · rename_i ka kb hka hkb
      obtain ⟨x, l, r⟩ := H.mulRun la lb (ca.ok oa) (cb.ok ob) hka hkb h
      have : ∃ k, s.kind = some k ∨ s'.kind = some k := by
        cases ha <;> first
          | exact ⟨_, .inl rfl⟩
          | (cases hb <;> first
            | exact ⟨_, .inr rfl⟩
            | exact (hne _ _ rfl rfl).elim)
      obtain ⟨k, hk⟩ := this
      exact ⟨x, l, .mul_am hk ca cb r⟩
    · cases h

theorem Lab.lrOf {l r m : Mat K} {s : DM D} (h : Lab (.lr l r m) s) : ∃ l' r' m', s = .lr l' r' m' ∧ Lab l l' ∧ Lab r r' ∧ Lab m m' := by
  cases h with
  | lr h1 h2 h3 => exact ⟨_, _, _, rfl, h1, h2, h3⟩

theorem Lab.trLr {a x : Mat K} {s : DM D} {t : Bool} {l r m : Mat K} (h : Lab a s) (hx : trM t a = .ok x) (e : x = .lr l r m) :
    ∃ l' r' m', s.tr' t = .lr l' r' m' ∧ Lab l l' ∧ Lab r r' ∧ Lab m m' := by
  subst e
  exact (trM_lab h hx).lrOf

theorem DM.kind_lr_of_tr' {s : DM D} {t : Bool} {l r m : DM D} (h : s.tr' t = .lr l r m) : s.kind = some .lr := by
  cases t <;> cases s <;> simp_all [DM.tr', DM.tr, DM.kind]

theorem Cov.matmulLRLR (H : Cov p z B) {ta tb : Bool} {a b r : Mat K} {s s' : DM D} (ha : Lab a s) (hb : Lab b s') (oa : s.Ok) (ob : s'.Ok)
    (h : matmulLRLR B ta tb a b = .ok r) : ∃ x, Lab r x ∧ Runs p z (.mmAM ta tb s s') x := by
  simp only [Verif.matmulLRLR, bind_ok_iff] at h
  obtain ⟨_, _, x, hx, y, hy, h⟩ := h
  split at h
  · obtain ⟨al', ar', am', e1, l1, l2, l3⟩ := ha.trLr hx rfl
    obtain ⟨bl', br', bm', e2, l4, l5, l6⟩ := hb.trLr hy rfl
    have oa' := e1 ▸ DM.ok_tr' ta oa
    have ob' := e2 ▸ DM.ok_tr' tb ob
    simp only [bind_ok_iff] at h
    obtain ⟨m1, h1, m2, h2, sm, _, h⟩ := h
    obtain ⟨x1, k1, r1⟩ := H.matmul l2 l4 oa'.2.1 ob'.1 h1
    have ok1 := r1.ok ⟨oa'.2.1, ob'.1⟩
    obtain ⟨x2, k2, r2⟩ := H.mm3 l3 k1 l6 oa'.2.2 ok1 ob'.2.2 h2
    have n1 := DM.kind_lr_of_tr' e1
    have n2 := DM.kind_lr_of_tr' e2
    split_ifs at h
    · simp only [bind_ok_iff] at h
      obtain ⟨d, hd, m', hm', h⟩ := h
      obtain ⟨e, r3⟩ := H.dense k2 (r2.ok ⟨oa'.2.2, ok1, ob'.2.2⟩) hd
      exact ⟨_, mkLR_lab h l1 l5 (mkDiag_lab hm' _), .mm_lrLr_one n1 n2 e1 e2 r1 r2 r3⟩
    · exact ⟨_, mkLR_lab h l1 l5 k2, .mm_lrLr n1 n2 e1 e2 r1 r2⟩
  · cases h

theorem Cov.kronIdAB (H : Cov p z B) {a : Mat K} {b t : Tensor K} {s : DM D} (e : D) (ha : Lab a s) (oa : s.Ok) (h : kronIdAB B a b = .ok t) :
    ∃ x u, Runs p z (.matmul false false s (.num e)) x ∧ Runs p z (.dense x) (.num u) := by
  simp only [Verif.kronIdAB, bind_ok_iff] at h
  obtain ⟨_, _, _, _, x, hx, y, hy, _⟩ := h
  obtain ⟨x', l, r⟩ := H.matmul ha (.num (d := e)) oa trivial hx
  obtain ⟨u, r'⟩ := H.dense l (r.ok ⟨oa, trivial⟩) hy
  exact ⟨x', u, r, r'⟩

theorem Cov.kronAIdB (H : Cov p z B) {a : Mat K} {b t : Tensor K} {s : DM D} (e : D) (ha : Lab a s) (oa : s.Ok) (h : kronAIdB B a b = .ok t) :
    ∃ x u, Runs p z (.matmul false false s (.num e)) x ∧ Runs p z (.dense x) (.num u) := by
  simp only [Verif.kronAIdB, bind_ok_iff] at h
  obtain ⟨_, _, _, _, x, hx, y, hy, _⟩ := h
  obtain ⟨x', l, r⟩ := H.matmul ha (.num (d := e)) oa trivial hx
  obtain ⟨u, r'⟩ := H.dense l (r.ok ⟨oa, trivial⟩) hy
  exact ⟨x', u, r, r'⟩

theorem Cov.mmRun (H : Cov p z B) {ta tb : Bool} {a b r : Mat K} {s s' : DM D} {ka kb : Kind} {m : MmM} (ha : Lab a s) (hb : Lab b s') (oa : s.Ok) (ob : s'.Ok)
    (hka : a.kind = some ka) (hkb : b.kind = some kb) (hm : mmId ka kb = some m) (h : mmRun B m ta tb a b = .ok r) : ∃ x, Lab r x ∧ Runs p z (.mmAM ta tb s s') x := by
  have ea : s.kind = some ka := ha.kind.trans hka
  have eb : s'.kind = some kb := hb.kind.trans hkb
  unfold Verif.mmRun at h
  split at h
  · -- amZero
    simp only [bind_ok_iff, pure_eq_ok] at h
    obtain ⟨_, _, _, _, _, _, _, _, _, _, rfl⟩ := h
    cases hb
    exact ⟨_, .zero, .mm_amZero⟩
  · simp only [bind_ok_iff, pure_eq_ok] at h
    obtain ⟨_, _, _, _, _, _, _, _, _, _, rfl⟩ := h
    cases ha
    exact ⟨_, .zero, .mm_zeroAm⟩
  · simp only [bind_ok_iff, pure_eq_ok] at h
    obtain ⟨_, _, rfl⟩ := h
    cases ha; cases hb
    exact ⟨_, .dense, .mm_denseDense⟩
  · simp only [bind_ok_iff] at h
    obtain ⟨_, _, _, _, h⟩ := h
    cases ha; cases hb
    exact ⟨_, mkDiag_lab h _, .mm_diagDiag⟩
  · -- diagAm
    simp only [bind_ok_iff] at h
    obtain ⟨_, _, b', hb', h⟩ := h
    cases ha
    cases hka
    rename_i d
    obtain ⟨x, l, r⟩ := H.mul (.dense (d := d)) (trM_lab hb hb') trivial (DM.ok_tr' _ ob) h
    exact ⟨x, l, .mm_diagAm eb hm r⟩
  · -- amDiag
    simp only [bind_ok_iff] at h
    obtain ⟨_, _, a', ha', h⟩ := h
    cases hb
    cases hkb
    rename_i d
    obtain ⟨x, l, r⟩ := H.mul (trM_lab ha ha') (.dense (d := d)) (DM.ok_tr' _ oa) trivial h
    exact ⟨x, l, .mm_amDiag ea hm r⟩
  · -- constConst
    simp only [bind_ok_iff, pure_eq_ok] at h
    obtain ⟨_, _, _, _, rfl⟩ := h
    cases ha; cases hb
    exact ⟨_, .const, .mm_constConst⟩
  · -- constAm
    simp only [bind_ok_iff] at h
    obtain ⟨_, _, b', hb', v, hv, w, hw, h⟩ := h
    cases ha
    cases hka
    obtain ⟨d, r⟩ := H.sum (trM_lab hb hb') (DM.ok_tr' _ ob) hv
    simp only [fillDiag, bind_ok_iff] at hw
    obtain ⟨_, _, hw⟩ := hw
    exact ⟨_, mkLR_lab h .num .num (mkDiag_lab hw _), .mm_constAm eb hm r⟩
  · -- amConst
    simp only [bind_ok_iff] at h
    obtain ⟨_, _, a', ha', v, hv, w, hw, h⟩ := h
    cases hb
    cases hkb
    obtain ⟨d, r⟩ := H.sum (trM_lab ha ha') (DM.ok_tr' _ oa) hv
    simp only [fillDiag, bind_ok_iff] at hw
    obtain ⟨_, _, hw⟩ := hw
    exact ⟨_, mkLR_lab h .num .num (mkDiag_lab hw _), .mm_amConst ea hm r⟩
  · -- ltLt
    split_ifs at h with h0
    · obtain ⟨rfl, rfl⟩ := h0
      obtain ⟨_, _, h⟩ := bind_ok_iff.1 h
      cases ha; cases hb
      exact ⟨_, mkLT_lab h _, .mm_ltLt⟩
    · simp only [bind_ok_iff] at h
      obtain ⟨a', ha', b', hb', h⟩ := h
      obtain ⟨x, l, r⟩ := H.matmul (trM_lab ha ha') (trM_lab hb hb') (DM.ok_tr' _ oa) (DM.ok_tr' _ ob) h
      cases ha; cases hb
      exact ⟨x, l, .mm_ltLt_tr r⟩
  · -- ltAm
    split at h
    · cases ha
      cases hka
      rename_i d
      obtain ⟨x, l, r⟩ := H.matmul (.num (d := d)) hb trivial ob h
      exact ⟨x, l, .mm_ltAm eb hm r⟩
    · cases ha
      cases hka
      rename_i d
      obtain ⟨x, l, r⟩ := H.matmul (.num (d := d)) hb trivial ob h
      exact ⟨x, l, .mm_utAm eb hm r⟩
    · cases h
  · -- amLt
    split at h
    · cases hb
      cases hkb
      rename_i d
      obtain ⟨x, l, r⟩ := H.matmul ha (.num (d := d)) oa trivial h
      exact ⟨x, l, .mm_amLt ea hm r⟩
    · cases hb
      cases hkb
      rename_i d
      obtain ⟨x, l, r⟩ := H.matmul ha (.num (d := d)) oa trivial h
      exact ⟨x, l, .mm_amUt ea hm r⟩
    · cases h
  · -- ltDiag
    cases ha with
    | @lt _ d =>
      split_ifs at h with h0
      · subst h0
        simp only [bind_ok_iff] at h
        obtain ⟨x, hx, y, hy, h⟩ := h
        obtain ⟨w, l, r⟩ := H.matmul (.num (d := d)) hb trivial ob hx
        obtain ⟨e, r'⟩ := H.dense l (r.ok ⟨trivial, ob⟩) hy
        cases hb
        exact ⟨_, mkLT_lab h _, .mm_ltDiag r r'⟩
      · have : ta = true := by simpa using h0
        subst this
        obtain ⟨a', ha', h⟩ := bind_ok_iff.1 h
        obtain ⟨x, l, r⟩ := H.matmul (trM_lab (.lt (d := d)) ha') hb trivial ob h
        cases hb
        exact ⟨x, l, .mm_ltDiag_tr r⟩
  · -- diagLt
    cases hb with
    | @lt _ d =>
      split_ifs at h with h0
      · subst h0
        simp only [bind_ok_iff] at h
        obtain ⟨x, hx, y, hy, h⟩ := h
        obtain ⟨w, l, r⟩ := H.matmul ha (.num (d := d)) oa trivial hx
        obtain ⟨e, r'⟩ := H.dense l (r.ok ⟨oa, trivial⟩) hy
        cases ha
        exact ⟨_, mkLT_lab h _, .mm_diagLt r r'⟩
      · have : tb = true := by simpa using h0
        subst this
        obtain ⟨a', ha', h⟩ := bind_ok_iff.1 h
        obtain ⟨x, l, r⟩ := H.matmul ha (trM_lab (.lt (d := d)) ha') oa trivial h
        cases ha
        exact ⟨x, l, .mm_diagLt_tr r⟩
  · -- utUt
    split_ifs at h with h0
    · obtain ⟨rfl, rfl⟩ := h0
      obtain ⟨_, _, h⟩ := bind_ok_iff.1 h
      cases ha; cases hb
      exact ⟨_, mkUT_lab h _, .mm_utUt⟩
    · simp only [bind_ok_iff] at h
      obtain ⟨a', ha', b', hb', h⟩ := h
      obtain ⟨x, l, r⟩ := H.matmul (trM_lab ha ha') (trM_lab hb hb') (DM.ok_tr' _ oa) (DM.ok_tr' _ ob) h
      cases ha; cases hb
      exact ⟨x, l, .mm_utUt_tr r⟩
  · -- utDiag
    cases ha with
    | @ut _ d =>
      split_ifs at h with h0
      · subst h0
        simp only [bind_ok_iff] at h
        obtain ⟨x, hx, y, hy, h⟩ := h
        obtain ⟨w, l, r⟩ := H.matmul (.num (d := d)) hb trivial ob hx
        obtain ⟨e, r'⟩ := H.dense l (r.ok ⟨trivial, ob⟩) hy
        cases hb
        exact ⟨_, mkUT_lab h _, .mm_utDiag r r'⟩
      · have : ta = true := by simpa using h0
        subst this
        obtain ⟨a', ha', h⟩ := bind_ok_iff.1 h
        obtain ⟨x, l, r⟩ := H.matmul (trM_lab (.ut (d := d)) ha') hb trivial ob h
        cases hb
        exact ⟨x, l, .mm_utDiag_tr r⟩
  · -- diagUt
    cases hb with
    | @ut _ d =>
      split_ifs at h with h0
      · subst h0
        simp only [bind_ok_iff] at h
        obtain ⟨x, hx, y, hy, h⟩ := h
        obtain ⟨w, l, r⟩ := H.matmul ha (.num (d := d)) oa trivial hx
        obtain ⟨e, r'⟩ := H.dense l (r.ok ⟨oa, trivial⟩) hy
        cases ha
        exact ⟨_, mkUT_lab h _, .mm_diagUt r r'⟩
      · have : tb = true := by simpa using h0
        subst this
        obtain ⟨a', ha', h⟩ := bind_ok_iff.1 h
        obtain ⟨x, l, r⟩ := H.matmul ha (trM_lab (.ut (d := d)) ha') oa trivial h
        cases ha
        exact ⟨x, l, .mm_diagUt_tr r⟩
  · exact H.matmulLRLR ha hb oa ob h
  · -- lrAm
    simp only [bind_ok_iff] at h
    obtain ⟨_, _, x, hx, h⟩ := h
    split at h
    · obtain ⟨l', r', m', e1, l1, l2, l3⟩ := ha.trLr hx rfl
      have oa' := e1 ▸ DM.ok_tr' ta oa
      simp only [bind_ok_iff] at h
      obtain ⟨b', hb', y, hy, h⟩ := h
      obtain ⟨w, k, r⟩ := H.matmul (trM_lab hb hb') l2 (DM.ok_tr' _ ob) oa'.2.1 hy
      have n1 := DM.kind_lr_of_tr' e1
      have : ka = .lr := by rw [ea] at n1; exact Option.some.inj n1
      subst this
      exact ⟨_, mkLR_lab h l1 k l3, .mm_lrAm n1 eb hm e1 r⟩
    · cases h
  · -- amLr
    simp only [bind_ok_iff] at h
    obtain ⟨_, _, x, hx, h⟩ := h
    split at h
    · obtain ⟨l', r', m', e1, l1, l2, l3⟩ := hb.trLr hx rfl
      have ob' := e1 ▸ DM.ok_tr' tb ob
      simp only [bind_ok_iff] at h
      obtain ⟨a', ha', y, hy, h⟩ := h
      obtain ⟨w, k, r⟩ := H.matmul (trM_lab ha ha') l1 (DM.ok_tr' _ oa) ob'.1 hy
      have n1 := DM.kind_lr_of_tr' e1
      have : kb = .lr := by rw [eb] at n1; exact Option.some.inj n1
      subst this
      exact ⟨_, mkLR_lab h k l2 l3, .mm_amLr ea n1 hm e1 r⟩
    · cases h
  · -- lrConst
    obtain ⟨lr, h1, h⟩ := bind_ok_iff.1 h
    cases hb
    cases hkb
    rename_i d
    obtain ⟨x, l, r⟩ := H.matmul ha (constToLR_lab p d h1) oa ⟨trivial, trivial, trivial⟩ h
    have : ka = .lr := by cases ka <;> simp [mmId] at hm ⊢
    subst this
    exact ⟨x, l, .mm_lrConst ea r⟩
  · -- constLr
    obtain ⟨lr, h1, h⟩ := bind_ok_iff.1 h
    cases ha
    cases hka
    rename_i d
    obtain ⟨x, l, r⟩ := H.matmul (constToLR_lab p d h1) hb ⟨trivial, trivial, trivial⟩ ob h
    have : kb = .lr := by cases kb <;> simp [mmId] at hm ⊢
    subst this
    exact ⟨x, l, .mm_constLr eb r⟩
  · -- wbAm
    simp only [bind_ok_iff] at h
    obtain ⟨x, hx, y, hy, h⟩ := h
    cases hka
    cases ha with
    | @wb _ _ _ _ d1 _ _ _ h1 h2 h3 =>
      obtain ⟨w1, l1, r1⟩ := H.matmul (.diag (d := d1)) hb trivial ob hx
      obtain ⟨w2, l2, r2⟩ := H.matmul (.lr h1 h2 h3) hb oa ob hy
      obtain ⟨w3, l3, r3⟩ := H.add l1 l2 (r1.ok ⟨trivial, ob⟩) (r2.ok ⟨oa, ob⟩) h
      exact ⟨_, l3, .mm_wbAm eb hm r1 r2 r3⟩
  · -- amWb
    simp only [bind_ok_iff] at h
    obtain ⟨x, hx, y, hy, h⟩ := h
    cases hkb
    cases hb with
    | @wb _ _ _ _ d1 _ _ _ h1 h2 h3 =>
      obtain ⟨w1, l1, r1⟩ := H.matmul ha (.diag (d := d1)) oa trivial hx
      obtain ⟨w2, l2, r2⟩ := H.matmul ha (.lr h1 h2 h3) oa ob hy
      obtain ⟨w3, l3, r3⟩ := H.add l1 l2 (r1.ok ⟨oa, trivial⟩) (r2.ok ⟨oa, ob⟩) h
      exact ⟨_, l3, .mm_amWb ea hm r1 r2 r3⟩
  · -- kronKron
    simp only [bind_ok_iff, pure_eq_ok] at h
    obtain ⟨_, _, _, _, x, hx, y, hy, rfl⟩ := h
    cases ha with
    | kron l1 l2 =>
      cases hb with
      | kron l3 l4 =>
        obtain ⟨_, k1, r1⟩ := H.matmul l1 l3 oa.1 ob.1 hx
        obtain ⟨_, k2, r2⟩ := H.matmul l2 l4 oa.2 ob.2 hy
        exact ⟨_, .kron k1 k2, .mm_kronKron r1 r2⟩
  · -- kronAm
    simp only [matmulKronAm, bind_ok_iff] at h
    obtain ⟨_, _, l, hl, r', hr, b', hb', _, _, _, _, e, he, h⟩ := h
    cases hka
    cases ha with
    | kron l1 l2 =>
      obtain ⟨d, r0⟩ := H.dense (trM_lab hb hb') (DM.ok_tr' _ ob) he
      split_ifs at h
      · simp only [bind_ok_iff, pure_eq_ok] at h
        obtain ⟨u, hu, v, hv, rfl⟩ := h
        obtain ⟨x1, u1, r1, r2⟩ := H.kronAIdB d (trM_lab l1 hl) (DM.ok_tr' _ oa.1) hu
        obtain ⟨x2, u2, r3, r4⟩ := H.kronIdAB u1 (trM_lab l2 hr) (DM.ok_tr' _ oa.2) hv
        exact ⟨_, .dense, .mm_kronAm_left eb hm r0 r1 r2 r3 r4⟩
      · simp only [bind_ok_iff, pure_eq_ok] at h
        obtain ⟨u, hu, v, hv, rfl⟩ := h
        obtain ⟨x1, u1, r1, r2⟩ := H.kronIdAB d (trM_lab l2 hr) (DM.ok_tr' _ oa.2) hu
        obtain ⟨x2, u2, r3, r4⟩ := H.kronAIdB u1 (trM_lab l1 hl) (DM.ok_tr' _ oa.1) hv
        exact ⟨_, .dense, .mm_kronAm_right eb hm r0 r1 r2 r3 r4⟩
  · -- amKron
    obtain ⟨x, hx, h⟩ := bind_ok_iff.1 h
    obtain ⟨w, l, r⟩ := H.matmul hb ha ob oa hx
    have : kb = .kron := by cases ka <;> cases kb <;> simp [mmId] at hm ⊢
    subst this
    exact ⟨_, transposeM_lab l h, .mm_amKron ea eb hm r⟩
  · -- kronDiag
    obtain ⟨x, hx, h⟩ := bind_ok_iff.1 h
    obtain ⟨e, r0⟩ := H.dense ha oa hx
    obtain ⟨w, l, r⟩ := H.matmul (.num (d := e)) hb trivial ob h
    cases hb
    cases hkb
    have : ka = .kron := by cases ka <;> simp [mmId] at hm ⊢
    subst this
    exact ⟨_, l, .mm_kronDiag ea r0 r⟩
  · -- diagKron
    obtain ⟨x, hx, h⟩ := bind_ok_iff.1 h
    obtain ⟨e, r0⟩ := H.dense hb ob hx
    obtain ⟨w, l, r⟩ := H.matmul ha (.num (d := e)) oa trivial h
    cases ha
    cases hka
    have : kb = .kron := by cases kb <;> simp [mmId] at hm ⊢
    subst this
    exact ⟨_, l, .mm_diagKron eb r0 r⟩
  · cases h

theorem Cov.stepMatmul {env : Env K} (hz : env.Zeros z) (H : Cov p z B) {ta tb : Bool} {a b r : Mat K} {s s' : DM D} (ha : Lab a s) (hb : Lab b s') (oa : s.Ok) (ob : s'.Ok)
    (h : stepMatmul env B ta tb a b = .ok r) : ∃ x, Lab r x ∧ Runs p z (.matmul ta tb s s') x := by
  unfold Verif.stepMatmul at h
  split at h
  · simp only [bind_ok_iff, pure_eq_ok] at h
    obtain ⟨_, _, rfl⟩ := h
    cases ha; cases hb
    exact ⟨_, .num, .mm_num⟩
  · rename_i hne
    obtain ⟨sa, la, ca⟩ := convertAM_lab (env := env) hz ha
    obtain ⟨sb, lb, cb⟩ := convertAM_lab (env := env) hz hb
    dsimp only at h
    split at h
    · rename_i ka kb hka hkb
      split at h
      · rename_i m hm
        obtain ⟨x, l, r⟩ := H.mmRun la lb (ca.ok oa) (cb.ok ob) hka hkb hm h
        have : ∃ k, s.kind = some k ∨ s'.kind = some k := by
          cases ha <;> first
            | exact ⟨_, .inl rfl⟩
            | (cases hb <;> first
              | exact ⟨_, .inr rfl⟩
              | exact (hne _ _ rfl rfl).elim)
        obtain ⟨k, hk⟩ := this
        exact ⟨x, l, .mm_am hk ca cb r⟩
      · cases h
    · cases h

/-- Every result of the operations is the result of a run. -/
theorem ops_cov (p : D → D → D) {env : Env K} {z : Bool} (hz : env.Zeros z) (n : ℕ) : Cov p z (ops env n) := by
  induction n with
  | zero => constructor <;> intros <;> contradiction
  | succ n H =>
    exact ⟨fun h1 h2 h => H.stepDense h1 h2 h, fun h1 h2 h => H.stepDiag h1 h2 h, fun h1 h2 h => H.stepSum h1 h2 h, fun h1 h2 o1 o2 h => Cov.stepAdd hz H h1 h2 o1 o2 h,
      fun h1 h2 o1 o2 h => Cov.stepMul hz H h1 h2 o1 o2 h, fun h1 h2 o1 o2 h => Cov.stepMatmul hz H h1 h2 o1 o2 h⟩

end Verif
