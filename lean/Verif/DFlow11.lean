/-
Data types of selections (C59): `B.take`, `B.submatrix`, `B.tile`, `B.concat`.
-/
import Verif.DFlow10
import Verif.Submat
import Verif.Concat

set_option linter.unusedSectionVars false
set_option linter.unusedVariables false

namespace Verif

variable {K D : Type} [Field K] [LinearOrder K]

/-! ### The rules -/

/-- `B.take(a, indices_or_mask, axis)`, `ops/take.py` 23-146. -/
inductive TakeRuns (p : D → D → D) (z : Bool) : DM D → DM D → Prop
  | num {d} : TakeRuns p z (.num d) (.num d)
  | zero {d} : TakeRuns p z (.zero d) (.zero d)  -- 49-55
  | diag {d} : TakeRuns p z (.diag d) (.diag d)  -- 64: a batch axis
  | const {d} : TakeRuns p z (.const d) (.const d)  -- 67-80
  | lt_dense {d} : TakeRuns p z (.lt d) (.dense d)  -- 87-88
  | lt {d} : TakeRuns p z (.lt d) (.lt d)  -- 90: a batch axis
  | ut_dense {d} : TakeRuns p z (.ut d) (.dense d)  -- 97-98
  | ut {d} : TakeRuns p z (.ut d) (.ut d)  -- 100: a batch axis
  | lr_row {l r m l'} : TakeRuns p z l l' → TakeRuns p z (.lr l r m) (.lr l' r m)  -- 106-107
  | lr_col {l r m r'} : TakeRuns p z r r' → TakeRuns p z (.lr l r m) (.lr l r' m)  -- 108-109
  | lr {l r m l' r' m'} : TakeRuns p z l l' → TakeRuns p z r r' → TakeRuns p z m m' → TakeRuns p z (.lr l r m) (.lr l' r' m')  -- 111-117
  | wb {d l r m x y w} : TakeRuns p z (.diag d) x → TakeRuns p z (.lr l r m) y → Runs p z (.add x y) w → TakeRuns p z (.wb d l r m) w  -- 120-132
  | kron {l r l' r'} : TakeRuns p z l l' → TakeRuns p z r r' → TakeRuns p z (.kron l r) (.kron l' r')  -- 141-146
  | dense {a d} : Runs p z (.dense a) (.num d) → TakeRuns p z a (.dense d)  -- 23-27

/-- `B.submatrix(a, indices_or_mask)`, `ops/submatrix.py` 28-82. -/
inductive SubRuns (p : D → D → D) (z : Bool) : DM D → DM D → Prop
  | num {d} : SubRuns p z (.num d) (.num d)
  | zero {d} : SubRuns p z (.zero d) (.zero d)
  | diag {d} : SubRuns p z (.diag d) (.diag d)
  | const {d} : SubRuns p z (.const d) (.const d)
  | lt {d} : SubRuns p z (.lt d) (.lt d)
  | ut {d} : SubRuns p z (.ut d) (.ut d)
  | lr {l r m l' r'} : TakeRuns p z l l' → TakeRuns p z r r' → SubRuns p z (.lr l r m) (.lr l' r' m)
  | wb {d l r m l' r'} : TakeRuns p z l l' → TakeRuns p z r r' → SubRuns p z (.wb d l r m) (.wb d l' r' m)
  | dense {a d} : Runs p z (.dense a) (.num d) → SubRuns p z a (.dense d)

/-- `B.tile(a, *repetitions)`, `ops/tile.py`. -/
inductive TileRuns (p : D → D → D) (z : Bool) : DM D → DM D → Prop
  | num {d} : TileRuns p z (.num d) (.num d)
  | zero {d} : TileRuns p z (.zero d) (.zero d)
  | const {d} : TileRuns p z (.const d) (.const d)
  | dense {a d} : Runs p z (.dense a) (.num d) → TileRuns p z a (.dense d)

/-- A selection: of rows, columns or batch elements, of a submatrix, or repetitions. -/
inductive SOp where
  | take (fuel : ℕ) (sel : Sel) (axis : Int)
  | submatrix (fuel : ℕ) (sel : Sel)
  | tile (reps : List ℕ)

def SOp.run (B : Ops K) : SOp → Mat K → E (Mat K)
  | .take fuel sel axis, a => takeM B fuel a sel axis
  | .submatrix fuel sel, a => submatrixM B fuel a sel
  | .tile reps, a => tileM B a reps

def SOp.Runs (p : D → D → D) (z : Bool) : SOp → DM D → DM D → Prop
  | .take .., a, x => TakeRuns p z a x
  | .submatrix .., a, x => SubRuns p z a x
  | .tile .., a, x => TileRuns p z a x

variable {p : D → D → D} {z : Bool}

/-! ### Closure, promotion -/

theorem TakeRuns.all {S : D → Prop} (hp : ∀ x y, S x → S y → S (p x y)) {a x : DM D} (h : TakeRuns p z a x) (ha : a.All S) : x.All S := by
  induction h with
  | num | zero | diag | const | lt_dense | lt | ut_dense | ut => exact ha
  | lr_row h i => exact ⟨i ha.1, ha.2⟩
  | lr_col h i => exact ⟨ha.1, i ha.2.1, ha.2.2⟩
  | lr h1 h2 h3 i1 i2 i3 => exact ⟨i1 ha.1, i2 ha.2.1, i3 ha.2.2⟩
  | wb h1 h2 h3 i1 i2 => exact h3.all hp ⟨i1 ha.1, i2 ha.2⟩
  | kron h1 h2 i1 i2 => exact ⟨i1 ha.1, i2 ha.2⟩
  | dense h => exact h.all hp ha

theorem TakeRuns.ok {a x : DM D} (h : TakeRuns p z a x) (ha : a.Ok) : x.Ok := by
  induction h with
  | num | zero | diag | const | lt_dense | lt | ut_dense | ut => trivial
  | lr_row h i => exact ⟨i ha.1, ha.2⟩
  | lr_col h i => exact ⟨ha.1, i ha.2.1, ha.2.2⟩
  | lr h1 h2 h3 i1 i2 i3 => exact ⟨i1 ha.1, i2 ha.2.1, i3 ha.2.2⟩
  | wb h1 h2 h3 i1 i2 => exact h3.ok ⟨i1 trivial, i2 ha⟩
  | kron h1 h2 i1 i2 => exact ⟨i1 ha.1, i2 ha.2⟩
  | dense h => trivial

theorem SubRuns.all {S : D → Prop} (hp : ∀ x y, S x → S y → S (p x y)) {a x : DM D} (h : SubRuns p z a x) (ha : a.All S) : x.All S := by
  cases h with
  | num | zero | diag | const | lt | ut => exact ha
  | lr h1 h2 => exact ⟨h1.all hp ha.1, h2.all hp ha.2.1, ha.2.2⟩
  | wb h1 h2 => exact ⟨ha.1, h1.all hp ha.2.1, h2.all hp ha.2.2.1, ha.2.2.2⟩
  | dense h => exact h.all hp ha

theorem SubRuns.ok {a x : DM D} (h : SubRuns p z a x) (ha : a.Ok) : x.Ok := by
  cases h with
  | num | zero | diag | const | lt | ut => trivial
  | lr h1 h2 => exact ⟨h1.ok ha.1, h2.ok ha.2.1, ha.2.2⟩
  | wb h1 h2 => exact ⟨h1.ok ha.1, h2.ok ha.2.1, ha.2.2⟩
  | dense h => trivial

theorem TileRuns.all {S : D → Prop} (hp : ∀ x y, S x → S y → S (p x y)) {a x : DM D} (h : TileRuns p z a x) (ha : a.All S) : x.All S := by
  cases h with
  | num | zero | const => exact ha
  | dense h => exact h.all hp ha

theorem TileRuns.ok {a x : DM D} (h : TileRuns p z a x) : x.Ok := by
  cases h <;> trivial

theorem SOp.Runs.all {S : D → Prop} (hp : ∀ x y, S x → S y → S (p x y)) {op : SOp} {a x : DM D} (h : op.Runs p z a x) (ha : a.All S) : x.All S := by
  cases op with
  | take => exact TakeRuns.all hp h ha
  | submatrix => exact SubRuns.all hp h ha
  | tile => exact TileRuns.all hp h ha

theorem SOp.Runs.ok {op : SOp} {a x : DM D} (h : op.Runs p z a x) (ha : a.Ok) : x.Ok := by
  cases op with
  | take => exact TakeRuns.ok h ha
  | submatrix => exact SubRuns.ok h ha
  | tile => exact TileRuns.ok h

section
variable [SemilatticeSup D]

theorem TakeRuns.noZero {a x : DM D} (h : TakeRuns (· ⊔ ·) false a x) (ha : a.NoZero) : x.NoZero := by
  induction h with
  | num | diag | const | lt_dense | lt | ut_dense | ut => trivial
  | zero => exact ha
  | lr_row h i => exact ⟨i ha.1, ha.2⟩
  | lr_col h i => exact ⟨ha.1, i ha.2.1, ha.2.2⟩
  | lr h1 h2 h3 i1 i2 i3 => exact ⟨i1 ha.1, i2 ha.2.1, i3 ha.2.2⟩
  | wb h1 h2 h3 i1 i2 => exact h3.noZero ⟨i1 trivial, i2 ha⟩
  | kron h1 h2 i1 i2 => exact ⟨i1 ha.1, i2 ha.2⟩
  | dense h => trivial

theorem TakeRuns.back (u : D) {a x : DM D} (h : TakeRuns (· ⊔ ·) false a x) (ha : a.NoZero) (hx : x.All (· ≤ u)) : a.All (· ≤ u) := by
  induction h with
  | num | zero | diag | const | lt_dense | lt | ut_dense | ut => exact hx
  | lr_row h i => exact ⟨i ha.1 hx.1, hx.2⟩
  | lr_col h i => exact ⟨hx.1, i ha.2.1 hx.2.1, hx.2.2⟩
  | lr h1 h2 h3 i1 i2 i3 => exact ⟨i1 ha.1 hx.1, i2 ha.2.1 hx.2.1, i3 ha.2.2 hx.2.2⟩
  | wb h1 h2 h3 i1 i2 =>
    have j := h3.back u ⟨h1.noZero trivial, h2.noZero ha⟩ hx
    exact ⟨i1 trivial j.1, i2 ha j.2⟩
  | kron h1 h2 i1 i2 => exact ⟨i1 ha.1 hx.1, i2 ha.2 hx.2⟩
  | dense h => exact h.back u ha hx

theorem SOp.Runs.back (u : D) {op : SOp} {a x : DM D} (h : op.Runs (· ⊔ ·) false a x) (ha : a.NoZero) (hx : x.All (· ≤ u)) : a.All (· ≤ u) := by
  cases op with
  | take => exact TakeRuns.back u h ha hx
  | submatrix =>
    cases h with
    | num | zero | diag | const | lt | ut => exact hx
    | lr h1 h2 => exact ⟨h1.back u ha.1 hx.1, h2.back u ha.2.1 hx.2.1, hx.2.2⟩
    | wb h1 h2 => exact ⟨hx.1, h1.back u ha.1 hx.2.1, h2.back u ha.2.1 hx.2.2.1, hx.2.2.2⟩
    | dense h => exact h.back u ha hx
  | tile =>
    cases h with
    | num | zero | const => exact hx
    | dense h => exact h.back u ha hx

end

/-! ### Coverage -/

theorem Cov.takeDense {B : Ops K} (H : Cov p z B) {a r : Mat K} {s : DM D} {sel : Sel} {axis : Int} (ha : Lab a s) (oa : s.Ok) (h : takeDense B a sel axis = .ok r) :
    ∃ x, Lab r x ∧ TakeRuns p z s x := by
  simp only [Verif.takeDense, bind_ok_iff, pure_eq_ok] at h
  obtain ⟨d, hd, t, _, rfl⟩ := h
  obtain ⟨e, he⟩ := H.dense ha oa hd
  exact ⟨.dense e, .dense, .dense he⟩

theorem alignBatch3_lab {a b c : Mat K} {x : Mat K × Mat K × Mat K} {s s' s'' : DM D} (ha : Lab a s) (hb : Lab b s') (hc : Lab c s'') (h : alignBatch3 a b c = .ok x) :
    Lab x.1 s ∧ Lab x.2.1 s' ∧ Lab x.2.2 s'' := by
  simp only [alignBatch3, bind_ok_iff, pure_eq_ok] at h
  obtain ⟨_, _, _, _, _, _, _, h1, _, h2, _, h3, rfl⟩ := h
  exact ⟨broadcastBatchTo_lab ha h1, broadcastBatchTo_lab hb h2, broadcastBatchTo_lab hc h3⟩

/-- Every `B.take` is followed by the rules. -/
theorem Cov.take {B : Ops K} (H : Cov p z B) (m : ℕ) : ∀ {a r : Mat K} {s : DM D} {sel : Sel} {axis : Int}, Lab a s → s.Ok → takeM B m a sel axis = .ok r →
    ∃ x, Lab r x ∧ TakeRuns p z s x := by
  induction m with
  | zero => intro a r s sel axis _ _ h; cases h
  | succ m ih =>
    intro a r s sel axis ha oa h
    have fac : ∀ {a r : Mat K} {s : DM D} {sel : Sel}, Lab a s → s.Ok → takeFactor (takeM B m) a sel = .ok r → ∃ x, Lab r x ∧ TakeRuns p z s x := by
      intro a r s sel ha oa h
      unfold takeFactor at h
      split at h
      · simp only [bind_ok_iff, pure_eq_ok] at h
        obtain ⟨t, _, rfl⟩ := h
        cases ha
        exact ⟨_, .num, .num⟩
      · exact ih ha oa h
    have h' : takeStep (takeM B m) B a sel axis = .ok r := h
    unfold takeStep at h'
    simp only [bind_ok_iff] at h'
    obtain ⟨n, hn, k, hk, h'⟩ := h'
    have ha' := ha
    cases ha with
    | num =>
      simp only [bind_ok_iff, pure_eq_ok] at h'
      obtain ⟨t, _, rfl⟩ := h'
      exact ⟨_, .num, .num⟩
    | zero => exact ⟨_, mkZero_lab h' _, .zero⟩
    | dense => exact H.takeDense ha' oa h'
    | diag =>
      simp only at h'
      split_ifs at h'
      · exact H.takeDense ha' oa h'
      · simp only [bind_ok_iff] at h'
        obtain ⟨t, _, h'⟩ := h'
        exact ⟨_, mkDiag_lab h' _, .diag⟩
    | const =>
      simp only at h'
      split_ifs at h'
      · exact ⟨_, mkConst_lab h' _, .const⟩
      · exact ⟨_, mkConst_lab h' _, .const⟩
      · simp only [bind_ok_iff] at h'
        obtain ⟨t, _, h'⟩ := h'
        exact ⟨_, mkConst_lab h' _, .const⟩
    | lt =>
      simp only [bind_ok_iff] at h'
      obtain ⟨u, _, h'⟩ := h'
      split_ifs at h'
      · cases h'; exact ⟨_, .dense, .lt_dense⟩
      · rw [mkLT_ok] at h'; rw [← h'.2]; exact ⟨_, .lt, .lt⟩
    | ut =>
      simp only [bind_ok_iff] at h'
      obtain ⟨u, _, h'⟩ := h'
      split_ifs at h'
      · cases h'; exact ⟨_, .dense, .ut_dense⟩
      · rw [mkUT_ok] at h'; rw [← h'.2]; exact ⟨_, .ut, .ut⟩
    | lr hl hr hm =>
      simp only [takeLR] at h'
      split_ifs at h'
      · simp only [bind_ok_iff] at h'
        obtain ⟨u, hu, h'⟩ := h'
        obtain ⟨x, lx, rx⟩ := fac hl oa.1 hu
        exact ⟨_, mkLR_lab h' lx hr hm, .lr_row rx⟩
      · simp only [bind_ok_iff] at h'
        obtain ⟨u, hu, h'⟩ := h'
        obtain ⟨x, lx, rx⟩ := fac hr oa.2.1 hu
        exact ⟨_, mkLR_lab h' hl lx hm, .lr_col rx⟩
      · simp only [bind_ok_iff] at h'
        obtain ⟨q, hq, u, hu, v, hv, w, hw, h'⟩ := h'
        obtain ⟨b1, b2, b3⟩ := alignBatch3_lab hl hm hr hq
        obtain ⟨x, lx, rx⟩ := ih b1 oa.1 hu
        obtain ⟨y, ly, ry⟩ := ih b3 oa.2.1 hv
        obtain ⟨t, lt, rt⟩ := ih b2 oa.2.2 hw
        exact ⟨_, mkLR_lab h' lx ly lt, .lr rx ry rt⟩
    | wb hl hr hm =>
      simp only at h'
      split_ifs at h'
      · simp only [bind_ok_iff] at h'
        obtain ⟨u, hu, v, hv, h'⟩ := h'
        obtain ⟨x, lx, rx⟩ := ih .diag trivial hu
        obtain ⟨y, ly, ry⟩ := ih (.lr hl hr hm) oa hv
        obtain ⟨w, lw, rw⟩ := H.add lx ly (rx.ok trivial) (ry.ok oa) h'
        exact ⟨w, lw, .wb rx ry rw⟩
      · simp only [bind_ok_iff] at h'
        obtain ⟨q, hq, u, hu, v, hv, h'⟩ := h'
        obtain ⟨b1, b2⟩ := alignBatch2_lab .diag (.lr hl hr hm) hq
        obtain ⟨x, lx, rx⟩ := ih b1 trivial hu
        obtain ⟨y, ly, ry⟩ := ih b2 oa hv
        obtain ⟨w, lw, rw⟩ := H.add lx ly (rx.ok trivial) (ry.ok oa) h'
        exact ⟨w, lw, .wb rx ry rw⟩
    | kron hl hr =>
      simp only at h'
      split_ifs at h'
      · exact H.takeDense ha' oa h'
      · simp only [bind_ok_iff, pure_eq_ok] at h'
        obtain ⟨q, hq, u, hu, v, hv, rfl⟩ := h'
        obtain ⟨b1, b2⟩ := alignBatch2_lab hl hr hq
        obtain ⟨x, lx, rx⟩ := ih b1 oa.1 hu
        obtain ⟨y, ly, ry⟩ := ih b2 oa.2 hv
        exact ⟨_, .kron lx ly, .kron rx ry⟩
    | tiled hb => exact H.takeDense ha' oa h'

theorem Cov.submatrixLR {B : Ops K} (H : Cov p z B) {m' : ℕ} {l r m x : Mat K} {sel : Sel} {l' r' n' : DM D} (hl : Lab l l') (hr : Lab r r') (hm : Lab m n') (ol : l'.Ok) (or : r'.Ok)
    (h : submatrixLR B m' l r m sel = .ok x) : ∃ u v, x = .lr u v m ∧ ∃ s t, Lab u s ∧ Lab v t ∧ TakeRuns p z l' s ∧ TakeRuns p z r' t := by
  simp only [Verif.submatrixLR, bind_ok_iff] at h
  obtain ⟨u, hu, v, hv, h⟩ := h
  obtain ⟨s, ls, rs⟩ := H.take m' hl ol hu
  obtain ⟨t, lt, rt⟩ := H.take m' hr or hv
  exact ⟨u, v, mkLR_inv' h, s, t, ls, lt, rs, rt⟩

/-- Every `B.submatrix` is followed by the rules. -/
theorem Cov.submatrix {B : Ops K} (H : Cov p z B) {m : ℕ} {a r : Mat K} {s : DM D} {sel : Sel} (ha : Lab a s) (oa : s.Ok) (h : submatrixM B m a sel = .ok r) :
    ∃ x, Lab r x ∧ SubRuns p z s x := by
  have dn : (do return mkDense (← nSubmatrix (← B.dense a) sel)) = .ok r → ∃ x, Lab r x ∧ SubRuns p z s x := by
    intro h
    simp only [bind_ok_iff, pure_eq_ok] at h
    obtain ⟨d, hd, t, _, rfl⟩ := h
    obtain ⟨e, he⟩ := H.dense ha oa hd
    exact ⟨.dense e, .dense, .dense he⟩
  cases ha with
  | num =>
    simp only [submatrixM, bind_ok_iff, pure_eq_ok] at h
    obtain ⟨t, _, rfl⟩ := h
    exact ⟨_, .num, .num⟩
  | zero => exact ⟨_, mkZero_lab (s := sel.count :: sel.count :: _) h _, .zero⟩
  | diag =>
    simp only [submatrixM, bind_ok_iff] at h
    obtain ⟨t, _, h⟩ := h
    exact ⟨_, mkDiag_lab h _, .diag⟩
  | const => exact ⟨_, mkConst_lab h _, .const⟩
  | lt =>
    simp only [submatrixM, bind_ok_iff, mkLT_ok] at h
    obtain ⟨t, _, _, rfl⟩ := h
    exact ⟨_, .lt, .lt⟩
  | ut =>
    simp only [submatrixM, bind_ok_iff, mkUT_ok] at h
    obtain ⟨t, _, _, rfl⟩ := h
    exact ⟨_, .ut, .ut⟩
  | lr hl hr hm =>
    obtain ⟨u, v, rfl, s, t, ls, lt, rs, rt⟩ := H.submatrixLR hl hr hm oa.1 oa.2.1 h
    exact ⟨_, .lr ls lt hm, .lr rs rt⟩
  | wb hl hr hm =>
    simp only [submatrixM, bind_ok_iff] at h
    obtain ⟨d, _, _, _, y, hy, h⟩ := h
    obtain ⟨u, v, rfl, s, t, ls, lt, rs, rt⟩ := H.submatrixLR hl hr hm oa.1 oa.2.1 hy
    simp only [mkWB, bind_ok_iff, pure_eq_ok] at h
    obtain ⟨_, _, _, _, _, _, rfl⟩ := h
    exact ⟨_, .wb ls lt hm, .wb rs rt⟩
  | dense => exact dn h
  | kron => exact dn h
  | tiled => exact dn h

/-- Every `B.tile` is followed by the rules. -/
theorem Cov.tile {B : Ops K} (H : Cov p z B) {a r : Mat K} {s : DM D} {reps : List ℕ} (ha : Lab a s) (oa : s.Ok) (h : tileM B a reps = .ok r) :
    ∃ x, Lab r x ∧ TileRuns p z s x := by
  have dn : (do return mkDense (nTile (← B.dense a) reps)) = .ok r → ∃ x, Lab r x ∧ TileRuns p z s x := by
    intro h
    simp only [bind_ok_iff, pure_eq_ok] at h
    obtain ⟨d, hd, rfl⟩ := h
    obtain ⟨e, he⟩ := H.dense ha oa hd
    exact ⟨.dense e, .dense, .dense he⟩
  cases ha with
  | num => cases h; exact ⟨_, .num, .num⟩
  | zero =>
    simp only [tileM, bind_ok_iff] at h
    obtain ⟨_, _, h⟩ := h
    exact ⟨_, mkZero_lab h _, .zero⟩
  | const =>
    simp only [tileM, bind_ok_iff] at h
    obtain ⟨_, _, h⟩ := h
    exact ⟨_, mkConst_lab h _, .const⟩
  | dense => exact dn h
  | diag => exact dn h
  | lt => exact dn h
  | ut => exact dn h
  | lr => exact dn h
  | wb => exact dn h
  | kron => exact dn h
  | tiled => exact dn h

theorem SOp.cov {B : Ops K} (H : Cov p z B) (op : SOp) {a r : Mat K} {s : DM D} (ha : Lab a s) (oa : s.Ok) (h : op.run B a = .ok r) : ∃ x, Lab r x ∧ op.Runs p z s x := by
  cases op with
  | take => exact H.take _ ha oa h
  | submatrix => exact H.submatrix ha oa h
  | tile => exact H.tile ha oa h

theorem SOp.calls (op : SOp) (a : Mat K) : Calls fun B : Ops K => op.run B a := by
  cases op with
  | take => exact Calls.take _ _ _ _
  | submatrix => exact Calls.submatrix _ _ _
  | tile => exact Calls.tile _ _

/-- The typed matrix `r` is the result of a selection from `a`; with `z = false` in a run without zeros. -/
def TSel (c : Cfg K) (p : D → D → D) (z : Bool) (op : SOp) (a r : TMat K D) : Prop :=
  Returns c (fun B => op.run B a.mat) r.mat ∧ op.Runs p z a.skel r.skel

/-- **C59.** Every selection from a typed matrix is a typed matrix. -/
theorem C59_select_covered {c : Cfg K} (p : D → D → D) (op : SOp) {a : TMat K D} {r : Mat K} (ha : a.mat.Valid) (h : Returns c (fun B => op.run B a.mat) r) :
    ∃ r' : TMat K D, r'.mat = r ∧ TSel c p true op a r' := by
  obtain ⟨n, hn⟩ := h
  obtain ⟨x, l, run⟩ := op.cov (ops_cov p (z := true) (fun h => by cases h) n) a.lab (TMat.ok_of_wf ha.choose_spec) hn
  obtain ⟨t, rfl, rfl⟩ := l.typed
  exact ⟨t, rfl, ⟨n, hn⟩, run⟩

/-- **C59.** The same without zeros: no exact zero is a Python number and no sum of low-rank matrices vanishes in the run. -/
theorem C59_select_covered_nozero {c : Cfg K} (p : D → D → D) (op : SOp) {a : TMat K D} {r : Mat K} (ha : a.mat.Valid)
    (hn : ∀ t, c.isNumber t = true → t.get (fun _ => 0) ≠ 0) (h : ReturnsUncancelled c (fun B => op.run B a.mat) r) :
    ∃ r' : TMat K D, r'.mat = r ∧ TSel c p false op a r' := by
  have h' := h.returns (op.calls a.mat)
  obtain ⟨n, hr⟩ := h
  obtain ⟨x, l, run⟩ := op.cov (ops_cov p (Cfg.noCancel_zeros hn) n) a.lab (TMat.ok_of_wf ha.choose_spec) hr
  obtain ⟨t, rfl, rfl⟩ := l.typed
  exact ⟨t, rfl, h', run⟩

/-- **C59.** The data types of a selection come from the matrix. -/
theorem C59_select_closed {c : Cfg K} {p : D → D → D} {z : Bool} {op : SOp} {a r : TMat K D} (h : TSel c p z op a r) {S : D → Prop}
    (hS : ∀ x y, S x → S y → S (p x y)) (ha : ∀ d, a.HasD d → S d) (d : D) (hd : r.HasD d) : S d :=
  r.all_iff.1 (h.2.all hS (a.all_iff.2 ha)) d hd

/-- **C59.** Without zeros a selection has the data type of the matrix. -/
theorem C59_select_promoted [SemilatticeSup D] {c : Cfg K} {δ : DEnv K D} (hδ : δ.promote = (· ⊔ ·)) {op : SOp} {a r : TMat K D} {d : D} (ha : a.mat.Valid) (na : a.skel.NoZero)
    (h : TSel c δ.promote false op a r) (h1 : dtypeM δ a = .ok d) : dtypeM δ r = .ok d := by
  obtain ⟨e, he⟩ := (h.2.ok (TMat.ok_of_wf ha.choose_spec)).dt δ.promote
  have he' := he
  rw [dtypeM_iff, hδ] at h1
  rw [hδ] at he
  have hr := h.2
  rw [hδ] at hr
  have : e = d := le_antisymm (he.le.2 (hr.all (S := (· ≤ d)) (fun _ _ => sup_le) (h1.le.1 (le_refl d)))) (h1.le.2 (hr.back e na (he.le.1 (le_refl e))))
  subst this
  exact (dtypeM_iff r).2 he'

/-! ### Concatenation -/

/-- `B.concat(*as, axis)`, `ops/concat.py` 13-38. -/
inductive CatRuns (p : D → D → D) (z : Bool) : List (DM D) → DM D → Prop
  | num {ds d} : FoldP p ds d → CatRuns p z (ds.map .num) (.num d)
  | tiled {ss n blk} : n ≠ 0 → (∀ i, ∃ (m : ℕ) (b : Fin m → DM D), .tiled m b ∈ ss ∧ ∃ j, b j = blk i) →
      (∀ s ∈ ss, ∃ (m : ℕ) (b : Fin m → DM D), s = .tiled m b ∧ ∀ j, ∃ i, blk i = b j) → CatRuns p z ss (.tiled n blk)  -- 34-38: the blocks of all
  | dense {ss ds d} : List.Forall₂ (fun s d => Runs p z (.dense s) (.num d)) ss ds → FoldP p ds d → CatRuns p z ss (.dense d)  -- 13-23, 28-33

theorem CatRuns.all {S : D → Prop} (hp : ∀ x y, S x → S y → S (p x y)) {ss : List (DM D)} {x : DM D} (h : CatRuns p z ss x) (ha : ∀ s ∈ ss, s.All S) : x.All S := by
  cases h with
  | num h => exact h.all hp (by simpa [DM.All] using ha)
  | tiled hn h1 h2 =>
    intro i
    obtain ⟨m, b, hm, j, e⟩ := h1 i
    exact e ▸ ha _ hm j
  | dense h1 h2 => exact h2.all hp (forall₂_all h1 (P := fun s => s.All S) (fun s d r hs => r.all hp hs) ha)

theorem CatRuns.ok {ss : List (DM D)} {x : DM D} (h : CatRuns p z ss x) (ha : ∀ s ∈ ss, s.Ok) : x.Ok := by
  cases h with
  | num h => trivial
  | tiled hn h1 h2 =>
    refine ⟨hn, fun i => ?_⟩
    obtain ⟨m, b, hm, j, e⟩ := h1 i
    exact e ▸ (ha _ hm).2 j
  | dense h1 h2 => trivial

theorem CatRuns.back [SemilatticeSup D] (u : D) {ss : List (DM D)} {x : DM D} (h : CatRuns (· ⊔ ·) false ss x) (ha : ∀ s ∈ ss, s.NoZero) (hx : x.All (· ≤ u)) :
    ∀ s ∈ ss, s.All (· ≤ u) := by
  cases h with
  | num h => simpa [DM.All] using h.le.1 hx
  | tiled hn h1 h2 =>
    intro s hs
    obtain ⟨m, b, rfl, h⟩ := h2 s hs
    intro j
    obtain ⟨i, e⟩ := h j
    exact e ▸ hx i
  | dense h1 h2 => exact forall₂_all' h1 (Q := (· ≤ u)) (fun s d hs r hd => r.back u (ha s hs) hd) (h2.le.1 hx)

theorem tiledParts_lab {axis : Int} {as : List (Mat K)} {ss : List (DM D)} {bs : List (List (Mat K × ℕ))} (hl : List.Forall₂ Lab as ss) (h : as.mapM (tiledParts axis) = some bs) :
    ∃ qs : List (List (DM D)), List.Forall₂ (fun s q => ∃ (m : ℕ) (b : Fin m → DM D), s = .tiled m b ∧ q = List.ofFn b) ss qs ∧
      List.Forall₂ (List.Forall₂ fun (x : Mat K × ℕ) y => Lab x.1 y) bs qs := by
  induction hl generalizing bs with
  | nil => simp at h; subst h; exact ⟨[], .nil, .nil⟩
  | @cons a s as ss l t ih =>
    simp only [List.mapM_cons, Option.bind_eq_bind, Option.bind_eq_some_iff, Option.pure_def, Option.some.injEq] at h
    obtain ⟨b, hb, bs', hbs, rfl⟩ := h
    obtain ⟨qs, h1, h2⟩ := ih hbs
    cases l <;> simp only [tiledParts, reduceCtorEq] at hb
    rename_i n blk blk' reps ax hblk
    split_ifs at hb with e
    cases hb
    refine ⟨List.ofFn blk' :: qs, .cons ⟨n, blk', rfl, rfl⟩ h1, .cons ?_ h2⟩
    rw [List.forall₂_iff_get]
    refine ⟨by simp, fun i h3 h4 => ?_⟩
    simpa using hblk _

/-- Every `B.concat` is followed by the rules. -/
theorem Cov.concat {B : Ops K} (H : Cov p z B) {as : List (Mat K)} {ss : List (DM D)} {axis : Int} {r : Mat K} (hl : List.Forall₂ Lab as ss) (ho : ∀ s ∈ ss, s.Ok)
    (h : concatM B as axis = .ok r) : ∃ x, Lab r x ∧ CatRuns p z ss x := by
  unfold concatM at h
  split_ifs at h with h1 h2
  · simp only [bind_ok_iff, pure_eq_ok] at h
    obtain ⟨t, ht, rfl⟩ := h
    have : ∃ ds : List D, ss = ds.map .num := by
      clear ht ho
      induction hl with
      | nil => exact ⟨[], rfl⟩
      | cons l t ih =>
        simp only [List.all_cons, Bool.and_eq_true] at h1
        obtain ⟨ds, rfl⟩ := ih h1.2
        cases l with
        | @num t d => exact ⟨d :: ds, rfl⟩
        | _ => simp [Mat.isAM] at h1
    obtain ⟨ds, rfl⟩ := this
    have : ds ≠ [] := by
      rintro rfl
      cases hl
      cases ht
    obtain ⟨d, hd⟩ := foldP_of (p := p) this
    exact ⟨.num d, .num, .num hd⟩
  · split at h
    · rename_i bs hbs
      obtain ⟨qs, q1, q2⟩ := tiledParts_lab hl hbs
      have q3 : List.Forall₂ (fun (x : Mat K × ℕ) y => Lab x.1 y) bs.flatten qs.flatten := List.rel_flatten q2
      have hlen := q3.length_eq
      unfold mkTiledL mkTiled at h
      simp only [bind_ok_iff, guardE_ok, pure_eq_ok] at h
      obtain ⟨_, hn, _, _, rfl⟩ := h
      refine ⟨.tiled bs.flatten.length fun i => qs.flatten.get (i.cast hlen), .tiled fun i => ?_, .tiled hn (fun i => ?_) fun s hs => ?_⟩
      · exact (List.forall₂_iff_get.1 q3).2 i.1 i.2 (hlen ▸ i.2)
      · obtain ⟨q, hq, hm⟩ := List.mem_flatten.1 (List.get_mem qs.flatten (i.cast hlen))
        obtain ⟨s, hs, m, b, rfl, rfl⟩ := forall₂_all' (q1.flip) (P := fun q => ∃ s ∈ ss, ∃ (m : ℕ) (b : Fin m → DM D), s = .tiled m b ∧ q = List.ofFn b) (Q := fun s => s ∈ ss)
          (fun q s _ h hs => ⟨s, hs, h⟩) (fun s hs => hs) q hq
        obtain ⟨j, e⟩ := (List.mem_ofFn' _ _).1 hm
        exact ⟨m, b, hs, j, e⟩
      · obtain ⟨q, hq, m, b, rfl, rfl⟩ := forall₂_all' q1 (P := fun s => ∃ q ∈ qs, ∃ (m : ℕ) (b : Fin m → DM D), s = .tiled m b ∧ q = List.ofFn b) (Q := fun q => q ∈ qs)
          (fun s q _ h hq => ⟨q, hq, h⟩) (fun q hq => hq) s hs
        refine ⟨m, b, rfl, fun j => ?_⟩
        obtain ⟨i, hi, e⟩ := List.getElem_of_mem (List.mem_flatten.2 ⟨_, hq, (List.mem_ofFn' _ _).2 ⟨j, rfl⟩⟩)
        exact ⟨⟨i, hlen ▸ hi⟩, by simpa using e⟩
    · simp only [bind_ok_iff, pure_eq_ok] at h
      obtain ⟨ds, hd, t, ht, rfl⟩ := h
      obtain ⟨es, he⟩ := mapM_lab hl ho (fun a s y l o h => H.dense l o h) hd
      have : es ≠ [] := by
        rw [← forall₂_ne_nil he, ← forall₂_ne_nil hl, forall₂_ne_nil (mapM_ok hd)]
        exact nConcat_ne_nil ht
      obtain ⟨d, hd⟩ := foldP_of (p := p) this
      exact ⟨.dense d, .dense, .dense he hd⟩

/-- The typed matrix `r` is a result of `B.concat(*as, axis)`; with `z = false` in a run without zeros. -/
def TConcat (c : Cfg K) (p : D → D → D) (z : Bool) (as : List (TMat K D)) (axis : Int) (r : TMat K D) : Prop :=
  Returns c (fun B => concatM B (as.map TMat.mat) axis) r.mat ∧ CatRuns p z (as.map TMat.skel) r.skel

/-- **C59.** Every concatenation of typed matrices is a typed matrix. -/
theorem C59_concat_covered {c : Cfg K} (p : D → D → D) {as : List (TMat K D)} {axis : Int} {r : Mat K} (hv : ∀ a ∈ as, a.mat.Valid)
    (h : Returns c (fun B => concatM B (as.map TMat.mat) axis) r) : ∃ r' : TMat K D, r'.mat = r ∧ TConcat c p true as axis r' := by
  obtain ⟨n, hn⟩ := h
  obtain ⟨x, l, run⟩ := Cov.concat (ops_cov p (z := true) (fun h => by cases h) n) (labL as) (okL hv) hn
  obtain ⟨t, rfl, rfl⟩ := l.typed
  exact ⟨t, rfl, ⟨n, hn⟩, run⟩

/-- **C59.** The same without zeros. -/
theorem C59_concat_covered_nozero {c : Cfg K} (p : D → D → D) {as : List (TMat K D)} {axis : Int} {r : Mat K} (hv : ∀ a ∈ as, a.mat.Valid)
    (hn : ∀ t, c.isNumber t = true → t.get (fun _ => 0) ≠ 0) (h : ReturnsUncancelled c (fun B => concatM B (as.map TMat.mat) axis) r) :
    ∃ r' : TMat K D, r'.mat = r ∧ TConcat c p false as axis r' := by
  have h' := h.returns (Calls.concat _ _)
  obtain ⟨n, hr⟩ := h
  obtain ⟨x, l, run⟩ := Cov.concat (ops_cov p (Cfg.noCancel_zeros hn) n) (labL as) (okL hv) hr
  obtain ⟨t, rfl, rfl⟩ := l.typed
  exact ⟨t, rfl, h', run⟩

/-- **C59.** The data types of a concatenation come from its operands. -/
theorem C59_concat_closed {c : Cfg K} {p : D → D → D} {z : Bool} {as : List (TMat K D)} {axis : Int} {r : TMat K D} (h : TConcat c p z as axis r) {S : D → Prop}
    (hS : ∀ x y, S x → S y → S (p x y)) (ha : ∀ a ∈ as, ∀ d, a.HasD d → S d) (d : D) (hd : r.HasD d) : S d := by
  refine r.all_iff.1 (h.2.all hS ?_) d hd
  simp only [List.mem_map, forall_exists_index, and_imp, forall_apply_eq_imp_iff₂]
  exact fun a hm => a.all_iff.2 (ha a hm)

/-- **C59.** Without zeros the data type of a concatenation is the promotion of all data types of the operands. -/
theorem C59_concat_promoted [SemilatticeSup D] {c : Cfg K} {δ : DEnv K D} (hδ : δ.promote = (· ⊔ ·)) {as : List (TMat K D)} {axis : Int} {r : TMat K D}
    (hv : ∀ a ∈ as, a.mat.Valid) (hz : ∀ a ∈ as, a.skel.NoZero) (h : TConcat c δ.promote false as axis r) :
    ∃ d, dtypeM δ r = .ok d ∧ IsLUB {x | ∃ a ∈ as, a.HasD x} d := by
  obtain ⟨e, he⟩ := (h.2.ok (okL hv)).dt δ.promote
  refine ⟨e, (dtypeM_iff r).2 he, ?_⟩
  have hr := h.2
  rw [hδ] at he hr
  constructor
  · rintro x ⟨a, ha, hx⟩
    have := hr.back e (by
      simp only [List.mem_map, forall_exists_index, and_imp, forall_apply_eq_imp_iff₂]
      exact hz) (he.le.1 (le_refl e)) a.skel (List.mem_map_of_mem ha)
    exact a.all_iff.1 this x hx
  · intro u hu
    refine he.le.2 (hr.all (S := (· ≤ u)) (fun _ _ => sup_le) ?_)
    simp only [List.mem_map, forall_exists_index, and_imp, forall_apply_eq_imp_iff₂]
    exact fun a hm => a.all_iff.2 fun x hx => hu ⟨a, hm, hx⟩

/-! ### Examples -/

example : ∃ r, TSel Ex.cfgA Ex.denv.promote false (.take 4 (.idx [0]) (-2)) Ex.tP r ∧ dtypeM Ex.denv r = .ok true := by
  obtain ⟨r, hr⟩ := Ex.exists_of_isOk (x := takeM (ops Ex.cfgA.noCancel 8) 4 Ex.tP.mat (.idx [0]) (-2)) (by decide +kernel)
  obtain ⟨r', -, h⟩ := C59_select_covered_nozero Ex.denv.promote (c := Ex.cfgA) (.take 4 (.idx [0]) (-2)) Ex.tP_valid (fun _ h => by cases h) ⟨8, hr⟩
  exact ⟨r', h, C59_select_promoted rfl Ex.tP_valid ⟨⟨⟩, ⟨⟩, ⟨⟩⟩ h (by rfl)⟩

example : ∃ r, TConcat Ex.cfgA Ex.denv.promote false [Ex.tP, Ex.tA] (-1) r ∧ dtypeM Ex.denv r = .ok true := by
  obtain ⟨r, hr⟩ := Ex.exists_of_isOk (x := concatM (ops Ex.cfgA.noCancel 8) [Ex.tP.mat, Ex.tA.mat] (-1)) (by decide +kernel)
  have hv : ∀ a ∈ [Ex.tP, Ex.tA], a.mat.Valid := by simpa using ⟨Ex.tP_valid, Ex.tA_valid⟩
  obtain ⟨r', -, h⟩ := C59_concat_covered_nozero Ex.denv.promote (c := Ex.cfgA) hv (fun _ h => by cases h) ⟨8, hr⟩
  obtain ⟨d, hd, hu⟩ := C59_concat_promoted rfl hv (by simpa using ⟨⟨⟨⟩, ⟨⟩, ⟨⟩⟩, ⟨⟩⟩) h
  have : d = true := top_le_iff.1 <| hu.1 ⟨Ex.tA, by simp, rfl⟩
  exact ⟨r', h, this ▸ hd⟩

end Verif
