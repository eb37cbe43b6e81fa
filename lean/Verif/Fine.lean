/-
Success (C45), part 2: what the operands of a call must satisfy so that it does not raise, and the facts about primitives.
-/
import Verif.Flat
import Verif.Props02

set_option linter.unusedSectionVars false
set_option linter.unusedVariables false
set_option linter.unusedSimpArgs false

namespace Verif

variable {K : Type} [Field K] [LinearOrder K] {α β : Type}

/-- The computation raises no Python exception. -/
def Calm (x : E α) : Prop := ∀ e, x = .error e → ¬ e.real

theorem Calm.ok {v : α} : Calm (.ok v : E α) := fun _ h => nomatch h
theorem Calm.pure {v : α} : Calm (pure v : E α) := fun _ h => nomatch h
theorem Calm.of {x : E α} {v : α} (h : x = .ok v) : Calm x := by subst h; exact Calm.ok
theorem Calm.ex {x : E α} (h : ∃ v, x = .ok v) : Calm x := by obtain ⟨v, h⟩ := h; exact Calm.of h
theorem Calm.fuel : Calm (.error .fuel : E α) := fun e h he => by cases h; exact he.1 rfl

theorem Calm.bind {x : E α} {f : α → E β} (hx : Calm x) (hf : ∀ v, x = .ok v → Calm (f v)) : Calm (x >>= f) := by
  cases hx' : x with
  | error e =>
    intro e' h
    have : e' = e := by simpa [Bind.bind, Except.bind, eq_comm] using h
    subst this
    exact hx _ hx'
  | ok v => exact hf v hx'

theorem Calm.step {x : E α} {f : α → E β} {v : α} (hx : x = .ok v) (hf : Calm (f v)) : Calm (x >>= f) := by
  subst hx; exact hf

theorem Calm.ite {c : Prop} [Decidable c] {x y : E α} (hx : c → Calm x) (hy : ¬ c → Calm y) : Calm (if c then x else y) := by
  split_ifs with h
  · exact hx h
  · exact hy h

/-! ### Conditions on operands -/

/-- `B.diag` finds a method and a rank for every factor: a numeric factor of a Kronecker product is read by `B.diag` of the backend, which
has no batches. -/
def Mat.DiagDef (T : Shp) : Mat K → Prop
  | .num _ => T = []
  | .kron l r => l.DiagDef T ∧ r.DiagDef T
  | _ => True

/-- LowRank and Woodbury matrices. -/
def Mat.lowRk : Mat K → Bool
  | .lr .. | .wb .. => true
  | _ => false

/-- The middle factor is not empty. -/
def Mat.innerPos : Mat K → Prop
  | .lr _ _ m => 0 < (den m).rows ∧ 0 < (den m).cols
  | .wb _ _ _ m => 0 < (den m).rows ∧ 0 < (den m).cols
  | _ => True

/-- What `B.multiply` needs beyond broadcasting: two Kronecker products have factors of the same shapes, a diagonal that is read can be read,
and two LowRank matrices have rank at least one. -/
def MulDef : Mat K → Mat K → Prop
  | .kron l r, .kron l' r' => ((den l).rows = (den l').rows ∧ (den l).cols = (den l').cols) ∧
      ((den r).rows = (den r').rows ∧ (den r).cols = (den r').cols) ∧ MulDef l l' ∧ MulDef r r'
  | a, b => (a.readsDiag = true → b.isAM = true → b.DiagDef (den b).bt) ∧ (b.readsDiag = true → a.isAM = true → a.DiagDef (den a).bt) ∧
      (a.lowRk = true → b.lowRk = true → a.innerPos ∧ b.innerPos)

/-- No empty dimension, in the matrix and in everything it is made of. -/
def Mat.pos : Mat K → Prop
  | .num t => 0 < t.rows ∧ 0 < t.cols
  | .zero _ r c => 0 < r ∧ 0 < c
  | .dense t => 0 < t.rows ∧ 0 < t.cols
  | .diag t => 0 < t.cols
  | .const _ r c => 0 < r ∧ 0 < c
  | .lt t => 0 < t.rows ∧ 0 < t.cols
  | .ut t => 0 < t.rows ∧ 0 < t.cols
  | .lr l r m => l.pos ∧ r.pos ∧ m.pos
  | .wb d l r m => 0 < d.cols ∧ l.pos ∧ r.pos ∧ m.pos
  | .kron l r => l.pos ∧ r.pos
  | .tiled .. => True

/-- A Kronecker product. -/
def Mat.isKron : Mat K → Bool
  | .kron .. => true
  | _ => false

/-- What `B.matmul` needs beyond the inner dimensions: the factors of two Kronecker products compose, and a Kronecker product is only
multiplied with another matrix if nothing is empty. -/
def KDom (ta tb : Bool) : Mat K → Mat K → Prop
  | .kron l r, .kron l' r' => (trIf ta (den l)).cols = (trIf tb (den l')).rows ∧ (trIf ta (den r)).cols = (trIf tb (den r')).rows ∧
      KDom ta tb l l' ∧ KDom ta tb r r'
  | a, b => (a.isKron = true ∨ b.isKron = true) → a.pos ∧ b.pos

/-- The functions of the core raise nothing on operands in the batch universe `S` that meet the conditions. -/
structure Ops.Fine (S : Shp) (B : Ops K) : Prop where
  dense : ∀ {a}, Mat.WF S a → a.fit true → Calm (B.dense a)
  add : ∀ {a b}, Mat.WF S a → Mat.WF S b → a.fit true → b.fit true → NoStretch a b → Compat (den a).sh (den b).sh → Calm (B.add a b)
  mul : ∀ {a b}, Mat.WF S a → Mat.WF S b → a.fit true → b.fit true → MulSafe a b → MulDef a b → Compat (den a).sh (den b).sh → Calm (B.mul a b)
  matmul : ∀ {ta tb a b}, Mat.WF S a → Mat.WF S b → a.fit true → b.fit true → 2 ≤ (den a).rank → 2 ≤ (den b).rank →
    (trIf ta (den a)).cols = (trIf tb (den b)).rows → KDom ta tb a b → Calm (B.matmul ta tb a b)
  diag : ∀ {a}, Mat.WF S a → a.fit true → 2 ≤ (den a).rank → a.DiagDef (den a).bt → Calm (B.diag a)
  sumM : ∀ {k a}, k ≤ 1 → Mat.WF S a → a.fit true → 2 ≤ (den a).rank → Calm (B.sumM k a)

theorem Ops.Fine.bot (S : Shp) : (Ops.bot : Ops K).Fine S :=
  ⟨fun _ _ => Calm.fuel, fun _ _ _ _ _ _ => Calm.fuel, fun _ _ _ _ _ _ _ => Calm.fuel, fun _ _ _ _ _ _ _ _ => Calm.fuel,
    fun _ _ _ _ => Calm.fuel, fun _ _ _ _ => Calm.fuel⟩

/-! ### Facts about the conditions -/

theorem fit_noTiled {κ : Bool} {a : Mat K} (h : a.fit κ) : a.noTiled = true := by
  induction a generalizing κ with
  | lr l r m ihl ihr ihm => simp [Mat.noTiled, ihl h.1, ihr h.2.1, ihm h.2.2]
  | wb d l r m ihl ihr ihm => simp [Mat.noTiled, ihl h.1, ihr h.2.1, ihm h.2.2]
  | kron l r ihl ihr => simp [Mat.noTiled, ihl h.2.1, ihr h.2.2]
  | tiled => exact h.elim
  | _ => rfl

theorem fit_notKron {a : Mat K} (h : a.fit false) : a.isKron = false := by
  cases a <;> first | rfl | exact absurd h.1 (by simp)

theorem pos_den {S : Shp} {a : Mat K} (w : a.WF S) {κ : Bool} (hf : a.fit κ) (h : a.pos) : 0 < (den a).rows ∧ 0 < (den a).cols := by
  induction a generalizing κ with
  | num t => exact h
  | zero bt r c => exact h
  | dense t => exact h
  | diag t => exact ⟨h, h⟩
  | const t r c => exact h
  | lt t => exact h
  | ut t => exact h
  | lr l r m ihl ihr _ => exact ⟨(ihl w.1.1 hf.1 h.1).1, (ihr w.1.2.1 hf.2.1 h.2.1).1⟩
  | wb d l r m => rw [wb_rows w, wb_cols w]; exact ⟨h.1, h.1⟩
  | kron l r ihl ihr =>
    have h1 := ihl w.1.1 hf.2.1 h.1
    have h2 := ihr w.1.2 hf.2.2 h.2
    exact ⟨Nat.mul_pos h1.1 h2.1, Nat.mul_pos h1.2 h2.2⟩
  | tiled => exact hf.elim

theorem mkLR_inv' {l r m x : Mat K} (h : mkLR l r m = .ok x) : x = .lr l r m := by
  simp only [mkLR, bind_ok_iff, pure_eq_ok] at h
  obtain ⟨_, _, _, _, _, _, _, _, _, _, _, _, _, _, _, _, _, _, rfl⟩ := h
  rfl

theorem transposeM_pos {κ : Bool} {a r : Mat K} (hf : a.fit κ) (h : transposeM a = .ok r) : (a.pos → r.pos) ∧ r.isKron = a.isKron := by
  induction a generalizing r κ with
  | num t =>
    cases h
    refine ⟨fun hp => ?_, rfl⟩
    show 0 < (nTranspose t).rows ∧ 0 < (nTranspose t).cols
    unfold nTranspose
    split_ifs
    · exact ⟨hp.2, hp.1⟩
    · exact hp
  | zero bt r c => cases h; exact ⟨fun hp => ⟨hp.2, hp.1⟩, rfl⟩
  | dense t =>
    cases h
    refine ⟨fun hp => ?_, rfl⟩
    have h1 : 0 < (nTranspose t).rows ∧ 0 < (nTranspose t).cols := by
      unfold nTranspose
      split_ifs
      · exact ⟨hp.2, hp.1⟩
      · exact hp
    show 0 < (upT _).rows ∧ 0 < (upT _).cols
    unfold upT
    split_ifs with h2 h3
    · exact ⟨Nat.one_pos, Nat.one_pos⟩
    · exact ⟨h1.2, Nat.one_pos⟩
    · exact h1
  | diag t => cases h; exact ⟨id, rfl⟩
  | const t r c =>
    simp only [transposeM] at h
    obtain ⟨_, rfl⟩ := mkConst_ok h
    exact ⟨fun hp => ⟨hp.2, hp.1⟩, rfl⟩
  | lt t =>
    simp only [transposeM, mkUT_ok] at h
    obtain ⟨h2, rfl⟩ := h
    refine ⟨fun hp => ?_, rfl⟩
    show 0 < (nTranspose t).rows ∧ 0 < (nTranspose t).cols
    unfold nTranspose
    split_ifs
    · exact ⟨hp.2, hp.1⟩
    · exact hp
  | ut t =>
    simp only [transposeM, mkLT_ok] at h
    obtain ⟨h2, rfl⟩ := h
    refine ⟨fun hp => ?_, rfl⟩
    show 0 < (nTranspose t).rows ∧ 0 < (nTranspose t).cols
    unfold nTranspose
    split_ifs
    · exact ⟨hp.2, hp.1⟩
    · exact hp
  | lr l r m _ _ ihm =>
    simp only [transposeM, bind_ok_iff] at h
    obtain ⟨m', hm, h⟩ := h
    obtain rfl := mkLR_inv' h
    exact ⟨fun hp => ⟨hp.2.1, hp.1, (ihm hf.2.2 hm).1 hp.2.2⟩, rfl⟩
  | wb d l r m _ _ ihm =>
    simp only [transposeM, bind_ok_iff] at h
    obtain ⟨m', hm, _, _, h⟩ := h
    obtain rfl := mkWB_inv h
    exact ⟨fun hp => ⟨hp.1, hp.2.2.1, hp.2.1, (ihm hf.2.2 hm).1 hp.2.2.2⟩, rfl⟩
  | kron l r ihl ihr =>
    simp only [transposeM, bind_ok_iff, pure_eq_ok] at h
    obtain ⟨l', hl, r', hr, rfl⟩ := h
    exact ⟨fun hp => ⟨(ihl hf.2.1 hl).1 hp.1, (ihr hf.2.2 hr).1 hp.2⟩, rfl⟩
  | tiled => exact hf.elim

theorem trM_pos {κ : Bool} {t : Bool} {a r : Mat K} (hf : a.fit κ) (h : trM t a = .ok r) : (a.pos → r.pos) ∧ r.isKron = a.isKron := by
  cases t with
  | false => cases h; exact ⟨id, rfl⟩
  | true => exact transposeM_pos hf h

theorem KDom.of {ta tb : Bool} {a b : Mat K} (h : a.isKron = true → b.isKron = true → False)
    (h' : a.isKron = true ∨ b.isKron = true → a.pos ∧ b.pos) : KDom ta tb a b := by
  cases a <;> first | exact h' | skip
  cases b <;> first | exact h' | exact (h rfl rfl).elim

theorem KDom.flat {ta tb : Bool} {a b : Mat K} (h : a.isKron = false) (h' : b.isKron = false) : KDom ta tb a b :=
  KDom.of (by simp [h]) (by simp [h, h'])

theorem KDom.pos {ta tb : Bool} {a b : Mat K} (h : KDom ta tb a b) (hn : a.isKron = true → b.isKron = true → False)
    (hk : a.isKron = true ∨ b.isKron = true) : a.pos ∧ b.pos := by
  cases a <;> first | exact h hk | skip
  cases b <;> first | exact h hk | exact (hn rfl rfl).elim

theorem isKron_convert (env : Env K) (a : Mat K) : (convertAM env a).isKron = a.isKron ∧ (a.pos → (convertAM env a).pos) := by
  cases a <;> first | exact ⟨rfl, id⟩ | skip
  rename_i t
  unfold convertAM
  dsimp only
  split_ifs with h0 h1
  · exact ⟨rfl, fun _ => ⟨Nat.one_pos, Nat.one_pos⟩⟩
  · exact ⟨rfl, fun _ => ⟨Nat.one_pos, Nat.one_pos⟩⟩
  · refine ⟨rfl, fun hp => ?_⟩
    show 0 < (upT t).rows ∧ 0 < (upT t).cols
    unfold upT
    split_ifs with h3
    · exact ⟨hp.2, Nat.one_pos⟩
    · exact hp

theorem KDom.convert {env : Env K} {ta tb : Bool} {a b : Mat K} (h : KDom ta tb a b) : KDom ta tb (convertAM env a) (convertAM env b) := by
  by_cases hk : a.isKron = true ∧ b.isKron = true
  · cases a <;> first | exact absurd hk.1 Bool.false_ne_true | skip
    cases b <;> first | exact absurd hk.2 Bool.false_ne_true | skip
    exact h
  · have hn : a.isKron = true → b.isKron = true → False := fun x y => hk ⟨x, y⟩
    obtain ⟨ia, pa⟩ := isKron_convert env a
    obtain ⟨ib, pb⟩ := isKron_convert env b
    refine KDom.of (by rw [ia, ib]; exact hn) ?_
    rw [ia, ib]
    intro hk'
    have := h.pos hn hk'
    exact ⟨pa this.1, pb this.2⟩

theorem MulDef.of {a b : Mat K} (hn : a.isKron = true → b.isKron = true → False)
    (h : (a.readsDiag = true → b.isAM = true → b.DiagDef (den b).bt) ∧ (b.readsDiag = true → a.isAM = true → a.DiagDef (den a).bt) ∧
      (a.lowRk = true → b.lowRk = true → a.innerPos ∧ b.innerPos)) : MulDef a b := by
  cases a <;> first | exact h | skip
  cases b <;> first | exact h | exact (hn rfl rfl).elim

theorem MulDef.out {a b : Mat K} (h : MulDef a b) (hn : a.isKron = true → b.isKron = true → False) :
    (a.readsDiag = true → b.isAM = true → b.DiagDef (den b).bt) ∧ (b.readsDiag = true → a.isAM = true → a.DiagDef (den a).bt) ∧
      (a.lowRk = true → b.lowRk = true → a.innerPos ∧ b.innerPos) := by
  cases a <;> first | exact h | skip
  cases b <;> first | exact h | exact (hn rfl rfl).elim

theorem MulDef.symm {a b : Mat K} (h : MulDef a b) : MulDef b a := by
  induction a generalizing b with
  | kron l r ihl ihr =>
    cases b with
    | kron l' r' => exact ⟨⟨h.1.1.symm, h.1.2.symm⟩, ⟨h.2.1.1.symm, h.2.1.2.symm⟩, ihl h.2.2.1, ihr h.2.2.2⟩
    | _ =>
      have h' := h.out (by simp [Mat.isKron])
      exact MulDef.of (by simp [Mat.isKron]) ⟨h'.2.1, h'.1, fun x y => (h'.2.2 y x).symm⟩
  | _ =>
    have h' := h.out (by simp [Mat.isKron])
    exact MulDef.of (by simp [Mat.isKron]) ⟨h'.2.1, h'.1, fun x y => (h'.2.2 y x).symm⟩

theorem lowRk_convert (env : Env K) (a : Mat K) : (convertAM env a).lowRk = a.lowRk ∧ (a.innerPos → (convertAM env a).innerPos) := by
  cases a <;> first | exact ⟨rfl, id⟩ | skip
  unfold convertAM
  dsimp only
  split_ifs <;> exact ⟨rfl, fun _ => trivial⟩

theorem diagDef_convert {env : Env K} {a : Mat K} (h : a.isAM = true → a.DiagDef (den a).bt) :
    (convertAM env a).DiagDef (den (convertAM env a)).bt := by
  cases a <;> first | exact h rfl | skip
  unfold convertAM
  dsimp only
  split_ifs <;> trivial

theorem MulDef.convert {env : Env K} {a b : Mat K} (h : MulDef a b) : MulDef (convertAM env a) (convertAM env b) := by
  by_cases hk : a.isKron = true ∧ b.isKron = true
  · cases a <;> first | exact absurd hk.1 Bool.false_ne_true | skip
    cases b <;> first | exact absurd hk.2 Bool.false_ne_true | skip
    exact h
  · have hn : a.isKron = true → b.isKron = true → False := fun x y => hk ⟨x, y⟩
    have h' := h.out hn
    obtain ⟨la, pa⟩ := lowRk_convert env a
    obtain ⟨lb, pb⟩ := lowRk_convert env b
    refine MulDef.of (by rw [(isKron_convert env a).1, (isKron_convert env b).1]; exact hn) ⟨?_, ?_, ?_⟩
    · rw [(diagOk_convert (env := env) (a := a)).1]
      exact fun x _ => diagDef_convert (h'.1 x)
    · rw [(diagOk_convert (env := env) (a := b)).1]
      exact fun x _ => diagDef_convert (h'.2.1 x)
    · rw [la, lb]
      exact fun x y => ⟨pa (h'.2.2 x y).1, pb (h'.2.2 x y).2⟩

theorem diagDef_bb {κ : Bool} {T s : Shp} {a r : Mat K} (hf : a.fit κ) (h : a.DiagDef T) (hr : broadcastBatchTo s a = .ok r) : r.DiagDef T := by
  induction a generalizing r κ with
  | num t =>
    simp only [broadcastBatchTo, bind_ok_iff, pure_eq_ok] at hr
    obtain ⟨_, _, rfl⟩ := hr
    exact h
  | kron l r ihl ihr =>
    simp only [broadcastBatchTo, bind_ok_iff, pure_eq_ok] at hr
    obtain ⟨_, hl, _, hr, rfl⟩ := hr
    exact ⟨ihl hf.2.1 h.1 hl, ihr hf.2.2 h.2 hr⟩
  | lr l r m =>
    simp only [broadcastBatchTo, bind_ok_iff] at hr
    obtain ⟨_, _, _, _, _, _, hr⟩ := hr
    obtain rfl := mkLR_inv' hr
    trivial
  | wb d l r m =>
    simp only [broadcastBatchTo, bind_ok_iff] at hr
    obtain ⟨_, _, _, _, _, _, _, _, _, _, _, _, hr⟩ := hr
    obtain rfl := mkWB_inv hr
    trivial
  | diag t =>
    simp only [broadcastBatchTo, bind_ok_iff, mkDiag_ok] at hr
    obtain ⟨_, _, _, rfl⟩ := hr
    trivial
  | lt t =>
    simp only [broadcastBatchTo, bind_ok_iff, mkLT_ok] at hr
    obtain ⟨_, _, _, rfl⟩ := hr
    trivial
  | ut t =>
    simp only [broadcastBatchTo, bind_ok_iff, mkUT_ok] at hr
    obtain ⟨_, _, _, rfl⟩ := hr
    trivial
  | dense t =>
    simp only [broadcastBatchTo, bind_ok_iff, pure_eq_ok] at hr
    obtain ⟨_, _, rfl⟩ := hr
    trivial
  | const t r c =>
    simp only [broadcastBatchTo, bind_ok_iff, pure_eq_ok] at hr
    obtain ⟨_, _, rfl⟩ := hr
    trivial
  | zero bt r c => cases hr; trivial
  | tiled => exact hf.elim

/-! ### Primitives -/

theorem calm_shape {S : Shp} {a : Mat K} (h : a.WF S) : Calm (shape a) := Calm.of h.shape

theorem nAdd_of {a b : Tensor K} (h : Compat a.sh b.sh) : nAdd a b = .ok (zipB (· + ·) a b) := nAdd_ok.2 ⟨h, rfl⟩
theorem nMul_of {a b : Tensor K} (h : Compat a.sh b.sh) : nMul a b = .ok (zipB (· * ·) a b) := nMul_ok.2 ⟨h, rfl⟩
theorem mkDiag_of {t : Tensor K} (h : 1 ≤ t.rank) : mkDiag t = .ok (.diag t) := mkDiag_ok.2 ⟨h, rfl⟩
theorem mkLT_of {t : Tensor K} (h : 2 ≤ t.rank) : mkLT t = .ok (.lt t) := mkLT_ok.2 ⟨h, rfl⟩
theorem mkUT_of {t : Tensor K} (h : 2 ≤ t.rank) : mkUT t = .ok (.ut t) := mkUT_ok.2 ⟨h, rfl⟩
theorem bsE_of {s t : Shp} (h : Compat s t) : bsE s t = .ok (bsh s t) := bsE_ok.2 ⟨h, rfl⟩
theorem assertCompatible_of {s t : Shp} (h : Compat s t) : assertCompatible s t = .ok () := assertCompatible_ok.2 h
theorem guardE_of {c : Prop} [Decidable c] {e : Err} (h : c) : guardE c e = .ok () := guardE_ok.2 h
theorem nBroadcastTo_of' {s : Shp} {t : Tensor K} (h : Fits s t.sh) (hl : t.rank ≤ s.length) : nBroadcastTo s t = .ok (bcast s t) :=
  nBroadcastTo_ok.2 ⟨⟨h, hl⟩, rfl⟩
theorem shapeBroadcast_of {S : Shp} {a b : Mat K} (ha : a.WF S) (hb : b.WF S) (hc : Compat (den a).sh (den b).sh) :
    shapeBroadcast a b = .ok (bsh (den a).sh (den b).sh) := by
  simp only [shapeBroadcast, ha.shape, hb.shape, bind_ok_iff, Except.ok.injEq, exists_eq_left', bsE_ok]
  exact ⟨hc, trivial⟩

theorem mkConst_of {t : Tensor K} {c r : ℕ} {bt : Shp} (h : Compat t.sh bt) : Calm (mkConst t (c :: r :: bt)) := by
  unfold mkConst
  split
  · exact Calm.ok
  · rename_i h1
    simp only [List.cons.injEq] at h1
    obtain ⟨rfl, rfl, rfl⟩ := h1
    exact Calm.step (bsE_of h) (Calm.step (nBroadcastTo_of' h.fits_left (by simp [Tensor.rank, length_bsh])) Calm.pure)
  · rename_i h1 h2; exact absurd rfl (h2 c r bt)

theorem mkZero_calm (c r : ℕ) (bt : Shp) : Calm (mkZero (c :: r :: bt) : E (Mat K)) := Calm.ok

theorem fillDiag_calm (t : Tensor K) : Calm (fillDiag t 1) := by
  unfold fillDiag
  have hc : Compat (expandEnd 1 t).sh (fillT (1 :: t.sh) (1:K)).sh := by
    rw [expandEnd_one_sh, fillT_sh]; exact Compat.refl _
  refine Calm.step (nMul_of hc) (Calm.of (mkDiag_of ?_))
  simp only [Tensor.rank, zipB_sh, length_bsh, fillT_sh, List.length_cons]
  omega

theorem constToLR_calm {S : Shp} {t : Tensor K} (ht : Fits S t.sh) (r c : ℕ) : Calm (constToLR t r c) := by
  unfold constToLR
  refine Calm.bind (fillDiag_calm t) fun m hm => ?_
  obtain ⟨v, rfl, ev, hv⟩ := fillDiag_ok ht hm
  have w1 : Mat.WF S (.num (fillT [1, r] (1:K))) := ⟨by simp [Tensor.rank], Fits.nil _⟩
  have w2 : Mat.WF S (.num (fillT [1, c] (1:K))) := ⟨by simp [Tensor.rank], Fits.nil _⟩
  have w3 : Mat.WF S (.diag v) := ⟨(hv ht).rank, (hv ht).bt⟩
  refine Calm.of (mkLR_ok w1 w2 w3 ⟨by simp [den, Tensor.rank], by simp [den, Tensor.rank], w3.rank rfl⟩ ?_ ?_)
  · simp only [den, diagC_rows, Tensor.cols, ev]; rfl
  · simp only [den, diagC_cols, Tensor.cols, ev]; rfl

theorem transposeM_calm {S : Shp} {a : Mat K} (h : a.WF S) : Calm (transposeM a) := by
  obtain ⟨r, hr, _⟩ := transposeM_ok h
  exact Calm.of hr

theorem trM_calm {S : Shp} {a : Mat K} (t : Bool) (h : a.WF S) : Calm (trM t a) := by
  unfold trM
  exact Calm.ite (fun _ => transposeM_calm h) fun _ => Calm.ok

theorem broadcastTo_calm {B : Ops K} {S : Shp} (hF : B.Fine S) (hB : B.Ok) {a b : Mat K} (ha : a.WF S) (hb : b.WF S) (fa : a.fit true) (aa : a.isAM = true)
    (hb2 : 2 ≤ (den b).rank) (hc : Compat (den a).sh (den b).sh) : Calm (broadcastTo B a (bsh (den a).sh (den b).sh)) := by
  have ga := ha.good (ha.rank aa)
  have gb := hb.good hb2
  have e : bsh (den a).sh (den b).sh = bd (den a).cols (den b).cols :: bd (den a).rows (den b).rows :: bsh (den a).bt (den b).bt := by
    rw [ga.sh, gb.sh]; rfl
  have hf := hc.fits_left
  have hl : (den a).rank ≤ (bsh (den a).sh (den b).sh).length := by
    rw [length_bsh]; simp only [Tensor.rank]; omega
  unfold broadcastTo
  refine Calm.step ha.shape (Calm.ite (fun _ => Calm.ok) fun hne => ?_)
  have hc' : Compat (den a).sh (bsh (den a).sh (den b).sh) := hf.compat (Fits.refl _)
  have hb' : bsh (den a).sh (bsh (den a).sh (den b).sh) = bsh (den a).sh (den b).sh := by
    rw [bsh_comm]; exact bsh_of_fits hf hl
  split
  · refine Calm.step (bsE_of hc') ?_
    rw [hb', e]
    exact Calm.ok
  · rename_i t r c
    refine Calm.step (bsE_of hc') ?_
    rw [hb', e]
    refine mkConst_of ?_
    have := hc'.drop 2
    rw [e] at this
    exact this
  · refine Calm.ite (fun h3 => ?_) fun _ => ?_
    · have hfs : Fits (bsh (den a).bt (den b).bt) (den a).bt := by rw [e, ga.sh] at hf; simpa using hf.drop 2
      rw [e]
      refine Calm.ex (broadcastBatchTo_total (ha.mono hfs) ga.rank (fit_noTiled fa) ?_)
      simp only [List.drop_succ_cons, List.drop_zero, length_bsh]
      omega
    · refine Calm.bind (hF.dense ha fa) fun d hd => ?_
      obtain rfl := hB.dense ha hd
      exact Calm.step (nBroadcastTo_of' hf hl) Calm.pure

theorem alignBatch2_calm {S : Shp} {a b : Mat K} (ha : a.WF S) (hb : b.WF S) (fa : a.fit true) (fb : b.fit true)
    (ka : 2 ≤ (den a).rank) (kb : 2 ≤ (den b).rank) : Calm (alignBatch2 a b) := by
  have hc := ha.fits.compat hb.fits
  unfold alignBatch2
  have e : shapeBatchBroadcast a b = .ok (bsh (den a).bt (den b).bt) := by
    simp only [shapeBatchBroadcast, ha.shapeBatch, hb.shapeBatch, bind_ok_iff, Except.ok.injEq, exists_eq_left', bsE_ok]
    exact ⟨hc, trivial⟩
  refine Calm.step e ?_
  obtain ⟨x, hx⟩ := broadcastBatchTo_total (ha.mono hc.fits_left) ka (fit_noTiled fa) (by rw [length_bsh]; omega)
  obtain ⟨y, hy⟩ := broadcastBatchTo_total (hb.mono hc.fits_right) kb (fit_noTiled fb) (by rw [length_bsh]; omega)
  exact Calm.step hx (Calm.step hy Calm.pure)

end Verif
