/-
C60: a history has one outcome, and gets stuck only at a call outside its domain.
-/
import Verif.Prog2
import Verif.Props13
import Verif.Props12
import Verif.LinQf

set_option linter.unusedSectionVars false

namespace Verif

variable {K : Type} [Field K] [LinearOrder K]

/-! ### More nested calls of `B.take` change nothing -/

theorem takeFactor_below {bad : Err → Prop} {T U : Mat K → Sel → Int → E (Mat K)} (h : ∀ a sel ax, Below bad (T a sel ax) (U a sel ax)) (x : Mat K) (sel : Sel) :
    Below bad (takeFactor T x sel) (takeFactor U x sel) := by
  cases x <;> first | exact .refl _ | exact h _ _ _

theorem takeStep_below {bad : Err → Prop} {B : Ops K} {T U : Mat K → Sel → Int → E (Mat K)} (h : ∀ a sel ax, Below bad (T a sel ax) (U a sel ax)) (a : Mat K) (sel : Sel) (axis : Int) :
    Below bad (takeStep T B a sel axis) (takeStep U B a sel axis) := by
  have hf := takeFactor_below h
  simp only [takeStep]
  refine Below.bind (.refl _) fun n => Below.bind (.refl _) fun k => ?_
  cases a <;> simp only [takeLR] <;> below

theorem takeM_below_succ (B : Ops K) (n : ℕ) (a : Mat K) (sel : Sel) (axis : Int) : Below (· = .fuel) (takeM B n a sel axis) (takeM B (n + 1) a sel axis) := by
  induction n generalizing a sel axis with
  | zero => exact .inr ⟨_, rfl, rfl⟩
  | succ n ih => exact takeStep_below ih a sel axis

theorem takeM_below_le (B : Ops K) {n m : ℕ} (h : n ≤ m) (a : Mat K) (sel : Sel) (axis : Int) : Below (· = .fuel) (takeM B n a sel axis) (takeM B m a sel axis) := by
  induction m, h using Nat.le_induction with
  | base => exact .refl _
  | succ m _ ih => exact ih.trans (takeM_below_succ B m a sel axis)

theorem submatrixM_below_le (B : Ops K) {n m : ℕ} (h : n ≤ m) (a : Mat K) (sel : Sel) : Below (· = .fuel) (submatrixM B n a sel) (submatrixM B m a sel) := by
  have ht := fun a ax => takeM_below_le B h a sel ax
  have hl : ∀ l r x, Below (· = .fuel) (submatrixLR B n l r x sel) (submatrixLR B m l r x sel) := fun l r x =>
    (ht _ _).bind fun _ => (ht _ _).bind fun _ => .refl _
  cases a <;> simp only [submatrixM] <;> below

namespace Call

variable [IsStrictOrderedRing K]

theorem fuel_le (env : Env K) (lin : LinEnv K) {n m : ℕ} (h : n ≤ m) (B : Ops K) (L : LOps K) (k : Call K (Mat K)) :
    Below (· = .fuel) (k.run env lin n B L) (k.run env lin m B L) := by
  cases k with
  | take a sel axis => exact takeM_below_le B h a sel axis
  | submatrix a sel => exact submatrixM_below_le B h a sel
  | _ => exact .refl _

theorem returns_le {c : Cfg K} {lin : LinEnv K} {n m : ℕ} (h : n ≤ m) {k : Call K (Mat K)} {r : Mat K}
    (hr : LReturns c lin (fun B L => k.run c.code lin n B L) r) : LReturns c lin (fun B L => k.run c.code lin m B L) r := by
  obtain ⟨i, j, e⟩ := hr
  exact ⟨i, j, (fuel_le c.code lin h _ _ k).ok e⟩

/-- A call has one result. -/
theorem returns_unique {c : Cfg K} {lin : LinEnv K} {n m : ℕ} {k : Call K (Mat K)} {r s : Mat K} (hr : LReturns c lin (fun B L => k.run c.code lin n B L) r)
    (hs : LReturns c lin (fun B L => k.run c.code lin m B L) s) : r = s :=
  LReturns.unique (calls c.code lin (max n m) k) (returns_le (Nat.le_max_left n m) hr) (returns_le (Nat.le_max_right n m) hs)

end Call

section
variable [IsStrictOrderedRing K]

/-- C60.  Programs are deterministic: two histories of the same calls from the same store end with the same store (not only the same arrays: the same classes and data). -/
theorem C60_deterministic {c : Cfg K} {lin : LinEnv K} {st s t : List (Mat K)} {ks : List (Call K ℕ)} (hs : Hist c lin st ks s) (ht : Hist c lin st ks t) : s = t := by
  induction hs with
  | nil st => cases ht; rfl
  | step fuel hv hd hr hx _ ih =>
    cases ht with
    | step fuel' hv' hd' hr' hx' ht =>
      obtain rfl := Call.returns_unique hr hr'
      exact ih ht

/-! ### Two more calls that return -/

theorem shapeBatchBroadcast_of {S : Shp} {a b : Mat K} (ha : a.WF S) (hb : b.WF S) (hc : BatchCompat a b) : shapeBatchBroadcast a b = .ok (bsh (den a).bt (den b).bt) := by
  simp only [shapeBatchBroadcast, ha.shapeBatch, hb.shapeBatch, bind_ok_iff, Except.ok.injEq, exists_eq_left', bsE_ok]
  exact ⟨hc, trivial⟩

theorem kronZero_calm {S : Shp} {a b : Mat K} (ha : a.WF S) (hb : b.WF S) : Calm (kronZero a b) :=
  Calm.step (shapeBatchBroadcast_of ha hb (ha.fits.compat hb.fits)) (Calm.step ha.shapeMatrix (Calm.step hb.shapeMatrix Calm.ok))

theorem kronM_calm {env : Env K} {S : Shp} {a b : Mat K} (ha : a.WF S) (hb : b.WF S) (h : a.isAM = true ∨ b.isAM = true ∨ 2 ≤ (den a).rank ∧ 2 ≤ (den b).rank) :
    Calm (kronM env a b) := by
  unfold kronM
  split
  · rename_i s t
    have hr : 2 ≤ s.rank ∧ 2 ≤ t.rank := by simpa [Mat.isAM, den] using h
    exact Calm.step (v := ()) (guardE_ok.2 ⟨hr.1, hr.2, ha.fits.compat hb.fits⟩) Calm.ok
  · obtain ⟨wa, -⟩ := den_convertAM (env := env) ha
    obtain ⟨wb, -⟩ := den_convertAM (env := env) hb
    dsimp only
    generalize convertAM env a = a at *
    generalize convertAM env b = b at *
    split
    · exact kronZero_calm wa wb
    · split
      · exact kronZero_calm wb wa
      · split
        · have f1 := Mat.WF.fits wa
          exact Calm.step (nMul_ok.2 ⟨Fits.compat (S := S) wa wb, rfl⟩) (by
            refine mkConst_of ?_
            exact Compat.nil_right _)
        · exact Calm.ok
      · exact Calm.ok

/-- C53.  `B.kron` returns the Kronecker product of valid operands whose batches broadcast, two numeric operands being matrices. -/
theorem C53_kron (c : Cfg K) {a b : Mat K} (ha : a.Valid) (hb : b.Valid) (hc : BatchCompat a b) (h : a.isAM = true ∨ b.isAM = true ∨ 2 ≤ (den a).rank ∧ 2 ≤ (den b).rank) :
    ∃ r, kronM c.code a b = .ok r ∧ r.Valid ∧ IsKron (upT (den a)) (upT (den b)) (den r) := by
  obtain ⟨wa, wb⟩ := ha.common hb hc
  obtain ⟨r, ⟨_, h⟩⟩ := (C35_kron c a b).returns (fun _ => rfl) fun _ => kronM_calm wa wb h
  exact ⟨r, h, C18_kron c ha hb hc h⟩

theorem done_broadcast {env : Env K} (h : CoreDone env) (a : Mat K) (s : Shp) : Done fun n => broadcastTo (ops env n) a s := by
  unfold broadcastTo
  refine Done.bind' (nf_shape _) fun sa _ => Done.ite (Done.const (NF.ok _)) ?_
  cases a with
  | zero bt r c => exact Done.const ((nf_bsE _ _).bind fun _ => nf_mkZero _)
  | const t r c => exact Done.const ((nf_bsE _ _).bind fun _ => nf_mkConst _ _)
  | _ => exact Done.ite (Done.const (nf_broadcastBatchTo _ _)) (Done.bind (h.dense _) fun _ _ => Done.const ((nf_nBroadcastTo _ _).bind fun _ => NF.pure _))

/-- C53.  `B.broadcast_to` returns the numpy broadcast of a supported matrix for every legal target. -/
theorem C53_broadcast_to (c : Cfg K) {a : Mat K} {n k : ℕ} {s : Shp} (ha : a.Supported) (wa : a.wo true) (hm : a.isAM = true) (h0 : 0 ∉ s)
    (hs : Fits (n :: k :: s) (den a).sh) (hl : (den a).bt.length ≤ s.length) :
    ∃ r, Returns c (fun B => broadcastTo B a (n :: k :: s)) r ∧ r.Valid ∧ IsBroadcast (n :: k :: s) (den a) (den r) := by
  have hx : Exact c fun B => broadcastTo B a (n :: k :: s) := (ToleranceFree.of (c := c) fun _ hn n => (sim_broadcastTo (ops_twin hn n) wa _).1).2
  have hf : Finishes c fun B => broadcastTo B a (n :: k :: s) := Done.finishes (done_broadcast (CoreDone.of c.nf) a _)
  obtain ⟨r, h⟩ := hf.returns hx fun m => by
    have hb : Fits s (den a).bt := by simpa [Tensor.bt] using hs.drop 2
    obtain ⟨S, w⟩ := ha.valid
    have e : bsh (den a).sh (den (.zero s k n : Mat K)).sh = n :: k :: s := by
      rw [bsh_comm]
      refine bsh_of_fits hs ?_
      have := length_drop_two (t := den a)
      rw [this] at hl
      show (den a).sh.length ≤ s.length + 2
      unfold Tensor.rank at hl
      omega
    have := broadcastTo_calm (c.fine h0 m) (c.ok m) (w.mono hb) (b := .zero s k n) (Fits.refl s) ha.fit hm (Mat.WF.rank (S := s) (Fits.refl s) rfl) (hs.compat (Fits.refl _))
    rwa [e] at this
  exact ⟨r, h, C28_broadcast_to c ha.valid hm hs hl h hx⟩

/-! ### Progress -/

namespace Call

/-- What it takes, besides `Dom`, for the call to return. -/
def Fine : Call K (Mat K) → Prop
  | .lit _ | .neg _ | .tr _ => True
  | .add a b | .sub a b => Compat (den a).sh (den b).sh
  | .mul a b => Compat (den a).sh (den b).sh ∧ MulDef a b
  | .div a b => a.wo true ∧ b.wo true ∧ Compat (den a).sh (den b).sh ∧ (∀ i, InRange (den b).sh i → (den b).get i ≠ 0) ∧ ∀ t r k, b = .const t r k → 0 < r ∧ 0 < k
  | .matmul ta tb a b => (if ta then Verif.tr (den a) else den a).cols = (if tb then Verif.tr (den b) else den b).rows ∧ KDom ta tb a b
  | .abs a => a.wo true
  | .power n a => a.wo true ∧ (n < 1 → a.Stored (· ≠ 0))
  | .sqrt a => a.wo true ∧ a.Stored (0 ≤ ·)
  | .kron a b => a.isAM = true ∨ b.isAM = true ∨ 2 ≤ (den a).rank ∧ 2 ≤ (den b).rank
  | .take a sel axis => a.wo true ∧ ∀ k, AxisAt (den a).rank axis k → 2 ≤ k → ¬ sel.Picks (dim (den a).sh k) []
  | .submatrix a _ => a.wo true
  | .block rows => (∀ row ∈ rows, ∀ a ∈ row, a.wo true) ∧ BatchesCompat rows.flatten
  | .blockDiag as => as ≠ [] ∧ (∀ a ∈ as, a.wo true) ∧ (∀ a, as = [a] → a.isAM = true) ∧ BatchesCompat as
  | .concat as _ => (∀ a ∈ as, a.wo true) ∧ ((∀ a ∈ as, a.isAM = true) ∨ ∀ a ∈ as, a.isAM = false)
  | .tile a reps => a.wo true ∧ (den a).rank = reps.length
  | .broadcastBatchTo _ _ => True
  | .broadcastTo a _ _ s => a.wo true ∧ 0 ∉ s
  | .inv a => a.InvDom
  | .pdInv a => a.PosDom
  | .solve a b => (den a).rows = (den b).rows ∧ a.SolveFine ∧ NoKronRhs a b
  | .cholSolve a b => CsFine a b
  | .triSolve _ a b => (a.kind = some .lt ∨ a.kind = some .ut) ∧ b.isAM = true ∧ (den a).rows = (den b).rows ∧ (den a).Invertible
  | .chol a => a.CholFine
  | .root a => a.RootFine
  | .iqf _ a b d => (∃ S, 0 ∉ S ∧ Fits S (den a).bt ∧ Fits S (den b).bt ∧ Fits S (den d).bt) ∧ a.PosDom ∧ (den b).rows = (den a).rows ∧ (den d).rows = (den a).rows ∧
      a.wo true ∧ b.wo false ∧ d.wo false ∧ b.isKron = false ∧ d.isKron = false ∧ (a.kind = some .wb → b.plain = true ∧ d.plain = true)

theorem ret {c : Cfg K} {lin : LinEnv K} {f : Ops K → E (Mat K)} {r : Mat K} (h : Returns c f r) : LReturns c lin (fun B _ => f B) r := ⟨0, h⟩

/-- C60.  A call on supported operands in its domain returns. -/
theorem progress (c : Cfg K) {lin : LinEnv K} (hl : lin.Good) {k : Call K (Mat K)} (hv : ∀ a ∈ k.args, a.Supported) (hd : k.Dom) (hf : k.Fine)
    (hx : ∀ fuel, LExact c lin fun B L => k.run c.code lin fuel B L) : ∃ fuel r, LReturns c lin (fun B L => k.run c.code lin fuel B L) r := by
  have hx0 : Exact c fun B => k.run c.code lin 0 B (lops c.code lin B 0) := hx 0 0
  cases k with
  | lit x => exact ⟨0, _, 0, 0, rfl⟩
  | add a b =>
    obtain ⟨r, h, _⟩ := C45_add c (hv a (by simp [args])) (hv b (by simp [args])) hf hd.2 hx0
    exact ⟨0, r, 0, h⟩
  | sub a b =>
    obtain ⟨r, h, _⟩ := C53_subtract c (hv a (by simp [args])) (hv b (by simp [args])) hf hd.2 hx0
    exact ⟨0, r, 0, h⟩
  | mul a b =>
    obtain ⟨r, h, _⟩ := C45_multiply c (hv a (by simp [args])) (hv b (by simp [args])) hf.1 hd.2 hf.2 hx0
    exact ⟨0, r, 0, h⟩
  | div a b =>
    obtain ⟨wa, wb, hc, h0, hn⟩ := hf
    obtain ⟨r, h, _⟩ := C53_divide c (hv a (by simp [args])) (hv b (by simp [args])) wa wb hc hd.2 h0 hn
    exact ⟨0, r, 0, h⟩
  | matmul ta tb a b =>
    obtain ⟨r, h, _⟩ := C45_matmul c (hv a (by simp [args])) (hv b (by simp [args])) hd.1 hd.2.1 hd.2.2 hf.1 hf.2 hx0
    exact ⟨0, r, 0, h⟩
  | neg a =>
    have s := hv a (by simp [args])
    obtain ⟨r, h, _⟩ := negativeM_keeps s.valid.own s.fit
    exact ⟨0, r, 0, 0, h⟩
  | tr a =>
    obtain ⟨r, h, _⟩ := C06_transpose (hv a (by simp [args])).valid hd
    exact ⟨0, r, 0, 0, h⟩
  | abs a =>
    obtain ⟨r, h, _⟩ := C53_abs c (hv a (by simp [args])) hf
    exact ⟨0, r, 0, h⟩
  | power n a =>
    by_cases hn : 1 ≤ n
    · obtain ⟨r, h, _⟩ := C53_power c hn (hv a (by simp [args])) hf.1
      exact ⟨0, r, 0, h⟩
    · obtain ⟨r, h, _⟩ := C53_power_neg c (k := n) (hv a (by simp [args])) hf.1 (hd.resolve_left hn) (hf.2 (by omega))
      exact ⟨0, r, 0, h⟩
  | sqrt a =>
    obtain ⟨r, h, _⟩ := C53_sqrt c hl.lawful hl.complete (hv a (by simp [args])) hf.1 hf.2
    exact ⟨0, r, 0, h⟩
  | kron a b =>
    obtain ⟨r, h, _⟩ := C53_kron c (hv a (by simp [args])).valid (hv b (by simp [args])).valid hd hf
    exact ⟨0, r, 0, 0, h⟩
  | take a sel axis =>
    obtain ⟨h2, k, js, hk, ho, hp⟩ := hd
    obtain ⟨m, r, h, _⟩ := C53_take c (hv a (by simp [args])) hf.1 h2 hk ho hp fun h => by
      rintro rfl
      exact hf.2 k hk h hp
    exact ⟨m, r, 0, h⟩
  | submatrix a sel =>
    obtain ⟨h2, js, js', ho, ht, h1, h0⟩ := hd
    obtain ⟨m, r, h, _⟩ := C53_submatrix c (hv a (by simp [args])) hf h2 ho h1 h0
    exact ⟨m, r, 0, h⟩
  | block rows =>
    obtain ⟨h2, hs, ws, e1, e2, hg⟩ := hd
    obtain ⟨r, h, _⟩ := C53_block c e1 e2 (fun row hr a ha => hv a (List.mem_flatten.2 ⟨row, hr, ha⟩)) hf.1 h2 hg hf.2
    exact ⟨0, r, 0, h⟩
  | blockDiag as =>
    obtain ⟨h0, hw, h1, hc⟩ := hf
    obtain ⟨r, h, _⟩ := C53_block_diag c h0 hv hw hd.1 h1 hc
    exact ⟨0, r, 0, h⟩
  | concat as axis =>
    obtain ⟨h0, h2, k, hk, hs⟩ := hd
    obtain ⟨r, h, _⟩ := C53_concat c h0 hv hf.1 h2 hf.2 hk hs
    exact ⟨0, r, 0, h⟩
  | tile a reps =>
    obtain ⟨r, h, _⟩ := C53_tile c (hv a (by simp [args])) hf.1 hd hf.2
    exact ⟨0, r, 0, h⟩
  | broadcastBatchTo s a =>
    have q := hv a (by simp [args])
    obtain ⟨r, h, _⟩ := C28_broadcast_batch_to q.valid hd.1 (fit_noTiled q.fit) hd.2.1 hd.2.2
    exact ⟨0, r, 0, 0, h⟩
  | broadcastTo a n k s =>
    obtain ⟨r, h, _⟩ := C53_broadcast_to c (hv a (by simp [args])) hf.1 hd.1 hf.2 hd.2.1 hd.2.2
    exact ⟨0, r, 0, h⟩
  | inv a =>
    obtain ⟨r, h, _⟩ := C50_inv c hl (hv a (by simp [args])) hf (hx 0)
    exact ⟨0, r, h⟩
  | pdInv a =>
    obtain ⟨r, h, _⟩ := C50_pd_inv c hl (hv a (by simp [args])) hf (hx 0)
    exact ⟨0, r, h⟩
  | solve a b =>
    obtain ⟨r, h, _⟩ := C50_solve c hl (hv a (by simp [args])) (hv b (by simp [args])) hd.1 hd.2.1 hd.2.2 hf.1 hf.2.1 hf.2.2 (hx 0)
    exact ⟨0, r, h⟩
  | cholSolve a b =>
    obtain ⟨r, h, _⟩ := C50_cholesky_solve c hl (hv a (by simp [args])) (hv b (by simp [args])) hd.1 hd.2.1 hd.2.2.1 hf (hx 0)
    exact ⟨0, r, h⟩
  | triSolve lower a b =>
    obtain ⟨hk, hb, hr, hi⟩ := hf
    have e : (fun B L => (Call.triSolve lower a b).run c.code lin 0 B L) = fun _ L => L.solve a b := by
      funext B L
      cases a <;> simp [Mat.kind] at hk <;> simp [run, triangularSolve, hb]
    have h2a : 2 ≤ (den a).rank := (hv a (by simp [args])).valid.own.rank (by cases a <;> simp [Mat.kind] at hk <;> rfl)
    have h2b : 2 ≤ (den b).rank := (hv b (by simp [args])).valid.own.rank hb
    have hx' := hx 0
    rw [e] at hx'
    obtain ⟨r, h, _⟩ := C50_solve c hl (hv a (by simp [args])) (hv b (by simp [args])) hd h2a h2b hr (by cases a <;> simp [Mat.kind] at hk <;> exact hi)
      (by intro h; rcases hk with h' | h' <;> rw [h'] at h <;> simp at h) hx'
    exact ⟨0, r, by rw [e]; exact h⟩
  | chol a =>
    obtain ⟨r, h, _⟩ := C50_cholesky c hl (hv a (by simp [args])) hf (hx 0)
    exact ⟨0, r, h⟩
  | root a =>
    obtain ⟨r, h, _⟩ := C50_root c hl (hv a (by simp [args])) hf (hx 0)
    exact ⟨0, r, h⟩
  | iqf same a b d =>
    obtain ⟨_, h2b, h2d, _, ⟨ai, hi⟩, hs, hz⟩ := hd
    obtain ⟨⟨S, h0, fa, fb, fd⟩, hp, hrb, hrd, wa, wb, wd, nb, nd, hpl⟩ := hf
    have qa := hv a (by simp [args])
    have qb := hv b (by simp [args])
    have qd := hv d (by simp [args])
    obtain ⟨r, h, _⟩ := C50_iqf_always c hl h0 (qa.valid.own.mono fa) (qb.valid.own.mono fb) (qd.valid.own.mono fd) qa.fit qb.fit qd.fit h2b h2d hp hi hs hz hrb hrd wa wb wd nb nd hpl
    exact ⟨0, r, h⟩

/-- In the store `st` the call is known to return: it reads variables that exist and hold supported matrices, these lie in the domain of the operation, and the tolerance tests are exact. -/
def Ready (c : Cfg K) (lin : LinEnv K) (st : List (Mat K)) (k : Call K ℕ) : Prop :=
  (∀ i ∈ k.args, i < st.length) ∧ (∀ a ∈ (k.map (readVar (.num (scalarT 0)) st)).args, a.Supported) ∧ (k.map (readVar (.num (scalarT 0)) st)).Dom ∧
    (k.map (readVar (.num (scalarT 0)) st)).Fine ∧ ∀ fuel, LExact c lin fun B L => (k.map (readVar (.num (scalarT 0)) st)).run c.code lin fuel B L

theorem Ready.step {c : Cfg K} {lin : LinEnv K} (hl : lin.Good) {st : List (Mat K)} {k : Call K ℕ} (h : k.Ready c lin st) :
    ∃ r, ∀ {ks st'}, Hist c lin (st ++ [r]) ks st' → Hist c lin st (k :: ks) st' := by
  obtain ⟨hi, hs, hd, hf, hx⟩ := h
  obtain ⟨fuel, r, hr⟩ := progress c hl hs hd hf hx
  exact ⟨r, fun h => .step fuel hi hd hr (hx fuel) h⟩

end Call

/-- C60.  A program never gets stuck inside the documented domains: every program either runs to its end, or reaches, after a history of its first calls, a call that is not `Ready`
(its operands do not exist, are not supported, or lie outside the domain of the operation). -/
theorem C60_progress (c : Cfg K) {lin : LinEnv K} (hl : lin.Good) (st : List (Mat K)) (ks : List (Call K ℕ)) :
    (∃ st', Hist c lin st ks st') ∨ ∃ ks₁ k ks₂ st₁, ks = ks₁ ++ k :: ks₂ ∧ Hist c lin st ks₁ st₁ ∧ ¬ k.Ready c lin st₁ := by
  induction ks generalizing st with
  | nil => exact .inl ⟨st, .nil st⟩
  | cons k ks ih =>
    by_cases h : k.Ready c lin st
    · obtain ⟨r, hr⟩ := h.step hl
      rcases ih (st ++ [r]) with ⟨st', h'⟩ | ⟨ks₁, k', ks₂, st₁, e, h', hn⟩
      · exact .inl ⟨st', hr h'⟩
      · exact .inr ⟨k :: ks₁, k', ks₂, st₁, by rw [e]; rfl, hr h', hn⟩
    · exact .inr ⟨[], k, ks, st, rfl, .nil st, h⟩

end

/-! ### An example: invert a Woodbury matrix over the reals -/

theorem Ex.pr_ready : (Call.pdInv 0 : Call ℝ ℕ).Ready ⟨fun _ => true, 0⟩ realLin [Ex.PR] := by
  refine ⟨by intro i hi; simp [Call.args] at hi; subst hi; exact Nat.zero_lt_one, ?_, ?_, Ex.PR_posDom, fun _ => LExact.of_tol (le_refl _) _⟩
  · intro a ha
    simp only [Call.map, Call.args, List.mem_singleton] at ha
    subst ha
    exact Ex.PR_supported
  · show Ex.PR.PdDom
    exact Mat.PosDom.pdDom Ex.PR_posDom

/-- The program `pd_inv` on a Woodbury matrix runs to its end. -/
example : ∃ st', Hist ⟨fun _ => true, 0⟩ realLin [Ex.PR] [.pdInv 0] st' := by
  rcases C60_progress ⟨fun _ => true, 0⟩ realLin_good [Ex.PR] [.pdInv 0] with h | ⟨ks₁, k, ks₂, st₁, e, h, hn⟩
  · exact h
  · cases ks₁ with
    | nil =>
      cases h
      obtain ⟨rfl, rfl⟩ := List.cons.inj e
      exact absurd Ex.pr_ready hn
    | cons k' ks₁ => simp at e

end Verif
