/-
Densification warnings (C44): the core run with `warnings.simplefilter("error")`, so that a `ToDenseWarning` stops the run with the error `warn`.
A run that issues a warning is one that stops with `warn` here; a run without warnings returns what the core returns.
-/
import Verif.Kinds

set_option linter.unusedSectionVars false
set_option linter.unusedSimpArgs false

namespace Verif

variable {K : Type} [Field K] [LinearOrder K]

/-- `structured(x)` for one argument, `matrix.py` 168-187: a matrix that is not Dense. -/
def Mat.structured : Mat K → Bool
  | .num _ => false
  | .dense _ => false
  | _ => true

/-- `if b: warn_upmodule(..., category=ToDenseWarning)`. -/
def warnIf (b : Bool) : E Unit := guardE (b = false) .warn

@[simp] theorem warnIf_ok {b : Bool} {u : Unit} : warnIf b = .ok u ↔ b = false := guardE_ok

/-- The warning of `B.broadcast_to(a, *shape)`, `ops/broadcast_to.py` 25-37: a structured matrix whose rows or columns are stretched. -/
def warnBroadcast (a : Mat K) (s : Shp) : E Unit := do
  let sa ← shape a
  if sa = s then pure ()
  else match a with
    | .zero .. => pure ()
    | .const .. => pure ()
    | a => if sa.take 2 = s.take 2 then pure () else warnIf a.structured

/-- `_pad_zero_row(a)`, `ops/add.py` 149-151, with the warning of `B.concat`, `ops/concat.py` 15-22. -/
def wPadZeroRow (B : Ops K) (a : Mat K) : E (Mat K) := do
  let _ ← shape a
  warnIf a.structured
  padZeroRow B a
/-- `_pad_zero_col(a)`, `ops/add.py` 154-156, with the warning of `B.concat`, `ops/concat.py` 15-22. -/
def wPadZeroCol (B : Ops K) (a : Mat K) : E (Mat K) := do
  let _ ← shape a
  warnIf a.structured
  padZeroCol B a

/-- `add(a: LowRank, b: LowRank)`, `ops/add.py` 163-201, with its warnings (`addLRLR` otherwise); what `B.take` gets is Dense or numeric. -/
def wAddLRLR (env : Env K) (B : Ops K) (al ar am bl br bm : Mat K) : E (Mat K) := do
  assertCompatible (← shape (.lr al ar am)) (← shape (.lr bl br bm))
  let L ← align env (← B.dense al) (← B.dense bl)
  let R ← align env (← B.dense ar) (← B.dense br)
  let aLeft ← takeGen B (← wPadZeroCol B al) L.aJoin (-1)
  let bLeft ← takeGen B (← wPadZeroCol B bl) L.bJoin (-1)
  let joinLeft ← B.add aLeft bLeft
  let aRight ← takeGen B (← wPadZeroCol B ar) R.aJoin (-1)
  let bRight ← takeGen B (← wPadZeroCol B br) R.bJoin (-1)
  let joinRight ← B.add aRight bRight
  let aMid ← takeGen B (← takeGen B (← wPadZeroCol B (← wPadZeroRow B am)) L.aPerm (-2)) R.aPerm (-1)
  let bMid ← takeGen B (← takeGen B (← wPadZeroCol B (← wPadZeroRow B bm)) L.bPerm (-2)) R.bPerm (-1)
  let joinMid ← B.add aMid bMid
  let lr ← mkLR joinLeft joinRight joinMid
  if ← env.isZero (← B.dense joinMid) then mkZero (← shape lr)
  else return lr

/-- The warnings a method of `B.add` issues itself, with the checks before them: `ops/add.py` 33-42 (through `broadcast_to`), 50-53, 81-84.
No other method of `B.add` but LowRank + LowRank (`wAddLRLR`) warns. -/
def addWarn (m : AddM) (a b : Mat K) : E Unit :=
  match m with
  | .amZero => do
    assertCompatible (← shape a) (← shape b)
    warnBroadcast a (← shapeBroadcast a b)
  | .zeroAm => do
    assertCompatible (← shape a) (← shape b)
    warnBroadcast b (← shapeBroadcast a b)
  | .amAm => warnIf (a.structured && b.structured)
  | .constAm => warnIf b.structured
  | _ => pure ()

/-- One method of `B.add` with its warnings. -/
def wAddRun (env : Env K) (B : Ops K) (m : AddM) (a b : Mat K) : E (Mat K) :=
  match m, a, b with
  | .lrLr, .lr al ar am, .lr bl br bm => wAddLRLR env B al ar am bl br bm
  | m, a, b => do
    addWarn m a b
    addRun env B m a b

/-- `B.add(a, b)` with its warnings, for matrices. -/
def wAddOn (env : Env K) (B : Ops K) (a b : Mat K) : E (Mat K) :=
  match a.kind, b.kind with
  | some ka, some kb => wAddRun env B (addId ka kb) a b
  | _, _ => .error .notFound

/-- `B.add(a, b)` with its warnings. -/
def wAdd (env : Env K) (B : Ops K) (a b : Mat K) : E (Mat K) :=
  match a, b with
  | .num s, .num t => do return .num (← nAdd s t)
  | a, b => wAddOn env B (convertAM env a) (convertAM env b)

/-- The warnings a method of `B.multiply` issues itself: `ops/multiply.py` 45-48, 97-101, 190-196.
The Zero methods broadcast a Zero, which never warns. -/
def mulWarn (m : MulM) (a b : Mat K) : E Unit :=
  match m, a, b with
  | .amAm, a, b => warnIf (a.structured || b.structured)
  | .constAm, a, b => do
    assertCompatible (← shape a) (← shape b)
    warnIf b.structured
  | .lrLr, .lr al ar am, .lr bl br bm => do
    assertCompatible (← shape (.lr al ar am)) (← shape (.lr bl br bm))
    warnIf (al.structured || ar.structured || bl.structured || br.structured)
  | _, _, _ => pure ()

/-- `B.multiply(a, b)` with its warnings, for matrices. -/
def wMulOn (B : Ops K) (a b : Mat K) : E (Mat K) :=
  match a.kind, b.kind with
  | some ka, some kb => do
    mulWarn (mulId ka kb) a b
    mulRun B (mulId ka kb) a b
  | _, _ => .error .notFound

/-- `B.multiply(a, b)` with its warnings. -/
def wMul (env : Env K) (B : Ops K) (a b : Mat K) : E (Mat K) :=
  match a, b with
  | .num s, .num t => do return .num (← nMul s t)
  | a, b => wMulOn B (convertAM env a) (convertAM env b)

/-- The warnings a method of `B.matmul` issues itself: `ops/matmul.py` 161-165, 173-177, 371-375, 381-385, and for a Kronecker product on the
left (343-361) the one of `B.reshape(b, ...)`, `ops/reshape.py` 12-15. -/
def mmWarn (m : MmM) (ta tb : Bool) (a b : Mat K) : E Unit :=
  match m, a, b with
  | .ltAm, _, b => warnIf b.structured
  | .amLt, a, _ => warnIf a.structured
  | .kronDiag, _, _ => warnIf true
  | .diagKron, _, _ => warnIf true
  | .kronAm, .kron l r, b => do
    assertComposable ta tb (.kron l r) b
    let _ ← trM ta l
    let _ ← trM ta r
    let b ← trM tb b
    warnIf b.structured
  | _, _, _ => pure ()

/-- `_kron_id_a_b(a, b)`, `ops/matmul.py` 333-335, with the warning of `B.reshape` of the product, `ops/reshape.py` 12-15. -/
def wKronIdAB (B : Ops K) (a : Mat K) (b : Tensor K) : E (Tensor K) := do
  let sa ← shape a
  let x ← reshapeCols (some (dim sa 0)) none b
  let y ← B.matmul false false a (.num x)
  warnIf y.structured
  reshapeCols none (some b.cols) (← B.dense y)

/-- `_kron_a_id_b(a, b)`, `ops/matmul.py` 338-340, with the same warning. -/
def wKronAIdB (B : Ops K) (a : Mat K) (b : Tensor K) : E (Tensor K) := do
  let sa ← shape a
  let x ← reshapeRows (some (dim sa 0)) none b
  let y ← B.matmul false false a (.num x)
  warnIf y.structured
  reshapeRows none (some b.cols) (← B.dense y)

/-- `matmul(a: Kronecker, b: AbstractMatrix)`, `ops/matmul.py` 343-361, with the warnings of reshaping the products (`matmulKronAm` otherwise). -/
def wMatmulKronAm (B : Ops K) (ta tb : Bool) (l r b : Mat K) : E (Mat K) := do
  assertComposable ta tb (.kron l r) b
  let l ← trM ta l
  let r ← trM ta r
  let b ← trM tb b
  let sl ← shapeMatrix l
  let sr ← shapeMatrix r
  let b ← B.dense b
  let costLeft := sl.1 * sl.2 * sr.2 + sr.1 * sr.2 * sl.1
  let costRight := sr.1 * sr.2 * sl.2 + sl.1 * sl.2 * sr.1
  if costLeft ≤ costRight then
    return mkDense (← wKronIdAB B r (← wKronAIdB B l b))
  else
    return mkDense (← wKronAIdB B l (← wKronIdAB B r b))

/-- `matmul(a: LowRank, b: LowRank)`, `ops/matmul.py` 239-249, with the warning of indexing a structured `1 × 1` middle, `matrix.py` 58-63. -/
def wMatmulLRLR (B : Ops K) (ta tb : Bool) (a b : Mat K) : E (Mat K) := do
  assertComposable ta tb a b
  match ← trM ta a, ← trM tb b with
  | .lr al ar am, .lr bl br bm => do
    let middle ← B.matmul true false ar bl
    let middle ← matmul3 B false false false am middle bm
    let s ← shapeMatrix middle
    if s = (1, 1) then do
      warnIf middle.structured
      let d ← B.dense middle
      let m' ← mkDiag (mkVec d.bt 1 fun β _ => d.at' β 0 0)
      mkLR al br m'
    else mkLR al br middle
  | _, _ => .error .attribute

/-- One method of `B.matmul` with the warnings inside. -/
def wMmRun (B : Ops K) (m : MmM) (ta tb : Bool) (a b : Mat K) : E (Mat K) :=
  match m, a, b with
  | .kronAm, .kron l r, b => wMatmulKronAm B ta tb l r b
  | .lrLr, a, b => wMatmulLRLR B ta tb a b
  | m, a, b => mmRun B m ta tb a b

/-- `B.matmul(a, b, tr_a, tr_b)` with its warnings, for matrices. -/
def wMatmulOn (B : Ops K) (ta tb : Bool) (a b : Mat K) : E (Mat K) :=
  match a.kind, b.kind with
  | some ka, some kb =>
    match mmId ka kb with
    | some m => do
      mmWarn m ta tb a b
      wMmRun B m ta tb a b
    | none => .error .notFound
  | _, _ => .error .notFound

/-- `B.matmul(a, b, tr_a, tr_b)` with its warnings. -/
def wMatmul (env : Env K) (B : Ops K) (ta tb : Bool) (a b : Mat K) : E (Mat K) :=
  match a, b with
  | .num s, .num t => do return .num (← nMatmul ta tb s t)
  | a, b => wMatmulOn B ta tb (convertAM env a) (convertAM env b)

/-- `B.diag(a)` with its warning, `ops/diag.py` 46-50. -/
def wDiag (B : Ops K) (a : Mat K) : E (Tensor K) :=
  match a with
  | .lr l r m => do
    warnIf (l.structured || r.structured)
    stepDiag B (.lr l r m)
  | a => stepDiag B a

/-- `B.dense(a)` with its warnings: for TiledBlocks with structured blocks those of `B.tile`, `ops/tile.py` 15-19, and `B.concat`, `ops/concat.py` 15-22
(`ops/dense.py` 116-122); they are put before the checks of the shapes. -/
def wDense (B : Ops K) (a : Mat K) : E (Tensor K) :=
  match a with
  | .tiled n blk reps axis => do
    warnIf ((List.ofFn blk).any Mat.structured)
    stepDense B (.tiled n blk reps axis)
  | a => stepDense B a

/-- One unfolding of the core with warnings. `B.sum` over a matrix axis has no warnings of its own. -/
def wstep (env : Env K) (B : Ops K) : Ops K where
  dense := wDense B
  add := wAdd env B
  mul := wMul env B
  matmul := wMatmul env B
  diag := wDiag B
  sumM := stepSumM B

/-- The core with warnings as errors, with recursion depth at most `n`. -/
def wops (env : Env K) : ℕ → Ops K
  | 0 => Ops.bot
  | n+1 => wstep env (wops env n)

/-- `f` runs without any ToDenseWarning and returns `r`. -/
def Quiet {α : Type} (c : Cfg K) (f : Ops K → E α) (r : α) : Prop := ∃ n, f (wops c.code n) = .ok r
/-- `f` issues a ToDenseWarning. -/
def Warns {α : Type} (c : Cfg K) (f : Ops K → E α) : Prop := ∃ n, f (wops c.code n) = .error .warn

/-! ### Without warnings the result is that of the core -/

/-- A warning that may stop the run, followed by the same run. -/
theorem Below.warn {x y : E α} {w : E Unit} (hw : ∀ e, w = .error e → e = .warn ∨ y = .error e) (h : Below (· = .warn) x y) :
    Below (· = .warn) (w >>= fun _ => x) y := by
  cases hx : w with
  | error e =>
    rcases hw e hx with rfl | h
    · exact Or.inr ⟨_, rfl, rfl⟩
    · exact Or.inl h.symm
  | ok u => exact h


theorem err_bind {x : E α} {f : α → E β} {e : Err} : (x >>= f) = .error e ↔ x = .error e ∨ ∃ a, x = .ok a ∧ f a = .error e := by
  cases x <;> simp [bind, Except.bind]

theorem warnIf_err {b : Bool} {e : Err} : warnIf b = .error e ↔ b = true ∧ e = .warn := by
  cases b <;> simp [warnIf, guardE, eq_comm]

theorem guardE_err {p : Prop} [Decidable p] {e e' : Err} : guardE p e = .error e' ↔ ¬ p ∧ e = e' := by
  unfold guardE; split_ifs with h <;> simp [h]

theorem pure_err {x : α} {e : Err} : (pure x : E α) = .error e ↔ False := by simp [pure, Except.pure]

theorem warnBroadcast_err {a : Mat K} {s : Shp} {e : Err} (h : warnBroadcast a s = .error e) : e = .warn ∨ shape a = .error e := by
  rcases err_bind.1 h with h | ⟨sa, _, h⟩
  · exact Or.inr h
  · left
    split_ifs at h with h1 h2
    · exact (pure_err.1 h).elim
    · split at h <;> exact (pure_err.1 h).elim
    · split at h
      · exact (pure_err.1 h).elim
      · exact (pure_err.1 h).elim
      · exact (warnIf_err.1 h).2

/-- The first error of the prefix of a run is the error of the run. -/
theorem err_of_left {x : E α} {f : α → E β} {e : Err} (h : x = .error e) : (x >>= f) = .error e := by rw [h]; rfl

section
variable {B C : Ops K} {env : Env K}

theorem addWarn_err {m : AddM} {a b : Mat K} (hm : m = .amZero → ∃ bt r c, b = .zero bt r c) (hm' : m = .zeroAm → ∃ bt r c, a = .zero bt r c) {e : Err}
    (h : addWarn m a b = .error e) : e = .warn ∨ addRun env C m a b = .error e := by
  cases m
  case amZero =>
    obtain ⟨bt, r, c, rfl⟩ := hm rfl
    simp only [addWarn, err_bind] at h
    rcases h with h | ⟨sa, h1, h | ⟨sb, h2, h | ⟨u, h3, h | ⟨sc, h4, h⟩⟩⟩⟩
    · right; simp only [addRun, h]; rfl
    · right; simp only [addRun, h1, h]; rfl
    · right; simp only [addRun, h1, h2, bind, Except.bind, h]
    · right; simp only [addRun, h1, h2, h3, bind, Except.bind, h]
    · rcases warnBroadcast_err h with h | h
      · exact Or.inl h
      · rw [h1] at h; cases h
  case zeroAm =>
    obtain ⟨bt, r, c, rfl⟩ := hm' rfl
    simp only [addWarn, err_bind] at h
    rcases h with h | ⟨sa, h1, h | ⟨sb, h2, h | ⟨u, h3, h | ⟨sc, h4, h⟩⟩⟩⟩
    · right; simp only [addRun, h]; rfl
    · right; simp only [addRun, h1, h]; rfl
    · right; simp only [addRun, h1, h2, bind, Except.bind, h]
    · right; simp only [addRun, h1, h2, h3, bind, Except.bind, h]
    · rcases warnBroadcast_err h with h | h
      · exact Or.inl h
      · rw [h2] at h; cases h
  case amAm => exact Or.inl (warnIf_err.1 h).2
  case constAm => exact Or.inl (warnIf_err.1 h).2
  all_goals exact (pure_err.1 h).elim

theorem mulWarn_err {m : MulM} {a b : Mat K} (hm : m = .constAm → ∃ t r c, a = .const t r c) {e : Err}
    (h : mulWarn m a b = .error e) : e = .warn ∨ mulRun C m a b = .error e := by
  unfold mulWarn at h
  split at h
  · exact Or.inl (warnIf_err.1 h).2
  · obtain ⟨t, r, c, rfl⟩ := hm rfl
    simp only [err_bind] at h
    rcases h with h | ⟨sa, h1, h | ⟨sb, h2, h | ⟨u, h3, h⟩⟩⟩
    · right; simp only [mulRun, h]; rfl
    · right; simp only [mulRun, h1, h]; rfl
    · right; simp only [mulRun, h1, h2, bind, Except.bind, h]
    · exact Or.inl (warnIf_err.1 h).2
  · simp only [err_bind] at h
    rcases h with h | ⟨sa, h1, h | ⟨sb, h2, h | ⟨u, h3, h⟩⟩⟩
    · right; simp only [mulRun, mulLRLR, h]; rfl
    · right; simp only [mulRun, mulLRLR, h1, h]; rfl
    · right; simp only [mulRun, mulLRLR, h1, h2, bind, Except.bind, h]
    · exact Or.inl (warnIf_err.1 h).2
  · exact (pure_err.1 h).elim

theorem mmWarn_err {m : MmM} {ta tb : Bool} {a b : Mat K} {e : Err} (h : mmWarn m ta tb a b = .error e) : e = .warn ∨ mmRun C m ta tb a b = .error e := by
  unfold mmWarn at h
  split at h
  · exact Or.inl (warnIf_err.1 h).2
  · exact Or.inl (warnIf_err.1 h).2
  · exact Or.inl (warnIf_err.1 h).2
  · exact Or.inl (warnIf_err.1 h).2
  · simp only [err_bind] at h
    rcases h with h | ⟨u, h1, h | ⟨l', h2, h | ⟨r', h3, h | ⟨b', h4, h⟩⟩⟩⟩
    · right; simp only [mmRun, matmulKronAm, h]; rfl
    · right; simp only [mmRun, matmulKronAm, h1, h]; rfl
    · right; simp only [mmRun, matmulKronAm, h1, h2, bind, Except.bind, h]
    · right; simp only [mmRun, matmulKronAm, h1, h2, h3, bind, Except.bind, h]
    · exact Or.inl (warnIf_err.1 h).2
  · exact (pure_err.1 h).elim

theorem wPadCol_below (h : Ops.Below bad B C) (a : Mat K) : Below bad (wPadZeroCol B a) (wPadZeroCol C a) := by
  have := h.dense
  unfold wPadZeroCol padZeroCol; below
theorem wPadRow_below (h : Ops.Below bad B C) (a : Mat K) : Below bad (wPadZeroRow B a) (wPadZeroRow C a) := by
  have := h.dense
  unfold wPadZeroRow padZeroRow; below
theorem takeGen_below (h : Ops.Below bad B C) (a : Mat K) (l : List Int) (ax : Int) : Below bad (takeGen B a l ax) (takeGen C a l ax) := by
  have := h.dense
  unfold takeGen; below

theorem wAddLRLR_below (h : Ops.Below bad B C) (al ar am bl br bm : Mat K) :
    Below bad (wAddLRLR env B al ar am bl br bm) (wAddLRLR env C al ar am bl br bm) := by
  have h1 := h.dense
  have h2 := h.add
  have h3 := wPadCol_below h
  have h4 := wPadRow_below h
  have h5 := takeGen_below h
  unfold wAddLRLR; below

theorem wAddRun_below (h : Ops.Below bad B C) (m : AddM) (a b : Mat K) : Below bad (wAddRun env B m a b) (wAddRun env C m a b) := by
  unfold wAddRun
  split
  · exact wAddLRLR_below h _ _ _ _ _ _
  · exact (Below.refl _).bind fun _ => addRun_below (Env.Below.refl _) h _ _ _

theorem wAddOn_below (h : Ops.Below bad B C) (a b : Mat K) : Below bad (wAddOn env B a b) (wAddOn env C a b) := by
  unfold wAddOn
  cases a.kind <;> cases b.kind <;> first | exact Below.refl _ | exact wAddRun_below h _ _ _
theorem wMulOn_below (h : Ops.Below bad B C) (a b : Mat K) : Below bad (wMulOn B a b) (wMulOn C a b) := by
  unfold wMulOn
  cases a.kind <;> cases b.kind <;> first | exact Below.refl _ | exact (Below.refl _).bind fun _ => mulRun_below h _ _ _
theorem wMmRun_below (h : Ops.Below bad B C) (m : MmM) (ta tb : Bool) (a b : Mat K) : Below bad (wMmRun B m ta tb a b) (wMmRun C m ta tb a b) := by
  have h1 := h.dense
  have h2 := h.matmul
  have h3 : ∀ ta tb tc a b c, Below bad (matmul3 B ta tb tc a b c) (matmul3 C ta tb tc a b c) := matmul3_below h
  unfold wMmRun
  split
  · unfold wMatmulKronAm wKronIdAB wKronAIdB; below
  · unfold wMatmulLRLR; below
  · exact mmRun_below h _ _ _ _ _
theorem wDense_below (h : Ops.Below bad B C) (a : Mat K) : Below bad (wDense B a) (wDense C a) := by
  unfold wDense
  split
  · exact (Below.refl _).bind fun _ => stepDense_below h _
  · exact stepDense_below h _
theorem wMatmulOn_below (h : Ops.Below bad B C) (ta tb : Bool) (a b : Mat K) : Below bad (wMatmulOn B ta tb a b) (wMatmulOn C ta tb a b) := by
  unfold wMatmulOn
  cases a.kind with
  | none => exact Below.refl _
  | some ka => cases b.kind with
    | none => exact Below.refl _
    | some kb =>
      dsimp only
      cases mmId ka kb with
      | none => exact Below.refl _
      | some m => exact (Below.refl _).bind fun _ => wMmRun_below h _ _ _ _ _
theorem wDiag_below (h : Ops.Below bad B C) (a : Mat K) : Below bad (wDiag B a) (wDiag C a) := by
  unfold wDiag
  split
  · exact (Below.refl _).bind fun _ => stepDiag_below h _
  · exact stepDiag_below h _

/-- The core with warnings is monotone in the functions it calls. -/
theorem wstep_below (h : Ops.Below bad B C) : Ops.Below bad (wstep env B) (wstep env C) where
  dense := wDense_below h
  add a b := by
    show Below bad (wAdd env B a b) (wAdd env C a b)
    unfold wAdd
    split
    · exact Below.refl _
    · exact wAddOn_below h _ _
  mul a b := by
    show Below bad (wMul env B a b) (wMul env C a b)
    unfold wMul
    split
    · exact Below.refl _
    · exact wMulOn_below h _ _
  matmul ta tb a b := by
    show Below bad (wMatmul env B ta tb a b) (wMatmul env C ta tb a b)
    unfold wMatmul
    split
    · exact Below.refl _
    · exact wMatmulOn_below h _ _ _ _
  diag := wDiag_below h
  sumM := stepSumM_below h

end

variable {env : Env K}

theorem wops_below_succ (n : ℕ) : Ops.Below (· = .fuel) (wops env n) (wops env (n+1)) := by
  induction n with
  | zero =>
    have h : ∀ {α : Type} (y : E α), Below (· = .fuel) (.error .fuel : E α) y := fun y => Or.inr ⟨.fuel, rfl, rfl⟩
    exact ⟨fun _ => h _, fun _ _ => h _, fun _ _ => h _, fun _ _ _ _ => h _, fun _ => h _, fun _ _ => h _⟩
  | succ n ih => exact wstep_below ih

theorem wops_below_le {n m : ℕ} (h : n ≤ m) : Ops.Below (· = .fuel) (wops env n) (wops env m) := by
  induction m, h using Nat.le_induction with
  | base => exact Ops.Below.refl _
  | succ m _ ih => exact ih.trans (wops_below_succ m)

section
variable {B C : Ops K}

theorem wPadCol_warn (h : Ops.Below (· = .warn) B C) (a : Mat K) : Below (· = .warn) (wPadZeroCol B a) (padZeroCol C a) := by
  have := h.dense
  have h2 : Below (· = .warn) (padZeroCol B a) (padZeroCol C a) := by unfold padZeroCol; below
  unfold wPadZeroCol
  cases hs : shape a with
  | error e => exact Or.inl (by simp only [padZeroCol, hs]; rfl)
  | ok s =>
    refine Below.warn (w := warnIf a.structured) (fun e he => Or.inl (warnIf_err.1 he).2) h2
theorem wPadRow_warn (h : Ops.Below (· = .warn) B C) (a : Mat K) : Below (· = .warn) (wPadZeroRow B a) (padZeroRow C a) := by
  have := h.dense
  have h2 : Below (· = .warn) (padZeroRow B a) (padZeroRow C a) := by unfold padZeroRow; below
  unfold wPadZeroRow
  cases hs : shape a with
  | error e => exact Or.inl (by simp only [padZeroRow, hs]; rfl)
  | ok s =>
    refine Below.warn (w := warnIf a.structured) (fun e he => Or.inl (warnIf_err.1 he).2) h2

theorem wAddLRLR_warn (h : Ops.Below (· = .warn) B C) (al ar am bl br bm : Mat K) :
    Below (· = .warn) (wAddLRLR env B al ar am bl br bm) (addLRLR env C al ar am bl br bm) := by
  have h1 := h.dense
  have h2 := h.add
  have h3 := wPadCol_warn h
  have h4 := wPadRow_warn h
  have h5 := takeGen_below h
  unfold wAddLRLR addLRLR; below

theorem wAddRun_warn (h : Ops.Below (· = .warn) B C) {m : AddM} {a b : Mat K} (hm : m = .amZero → ∃ bt r c, b = .zero bt r c)
    (hm' : m = .zeroAm → ∃ bt r c, a = .zero bt r c) : Below (· = .warn) (wAddRun env B m a b) (addRun env C m a b) := by
  unfold wAddRun
  split
  · exact wAddLRLR_warn h _ _ _ _ _ _
  · exact Below.warn (fun e he => addWarn_err hm hm' he) (addRun_below (Env.Below.refl _) h _ _ _)

theorem kind_zero {a : Mat K} (h : a.kind = some .zero) : ∃ bt r c, a = .zero bt r c := by
  cases a <;> simp [Mat.kind] at h; exact ⟨_, _, _, rfl⟩
theorem kind_const {a : Mat K} (h : a.kind = some .const) : ∃ t r c, a = .const t r c := by
  cases a <;> simp [Mat.kind] at h; exact ⟨_, _, _, rfl⟩

theorem addId_amZero {ka kb : Kind} (h : addId ka kb = .amZero) : kb = .zero := by cases ka <;> cases kb <;> simp [addId] at h ⊢
theorem addId_zeroAm {ka kb : Kind} (h : addId ka kb = .zeroAm) : ka = .zero := by cases ka <;> cases kb <;> simp [addId] at h ⊢
theorem mulId_constAm {ka kb : Kind} (h : mulId ka kb = .constAm) : ka = .const := by cases ka <;> cases kb <;> simp [mulId] at h ⊢

/-- `B.add` on matrices, as in `stepAdd`. -/
theorem wAddOn_warn (h : Ops.Below (· = .warn) B C) (a b : Mat K) : Below (· = .warn) (wAddOn env B a b)
    (match a.kind, b.kind with
    | some ka, some kb => addRun env C (addId ka kb) a b
    | _, _ => .error .notFound) := by
  unfold wAddOn
  cases ha : a.kind with
  | none => exact Below.refl _
  | some ka => cases hb : b.kind with
    | none => exact Below.refl _
    | some kb => exact wAddRun_warn h (fun e => kind_zero (addId_amZero e ▸ hb)) (fun e => kind_zero (addId_zeroAm e ▸ ha))
theorem wMulOn_warn (h : Ops.Below (· = .warn) B C) (a b : Mat K) : Below (· = .warn) (wMulOn B a b)
    (match a.kind, b.kind with
    | some ka, some kb => mulRun C (mulId ka kb) a b
    | _, _ => .error .notFound) := by
  unfold wMulOn
  cases ha : a.kind with
  | none => exact Below.refl _
  | some ka => cases hb : b.kind with
    | none => exact Below.refl _
    | some kb => exact Below.warn (fun e he => mulWarn_err (fun e => kind_const (mulId_constAm e ▸ ha)) he) (mulRun_below h _ _ _)
theorem wMmRun_warn (h : Ops.Below (· = .warn) B C) (m : MmM) (ta tb : Bool) (a b : Mat K) : Below (· = .warn) (wMmRun B m ta tb a b) (mmRun C m ta tb a b) := by
  have h1 := h.dense
  have h2 := h.matmul
  have hw : ∀ {α : Type} {x : Unit → E α} {y : E α} (b : Bool), Below (· = .warn) (x ()) y → Below (· = .warn) (warnIf b >>= x) y := fun b hb => by
    cases b with
    | false => exact hb
    | true => exact Or.inr ⟨_, rfl, rfl⟩
  have h3 : ∀ ta tb tc a b c, Below (· = .warn) (matmul3 B ta tb tc a b c) (matmul3 C ta tb tc a b c) := matmul3_below h
  have k1 : ∀ a b, Below (· = .warn) (wKronIdAB B a b) (kronIdAB C a b) := fun a b =>
    (Below.refl _).bind fun _ => (Below.refl _).bind fun _ => (h2 _ _ _ _).bind fun _ => hw _ ((h1 _).bind fun _ => .refl _)
  have k2 : ∀ a b, Below (· = .warn) (wKronAIdB B a b) (kronAIdB C a b) := fun a b =>
    (Below.refl _).bind fun _ => (Below.refl _).bind fun _ => (h2 _ _ _ _).bind fun _ => hw _ ((h1 _).bind fun _ => .refl _)
  unfold wMmRun
  split
  · show Below _ _ (matmulKronAm C ta tb _ _ _)
    unfold wMatmulKronAm matmulKronAm; below
  · show Below _ _ (matmulLRLR C ta tb _ _)
    unfold wMatmulLRLR matmulLRLR
    refine (Below.refl _).bind fun _ => (Below.refl _).bind fun x => (Below.refl _).bind fun y => ?_
    cases x <;> first | exact Below.refl _ | skip
    cases y <;> first | exact Below.refl _ | skip
    refine (h2 _ _ _ _).bind fun _ => (h3 _ _ _ _ _ _).bind fun _ => (Below.refl _).bind fun s => ?_
    split_ifs
    · exact hw _ ((h1 _).bind fun _ => .refl _)
    · exact .refl _
  · exact mmRun_below h _ _ _ _ _
theorem wMmRun_ok {B : Ops K} {m : MmM} {ta tb : Bool} {a b r : Mat K} (h : wMmRun B m ta tb a b = .ok r) : mmRun B m ta tb a b = .ok r :=
  (wMmRun_warn (Ops.Below.refl _) m ta tb a b).ok h
theorem wMmRun_post {P : Mat K → Prop} {B : Ops K} {m : MmM} {ta tb : Bool} {a b : Mat K} (h : Post P (mmRun B m ta tb a b)) : Post P (wMmRun B m ta tb a b) :=
  fun r hr => h r (wMmRun_ok hr)
theorem wMmRun_eq {B : Ops K} {m : MmM} (h1 : m ≠ .kronAm) (h2 : m ≠ .lrLr) (ta tb : Bool) (a b : Mat K) : wMmRun B m ta tb a b = mmRun B m ta tb a b := by
  unfold wMmRun
  split
  · exact absurd rfl h1
  · exact absurd rfl h2
  · rfl
theorem wMatmulOn_warn (h : Ops.Below (· = .warn) B C) (ta tb : Bool) (a b : Mat K) : Below (· = .warn) (wMatmulOn B ta tb a b)
    (match a.kind, b.kind with
    | some ka, some kb => match mmId ka kb with
      | some m => mmRun C m ta tb a b
      | none => .error .notFound
    | _, _ => .error .notFound) := by
  unfold wMatmulOn
  cases a.kind with
  | none => exact Below.refl _
  | some ka => cases b.kind with
    | none => exact Below.refl _
    | some kb =>
      dsimp only
      cases mmId ka kb with
      | none => exact Below.refl _
      | some m => exact Below.warn (fun e he => mmWarn_err he) (wMmRun_warn h _ _ _ _ _)

/-- A run with warnings as errors gives the result of the core, or stops with a warning. -/
theorem wstep_warn (h : Ops.Below (· = .warn) B C) : Ops.Below (· = .warn) (wstep env B) (step env C) where
  dense a := by
    show Below _ (wDense B a) (stepDense C a)
    unfold wDense
    split
    · exact Below.warn (fun e he => Or.inl (warnIf_err.1 he).2) (stepDense_below h _)
    · exact stepDense_below h _
  add a b := by
    show Below _ (wAdd env B a b) (stepAdd env C a b)
    unfold wAdd stepAdd
    split
    · exact Below.refl _
    · rename_i hne
      split
      · exact (hne _ _ rfl rfl).elim
      · exact wAddOn_warn h _ _
  mul a b := by
    show Below _ (wMul env B a b) (stepMul env C a b)
    unfold wMul stepMul
    split
    · exact Below.refl _
    · rename_i hne
      split
      · exact (hne _ _ rfl rfl).elim
      · exact wMulOn_warn h _ _
  matmul ta tb a b := by
    show Below _ (wMatmul env B ta tb a b) (stepMatmul env C ta tb a b)
    unfold wMatmul stepMatmul
    split
    · exact Below.refl _
    · rename_i hne
      split
      · exact (hne _ _ rfl rfl).elim
      · exact wMatmulOn_warn h _ _ _ _
  diag a := by
    show Below _ (wDiag B a) (stepDiag C a)
    unfold wDiag
    split
    · exact Below.warn (fun e he => Or.inl (warnIf_err.1 he).2) (stepDiag_below h _)
    · exact stepDiag_below h _
  sumM := stepSumM_below h

end

theorem wops_warn (n : ℕ) : Ops.Below (· = .warn) (wops env n) (ops env n) := by
  induction n with
  | zero => exact Ops.Below.refl _
  | succ n ih => exact wstep_warn ih

theorem wops_post {α : Type} {P : α → Prop} {f : Ops K → E α} (hf : Calls f) {n : ℕ} (h : Post P (f (ops env n))) : Post P (f (wops env n)) :=
  fun r hr => h r ((hf _ _ _ (wops_warn n)).ok hr)

/-! ### No silent densification -/

theorem structured_of_kind {a : Mat K} {k : Kind} (h : a.kind = some k) : a.structured = decide (k ≠ .dense) := by
  cases a <;> simp only [Mat.kind, Option.some.injEq, reduceCtorEq] at h <;> subst h <;> rfl

theorem wAdd_am {n : ℕ} {a b : Mat K} {k k' : Kind} (ha : a.kind = some k) (hb : b.kind = some k') :
    (wops env (n+1)).add a b = wAddRun env (wops env n) (addId k k') a b := by
  show wAdd env (wops env n) a b = _
  have e1 : convertAM env a = a := by cases a <;> simp [Mat.kind] at ha <;> rfl
  have e2 : convertAM env b = b := by cases b <;> simp [Mat.kind] at hb <;> rfl
  unfold wAdd
  split
  · simp [Mat.kind] at ha
  · simp only [e1, e2, wAddOn, ha, hb]
theorem wMul_am {n : ℕ} {a b : Mat K} {k k' : Kind} (ha : a.kind = some k) (hb : b.kind = some k') :
    (wops env (n+1)).mul a b = (mulWarn (mulId k k') a b >>= fun _ => mulRun (wops env n) (mulId k k') a b) := by
  show wMul env (wops env n) a b = _
  have e1 : convertAM env a = a := by cases a <;> simp [Mat.kind] at ha <;> rfl
  have e2 : convertAM env b = b := by cases b <;> simp [Mat.kind] at hb <;> rfl
  unfold wMul
  split
  · simp [Mat.kind] at ha
  · simp only [e1, e2, wMulOn, ha, hb]
theorem wMatmul_am {n : ℕ} {ta tb : Bool} {a b : Mat K} {k k' : Kind} (ha : a.kind = some k) (hb : b.kind = some k') {m : MmM} (hm : mmId k k' = some m) :
    (wops env (n+1)).matmul ta tb a b = (mmWarn m ta tb a b >>= fun _ => wMmRun (wops env n) m ta tb a b) := by
  show wMatmul env (wops env n) ta tb a b = _
  have e1 : convertAM env a = a := by cases a <;> simp [Mat.kind] at ha <;> rfl
  have e2 : convertAM env b = b := by cases b <;> simp [Mat.kind] at hb <;> rfl
  unfold wMatmul
  split
  · simp [Mat.kind] at ha
  · simp only [e1, e2, wMatmulOn, ha, hb, hm]

/-- Broadcasting without a warning keeps the class of a structured matrix. -/
theorem kind_warnBroadcast {B : Ops K} {a : Mat K} {s : Shp} {k : Kind} (hk : a.kind = some k) (hd : k ≠ .dense) {u : Unit} (hw : warnBroadcast a s = .ok u) :
    Post (fun r : Mat K => r.kind = some k) (broadcastTo B a s) := by
  by_cases h0 : k = .zero ∨ k = .const
  · refine (kind_broadcastTo hk).mono fun r hr => ?_
    rw [if_pos h0] at hr
    obtain ⟨_, h1, h2⟩ := hr
    rw [h2, List.mem_singleton.1 h1]
  · intro r hr
    have hst := structured_of_kind hk
    simp only [hd, ne_eq, not_false_eq_true, decide_true] at hst
    simp only [warnBroadcast, bind_ok_iff] at hw
    obtain ⟨sa, hs, hw⟩ := hw
    simp only [broadcastTo, hs, bind_ok_iff, Except.ok.injEq, exists_eq_left'] at hr
    by_cases h1 : sa = s
    · rw [if_pos h1] at hr
      rw [← Except.ok.inj hr]; exact hk
    · rw [if_neg h1] at hr hw
      have h2 : sa.take 2 = s.take 2 := by
        by_contra h2
        cases a <;> simp_all [Mat.kind, warnIf, guardE]
      cases a with
      | zero => simp only [Mat.kind, Option.some.injEq] at hk; exact absurd (.inl hk.symm) h0
      | const => simp only [Mat.kind, Option.some.injEq] at hk; exact absurd (.inr hk.symm) h0
      | _ => simp only [if_pos h2] at hr; exact kind_broadcastBatchTo hk _ hr

/-- Adding structured matrices without a warning does not give a Dense matrix, triangular matrices of opposite classes aside. -/
def AddSilent (B : Ops K) : Prop := ∀ (a b : Mat K) (k k' : Kind), a.kind = some k → b.kind = some k' → k ≠ .dense → k' ≠ .dense →
  ¬ (k = .lt ∧ k' = .ut) → ¬ (k = .ut ∧ k' = .lt) → Post (fun r : Mat K => r.kind ≠ some .dense) (B.add a b)

theorem wops_addKinds (n : ℕ) {a b : Mat K} {k k' : Kind} (ha : a.kind = some k) (hb : b.kind = some k') :
    Post (KindIn (addOut k k')) ((wops env n).add a b) :=
  wops_post (Calls.add a b) ((ops_addKinds env n).am ha hb)

theorem wops_addSilent (n : ℕ) : AddSilent (wops env n) := by
  induction n with
  | zero => exact fun _ _ _ _ _ _ _ _ _ _ => Post.error
  | succ n ih =>
    intro a b k k' ha hb hk hk' h1 h2
    by_cases hd : Kind.dense ∈ addOut k k'
    swap
    · refine (wops_addKinds (n+1) ha hb).mono fun r hr he => hd ?_
      obtain ⟨k2, h3, h4⟩ := hr
      rw [he] at h4; cases h4; exact h3
    have sa := structured_of_kind ha
    have sb := structured_of_kind hb
    simp only [hk, hk', ne_eq, not_false_eq_true, decide_true] at sa sb
    rw [wAdd_am ha hb]
    have hAA : ∀ C : Ops K, Post (fun r : Mat K => r.kind ≠ some .dense) (addWarn .amAm a b >>= fun _ => addRun env C .amAm a b) := fun C => by
      simp only [addWarn, sa, sb]; exact Post.error
    have hCA : ∀ C : Ops K, Post (fun r : Mat K => r.kind ≠ some .dense) (addWarn .constAm a b >>= fun _ => addRun env C .constAm a b) := fun C => by
      simp only [addWarn, sb]; exact Post.error
    have hSw : ¬ (k' = .lt ∧ k = .ut) → ¬ (k' = .ut ∧ k = .lt) → Post (fun r : Mat K => r.kind ≠ some .dense) (addWarn .swap a b >>= fun _ => addRun env (wops env n) .swap a b) := fun h1 h2 =>
      ih b a k' k hb ha hk' hk h1 h2
    have hAZ : ∀ (C : Ops K) bt r c, b = .zero bt r c → Post (fun r : Mat K => r.kind ≠ some .dense) (addWarn .amZero a b >>= fun _ => addRun env C .amZero a b) := by
      rintro C bt r c rfl x hx
      simp only [addWarn, addRun, bind_ok_iff] at hx
      obtain ⟨_, ⟨sa, _, sb, _, _, _, sc, e1, hw⟩, _, _, _, _, _, _, sc', e2, hx⟩ := hx
      rw [e1] at e2; obtain rfl := Except.ok.inj e2
      rw [kind_warnBroadcast ha hk hw x hx]; simpa using hk
    have hZA : ∀ (C : Ops K) bt r c, a = .zero bt r c → Post (fun r : Mat K => r.kind ≠ some .dense) (addWarn .zeroAm a b >>= fun _ => addRun env C .zeroAm a b) := by
      rintro C bt r c rfl x hx
      simp only [addWarn, addRun, bind_ok_iff] at hx
      obtain ⟨_, ⟨sa, _, sb, _, _, _, sc, e1, hw⟩, _, _, _, _, _, _, sc', e2, hx⟩ := hx
      rw [e1] at e2; obtain rfl := Except.ok.inj e2
      rw [kind_warnBroadcast hb hk' hw x hx]; simpa using hk'
    have hd3 : ∀ (x y : Mat K) (l : List Kind), x.kind = some .diag → KindIn l y → l ⊆ [.lr, .zero] → Post (fun r : Mat K => r.kind ≠ some .dense) ((wops env n).add x y) := by
      rintro x y l hx ⟨k2, h3, h4⟩ hl
      have h5 := hl h3
      simp only [List.mem_cons, List.not_mem_nil, or_false] at h5
      rcases h5 with rfl | rfl <;> exact ih x y _ _ hx h4 (by decide) (by decide) (by decide) (by decide)
    have hwb : ∀ (d : Tensor K) (l r m : Mat K), a = .wb d l r m → k' = .lr ∨ k' = .const → Post (fun r : Mat K => r.kind ≠ some .dense) (addWarn .wbAny a b >>= fun _ => addRun env (wops env n) .wbAny a b) := by
      rintro d l r m rfl h
      refine (wops_addKinds n (a := .lr l r m) (k := .lr) rfl hb).bind fun y hy => hd3 (.diag d) y _ rfl hy ?_
      rcases h with rfl | rfl <;> decide
    cases a <;> simp only [Mat.kind, Option.some.injEq, reduceCtorEq] at ha <;> subst ha <;>
      cases b <;> simp only [Mat.kind, Option.some.injEq, reduceCtorEq] at hb <;> subst hb <;>
      first
      | exact absurd hd (by decide)
      | exact hAZ _ _ _ _ rfl
      | exact hZA _ _ _ _ rfl
      | exact hwb _ _ _ _ rfl (.inl rfl)
      | exact hwb _ _ _ _ rfl (.inr rfl)
      | exact absurd rfl hk
      | exact absurd rfl hk'
      | exact absurd ⟨rfl, rfl⟩ h1
      | exact absurd ⟨rfl, rfl⟩ h2
      | exact hAA _
      | exact hCA _
      | exact hSw (by decide) (by decide)
      | skip
    rename_i d l r m d' l' r' m'
    show Post _ ((wops env n).add (.diag d) (.diag d') >>= fun x => (wops env n).add (.lr l r m) (.lr l' r' m') >>= fun y => (wops env n).add x y)
    refine (wops_addKinds n (a := .diag d) (b := .diag d') rfl rfl).bind fun x hx => (wops_addKinds n (a := .lr l r m) (b := .lr l' r' m') rfl rfl).bind fun y hy => ?_
    obtain ⟨k2, h3, h4⟩ := hx
    obtain rfl : k2 = .diag := by simpa [addOut] using h3
    exact hd3 x y _ h4 hy (by decide)

/-- Multiplying structured matrices element-wise without a warning does not give a Dense matrix. -/
def MulSilent (B : Ops K) : Prop := ∀ (a b : Mat K) (k k' : Kind), a.kind = some k → b.kind = some k' → k ≠ .dense → k' ≠ .dense →
  Post (fun r : Mat K => r.kind ≠ some .dense) (B.mul a b)

theorem wops_mulKinds (n : ℕ) {a b : Mat K} {k k' : Kind} (ha : a.kind = some k) (hb : b.kind = some k') :
    Post (fun r => r.kind = some (mulOut k k')) ((wops env n).mul a b) :=
  wops_post (Calls.mul a b) ((ops_mulKinds env n).am ha hb)

theorem wops_mulSilent (n : ℕ) : MulSilent (wops env n) := by
  induction n with
  | zero => exact fun _ _ _ _ _ _ _ _ => Post.error
  | succ n ih =>
    intro a b k k' ha hb hk hk'
    by_cases hd : Kind.dense = mulOut k k'
    swap
    · refine (wops_mulKinds (n+1) ha hb).mono fun r hr he => hd ?_
      rw [he] at hr; exact Option.some.inj hr
    have sa := structured_of_kind ha
    have sb := structured_of_kind hb
    simp only [hk, hk', ne_eq, not_false_eq_true, decide_true] at sa sb
    rw [wMul_am ha hb]
    have hAA : ∀ C : Ops K, Post (fun r : Mat K => r.kind ≠ some .dense) (mulWarn .amAm a b >>= fun _ => mulRun C .amAm a b) := fun C => by
      simp only [mulWarn, sa, sb]; exact Post.error
    have hCA : ∀ C : Ops K, Post (fun r : Mat K => r.kind ≠ some .dense) (mulWarn .constAm a b >>= fun _ => mulRun C .constAm a b) := fun C x hx => by
      simp only [mulWarn, sb, bind_ok_iff, warnIf_ok] at hx
      obtain ⟨_, ⟨_, _, _, _, _, _, h⟩, _⟩ := hx
      exact absurd h (by decide)
    have hSw : Post (fun r : Mat K => r.kind ≠ some .dense) (mulWarn .swap a b >>= fun _ => mulRun (wops env n) .swap a b) :=
      ih b a k' k hb ha hk' hk
    have hwb : ∀ (d : Tensor K) (l r m : Mat K), a = .wb d l r m → mulOut .lr k' = .dense → Post (fun r : Mat K => r.kind ≠ some .dense) (mulWarn .wbAm a b >>= fun _ => mulRun (wops env n) .wbAm a b) := by
      rintro d l r m rfl h
      refine Post.skip fun _ => Post.bind (Post.any ((wops env n).mul (.diag d) b)) fun x _ =>
        Post.bind (P := fun _ => False) (fun y hy => ih (.lr l r m) b .lr k' rfl hb (by decide) hk' y hy (by rw [wops_mulKinds n (a := .lr l r m) rfl hb y hy, h])) fun _ h => h.elim
    cases a <;> simp only [Mat.kind, Option.some.injEq, reduceCtorEq] at ha <;> subst ha <;>
      cases b <;> simp only [Mat.kind, Option.some.injEq, reduceCtorEq] at hb <;> subst hb <;>
      first
      | exact absurd hd (by decide)
      | exact absurd rfl hk
      | exact absurd rfl hk'
      | exact hAA _
      | exact hCA _
      | exact hSw
      | exact hwb _ _ _ _ rfl rfl

theorem wops_mulTiled (n : ℕ) {a b : Mat K} {k : Kind} (ha : a.kind = some .dense) (hb : b.kind = some .tiled) :
    Post (fun r : Mat K => r.kind ≠ some k) ((wops env n).mul a b) := by
  cases n with
  | zero => exact Post.error
  | succ n =>
    rw [wMul_am ha hb]
    have := structured_of_kind hb
    simp only [mulId, mulWarn, this]
    cases a.structured <;> exact Post.error
theorem wops_tiledMul (n : ℕ) {a b : Mat K} {k' : Kind} (ha : a.kind = some .tiled) (hb : b.kind = some .dense) :
    Post (fun r : Mat K => r.kind ≠ some k') ((wops env n).mul a b) := by
  cases n with
  | zero => exact Post.error
  | succ n =>
    rw [wMul_am ha hb]
    have := structured_of_kind ha
    simp only [mulId, mulWarn, this]
    exact Post.error

/-- Multiplying structured matrices without a warning does not give a Dense matrix. -/
def MmSilent (B : Ops K) : Prop := ∀ (ta tb : Bool) (a b : Mat K) (k k' : Kind), a.kind = some k → b.kind = some k' → TriRk a → TriRk b → k ≠ .dense → k' ≠ .dense →
  Post (fun r : Mat K => r.kind ≠ some .dense) (B.matmul ta tb a b)

theorem wops_mmKinds (n : ℕ) (ta tb : Bool) {a b : Mat K} {k k' : Kind} (ha : a.kind = some k) (hb : b.kind = some k') (ra : TriRk a) (rb : TriRk b) :
    Post (KindIn (mmOut ta tb k k')) ((wops env n).matmul ta tb a b) :=
  wops_post (Calls.matmul ta tb a b) ((ops_mmKinds env n).am ta tb ra rb ha hb)

theorem wops_mmSilent (n : ℕ) : MmSilent (wops env n) := by
  induction n with
  | zero => exact fun _ _ _ _ _ _ _ _ _ _ _ _ => Post.error
  | succ n ih =>
    intro ta tb a b k k' ha hb ra rb hk hk'
    by_cases hd : Kind.dense ∈ mmOut ta tb k k'
    swap
    · refine (wops_mmKinds (n+1) ta tb ha hb ra rb).mono fun r hr he => hd ?_
      obtain ⟨k2, h3, h4⟩ := hr
      rw [he] at h4; cases h4; exact h3
    have sa := structured_of_kind ha
    have sb := structured_of_kind hb
    simp only [hk, hk', ne_eq, not_false_eq_true, decide_true] at sa sb
    cases hm : mmId k k' with
    | none =>
      show Post _ (wMatmul env (wops env n) ta tb a b)
      have e1 : convertAM env a = a := by cases a <;> simp [Mat.kind] at ha <;> rfl
      have e2 : convertAM env b = b := by cases b <;> simp [Mat.kind] at hb <;> rfl
      unfold wMatmul
      split
      · simp [Mat.kind] at ha
      · simp only [e1, e2, wMatmulOn, ha, hb, hm]; exact Post.error
    | some m =>
    rw [wMatmul_am ha hb hm]
    suffices hgoal : Post (fun r : Mat K => r.kind ≠ some .dense) (mmWarn m ta tb a b >>= fun _ => mmRun (wops env n) m ta tb a b) from fun r hr => by
      obtain ⟨u, hu, hr⟩ := bind_ok_iff.1 hr
      exact hgoal r (bind_ok_iff.2 ⟨u, hu, wMmRun_ok hr⟩)
    have hLA : ∀ C : Ops K, m = .ltAm → Post (fun r : Mat K => r.kind ≠ some .dense) (mmWarn m ta tb a b >>= fun _ => mmRun C m ta tb a b) := by
      rintro C rfl; simp only [mmWarn, sb]; exact Post.error
    have hAL : ∀ C : Ops K, m = .amLt → Post (fun r : Mat K => r.kind ≠ some .dense) (mmWarn m ta tb a b >>= fun _ => mmRun C m ta tb a b) := by
      rintro C rfl; simp only [mmWarn, sa]; exact Post.error
    have hKD : ∀ C : Ops K, m = .kronDiag → Post (fun r : Mat K => r.kind ≠ some .dense) (mmWarn m ta tb a b >>= fun _ => mmRun C m ta tb a b) := by
      rintro C rfl; simp only [mmWarn]; exact Post.error
    have hDK : ∀ C : Ops K, m = .diagKron → Post (fun r : Mat K => r.kind ≠ some .dense) (mmWarn m ta tb a b >>= fun _ => mmRun C m ta tb a b) := by
      rintro C rfl; simp only [mmWarn]; exact Post.error
    have hKA : ∀ C : Ops K, k = .kron → m = .kronAm → Post (fun r : Mat K => r.kind ≠ some .dense) (mmWarn m ta tb a b >>= fun _ => mmRun C m ta tb a b) := by
      rintro C rfl rfl x hx
      cases a <;> simp only [Mat.kind, Option.some.injEq, reduceCtorEq] at ha
      simp only [mmWarn, bind_ok_iff, warnIf_ok] at hx
      obtain ⟨_, ⟨_, _, _, _, _, _, b', h3, h⟩, _⟩ := hx
      rw [structured_of_kind (kind_trM hb _ h3)] at h
      refine absurd h ?_
      cases tb <;> cases k' <;> simp_all [trKind]
    have hKr : m = .amKron → Post (fun r : Mat K => r.kind ≠ some .dense) (mmWarn m ta tb a b >>= fun _ => mmRun (wops env n) m ta tb a b) := by
      rintro rfl
      refine Post.skip fun _ => ?_
      simp only [mmRun]
      refine Post.bind (P := fun x : Mat K => x.kind ≠ some .dense ∧ KindIn (mmOut (!tb) (!ta) k' k) x)
        (fun x hx => ⟨ih _ _ b a k' k hb ha rb ra hk' hk x hx, wops_mmKinds n _ _ hb ha rb ra x hx⟩) fun x hx r hr => ?_
      obtain ⟨h1, k1, h2, h3⟩ := hx
      rw [kind_trM (t := true) h3 r (by simpa [trM] using hr)]
      rw [h3] at h1
      revert h1; clear * -; cases k1 <;> decide
    -- a triangular matrix by another of the same class, one of them transposed
    have hTT : ∀ (x y : Mat K) (j j' : Kind), x.kind = some j → y.kind = some j' → (j = .lt ∨ j = .ut) → (j' = .lt ∨ j' = .ut) → TriRk x → TriRk y →
        Post (fun r : Mat K => r.kind ≠ some .dense) ((wops env n).matmul false false x y) := by
      rintro x y j j' hx hy h1 h2 rx ry
      exact ih _ _ x y j j' hx hy rx ry (by rcases h1 with rfl | rfl <;> decide) (by rcases h2 with rfl | rfl <;> decide)
    have tri : ∀ (t : Bool) {x y : Mat K}, x.kind = some .lt ∨ x.kind = some .ut → trM t x = .ok y → ∃ j, y.kind = some j ∧ (j = .lt ∨ j = .ut) := by
      intro t x y h hy
      rcases h with h | h <;> have := kind_trM h _ hy <;> cases t <;> exact ⟨_, this, by simp [trKind]⟩
    have hsum : ∀ (x y : Mat K) (l : List Kind), x.kind ≠ some .dense → (∃ k1, x.kind = some k1) → KindIn l y → Kind.lt ∉ l → Kind.ut ∉ l → y.kind ≠ some .dense →
        Post (fun r : Mat K => r.kind ≠ some .dense) ((wops env n).add x y) := by
      rintro x y l hx ⟨k1, h1⟩ ⟨k2, h2, h3⟩ h4 h5 hy
      exact wops_addSilent n x y k1 k2 h1 h3 (fun e => hx (by rw [h1, e])) (fun e => hy (by rw [h3, e])) (fun e => h5 (e.2 ▸ h2)) (fun e => h4 (e.2 ▸ h2))
    have hwb : ∀ (d : Tensor K) (l r m' : Mat K), a = .wb d l r m' → m = .wbAm → Kind.lt ∉ mmOut ta tb .lr k' → Kind.ut ∉ mmOut ta tb .lr k' →
        Post (fun r : Mat K => r.kind ≠ some .dense) (mmWarn m ta tb a b >>= fun _ => mmRun (wops env n) m ta tb a b) := by
      rintro d l r m' rfl rfl h1 h2
      refine Post.skip fun _ => ?_
      simp only [mmRun]
      refine Post.bind (P := fun x : Mat K => x.kind ≠ some .dense ∧ ∃ k1, x.kind = some k1) (fun x hx => ⟨ih _ _ (.diag d) b .diag k' rfl hb trivial rb (by decide) hk' x hx, ?_⟩) fun x hx => ?_
      · obtain ⟨k1, _, h⟩ := wops_mmKinds n ta tb (a := .diag d) rfl hb trivial rb x hx
        exact ⟨k1, h⟩
      refine Post.bind (P := fun y : Mat K => y.kind ≠ some .dense ∧ KindIn (mmOut ta tb .lr k') y)
        (fun y hy => ⟨ih _ _ (.lr l r m') b .lr k' rfl hb trivial rb (by decide) hk' y hy, wops_mmKinds n ta tb (a := .lr l r m') rfl hb trivial rb y hy⟩) fun y hy => ?_
      exact hsum x y _ hx.1 hx.2 hy.2 h1 h2 hy.1
    have hawb : ∀ (d : Tensor K) (l r m' : Mat K), b = .wb d l r m' → m = .amWb → Kind.lt ∉ mmOut ta tb k .lr → Kind.ut ∉ mmOut ta tb k .lr →
        Post (fun r : Mat K => r.kind ≠ some .dense) (mmWarn m ta tb a b >>= fun _ => mmRun (wops env n) m ta tb a b) := by
      rintro d l r m' rfl rfl h1 h2
      refine Post.skip fun _ => ?_
      simp only [mmRun]
      refine Post.bind (P := fun x : Mat K => x.kind ≠ some .dense ∧ ∃ k1, x.kind = some k1) (fun x hx => ⟨ih _ _ a (.diag d) k .diag ha rfl ra trivial hk (by decide) x hx, ?_⟩) fun x hx => ?_
      · obtain ⟨k1, _, h⟩ := wops_mmKinds n ta tb (b := .diag d) ha rfl ra trivial x hx
        exact ⟨k1, h⟩
      refine Post.bind (P := fun y : Mat K => y.kind ≠ some .dense ∧ KindIn (mmOut ta tb k .lr) y)
        (fun y hy => ⟨ih _ _ a (.lr l r m') k .lr ha rfl ra trivial hk (by decide) y hy, wops_mmKinds n ta tb (b := .lr l r m') ha rfl ra trivial y hy⟩) fun y hy => ?_
      exact hsum x y _ hx.1 hx.2 hy.2 h1 h2 hy.1
    cases a <;> simp only [Mat.kind, Option.some.injEq, reduceCtorEq] at ha <;> subst ha <;>
      cases b <;> simp only [Mat.kind, Option.some.injEq, reduceCtorEq] at hb <;> subst hb <;>
      first
      | (refine absurd hd ?_; clear * -; cases ta <;> cases tb <;> decide)
      | exact absurd rfl hk
      | exact absurd rfl hk'
      | exact absurd (show (none : Option MmM) = some m from hm) (by simp)
      | skip
    all_goals (obtain rfl := Option.some.inj hm)
    all_goals first
      | exact hLA _ rfl
      | exact hAL _ rfl
      | exact hKD _ rfl
      | exact hDK _ rfl
      | exact hKA _ rfl rfl
      | exact hKr rfl
      | exact hwb _ _ _ _ rfl rfl (by clear * -; cases ta <;> cases tb <;> decide) (by clear * -; cases ta <;> cases tb <;> decide)
      | exact hawb _ _ _ _ rfl rfl (by clear * -; cases ta <;> cases tb <;> decide) (by clear * -; cases ta <;> cases tb <;> decide)
      | skip
    · -- Diagonal by TiledBlocks
      refine Post.skip fun _ => ?_
      simp only [mmRun]
      refine Post.skip fun _ => (kind_trM (k := .tiled) rfl).bind fun x hx => ?_
      exact wops_mulTiled n (k := .dense) rfl (by cases tb <;> exact hx)
    · -- two LowerTriangular matrices, one transposed
      refine Post.skip fun _ => ?_
      simp only [mmRun]
      rename_i s t _
      split_ifs with h
      · exact absurd hd (by rw [h.1, h.2]; decide)
      · refine Post.bind (P := fun x => trM ta (.lt s) = .ok x) (fun _ h => h) fun x hx => Post.bind (P := fun x => trM tb (.lt t) = .ok x) (fun _ h => h) fun y hy => ?_
        obtain ⟨j, h1, h2⟩ := tri ta (.inl rfl) hx
        obtain ⟨j', h3, h4⟩ := tri tb (.inl rfl) hy
        exact hTT x y j j' h1 h3 h2 h4 (triRk_trM ra _ hx) (triRk_trM rb _ hy)
    · refine Post.skip fun _ => ?_
      simp only [mmRun]
      rename_i s t _
      split_ifs with h
      · exact absurd hd (by rw [h.1, h.2]; decide)
      · refine Post.bind (P := fun x => trM ta (.ut s) = .ok x) (fun _ h => h) fun x hx => Post.bind (P := fun x => trM tb (.ut t) = .ok x) (fun _ h => h) fun y hy => ?_
        obtain ⟨j, h1, h2⟩ := tri ta (.inr rfl) hx
        obtain ⟨j', h3, h4⟩ := tri tb (.inr rfl) hy
        exact hTT x y j j' h1 h3 h2 h4 (triRk_trM ra _ hx) (triRk_trM rb _ hy)
    · refine Post.skip fun _ => ?_
      simp only [mmRun]
      refine Post.skip fun _ => (kind_trM (k := .tiled) rfl).bind fun x hx => ?_
      exact wops_tiledMul n (k' := .dense) (by cases ta <;> exact hx) rfl


/-! ### The matrices made from a single array: a warning exactly when structure is lost -/

theorem stepAdd_am {n : ℕ} {a b : Mat K} {k k' : Kind} (ha : a.kind = some k) (hb : b.kind = some k') :
    (ops env (n+1)).add a b = addRun env (ops env n) (addId k k') a b := by
  show stepAdd env (ops env n) a b = _
  have e1 : convertAM env a = a := by cases a <;> simp [Mat.kind] at ha <;> rfl
  have e2 : convertAM env b = b := by cases b <;> simp [Mat.kind] at hb <;> rfl
  unfold stepAdd
  split
  · simp [Mat.kind] at ha
  · simp only [e1, e2, ha, hb]
theorem stepMul_am {n : ℕ} {a b : Mat K} {k k' : Kind} (ha : a.kind = some k) (hb : b.kind = some k') :
    (ops env (n+1)).mul a b = mulRun (ops env n) (mulId k k') a b := by
  show stepMul env (ops env n) a b = _
  have e1 : convertAM env a = a := by cases a <;> simp [Mat.kind] at ha <;> rfl
  have e2 : convertAM env b = b := by cases b <;> simp [Mat.kind] at hb <;> rfl
  unfold stepMul
  split
  · simp [Mat.kind] at ha
  · simp only [e1, e2, ha, hb]
theorem stepMatmul_am {n : ℕ} {ta tb : Bool} {a b : Mat K} {k k' : Kind} (ha : a.kind = some k) (hb : b.kind = some k') {m : MmM} (hm : mmId k k' = some m) :
    (ops env (n+1)).matmul ta tb a b = mmRun (ops env n) m ta tb a b := by
  show stepMatmul env (ops env n) ta tb a b = _
  have e1 : convertAM env a = a := by cases a <;> simp [Mat.kind] at ha <;> rfl
  have e2 : convertAM env b = b := by cases b <;> simp [Mat.kind] at hb <;> rfl
  unfold stepMatmul
  split
  · simp [Mat.kind] at ha
  · simp only [e1, e2, ha, hb, hm]

/-- The classes whose matrices hold a single array (or none). -/
def Kind.single : Kind → Prop
  | .zero | .dense | .diag | .const | .lt | .ut => True
  | _ => False

instance : DecidablePred Kind.single := fun k => by cases k <;> unfold Kind.single <;> infer_instance

theorem dense_eq (n : ℕ) {a : Mat K} {k : Kind} (ha : a.kind = some k) (hk : k.single) : (wops env n).dense a = (ops env n).dense a := by
  cases n with
  | zero => rfl
  | succ n => cases a <;> simp only [Mat.kind, Option.some.injEq, reduceCtorEq] at ha <;> subst ha <;> first | rfl | exact hk.elim
theorem sumM_eq (n i : ℕ) {a : Mat K} {k : Kind} (ha : a.kind = some k) (hk : k.single) : (wops env n).sumM i a = (ops env n).sumM i a := by
  cases n with
  | zero => rfl
  | succ n => cases a <;> simp only [Mat.kind, Option.some.injEq, reduceCtorEq] at ha <;> subst ha <;> first | rfl | exact hk.elim
theorem diag_eq (n : ℕ) {a : Mat K} {k : Kind} (ha : a.kind = some k) (hk : k.single) : (wops env n).diag a = (ops env n).diag a := by
  cases n with
  | zero => rfl
  | succ n => cases a <;> simp only [Mat.kind, Option.some.injEq, reduceCtorEq] at ha <;> subst ha <;> first | rfl | exact hk.elim

theorem bind_congr_ok {x : E α} {f g : α → E β} (h : ∀ v, x = .ok v → f v = g v) : (x >>= f) = (x >>= g) := by
  cases x with
  | error e => rfl
  | ok v => exact h v rfl

theorem addLrDiag_eq (n : ℕ) (l r m : Mat K) (t : Tensor K) : (wops env n).add (.lr l r m) (.diag t) = (ops env n).add (.lr l r m) (.diag t) := by
  cases n with
  | zero => rfl
  | succ n => rfl

/-- Sums of single-array matrices that issue no warning. -/
theorem add_eq (n : ℕ) : ∀ {a b : Mat K} {k k' : Kind}, a.kind = some k → b.kind = some k' → k.single → k'.single → k ≠ .zero → k' ≠ .zero →
    ¬ (k = .const ∧ (k' = .lt ∨ k' = .ut)) → ¬ (k' = .const ∧ (k = .lt ∨ k = .ut)) → (wops env n).add a b = (ops env n).add a b := by
  induction n with
  | zero => intros; rfl
  | succ n ih =>
    intro a b k k' ha hb sk sk' hk hk' h1 h2
    rw [wAdd_am ha hb, stepAdd_am ha hb]
    have d1 := dense_eq (env := env) n ha sk
    have d2 := dense_eq (env := env) n hb sk'
    cases a <;> simp only [Mat.kind, Option.some.injEq, reduceCtorEq] at ha <;> subst ha <;>
      cases b <;> simp only [Mat.kind, Option.some.injEq, reduceCtorEq] at hb <;> subst hb <;>
      first
      | exact sk.elim
      | exact sk'.elim
      | exact absurd rfl hk
      | exact absurd rfl hk'
      | exact absurd ⟨rfl, .inl rfl⟩ h1
      | exact absurd ⟨rfl, .inr rfl⟩ h1
      | exact absurd ⟨rfl, .inl rfl⟩ h2
      | exact absurd ⟨rfl, .inr rfl⟩ h2
      | rfl
      | (simp only [addId, wAddRun, addWarn, addRun, Mat.structured, d1, d2]; rfl)
      | exact ih rfl rfl sk' sk hk' hk h2 h1
      | skip
    rename_i s r c t
    simp only [addId, wAddRun, addWarn, addRun]
    refine bind_congr_ok fun _ _ => bind_congr_ok fun _ _ => bind_congr_ok fun _ _ => bind_congr_ok fun _ _ => bind_congr_ok fun rc _ => bind_congr_ok fun x hx => ?_
    obtain ⟨_, _, _, _, rfl⟩ := post_constToLR _ _ _ _ hx
    exact addLrDiag_eq _ _ _ _ _

theorem broadcastTo_eq (n : ℕ) {a : Mat K} {k : Kind} (s : Shp) (ha : a.kind = some k) (hk : k.single) : broadcastTo (wops env n) a s = broadcastTo (ops env n) a s := by
  have d := dense_eq (env := env) n ha hk
  cases a <;> simp only [broadcastTo, d]

theorem warnBroadcast_quiet {B : Ops K} {a r : Mat K} {k : Kind} {s : Shp} (ha : a.kind = some k) (h : k = .dense ∨ r.kind ≠ some .dense) (hr : broadcastTo B a s = .ok r) :
    warnBroadcast a s = .ok () := by
  simp only [broadcastTo, bind_ok_iff] at hr
  obtain ⟨sa, hs, hr⟩ := hr
  simp only [warnBroadcast, hs, bind, Except.bind]
  by_cases h1 : sa = s
  · rw [if_pos h1]; rfl
  rw [if_neg h1] at hr ⊢
  by_cases h2 : sa.take 2 = s.take 2
  · simp only [if_pos h2]; split <;> rfl
  · simp only [if_neg h2] at hr ⊢
    by_cases hst : a.structured = true
    · cases a <;> first | rfl | cases hst | skip
      all_goals
        exfalso
        simp only [bind_ok_iff, pure_eq_ok] at hr
        obtain ⟨_, _, _, _, rfl⟩ := hr
        rcases h with rfl | h
        · simp [Mat.kind] at ha
        · exact h rfl
    · rw [Bool.not_eq_true] at hst
      split <;> first | rfl | (rw [hst]; rfl)

/-- Sums of a single-array matrix and a Zero matrix that issue no warning. -/
theorem addZero_eq {n : ℕ} {a b r : Mat K} {k k' : Kind} (ha : a.kind = some k) (hb : b.kind = some k') (sk : k.single) (sk' : k'.single) (hz : k = .zero ∨ k' = .zero)
    (h : k = .dense ∨ k' = .dense ∨ r.kind ≠ some .dense) (hr : (ops env n).add a b = .ok r) : (wops env n).add a b = .ok r := by
  cases n with
  | zero => exact hr
  | succ n =>
    rw [stepAdd_am ha hb] at hr
    rw [wAdd_am ha hb]
    by_cases hz' : k' = .zero
    · subst hz'
      obtain ⟨bt, i, j, rfl⟩ := kind_zero hb
      have e : addId k .zero = .amZero := by cases k <;> rfl
      rw [e] at hr ⊢
      simp only [addRun, bind_ok_iff] at hr
      obtain ⟨s1, e1, s2, e2, u, e3, sc, e4, hr⟩ := hr
      have hw := warnBroadcast_quiet ha (by rcases h with h | h | h; exacts [.inl h, absurd h (by decide), .inr h]) hr
      simp only [wAddRun, addWarn, addRun, e1, e2, e3, e4, bind, Except.bind, hw, broadcastTo_eq n sc ha sk, hr]
    · obtain rfl : k = .zero := hz.resolve_right hz'
      obtain ⟨bt, i, j, rfl⟩ := kind_zero ha
      have e : addId .zero k' = .zeroAm := by revert hz'; clear * -; cases k' <;> first | (intro; rfl) | (intro h; exact absurd rfl h)
      rw [e] at hr ⊢
      simp only [addRun, bind_ok_iff] at hr
      obtain ⟨s1, e1, s2, e2, u, e3, sc, e4, hr⟩ := hr
      have hw := warnBroadcast_quiet hb (by rcases h with h | h | h; exacts [absurd h (by decide), .inl h, .inr h]) hr
      simp only [wAddRun, addWarn, addRun, e1, e2, e3, e4, bind, Except.bind, hw, broadcastTo_eq n sc hb sk', hr]

/-- Element-wise products of single-array matrices issue no warning. -/
theorem mul_eq (n : ℕ) : ∀ {a b : Mat K} {k k' : Kind}, a.kind = some k → b.kind = some k' → k.single → k'.single → (wops env n).mul a b = (ops env n).mul a b := by
  induction n with
  | zero => intros; rfl
  | succ n ih =>
    intro a b k k' ha hb sk sk'
    rw [wMul_am ha hb, stepMul_am ha hb]
    have d1 := dense_eq (env := env) n ha sk
    have d2 := dense_eq (env := env) n hb sk'
    have g1 := diag_eq (env := env) n ha sk
    have g2 := diag_eq (env := env) n hb sk'
    cases a <;> simp only [Mat.kind, Option.some.injEq, reduceCtorEq] at ha <;> subst ha <;>
      cases b <;> simp only [Mat.kind, Option.some.injEq, reduceCtorEq] at hb <;> subst hb <;>
      first
      | exact sk.elim
      | exact sk'.elim
      | rfl
      | exact ih rfl rfl sk' sk
      | (simp only [mulId, mulWarn, mulRun, mulDiagAm, Mat.structured, d1, d2, g1, g2]; rfl)
      | skip
    rename_i t r c u
    simp only [mulId, mulWarn, mulRun, d2]
    cases shape (.const t r c : Mat K) with
    | error e => rfl
    | ok s1 => cases shape (.dense u : Mat K) with
      | error e => rfl
      | ok s2 =>
        simp only [bind, Except.bind]
        cases assertCompatible s1 s2 <;> rfl

theorem wops_add_convert (n : ℕ) {a b : Mat K} (h : a.isAM = true ∨ b.isAM = true) : (wops env n).add a b = (wops env n).add (convertAM env a) (convertAM env b) := by
  cases n with
  | zero => rfl
  | succ n =>
    rw [wAdd_am (kind_convertAM env a) (kind_convertAM env b)]
    show wAdd env (wops env n) a b = _
    unfold wAdd
    split
    · simp [Mat.isAM] at h
    · simp only [wAddOn, kind_convertAM]
theorem ops_add_convert (n : ℕ) {a b : Mat K} (h : a.isAM = true ∨ b.isAM = true) : (ops env n).add a b = (ops env n).add (convertAM env a) (convertAM env b) := by
  cases n with
  | zero => rfl
  | succ n =>
    rw [stepAdd_am (kind_convertAM env a) (kind_convertAM env b)]
    show stepAdd env (ops env n) a b = _
    unfold stepAdd
    split
    · simp [Mat.isAM] at h
    · simp only [kind_convertAM]
theorem wops_mul_convert (n : ℕ) {a b : Mat K} (h : a.isAM = true ∨ b.isAM = true) : (wops env n).mul a b = (wops env n).mul (convertAM env a) (convertAM env b) := by
  cases n with
  | zero => rfl
  | succ n =>
    rw [wMul_am (kind_convertAM env a) (kind_convertAM env b)]
    show wMul env (wops env n) a b = _
    unfold wMul
    split
    · simp [Mat.isAM] at h
    · simp only [wMulOn, kind_convertAM]
theorem ops_mul_convert (n : ℕ) {a b : Mat K} (h : a.isAM = true ∨ b.isAM = true) : (ops env n).mul a b = (ops env n).mul (convertAM env a) (convertAM env b) := by
  cases n with
  | zero => rfl
  | succ n =>
    rw [stepMul_am (kind_convertAM env a) (kind_convertAM env b)]
    show stepMul env (ops env n) a b = _
    unfold stepMul
    split
    · simp [Mat.isAM] at h
    · simp only [kind_convertAM]
theorem wops_matmul_convert (n : ℕ) {ta tb : Bool} {a b : Mat K} (h : a.isAM = true ∨ b.isAM = true) :
    (wops env n).matmul ta tb a b = (wops env n).matmul ta tb (convertAM env a) (convertAM env b) := by
  cases n with
  | zero => rfl
  | succ n =>
    show wMatmul env (wops env n) ta tb a b = wMatmul env (wops env n) ta tb (convertAM env a) (convertAM env b)
    have e : ∀ x : Mat K, convertAM env (convertAM env x) = convertAM env x := fun x => by
      have := kind_convertAM env x
      cases hx : convertAM env x with
      | num t => rw [hx] at this; simp [Mat.kind] at this
      | _ => rfl
    unfold wMatmul
    split
    · simp [Mat.isAM] at h
    · split
      · rename_i h1 _; have := kind_convertAM env a; rw [h1] at this; simp [Mat.kind] at this
      · rw [e, e]
theorem ops_matmul_convert (n : ℕ) {ta tb : Bool} {a b : Mat K} (h : a.isAM = true ∨ b.isAM = true) :
    (ops env n).matmul ta tb a b = (ops env n).matmul ta tb (convertAM env a) (convertAM env b) := by
  cases n with
  | zero => rfl
  | succ n =>
    show stepMatmul env (ops env n) ta tb a b = stepMatmul env (ops env n) ta tb (convertAM env a) (convertAM env b)
    have e : ∀ x : Mat K, convertAM env (convertAM env x) = convertAM env x := fun x => by
      have := kind_convertAM env x
      cases hx : convertAM env x with
      | num t => rw [hx] at this; simp [Mat.kind] at this
      | _ => rfl
    unfold stepMatmul
    split
    · simp [Mat.isAM] at h
    · split
      · rename_i h1 _; have := kind_convertAM env a; rw [h1] at this; simp [Mat.kind] at this
      · simp only [e]

theorem kindC_num_single (t : Tensor K) : (kindC env (.num t)).single ∧ kindC env (.num t) ≠ .lt ∧ kindC env (.num t) ≠ .ut := by
  simp only [kindC, convertAM]; split_ifs <;> simp [Mat.kind, mkDense, Kind.single]

/-- Triangular by triangular where the product is not recognised as triangular. -/
def MixTri (ta tb : Bool) (k k' : Kind) : Prop :=
  (k = .lt ∧ k' = .ut) ∨ (k = .ut ∧ k' = .lt) ∨ (k = .lt ∧ k' = .lt ∧ ta ≠ tb) ∨ (k = .ut ∧ k' = .ut ∧ ta ≠ tb)

instance (ta tb : Bool) (k k' : Kind) : Decidable (MixTri ta tb k k') := by unfold MixTri; infer_instance

theorem trKind_single {t : Bool} {k : Kind} (h : k.single) : (if t then trKind k else k).single := by
  cases t <;> cases k <;> first | exact h.elim | decide

/-- Products of single-array matrices that issue no warning. -/
theorem mm_eq (n : ℕ) : ∀ {ta tb : Bool} {a b : Mat K} {k k' : Kind}, a.kind = some k → b.kind = some k' → TriRk a → TriRk b → k.single → k'.single → ¬ MixTri ta tb k k' →
    (wops env n).matmul ta tb a b = (ops env n).matmul ta tb a b := by
  induction n with
  | zero => intros; rfl
  | succ n ih =>
    intro ta tb a b k k' ha hb ra rb sk sk' hmix
    have rn : ∀ t : Tensor K, TriRk (convertAM env (.num t)) := fun t => triRk_convert (a := .num t) trivial
    have numL : ∀ {t : Tensor K} {ta tb : Bool} {x : Mat K} {j : Kind}, x.kind = some j → TriRk x → j.single → (wops env n).matmul ta tb (.num t) x = (ops env n).matmul ta tb (.num t) x := by
      intro t ta tb x j hx rx sj
      have hx' : x.isAM = true := by cases x <;> simp [Mat.kind] at hx <;> rfl
      rw [wops_matmul_convert n (.inr hx'), ops_matmul_convert n (.inr hx')]
      have e : convertAM env x = x := by cases x <;> simp [Mat.kind] at hx <;> rfl
      have h := kindC_num_single (env := env) t
      rw [e]
      exact ih (kind_convertAM env _) hx (rn t) rx h.1 sj (by unfold MixTri; simp [h.2.1, h.2.2])
    have numR : ∀ {t : Tensor K} {ta tb : Bool} {x : Mat K} {j : Kind}, x.kind = some j → TriRk x → j.single → (wops env n).matmul ta tb x (.num t) = (ops env n).matmul ta tb x (.num t) := by
      intro t ta tb x j hx rx sj
      have hx' : x.isAM = true := by cases x <;> simp [Mat.kind] at hx <;> rfl
      rw [wops_matmul_convert n (.inl hx'), ops_matmul_convert n (.inl hx')]
      have e : convertAM env x = x := by cases x <;> simp [Mat.kind] at hx <;> rfl
      have h := kindC_num_single (env := env) t
      rw [e]
      exact ih hx (kind_convertAM env _) rx (rn t) sj h.1 (by unfold MixTri; simp [h.2.1, h.2.2])
    have hne : mmId k k' ≠ none := by
      revert sk sk'; clear * -; cases k <;> cases k' <;> decide
    obtain ⟨m, hm⟩ := Option.ne_none_iff_exists'.1 hne
    rw [wMatmul_am ha hb hm, stepMatmul_am ha hb hm]
    have hta := kind_trM (t := ta) ha
    have htb := kind_trM (t := tb) hb
    have ska := trKind_single (t := ta) sk
    have skb := trKind_single (t := tb) sk'
    have dn := fun {x : Mat K} {j : Kind} => dense_eq (env := env) (a := x) (k := j) n
    cases a <;> simp only [Mat.kind, Option.some.injEq, reduceCtorEq] at ha <;> subst ha <;>
      cases b <;> simp only [Mat.kind, Option.some.injEq, reduceCtorEq] at hb <;> subst hb <;>
      first
      | exact sk.elim
      | exact sk'.elim
      | exact absurd (.inl ⟨rfl, rfl⟩) hmix
      | exact absurd (.inr (.inl ⟨rfl, rfl⟩)) hmix
      | (obtain rfl := Option.some.inj hm; rfl)
      | (obtain rfl := Option.some.inj hm; exact numL rfl rb sk')
      | (obtain rfl := Option.some.inj hm; exact numR rfl ra sk)
      | skip
    all_goals (obtain rfl := Option.some.inj hm)
    all_goals (try simp only [mmWarn, wMmRun, mmRun, Mat.structured, pure_bind])
    all_goals first
      | exact bind_congr_ok fun _ _ => bind_congr_ok fun x hx => mul_eq n (hta x hx) rfl ska (by decide)
      | exact bind_congr_ok fun _ _ => bind_congr_ok fun x hx => mul_eq n rfl (htb x hx) (by decide) skb
      | exact bind_congr_ok fun _ _ => bind_congr_ok fun x hx => by rw [sumM_eq n 0 (hta x hx) ska]
      | exact bind_congr_ok fun _ _ => bind_congr_ok fun x hx => by rw [sumM_eq n 1 (htb x hx) skb]
      | exact numL rfl rb sk'
      | exact numR rfl ra sk
      | skip
    all_goals split_ifs with h
    all_goals first
      | rfl
      | (refine bind_congr_ok fun x hx => bind_congr_ok fun y hy => ih (hta x hx) (htb y hy) (triRk_trM ra _ hx) (triRk_trM rb _ hy) ska skb ?_
         revert h hmix; clear * -; cases ta <;> cases tb <;> decide)
      | exact bind_congr_ok fun x hx => ih (k' := .diag) (hta x hx) rfl (triRk_trM ra _ hx) rb ska sk' (by unfold MixTri; simp)
      | exact bind_congr_ok fun x hx => ih (k := .diag) rfl (htb x hx) ra (triRk_trM rb _ hx) sk skb (by unfold MixTri; simp)
      | (rename_i s t
         rw [numR (t := t) (x := .diag s) rfl trivial (by decide)]
         refine bind_congr_ok fun x hx => ?_
         obtain ⟨k2, h2, h3⟩ := (ops_mmKinds env n).numR _ _ (a := .diag s) (t := t) rb trivial rfl x hx
         obtain rfl : k2 = .dense := by simpa [mmOut] using h2
         rw [dense_eq n h3 (by decide)])
      | (rename_i s t
         rw [numL (t := s) (x := .diag t) rfl trivial (by decide)]
         refine bind_congr_ok fun x hx => ?_
         obtain ⟨k2, h2, h3⟩ := (ops_mmKinds env n).numL _ _ (b := .diag t) (t := s) ra trivial rfl x hx
         obtain rfl : k2 = .dense := by simpa [mmOut] using h2
         rw [dense_eq n h3 (by decide)])

/-! ### C44 -/

/-- A run that returns without warnings and one that warns exclude each other. -/
theorem Quiet.not_warns {α : Type} {c : Cfg K} {f : Ops K → E α} {r : α} (hf : Calls f) (h : Quiet c f r) : ¬ Warns c f := by
  rintro ⟨m, h'⟩
  obtain ⟨n, h⟩ := h
  have h1 := (hf _ _ _ (wops_below_le (env := c.code) (Nat.le_max_left n m))).ok h
  rcases hf _ _ _ (wops_below_le (env := c.code) (Nat.le_max_right n m)) with h2 | ⟨_, rfl, h2⟩
  · rw [← h2, h'] at h1; cases h1
  · rw [h'] at h2; cases h2

/-- C44.  A call that returns does so either without a warning, and then with the same result when warnings are made errors, or it warns; not both. -/
theorem C44_erase {α : Type} (c : Cfg K) {f : Ops K → E α} (hf : Calls f) {r : α} (h : Returns c f r) :
    (Quiet c f r ∨ Warns c f) ∧ ¬ (Quiet c f r ∧ Warns c f) := by
  refine ⟨?_, fun ⟨h1, h2⟩ => h1.not_warns hf h2⟩
  obtain ⟨n, h⟩ := h
  rcases hf _ _ _ (wops_warn (env := c.code) n) with h1 | ⟨e, rfl, h1⟩
  · exact .inl ⟨n, h1.trans h⟩
  · exact .inr ⟨n, h1⟩

theorem Quiet.returns {α : Type} {c : Cfg K} {f : Ops K → E α} {r : α} (hf : Calls f) (h : Quiet c f r) : Returns c f r := by
  obtain ⟨n, h⟩ := h
  exact ⟨n, (hf _ _ _ (wops_warn n)).ok h⟩

theorem isAM_of_structured {a : Mat K} (h : a.structured = true) : ∃ k, a.kind = some k ∧ k ≠ .dense ∧ a.isAM = true := by
  cases a <;> first | exact ⟨_, rfl, by decide, rfl⟩ | cases h

/-- C44.  No silent loss of structure: if adding two structured matrices, of any classes but triangular ones of opposite sides, gives a Dense matrix, then a ToDenseWarning was issued. -/
theorem C44_add (c : Cfg K) {a b r : Mat K} (ha : a.structured = true) (hb : b.structured = true)
    (ht : ¬ (a.kind = some .lt ∧ b.kind = some .ut)) (ht' : ¬ (a.kind = some .ut ∧ b.kind = some .lt))
    (h : Returns c (fun B => B.add a b) r) (hr : r.kind = some .dense) : Warns c (fun B => B.add a b) := by
  obtain ⟨k, h1, h2, _⟩ := isAM_of_structured ha
  obtain ⟨k', h1', h2', _⟩ := isAM_of_structured hb
  rcases (C44_erase c (Calls.add a b) h).1 with ⟨n, hq⟩ | hw
  · exact absurd hr (wops_addSilent n a b k k' h1 h1' h2 h2' (fun e => ht (by rw [h1, h1', e.1, e.2]; exact ⟨rfl, rfl⟩))
      (fun e => ht' (by rw [h1, h1', e.1, e.2]; exact ⟨rfl, rfl⟩)) r hq)
  · exact hw

/-- C44.  The same for the element-wise product. -/
theorem C44_multiply (c : Cfg K) {a b r : Mat K} (ha : a.structured = true) (hb : b.structured = true)
    (h : Returns c (fun B => B.mul a b) r) (hr : r.kind = some .dense) : Warns c (fun B => B.mul a b) := by
  obtain ⟨k, h1, h2, _⟩ := isAM_of_structured ha
  obtain ⟨k', h1', h2', _⟩ := isAM_of_structured hb
  rcases (C44_erase c (Calls.mul a b) h).1 with ⟨n, hq⟩ | hw
  · exact absurd hr (wops_mulSilent n a b k k' h1 h1' h2 h2' r hq)
  · exact hw

/-- C44.  The same for the matrix product. -/
theorem C44_matmul (c : Cfg K) {ta tb : Bool} {a b r : Mat K} (va : a.Valid) (vb : b.Valid) (ha : a.structured = true) (hb : b.structured = true)
    (h : Returns c (fun B => B.matmul ta tb a b) r) (hr : r.kind = some .dense) : Warns c (fun B => B.matmul ta tb a b) := by
  obtain ⟨k, h1, h2, _⟩ := isAM_of_structured ha
  obtain ⟨k', h1', h2', _⟩ := isAM_of_structured hb
  rcases (C44_erase c (Calls.matmul ta tb a b) h).1 with ⟨n, hq⟩ | hw
  · exact absurd hr (wops_mmSilent n ta tb a b k k' h1 h1' (triRk_of_valid va) (triRk_of_valid vb) h2 h2' r hq)
  · exact hw

theorem convertAM_of_kind {env : Env K} {a : Mat K} {k : Kind} (h : a.kind = some k) : convertAM env a = a := by
  cases a <;> simp [Mat.kind] at h <;> rfl

/-- C44.  For numeric, Zero, Dense, Diagonal, Constant and triangular operands (`classOf` is the class an operand acts as) there is no needless warning: a sum that
returns issues a ToDenseWarning exactly when both operands are structured and the result is Dense, triangular matrices of opposite sides aside. -/
theorem C44_add_exact (c : Cfg K) {a b r : Mat K} (ha : (classOf c a).single) (hb : (classOf c b).single) (hab : a.isAM = true ∨ b.isAM = true)
    (h : Returns c (fun B => B.add a b) r) :
    Warns c (fun B => B.add a b) ↔ classOf c a ≠ .dense ∧ classOf c b ≠ .dense ∧ r.kind = some .dense ∧
      ¬ (classOf c a = .lt ∧ classOf c b = .ut) ∧ ¬ (classOf c a = .ut ∧ classOf c b = .lt) := by
  rw [← classOf_eq] at ha hb
  rw [← classOf_eq, ← classOf_eq]
  have ka := kind_convertAM c.code a
  have kb := kind_convertAM c.code b
  constructor
  · intro hw
    by_contra hcon
    refine absurd hw (Quiet.not_warns (r := r) (Calls.add a b) ?_)
    obtain ⟨n, h⟩ := h
    refine ⟨n, ?_⟩
    have hk := ops_addKinds c.code n a b hab r h
    change (ops c.code n).add a b = .ok r at h
    show (wops c.code n).add a b = .ok r
    rw [ops_add_convert n hab] at h
    rw [wops_add_convert n hab]
    generalize kindC c.code a = k at *
    generalize kindC c.code b = k' at *
    by_cases hz : k = .zero ∨ k' = .zero
    · refine addZero_eq ka kb ha hb hz ?_ h
      by_contra h1
      push Not at h1
      refine hcon ⟨h1.1, h1.2.1, h1.2.2, ?_, ?_⟩ <;> rintro ⟨rfl, rfl⟩ <;> rcases hz with hz | hz <;> cases hz
    · push Not at hz
      rw [add_eq n ka kb ha hb hz.1 hz.2, h]
      · rintro ⟨rfl, h1⟩
        obtain ⟨k2, h2, h3⟩ := hk
        refine hcon ⟨by decide, by rcases h1 with rfl | rfl <;> decide, ?_, (fun h => nomatch h.1), (fun h => nomatch h.1)⟩
        rw [h3]; rcases h1 with rfl | rfl <;> simpa [addOut] using h2
      · rintro ⟨rfl, h1⟩
        obtain ⟨k2, h2, h3⟩ := hk
        refine hcon ⟨by rcases h1 with rfl | rfl <;> decide, by decide, ?_, (fun h => nomatch h.2), (fun h => nomatch h.2)⟩
        rw [h3]; rcases h1 with rfl | rfl <;> simpa [addOut] using h2
  · rintro ⟨h1, h2, h3, h4, h5⟩
    rcases (C44_erase c (Calls.add a b) h).1 with ⟨n, hq⟩ | hw
    · change (wops c.code n).add a b = .ok r at hq
      rw [wops_add_convert n hab] at hq
      exact absurd h3 (wops_addSilent n _ _ _ _ ka kb h1 h2 h4 h5 r hq)
    · exact hw

/-- C44.  For the same operands an element-wise product never issues a ToDenseWarning. -/
theorem C44_multiply_exact (c : Cfg K) {a b r : Mat K} (ha : (classOf c a).single) (hb : (classOf c b).single) (hab : a.isAM = true ∨ b.isAM = true)
    (h : Returns c (fun B => B.mul a b) r) : Quiet c (fun B => B.mul a b) r := by
  rw [← classOf_eq] at ha hb
  obtain ⟨n, h⟩ := h
  refine ⟨n, ?_⟩
  change (ops c.code n).mul a b = .ok r at h
  show (wops c.code n).mul a b = .ok r
  rw [ops_mul_convert n hab] at h
  rw [wops_mul_convert n hab, mul_eq n (kind_convertAM c.code a) (kind_convertAM c.code b) ha hb, h]

/-- C44.  For the same operands a matrix product that returns issues a ToDenseWarning exactly when both operands are structured and the result is Dense. -/
theorem C44_matmul_exact (c : Cfg K) {ta tb : Bool} {a b r : Mat K} (va : a.Valid) (vb : b.Valid) (ha : (classOf c a).single) (hb : (classOf c b).single)
    (hab : a.isAM = true ∨ b.isAM = true) (h : Returns c (fun B => B.matmul ta tb a b) r) :
    Warns c (fun B => B.matmul ta tb a b) ↔ classOf c a ≠ .dense ∧ classOf c b ≠ .dense ∧ r.kind = some .dense := by
  rw [← classOf_eq] at ha hb
  rw [← classOf_eq, ← classOf_eq]
  have ka := kind_convertAM c.code a
  have kb := kind_convertAM c.code b
  have ra := triRk_convert (env := c.code) (triRk_of_valid va)
  have rb := triRk_convert (env := c.code) (triRk_of_valid vb)
  constructor
  · intro hw
    by_contra hcon
    refine absurd hw (Quiet.not_warns (r := r) (Calls.matmul ta tb a b) ?_)
    obtain ⟨n, h⟩ := h
    refine ⟨n, ?_⟩
    obtain ⟨k2, h2, h3⟩ := ops_mmKinds c.code n ta tb a b hab (triRk_of_valid va) (triRk_of_valid vb) r h
    change (ops c.code n).matmul ta tb a b = .ok r at h
    show (wops c.code n).matmul ta tb a b = .ok r
    rw [ops_matmul_convert n hab] at h
    rw [wops_matmul_convert n hab, mm_eq n ka kb ra rb ha hb, h]
    rintro (⟨e1, e2⟩ | ⟨e1, e2⟩ | ⟨e1, e2, e3⟩ | ⟨e1, e2, e3⟩) <;>
      refine hcon ⟨by rw [e1]; decide, by rw [e2]; decide, ?_⟩ <;> rw [h3] <;> rw [e1, e2] at h2
    · simpa [mmOut] using h2
    · simpa [mmOut] using h2
    · simpa [mmOut, e3] using h2
    · simpa [mmOut, e3] using h2
  · rintro ⟨h1, h2, h3⟩
    rcases (C44_erase c (Calls.matmul ta tb a b) h).1 with ⟨n, hq⟩ | hw
    · change (wops c.code n).matmul ta tb a b = .ok r at hq
      rw [wops_matmul_convert n hab] at hq
      exact absurd h3 (wops_mmSilent n ta tb _ _ _ _ ka kb ra rb h1 h2 r hq)
    · exact hw

/-! ### Scaling -/

/-- No part of the matrix is a TiledBlocks matrix. -/
def Mat.untiled : Mat K → Prop
  | .lr l r m => l.untiled ∧ r.untiled ∧ m.untiled
  | .wb _ l r m => l.untiled ∧ r.untiled ∧ m.untiled
  | .kron l r => l.untiled ∧ r.untiled
  | .tiled .. => False
  | _ => True

theorem addDiagLr_eq (n : ℕ) {x y : Mat K} (hx : x.kind = some .diag) (hy : y.kind = some .lr) : (wops env n).add x y = (ops env n).add x y := by
  cases x <;> simp only [Mat.kind, Option.some.injEq, reduceCtorEq] at hx
  cases y <;> simp only [Mat.kind, Option.some.injEq, reduceCtorEq] at hy
  cases n with
  | zero => rfl
  | succ n => rfl

theorem scale_eq {s : Tensor K} (hs : s.rank = 0) (n : ℕ) : ∀ a : Mat K, a.untiled →
    (wops env n).mul (.num s) a = (ops env n).mul (.num s) a ∧ (wops env n).mul (.const s 1 1) a = (ops env n).mul (.const s 1 1) a ∧
      (wops env n).mul a (.const s 1 1) = (ops env n).mul a (.const s 1 1) := by
  induction n with
  | zero => exact fun _ _ => ⟨rfl, rfl, rfl⟩
  | succ n ih =>
    intro a ha
    have hc : (Mat.const s 1 1 : Mat K).kind = some .const := rfl
    have hcc : (wops env (n+1)).mul (.const s 1 1) a = (ops env (n+1)).mul (.const s 1 1) a ∧ (wops env (n+1)).mul a (.const s 1 1) = (ops env (n+1)).mul a (.const s 1 1) := by
      cases a with
      | num t =>
        have h := kindC_num_single (env := env) t
        rw [wops_mul_convert (n+1) (.inl rfl), ops_mul_convert (n+1) (.inl rfl), wops_mul_convert (a := .num t) (n+1) (.inr rfl), ops_mul_convert (a := .num t) (n+1) (.inr rfl)]
        exact ⟨mul_eq _ rfl (kind_convertAM env _) trivial h.1, mul_eq _ (kind_convertAM env _) rfl h.1 trivial⟩
      | lr l r m =>
        constructor
        · rw [wMul_am hc (k' := .lr) rfl, stepMul_am hc (k' := .lr) rfl]
          simp only [mulId, mulWarn, mulRun, pure_bind, expandIgn, hs, if_true, (ih m ha.2.2).1]
        · rw [wMul_am (k := .lr) rfl hc, stepMul_am (k := .lr) rfl hc]
          exact (ih _ ha).2.1
      | wb d l r m =>
        constructor
        · rw [wMul_am hc (k' := .wb) rfl, stepMul_am hc (k' := .wb) rfl]
          exact (ih _ ha).2.2
        · rw [wMul_am (k := .wb) rfl hc, stepMul_am (k := .wb) rfl hc]
          simp only [mulId, mulWarn, mulRun, pure_bind]
          rw [mul_eq n (a := .diag d) rfl hc trivial trivial, (ih (.lr l r m) ha).2.2]
          refine bind_congr_ok fun x hx => bind_congr_ok fun y hy => ?_
          exact addDiagLr_eq n ((ops_mulKinds env n).am (a := .diag d) rfl hc x hx) ((ops_mulKinds env n).am (a := .lr l r m) rfl hc y hy)
      | kron l r =>
        constructor
        · rw [wMul_am hc (k' := .kron) rfl, stepMul_am hc (k' := .kron) rfl]
          simp only [mulId, mulWarn, mulRun, pure_bind, expandIgn, hs, if_true, (ih l ha.1).1]
        · rw [wMul_am (k := .kron) rfl hc, stepMul_am (k := .kron) rfl hc]
          exact (ih _ ha).2.1
      | tiled => exact ha.elim
      | _ => exact ⟨mul_eq _ rfl rfl trivial trivial, mul_eq _ rfl rfl trivial trivial⟩
    refine ⟨?_, hcc⟩
    by_cases hz : a.isAM = true
    · rw [wops_mul_convert (n+1) (.inr hz), ops_mul_convert (n+1) (.inr hz)]
      have e : convertAM env a = a := by cases a <;> simp [Mat.isAM] at hz <;> rfl
      rw [e]
      simp only [convertAM, hs, if_true]
      split_ifs
      · obtain ⟨k, hk⟩ : ∃ k, a.kind = some k := by cases a <;> simp [Mat.isAM] at hz <;> exact ⟨_, rfl⟩
        by_cases hk' : k = .zero
        · subst hk'
          obtain ⟨bt, i, j, rfl⟩ := kind_zero hk
          exact mul_eq _ rfl rfl trivial trivial
        rw [wMul_am (k := .zero) rfl hk, stepMul_am (k := .zero) rfl hk]
        cases k <;> first | rfl | exact absurd rfl hk'
      · exact hcc.1
    · cases a <;> simp [Mat.isAM] at hz
      rfl

/-- C44.  Scaling by a number never issues a ToDenseWarning, for a matrix of any class without TiledBlocks parts. -/
theorem C44_scale (c : Cfg K) {s : Tensor K} {a r : Mat K} (hs : s.rank = 0) (ha : a.untiled) (h : Returns c (fun B => B.mul (.num s) a) r) :
    Quiet c (fun B => B.mul (.num s) a) r := by
  obtain ⟨n, h⟩ := h
  exact ⟨n, (scale_eq hs n a ha).1.trans h⟩

/-! ### Where the warnings are off -/

/-- A warning in a run of the model. -/
def Ex.warnB {α : Type} (x : E α) : Bool := match x with
  | .error .warn => true
  | _ => false
theorem Ex.warns {α : Type} {f : Ops ℚ → E α} {n : ℕ} (h : Ex.warnB (f (wops Ex.cfg.code n)) = true) : Warns Ex.cfg f := by
  refine ⟨n, ?_⟩
  cases e : f (wops Ex.cfg.code n) with
  | ok r => rw [e] at h; simp [Ex.warnB] at h
  | error x => rw [e] at h; cases x <;> first | rfl | simp [Ex.warnB] at h
theorem Ex.quiet {f : Ops ℚ → E (Mat ℚ)} {k : Kind} {n : ℕ} (h : Ex.kindOf (f (wops Ex.cfg.code n)) = some k) : ∃ r, Quiet Ex.cfg f r ∧ r.kind = some k := by
  cases e : f (wops Ex.cfg.code n) with
  | ok r => rw [e] at h; exact ⟨r, ⟨n, e⟩, h⟩
  | error x => rw [e] at h; simp [Ex.kindOf] at h

/-- Finding.  Adding triangular matrices of opposite sides gives a Dense matrix without a ToDenseWarning. -/
theorem C44_triangular_silent : ∃ a b r : Mat ℚ, a.Valid ∧ b.Valid ∧ a.structured = true ∧ b.structured = true ∧
    Quiet Ex.cfg (fun B => B.add a b) r ∧ r.kind = some .dense := by
  obtain ⟨r, h1, h2⟩ := Ex.quiet (f := fun B => B.add Ex.U Ex.L) (k := .dense) (n := 4) (by decide +kernel)
  exact ⟨Ex.U, Ex.L, r, ⟨_, Ex.U_wf []⟩, ⟨_, Ex.L_wf []⟩, rfl, rfl, h1, h2⟩

/-- A LowRank matrix as the constructor makes it when no middle is given. -/
def Ex.Rd : Mat ℚ := .lr (.num (Ex.m 2 1 [1, 2])) (.num (Ex.m 2 1 [3, 4])) (.diag (Ex.v [1]))
theorem Ex.Rd_wf (S) : Ex.Rd.WF S := ⟨⟨Ex.num_wf _ _ _ _, Ex.num_wf _ _ _ _, ⟨by decide, Fits.nil _⟩⟩, ⟨le_refl _, le_refl _, le_refl _⟩, rfl, rfl⟩

/-- Finding.  Adding LowRank matrices whose middle is Diagonal, as the constructor makes it by default, issues a ToDenseWarning although the result is LowRank. -/
theorem C44_lowrank_needless : ∃ a b r : Mat ℚ, a.Valid ∧ b.Valid ∧ Returns Ex.cfg (fun B => B.add a b) r ∧ r.kind = some .lr ∧ Warns Ex.cfg (fun B => B.add a b) := by
  obtain ⟨r, h1, h2⟩ := Ex.kindIs (f := fun B => B.add Ex.Rd Ex.Rd) (k := .lr) (n := 6) (by decide +kernel)
  exact ⟨Ex.Rd, Ex.Rd, r, ⟨_, Ex.Rd_wf []⟩, ⟨_, Ex.Rd_wf []⟩, h1, h2, Ex.warns (n := 6) (by decide +kernel)⟩

/-! The hypotheses on concrete operands: a warning for a sum of Kronecker products, for a Kronecker product times a LowRank matrix, for a Constant plus a triangular matrix, for a
product of triangular matrices; none for Diagonal plus LowRank, for a Woodbury matrix scaled, for a triangular product that stays triangular. -/

example : Warns Ex.cfg (fun B => B.add Ex.Kr Ex.Kr) := Ex.warns (n := 6) (by decide +kernel)
example : ∃ r, Returns Ex.cfg (fun B => B.add Ex.Kr Ex.Kr) r ∧ r.kind = some .dense := Ex.kindIs (n := 6) (by decide +kernel)
example : let R4 : Mat ℚ := .lr (.num (Ex.m 4 1 [1, 2, 3, 4])) (.num (Ex.m 4 1 [1, 1, 2, 5])) (.num (Ex.m 1 1 [2]))
    Warns Ex.cfg (fun B => B.mul Ex.Kr R4) ∧ ∃ r, Returns Ex.cfg (fun B => B.mul Ex.Kr R4) r ∧ r.kind = some .dense :=
  ⟨Ex.warns (n := 6) (by decide +kernel), Ex.kindIs (n := 6) (by decide +kernel)⟩
example : Warns Ex.cfg (fun B => B.add Ex.C Ex.L) := Ex.warns (n := 6) (by decide +kernel)
example : ∃ r, Returns Ex.cfg (fun B => B.add Ex.C Ex.L) r ∧ r.kind = some .dense := Ex.kindIs (n := 6) (by decide +kernel)
example : Warns Ex.cfg (fun B => B.matmul false false Ex.L Ex.U) := Ex.warns (n := 6) (by decide +kernel)
example : ∃ r, Returns Ex.cfg (fun B => B.matmul false false Ex.L Ex.U) r ∧ r.kind = some .dense := Ex.kindIs (n := 6) (by decide +kernel)
example : ∃ r, Quiet Ex.cfg (fun B => B.add Ex.D Ex.R) r ∧ r.kind = some .wb := Ex.quiet (n := 6) (by decide +kernel)
example : ∃ r, Quiet Ex.cfg (fun B => B.mul (.num (scalarT 3)) Ex.W) r ∧ r.kind = some .wb := Ex.quiet (n := 6) (by decide +kernel)
example : ∃ r, Quiet Ex.cfg (fun B => B.matmul true true Ex.L Ex.L) r ∧ r.kind = some .ut := Ex.quiet (n := 6) (by decide +kernel)

end Verif
