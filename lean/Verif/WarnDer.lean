/-
Densification warnings of the derived functions (C54): element-wise functions, selection, concatenation, tiling, blocks, division, sums over batch axes,
and the functions that return an array (reshape, squeeze, isnan, indexing).  As in `Warn`, a run in which a `ToDenseWarning` is issued is one that stops
with the error `warn` when warnings are made errors.
-/
import Verif.Warn
import Verif.Methods
import Verif.Submat
import Verif.Block
import Verif.Classes

set_option linter.unusedSectionVars false
set_option linter.unusedSimpArgs false

namespace Verif

variable {K : Type} [Field K] [LinearOrder K] [IsStrictOrderedRing K]

/-! ### Model -/

/-- `B.abs`, `B.sqrt`, `B.power` with the warning: `ops/abs.py` 19-26, `ops/sqrt.py` 19-26, `ops/power.py` 19-26 (`eltM` otherwise). -/
def wElt (g : Tensor K → E (Tensor K)) (B : Ops K) : Mat K → E (Mat K)
  | .num t => do return .num (← g t)
  | .zero bt r c => .ok (.zero bt r c)
  | .diag d => do mkDiag (← g d)
  | .const t r c => do mkConst (← g t) [c, r]
  | .lt t => do mkLT (← g t)
  | .ut t => do mkUT (← g t)
  | .kron l r => do return .kron (← wElt g B l) (← wElt g B r)
  | a => do
    warnIf a.structured
    return mkDense (← g (← B.dense a))

/-- `take(a: AbstractMatrix, ...)` with the warning, `ops/take.py` 23-27. -/
def wTakeDense (B : Ops K) (a : Mat K) (sel : Sel) (axis : Int) : E (Mat K) := do
  warnIf a.structured
  takeDense B a sel axis

/-- `B.take` with the warnings, `ops/take.py` (`takeStep` otherwise): only the method for `AbstractMatrix` warns. -/
def wTakeStep (T : Mat K → Sel → Int → E (Mat K)) (B : Ops K) (a : Mat K) (sel : Sel) (axis : Int) : E (Mat K) := do
  let n ← rankM a
  let k ← axPos n axis
  match a with
  | .num t => return .num (← nTakeSel t sel axis)
  | .zero bt r c => mkZero ((c :: r :: bt).set k sel.count)
  | .diag d => if k < 2 then wTakeDense B (.diag d) sel (negAxis k) else do mkDiag (← nTakeSel d sel (posAxis n k))
  | .const t r c =>
    if k = 1 then mkConst t [c, sel.count]
    else if k = 0 then mkConst t [sel.count, r]
    else do mkConst (← nTakeSel t sel (posAxis n k)) [c, r]
  | .lt t => do
    let u ← nTakeSel t sel (negAxis k)
    if k < 2 then return mkDense u else mkLT u
  | .ut t => do
    let u ← nTakeSel t sel (negAxis k)
    if k < 2 then return mkDense u else mkUT u
  | .lr l r m => takeLR T l r m sel n k
  | .wb d l r m =>
    if k < 2 then do
      let x ← T (.diag d) sel (negAxis k)
      let y ← T (.lr l r m) sel (negAxis k)
      B.add x y
    else do
      let p ← alignBatch2 (.diag d) (.lr l r m)
      let x ← T p.1 sel (posAxis n k)
      let y ← T p.2 sel (posAxis n k)
      B.add x y
  | .kron l r =>
    if k < 2 then wTakeDense B (.kron l r) sel (negAxis k)
    else do
      let p ← alignBatch2 l r
      let l' ← T p.1 sel (posAxis n k)
      let r' ← T p.2 sel (posAxis n k)
      return .kron l' r'
  | a => wTakeDense B a sel axis

/-- `B.take(a, sel, axis)` with the warnings and at most `n` nested calls. -/
def wTakeM (B : Ops K) : ℕ → Mat K → Sel → Int → E (Mat K)
  | 0 => fun _ _ _ => .error .fuel
  | n+1 => wTakeStep (wTakeM B n) B

/-- `submatrix(a: LowRank, sel)` with the warnings of `B.take`, `ops/submatrix.py` 68-74. -/
def wSubmatrixLR (B : Ops K) (m' : ℕ) (l r m : Mat K) (sel : Sel) : E (Mat K) := do
  let x ← wTakeM B m' l sel (-2)
  let y ← wTakeM B m' r sel (-2)
  mkLR x y m

/-- `B.submatrix(a, sel)` with the warnings, `ops/submatrix.py` 28-36 (`submatrixM` otherwise). -/
def wSubmatrixM (B : Ops K) (m' : ℕ) (a : Mat K) (sel : Sel) : E (Mat K) :=
  match a with
  | .num t => do return .num (← nSubmatrix t sel)
  | .zero bt _ _ => mkZero (sel.count :: sel.count :: bt)
  | .diag d => do mkDiag (← nTakeSel d sel (-1))
  | .const t _ _ => mkConst t (sel.count :: sel.count :: t.sh)
  | .lt t => do mkLT (← nSubmatrix t sel)
  | .ut t => do mkUT (← nSubmatrix t sel)
  | .lr l r m => wSubmatrixLR B m' l r m sel
  | .wb d l r m => do
    let d' ← nTakeSel d sel (-1)
    guardE (1 ≤ d'.rank) .assertion
    let y ← wSubmatrixLR B m' l r m sel
    match y with
    | .lr l' r' m' => mkWB d' l' r' m'
    | _ => .error .notFound
  | a => do
    warnIf a.structured
    return mkDense (← nSubmatrix (← B.dense a) sel)

/-- `B.concat(*as, axis)` with the warnings, `ops/concat.py` 15-22, 26-32 (`concatM` otherwise). -/
def wConcat (B : Ops K) (as : List (Mat K)) (axis : Int) : E (Mat K) :=
  if as.all (fun a => !a.isAM) then do return .num (← nConcat axis (as.map den))
  else if !as.all Mat.isAM then .error .notFound
  else match as.mapM (tiledParts axis) with
    | some bs => mkTiledL bs.flatten axis
    | none => do
      warnIf (as.any Mat.structured)
      let ds ← as.mapM B.dense
      return mkDense (← nConcat axis ds)

/-- `B.tile(a, *repetitions)` with the warning, `ops/tile.py` 15-19 (`tileM` otherwise). -/
def wTile (B : Ops K) (a : Mat K) (reps : List ℕ) : E (Mat K) :=
  match a with
  | .num t => .ok (.num (nTile t reps))
  | .zero bt r c => do
    guardE (bt.length + 2 = reps.length) .value
    mkZero (c * reps.getD 0 1 :: r * reps.getD 1 1 :: List.zipWith (· * ·) bt (reps.drop 2))
  | .const t r c => do
    guardE (t.rank + 2 = reps.length) .value
    mkConst (nTile t (reps.drop 2)) [c * reps.getD 0 1, r * reps.getD 1 1]
  | a => do
    warnIf a.structured
    return mkDense (nTile (← B.dense a) reps)

/-- `B.divide(a, b)` with the warning, `ops/divide.py` 12-17 (`divideM` otherwise). -/
def wDivide (env : Env K) (B : Ops K) (a b : Mat K) : E (Mat K) :=
  match a, b with
  | .num s, .num t => do return .num (← nDiv s t)
  | a, b =>
    let a := convertAM env a
    match convertAM env b with
    | .const t r c => divideConst B a t r c
    | b => do
      warnIf (a.structured || b.structured)
      return mkDense (← nDiv (← B.dense a) (← B.dense b))

/-- `B.block(*rows)` with the warning, `ops/block.py` 39-43 (`blockM` otherwise): the last case always warns. -/
def wBlock (B : Ops K) (rows : List (List (Mat K))) : E (Mat K) :=
  match rows with
  | [] => .error .notFound
  | [[a]] => .ok a
  | rows =>
    if rows.all fun row => row.all isZeroM then blockZero rows
    else do
      match ← blockDiagonal B (← alignBatchRows rows) with
      | some r => return r
      | none => do
        warnIf true
        let rows' ← alignBatchRows rows
        let ds ← rows'.mapM fun row => row.mapM B.dense
        return mkDense (← nConcat2d ds)

/-- `block_diag` of matrices with the warning, `ops/block_diag.py` 83-88 (`blockDiagAM` otherwise): the last case always warns. -/
def wBlockDiag (B : Ops K) (as : List (Mat K)) : E (Mat K) :=
  match as with
  | [a] => .ok a
  | as =>
    if as.all isZeroM then do
      let bt ← shapeBatchBroadcastL as
      let hs ← as.mapM fun a => do return (← shapeMatrix a).1
      let ws ← as.mapM fun a => do return (← shapeMatrix a).2
      mkZero (ws.sum :: hs.sum :: bt)
    else if as.all isDiagM then do
      let bs ← alignBatchL as
      let vs ← bs.mapM B.diag
      mkDiag (← nConcat (-1) vs)
    else do
      warnIf true
      let ds ← as.mapM B.dense
      return mkDense (← blockDiagNum ds)

/-- The functions that return an array computed from the dense matrix: `B.reshape` (`ops/reshape.py` 10-16), `B.squeeze` (`ops/squeeze.py` 10-14), `B.isnan`
(`ops/isnan.py` 10-16), `a[item]` (`matrix.py` 58-63); `h` is what the backend does with the array. -/
def wThen {β : Type} (h : Tensor K → E β) (B : Ops K) (a : Mat K) : E β := do
  warnIf a.structured
  h (← B.dense a)
/-- The same without the warning. -/
def denseThen {β : Type} (h : Tensor K → E β) (B : Ops K) (a : Mat K) : E β := do h (← B.dense a)

/-- `B.sum(a, axis)` over a batch axis with the warnings, `ops/sum.py` 95-99, 135-140 (`sumBatchM` otherwise). -/
def wSumBatch (B : Ops K) (n k : ℕ) : Mat K → E (Mat K)
  | .lr l r m => do
    warnIf true
    return .num (← nSum (← B.dense (.lr l r m)) (some (posAxis n k)))
  | .wb d l r m => do
    let p ← alignBatch2 (.diag d) (.lr l r m)
    match p.1 with
    | .diag d' => do
      let x ← mkDiag (← nSum d' (some (posAxis n k)))
      warnIf true
      let y ← nSum (← B.dense p.2) (some (posAxis n k))
      B.add x (.num y)
    | _ => .error .notFound
  | .kron l r => do
    warnIf true
    return .num (← nSum (← B.dense (.kron l r)) (some (posAxis n k)))
  | a => sumBatchM B n k a

/-- `B.sum(a, axis)` with the warnings. -/
def wSum (B : Ops K) (a : Mat K) (axis : Option Int) : E (Mat K) :=
  match axis with
  | none => do return .num (← sumAllM B a)
  | some ax => do
    let n ← rankM a
    let k ← axPos n ax
    if k < 2 then return .num (← B.sumM k a) else wSumBatch B n k a

/-! ### The warnings only add to what the functions do -/

/-- `fw` is `f` with warnings as errors: it does the same, or stops with `warn`. -/
def Erases {α : Type} (fw f : Ops K → E α) : Prop := ∀ B C : Ops K, Ops.Below (· = .warn) B C → Below (· = .warn) (fw B) (f C)

theorem warn_below {α : Type} {b : Bool} {x : Unit → E α} {y : E α} (h : Below (· = .warn) (x ()) y) : Below (· = .warn) (warnIf b >>= x) y := by
  cases b with
  | false => exact h
  | true => exact .inr ⟨_, rfl, rfl⟩

theorem Erases.elt (g : Tensor K → E (Tensor K)) (a : Mat K) : Erases (fun B => wElt g B a) (fun B => eltM g B a) := by
  intro B C h
  have dense : ∀ a : Mat K, Below (· = .warn) (do warnIf a.structured; return mkDense (← g (← B.dense a))) (do return mkDense (← g (← C.dense a))) := fun a =>
    warn_below ((h.dense a).bind fun _ => .refl _)
  induction a with
  | kron l r ihl ihr => exact ihl.bind fun _ => ihr.bind fun _ => .refl _
  | dense t => exact dense _
  | lr l r' m _ _ _ => exact dense _
  | wb d l r' m _ _ _ => exact dense _
  | tiled n blk reps axis _ => exact dense _
  | _ => exact .refl _

theorem Erases.take (m : ℕ) (a : Mat K) (sel : Sel) (axis : Int) : Erases (fun B => wTakeM B m a sel axis) (fun B => takeM B m a sel axis) := by
  intro B C h
  induction m generalizing a sel axis with
  | zero => exact .refl _
  | succ m ih =>
    have hd : ∀ a sel axis, Below (· = .warn) (wTakeDense B a sel axis) (takeDense C a sel axis) := fun a sel axis =>
      warn_below (Calls.takeDense a sel axis _ _ _ h)
    have hf : ∀ x sel, Below (· = .warn) (takeFactor (wTakeM B m) x sel) (takeFactor (takeM C m) x sel) := by
      intro x sel
      cases x <;> first | exact .refl _ | exact ih _ _ _
    simp only [takeM, takeStep, wTakeM, wTakeStep]
    refine Below.bind (.refl _) fun n => Below.bind (.refl _) fun k => ?_
    cases a <;> simp only [takeLR] <;> below
    all_goals first | exact hd _ _ _ | exact hf _ _ | exact ih _ _ _ | exact h.add _ _

theorem Erases.submatrix (m : ℕ) (a : Mat K) (sel : Sel) : Erases (fun B => wSubmatrixM B m a sel) (fun B => submatrixM B m a sel) := by
  intro B C h
  have ht : ∀ a ax, Below (· = .warn) (wTakeM B m a sel ax) (takeM C m a sel ax) := fun a ax => Erases.take m a sel ax _ _ h
  have hlr : ∀ l r x, Below (· = .warn) (wSubmatrixLR B m l r x sel) (submatrixLR C m l r x sel) := fun l r x =>
    (ht _ _).bind fun _ => (ht _ _).bind fun _ => .refl _
  have hd : ∀ a : Mat K, Below (· = .warn) (do warnIf a.structured; return mkDense (← nSubmatrix (← B.dense a) sel)) (do return mkDense (← nSubmatrix (← C.dense a) sel)) :=
    fun a => warn_below ((h.dense a).bind fun _ => .refl _)
  cases a with
  | lr l r m => exact hlr _ _ _
  | wb d l r m => exact (Below.refl _).bind fun _ => (Below.refl _).bind fun _ => (hlr _ _ _).bind fun _ => .refl _
  | dense t => exact hd _
  | kron l r => exact hd _
  | tiled n blk reps ax => exact hd _
  | _ => exact .refl _

theorem Erases.concat (as : List (Mat K)) (axis : Int) : Erases (fun B => wConcat B as axis) (fun B => concatM B as axis) := by
  intro B C h
  show Below _ (wConcat B as axis) (concatM C as axis)
  unfold wConcat concatM
  split_ifs
  · exact .refl _
  · exact .refl _
  · cases as.mapM (tiledParts axis) with
    | some bs => exact .refl _
    | none => exact warn_below ((Below.mapM as fun a => h.dense a).bind fun _ => .refl _)

theorem Erases.tile (a : Mat K) (reps : List ℕ) : Erases (fun B => wTile B a reps) (fun B => tileM B a reps) := by
  intro B C h
  cases a <;> first | exact .refl _ | exact warn_below ((h.dense _).bind fun _ => .refl _)

theorem Erases.divide (env : Env K) (a b : Mat K) : Erases (fun B => wDivide env B a b) (fun B => divideM env B a b) := by
  intro B C h
  have key : ∀ a b : Mat K, Below (· = .warn)
      (match b with
        | .const t r c => divideConst B a t r c
        | b => do
          warnIf (a.structured || b.structured)
          return mkDense (← nDiv (← B.dense a) (← B.dense b)))
      (match b with
        | .const t r c => divideConst C a t r c
        | b => do return mkDense (← nDiv (← C.dense a) (← C.dense b))) := by
    intro a b
    cases b with
    | const t r c => exact Below.bind (.refl _) fun _ => Below.bind (.refl _) fun _ => h.mul _ _
    | _ => exact warn_below (Below.bind (h.dense _) fun _ => Below.bind (h.dense _) fun _ => .refl _)
  show Below _ (wDivide env B a b) (divideM env C a b)
  have k2 := key (convertAM env a) (convertAM env b)
  cases a <;> cases b <;> first | exact .refl _ | exact k2

theorem Erases.block (rows : List (List (Mat K))) : Erases (fun B => wBlock B rows) (fun B => blockM B rows) := by
  intro B C h
  have key : ∀ rows : List (List (Mat K)), Below (· = .warn)
      (if (rows.all fun row => row.all isZeroM) = true then blockZero rows
        else do
          match ← blockDiagonal B (← alignBatchRows rows) with
          | some r => return r
          | none => do
            warnIf true
            let rows' ← alignBatchRows rows
            let ds ← rows'.mapM fun row => row.mapM B.dense
            return mkDense (← nConcat2d ds))
      (if (rows.all fun row => row.all isZeroM) = true then blockZero rows
        else do
          match ← blockDiagonal C (← alignBatchRows rows) with
          | some r => return r
          | none => do
            let rows' ← alignBatchRows rows
            let ds ← rows'.mapM fun row => row.mapM C.dense
            return mkDense (← nConcat2d ds)) := by
    intro rows
    split_ifs
    · exact .refl _
    · refine (Below.refl _).bind fun rs => (Calls.blockDiagonal rs _ B C h).bind fun o => ?_
      cases o with
      | some r => exact .refl _
      | none => exact warn_below ((Below.refl _).bind fun rs => (Below.mapM rs fun row => Below.mapM row fun a => h.dense a).bind fun _ => .refl _)
  show Below _ (wBlock B rows) (blockM C rows)
  have k2 := key rows
  match rows, k2 with
  | [], _ => exact .refl _
  | [[a]], _ => exact .refl _
  | [[]], k2 => exact k2
  | [a :: b :: row], k2 => exact k2
  | row :: row' :: rs, k2 => exact (by cases row with
      | nil => exact k2
      | cons a row => cases row with
        | nil => exact k2
        | cons b row => exact k2)

theorem Erases.blockDiag (as : List (Mat K)) : Erases (fun B => wBlockDiag B as) (fun B => blockDiagAM B as) := by
  intro B C h
  have key : ∀ as : List (Mat K), Below (· = .warn)
      (if as.all isZeroM = true then do
          let bt ← shapeBatchBroadcastL as
          let hs ← as.mapM fun a => do return (← shapeMatrix a).1
          let ws ← as.mapM fun a => do return (← shapeMatrix a).2
          mkZero (ws.sum :: hs.sum :: bt)
        else if as.all isDiagM = true then do
          let bs ← alignBatchL as
          let vs ← bs.mapM B.diag
          mkDiag (← nConcat (-1) vs)
        else do
          warnIf true
          let ds ← as.mapM B.dense
          return mkDense (← blockDiagNum ds))
      (if as.all isZeroM = true then do
          let bt ← shapeBatchBroadcastL as
          let hs ← as.mapM fun a => do return (← shapeMatrix a).1
          let ws ← as.mapM fun a => do return (← shapeMatrix a).2
          mkZero (ws.sum :: hs.sum :: bt)
        else if as.all isDiagM = true then do
          let bs ← alignBatchL as
          let vs ← bs.mapM C.diag
          mkDiag (← nConcat (-1) vs)
        else do
          let ds ← as.mapM C.dense
          return mkDense (← blockDiagNum ds)) := by
    intro as
    split_ifs
    · exact .refl _
    · exact (Below.refl _).bind fun bs => (Below.mapM bs fun a => h.diag a).bind fun _ => .refl _
    · exact warn_below ((Below.mapM as fun a => h.dense a).bind fun _ => .refl _)
  show Below _ (wBlockDiag B as) (blockDiagAM C as)
  have k2 := key as
  match as, k2 with
  | [], k2 => exact k2
  | [a], _ => exact .refl _
  | a :: b :: as, k2 => exact k2

theorem Erases.then {β : Type} (g : Tensor K → E β) (a : Mat K) : Erases (fun B => wThen g B a) (fun B => denseThen g B a) :=
  fun _ _ h => warn_below ((h.dense a).bind fun _ => .refl _)

theorem Erases.sum (a : Mat K) (axis : Option Int) : Erases (fun B => wSum B a axis) (fun B => sumFull B a axis) := by
  intro B C h
  show Below _ (wSum B a axis) (sumFull C a axis)
  unfold wSum sumFull
  split
  · exact Below.bind (Calls.sumAllM a _ _ _ h) fun _ => .refl _
  · refine Below.bind (.refl _) fun n => Below.bind (.refl _) fun k => ?_
    split_ifs
    · exact Below.bind (h.sumM _ _) fun _ => .refl _
    · have hs := Calls.sumBatchM n k a _ B C h
      cases a with
      | lr l r m => exact warn_below ((h.dense _).bind fun _ => .refl _)
      | kron l r => exact warn_below ((h.dense _).bind fun _ => .refl _)
      | wb d l r m =>
        refine Below.bind (.refl _) fun p => ?_
        rcases p with ⟨x, y⟩
        cases x with
        | diag d' => exact Below.bind (.refl _) fun _ => Below.bind (.refl _) fun _ => warn_below ((h.dense _).bind fun _ => (Below.refl _).bind fun _ => h.add _ _)
        | _ => exact .refl _
      | _ => exact hs

/-- C54.  A call that returns either runs without a warning, and then returns the same when warnings are made errors, or it warns. -/
theorem C54_erase {α : Type} (c : Cfg K) {fw f : Ops K → E α} (hf : Erases fw f) {r : α} (h : Returns c f r) : Quiet c fw r ∨ Warns c fw := by
  obtain ⟨n, h⟩ := h
  rcases hf _ _ (wops_warn (env := c.code) n) with h1 | ⟨e, rfl, h1⟩
  · exact .inl ⟨n, h1.trans h⟩
  · exact .inr ⟨n, h1⟩

/-! ### No silent loss of structure -/

theorem not_quiet {α : Type} {c : Cfg K} {fw f : Ops K → E α} (hf : Erases fw f) {r : α} (h : Returns c f r) (hn : ∀ n, fw (wops c.code n) ≠ .ok r) : Warns c fw :=
  (C54_erase c hf h).resolve_left fun ⟨n, hq⟩ => hn n hq

theorem warn_ne {α : Type} {b : Bool} {x : Unit → E α} {r : α} (hb : b = true) : (warnIf b >>= x) ≠ .ok r := by
  subst hb; exact fun h => by cases h

/-- C54.  An element-wise function (`B.abs`, `B.sqrt`, `B.power`) that turns a structured matrix into a Dense one warns. -/
theorem C54_elementwise (c : Cfg K) (g : Tensor K → E (Tensor K)) {a r : Mat K} (ha : a.structured = true)
    (h : Returns c (fun B => eltM g B a) r) (hr : r.kind = some .dense) : Warns c (fun B => wElt g B a) := by
  refine not_quiet (Erases.elt g a) h fun n => ?_
  have hk : r.kind = a.kind.map eltOut := by obtain ⟨n, h⟩ := h; exact kind_eltM r h
  rw [hr] at hk
  cases a with
  | lr l r m => exact warn_ne rfl
  | wb d l r m => exact warn_ne rfl
  | tiled n blk reps ax => exact warn_ne rfl
  | num t => simp [Mat.structured] at ha
  | dense t => simp [Mat.structured] at ha
  | _ => simp [Mat.kind, eltOut] at hk

/-- C54.  A submatrix of a structured matrix that is Dense comes with a warning. -/
theorem C54_submatrix (c : Cfg K) {a r : Mat K} {sel : Sel} {m : ℕ} (ha : a.structured = true)
    (h : Returns c (fun B => submatrixM B m a sel) r) (hr : r.kind = some .dense) : Warns c (fun B => wSubmatrixM B m a sel) := by
  refine not_quiet (Erases.submatrix m a sel) h fun n => ?_
  have hk := C51_submatrix c h
  rw [hr] at hk
  cases a with
  | kron l r => exact warn_ne rfl
  | tiled n blk reps ax => exact warn_ne rfl
  | num t => simp [Mat.structured] at ha
  | dense t => simp [Mat.structured] at ha
  | _ => simp [Mat.kind, subOut] at hk

/-- C54.  Tiling a structured matrix to a Dense one warns. -/
theorem C54_tile (c : Cfg K) {a r : Mat K} {reps : List ℕ} (ha : a.structured = true)
    (h : Returns c (fun B => tileM B a reps) r) (hr : r.kind = some .dense) : Warns c (fun B => wTile B a reps) := by
  refine not_quiet (Erases.tile a reps) h fun n hq => ?_
  cases a with
  | num t => simp [Mat.structured] at ha
  | dense t => simp [Mat.structured] at ha
  | zero bt r' c' =>
    have hk : Post (fun r : Mat K => r.kind = some .zero) (wTile (wops c.code n) (.zero bt r' c') reps) := Post.skip fun _ => kind_mkZero
    rw [hk r hq] at hr; cases hr
  | const t r' c' =>
    have hk : Post (fun r : Mat K => r.kind = some .const) (wTile (wops c.code n) (.const t r' c') reps) := Post.skip fun _ => kind_mkConst
    rw [hk r hq] at hr; cases hr
  | _ => exact warn_ne rfl hq

/-- C54.  Dividing a structured matrix, by anything, to a Dense one warns. -/
theorem C54_divide (c : Cfg K) {a b r : Mat K} (ha : a.structured = true)
    (h : Returns c (fun B => divideM c.code B a b) r) (hr : r.kind = some .dense) : Warns c (fun B => wDivide c.code B a b) := by
  refine not_quiet (Erases.divide c.code a b) h fun n hq => ?_
  obtain ⟨k, k1, k2, am⟩ := isAM_of_structured ha
  have key : ∀ y : Mat K, (match y with
        | .const t r c' => divideConst (wops c.code n) a t r c'
        | b => do
          warnIf (a.structured || b.structured)
          return mkDense (← nDiv (← (wops c.code n).dense a) (← (wops c.code n).dense b))) ≠ .ok r := by
    intro y hq
    cases y with
    | const t r' c' =>
      simp only [divideConst, bind_ok_iff] at hq
      obtain ⟨v, _, w, hw, hq⟩ := hq
      exact wops_mulSilent n a w k .const k1 (kind_mkConst w hw) k2 (by decide) r hq hr
    | _ => exact warn_ne (by rw [ha]; rfl) hq
  have k3 := key (convertAM c.code b)
  have e : convertAM c.code a = a := convertAM_am am
  apply k3
  cases a <;> first | (simp [Mat.structured] at ha; done) | (rw [← hq]; cases b <;> rfl)

/-- C54.  Dividing by a structured matrix that is not Constant warns. -/
theorem C54_divide_by (c : Cfg K) {a b r : Mat K} (hb : b.structured = true) (hc : b.kind ≠ some .const)
    (h : Returns c (fun B => divideM c.code B a b) r) : Warns c (fun B => wDivide c.code B a b) := by
  refine not_quiet (Erases.divide c.code a b) h fun n hq => ?_
  cases b <;> first | (simp [Mat.structured] at hb; done) | (simp [Mat.kind] at hc; done) |
    (cases a <;> exact warn_ne (by simp [Mat.structured, convertAM]) hq)

/-- C54.  Concatenating matrices of which one is structured to a Dense matrix warns. -/
theorem C54_concat (c : Cfg K) {as : List (Mat K)} {axis : Int} {r a : Mat K} (ha : a ∈ as) (hs : a.structured = true)
    (h : Returns c (fun B => concatM B as axis) r) (hr : r.kind = some .dense) : Warns c (fun B => wConcat B as axis) := by
  refine not_quiet (Erases.concat as axis) h fun n hq => ?_
  simp only [wConcat] at hq
  split_ifs at hq
  · simp only [bind_ok_iff, pure_eq_ok] at hq
    obtain ⟨_, _, rfl⟩ := hq
    cases hr
  · cases e : as.mapM (tiledParts axis) with
    | some bs =>
      rw [e] at hq
      have hq : mkTiledL bs.flatten axis = .ok r := hq
      simp only [mkTiledL, mkTiled, bind_ok_iff, pure_eq_ok] at hq
      obtain ⟨_, _, _, _, rfl⟩ := hq
      cases hr
    | none =>
      rw [e] at hq
      exact warn_ne (List.any_eq_true.2 ⟨a, ha, hs⟩) hq

/-- C54.  A block matrix with a structured block that is Dense comes with a warning. -/
theorem C54_block (c : Cfg K) {rows : List (List (Mat K))} {row : List (Mat K)} {r a : Mat K} (hrow : row ∈ rows) (ha : a ∈ row) (hs : a.structured = true)
    (h : Returns c (fun B => blockM B rows) r) (hr : r.kind = some .dense) : Warns c (fun B => wBlock B rows) := by
  refine not_quiet (Erases.block rows) h fun n hq => ?_
  simp only [wBlock] at hq
  split at hq
  · cases hq
  · next b =>
    simp only [List.mem_singleton] at hrow
    subst hrow
    simp only [List.mem_singleton] at ha
    subst ha
    cases hq
    cases r <;> simp [Mat.kind, Mat.structured] at hr hs
  · split_ifs at hq
    · have hz : Post (fun r : Mat K => r.kind = some .zero) (blockZero rows) := by
        unfold blockZero
        exact Post.skip fun _ => Post.skip fun _ => Post.skip fun _ => kind_mkZero
      rw [hz r hq] at hr; cases hr
    · simp only [bind_ok_iff] at hq
      obtain ⟨rs, _, o, ho, hq⟩ := hq
      cases o with
      | some x =>
        cases hq
        simp only [blockDiagonal] at ho
        split_ifs at ho
        · cases ho
        · simp only [bind_ok_iff] at ho
          obtain ⟨ok, _, ho⟩ := ho
          split_ifs at ho
          · cases ho
          · simp only [bind_ok_iff, pure_eq_ok, Option.some.injEq] at ho
            obtain ⟨_, _, _, _, _, _, _, _, _, hd, rfl⟩ := ho
            rw [kind_mkDiag _ hd] at hr; cases hr
      | none => exact warn_ne rfl hq

/-- C54.  The same for `B.block_diag`. -/
theorem C54_block_diag (c : Cfg K) {as : List (Mat K)} {r a : Mat K} (ha : a ∈ as) (hs : a.structured = true)
    (h : Returns c (fun B => blockDiagAM B as) r) (hr : r.kind = some .dense) : Warns c (fun B => wBlockDiag B as) := by
  refine not_quiet (Erases.blockDiag as) h fun n hq => ?_
  simp only [wBlockDiag] at hq
  split at hq
  · simp only [List.mem_singleton] at ha
    subst ha
    cases hq
    cases r <;> simp [Mat.kind, Mat.structured] at hr hs
  · split_ifs at hq
    · have hz := (Post.skip fun _ => Post.skip fun _ => Post.skip fun _ => kind_mkZero : Post (fun r : Mat K => r.kind = some .zero) _) r hq
      rw [hz] at hr; cases hr
    · have hz := (Post.skip fun _ => Post.skip fun _ => Post.skip fun _ => kind_mkDiag : Post (fun r : Mat K => r.kind = some .diag) _) r hq
      rw [hz] at hr; cases hr
    · exact warn_ne rfl hq

/-- C54.  `B.reshape`, `B.squeeze`, `B.isnan` and `a[item]` warn exactly when the matrix is structured. -/
theorem C54_array (c : Cfg K) {β : Type} (g : Tensor K → E β) {a : Mat K} {r : β} (h : Returns c (denseThen g · a) r) :
    (a.structured = true → Warns c (fun B => wThen g B a)) ∧ (a.kind = some .dense → Quiet c (fun B => wThen g B a) r) := by
  refine ⟨fun ha => not_quiet (Erases.then g a) h fun n => warn_ne ha, fun ha => ?_⟩
  obtain ⟨n, h⟩ := h
  refine ⟨n, ?_⟩
  have hs := structured_of_kind ha
  show (warnIf a.structured >>= fun _ => _) = _
  rw [hs]
  show (do g (← (wops c.code n).dense a)) = _
  rw [dense_eq n ha (by decide)]
  exact h

/-- C54.  `B.reshape` of a structured matrix warns; of a Dense matrix it does not. -/
theorem C54_reshape (c : Cfg K) {a : Mat K} {s : Shp} {r : Tensor K} (h : Returns c (fun B => reshapeM B a s) r) :
    (a.structured = true → Warns c (fun B => wThen (nReshape s) B a)) ∧ (a.kind = some .dense → Quiet c (fun B => wThen (nReshape s) B a) r) := C54_array c (nReshape s) h

/-- C54.  `B.squeeze` of a structured matrix warns; of a Dense matrix it does not. -/
theorem C54_squeeze (c : Cfg K) {a : Mat K} {r : Tensor K} (h : Returns c (fun B => squeezeM B a) r) :
    (a.structured = true → Warns c (fun B => wThen (fun t => .ok (nSqueezeAll t)) B a)) ∧
    (a.kind = some .dense → Quiet c (fun B => wThen (fun t => .ok (nSqueezeAll t)) B a) r) := C54_array c (fun t => .ok (nSqueezeAll t)) h

/-- C54.  Indexing a structured matrix warns; indexing a Dense matrix does not. -/
theorem C54_getitem (c : Cfg K) {a : Mat K} {item : List Int} {r : Tensor K} (h : Returns c (fun B => getItem B a item) r) :
    (a.structured = true → Warns c (fun B => wThen (nIndex item) B a)) ∧ (a.kind = some .dense → Quiet c (fun B => wThen (nIndex item) B a) r) :=
  C54_array c (nIndex item) h

/-- C54.  Summing a LowRank, Woodbury or Kronecker matrix over a batch axis gives an array (a Dense matrix for a Woodbury matrix), and warns. -/
theorem C54_sum (c : Cfg K) {a r : Mat K} {axis : Int} {k : ℕ} (ha : a.kind = some .lr ∨ a.kind = some .wb ∨ a.kind = some .kron) (va : a.Valid)
    (hk : AxisAt (den a).rank axis k) (h2 : 2 ≤ k) (h : Returns c (fun B => sumFull B a (some axis)) r) : Warns c (fun B => wSum B a (some axis)) := by
  refine not_quiet (Erases.sum a (some axis)) h fun n hq => ?_
  simp only [wSum, bind_ok_iff] at hq
  obtain ⟨q, hq1, k', hk', hq⟩ := hq
  have hr : rankM a = .ok (den a).rank := by obtain ⟨S, ha⟩ := va; simp [rankM, ha.shape, Tensor.rank]
  rw [hr] at hq1
  cases hq1
  have : k' = k := by rw [axPos_iff.2 hk] at hk'; exact (Except.ok.inj hk').symm
  subst this
  rw [if_neg (by omega)] at hq
  cases a with
  | lr l r m => exact warn_ne rfl hq
  | kron l r => exact warn_ne rfl hq
  | wb d l r m =>
    simp only [wSumBatch, bind_ok_iff] at hq
    obtain ⟨p, _, hq⟩ := hq
    split at hq
    · simp only [bind_ok_iff] at hq
      obtain ⟨_, _, _, _, _, hw, _⟩ := hq
      cases hw
    · cases hq
  | _ => simp [Mat.kind] at ha

/-- Without a warning `B.take` keeps Diagonal and LowRank matrices. -/
theorem wTake_keep {B : Ops K} (m : ℕ) {a : Mat K} {sel : Sel} {axis : Int} {k : Kind} (hk : a.kind = some k) (h : k = .diag ∨ k = .lr) :
    Post (fun r : Mat K => r.kind = some k) (wTakeM B m a sel axis) := by
  cases m with
  | zero => exact Post.error
  | succ m =>
    refine Post.skip fun n => Post.skip fun p => ?_
    cases a with
    | diag d =>
      obtain rfl : Kind.diag = k := by simpa [Mat.kind] using hk
      show Post _ (if p < 2 then _ else _)
      split_ifs
      · exact fun r hr => absurd hr (warn_ne rfl)
      · exact Post.skip fun _ => kind_mkDiag
    | lr l r m' =>
      obtain rfl : Kind.lr = k := by simpa [Mat.kind] using hk
      exact Post.ite (Post.skip fun _ => kind_mkLR) (Post.ite (Post.skip fun _ => kind_mkLR) (Post.skip fun _ => Post.skip fun _ => Post.skip fun _ => Post.skip fun _ => kind_mkLR))
    | _ => simp only [Mat.kind, Option.some.injEq, reduceCtorEq] at hk <;> subst hk <;> simp at h

/-- C54.  Taking rows, columns or batch entries of a structured matrix that is not triangular to a Dense matrix warns. -/
theorem C54_take (c : Cfg K) {a r : Mat K} {sel : Sel} {axis : Int} {m : ℕ} (ha : a.structured = true) (hl : a.kind ≠ some .lt) (hu : a.kind ≠ some .ut)
    (h : Returns c (fun B => takeM B m a sel axis) r) (hr : r.kind = some .dense) : Warns c (fun B => wTakeM B m a sel axis) := by
  refine not_quiet (Erases.take m a sel axis) h fun n hq => ?_
  refine (?_ : Post (fun r : Mat K => r.kind ≠ some .dense) (wTakeM (wops c.code n) m a sel axis)) r hq hr
  cases m with
  | zero => exact Post.error
  | succ m =>
    have keep : ∀ {x : Mat K} {k : Kind} {s : Sel} {i : Int}, x.kind = some k → k = .diag ∨ k = .lr → Post (fun r : Mat K => r.kind = some k) (wTakeM (wops c.code n) m x s i) :=
      fun h1 h2 => wTake_keep m h1 h2
    have ne : ∀ {k : Kind} {f : E (Mat K)}, k ≠ .dense → Post (fun r : Mat K => r.kind = some k) f → Post (fun r : Mat K => r.kind ≠ some .dense) f :=
      fun hk hf r hr e => hk (Option.some.inj ((hf r hr).symm.trans e))
    have hadd : ∀ {x y : Mat K}, x.kind = some .diag → y.kind = some .lr → Post (fun r : Mat K => r.kind ≠ some .dense) ((wops c.code n).add x y) :=
      fun hx hy => wops_addSilent n _ _ _ _ hx hy (by decide) (by decide) (by decide) (by decide)
    cases a with
    | num t => cases ha
    | dense t => cases ha
    | lt t => exact absurd rfl hl
    | ut t => exact absurd rfl hu
    | diag d => exact ne (by decide) (wTake_keep (m+1) (k := .diag) rfl (.inl rfl))
    | lr l r' m' => exact ne (by decide) (wTake_keep (m+1) (k := .lr) rfl (.inr rfl))
    | zero bt p q => exact Post.skip fun _ => Post.skip fun _ => ne (by decide) kind_mkZero
    | const t p q =>
      exact Post.skip fun _ => Post.skip fun _ => ne (k := .const) (by decide) (Post.ite kind_mkConst (Post.ite kind_mkConst (Post.skip fun _ => kind_mkConst)))
    | wb d l r' m' =>
      refine Post.skip fun _ => Post.skip fun k => ?_
      show Post _ (if k < 2 then _ else _)
      split_ifs
      · exact (keep (k := .diag) rfl (.inl rfl)).bind fun x hx => (keep (k := .lr) rfl (.inr rfl)).bind fun y hy => hadd hx hy
      · intro z hz
        simp only [bind_ok_iff] at hz
        obtain ⟨p, hp, x, hx, y, hy, hz⟩ := hz
        have k1 : p.1.kind = some .diag ∧ p.2.kind = some .lr := by
          simp only [alignBatch2, bind_ok_iff, pure_eq_ok] at hp
          obtain ⟨_, _, _, h1, _, h2, rfl⟩ := hp
          exact ⟨kind_broadcastBatchTo rfl _ h1, kind_broadcastBatchTo rfl _ h2⟩
        exact hadd (keep k1.1 (.inl rfl) x hx) (keep k1.2 (.inr rfl) y hy) z hz
    | kron l r' =>
      refine Post.skip fun _ => Post.skip fun k => ?_
      show Post _ (if k < 2 then _ else _)
      split_ifs
      · exact fun r hr => absurd hr (warn_ne rfl)
      · exact Post.skip fun _ => Post.skip fun _ => Post.skip fun _ => Post.pure (by simp [Mat.kind])
    | tiled q blk reps ax => exact Post.skip fun _ => Post.skip fun _ => fun r hr => absurd hr (warn_ne rfl)

/-- C54.  No warning without structure: for a Dense matrix or an array, none of these functions warns. -/
theorem C54_unstructured (c : Cfg K) {a r : Mat K} (ha : a.kind = none ∨ a.kind = some .dense) (g : Tensor K → E (Tensor K)) (sel : Sel) (axis : Int) (m : ℕ) (reps : List ℕ) :
    (Returns c (fun B => eltM g B a) r → Quiet c (fun B => wElt g B a) r) ∧
    (Returns c (fun B => takeM B m a sel axis) r → Quiet c (fun B => wTakeM B m a sel axis) r) ∧
    (Returns c (fun B => submatrixM B m a sel) r → Quiet c (fun B => wSubmatrixM B m a sel) r) ∧
    (Returns c (fun B => tileM B a reps) r → Quiet c (fun B => wTile B a reps) r) := by
  have hd : ∀ (n : ℕ) (t : Tensor K), (wops c.code n).dense (.dense t) = (ops c.code n).dense (.dense t) := fun n t => dense_eq n rfl (by decide)
  have go : ∀ {fw f : Ops K → E (Mat K)}, (∀ n, fw (wops c.code n) = f (ops c.code n)) → Returns c f r → Quiet c fw r := fun he ⟨n, h⟩ => ⟨n, (he n).trans h⟩
  cases a with
  | num t => exact ⟨go fun _ => rfl, go fun n => by cases m <;> rfl, go fun _ => rfl, go fun _ => rfl⟩
  | dense t =>
    refine ⟨go fun n => ?_, go fun n => ?_, go fun n => ?_, go fun n => ?_⟩
    · show (do return mkDense (← g (← (wops c.code n).dense (.dense t)))) = (do return mkDense (← g (← (ops c.code n).dense (.dense t))))
      rw [hd]
    · cases m with
      | zero => rfl
      | succ m =>
        show (do let p ← rankM (.dense t); let k ← axPos p axis; return mkDense (← nTakeSel (← (wops c.code n).dense (.dense t)) sel axis)) =
          (do let p ← rankM (.dense t); let k ← axPos p axis; return mkDense (← nTakeSel (← (ops c.code n).dense (.dense t)) sel axis))
        rw [hd]
    · show (do return mkDense (← nSubmatrix (← (wops c.code n).dense (.dense t)) sel)) = (do return mkDense (← nSubmatrix (← (ops c.code n).dense (.dense t)) sel))
      rw [hd]
    · show (do return mkDense (nTile (← (wops c.code n).dense (.dense t)) reps)) = (do return mkDense (nTile (← (ops c.code n).dense (.dense t)) reps))
      rw [hd]
  | _ => simp [Mat.kind] at ha

/-- C54.  Taking the diagonal of a LowRank matrix with a structured left or right factor warns: the factors are multiplied as dense matrices. -/
theorem C54_diag (c : Cfg K) {l r m : Mat K} (hs : l.structured = true ∨ r.structured = true) : Warns c (fun B => B.diag (.lr l r m)) := by
  refine ⟨1, ?_⟩
  show (do warnIf (l.structured || r.structured); stepDiag (wops c.code 0) (.lr l r m)) = .error .warn
  rcases hs with h | h <;> rw [h] <;> simp [warnIf] <;> rfl

/-- C54.  With factors that have no structure to lose `B.diag` warns only if the products inside do. -/
theorem C54_diag_own (c : Cfg K) {l r m : Mat K} (hl : l.structured = false) (hr : r.structured = false) (n : ℕ) :
    (wops c.code (n+1)).diag (.lr l r m) = stepDiag (wops c.code n) (.lr l r m) := by
  show (do warnIf (l.structured || r.structured); stepDiag (wops c.code n) (.lr l r m)) = _
  rw [hl, hr]; rfl

/-- C44.  Multiplying LowRank matrices of compatible shapes warns whenever one of the four outer factors has structure to lose. -/
theorem C44_multiply_lowrank (c : Cfg K) {al ar am bl br bm : Mat K} {s t : Shp} (ha : shape (.lr al ar am) = .ok s) (hb : shape (.lr bl br bm) = .ok t) (hc : assertCompatible s t = .ok ())
    (hs : al.structured = true ∨ ar.structured = true ∨ bl.structured = true ∨ br.structured = true) : Warns c (fun B => B.mul (.lr al ar am) (.lr bl br bm)) := by
  refine ⟨1, ?_⟩
  show (wops c.code 1).mul _ _ = _
  rw [wMul_am (k := .lr) (k' := .lr) rfl rfl]
  have e : mulWarn (mulId .lr .lr) (.lr al ar am) (.lr bl br bm) = .error .warn := by
    show (do assertCompatible (← shape (.lr al ar am)) (← shape (.lr bl br bm)); warnIf (al.structured || ar.structured || bl.structured || br.structured)) = _
    rw [ha, hb]
    show (do assertCompatible s t; warnIf (al.structured || ar.structured || bl.structured || br.structured)) = _
    rw [hc]
    have : (al.structured || ar.structured || bl.structured || br.structured) = true := by
      simp only [Bool.or_eq_true]; tauto
    rw [this]; rfl
  rw [e]; rfl

/-- C54.  Making a matrix of a single array dense never warns. -/
theorem C54_dense (c : Cfg K) {a : Mat K} {k : Kind} {d : Tensor K} (ha : a.kind = some k) (hk : k.single) (h : Returns c (fun B => B.dense a) d) :
    Quiet c (fun B => B.dense a) d := by
  obtain ⟨n, h⟩ := h
  exact ⟨n, (dense_eq n ha hk).trans h⟩

/-- C54.  Making TiledBlocks dense warns whenever one of the blocks has structure: the blocks are tiled as dense matrices. -/
theorem C54_dense_tiled (c : Cfg K) {n : ℕ} {blk : Fin n → Mat K} {reps : Fin n → ℕ} {axis : Int} (i : Fin n) (hi : (blk i).structured = true) :
    Warns c (fun B => B.dense (.tiled n blk reps axis)) := by
  refine ⟨1, ?_⟩
  show (do warnIf ((List.ofFn blk).any Mat.structured); stepDense (wops c.code 0) (.tiled n blk reps axis)) = .error .warn
  rw [show (List.ofFn blk).any Mat.structured = true from List.any_eq_true.2 ⟨blk i, List.mem_ofFn.2 ⟨i, rfl⟩, hi⟩]
  rfl

/-! ### Where the warnings are off -/

/-- Finding.  Taking rows of a triangular matrix gives a Dense matrix without a warning. -/
theorem C54_take_triangular_silent : ∃ a r : Mat ℚ, a.Valid ∧ a.structured = true ∧ Quiet Ex.cfg (fun B => wTakeM B 3 a (.idx [0]) (-2)) r ∧ r.kind = some .dense := by
  obtain ⟨r, h1, h2⟩ := Ex.quiet (f := fun B => wTakeM B 3 Ex.L (.idx [0]) (-2)) (k := .dense) (n := 4) (by decide +kernel)
  exact ⟨Ex.L, r, ⟨_, Ex.L_wf []⟩, rfl, h1, h2⟩

/-- Finding.  `B.block` and `B.block_diag` warn even when all blocks are Dense. -/
theorem C54_block_needless : ∃ a : Mat ℚ, a.Valid ∧ a.kind = some .dense ∧ Warns Ex.cfg (fun B => wBlock B [[a, a], [a, a]]) ∧ Warns Ex.cfg (fun B => wBlockDiag B [a, a]) :=
  ⟨Ex.M, ⟨_, Ex.M_wf []⟩, rfl, Ex.warns (n := 4) (by decide +kernel), Ex.warns (n := 4) (by decide +kernel)⟩

/-- Finding.  An element-wise function of a Kronecker product of LowRank matrices warns although the result is a Kronecker product. -/
theorem C54_kron_needless : ∃ a r : Mat ℚ, a.Valid ∧ Returns Ex.cfg (fun B => absM B a) r ∧ r.kind = some .kron ∧ Warns Ex.cfg (fun B => wElt nAbs B a) := by
  obtain ⟨r, h1, h2⟩ := Ex.kindIs (f := fun B => absM B (.kron Ex.R Ex.R)) (k := .kron) (n := 6) (by decide +kernel)
  exact ⟨.kron Ex.R Ex.R, r, ⟨[], ⟨Ex.R_wf _, Ex.R_wf _⟩, by decide, by decide⟩, h1, h2, Ex.warns (n := 6) (by decide +kernel)⟩

/-! The hypotheses on concrete operands. -/

/-- A LowRank matrix with a diagonal left factor has a diagonal, and one whose factors are plain arrays has it without a warning. -/
example : Warns Ex.cfg (fun B => B.diag (.lr Ex.D (.num (Ex.m 2 2 [1, 2, 3, 4])) Ex.M)) ∧
    (∃ r, Returns Ex.cfg (fun B => B.diag (.lr Ex.D (.num (Ex.m 2 2 [1, 2, 3, 4])) Ex.M)) r) ∧ ∃ r, Quiet Ex.cfg (fun B => B.diag Ex.R) r := by
  refine ⟨C54_diag _ (.inl rfl), ?_, ?_⟩
  · obtain ⟨r, h⟩ := Ex.exists_of_isOk (x := (ops Ex.cfg.code 6).diag (.lr Ex.D (.num (Ex.m 2 2 [1, 2, 3, 4])) Ex.M)) (by decide +kernel)
    exact ⟨r, 6, h⟩
  · obtain ⟨r, h⟩ := Ex.exists_of_isOk (x := (wops Ex.cfg.code 6).diag Ex.R) (by decide +kernel)
    exact ⟨r, 6, h⟩

/-- TiledBlocks with a lower triangular block has a dense form, made with a warning. -/
example : Warns Ex.cfg (fun B => B.dense Ex.T) ∧ ∃ r, Returns Ex.cfg (fun B => B.dense Ex.T) r := by
  refine ⟨C54_dense_tiled _ 1 rfl, ?_⟩
  obtain ⟨r, h⟩ := Ex.exists_of_isOk (x := (ops Ex.cfg.code 6).dense Ex.T) (by decide +kernel)
  exact ⟨r, 6, h⟩

/-- A Kronecker product of constants by a dense matrix: the product of one factor and the folded matrix is structured and is reshaped with a warning. -/
example : Warns Ex.cfg (fun B => B.matmul false false (.kron Ex.C Ex.C) (.dense (Ex.m 4 1 [1, 2, 3, 4]))) ∧
    ∃ r, Returns Ex.cfg (fun B => B.matmul false false (.kron Ex.C Ex.C) (.dense (Ex.m 4 1 [1, 2, 3, 4]))) r := by
  refine ⟨Ex.warns (n := 8) (by decide +kernel), ?_⟩
  obtain ⟨r, h⟩ := Ex.exists_of_isOk (x := (ops Ex.cfg.code 8).matmul false false (.kron Ex.C Ex.C) (.dense (Ex.m 4 1 [1, 2, 3, 4]))) (by decide +kernel)
  exact ⟨r, 8, h⟩

example : ∃ r, Ex.W.structured = true ∧ Returns Ex.cfg (fun B => absM B Ex.W) r ∧ r.kind = some .dense := by
  obtain ⟨r, h1, h2⟩ := Ex.kindIs (f := fun B => absM B Ex.W) (k := .dense) (n := 6) (by decide +kernel)
  exact ⟨r, rfl, h1, h2⟩
example : ∃ r, Ex.Kr.structured = true ∧ Returns Ex.cfg (fun B => submatrixM B 3 Ex.Kr (.idx [0, 2])) r ∧ r.kind = some .dense := by
  obtain ⟨r, h1, h2⟩ := Ex.kindIs (f := fun B => submatrixM B 3 Ex.Kr (.idx [0, 2])) (k := .dense) (n := 6) (by decide +kernel)
  exact ⟨r, rfl, h1, h2⟩
example : ∃ r, Ex.D.structured = true ∧ Returns Ex.cfg (fun B => tileM B Ex.D [2, 3]) r ∧ r.kind = some .dense := by
  obtain ⟨r, h1, h2⟩ := Ex.kindIs (f := fun B => tileM B Ex.D [2, 3]) (k := .dense) (n := 6) (by decide +kernel)
  exact ⟨r, rfl, h1, h2⟩
example : ∃ r, Ex.D.structured = true ∧ Returns Ex.cfg (fun B => divideM Ex.cfg.code B Ex.D Ex.M) r ∧ r.kind = some .dense := by
  obtain ⟨r, h1, h2⟩ := Ex.kindIs (f := fun B => divideM Ex.cfg.code B Ex.D Ex.M) (k := .dense) (n := 6) (by decide +kernel)
  exact ⟨r, rfl, h1, h2⟩
example : ∃ r, Ex.D ∈ [Ex.L, Ex.D] ∧ Ex.D.structured = true ∧ Returns Ex.cfg (fun B => concatM B [Ex.L, Ex.D] (-1)) r ∧ r.kind = some .dense := by
  obtain ⟨r, h1, h2⟩ := Ex.kindIs (f := fun B => concatM B [Ex.L, Ex.D] (-1)) (k := .dense) (n := 6) (by decide +kernel)
  exact ⟨r, by simp, rfl, h1, h2⟩
example : ∃ r, Returns Ex.cfg (fun B => blockM B [[Ex.D, Ex.L], [Ex.M, Ex.D]]) r ∧ r.kind = some .dense :=
  Ex.kindIs (n := 6) (by decide +kernel)
example : ∃ r, Returns Ex.cfg (fun B => blockDiagAM B [Ex.D, Ex.L]) r ∧ r.kind = some .dense := Ex.kindIs (n := 6) (by decide +kernel)
example : ∃ r, Ex.W.structured = true ∧ Returns Ex.cfg (fun B => takeM B 4 Ex.W (.idx [1]) (-2)) r ∧ r.kind = some .dense := by
  obtain ⟨r, h1, h2⟩ := Ex.kindIs (f := fun B => takeM B 4 Ex.W (.idx [1]) (-2)) (k := .dense) (n := 6) (by decide +kernel)
  exact ⟨r, rfl, h1, h2⟩

end Verif
