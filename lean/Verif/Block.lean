/-
C15, C16.  `B.block` and `B.block_diag`.
-/
import Verif.Concat
import Verif.Kron

set_option linter.unusedSectionVars false

namespace Verif

variable {K : Type} [Field K] [LinearOrder K]

/-! ### The model -/

/-- `B.shape_batch_broadcast(*as)`, `ops/shape_batch_broadcast.py` 8-18. -/
def shapeBatchBroadcastL (as : List (Mat K)) : E Shp := do
  let ss ← as.mapM shapeBatch
  ss.foldlM bsE []

/-- `align_batch(*as)`, `ops/util.py` 13-24, before the list is squeezed. -/
def alignBatchL (as : List (Mat K)) : E (List (Mat K)) := do
  let s ← shapeBatchBroadcastL as
  as.mapM (broadcastBatchTo s)

/-- `align_batch(*rows)` for lists of matrices, `ops/util.py` 27-38. -/
def alignBatchRows (rows : List (List (Mat K))) : E (List (List (Mat K))) := do
  let s ← shapeBatchBroadcastL rows.flatten
  rows.mapM fun row => row.mapM (broadcastBatchTo s)

/-- `isinstance(a, Zero)`. -/
def isZeroM : Mat K → Bool | .zero .. => true | _ => false
/-- `isinstance(a, Diagonal)`. -/
def isDiagM : Mat K → Bool | .diag .. => true | _ => false

/-- `B.concat2d`: every row along the axis −1, then the rows along the axis −2 (LAB). -/
def nConcat2d (rows : List (List (Tensor K))) : E (Tensor K) := do
  let rs ← rows.mapM (nConcat (-1))
  nConcat (-2) rs

/-- Conjunction of checks, in order, which stops at the first one that fails. -/
def allE : List (E Bool) → E Bool
  | [] => .ok true
  | x :: l => do if ← x then allE l else return false

/-- The check of the block at row `r` and column `c` in `_attempt_diagonal`, `ops/block.py` 76-96. -/
def blockCell (r c : ℕ) (x : Mat K) : E Bool := do
  let s ← shapeMatrix x
  return if r = c then (isDiagM x || isZeroM x) && decide (s.1 = s.2) else isZeroM x

/-- The blocks on the diagonal, the first row having number `r`. -/
def diagBlocks {α : Type} : ℕ → List (List α) → List α
  | _, [] => []
  | r, row :: rows => row[r]?.toList ++ diagBlocks (r+1) rows

/-- `_attempt_diagonal(rows)` after the batches have been aligned, `ops/block.py` 65-97. -/
def blockDiagonal (B : Ops K) (rows : List (List (Mat K))) : E (Option (Mat K)) := do
  if !rows.all (fun row => decide (row.length = rows.length)) then return none
  let ok ← allE (rows.zipIdx.flatMap fun p => p.1.zipIdx.map fun q => blockCell p.2 q.2 q.1)
  if !ok then return none
  let s ← shapeBatchBroadcastL rows.flatten
  let bs ← (diagBlocks 0 rows).mapM (broadcastBatchTo s)
  let vs ← bs.mapM B.diag
  return some (← mkDiag (← nConcat (-1) vs))

/-- `_attempt_zero(rows)` for Zero blocks, `ops/block.py` 52-62. -/
def blockZero (rows : List (List (Mat K))) : E (Mat K) := do
  let bt ← shapeBatchBroadcastL rows.flatten
  let hs ← rows.mapM fun row => match row with
    | [] => (.error .index : E ℕ)
    | a :: _ => do return (← shapeMatrix a).1
  let ws ← (rows.headD []).mapM fun a => do return (← shapeMatrix a).2
  mkZero (ws.sum :: hs.sum :: bt)

/-- `B.block(*rows)`, `ops/block.py` 13-46. -/
def blockM (B : Ops K) (rows : List (List (Mat K))) : E (Mat K) :=
  match rows with
  | [] => .error .notFound
  | [[a]] => .ok a
  | rows =>
    if rows.all fun row => row.all isZeroM then blockZero rows
    else do
      match ← blockDiagonal B (← alignBatchRows rows) with
      | some r => return r
      | none => do
        let rows' ← alignBatchRows rows
        let ds ← rows'.mapM fun row => row.mapM B.dense
        return mkDense (← nConcat2d ds)

/-- The elements of a tensor along its first axis (what iterating over it gives). -/
def slices (t : Tensor K) : List (Tensor K) :=
  (List.range (t.sh.getLastD 0)).map fun x => ofFn t.sh.dropLast fun i => t.get fun k => if k + 1 = t.rank then x else i k

/-- The rows of blocks of a block-diagonal matrix, `ops/block_diag.py` 38-50: `built` columns are already there, `total` is the number of columns. -/
def bdRows (bt : Shp) (total : ℕ) : ℕ → List (Tensor K × (ℕ × ℕ)) → E (List (Tensor K))
  | _, [] => .ok []
  | built, (e, s) :: l => do
    let row ← nConcat (-1) [fillT (built :: s.1 :: bt) 0, e, fillT ((total - built - s.2) :: s.1 :: bt) 0]
    let rest ← bdRows bt total (built + s.2) l
    return row :: rest

/-- `elements = align_batch(*elements)`, `ops/block_diag.py` 28: for one operand `align_batch` returns the operand instead of a list with it,
so that the loops run over its first axis. -/
def bdElements (l : List (Tensor K)) : List (Tensor K) :=
  match l with
  | [t] => slices t
  | l => l

/-- `B.shape_batch(elements[0])`. -/
def headBatch : List (Tensor K) → E Shp
  | [] => .error .index
  | e :: _ => shapeBatch (.num e : Mat K)

/-- `B.block_diag(*ts)` on numeric operands, `ops/block_diag.py` 16-50. -/
def blockDiagNum (ts : List (Tensor K)) : E (Tensor K) := do
  let as ← alignBatchL (ts.map .num)
  let els := bdElements (as.map den)
  let shapes ← els.mapM fun e => shapeMatrix (.num e : Mat K)
  let bt ← headBatch els
  let rows ← bdRows bt (shapes.map (·.2)).sum 0 (els.zip shapes)
  nConcat (-2) rows

/-- `block_diag(*as)` for operands not all numeric, `ops/block_diag.py` 56-108. -/
def blockDiagAM (B : Ops K) (as : List (Mat K)) : E (Mat K) :=
  match as with
  | [a] => .ok a
  | as =>
    if as.all isZeroM then do  -- 91-99
      let bt ← shapeBatchBroadcastL as
      let hs ← as.mapM fun a => do return (← shapeMatrix a).1
      let ws ← as.mapM fun a => do return (← shapeMatrix a).2
      mkZero (ws.sum :: hs.sum :: bt)
    else if as.all isDiagM then do  -- 102-108
      let bs ← alignBatchL as
      let vs ← bs.mapM B.diag
      mkDiag (← nConcat (-1) vs)
    else do
      let ds ← as.mapM B.dense
      return mkDense (← blockDiagNum ds)

/-- The choice between the first two methods. -/
def blockDiagList (B : Ops K) (as : List (Mat K)) : E (Mat K) :=
  match as with
  | [] => .error .notFound
  | as => if as.all (fun a => !a.isAM) then do return .num (← blockDiagNum (as.map den)) else blockDiagAM B as

/-- `B.eye(dtype, n)`. -/
def nEye (n : ℕ) : Tensor K := mkMat [] n n fun _ i j => if i = j then 1 else 0

/-- `B.block_diag(*as)`, `ops/block_diag.py`; for one TiledBlocks 111-118. -/
def blockDiagM (env : Env K) (B : Ops K) (as : List (Mat K)) : E (Mat K) :=
  match as with
  | [.tiled n blk reps _] => do
    let ks ← seqFin fun i : Fin n => kronM env (.num (nEye (reps i))) (blk i)
    blockDiagList B (List.ofFn ks)
  | as => blockDiagList B as

/-! ### Specification -/

/-- `ts` is a grid of matrices: those in row `p` have height `hs[p]`, those in column `q` width `ws[q]`. -/
def IsGrid (hs ws : List ℕ) (ts : List (List (Tensor K))) : Prop :=
  List.Forall₂ (fun h row => List.Forall₂ (fun w t => t.rows = h ∧ t.cols = w) ws row) hs ts

/-- `r` is the block matrix of the grid `ts`, with batch shape `bt`. -/
structure IsBlock (bt : Shp) (hs ws : List ℕ) (ts : List (List (Tensor K))) (r : Tensor K) : Prop where
  shape : r.sh = ws.sum :: hs.sum :: bt
  fits : ∀ row ∈ ts, ∀ t ∈ row, Fits bt t.bt
  entries : ∀ p q row t, ts[p]? = some row → row[q]? = some t → ∀ β i j, InRange bt β → i < t.rows → j < t.cols →
    r.at' β ((hs.take p).sum + i) ((ws.take q).sum + j) = t.at' β i j

/-- `r` is the block-diagonal matrix of the matrices `ts`, with batch shape `bt`. -/
structure IsBlockDiag (bt : Shp) (ts : List (Tensor K)) (r : Tensor K) : Prop where
  shape : r.sh = (ts.map Tensor.cols).sum :: (ts.map Tensor.rows).sum :: bt
  fits : ∀ t ∈ ts, Fits bt t.bt
  blocks : ∀ p t, ts[p]? = some t → ∀ β i j, InRange bt β → i < t.rows → j < t.cols →
    r.at' β (((ts.take p).map Tensor.rows).sum + i) (((ts.take p).map Tensor.cols).sum + j) = t.at' β i j
  zeros : ∀ p q t u, p ≠ q → ts[p]? = some t → ts[q]? = some u → ∀ β i j, InRange bt β → i < t.rows → j < u.cols →
    r.at' β (((ts.take p).map Tensor.rows).sum + i) (((ts.take q).map Tensor.cols).sum + j) = 0

/-! ### Lists -/

theorem forall₂_getElem? {α β : Type} {R : α → β → Prop} {l : List α} {l' : List β} (h : List.Forall₂ R l l') {p : ℕ} {a : α} (hp : l[p]? = some a) :
    ∃ b, l'[p]? = some b ∧ R a b := by
  induction h generalizing p with
  | nil => simp at hp
  | cons h _ ih =>
    cases p with
    | zero => simp at hp; subst hp; exact ⟨_, rfl, h⟩
    | succ p => simp at hp; simpa using ih hp

theorem forall₂_getElem?' {α β : Type} {R : α → β → Prop} {l : List α} {l' : List β} (h : List.Forall₂ R l l') {p : ℕ} {b : β} (hp : l'[p]? = some b) :
    ∃ a, l[p]? = some a ∧ R a b := by
  obtain ⟨a, ha, h⟩ := forall₂_getElem? h.flip hp
  exact ⟨a, ha, h⟩

theorem forall₂_mem {α β : Type} {R : α → β → Prop} {l : List α} {l' : List β} (h : List.Forall₂ R l l') {b : β} (hb : b ∈ l') : ∃ a ∈ l, R a b := by
  obtain ⟨p, hp⟩ := List.getElem?_of_mem hb
  obtain ⟨a, ha, h⟩ := forall₂_getElem?' h hp
  exact ⟨a, List.mem_of_getElem? ha, h⟩

theorem forall₂_map_eq {α β γ : Type} {R : α → β → Prop} {l : List α} {l' : List β} (h : List.Forall₂ R l l') {f : α → γ} {g : β → γ} (hf : ∀ a b, R a b → f a = g b) :
    l.map f = l'.map g := by
  induction h with
  | nil => rfl
  | cons h _ ih => simp [hf _ _ h, ih]

theorem sum_take_le {l : List ℕ} {p q x : ℕ} (hpq : p < q) (hp : l[p]? = some x) : (l.take p).sum + x ≤ (l.take q).sum := by
  induction l generalizing p q with
  | nil => simp at hp
  | cons a l ih =>
    cases q with
    | zero => omega
    | succ q =>
      cases p with
      | zero => simp at hp; subst hp; simp
      | succ p =>
        simp at hp
        have := ih (by omega : p < q) hp
        simp; omega

theorem sum_take_le_sum {l : List ℕ} {p x : ℕ} (hp : l[p]? = some x) : (l.take p).sum + x ≤ l.sum := by
  have := sum_take_le (l := l) (q := p + l.length + 1) (by omega : p < p + l.length + 1) hp
  rwa [List.take_of_length_le (i := p + l.length + 1) (by omega)] at this

/-- Positions in different parts are different. -/
theorem sum_take_ne {l : List ℕ} {p q x y i j : ℕ} (hpq : p ≠ q) (hp : l[p]? = some x) (hq : l[q]? = some y) (hi : i < x) (hj : j < y) :
    (l.take p).sum + i ≠ (l.take q).sum + j := by
  rcases Nat.lt_or_gt_of_ne hpq with h | h
  · have := sum_take_le h hp; omega
  · have := sum_take_le h hq; omega

/-- Every position lies in some part. -/
theorem exists_part {l : List ℕ} {n : ℕ} (h : n < l.sum) : ∃ p x i, l[p]? = some x ∧ i < x ∧ n = (l.take p).sum + i := by
  induction l generalizing n with
  | nil => simp at h
  | cons a l ih =>
    by_cases hn : n < a
    · exact ⟨0, a, n, rfl, hn, by simp⟩
    · simp at h
      obtain ⟨p, x, i, hp, hi, e⟩ := ih (n := n - a) (by omega)
      exact ⟨p + 1, x, i, by simpa using hp, hi, by simp; omega⟩

theorem diagBlocks_get {α : Type} {r : ℕ} {rows : List (List α)} (h : ∀ row ∈ rows, r + rows.length ≤ row.length) (p : ℕ) :
    (diagBlocks r rows)[p]? = (rows[p]?).bind fun row => row[r + p]? := by
  induction rows generalizing r p with
  | nil => simp [diagBlocks]
  | cons row rows ih =>
    have h0 := h row (by simp)
    simp only [List.length_cons] at h0
    obtain ⟨x, hx⟩ : ∃ x, row[r]? = some x := ⟨_, List.getElem?_eq_getElem (by omega)⟩
    rw [diagBlocks, hx]
    cases p with
    | zero => simp [hx]
    | succ p =>
      simp only [Option.toList_some, List.singleton_append, List.getElem?_cons_succ]
      rw [ih fun row hr => by have := h row (by simp [hr]); simp only [List.length_cons] at this; omega]
      congr 1; funext row; congr 1; omega

theorem allE_true {l : List (E Bool)} (h : allE l = .ok true) : ∀ x ∈ l, x = .ok true := by
  induction l with
  | nil => simp
  | cons a l ih =>
    simp only [allE, bind_ok_iff] at h
    obtain ⟨b, hb, h⟩ := h
    cases b with
    | false => simp at h
    | true =>
      intro x hx
      rcases List.mem_cons.1 hx with rfl | hx
      · exact hb
      · exact ih (by simpa using h) x hx

/-! ### Aligning batches -/

theorem foldlM_bsE_ok {l : List Shp} {s b : Shp} (h : l.foldlM bsE s = .ok b) : Fits b s ∧ (∀ t ∈ l, Fits b t) ∧ b = bsh s (l.foldr bsh []) := by
  induction l generalizing s with
  | nil => simp [pure_eq_ok] at h; subst h; exact ⟨Fits.refl _, by simp, by simp⟩
  | cons a l ih =>
    simp only [List.foldlM_cons, bind_ok_iff, bsE_ok] at h
    obtain ⟨_, ⟨hc, rfl⟩, h⟩ := h
    obtain ⟨h1, h2, h3⟩ := ih h
    refine ⟨h1.trans hc.fits_left, fun t ht => ?_, by rw [h3, List.foldr_cons, bsh_assoc]⟩
    rcases List.mem_cons.1 ht with rfl | ht
    · exact h1.trans hc.fits_right
    · exact h2 t ht

/-- The broadcast batch shape of a list of matrices. -/
def btAll (ts : List (Tensor K)) : Shp := (ts.map Tensor.bt).foldr bsh []

theorem shapeBatchBroadcastL_ok {as : List (Mat K)} {s : Shp} (hv : ∀ a ∈ as, a.Valid) (h : shapeBatchBroadcastL as = .ok s) :
    s = btAll (as.map den) ∧ ∀ a ∈ as, Fits s (den a).bt := by
  simp only [shapeBatchBroadcastL, bind_ok_iff] at h
  obtain ⟨ss, hss, h⟩ := h
  have e : ss = as.map fun a => (den a).bt := by
    have := mapM_ok hss
    clear hss h
    induction this with
    | nil => rfl
    | cons h _ ih =>
      rw [(hv _ (by simp)).own.shapeBatch] at h
      simp only [Except.ok.injEq] at h
      rw [ih fun a ha => hv a (by simp [ha]), ← h]; rfl
  obtain ⟨_, h2, h3⟩ := foldlM_bsE_ok h
  subst e
  refine ⟨by rw [h3, btAll, List.map_map]; simp; rfl, fun a ha => h2 _ (List.mem_map.2 ⟨a, ha, rfl⟩)⟩

/-- One matrix with its batch broadcast to `s`. -/
structure Aligned (s : Shp) (a b : Mat K) : Prop where
  wf : b.WF s
  rank : 2 ≤ (den a).rank
  fits : Fits s (den a).bt
  den : den b = bbT s (den a)
  kind : b.kind = a.kind

theorem aligned_of {s : Shp} {as bs : List (Mat K)} (hv : ∀ a ∈ as, a.Valid) (hf : ∀ a ∈ as, Fits s (den a).bt) (h : as.mapM (broadcastBatchTo s) = .ok bs) :
    List.Forall₂ (Aligned s) as bs := by
  have := mapM_ok h
  clear h
  induction this with
  | nil => exact .nil
  | cons h _ ih =>
    obtain ⟨w, h2, e, k⟩ := broadcastBatchTo_ok (hv _ (by simp)).own (hf _ (by simp)) h
    exact .cons ⟨w, h2, hf _ (by simp), e, k⟩ (ih (fun a ha => hv a (by simp [ha])) fun a ha => hf a (by simp [ha]))

theorem alignBatchL_ok {as bs : List (Mat K)} (hv : ∀ a ∈ as, a.Valid) (h : alignBatchL as = .ok bs) : List.Forall₂ (Aligned (btAll (as.map den))) as bs := by
  simp only [alignBatchL, bind_ok_iff] at h
  obtain ⟨s, hs, h⟩ := h
  obtain ⟨rfl, hf⟩ := shapeBatchBroadcastL_ok hv hs
  exact aligned_of hv hf h

theorem alignBatchRows_ok {rows rows' : List (List (Mat K))} (hv : ∀ row ∈ rows, ∀ a ∈ row, a.Valid) (h : alignBatchRows rows = .ok rows') :
    List.Forall₂ (List.Forall₂ (Aligned (btAll (rows.flatten.map den)))) rows rows' := by
  have hv' : ∀ a ∈ rows.flatten, a.Valid := by
    intro a ha
    obtain ⟨row, hr, ha⟩ := List.mem_flatten.1 ha
    exact hv row hr a ha
  simp only [alignBatchRows, bind_ok_iff] at h
  obtain ⟨s, hs, h⟩ := h
  obtain ⟨rfl, hf⟩ := shapeBatchBroadcastL_ok hv' hs
  have hf' : ∀ row ∈ rows, ∀ a ∈ row, Fits (btAll (rows.flatten.map den)) (den a).bt := fun row hr a ha => hf a (List.mem_flatten.2 ⟨row, hr, ha⟩)
  generalize btAll (rows.flatten.map den) = T at *
  have := mapM_ok h
  clear h hf hv' hs
  induction this with
  | nil => exact .nil
  | cons h _ ih =>
    exact .cons (aligned_of (hv _ (by simp)) (hf' _ (by simp)) h) (ih (fun r hr => hv r (by simp [hr])) fun r hr => hf' r (by simp [hr]))

/-! ### Concatenation of matrices by rows, columns and of vectors -/

theorem update_icons_zero (j x : ℕ) (β : Idx) : Function.update (icons j β) 0 x = icons x β := by
  funext k; cases k <;> simp [Function.update]

theorem update_icons_one (j i x : ℕ) (β : Idx) : Function.update (icons j (icons i β)) 1 x = icons j (icons x β) := by
  funext k; rcases k with _ | _ | k <;> simp [Function.update]

theorem nConcat_vec {vs : List (Tensor K)} {r : Tensor K} {s : Shp} (hs : ∀ v ∈ vs, v.sh = v.cols :: s) (h : nConcat (-1) vs = .ok r) :
    vs ≠ [] ∧ r.sh = (vs.map Tensor.cols).sum :: s ∧
    ∀ p v, vs[p]? = some v → ∀ β i, InRange s β → i < v.cols → r.vat β (((vs.take p).map Tensor.cols).sum + i) = v.vat β i := by
  obtain ⟨k, hk, h0, hc⟩ := nConcat_isConcat h
  obtain ⟨v, hv⟩ := List.exists_mem_of_ne_nil _ h0
  have ek : k = 0 := by
    have h1 := hk v hv
    have h2 := axPos_neg (R := v.rank) (k := 0) (by rw [Tensor.rank, hs v hv]; simp)
    simp only [Nat.cast_zero, zero_add] at h2
    rw [h2] at h1; simpa using h1.symm
  subst ek
  refine ⟨h0, ?_, fun p v hp β i hβ hi => ?_⟩
  · rw [hc.shape v hv, hs v hv]; rfl
  · have := hc.entries p v hp (icons i β) (by rw [hs v (List.mem_of_getElem? hp)]; exact inRange_cons.2 ⟨hi, hβ⟩)
    rw [update_icons_zero] at this
    exact this

theorem nConcat_cols {ts : List (Tensor K)} {r : Tensor K} {s : Shp} {m : ℕ} (hs : ∀ t ∈ ts, t.sh = t.cols :: m :: s) (h : nConcat (-1) ts = .ok r) :
    ts ≠ [] ∧ r.sh = (ts.map Tensor.cols).sum :: m :: s ∧
    ∀ p t, ts[p]? = some t → ∀ β i j, InRange s β → i < m → j < t.cols → r.at' β i (((ts.take p).map Tensor.cols).sum + j) = t.at' β i j := by
  obtain ⟨h0, hsh, he⟩ := nConcat_vec hs h
  exact ⟨h0, hsh, fun p t hp β i j hβ hi hj => he p t hp (icons i β) j (inRange_cons.2 ⟨hi, hβ⟩) hj⟩

theorem nConcat_rows {ts : List (Tensor K)} {r : Tensor K} {s : Shp} {n : ℕ} (hs : ∀ t ∈ ts, t.sh = n :: t.rows :: s) (h : nConcat (-2) ts = .ok r) :
    ts ≠ [] ∧ r.sh = n :: (ts.map Tensor.rows).sum :: s ∧
    ∀ p t, ts[p]? = some t → ∀ β i j, InRange s β → i < t.rows → j < n → r.at' β (((ts.take p).map Tensor.rows).sum + i) j = t.at' β i j := by
  obtain ⟨k, hk, h0, hc⟩ := nConcat_isConcat h
  obtain ⟨v, hv⟩ := List.exists_mem_of_ne_nil _ h0
  have ek : k = 1 := by
    have h1 := hk v hv
    have h2 := axPos_neg (R := v.rank) (k := 1) (by rw [Tensor.rank, hs v hv]; simp)
    simp only [Nat.cast_one, Int.reduceAdd] at h2
    rw [h2] at h1; simpa using h1.symm
  subst ek
  refine ⟨h0, ?_, fun p v hp β i j hβ hi hj => ?_⟩
  · rw [hc.shape v hv, hs v hv]; rfl
  · have := hc.entries p v hp (icons j (icons i β)) (by rw [hs v (List.mem_of_getElem? hp)]; exact inRange_cons.2 ⟨hj, inRange_cons.2 ⟨hi, hβ⟩⟩)
    rw [update_icons_one] at this
    exact this

/-- The Diagonal matrix of a concatenation of vectors. -/
theorem diag_concat {vs : List (Tensor K)} {r : Tensor K} {s : Shp} (hs : ∀ v ∈ vs, v.sh = v.cols :: s) (h : nConcat (-1) vs = .ok r) :
    Mat.WF s (.diag r) ∧ (den (.diag r : Mat K)).sh = (vs.map Tensor.cols).sum :: (vs.map Tensor.cols).sum :: s ∧
    ∀ p q v u, vs[p]? = some v → vs[q]? = some u → ∀ β i j, InRange s β → i < v.cols → j < u.cols →
      (den (.diag r : Mat K)).at' β (((vs.take p).map Tensor.cols).sum + i) (((vs.take q).map Tensor.cols).sum + j) =
        if p = q ∧ i = j then v.vat β i else 0 := by
  obtain ⟨h0, hsh, he⟩ := nConcat_vec hs h
  have hcols : r.cols = (vs.map Tensor.cols).sum := by rw [Tensor.cols, hsh]; rfl
  have htail : r.sh.tail = s := by rw [hsh]; rfl
  refine ⟨⟨by simp [Tensor.rank, hsh], by rw [htail]; exact Fits.refl _⟩, ?_, fun p q v u hp hq β i j hβ hi hj => ?_⟩
  · show (diagC r).sh = _
    rw [diagC_sh, hcols, htail]
  · have hp' : (vs.map Tensor.cols)[p]? = some v.cols := by rw [List.getElem?_map, hp]; rfl
    have hq' : (vs.map Tensor.cols)[q]? = some u.cols := by rw [List.getElem?_map, hq]; rfl
    have bp := sum_take_le_sum hp'
    have bq := sum_take_le_sum hq'
    rw [← List.map_take] at bp bq
    show (diagC r).at' _ _ _ = _
    rw [at_diagC (S := s) hβ (by rw [htail]; exact Fits.refl _) (by rw [hcols]; omega) (by rw [hcols]; omega)]
    by_cases e : p = q
    · subst e
      by_cases e2 : i = j
      · subst e2
        rw [if_pos rfl, if_pos ⟨rfl, rfl⟩, he p v hp β i hβ hi]
      · rw [if_neg (by omega), if_neg fun h => e2 h.2]
    · have := sum_take_ne e hp' hq' hi hj
      rw [← List.map_take, ← List.map_take] at this
      rw [if_neg this, if_neg fun h => e h.1]

theorem at_fillT_zero {S s : Shp} {β : Idx} {i j m n : ℕ} (hβ : InRange S β) (hs : Fits S s) (hi : i < m) (hj : j < n) : (fillT (n :: m :: s) (0 : K)).at' β i j = 0 :=
  (Rep.fill hs m n (0 : K)).at' β i j hβ hi hj

/-! ### Block-diagonal matrices -/

/-- `ts` may be given with its batches broadcast. -/
theorem IsBlockDiag.of_bb {bt : Shp} {ts : List (Tensor K)} {r : Tensor K} (hf : ∀ t ∈ ts, 2 ≤ t.rank ∧ Fits bt t.bt) (h : IsBlockDiag bt (ts.map (bbT bt)) r) :
    IsBlockDiag bt ts r := by
  have e1 : ∀ l : List (Tensor K), (l.map (bbT bt)).map Tensor.rows = l.map Tensor.rows := fun l => by rw [List.map_map]; rfl
  have e2 : ∀ l : List (Tensor K), (l.map (bbT bt)).map Tensor.cols = l.map Tensor.cols := fun l => by rw [List.map_map]; rfl
  have get : ∀ {p t}, ts[p]? = some t → (ts.map (bbT bt))[p]? = some (bbT bt t) := fun hp => by rw [List.getElem?_map, hp]; rfl
  obtain ⟨h1, _, h3, h4⟩ := h
  simp only [← List.map_take, e1, e2] at h1 h3 h4
  refine ⟨h1, fun t ht => (hf t ht).2, fun p t hp β i j hβ hi hj => ?_, fun p q t u hpq hp hq β i j hβ hi hj => ?_⟩
  · obtain ⟨a, b⟩ := hf t (List.mem_of_getElem? hp)
    rw [h3 p _ (get hp) β i j hβ hi hj, at_bbT hβ ⟨a, b⟩ hi hj]
  · exact h4 p q _ _ hpq (get hp) (get hq) β i j hβ hi hj

theorem bdRows_ok {bt : Shp} {total built : ℕ} {els rows : List (Tensor K)} (hs : ∀ e ∈ els, e.sh = e.cols :: e.rows :: bt)
    (ht : built + (els.map Tensor.cols).sum = total) (h : bdRows bt total built (els.zip (els.map fun e => (e.rows, e.cols))) = .ok rows) :
    (rows.map Tensor.rows = els.map Tensor.rows) ∧ ∀ p row, rows[p]? = some row → ∃ e, els[p]? = some e ∧ row.sh = total :: e.rows :: bt ∧ ∀ β i, InRange bt β → i < e.rows →
      (∀ j, j < e.cols → row.at' β i (built + ((els.take p).map Tensor.cols).sum + j) = e.at' β i j) ∧
      ∀ j, j < total → j < built + ((els.take p).map Tensor.cols).sum ∨ built + ((els.take p).map Tensor.cols).sum + e.cols ≤ j → row.at' β i j = 0 := by
  induction els generalizing built rows with
  | nil =>
    simp only [List.map_nil, List.zip_nil_right, bdRows, Except.ok.injEq] at h
    subst h
    exact ⟨rfl, by simp⟩
  | cons e els ih =>
    simp only [List.map_cons, List.sum_cons] at ht
    simp only [List.map_cons, List.zip_cons_cons, bdRows, bind_ok_iff, pure_eq_ok] at h
    obtain ⟨row, hrow, rest, hrest, rfl⟩ := h
    obtain ⟨ih1, ih2⟩ := ih (fun e he => hs e (by simp [he])) (by omega : built + e.cols + (els.map Tensor.cols).sum = total) hrest
    have he := hs e (by simp)
    obtain ⟨_, hsh, hat⟩ := nConcat_cols (m := e.rows) (s := bt) (by
      intro t ht
      simp only [List.mem_cons, List.not_mem_nil, or_false] at ht
      rcases ht with rfl | rfl | rfl
      · rfl
      · exact he
      · rfl) hrow
    have hc0 : ∀ {x m : ℕ}, (fillT (x :: m :: bt) (0 : K)).cols = x := rfl
    simp only [List.map_cons, List.map_nil, List.sum_cons, List.sum_nil, hc0] at hsh
    have hsh' : row.sh = total :: e.rows :: bt := by rw [hsh]; congr 1; omega
    have hrr : row.rows = e.rows := by rw [Tensor.rows, hsh']; rfl
    refine ⟨by simp [ih1, hrr], fun p row' hp => ?_⟩
    cases p with
    | zero =>
      simp only [List.getElem?_cons_zero, Option.some.injEq] at hp
      subst hp
      refine ⟨e, rfl, hsh', fun β i hβ hi => ⟨fun j hj => ?_, fun j hj hout => ?_⟩⟩
      · have := hat 1 e rfl β i j hβ hi hj
        simp only [List.take_succ_cons, List.take_zero, List.map_cons, List.map_nil, List.sum_cons, List.sum_nil, hc0] at this ⊢
        exact this
      · simp only [List.take_zero, List.map_nil, List.sum_nil, Nat.add_zero] at hout
        rcases hout with hout | hout
        · have := hat 0 _ rfl β i j hβ hi (by rw [hc0]; exact hout)
          simp only [List.take_zero, List.map_nil, List.sum_nil, Nat.zero_add] at this
          rw [this, at_fillT_zero hβ (Fits.refl _) hi hout]
        · have := hat 2 _ rfl β i (j - (built + e.cols)) hβ hi (by rw [hc0]; omega)
          simp only [List.take_succ_cons, List.take_zero, List.map_cons, List.map_nil, List.sum_cons, List.sum_nil, hc0] at this
          rw [show built + (e.cols + 0) + (j - (built + e.cols)) = j by omega] at this
          rw [this, at_fillT_zero hβ (Fits.refl _) hi (by omega)]
    | succ p =>
      simp only [List.getElem?_cons_succ] at hp
      obtain ⟨e', hp', hs', h'⟩ := ih2 p row' hp
      refine ⟨e', by simpa using hp', hs', fun β i hβ hi => ?_⟩
      obtain ⟨g1, g2⟩ := h' β i hβ hi
      simp only [List.take_succ_cons, List.map_cons, List.sum_cons]
      exact ⟨fun j hj => by rw [← Nat.add_assoc built]; exact g1 j hj, fun j hj ho => g2 j hj (by omega)⟩

theorem bdConcat_ok {bt : Shp} {els rows : List (Tensor K)} {r : Tensor K} (hs : ∀ e ∈ els, e.sh = e.cols :: e.rows :: bt)
    (h : bdRows bt (els.map Tensor.cols).sum 0 (els.zip (els.map fun e => (e.rows, e.cols))) = .ok rows) (hr : nConcat (-2) rows = .ok r) : IsBlockDiag bt els r := by
  obtain ⟨h1, h2⟩ := bdRows_ok hs (Nat.zero_add _) h
  simp only [Nat.zero_add] at h2
  obtain ⟨_, hsh, hat⟩ := nConcat_rows (n := (els.map Tensor.cols).sum) (s := bt) (by
    intro t ht
    obtain ⟨p, hp⟩ := List.getElem?_of_mem ht
    obtain ⟨e, _, hsh, _⟩ := h2 p t hp
    rw [Tensor.rows, hsh]; rfl) hr
  have hlen : rows.length = els.length := by have := congrArg List.length h1; simpa using this
  have get : ∀ {p e}, els[p]? = some e → ∃ row, rows[p]? = some row := fun {p e} hp => by
    have : p < els.length := (List.getElem?_eq_some_iff.1 hp).1
    exact ⟨_, List.getElem?_eq_getElem (by omega)⟩
  have hbt : ∀ e ∈ els, e.bt = bt := fun e he => by
    show List.drop 2 _ = _
    rw [hs e he]; rfl
  refine ⟨by rw [hsh, h1], fun e he => by rw [hbt e he]; exact Fits.refl _, fun p t hp β i j hβ hi hj => ?_, fun p q t u hpq hp hq β i j hβ hi hj => ?_⟩
  all_goals
    obtain ⟨row, hrow⟩ := get hp
    obtain ⟨e, hp', hsr, hx⟩ := h2 p row hrow
    rw [hp] at hp'; simp only [Option.some.injEq] at hp'; subst hp'
    obtain ⟨x1, x2⟩ := hx β i hβ hi
    have hpc : (els.map Tensor.cols)[p]? = some t.cols := by rw [List.getElem?_map, hp]; rfl
    have h1' : (rows.take p).map Tensor.rows = (els.take p).map Tensor.rows := by rw [List.map_take, List.map_take, h1]
    rw [← h1']
  · have b := sum_take_le_sum hpc
    rw [← List.map_take] at b
    rw [hat p row hrow β i _ hβ (by rw [Tensor.rows, hsr]; exact hi) (by omega), x1 j hj]
  · have hqc : (els.map Tensor.cols)[q]? = some u.cols := by rw [List.getElem?_map, hq]; rfl
    have b := sum_take_le_sum hqc
    rw [← List.map_take] at b
    rw [hat p row hrow β i _ hβ (by rw [Tensor.rows, hsr]; exact hi) (by omega)]
    refine x2 _ (by omega) ?_
    rcases Nat.lt_or_gt_of_ne hpq with hlt | hlt
    · have := sum_take_le hlt hpc
      rw [← List.map_take, ← List.map_take] at this
      right; omega
    · have := sum_take_le hlt hqc
      rw [← List.map_take, ← List.map_take] at this
      left; omega

theorem map_den_num (ts : List (Tensor K)) : (ts.map (Mat.num : Tensor K → Mat K)).map den = ts := by
  rw [List.map_map]; exact List.map_id ts

theorem mapM_shapeMatrix (els : List (Tensor K)) (h : ∀ e ∈ els, 2 ≤ e.rank) : (els.mapM fun e => shapeMatrix (.num e : Mat K)) = .ok (els.map fun e => (e.rows, e.cols)) := by
  induction els with
  | nil => rfl
  | cons e els ih =>
    have he := h e (by simp)
    have w : Mat.WF e.bt (.num e : Mat K) := ⟨by omega, Fits.refl _⟩
    rw [List.mapM_cons, ih fun e he => h e (by simp [he]), w.shapeMatrix]
    rfl

/-- Several numeric operands. -/
theorem blockDiagNum_ok {ts : List (Tensor K)} {r : Tensor K} (hl : ts.length ≠ 1) (h2 : ∀ t ∈ ts, 2 ≤ t.rank) (h : blockDiagNum ts = .ok r) :
    IsBlockDiag (btAll ts) ts r := by
  have hv : ∀ a ∈ ts.map (Mat.num : Tensor K → Mat K), a.Valid := by
    intro a ha
    obtain ⟨t, ht, rfl⟩ := List.mem_map.1 ha
    exact ⟨t.bt, by show t.rank ≠ 1; have := h2 t ht; omega, Fits.refl _⟩
  simp only [blockDiagNum, bind_ok_iff] at h
  obtain ⟨as, has, shapes, hsh, bt, hbt, rows, hrows, h⟩ := h
  have hal := alignBatchL_ok hv has
  rw [map_den_num] at hal
  have hal' : List.Forall₂ (fun t a => Aligned (btAll ts) (.num t) a) ts as := by
    rw [List.forall₂_map_left_iff] at hal; exact hal
  have els : as.map den = ts.map (bbT (btAll ts)) := (forall₂_map_eq hal' fun t a h => h.den.symm).symm
  have hlen : as.length = ts.length := hal'.length_eq.symm
  rw [els] at hsh hbt hrows
  have hm : bdElements (ts.map (bbT (btAll ts))) = ts.map (bbT (btAll ts)) := by
    rcases ts with _ | ⟨t, _ | ⟨u, l⟩⟩
    · rfl
    · simp at hl
    · rfl
  rw [hm] at hsh hbt hrows
  have hrk : ∀ e ∈ ts.map (bbT (btAll ts)), 2 ≤ e.rank := by
    intro e he
    obtain ⟨t, _, rfl⟩ := List.mem_map.1 he
    exact bbT_rank _ _
  rw [mapM_shapeMatrix _ hrk] at hsh
  simp only [Except.ok.injEq] at hsh
  subst hsh
  have hbt' : bt = btAll ts := by
    rcases ts with _ | ⟨t, l⟩
    · simp [headBatch] at hbt
    · simp only [List.map_cons, headBatch] at hbt
      have w : Mat.WF (bbT (btAll (t :: l)) t).bt (.num (bbT (btAll (t :: l)) t) : Mat K) := ⟨by have := bbT_rank (btAll (t :: l)) t; omega, Fits.refl _⟩
      rw [w.shapeBatch] at hbt
      simp only [Except.ok.injEq] at hbt
      rw [← hbt]; rfl
  subst hbt'
  rw [List.map_map] at hrows
  refine IsBlockDiag.of_bb (fun t ht => ?_) (bdConcat_ok (rows := rows) ?_ hrows h)
  · obtain ⟨p, hp⟩ := List.getElem?_of_mem ht
    obtain ⟨a, _, ha⟩ := forall₂_getElem? hal' hp
    exact ⟨ha.rank, ha.fits⟩
  · intro e he
    obtain ⟨t, _, rfl⟩ := List.mem_map.1 he
    rfl

theorem mapM_eq_map {α β : Type} {f : α → E β} {g : α → β} {l : List α} (h : ∀ a ∈ l, f a = .ok (g a)) : l.mapM f = .ok (l.map g) := by
  induction l with
  | nil => rfl
  | cons a l ih => rw [List.mapM_cons, h a (by simp), ih fun a ha => h a (by simp [ha])]; rfl

theorem isZeroM_den {a : Mat K} (h : isZeroM a = true) : den a = fillT ((den a).cols :: (den a).rows :: (den a).bt) 0 := by
  cases a <;> simp [isZeroM] at h
  rfl

theorem isZeroM_rank {a : Mat K} (h : isZeroM a = true) : 2 ≤ (den a).rank := by
  cases a <;> simp [isZeroM] at h
  simp [den, Tensor.rank, fillT]

theorem isZeroM_at {a : Mat K} {S : Shp} (h : isZeroM a = true) (hS : Fits S (den a).bt) {β : Idx} {i j : ℕ} (hβ : InRange S β) (hi : i < (den a).rows) (hj : j < (den a).cols) :
    (den a).at' β i j = 0 := by
  rw [isZeroM_den h]; exact at_fillT_zero hβ hS hi hj

theorem isDiagM_at {a : Mat K} {S : Shp} (h : isDiagM a = true) (hS : Fits S (den a).bt) {β : Idx} {i j : ℕ} (hβ : InRange S β) (hi : i < (den a).rows) (hj : j < (den a).cols)
    (hij : i ≠ j) : (den a).at' β i j = 0 := by
  cases a <;> simp [isDiagM] at h
  rename_i t
  show (diagC t).at' β i j = 0
  rw [at_diagC hβ hS hi hj, if_neg hij]

theorem isDiagM_square {a : Mat K} (h : isDiagM a = true) : (den a).rows = (den a).cols := by
  cases a <;> simp [isDiagM] at h
  rfl

theorem Aligned.isZeroM {s : Shp} {a b : Mat K} (h : Aligned s a b) : isZeroM b = isZeroM a := by
  have := h.kind
  cases a <;> cases b <;> simp [Mat.kind] at this <;> rfl

theorem Aligned.isDiagM {s : Shp} {a b : Mat K} (h : Aligned s a b) : isDiagM b = isDiagM a := by
  have := h.kind
  cases a <;> cases b <;> simp [Mat.kind] at this <;> rfl

theorem Aligned.rows {s : Shp} {a b : Mat K} (h : Aligned s a b) : (Verif.den b).rows = (Verif.den a).rows := by rw [h.den]; rfl
theorem Aligned.cols {s : Shp} {a b : Mat K} (h : Aligned s a b) : (Verif.den b).cols = (Verif.den a).cols := by rw [h.den]; rfl

theorem DiagOk_of {a : Mat K} (h : (isDiagM a || isZeroM a) = true) : a.DiagOk := by
  cases a <;> simp [isDiagM, isZeroM] at h <;> trivial

/-- The diagonal of an aligned Diagonal or Zero block. -/
theorem diag_aligned {B : Ops K} (hB : B.Ok) {s : Shp} {a b : Mat K} {v : Tensor K} (ha : Aligned s a b) (hk : (isDiagM a || isZeroM a) = true)
    (hsq : (den a).rows = (den a).cols) (h : B.diag b = .ok v) :
    v.sh = v.cols :: s ∧ v.cols = (den a).cols ∧ ∀ β i, InRange s β → i < (den a).cols → v.vat β i = (den a).at' β i i := by
  have hb2 : 2 ≤ (den b).rank := by rw [ha.den]; exact bbT_rank _ _
  obtain rfl := hB.diag ha.wf hb2 (DiagOk_of (by rw [ha.isDiagM, ha.isZeroM]; exact hk)) h
  have R : Rep s (den a).rows (den a).cols (den b) (den a).at' := by rw [ha.den]; exact (Rep.self ha.rank ha.fits).bbT
  have hbt : (den b).bt = s := by rw [ha.den]; rfl
  have V := VRep.diagE R
  rw [hsq, Nat.min_self] at V
  have hsh : (diagE (den b)).sh = (den a).cols :: s := by
    rw [diagE_sh, hbt, ha.rows, ha.cols, hsq, Nat.min_self]
  exact ⟨by rw [hsh, V.len], V.len, V.vat⟩

theorem blockDiagAM_ok {B : Ops K} (hB : B.Ok) {as : List (Mat K)} {r : Mat K} (hv : ∀ a ∈ as, a.Valid) (h2 : ∀ a ∈ as, 2 ≤ (den a).rank)
    (h : blockDiagAM B as = .ok r) : r.Valid ∧ IsBlockDiag (btAll (as.map den)) (as.map den) (den r) := by
  have one : ∀ a : Mat K, a.Valid → 2 ≤ (den a).rank → IsBlockDiag (btAll [den a]) [den a] (den a) := by
    intro a _ hr
    refine ⟨?_, ?_, ?_, ?_⟩
    · rw [Tensor.sh_eq hr]; simp [btAll]
    · intro t ht; simp at ht; subst ht; simp [btAll, Fits.refl]
    · intro p t hp β i j hβ hi hj
      cases p with
      | zero => simp at hp; subst hp; simp
      | succ p => simp at hp
    · intro p q t u hpq hp hq
      cases p <;> cases q <;> simp_all
  unfold blockDiagAM at h
  split at h
  · simp only [Except.ok.injEq] at h
    subst h
    exact ⟨hv _ (by simp), one _ (hv _ (by simp)) (h2 _ (by simp))⟩
  · rename_i hne
    have get : ∀ {p t}, (as.map den)[p]? = some t → ∃ a, as[p]? = some a ∧ den a = t := fun hp => by
      rw [List.getElem?_map, Option.map_eq_some_iff] at hp; exact hp
    split_ifs at h with hz hd
    · simp only [bind_ok_iff] at h
      obtain ⟨bt, hbt, hs, hhs, ws, hws, h⟩ := h
      obtain ⟨rfl, hf⟩ := shapeBatchBroadcastL_ok hv hbt
      rw [mapM_eq_map (g := fun a => (den a).rows) fun a ha => by rw [(hv a ha).own.shapeMatrix]; rfl] at hhs
      rw [mapM_eq_map (g := fun a => (den a).cols) fun a ha => by rw [(hv a ha).own.shapeMatrix]; rfl] at hws
      simp only [Except.ok.injEq, mkZero] at hhs hws h
      subst hhs hws h
      have hz' : ∀ a ∈ as, isZeroM a = true := by simpa using hz
      have e1 : ((as.map fun a => (den a).rows)) = (as.map den).map Tensor.rows := by rw [List.map_map]; rfl
      have e2 : ((as.map fun a => (den a).cols)) = (as.map den).map Tensor.cols := by rw [List.map_map]; rfl
      refine ⟨⟨_, Fits.refl _⟩, ?_, ?_, ?_, ?_⟩
      · rw [e1, e2]; rfl
      · intro t ht
        obtain ⟨a, ha, rfl⟩ := List.mem_map.1 ht
        exact hf a ha
      · intro p t hp β i j hβ hi hj
        have b1 := sum_take_le_sum (l := (as.map den).map Tensor.rows) (p := p) (x := t.rows) (by rw [List.getElem?_map, hp]; rfl)
        have b2 := sum_take_le_sum (l := (as.map den).map Tensor.cols) (p := p) (x := t.cols) (by rw [List.getElem?_map, hp]; rfl)
        rw [← List.map_take] at b1 b2
        obtain ⟨a, ha, rfl⟩ := get hp
        have ha := List.mem_of_getElem? ha
        rw [isZeroM_at (hz' a ha) (hf a ha) hβ hi hj]
        show (fillT _ (0 : K)).at' _ _ _ = 0
        exact at_fillT_zero hβ (Fits.refl _) (by rw [e1]; omega) (by rw [e2]; omega)
      · intro p q t u _ hp hq β i j hβ hi hj
        have b1 := sum_take_le_sum (l := (as.map den).map Tensor.rows) (p := p) (x := t.rows) (by rw [List.getElem?_map, hp]; rfl)
        have b2 := sum_take_le_sum (l := (as.map den).map Tensor.cols) (p := q) (x := u.cols) (by rw [List.getElem?_map, hq]; rfl)
        rw [← List.map_take] at b1 b2
        show (fillT _ (0 : K)).at' _ _ _ = 0
        exact at_fillT_zero hβ (Fits.refl _) (by rw [e1]; omega) (by rw [e2]; omega)
    · simp only [bind_ok_iff, mkDiag_ok] at h
      obtain ⟨bs, hbs, vs, hvs, v, hcat, _, rfl⟩ := h
      have hal := alignBatchL_ok hv hbs
      have hd' : ∀ a ∈ as, isDiagM a = true := by simpa using hd
      generalize hT : btAll (as.map den) = T at *
      have hvs' : List.Forall₂ (fun a v => Fits T (den a).bt ∧ isDiagM a = true ∧ v.sh = v.cols :: T ∧ v.cols = (den a).cols ∧
          ∀ β i, InRange T β → i < (den a).cols → v.vat β i = (den a).at' β i i) as vs := by
        have hvm := mapM_ok hvs
        clear hvs hcat hv h2 hbs get hd hz hT hne
        induction hal generalizing vs with
        | nil => cases hvm; exact .nil
        | cons ha _ ih =>
          cases hvm with
          | cons hv' hvm =>
            have hk := hd' _ (List.mem_cons_self ..)
            exact .cons ⟨ha.fits, hk, diag_aligned hB ha (by rw [hk]; rfl) (isDiagM_square hk) hv'⟩ (ih _ (fun a ha => hd' a (by simp [ha])) hvm)
      have hcols : vs.map Tensor.cols = (as.map den).map Tensor.cols := by
        rw [List.map_map]; exact (forall₂_map_eq hvs' fun a v h => h.2.2.2.1.symm).symm
      have hrows : (as.map den).map Tensor.rows = (as.map den).map Tensor.cols := by
        rw [List.map_map, List.map_map]
        exact List.map_congr_left fun a ha => isDiagM_square (hd' a ha)
      obtain ⟨w, hsh, hat⟩ := diag_concat (fun v hv => by obtain ⟨a, _, h⟩ := forall₂_mem hvs' hv; exact h.2.2.1) hcat
      have hct : ∀ p, (vs.take p).map Tensor.cols = ((as.map den).take p).map Tensor.cols := fun p => by rw [List.map_take, hcols, List.map_take]
      have hrt : ∀ p, ((as.map den).take p).map Tensor.rows = ((as.map den).take p).map Tensor.cols := fun p => by
        rw [List.map_take (f := Tensor.rows), hrows, List.map_take (f := Tensor.cols)]
      have main : ∀ p q t u, (as.map den)[p]? = some t → (as.map den)[q]? = some u → ∀ β i j, InRange T β → i < t.rows → j < u.cols →
          (den (.diag v : Mat K)).at' β ((((as.map den).take p).map Tensor.rows).sum + i) ((((as.map den).take q).map Tensor.cols).sum + j) =
            if p = q ∧ i = j then t.at' β i i else 0 := by
        intro p q t u hp hq β i j hβ hi hj
        obtain ⟨a, ha, rfl⟩ := get hp
        obtain ⟨b, hb, rfl⟩ := get hq
        obtain ⟨x, hx, _, hda, _, ex, vx⟩ := forall₂_getElem? hvs' ha
        obtain ⟨y, hy, _, _, _, ey, _⟩ := forall₂_getElem? hvs' hb
        rw [isDiagM_square hda] at hi
        have := hat p q x y hx hy β i j hβ (by rw [ex]; exact hi) (by rw [ey]; exact hj)
        rw [hct, hct] at this
        rw [hrt, this, vx β i hβ hi]
      refine ⟨⟨_, w⟩, by rw [hsh, hrows, hcols], ?_, ?_, ?_⟩
      · intro t ht
        obtain ⟨p, hp⟩ := List.getElem?_of_mem ht
        obtain ⟨a, ha, rfl⟩ := get hp
        obtain ⟨_, _, hf, _⟩ := forall₂_getElem? hvs' ha
        exact hf
      · intro p t hp β i j hβ hi hj
        rw [main p p t t hp hp β i j hβ hi hj]
        split_ifs with e
        · rw [← e.2]
        · obtain ⟨a, ha, rfl⟩ := get hp
          obtain ⟨_, _, hf, hda, _⟩ := forall₂_getElem? hvs' ha
          exact (isDiagM_at hda hf hβ hi hj fun h => e ⟨rfl, h⟩).symm
      · intro p q t u hpq hp hq β i j hβ hi hj
        rw [main p q t u hp hq β i j hβ hi hj, if_neg fun h => hpq h.1]
    · simp only [bind_ok_iff, pure_eq_ok] at h
      obtain ⟨ds, hds, t, ht, rfl⟩ := h
      have e : ds = as.map den := by
        have := mapM_ok hds
        clear hds ht hz hd get hne h2
        induction this with
        | nil => rfl
        | cons h _ ih =>
          rw [ih fun a ha => hv a (by simp [ha]), hB.dense (hv _ (by simp)).own h]; rfl
      subst e
      have hl : (as.map den).length ≠ 1 := by
        intro e
        rw [List.length_map, List.length_eq_one_iff] at e
        obtain ⟨a, ha⟩ := e
        exact hne a ha
      have hbd := blockDiagNum_ok hl (fun t ht => by obtain ⟨a, ha, rfl⟩ := List.mem_map.1 ht; exact h2 a ha) ht
      have hbt : t.bt = btAll (as.map den) := by show List.drop 2 _ = _; rw [hbd.shape]; rfl
      obtain ⟨w, e⟩ := mkDense_wf (S := t.bt) (t := t) ⟨by rw [Tensor.rank, hbd.shape]; simp, Fits.refl _⟩
      rw [e]
      exact ⟨⟨_, w⟩, hbd⟩

/-! ### A TiledBlocks -/

theorem flatten_get {α : Type} {tss : List (List α)} {p : ℕ} {t : α} (h : tss.flatten[p]? = some t) :
    ∃ P q ts, tss[P]? = some ts ∧ ts[q]? = some t ∧ p = ((tss.take P).map List.length).sum + q ∧
      ∀ f : α → ℕ, ((tss.flatten.take p).map f).sum = ((tss.take P).map fun ts => (ts.map f).sum).sum + ((ts.take q).map f).sum := by
  induction tss generalizing p with
  | nil => simp at h
  | cons ts tss ih =>
    rw [List.flatten_cons] at h
    by_cases hp : p < ts.length
    · rw [List.getElem?_append_left hp] at h
      refine ⟨0, p, ts, rfl, h, by simp, fun f => ?_⟩
      rw [List.flatten_cons, List.take_append_of_le_length (by omega)]
      simp
    · rw [List.getElem?_append_right (by omega)] at h
      obtain ⟨P, q, us, h1, h2, h3, h4⟩ := ih h
      refine ⟨P + 1, q, us, by simpa using h1, h2, by rw [List.take_succ_cons, List.map_cons, List.sum_cons]; omega, fun f => ?_⟩
      rw [List.flatten_cons, List.take_append, List.take_of_length_le (by omega), List.map_append, List.sum_append, h4 f]
      simp; omega

/-- Block-diagonal matrices of block-diagonal matrices. -/
theorem IsBlockDiag.flatten {bt : Shp} {tss : List (List (Tensor K))} {us : List (Tensor K)} {r : Tensor K} (h : List.Forall₂ (fun ts u => IsBlockDiag u.bt ts u) tss us)
    (hr : IsBlockDiag bt us r) : IsBlockDiag bt tss.flatten r := by
  have er : us.map Tensor.rows = tss.map fun ts => (ts.map Tensor.rows).sum :=
    (forall₂_map_eq h fun ts u hu => by rw [Tensor.rows, hu.shape]; rfl).symm
  have ec : us.map Tensor.cols = tss.map fun ts => (ts.map Tensor.cols).sum :=
    (forall₂_map_eq h fun ts u hu => by rw [Tensor.cols, hu.shape]; rfl).symm
  have get : ∀ {p t}, tss.flatten[p]? = some t → ∃ P q ts u, tss[P]? = some ts ∧ us[P]? = some u ∧ IsBlockDiag u.bt ts u ∧ ts[q]? = some t ∧
      p = ((tss.take P).map List.length).sum + q ∧
      ((tss.flatten.take p).map Tensor.rows).sum = ((us.take P).map Tensor.rows).sum + ((ts.take q).map Tensor.rows).sum ∧
      ((tss.flatten.take p).map Tensor.cols).sum = ((us.take P).map Tensor.cols).sum + ((ts.take q).map Tensor.cols).sum ∧
      (∀ i, i < t.rows → ((ts.take q).map Tensor.rows).sum + i < u.rows) ∧ ∀ j, j < t.cols → ((ts.take q).map Tensor.cols).sum + j < u.cols := by
    intro p t hp
    obtain ⟨P, q, ts, h1, h2, h3, h4⟩ := flatten_get hp
    obtain ⟨u, hu, hbd⟩ := forall₂_getElem? h h1
    have b1 := sum_take_le_sum (l := ts.map Tensor.rows) (p := q) (x := t.rows) (by rw [List.getElem?_map, h2]; rfl)
    have b2 := sum_take_le_sum (l := ts.map Tensor.cols) (p := q) (x := t.cols) (by rw [List.getElem?_map, h2]; rfl)
    rw [← List.map_take] at b1 b2
    have e1 : u.rows = (ts.map Tensor.rows).sum := by rw [Tensor.rows, hbd.shape]; rfl
    have e2 : u.cols = (ts.map Tensor.cols).sum := by rw [Tensor.cols, hbd.shape]; rfl
    refine ⟨P, q, ts, u, h1, hu, hbd, h2, h3, ?_, ?_, fun i hi => by omega, fun j hj => by omega⟩
    · rw [h4 Tensor.rows, List.map_take (f := Tensor.rows) (l := us), er, ← List.map_take]
    · rw [h4 Tensor.cols, List.map_take (f := Tensor.cols) (l := us), ec, ← List.map_take]
  have hclip : ∀ {u : Tensor K} {P : ℕ} {β : Idx}, us[P]? = some u → InRange bt β → InRange u.bt (clip u.bt β) := by
    intro u P β hu hβ k
    have h1 := hr.fits _ (List.mem_of_getElem? hu) k
    have h2 := hβ k
    unfold clip
    split <;> omega
  refine ⟨?_, ?_, ?_, ?_⟩
  · rw [hr.shape, er, ec, List.map_flatten, List.map_flatten, List.sum_flatten, List.sum_flatten, List.map_map, List.map_map]; rfl
  · intro t ht
    obtain ⟨p, hp⟩ := List.getElem?_of_mem ht
    obtain ⟨P, q, ts, u, _, hu, hbd, hq, _⟩ := get hp
    exact (hr.fits u (List.mem_of_getElem? hu)).trans (hbd.fits t (List.mem_of_getElem? hq))
  · intro p t hp β i j hβ hi hj
    obtain ⟨P, q, ts, u, _, hu, hbd, hq, _, s1, s2, l1, l2⟩ := get hp
    rw [s1, s2, Nat.add_assoc, Nat.add_assoc, hr.blocks P u hu β _ _ hβ (l1 i hi) (l2 j hj)]
    rw [← Tensor.at'_clip (Fits.refl _), hbd.blocks q t hq _ i j (hclip hu hβ) hi hj, Tensor.at'_clip (hbd.fits t (List.mem_of_getElem? hq))]
  · intro p p' t t' hpp hp hp' β i j hβ hi hj
    obtain ⟨P, q, ts, u, hts, hu, hbd, hq, ep, s1, _, l1, _⟩ := get hp
    obtain ⟨P', q', ts', u', hts', hu', _, hq', ep', _, s2, _, l2⟩ := get hp'
    rw [s1, s2, Nat.add_assoc, Nat.add_assoc]
    by_cases e : P = P'
    · subst e
      rw [hu] at hu'; rw [hts] at hts'
      simp only [Option.some.injEq] at hu' hts'
      subst hu' hts'
      rw [hr.blocks P u hu β _ _ hβ (l1 i hi) (l2 j hj), ← Tensor.at'_clip (Fits.refl _)]
      exact hbd.zeros q q' t t' (fun e => hpp (by rw [ep, ep', e])) hq hq' _ i j (hclip hu hβ) hi hj
    · exact hr.zeros P P' u u' e hu hu' β _ _ hβ (l1 i hi) (l2 j hj)

theorem getElem?_replicate_some {α : Type} {n p : ℕ} {b t : α} (h : (List.replicate n b)[p]? = some t) : p < n ∧ t = b := by
  rw [List.getElem?_replicate] at h
  split_ifs at h with hp
  exact ⟨hp, by simpa using h.symm⟩

theorem sum_take_replicate {n p : ℕ} (hp : p < n) (b : Tensor K) (f : Tensor K → ℕ) : (((List.replicate n b).take p).map f).sum = p * f b := by
  rw [List.take_replicate, List.map_replicate, List.sum_replicate, Nat.min_eq_left (by omega)]; rfl

/-- A block repeated along the diagonal is a Kronecker product with the identity. -/
theorem eye_kron (n : ℕ) {b : Tensor K} (h2 : 2 ≤ b.rank) : IsBlockDiag (kronT (nEye n) b).bt (List.replicate n b) (kronT (nEye n) b) := by
  have hbt : (kronT (nEye n : Tensor K) b).bt = b.bt := by rw [kronT_bt]; simp [nEye, mkMat, Tensor.bt]
  have E : Rep b.bt n n (nEye n : Tensor K) fun _ i j => if i = j then 1 else 0 :=
    ⟨by simp [nEye, mkMat, Tensor.rank], rfl, rfl, Fits.nil _, fun β i j hβ hi hj => at_mkMat _ hβ (Fits.nil _) hi hj⟩
  have R := E.kronT (Rep.self h2 (Fits.refl _))
  rw [hbt]
  have ent : ∀ p q t u, (List.replicate n b)[p]? = some t → (List.replicate n b)[q]? = some u → ∀ β i j, InRange b.bt β → i < t.rows → j < u.cols →
      (kronT (nEye n) b).at' β ((((List.replicate n b).take p).map Tensor.rows).sum + i) ((((List.replicate n b).take q).map Tensor.cols).sum + j) =
        if p = q then b.at' β i j else 0 := by
    intro p q t u hp hq β i j hβ hi hj
    obtain ⟨hp', et⟩ := getElem?_replicate_some hp
    obtain ⟨hq', eu⟩ := getElem?_replicate_some hq
    rw [et] at hi
    rw [eu] at hj
    rw [sum_take_replicate hp', sum_take_replicate hq']
    have lt : ∀ {x y m n : ℕ}, x < m → y < n → x * n + y < m * n := by
      intro x y m n hx hy
      calc x * n + y < x * n + n := by omega
        _ = (x + 1) * n := by ring
        _ ≤ m * n := Nat.mul_le_mul_right _ hx
    have l1 : p * b.rows + i < n * b.rows := lt hp' hi
    have l2 : q * b.cols + j < n * b.cols := lt hq' hj
    rw [R.at' β _ _ hβ l1 l2, Nat.mul_comm p, Nat.mul_comm q, Nat.mul_add_div (by omega), Nat.mul_add_div (by omega), Nat.mul_add_mod, Nat.mul_add_mod,
      Nat.div_eq_of_lt hi, Nat.div_eq_of_lt hj, Nat.mod_eq_of_lt hi, Nat.mod_eq_of_lt hj, Nat.add_zero, Nat.add_zero]
    split_ifs <;> simp
  refine ⟨?_, ?_, ?_, ?_⟩
  · rw [Tensor.sh_eq R.rank, R.rows, R.cols, hbt]
    simp
  · intro t ht
    rw [List.eq_of_mem_replicate ht]; exact Fits.refl _
  · intro p t hp β i j hβ hi hj
    rw [ent p p t t hp hp β i j hβ hi hj, if_pos rfl, (getElem?_replicate_some hp).2]
  · intro p q t u hpq hp hq β i j hβ hi hj
    rw [ent p q t u hp hq β i j hβ hi hj, if_neg hpq]

theorem blockDiagList_ok {B : Ops K} (hB : B.Ok) {as : List (Mat K)} {r : Mat K} (hv : ∀ a ∈ as, a.Valid) (h2 : ∀ a ∈ as, 2 ≤ (den a).rank)
    (h1 : ∀ t, as ≠ [.num t]) (h : blockDiagList B as = .ok r) : r.Valid ∧ IsBlockDiag (btAll (as.map den)) (as.map den) (den r) := by
  unfold blockDiagList at h
  split at h
  · simp at h
  · split_ifs at h with hn
    · simp only [bind_ok_iff, pure_eq_ok] at h
      obtain ⟨t, ht, rfl⟩ := h
      have hl : (as.map den).length ≠ 1 := by
        intro e
        rw [List.length_map, List.length_eq_one_iff] at e
        obtain ⟨a, rfl⟩ := e
        cases a <;> simp [Mat.isAM] at hn
        exact h1 _ rfl
      have hbd := blockDiagNum_ok hl (fun t ht => by obtain ⟨a, ha, rfl⟩ := List.mem_map.1 ht; exact h2 a ha) ht
      refine ⟨⟨t.bt, ?_, Fits.refl _⟩, hbd⟩
      rw [Tensor.rank, hbd.shape]; simp
    · exact blockDiagAM_ok hB hv h2 h

theorem kronM_num {env : Env K} {a b : Mat K} {t : Tensor K} (h : kronM env a b = .ok (.num t)) : b.isAM = false := by
  unfold kronM at h
  split at h
  · rfl
  · have hz : ∀ {x : Mat K} {bt r c}, kronZero x (.zero bt r c) ≠ .ok (.num t) := by
      intro x bt r c h
      simp only [kronZero, bind_ok_iff, mkZero_ok] at h
      obtain ⟨_, _, _, _, _, _, _, _, _, _, h⟩ := h
      cases h
    exfalso
    dsimp only at h
    split at h
    · exact hz h
    · split at h
      · exact hz h
      · split at h
        · simp only [bind_ok_iff, mkConst, Except.ok.injEq] at h
          obtain ⟨_, _, h⟩ := h
          cases h
        · simp at h
      · simp at h

theorem blockDiagTiled_ok {B : Ops K} (hB : B.Ok) {env : Env K} {n : ℕ} {blk : Fin n → Mat K} {reps : Fin n → ℕ} {axis : Int} {r : Mat K}
    (hv : (Mat.tiled n blk reps axis).Valid) (h1 : n = 1 → ∀ i, (blk i).isAM = true) (h : blockDiagM env B [.tiled n blk reps axis] = .ok r) :
    r.Valid ∧ IsBlockDiag (btAll (List.ofFn fun i => den (blk i))) (List.ofFn fun i => List.replicate (reps i) (den (blk i))).flatten (den r) := by
  obtain ⟨S, k, _, hn, h2, hw, _⟩ := hv
  simp only [blockDiagM, bind_ok_iff, seqFin_ok] at h
  obtain ⟨ks, hks, h⟩ := h
  have hk : ∀ i, (ks i).Valid ∧ den (ks i) = kronT (nEye (reps i)) (den (blk i)) := by
    intro i
    obtain ⟨w, e⟩ := kronM_ok (a := .num (nEye (reps i))) ⟨by simp [nEye, mkMat, Tensor.rank], Fits.nil _⟩ (hw i) (hks i)
    rw [upT_of_rank (h2 i), upT_of_rank (by simp [nEye, mkMat, Tensor.rank, den])] at e
    exact ⟨⟨_, w⟩, e⟩
  have hmap : (List.ofFn ks).map den = List.ofFn fun i => kronT (nEye (reps i)) (den (blk i)) := by
    rw [List.map_ofFn]; congr 1; funext i; exact (hk i).2
  have hmem : ∀ a ∈ List.ofFn ks, ∃ i, ks i = a := fun a ha => (List.mem_ofFn' _ _).1 ha
  obtain ⟨w, hbd⟩ := blockDiagList_ok hB (fun a ha => by obtain ⟨i, rfl⟩ := hmem a ha; exact (hk i).1)
    (fun a ha => by obtain ⟨i, rfl⟩ := hmem a ha; rw [(hk i).2]; simp [Tensor.rank])
    (fun t e => by
      have hl := congrArg List.length e
      simp only [List.length_ofFn, List.length_singleton] at hl
      subst hl
      have e0 : ks 0 = .num t := by simpa using e
      have := kronM_num (e0 ▸ hks 0)
      rw [h1 rfl 0] at this
      simp at this) h
  rw [hmap] at hbd
  refine ⟨w, IsBlockDiag.flatten (us := List.ofFn fun i => kronT (nEye (reps i)) (den (blk i))) ?_ ?_⟩
  · rw [List.forall₂_iff_get]
    refine ⟨by simp, fun i h1 h2' => ?_⟩
    simp only [List.get_eq_getElem, List.getElem_ofFn]
    exact eye_kron _ (h2 _)
  · have : btAll (List.ofFn fun i => kronT (nEye (reps i)) (den (blk i))) = btAll (List.ofFn fun i => den (blk i)) := by
      unfold btAll
      rw [List.map_ofFn, List.map_ofFn]
      congr 2
    rw [← this]; exact hbd

/-! ### Block matrices -/

theorem isGrid_get {hs ws : List ℕ} {ts : List (List (Tensor K))} (h : IsGrid hs ws ts) {p q : ℕ} {row : List (Tensor K)} {t : Tensor K}
    (hp : ts[p]? = some row) (hq : row[q]? = some t) : hs[p]? = some t.rows ∧ ws[q]? = some t.cols := by
  obtain ⟨x, hx, hr⟩ := forall₂_getElem?' h hp
  obtain ⟨y, hy, e1, e2⟩ := forall₂_getElem?' hr hq
  rw [hx, hy, e1, e2]
  exact ⟨rfl, rfl⟩

/-- The result of concatenating the aligned blocks. -/
theorem concat2d_ok {bt : Shp} {hs ws : List ℕ} {ts : List (List (Tensor K))} {r : Tensor K} (hg : IsGrid hs ws ts) (hsh : ∀ row ∈ ts, ∀ t ∈ row, t.sh = t.cols :: t.rows :: bt)
    (h : nConcat2d ts = .ok r) : IsBlock bt hs ws ts r := by
  simp only [nConcat2d, bind_ok_iff] at h
  obtain ⟨rs, hrs, h⟩ := h
  have hrs := mapM_ok hrs
  -- every row
  have hrow : ∀ (p : ℕ) (row : List (Tensor K)) (u : Tensor K), ts[p]? = some row → rs[p]? = some u → ∃ m, hs[p]? = some m ∧ u.sh = ws.sum :: m :: bt ∧
      ∀ (q : ℕ) (t : Tensor K), row[q]? = some t → ∀ β i j, InRange bt β → i < m → j < t.cols → u.at' β i ((ws.take q).sum + j) = t.at' β i j := by
    intro p row u hp hu
    obtain ⟨u', hu', hc⟩ := forall₂_getElem? hrs hp
    rw [hu] at hu'; simp only [Option.some.injEq] at hu'; subst hu'
    obtain ⟨m, hm, hr⟩ := forall₂_getElem?' hg hp
    have hmem := List.mem_of_getElem? hp
    have hws : row.map Tensor.cols = ws := by
      have : ws.map id = row.map Tensor.cols := forall₂_map_eq hr fun w t h => h.2.symm
      rw [← this, List.map_id]
    obtain ⟨_, e, hat⟩ := nConcat_cols (m := m) (s := bt) (fun t ht => by
      obtain ⟨w, _, e, _⟩ := forall₂_mem hr ht
      rw [hsh row hmem t ht, e]) hc
    rw [hws] at e
    refine ⟨m, hm, e, fun q t hq β i j hβ hi hj => ?_⟩
    have := hat q t hq β i j hβ hi hj
    rw [List.map_take, hws] at this
    exact this
  have getr : ∀ {p row}, ts[p]? = some row → ∃ u, rs[p]? = some u := fun hp => by
    obtain ⟨u, hu, _⟩ := forall₂_getElem? hrs hp; exact ⟨u, hu⟩
  have getr' : ∀ {p u}, rs[p]? = some u → ∃ row, ts[p]? = some row := fun hp => by
    obtain ⟨u, hu, _⟩ := forall₂_getElem?' hrs hp; exact ⟨u, hu⟩
  obtain ⟨_, e, hat⟩ := nConcat_rows (n := ws.sum) (s := bt) (fun u hu => by
    obtain ⟨p, hp⟩ := List.getElem?_of_mem hu
    obtain ⟨row, hr⟩ := getr' hp
    obtain ⟨m, _, e, _⟩ := hrow p row u hr hp
    rw [Tensor.rows, e]; rfl) h
  have hhs : rs.map Tensor.rows = hs := by
    have hl : rs.length = hs.length := by rw [← hrs.length_eq, ← hg.length_eq]
    apply List.ext_getElem?
    intro p
    by_cases hp : p < rs.length
    · obtain ⟨u, hu⟩ : ∃ u, rs[p]? = some u := ⟨_, List.getElem?_eq_getElem hp⟩
      obtain ⟨row, hr⟩ := getr' hu
      obtain ⟨m, hm, e, _⟩ := hrow p row u hr hu
      rw [List.getElem?_map, hu, hm, Option.map_some, Tensor.rows, e]; rfl
    · rw [List.getElem?_eq_none (by simpa using hp), List.getElem?_eq_none (by omega)]
  refine ⟨by rw [e, hhs], fun row hr t ht => ?_, fun p q row t hp hq β i j hβ hi hj => ?_⟩
  · have : t.bt = bt := by show List.drop 2 _ = _; rw [hsh row hr t ht]; rfl
    rw [this]; exact Fits.refl _
  · obtain ⟨u, hu⟩ := getr hp
    obtain ⟨m, hm, e, hx⟩ := hrow p row u hp hu
    obtain ⟨g1, g2⟩ := isGrid_get hg hp hq
    rw [hm] at g1; simp only [Option.some.injEq] at g1; subst g1
    have b := sum_take_le_sum g2
    have := hat p u hu β i ((ws.take q).sum + j) hβ (by rw [Tensor.rows, e]; exact hi) (by omega)
    rw [List.map_take, hhs] at this
    rw [this, hx q t hq β i j hβ hi hj]

/-- The blocks may be given with their batches broadcast. -/
theorem IsBlock.of_bb {bt : Shp} {hs ws : List ℕ} {ts : List (List (Tensor K))} {r : Tensor K} (hf : ∀ row ∈ ts, ∀ t ∈ row, 2 ≤ t.rank ∧ Fits bt t.bt)
    (h : IsBlock bt hs ws (ts.map fun row => row.map (bbT bt)) r) : IsBlock bt hs ws ts r := by
  refine ⟨h.shape, fun row hr t ht => (hf row hr t ht).2, fun p q row t hp hq β i j hβ hi hj => ?_⟩
  obtain ⟨a, b⟩ := hf row (List.mem_of_getElem? hp) t (List.mem_of_getElem? hq)
  rw [h.entries p q (row.map (bbT bt)) (bbT bt t) (by rw [List.getElem?_map, hp]; rfl) (by rw [List.getElem?_map, hq]; rfl) β i j hβ hi hj, at_bbT hβ ⟨a, b⟩ hi hj]


theorem forall₂_getElem?_none {α β : Type} {R : α → β → Prop} {l : List α} {l' : List β} (h : List.Forall₂ R l l') {p : ℕ} (hp : l[p]? = none) : l'[p]? = none := by
  rw [List.getElem?_eq_none_iff] at hp ⊢; rw [← h.length_eq]; exact hp

theorem btAll_const {T : Shp} {ts : List (Tensor K)} (h0 : ts ≠ []) (h : ∀ t ∈ ts, t.bt = T) : btAll ts = T := by
  induction ts with
  | nil => simp at h0
  | cons t ts ih =>
    have ht : t.bt = T := h t (by simp)
    by_cases e : ts = []
    · subst e; simp [btAll, ht]
    · have := ih e fun t ht => h t (by simp [ht])
      simp only [btAll] at this
      simp only [btAll, List.map_cons, List.foldr_cons, this, ht, bsh_self]

/-- The grid of the blocks, read off the model. -/
abbrev dens (rows : List (List (Mat K))) : List (List (Tensor K)) := rows.map fun row => row.map den

theorem dens_get {rows : List (List (Mat K))} {p q : ℕ} {row : List (Tensor K)} {t : Tensor K} (hp : (dens rows)[p]? = some row) (hq : row[q]? = some t) :
    ∃ as a, rows[p]? = some as ∧ as[q]? = some a ∧ den a = t := by
  rw [List.getElem?_map, Option.map_eq_some_iff] at hp
  obtain ⟨as, has, rfl⟩ := hp
  rw [List.getElem?_map, Option.map_eq_some_iff] at hq
  obtain ⟨a, ha, rfl⟩ := hq
  exact ⟨as, a, has, ha, rfl⟩

theorem blockDiagonal_ok {B : Ops K} (hB : B.Ok) {T : Shp} {rows rows' : List (List (Mat K))} {hs ws : List ℕ} {r : Mat K} (hg : IsGrid hs ws (dens rows))
    (hal : List.Forall₂ (List.Forall₂ (Aligned T)) rows rows') (h : blockDiagonal B rows' = .ok (some r)) : r.Valid ∧ IsBlock T hs ws (dens rows) (den r) := by
  unfold blockDiagonal at h
  split_ifs at h with h1
  · simp [pure_eq_ok] at h
  have hsq : ∀ row ∈ rows', row.length = rows'.length := by simpa using h1
  simp only [bind_ok_iff] at h
  obtain ⟨ok, hok, h⟩ := h
  cases ok with
  | false => simp [pure_eq_ok] at h
  | true =>
    simp only [Bool.not_true, Bool.false_eq_true, ↓reduceIte, bind_ok_iff, mkDiag_ok, pure_eq_ok, Option.some.injEq] at h
    obtain ⟨s, hs', bs, hbs, vs, hvs, v, hcat, _, ⟨_, rfl⟩, rfl⟩ := h
    have hcell := allE_true hok
    have cell : ∀ {p q row x}, rows'[p]? = some row → row[q]? = some x → blockCell p q x = .ok true := by
      intro p q row x hp hq
      refine hcell _ (List.mem_flatMap.2 ⟨(row, p), List.mk_mem_zipIdx_iff_getElem?.2 hp, List.mem_map.2 ⟨(x, q), List.mk_mem_zipIdx_iff_getElem?.2 hq, rfl⟩⟩)
    have hv' : ∀ a ∈ rows'.flatten, a.Valid ∧ (den a).bt = T ∧ 2 ≤ (den a).rank := by
      intro b hb
      obtain ⟨row', hr, hb⟩ := List.mem_flatten.1 hb
      obtain ⟨row, _, h⟩ := forall₂_mem hal hr
      obtain ⟨a, _, h⟩ := forall₂_mem h hb
      refine ⟨⟨_, h.wf⟩, by rw [h.den]; rfl, by rw [h.den]; exact bbT_rank _ _⟩
    -- the blocks on the diagonal
    have hdg : ∀ p, (diagBlocks 0 rows')[p]? = (rows'[p]?).bind fun row => row[p]? := fun p => by
      rw [diagBlocks_get fun row hr => by rw [hsq row hr]; omega]
      rcases rows'[p]? with _ | row
      · rfl
      · simp; rfl
    have hdmem : ∀ b ∈ diagBlocks 0 rows', b ∈ rows'.flatten := by
      intro b hb
      obtain ⟨p, hp⟩ := List.getElem?_of_mem hb
      rw [hdg, Option.bind_eq_some_iff] at hp
      obtain ⟨row, h1, h2⟩ := hp
      exact List.mem_flatten.2 ⟨row, List.mem_of_getElem? h1, List.mem_of_getElem? h2⟩
    obtain ⟨es, hsf⟩ := shapeBatchBroadcastL_ok (fun a ha => (hv' a ha).1) hs'
    have hal2 := aligned_of (fun b hb => (hv' b (hdmem b hb)).1) (fun b hb => hsf b (hdmem b hb)) hbs
    have hvm := mapM_ok hvs
    have hvs0 : vs ≠ [] := by rintro rfl; simp [nConcat] at hcat
    have hr0 : rows'.flatten ≠ [] := by
      obtain ⟨x, hx⟩ := List.exists_mem_of_ne_nil _ hvs0
      obtain ⟨b, hb, _⟩ := forall₂_mem hvm hx
      obtain ⟨c, hc, _⟩ := forall₂_mem hal2 hb
      exact List.ne_nil_of_mem (hdmem c hc)
    have esT : s = T := by
      rw [es]
      exact btAll_const (by simpa using hr0) fun t ht => by obtain ⟨a, ha, rfl⟩ := List.mem_map.1 ht; exact (hv' a ha).2.1
    subst esT
    clear es
    -- the kinds of the blocks
    have kinds : ∀ {p q : ℕ} {as : List (Mat K)} {a : Mat K}, rows[p]? = some as → as[q]? = some a → Fits s (den a).bt ∧
        if p = q then (isDiagM a || isZeroM a) = true ∧ (den a).rows = (den a).cols else isZeroM a = true := by
      intro p q as a hp hq
      obtain ⟨as', hp', hr⟩ := forall₂_getElem? hal hp
      obtain ⟨b, hq', hab⟩ := forall₂_getElem? hr hq
      have := cell hp' hq'
      simp only [blockCell, (hab.wf.valid).own.shapeMatrix, bind_ok_iff, Except.ok.injEq, exists_eq_left', pure_eq_ok] at this
      rw [hab.rows, hab.cols, hab.isDiagM, hab.isZeroM] at this
      refine ⟨hab.fits, ?_⟩
      split_ifs at this ⊢ with e
      · simpa using this
      · exact this
    have get : ∀ {p : ℕ} {as : List (Mat K)}, rows[p]? = some as → ∃ (a : Mat K) (v : Tensor K), as[p]? = some a ∧ vs[p]? = some v ∧ v.sh = v.cols :: s ∧ v.cols = (den a).cols ∧
        ∀ β i, InRange s β → i < (den a).cols → v.vat β i = (den a).at' β i i := by
      intro p as hp
      obtain ⟨as', hp', hr⟩ := forall₂_getElem? hal hp
      have hlt : p < as'.length := by
        rw [hsq as' (List.mem_of_getElem? hp')]; exact (List.getElem?_eq_some_iff.1 hp').1
      obtain ⟨b, hb⟩ : ∃ b, as'[p]? = some b := ⟨_, List.getElem?_eq_getElem hlt⟩
      obtain ⟨a, ha, hab⟩ := forall₂_getElem?' hr hb
      have hd : (diagBlocks 0 rows')[p]? = some b := by rw [hdg, hp']; exact hb
      obtain ⟨c, hc, hbc⟩ := forall₂_getElem? hal2 hd
      obtain ⟨x, hx, hcx⟩ := forall₂_getElem? hvm hc
      have hk := (kinds hp ha).2
      rw [if_pos rfl] at hk
      obtain ⟨e1, e2, e3⟩ := diag_aligned hB hbc (by rw [hab.isDiagM, hab.isZeroM]; exact hk.1) (by rw [hab.rows, hab.cols]; exact hk.2) hcx
      rw [hab.cols] at e2 e3
      refine ⟨a, x, ha, hx, e1, e2, fun β i hβ hi => ?_⟩
      rw [e3 β i hβ hi, hab.den, at_bbT hβ ⟨hab.rank, hab.fits⟩ (by rw [hk.2]; exact hi) hi]
    have getd : ∀ {p q : ℕ} {as : List (Mat K)} {a : Mat K}, rows[p]? = some as → as[q]? = some a → hs[p]? = some (den a).rows ∧ ws[q]? = some (den a).cols := by
      intro p q as a hp hq
      exact isGrid_get hg (row := as.map den) (by rw [List.getElem?_map, hp]; rfl) (by rw [List.getElem?_map, hq]; rfl)
    have none_of : ∀ {p : ℕ}, rows[p]? = none → hs[p]? = none ∧ ws[p]? = none ∧ vs[p]? = none := by
      intro p hp
      have h0 : rows'[p]? = none := forall₂_getElem?_none hal hp
      refine ⟨forall₂_getElem?_none (List.Forall₂.flip hg) (by rw [List.getElem?_map, hp]; rfl), ?_, ?_⟩
      · obtain ⟨b, hb⟩ := List.exists_mem_of_ne_nil _ hr0
        obtain ⟨row', hr, hb⟩ := List.mem_flatten.1 hb
        obtain ⟨P, hP⟩ := List.getElem?_of_mem hr
        obtain ⟨row, hP', hrr⟩ := forall₂_getElem?' hal hP
        obtain ⟨m, _, hgr⟩ := forall₂_getElem?' hg (b := row.map den) (by rw [List.getElem?_map, hP']; rfl)
        have l1 := hgr.length_eq
        have l2 := hrr.length_eq
        have l3 := hsq row' hr
        rw [List.length_map] at l1
        rw [List.getElem?_eq_none_iff] at h0 ⊢
        omega
      · refine forall₂_getElem?_none hvm (forall₂_getElem?_none hal2 ?_)
        rw [hdg, h0]; rfl
    have ec : vs.map Tensor.cols = ws := by
      apply List.ext_getElem?
      intro p
      rcases hp : rows[p]? with _ | as
      · obtain ⟨_, h1, h2⟩ := none_of hp
        rw [List.getElem?_map, h1, h2]; rfl
      · obtain ⟨a, x, ha, hx, _, e, _⟩ := get hp
        rw [List.getElem?_map, hx, (getd hp ha).2, Option.map_some, e]
    have er : hs = ws := by
      apply List.ext_getElem?
      intro p
      rcases hp : rows[p]? with _ | as
      · obtain ⟨h1, h2, _⟩ := none_of hp
        rw [h1, h2]
      · obtain ⟨a, x, ha, hx, _, e, _⟩ := get hp
        have hk := (kinds hp ha).2
        rw [if_pos rfl] at hk
        rw [(getd hp ha).1, (getd hp ha).2, hk.2]
    obtain ⟨w, hsh, hat⟩ := diag_concat (fun x hx => by
      obtain ⟨p, hp⟩ := List.getElem?_of_mem hx
      rcases hr : rows[p]? with _ | as
      · rw [(none_of hr).2.2] at hp; simp at hp
      · obtain ⟨a, x', _, hx', e, _⟩ := get hr
        rw [hp] at hx'; simp only [Option.some.injEq] at hx'; subst hx'; exact e) hcat
    refine ⟨⟨_, w⟩, by rw [hsh, ec, er], ?_, ?_⟩
    · intro row hr t ht
      obtain ⟨p, hp⟩ := List.getElem?_of_mem hr
      obtain ⟨q, hq⟩ := List.getElem?_of_mem ht
      obtain ⟨as, a, h1, h2, rfl⟩ := dens_get hp hq
      exact (kinds h1 h2).1
    · intro p q row t hp hq β i j hβ hi hj
      obtain ⟨as, a, h1, h2, rfl⟩ := dens_get hp hq
      obtain ⟨hf, hk⟩ := kinds h1 h2
      obtain ⟨g1, g2⟩ := getd h1 h2
      -- the row has a diagonal block of that height, the column one of that width
      obtain ⟨a1, x1, ha1, hx1, _, e1, hv1⟩ := get h1
      obtain ⟨as2, hq2⟩ : ∃ as2, rows[q]? = some as2 := by
        rcases h : rows[q]? with _ | as2
        · rw [(none_of h).2.1] at g2; simp at g2
        · exact ⟨as2, rfl⟩
      obtain ⟨a2, x2, ha2, hx2, _, e2, _⟩ := get hq2
      have c1 := (getd h1 ha1).2
      rw [← er, g1] at c1
      have c2 := (getd hq2 ha2).2
      rw [g2] at c2
      simp only [Option.some.injEq] at c1 c2
      have := hat p q x1 x2 hx1 hx2 β i j hβ (by rw [e1, ← c1]; exact hi) (by rw [e2, ← c2]; exact hj)
      rw [List.map_take, List.map_take, ec] at this
      rw [er, this]
      split_ifs at hk with e
      · subst e
        rw [h2] at ha1; simp only [Option.some.injEq] at ha1; subst ha1
        split_ifs with e'
        · rw [← e'.2, hv1 β i hβ (by rw [← hk.2]; exact hi)]
        · have hij : i ≠ j := fun h => e' ⟨rfl, h⟩
          rcases Bool.or_eq_true_iff.1 hk.1 with h | h
          · exact (isDiagM_at h hf hβ hi hj hij).symm
          · exact (isZeroM_at h hf hβ hi hj).symm
      · rw [if_neg fun h => e h.1, isZeroM_at hk hf hβ hi hj]

/-- The heights of the rows, as the code reads them off the first column. -/
theorem rowHeights_ok {rows : List (List (Mat K))} {hs ws hs' : List ℕ} (hw0 : ws ≠ []) (hv : ∀ row ∈ rows, ∀ a ∈ row, a.Valid) (hg : IsGrid hs ws (dens rows))
    (h : (rows.mapM fun row => match row with
      | [] => (.error .index : E ℕ)
      | a :: _ => do return (← shapeMatrix a).1) = .ok hs') : hs' = hs := by
  have hm := mapM_ok h
  clear h
  unfold IsGrid dens at hg
  rw [List.forall₂_map_right_iff] at hg
  induction hm generalizing hs with
  | nil => cases hg; rfl
  | @cons row n rows hs' hx _ ih =>
    cases hg with
    | cons hy hg =>
      congr 1
      · rw [List.forall₂_map_right_iff] at hy
        cases hy with
        | nil => exact absurd rfl hw0
        | @cons w b ws bs hy _ =>
          dsimp only at hx
          rw [(hv (b :: bs) (by simp) b (by simp)).own.shapeMatrix] at hx
          rw [← hy.1]
          exact (by simpa [pure_eq_ok] using hx : (den b).rows = n).symm
      · exact ih (fun row h => hv row (by simp [h])) hg

theorem dense_aligned {B : Ops K} (hB : B.Ok) {T : Shp} {as bs : List (Mat K)} {ds : List (Tensor K)} (ha : List.Forall₂ (Aligned T) as bs) (h : bs.mapM B.dense = .ok ds) :
    ds = (as.map den).map (bbT T) := by
  have hx := mapM_ok h
  clear h
  induction ha generalizing ds with
  | nil => cases hx; rfl
  | cons hab _ ih =>
    cases hx with
    | cons hy hx =>
      simp only [List.map_cons]
      rw [hB.dense hab.wf hy, hab.den]
      congr 1
      exact ih hx

theorem blockM_ok {B : Ops K} (hB : B.Ok) {rows : List (List (Mat K))} {hs ws : List ℕ} {r : Mat K} (hw0 : ws ≠ []) (hv : ∀ row ∈ rows, ∀ a ∈ row, a.Valid)
    (h2 : ∀ row ∈ rows, ∀ a ∈ row, 2 ≤ (den a).rank) (hg : IsGrid hs ws (dens rows)) (h : blockM B rows = .ok r) :
    r.Valid ∧ IsBlock (btAll (rows.flatten.map den)) hs ws (dens rows) (den r) := by
  have hv' : ∀ a ∈ rows.flatten, a.Valid := by
    intro a ha
    obtain ⟨row, hr, ha⟩ := List.mem_flatten.1 ha
    exact hv row hr a ha
  unfold blockM at h
  split at h
  · simp at h
  · simp only [Except.ok.injEq] at h
    subst h
    rename_i a
    refine ⟨hv [a] (by simp) a (by simp), ?_⟩
    have hr := h2 [a] (by simp) a (by simp)
    cases hg with
    | cons hx hg =>
      cases hg
      cases hx with
      | cons hx hg =>
        cases hg
        obtain ⟨rfl, rfl⟩ := hx
        refine ⟨?_, ?_, ?_⟩
        · rw [Tensor.sh_eq hr]; simp [btAll]
        · intro row hrow t ht
          simp at hrow; subst hrow; simp at ht; subst ht; simp [btAll, Fits.refl]
        · intro p q row t hp hq β i j hβ hi hj
          cases p with
          | zero =>
            simp at hp; subst hp
            cases q with
            | zero => simp at hq; subst hq; simp
            | succ q => simp at hq
          | succ p => simp at hp
  · split_ifs at h with hz
    · simp only [blockZero, bind_ok_iff] at h
      obtain ⟨bt, hbt, hs', hhs, ws', hws, h⟩ := h
      obtain ⟨rfl, hf⟩ := shapeBatchBroadcastL_ok hv' hbt
      have hz' : ∀ row ∈ rows, ∀ a ∈ row, isZeroM a = true := by simpa using hz
      have e1 : hs' = hs := rowHeights_ok hw0 hv hg hhs
      have e2 : ws' = ws := by
        cases hg' : rows with
        | nil => simp_all
        | cons row rows' =>
          subst hg'
          cases hg with
          | cons hx _ =>
            rw [List.headD_cons, mapM_eq_map (g := fun a => (den a).cols) fun a ha => by rw [(hv row (by simp) a ha).own.shapeMatrix]; rfl] at hws
            simp only [Except.ok.injEq] at hws
            rw [← hws]
            rw [List.forall₂_map_right_iff] at hx
            have := forall₂_map_eq hx (f := id) (g := fun a => (den a).cols) fun w a h => h.2.symm
            rw [← this, List.map_id]
      simp only [mkZero, Except.ok.injEq] at h
      subst e1 e2 h
      refine ⟨⟨_, Fits.refl _⟩, rfl, ?_, ?_⟩
      · intro row hr t ht
        obtain ⟨as, has, rfl⟩ := List.mem_map.1 hr
        obtain ⟨a, ha, rfl⟩ := List.mem_map.1 ht
        exact hf a (List.mem_flatten.2 ⟨as, has, ha⟩)
      · intro p q row t hp hq β i j hβ hi hj
        obtain ⟨g1, g2⟩ := isGrid_get hg hp hq
        obtain ⟨as, a, h1, h2, rfl⟩ := dens_get hp hq
        have b1 := sum_take_le_sum g1
        have b2 := sum_take_le_sum g2
        have m1 := List.mem_of_getElem? h1
        have m2 := List.mem_of_getElem? h2
        rw [isZeroM_at (hz' as m1 a m2) (hf a (List.mem_flatten.2 ⟨as, m1, m2⟩)) hβ hi hj]
        show (fillT _ (0 : K)).at' _ _ _ = 0
        exact at_fillT_zero hβ (Fits.refl _) (by omega) (by omega)
    · simp only [bind_ok_iff] at h
      obtain ⟨rows', hal, o, ho, h⟩ := h
      have hal' := alignBatchRows_ok hv hal
      cases o with
      | some x =>
        simp only [pure_eq_ok] at h
        subst h
        exact blockDiagonal_ok hB hg hal' ho
      | none =>
        simp only [bind_ok_iff, hal, Except.ok.injEq, exists_eq_left', pure_eq_ok] at h
        obtain ⟨ds, hds, t, ht, rfl⟩ := h
        generalize hT : btAll (rows.flatten.map den) = T at *
        have e : ds = (dens rows).map fun row => row.map (bbT T) := by
          have hm := mapM_ok hds
          rename_i n1 n2
          clear hds ht hg hv hv' hz h2 ho hal hT n1 n2
          induction hal' generalizing ds with
          | nil => cases hm; rfl
          | cons ha _ ih =>
            cases hm with
            | cons hx hm =>
              simp only [dens, List.map_cons]
              congr 1
              · exact dense_aligned hB ha hx
              · exact ih _ hm
        subst e
        have hf : ∀ row ∈ dens rows, ∀ t ∈ row, 2 ≤ t.rank ∧ Fits T t.bt := by
          intro row hr t ht
          obtain ⟨p, hp⟩ := List.getElem?_of_mem hr
          obtain ⟨q, hq⟩ := List.getElem?_of_mem ht
          obtain ⟨as, a, h1, h2, rfl⟩ := dens_get hp hq
          obtain ⟨as', _, hr'⟩ := forall₂_getElem? hal' h1
          obtain ⟨b, _, hab⟩ := forall₂_getElem? hr' h2
          exact ⟨hab.rank, hab.fits⟩
        have hg' : IsGrid hs ws ((dens rows).map fun row => row.map (bbT T)) := by
          unfold IsGrid at hg ⊢
          rw [List.forall₂_map_right_iff]
          refine hg.imp fun m row h => ?_
          rw [List.forall₂_map_right_iff]
          exact h
        have hb := concat2d_ok (bt := T) hg' (fun row hr t ht => by
          obtain ⟨row, _, rfl⟩ := List.mem_map.1 hr
          obtain ⟨t, _, rfl⟩ := List.mem_map.1 ht
          rfl) ht
        obtain ⟨w, e⟩ := mkDense_wf (S := t.bt) (t := t) ⟨by rw [Tensor.rank, hb.shape]; simp, Fits.refl _⟩
        rw [e]
        exact ⟨⟨_, w⟩, hb.of_bb hf⟩

/-! ### Calls -/

theorem Calls.blockDiagonal (rows : List (List (Mat K))) : Calls fun B : Ops K => blockDiagonal B rows := by
  intro bad B C h
  show Below bad (Verif.blockDiagonal B rows) (Verif.blockDiagonal C rows)
  unfold Verif.blockDiagonal
  split
  · exact .refl _
  · refine (Below.refl _).bind fun ok => ?_
    split
    · exact .refl _
    · exact (Below.refl _).bind fun s => (Below.refl _).bind fun bs => (Below.mapM bs fun a => h.diag a).bind fun _ => .refl _

theorem Calls.block (rows : List (List (Mat K))) : Calls fun B : Ops K => blockM B rows := by
  intro bad B C h
  show Below bad (blockM B rows) (blockM C rows)
  unfold blockM
  split
  · exact .refl _
  · exact .refl _
  · split
    · exact .refl _
    · refine (Below.refl _).bind fun rs => (Calls.blockDiagonal rs bad B C h).bind fun o => ?_
      cases o with
      | some r => exact .refl _
      | none => exact (Below.refl _).bind fun rs => (Below.mapM rs fun row => Below.mapM row fun a => h.dense a).bind fun _ => .refl _

theorem Calls.blockDiagList (as : List (Mat K)) : Calls fun B : Ops K => blockDiagList B as := by
  intro bad B C h
  show Below bad (Verif.blockDiagList B as) (Verif.blockDiagList C as)
  unfold Verif.blockDiagList
  split
  · exact .refl _
  · split
    · exact .refl _
    · unfold blockDiagAM
      split
      · exact .refl _
      · split
        · exact .refl _
        · split
          · exact (Below.refl _).bind fun bs => (Below.mapM bs fun a => h.diag a).bind fun _ => .refl _
          · exact (Below.mapM as fun a => h.dense a).bind fun _ => .refl _

theorem Calls.blockDiag (env : Env K) (as : List (Mat K)) : Calls fun B : Ops K => blockDiagM env B as := by
  intro bad B C h
  show Below bad (blockDiagM env B as) (blockDiagM env C as)
  unfold blockDiagM
  split
  · exact (Below.refl _).bind fun ks => Calls.blockDiagList _ bad B C h
  · exact Calls.blockDiagList _ bad B C h

/-! ### C15 -/

/-- C15.  `B.block(*rows)` of matrices which form a grid (the blocks of row `p` have height `hs[p]`, those of column `q` width `ws[q]`) is the block matrix,
whether or not its structure is recognised. -/
theorem C15_block (c : Cfg K) {rows : List (List (Mat K))} {hs ws : List ℕ} {r : Mat K} (hw0 : ws ≠ []) (hv : ∀ row ∈ rows, ∀ a ∈ row, a.Valid)
    (h2 : ∀ row ∈ rows, ∀ a ∈ row, 2 ≤ (den a).rank) (hg : IsGrid hs ws (rows.map fun row => row.map den))
    (hr : Returns c (fun B => blockM B rows) r) (hx : Exact c fun B => blockM B rows) :
    r.Valid ∧ IsBlock (btAll (rows.flatten.map den)) hs ws (rows.map fun row => row.map den) (den r) := by
  obtain ⟨n, h⟩ := hr.strict hx
  exact blockM_ok (c.ok n) hw0 hv h2 hg h

/-- C15.  If all blocks are Zero, then so is the result. -/
theorem C15_block_zero (c : Cfg K) {rows : List (List (Mat K))} {r : Mat K} (hz : ∀ row ∈ rows, ∀ a ∈ row, a.kind = some .zero)
    (hr : Returns c (fun B => blockM B rows) r) : r.kind = some .zero := by
  obtain ⟨n, h⟩ := hr
  have hz' : (rows.all fun row => row.all isZeroM) = true := by
    simp only [List.all_eq_true]
    intro row hrow a ha
    have := hz row hrow a ha
    cases a <;> simp [Mat.kind] at this; rfl
  dsimp only at h
  unfold blockM at h
  split at h
  · simp at h
  · simp only [Except.ok.injEq] at h
    subst h
    exact hz _ (List.mem_singleton.2 rfl) _ (List.mem_singleton.2 rfl)
  · rw [if_pos hz'] at h
    simp only [blockZero, bind_ok_iff, mkZero, Except.ok.injEq] at h
    obtain ⟨_, _, _, _, _, _, h⟩ := h
    rw [← h]; rfl

theorem allE_of {l : List (E Bool)} (h : ∀ x ∈ l, x = .ok true) : allE l = .ok true := by
  induction l with
  | nil => rfl
  | cons a l ih =>
    rw [allE, h a (by simp)]
    exact ih fun x hx => h x (by simp [hx])

/-- C15.  A square grid with square Diagonal or Zero blocks on the diagonal and Zero blocks elsewhere gives a Diagonal matrix (or Zero, if all blocks are). -/
theorem C15_block_diagonal (c : Cfg K) {rows : List (List (Mat K))} {r : Mat K} (hv : ∀ row ∈ rows, ∀ a ∈ row, a.Valid)
    (hn : ∀ row ∈ rows, row.length = rows.length)
    (hd : ∀ (p : ℕ) row a, rows[p]? = some row → row[p]? = some a → (a.kind = some .diag ∨ a.kind = some .zero) ∧ (den a).rows = (den a).cols)
    (hz : ∀ (p q : ℕ) row a, p ≠ q → rows[p]? = some row → row[q]? = some a → a.kind = some .zero)
    (hr : Returns c (fun B => blockM B rows) r) : r.kind = some .diag ∨ r.kind = some .zero := by
  obtain ⟨n, h⟩ := hr
  dsimp only at h
  unfold blockM at h
  split at h
  · simp at h
  · simp only [Except.ok.injEq] at h
    subst h
    exact (hd 0 _ _ rfl rfl).1
  · split_ifs at h
    · simp only [blockZero, bind_ok_iff, mkZero, Except.ok.injEq] at h
      obtain ⟨_, _, _, _, _, _, h⟩ := h
      rw [← h]; exact .inr rfl
    · simp only [bind_ok_iff] at h
      obtain ⟨rows', hal, o, ho, h⟩ := h
      have hal' := alignBatchRows_ok hv hal
      generalize btAll (rows.flatten.map den) = T at hal'
      unfold blockDiagonal at ho
      have hsq : (!rows'.all fun row => decide (row.length = rows'.length)) = false := by
        simp only [Bool.not_eq_false', List.all_eq_true, decide_eq_true_eq]
        intro row' hr
        obtain ⟨row, hrow, hf⟩ := forall₂_mem hal' hr
        rw [← hf.length_eq, hn row hrow, hal'.length_eq]
      have hall : allE (rows'.zipIdx.flatMap fun p => p.1.zipIdx.map fun q => blockCell p.2 q.2 q.1) = .ok true := by
        refine allE_of fun x hx => ?_
        obtain ⟨⟨row', p⟩, hp, hx⟩ := List.mem_flatMap.1 hx
        obtain ⟨⟨b, q⟩, hq, rfl⟩ := List.mem_map.1 hx
        obtain ⟨row, hp', hrow⟩ := forall₂_getElem?' hal' (List.mk_mem_zipIdx_iff_getElem?.1 hp)
        obtain ⟨a, hq', hab⟩ := forall₂_getElem?' hrow (List.mk_mem_zipIdx_iff_getElem?.1 hq)
        show blockCell p q b = _
        rw [blockCell, (hab.wf.valid).own.shapeMatrix, hab.isDiagM, hab.isZeroM, hab.rows, hab.cols]
        have kz : ∀ {a : Mat K}, a.kind = some .zero → isZeroM a = true := by
          intro a h; cases a <;> simp [Mat.kind] at h; rfl
        have kd : ∀ {a : Mat K}, a.kind = some .diag → isDiagM a = true := by
          intro a h; cases a <;> simp [Mat.kind] at h; rfl
        by_cases e : p = q
        · subst e
          obtain ⟨hk, hs⟩ := hd p row a hp' hq'
          rcases hk with hk | hk
          · simp [kd hk, hs]
          · simp [kz hk, hs]
        · simp [e, kz (hz p q row a e hp' hq')]
      rw [hsq] at ho
      simp only [Bool.false_eq_true, ↓reduceIte, hall, bind_ok_iff, Except.ok.injEq, exists_eq_left', Bool.not_true, mkDiag_ok, pure_eq_ok] at ho
      obtain ⟨_, _, _, _, _, _, _, _, _, ⟨_, rfl⟩, rfl⟩ := ho
      simp only [pure_eq_ok] at h
      subst h
      exact .inl rfl

/-! ### C16 -/

/-- C16.  `B.block_diag(*as)` is the block-diagonal matrix.  (A single numeric operand and a single TiledBlocks are treated below.) -/
theorem C16_block_diag (c : Cfg K) {as : List (Mat K)} {r : Mat K} (hv : ∀ a ∈ as, a.Valid) (h2 : ∀ a ∈ as, 2 ≤ (den a).rank)
    (h1 : ∀ a, as = [a] → a.isAM = true ∧ a.kind ≠ some .tiled) (hr : Returns c (fun B => blockDiagM c.code B as) r) (hx : Exact c fun B => blockDiagM c.code B as) :
    r.Valid ∧ IsBlockDiag (btAll (as.map den)) (as.map den) (den r) := by
  obtain ⟨n, h⟩ := hr.strict hx
  have e : blockDiagM c.code (ops c.strict n) as = blockDiagList (ops c.strict n) as := by
    unfold blockDiagM
    split
    · exact absurd rfl (h1 _ rfl).2
    · rfl
  rw [e] at h
  exact blockDiagList_ok (c.ok n) hv h2 (fun t e => by have := (h1 _ e).1; simp [Mat.isAM] at this) h

/-- C16.  `B.block_diag(a)` of a TiledBlocks is the block-diagonal matrix of every block repeated its number of times.
(Except if it has one block only, and that one is numeric.) -/
theorem C16_block_diag_tiled (c : Cfg K) {n : ℕ} {blk : Fin n → Mat K} {reps : Fin n → ℕ} {axis : Int} {r : Mat K} (hv : (Mat.tiled n blk reps axis).Valid)
    (h1 : n = 1 → ∀ i, (blk i).isAM = true) (hr : Returns c (fun B => blockDiagM c.code B [.tiled n blk reps axis]) r)
    (hx : Exact c fun B => blockDiagM c.code B [.tiled n blk reps axis]) :
    r.Valid ∧ IsBlockDiag (btAll (List.ofFn fun i => den (blk i))) (List.ofFn fun i => List.replicate (reps i) (den (blk i))).flatten (den r) := by
  obtain ⟨k, h⟩ := hr.strict hx
  exact blockDiagTiled_ok (c.ok k) hv h1 h

/-- C16.  If all operands are Zero, then so is the result. -/
theorem C16_block_diag_zero (c : Cfg K) {as : List (Mat K)} {r : Mat K} (hz : ∀ a ∈ as, a.kind = some .zero) (hr : Returns c (fun B => blockDiagM c.code B as) r) :
    r.kind = some .zero := by
  obtain ⟨n, h⟩ := hr
  have hz' : as.all isZeroM = true := by
    simp only [List.all_eq_true]
    intro a ha
    have := hz a ha
    cases a <;> simp [Mat.kind] at this; rfl
  dsimp only at h
  unfold blockDiagM at h
  split at h
  · have := hz _ (List.mem_singleton.2 rfl); simp [Mat.kind] at this
  · unfold blockDiagList at h
    split at h
    · simp at h
    · rename_i hne
      split_ifs at h with hn
      · cases as with
        | nil => exact absurd rfl hne
        | cons a as =>
          have h1 := hz a (by simp)
          cases a <;> simp [Mat.kind] at h1
          simp [Mat.isAM] at hn
      · unfold blockDiagAM at h
        split at h
        · simp only [Except.ok.injEq] at h
          subst h
          exact hz _ (List.mem_singleton.2 rfl)
        · rw [if_pos hz'] at h
          simp only [bind_ok_iff, mkZero, Except.ok.injEq] at h
          obtain ⟨_, _, _, _, _, _, h⟩ := h
          rw [← h]; rfl

/-- C16.  If all operands are Diagonal, then so is the result. -/
theorem C16_block_diag_diagonal (c : Cfg K) {as : List (Mat K)} {r : Mat K} (hz : ∀ a ∈ as, a.kind = some .diag) (hr : Returns c (fun B => blockDiagM c.code B as) r) :
    r.kind = some .diag := by
  obtain ⟨n, h⟩ := hr
  have hz' : as.all isDiagM = true := by
    simp only [List.all_eq_true]
    intro a ha
    have := hz a ha
    cases a <;> simp [Mat.kind] at this; rfl
  dsimp only at h
  unfold blockDiagM at h
  split at h
  · have := hz _ (List.mem_singleton.2 rfl); simp [Mat.kind] at this
  · unfold blockDiagList at h
    split at h
    · simp at h
    · rename_i hne
      cases as with
      | nil => exact absurd rfl hne
      | cons a as =>
        have h1 := hz a (by simp)
        cases a <;> simp [Mat.kind] at h1
        split_ifs at h with hn
        · simp [Mat.isAM] at hn
        · unfold blockDiagAM at h
          split at h
          · simp only [Except.ok.injEq] at h
            subst h
            rename_i he; rw [he] at hz; exact hz _ (by simp)
          · rw [if_neg (by simp [isZeroM]), if_pos hz'] at h
            simp only [bind_ok_iff, mkDiag_ok] at h
            obtain ⟨_, _, _, _, _, _, _, rfl⟩ := h
            rfl

theorem bind_ok' {α β : Type} (x : α) (f : α → E β) : (Except.ok x >>= f) = f x := rfl

/-- C16 does not hold for one numeric operand: `B.block_diag(x)` does not return `x` for a matrix `x` with a row, it raises an exception. -/
theorem C16_single_numeric_rejected (c : Cfg K) {t : Tensor K} {m n : ℕ} (hs : t.sh = [n, m+1]) : ∃ e, Raises c (fun B => blockDiagM c.code B [.num t]) e := by
  have hrk : t.rank = 2 := by rw [Tensor.rank, hs]; rfl
  have hbt : t.bt = [] := by show List.drop 2 _ = _; rw [hs]; rfl
  have hc : t.cols = n := by rw [Tensor.cols, hs]; rfl
  have hr : t.rows = m + 1 := by rw [Tensor.rows, hs]; rfl
  have hal : alignBatchL [(.num t : Mat K)] = .ok [.num (bcast [n, m+1] t)] := by
    have h1 : shapeBatchBroadcastL [(.num t : Mat K)] = .ok [] := by
      show (do let s ← (Except.ok t.bt : E Shp); let s' ← bsE [] s; pure s') = _
      rw [hbt]
      have : bsE [] [] = .ok (bsh [] []) := bsE_ok.2 ⟨Compat.refl _, rfl⟩
      rw [bind_ok', this]; simp
    have h2 : broadcastBatchTo [] (.num t : Mat K) = .ok (.num (bcast [n, m+1] t)) := by
      simp only [broadcastBatchTo, nBroadcastBatchTo, nBroadcastTo, hrk, hc, hr, hs]
      rw [if_pos (le_refl 2), if_pos ⟨Fits.refl _, by simp⟩]; rfl
    rw [alignBatchL, h1]
    show [(.num t : Mat K)].mapM (broadcastBatchTo []) = _
    rw [List.mapM_cons, h2]; rfl
  refine ⟨.value, by decide, 0, ?_⟩
  show (do return .num (← blockDiagNum [t]) : E (Mat K)) = _
  have : blockDiagNum [t] = .error .value := by
    rw [blockDiagNum, show [t].map Mat.num = [(.num t : Mat K)] from rfl, hal]
    obtain ⟨e, l, he, hl⟩ : ∃ e l, slices (bcast [n, m+1] t) = e :: l ∧ ∀ x ∈ e :: l, x.sh = [n] := by
      have hall : ∀ x ∈ slices (bcast [n, m+1] t), x.sh = [n] := by
        intro x hx
        obtain ⟨_, _, rfl⟩ := List.mem_map.1 hx
        rfl
      have hlen : (slices (bcast [n, m+1] t)).length = m + 1 := by
        rw [slices, List.length_map, List.length_range]; rfl
      cases hsl : slices (bcast [n, m+1] t) with
      | nil => rw [hsl] at hlen; simp at hlen
      | cons e l => rw [hsl] at hall; exact ⟨e, l, rfl, hall⟩
    have hm : (e :: l).mapM (fun e => shapeMatrix (.num e : Mat K)) = .ok ((e :: l).map fun _ => (n, 1)) := by
      refine mapM_eq_map fun x hx => ?_
      have : x.rank = 1 := by rw [Tensor.rank, hl x hx]; rfl
      show (.ok (if x.rank = 1 then _ else _) : E (ℕ × ℕ)) = _
      rw [if_pos this, Tensor.cols, hl x hx]; rfl
    have hb : headBatch (e :: l) = .ok [] := by
      show (.ok e.bt : E Shp) = _
      rw [Tensor.bt, hl e (by simp)]; rfl
    have hrow : ∀ tot l', bdRows [] tot 0 ((e, (n, 1)) :: l') = .error .value := by
      intro tot l'
      have hax : axPos (fillT [0, n] (0 : K)).rank (-1) = .ok 0 := axPos_neg (R := 2) (k := 0) (by omega)
      have hg : ¬ ∀ u ∈ [fillT [0, n] (0 : K), e, fillT [tot - 0 - 1, n] 0], u.sh.set 0 0 = (fillT [0, n] (0 : K)).sh.set 0 0 := by
        intro h
        have := h e (by simp)
        rw [hl e (by simp)] at this
        simp [fillT] at this
      rw [bdRows, nConcat, hax]
      simp only [bind_ok', guardE, if_neg hg]
      rfl
    simp only [bind_ok']
    rw [show bdElements (List.map den [(.num (bcast [n, m+1] t) : Mat K)]) = slices (bcast [n, m+1] t) from rfl, he, hm]
    simp only [bind_ok', hb, List.map_cons, List.zip_cons_cons, hrow]
    rfl
  rw [this]; rfl

/-- C16 does not hold for a batch of numeric matrices either: `B.block_diag(x)` puts the matrices of the batch on one diagonal. -/
theorem C16_single_numeric_refuted : ∃ (t : Tensor ℚ) (r : Mat ℚ), 2 ≤ t.rank ∧ Returns Ex.cfg (fun B => blockDiagM Ex.cfg.code B [.num t]) r ∧
    Exact Ex.cfg (fun B => blockDiagM Ex.cfg.code B [.num t]) ∧ ¬ IsBlockDiag (btAll [t]) [t] (den r) := by
  let t : Tensor ℚ := Ex.bm 2 2 1 [1, 2, 3, 4]
  obtain ⟨r, hr, hP⟩ := Ex.of_holds (P := fun r : Mat ℚ => decide ((den r).sh ≠ [1, 2, 2])) (f := fun B => blockDiagM Ex.cfg.code B [.num t]) (n := 6) (by decide +kernel)
  obtain ⟨_, _, hx⟩ := Ex.meets (Calls.blockDiag Ex.cfg.code [.num t]) (n := 6) (by decide +kernel)
  refine ⟨t, r, by decide, hr, hx, fun h => ?_⟩
  simp only [decide_eq_true_eq] at hP
  exact hP h.shape

/-! The hypotheses are met. -/

/-- A 2 × 2 grid with a Diagonal, a batch of LowerTriangular and Woodbury blocks. -/
example : IsGrid [2, 2] [2, 2] ([[Ex.Db, Ex.L], [Ex.W, Ex.Z]].map fun row => row.map den) ∧
    ∃ r, Returns Ex.cfg (fun B => blockM B [[Ex.Db, Ex.L], [Ex.W, Ex.Z]]) r ∧ Exact Ex.cfg fun B => blockM B [[Ex.Db, Ex.L], [Ex.W, Ex.Z]] := by
  refine ⟨?_, Ex.meets (Calls.block _) (n := 8) (by decide +kernel)⟩
  exact .cons (.cons ⟨rfl, rfl⟩ (.cons ⟨rfl, rfl⟩ .nil)) (.cons (.cons ⟨rfl, rfl⟩ (.cons ⟨rfl, rfl⟩ .nil)) .nil)
/-- A grid recognised as Diagonal. -/
example : IsGrid [2, 2] [2, 2] ([[Ex.Db, Ex.Z], [Ex.Z, Ex.D]].map fun row => row.map den) ∧
    ∃ r, Returns Ex.cfg (fun B => blockM B [[Ex.Db, Ex.Z], [Ex.Z, Ex.D]]) r ∧ Exact Ex.cfg fun B => blockM B [[Ex.Db, Ex.Z], [Ex.Z, Ex.D]] := by
  refine ⟨?_, Ex.meets (Calls.block _) (n := 8) (by decide +kernel)⟩
  exact .cons (.cons ⟨rfl, rfl⟩ (.cons ⟨rfl, rfl⟩ .nil)) (.cons (.cons ⟨rfl, rfl⟩ (.cons ⟨rfl, rfl⟩ .nil)) .nil)
example : ∃ r, Returns Ex.cfg (fun B => blockM B [[Ex.Z, Ex.Z]]) r := ⟨_, 0, rfl⟩
example : (∀ a ∈ [Ex.W, Ex.C, Mat.num (Ex.m 1 3 [1, 2, 3])], a.Valid) ∧ ∃ r, Returns Ex.cfg (fun B => blockDiagM Ex.cfg.code B [Ex.W, Ex.C, .num (Ex.m 1 3 [1, 2, 3])]) r ∧
    Exact Ex.cfg fun B => blockDiagM Ex.cfg.code B [Ex.W, Ex.C, .num (Ex.m 1 3 [1, 2, 3])] := by
  refine ⟨?_, Ex.meets (Calls.blockDiag _ _) (n := 8) (by decide +kernel)⟩
  simp only [List.mem_cons, List.not_mem_nil, or_false, forall_eq_or_imp, forall_eq]
  exact ⟨⟨[], Ex.W_wf _⟩, ⟨[], Ex.C_wf _⟩, ⟨[], Ex.num_wf _ _ _ _⟩⟩
example : ∃ r, Returns Ex.cfg (fun B => blockDiagM Ex.cfg.code B [Ex.D, Ex.Db]) r ∧ Exact Ex.cfg fun B => blockDiagM Ex.cfg.code B [Ex.D, Ex.Db] :=
  Ex.meets (Calls.blockDiag _ _) (n := 8) (by decide +kernel)
example : Ex.T.Valid ∧ ∃ r, Returns Ex.cfg (fun B => blockDiagM Ex.cfg.code B [Ex.T]) r ∧ Exact Ex.cfg fun B => blockDiagM Ex.cfg.code B [Ex.T] :=
  ⟨⟨[], Ex.T_wf _⟩, Ex.meets (Calls.blockDiag _ _) (n := 8) (by decide +kernel)⟩

end Verif
