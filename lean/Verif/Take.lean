/-
C13.  `B.take`.
-/
import Verif.Sum
import Verif.Findings
import Mathlib.Data.List.Sort

set_option linter.unusedSectionVars false

namespace Verif

variable {K : Type} [Field K] [LinearOrder K]

/-! ### The model -/

/-- The argument `indices_or_mask` (of rank 1). -/
inductive Sel where
  | idx (l : List Int)
  | mask (l : List Bool)

/-- `_count_indices_or_mask`, `ops/take.py` 38-46. -/
def Sel.count : Sel → ℕ
  | .idx l => l.length
  | .mask l => l.count true

/-- The positions along an axis of size `n` a numeric `B.take` selects; a mask must have the size of the axis. -/
def Sel.resolve (n : ℕ) : Sel → E (List ℕ)
  | .idx l => normIdxs n l
  | .mask l => if l.length = n then .ok ((List.range n).filter fun p => l.getD p false) else .error .index

/-- `B.take` on numeric tensors. -/
def nTakeSel (t : Tensor K) (sel : Sel) (axis : Int) : E (Tensor K) := do
  let k ← axPos t.rank axis
  let js ← sel.resolve (dim t.sh k)
  return takeAx k js t

/-- `B.take(a, sel, axis)` of a general matrix, `ops/take.py` 23-27: of the dense matrix. -/
def takeDense (B : Ops K) (a : Mat K) (sel : Sel) (axis : Int) : E (Mat K) := do
  return mkDense (← nTakeSel (← B.dense a) sel axis)

/-- `align_batch(a, b, c)`, `ops/util.py` 13-24. -/
def alignBatch3 (a b c : Mat K) : E (Mat K × Mat K × Mat K) := do
  let s ← bsE (← shapeBatchBroadcast a b) (← shapeBatch c)
  let a' ← broadcastBatchTo s a
  let b' ← broadcastBatchTo s b
  let c' ← broadcastBatchTo s c
  return (a', b', c')

/-- `B.take(x, sel)` of a factor of a LowRank matrix, without an axis: the default is 0 for a numeric factor and -2 for a matrix. -/
def takeFactor (T : Mat K → Sel → Int → E (Mat K)) (x : Mat K) (sel : Sel) : E (Mat K) :=
  match x with
  | .num t => do return .num (← nTakeSel t sel 0)
  | x => T x sel (-2)

/-- `take(a: LowRank, sel, axis)`, `ops/take.py` 103-117.  `k` is the position of the axis from the end in a matrix of rank `n`. -/
def takeLR (T : Mat K → Sel → Int → E (Mat K)) (l r m : Mat K) (sel : Sel) (n k : ℕ) : E (Mat K) :=
  if k = 1 then do mkLR (← takeFactor T l sel) r m
  else if k = 0 then do mkLR l (← takeFactor T r sel) m
  else do
    let p ← alignBatch3 l m r
    let l' ← T p.1 sel (posAxis n k)
    let r' ← T p.2.2 sel (posAxis n k)
    let m' ← T p.2.1 sel (posAxis n k)
    mkLR l' r' m'

/-- The axis at position `k` from the end, numbered from the end: `resolve_axis(a, axis, negative=True)`. -/
def negAxis (k : ℕ) : Int := -1 - (k : Int)

/-- `B.take(a, sel, axis)`, `ops/take.py`; `T` is the recursive call. -/
def takeStep (T : Mat K → Sel → Int → E (Mat K)) (B : Ops K) (a : Mat K) (sel : Sel) (axis : Int) : E (Mat K) := do
  let n ← rankM a
  let k ← axPos n axis
  match a with
  | .num t => return .num (← nTakeSel t sel axis)
  | .zero bt r c => mkZero ((c :: r :: bt).set k sel.count)  -- 49-55
  | .diag d => if k < 2 then takeDense B (.diag d) sel (negAxis k) else do mkDiag (← nTakeSel d sel (posAxis n k))  -- 58-64
  | .const t r c =>  -- 67-80
    if k = 1 then mkConst t [c, sel.count]
    else if k = 0 then mkConst t [sel.count, r]
    else do mkConst (← nTakeSel t sel (posAxis n k)) [c, r]
  | .lt t => do  -- 83-90
    let u ← nTakeSel t sel (negAxis k)
    if k < 2 then return mkDense u else mkLT u
  | .ut t => do  -- 93-100
    let u ← nTakeSel t sel (negAxis k)
    if k < 2 then return mkDense u else mkUT u
  | .lr l r m => takeLR T l r m sel n k
  | .wb d l r m =>  -- 120-132
    if k < 2 then do
      let x ← T (.diag d) sel (negAxis k)
      let y ← T (.lr l r m) sel (negAxis k)
      B.add x y
    else do
      let p ← alignBatch2 (.diag d) (.lr l r m)
      let x ← T p.1 sel (posAxis n k)
      let y ← T p.2 sel (posAxis n k)
      B.add x y
  | .kron l r =>  -- 135-146
    if k < 2 then takeDense B (.kron l r) sel (negAxis k)
    else do
      let p ← alignBatch2 l r
      let l' ← T p.1 sel (posAxis n k)
      let r' ← T p.2 sel (posAxis n k)
      return .kron l' r'
  | a => takeDense B a sel axis  -- 23-27

/-- `B.take(a, sel, axis)` with at most `n` nested calls. -/
def takeM (B : Ops K) : ℕ → Mat K → Sel → Int → E (Mat K)
  | 0 => fun _ _ _ => .error .fuel
  | n+1 => takeStep (takeM B n) B

/-! ### Specification -/

/-- `js` are the positions, counted from the front along an axis of size `n`, that `sel` selects: an index selects that position, counted from the end if it is
negative; a mask has size `n` and selects the positions where it is true, in order. -/
def Sel.Picks (n : ℕ) (js : List ℕ) : Sel → Prop
  | .idx l => List.Forall₂ (fun (i : Int) (j : ℕ) => (i = (j : Int) ∨ i = (j : Int) - n) ∧ j < n) l js
  | .mask l => l.length = n ∧ js.Pairwise (· < ·) ∧ ∀ p, p ∈ js ↔ l[p]? = some true

/-- `r` is `a` with the positions `js` selected along the axis at position `k` from the end. -/
structure IsTake (k : ℕ) (js : List ℕ) (a r : Tensor K) : Prop where
  axis : k < a.rank
  shape : r.sh = a.sh.set k js.length
  entries : ∀ i, InRange r.sh i → r.get i = a.get (Function.update i k (js.getD (i k) 0))

/-- Numeric matrices among the left factors are plain matrices, not batches. -/
def Mat.rowsOk : Mat K → Prop
  | .num t => t.rank = 2
  | .lr l _ _ => l.rowsOk
  | .wb _ l _ _ => l.rowsOk
  | _ => True

/-- Taking rows (`k = 1`) or columns (`k = 0`) of a LowRank matrix selects along the first axis of a numeric factor: it must be a plain matrix. -/
def Mat.takeOk : Mat K → ℕ → Prop
  | .lr l _ _, 1 => l.rowsOk
  | .lr _ r _, 0 => r.rowsOk
  | .wb _ l _ _, 1 => l.rowsOk
  | .wb _ _ r _, 0 => r.rowsOk
  | _, _ => True

theorem Mat.rowsOk.takeOk {a : Mat K} (h : a.rowsOk) : a.takeOk 1 := by
  cases a <;> first | exact h | trivial

theorem Sel.picks_lt {n : ℕ} {js : List ℕ} {sel : Sel} (h : sel.Picks n js) : ∀ j ∈ js, j < n := by
  cases sel with
  | idx l =>
    simp only [Sel.Picks] at h
    induction h with
    | nil => simp
    | cons h _ ih => intro j hj; rcases List.mem_cons.1 hj with rfl | hj; exacts [h.2, ih j hj]
  | mask l =>
    intro j hj
    have := (h.2.2 j).1 hj
    rw [← h.1]
    exact (List.getElem?_eq_some_iff.1 this).1

/-- The positions a mask selects. -/
theorem Sel.picks_mask {n : ℕ} {js : List ℕ} {l : List Bool} (h : (Sel.mask l).Picks n js) : js = (List.range n).filter fun p => l.getD p false := by
  obtain ⟨h1, h2, h3⟩ := h
  refine List.SortedLT.eq_of_mem_iff h2.sortedLT (List.pairwise_lt_range.filter _).sortedLT fun p => ?_
  rw [h3, List.mem_filter, List.mem_range, List.getD_eq_getElem?_getD, ← h1]
  by_cases hp : p < l.length
  · simp [hp]
  · simp [hp]

theorem Sel.mask_picks {n : ℕ} {l : List Bool} (h1 : l.length = n) : (Sel.mask l).Picks n ((List.range n).filter fun p => l.getD p false) := by
  refine ⟨h1, List.pairwise_lt_range.filter _, fun p => ?_⟩
  rw [List.mem_filter, List.mem_range, List.getD_eq_getElem?_getD, ← h1]
  by_cases hp : p < l.length
  · simp [hp]
  · simp [hp]

theorem Sel.picks_unique {n : ℕ} {js js' : List ℕ} {sel : Sel} (h : sel.Picks n js) (h' : sel.Picks n js') : js = js' := by
  cases sel with
  | idx l =>
    simp only [Sel.Picks] at h h'
    induction h generalizing js' with
    | nil => cases h'; rfl
    | cons h _ ih =>
      cases h' with
      | cons h1 h2 => rw [ih h2]; congr 1; omega
  | mask l =>
    rw [Sel.picks_mask h, Sel.picks_mask h']

theorem Sel.picks_resolve {n : ℕ} {js : List ℕ} {sel : Sel} (h : sel.Picks n js) : sel.resolve n = .ok js := by
  cases sel with
  | idx l =>
    simp only [Sel.Picks, Sel.resolve] at h ⊢
    induction h with
    | nil => rfl
    | @cons i j l js h _ ih =>
      have h1 : normIdx n i = .ok j := by
        unfold normIdx
        split_ifs <;> first | omega | (congr 1; omega)
      rw [normIdxs, h1, ih]; rfl
  | mask l =>
    rw [Sel.resolve, if_pos h.1, Sel.picks_mask h]

theorem Sel.resolve_picks {n : ℕ} {js : List ℕ} {sel : Sel} (h : sel.resolve n = .ok js) : sel.Picks n js := by
  cases sel with
  | idx l =>
    simp only [Sel.Picks, Sel.resolve] at h ⊢
    induction l generalizing js with
    | nil => simp [normIdxs] at h; subst h; exact .nil
    | cons i l ih =>
      simp only [normIdxs, bind_ok_iff, pure_eq_ok] at h
      obtain ⟨j, hj, js, hjs, rfl⟩ := h
      refine .cons ?_ (ih hjs)
      unfold normIdx at hj
      split_ifs at hj <;> simp at hj <;> omega
  | mask l =>
    simp only [Sel.resolve] at h
    split_ifs at h with h1
    simp only [Except.ok.injEq] at h
    subst h
    exact Sel.mask_picks h1

theorem Sel.picks_count {n : ℕ} {js : List ℕ} {sel : Sel} (h : sel.Picks n js) : js.length = sel.count := by
  cases sel with
  | idx l => exact h.length_eq.symm
  | mask l =>
    rw [Sel.picks_mask h, ← h.1, Sel.count]
    have e : l = (List.range l.length).map fun p => l.getD p false := by
      refine List.ext_getElem (by simp) fun p h1 h2 => ?_
      simp [h1]
    conv_rhs => rw [e, List.count_eq_countP, List.countP_map]
    rw [List.countP_eq_length_filter]
    congr 2
    funext p
    simp

/-! ### Selections of tensors -/

theorem update_icons (x : ℕ) (i : Idx) (k y : ℕ) : Function.update (icons x i) (k+1) y = icons x (Function.update i k y) := by
  funext q
  rcases q with _ | q
  · simp
  · by_cases h : q = k
    · subst h; simp
    · simp [Function.update_of_ne, h]

theorem inRange_update {s : Shp} {k d y : ℕ} {i : Idx} (hk : k < s.length) (h : InRange (s.set k d) i) (hy : y < dim s k) : InRange s (Function.update i k y) := by
  intro q
  by_cases e : q = k
  · subst e; simpa using hy
  · rw [Function.update_of_ne e]
    have := h q
    rw [dim_set _ _ _ _ hk, if_neg e] at this
    exact this

theorem inRange_set_lt {s : Shp} {k d : ℕ} {i : Idx} (hk : k < s.length) (h : InRange (s.set k d) i) : i k < d := by
  have := h k
  rwa [dim_set _ _ _ _ hk, if_pos rfl] at this

theorem getD_lt' {js : List ℕ} {n p : ℕ} (h : ∀ j ∈ js, j < n) (hp : p < js.length) : js.getD p 0 < n := by
  rw [List.getD_eq_getElem?_getD, List.getElem?_eq_getElem hp]; exact h _ (List.getElem_mem hp)

theorem takeAx_mat_sh {t : Tensor K} (h2 : 2 ≤ t.rank) (k : ℕ) (js : List ℕ) : (takeAx (k+2) js t).sh = t.cols :: t.rows :: t.bt.set k js.length := by
  rw [takeAx, ofFn_sh]; conv_lhs => rw [Tensor.sh_eq h2]
  rfl

theorem takeAx_vec_sh {t : Tensor K} (h1 : 1 ≤ t.rank) (k : ℕ) (js : List ℕ) : (takeAx (k+1) js t).sh = t.cols :: t.sh.tail.set k js.length := by
  rw [takeAx, ofFn_sh]; conv_lhs => rw [Tensor.sh_eq_vec h1]
  rfl

theorem takeAx_mat_bt {t : Tensor K} (h2 : 2 ≤ t.rank) (k : ℕ) (js : List ℕ) : (takeAx (k+2) js t).bt = t.bt.set k js.length := by
  show List.drop 2 _ = _
  rw [takeAx_mat_sh h2]; rfl

theorem takeAx_get {t : Tensor K} {k : ℕ} {js : List ℕ} {i : Idx} (hi : InRange (t.sh.set k js.length) i) :
    (takeAx k js t).get i = t.get (Function.update i k (js.getD (i k) 0)) := ofFn_get _ hi

/-- Batch elements selected from a batch of matrices. -/
theorem Rep.takeBatch {T : Shp} {t : Tensor K} {r c k : ℕ} {f : Idx → ℕ → ℕ → K} {js : List ℕ} (h : Rep T r c t f) (hT : t.bt = T) (hk : k < T.length)
    (hjs : ∀ j ∈ js, j < dim T k) : Rep (T.set k js.length) r c (takeAx (k+2) js t) fun β i j => f (Function.update β k (js.getD (β k) 0)) i j := by
  have e := takeAx_mat_sh h.rank k js
  rw [hT, h.rows, h.cols] at e
  refine ⟨by simp [Tensor.rank, e], by simp [Tensor.rows, e], by simp [Tensor.cols, e], by rw [Tensor.bt, e]; exact Fits.refl _, ?_⟩
  intro β i j hβ hi hj
  have hin : InRange (takeAx (k+2) js t).sh (icons j (icons i β)) := by rw [e]; simp [hi, hj, hβ]
  rw [← h.at' _ i j (inRange_update hk hβ (getD_lt' hjs (inRange_set_lt hk hβ))) hi hj]
  unfold Tensor.at'
  rw [takeAx_get hin, update_icons, update_icons]
  rfl

/-- Batch elements selected from a batch of vectors. -/
theorem VRep.takeBatch {T : Shp} {t : Tensor K} {n k : ℕ} {u : Idx → ℕ → K} {js : List ℕ} (h : VRep T n t u) (hT : t.sh.tail = T) (hk : k < T.length)
    (hjs : ∀ j ∈ js, j < dim T k) : VRep (T.set k js.length) n (takeAx (k+1) js t) fun β i => u (Function.update β k (js.getD (β k) 0)) i := by
  have e := takeAx_vec_sh h.rank k js
  rw [hT, h.len] at e
  refine ⟨by simp [Tensor.rank, e], by simp [Tensor.cols, e], by rw [e]; exact Fits.refl _, ?_⟩
  intro β i hβ hi
  have hin : InRange (takeAx (k+1) js t).sh (icons i β) := by rw [e]; simp [hi, hβ]
  rw [← h.vat _ i (inRange_update hk hβ (getD_lt' hjs (inRange_set_lt hk hβ))) hi]
  unfold Tensor.vat
  rw [takeAx_get hin, update_icons]
  rfl

theorem IsTake.of_eq {k : ℕ} {js : List ℕ} {a r : Tensor K} (hk : k < a.rank) (h : r = takeAx k js a) : IsTake k js a r := by
  subst h
  exact ⟨hk, rfl, fun i hi => takeAx_get hi⟩

theorem takeAx_fill {s : Shp} {k : ℕ} {js : List ℕ} (hk : k < s.length) (hjs : ∀ j ∈ js, j < dim s k) (x : K) :
    takeAx k js (fillT s x) = fillT (s.set k js.length) x := by
  refine Tensor.ext_inRange rfl fun i hi => ?_
  have hi : InRange (s.set k js.length) i := hi
  rw [takeAx_get (t := fillT s x) hi, fillT_get x hi (Fits.refl _), fillT_get x (inRange_update hk hi (getD_lt' hjs (inRange_set_lt hk hi))) (Fits.refl _)]

theorem nTakeSel_ok {t v : Tensor K} {sel : Sel} {axis : Int} {k : ℕ} {js : List ℕ} (hk : axPos t.rank axis = .ok k) (hp : sel.Picks (dim t.sh k) js)
    (h : nTakeSel t sel axis = .ok v) : v = takeAx k js t := by
  simp only [nTakeSel, hk, bind_ok_iff, Except.ok.injEq, exists_eq_left', Sel.picks_resolve hp, pure_eq_ok] at h
  exact h.symm

theorem axPos_posAxis {m n k q : ℕ} (hr : m + q = n) (hq : q ≤ k) (hk : k < n) : axPos m (posAxis n k) = .ok (k - q) := by
  rw [axPos_iff, AxisAt, posAxis]; omega

theorem takeDense_ok {B : Ops K} (hB : B.Ok) {S : Shp} {a r : Mat K} {sel : Sel} {axis : Int} {k : ℕ} {js : List ℕ} (ha : a.WF S)
    (hk : axPos (den a).rank axis = .ok k) (hp : sel.Picks (dim (den a).sh k) js) (h : takeDense B a sel axis = .ok r) :
    r = mkDense (takeAx k js (den a)) := by
  simp only [takeDense, bind_ok_iff, pure_eq_ok] at h
  obtain ⟨d, hd, v, hv, rfl⟩ := h
  obtain rfl := hB.dense ha hd
  rw [nTakeSel_ok hk hp hv]

theorem axPos_negAxis {n k : ℕ} (hk : k < n) : axPos n (negAxis k) = .ok k := by
  rw [axPos_iff, AxisAt, negAxis]; omega

theorem takeRow_mm {S : Shp} {a b : Tensor K} {js : List ℕ} (ga : Good S a) (gb : Good S b) (h : a.cols = b.rows) (hjs : ∀ j ∈ js, j < a.rows) :
    takeAx 1 js (mm a b) = mm (takeAx 1 js a) b := by
  have f1 : Fits (bsh a.bt b.bt) a.bt := (ga.fits.compat gb.fits).fits_left
  have f2 : Fits (bsh a.bt b.bt) b.bt := (ga.fits.compat gb.fits).fits_right
  have A := Rep.self ga.rank f1
  have C := Rep.self' gb.rank h.symm rfl f2
  have e1 : (takeAx 1 js a).bt = a.bt := by
    show List.drop 2 _ = _; rw [takeAx, ofFn_sh, Tensor.sh_eq ga.rank]; rfl
  exact Rep.ext (a := takeAx 1 js (mm a b)) ((A.mm C).takeRow js hjs) ((A.takeRow js hjs).mm C) (by show bsh a.bt b.bt = bsh _ _; rw [e1]) fun _ _ _ _ _ _ => rfl

theorem takeCol_tr {a : Tensor K} {js : List ℕ} (ga : 2 ≤ a.rank) (hjs : ∀ j ∈ js, j < a.rows) : takeAx 0 js (tr a) = tr (takeAx 1 js a) := by
  have A := Rep.self ga (Fits.refl _)
  have e1 : (takeAx 1 js a).bt = a.bt := by
    show List.drop 2 _ = _; rw [takeAx, ofFn_sh, Tensor.sh_eq ga]; rfl
  exact Rep.ext (a := takeAx 0 js (tr a)) (A.tr.takeCol js hjs) (A.takeRow js hjs).tr e1.symm fun _ _ _ _ _ _ => rfl

theorem takeCol_mm {S : Shp} {a b : Tensor K} {js : List ℕ} (ga : Good S a) (gb : Good S b) (h : a.cols = b.rows) (hjs : ∀ j ∈ js, j < b.cols) :
    takeAx 0 js (mm a b) = mm a (takeAx 0 js b) := by
  have f1 : Fits (bsh a.bt b.bt) a.bt := (ga.fits.compat gb.fits).fits_left
  have f2 : Fits (bsh a.bt b.bt) b.bt := (ga.fits.compat gb.fits).fits_right
  have A := Rep.self ga.rank f1
  have C := Rep.self' gb.rank h.symm rfl f2
  have e1 : (takeAx 0 js b).bt = b.bt := by
    show List.drop 2 _ = _; rw [takeAx, ofFn_sh, Tensor.sh_eq gb.rank]; rfl
  exact Rep.ext (a := takeAx 0 js (mm a b)) ((A.mm C).takeCol js hjs) (A.mm (C.takeCol js hjs)) (by show bsh a.bt b.bt = bsh _ _; rw [e1]) fun _ _ _ _ _ _ => rfl

theorem takeAx_small_sh {t : Tensor K} {k : ℕ} {js : List ℕ} (h2 : 2 ≤ t.rank) (hk : k < 2) :
    (takeAx k js t).sh = (if k = 0 then js.length else t.cols) :: (if k = 1 then js.length else t.rows) :: t.bt := by
  rw [takeAx, ofFn_sh]; conv_lhs => rw [Tensor.sh_eq h2]
  interval_cases k <;> rfl

theorem takeAx_rows {t : Tensor K} {k : ℕ} {js : List ℕ} (h2 : 2 ≤ t.rank) (hk : k < 2) : (takeAx k js t).rows = if k = 1 then js.length else t.rows :=
  (congrArg (fun s => dim s 1) (takeAx_small_sh h2 hk) :)
theorem takeAx_cols {t : Tensor K} {k : ℕ} {js : List ℕ} (h2 : 2 ≤ t.rank) (hk : k < 2) : (takeAx k js t).cols = if k = 0 then js.length else t.cols :=
  (congrArg (fun s => dim s 0) (takeAx_small_sh h2 hk) :)

theorem takeAx_zip {a b : Tensor K} {k : ℕ} {js : List ℕ} {op : K → K → K} (ga : 2 ≤ a.rank) (gb : 2 ≤ b.rank) (hc : Compat a.bt b.bt) (hr : a.rows = b.rows) (hcs : a.cols = b.cols)
    (hk : k < 2) (hjs : ∀ j ∈ js, j < dim a.sh k) : takeAx k js (zipB op a b) = zipB op (takeAx k js a) (takeAx k js b) := by
  have A := Rep.self ga hc.fits_left
  have C := Rep.self' gb hr.symm hcs.symm hc.fits_right
  have e0 : ∀ {t : Tensor K}, 2 ≤ t.rank → (takeAx k js t).bt = t.bt := by
    intro t h2; show List.drop 2 _ = _; rw [takeAx_small_sh h2 hk]; rfl
  have hb : (zipB op a b).bt = bsh a.bt b.bt := zipB_bt
  have h0 : 2 ≤ (zipB op a b).rank := (A.zipB op C).rank
  have e1 : (takeAx k js (zipB op a b)).bt = bsh a.bt b.bt := by rw [e0 h0, hb]
  have e2 : (zipB op (takeAx k js a) (takeAx k js b)).bt = bsh a.bt b.bt := by rw [zipB_bt, e0 ga, e0 gb]
  have e3 : (takeAx k js (zipB op a b)).bt = (zipB op (takeAx k js a) (takeAx k js b)).bt := e1.trans e2.symm
  have e4 := Tensor.sh_eq ga
  interval_cases k
  · have hjs : ∀ j ∈ js, j < a.cols := by rw [e4] at hjs; exact hjs
    have P := (A.zipB op C).takeCol js hjs
    have Q := (A.takeCol js hjs).zipB op (C.takeCol js hjs)
    rw [← e1] at P Q
    exact Rep.ext P Q e3 fun _ _ _ _ _ _ => rfl
  · have hjs : ∀ j ∈ js, j < a.rows := by rw [e4] at hjs; exact hjs
    have P := (A.zipB op C).takeRow js hjs
    have Q := (A.takeRow js hjs).zipB op (C.takeRow js hjs)
    rw [← e1] at P Q
    exact Rep.ext P Q e3 fun _ _ _ _ _ _ => rfl

theorem dim_rows {t : Tensor K} (h : 2 ≤ t.rank) : dim t.sh 1 = t.rows := by
  conv_lhs => rw [Tensor.sh_eq h]
  rfl
theorem dim_cols {t : Tensor K} (h : 2 ≤ t.rank) : dim t.sh 0 = t.cols := by
  conv_lhs => rw [Tensor.sh_eq h]
  rfl

theorem mkDense_wf' {S : Shp} {t : Tensor K} (h2 : 2 ≤ t.rank) (hb : Fits S t.bt) : Mat.WF S (.dense t) := ⟨h2, hb⟩

theorem takeM_mat_ok {B : Ops K} (hB : B.Ok) {sel : Sel} {js : List ℕ} (n : ℕ) : ∀ {S : Shp} {a r : Mat K} {axis : Int} {k : ℕ}, k < 2 → a.WF S → 2 ≤ (den a).rank →
    axPos (den a).rank axis = .ok k → a.takeOk k → sel.Picks (dim (den a).sh k) js → takeM B n a sel axis = .ok r → r.WF S ∧ den r = takeAx k js (den a) := by
  induction n with
  | zero => intro S a r axis k _ _ _ _ _ _ h; simp [takeM] at h
  | succ n ih =>
    intro S a r axis k hk2 ha h2 hk ho hp h
    have hn : axPos (den a).rank (negAxis k) = .ok k := axPos_negAxis (by omega)
    have hlt := Sel.picks_lt hp
    have good : ∀ {t : Tensor K}, t = den a → 2 ≤ (takeAx k js t).rank ∧ Fits S (takeAx k js t).bt := by
      rintro t rfl
      have e := takeAx_small_sh (js := js) h2 hk2
      exact ⟨by simp [Tensor.rank, e], by show Fits _ (List.drop 2 _); rw [e]; exact ha.fits⟩
    have mkd : ∀ {t : Tensor K}, t = den a → (mkDense (takeAx k js t)).WF S ∧ den (mkDense (takeAx k js t)) = takeAx k js (den a) := by
      rintro t rfl
      exact mkDense_wf ⟨(good rfl).1, (good rfl).2⟩
    have dense : ∀ {ax : Int}, axPos (den a).rank ax = .ok k → takeDense B a sel ax = .ok r → r.WF S ∧ den r = takeAx k js (den a) := by
      intro ax hax h
      rw [takeDense_ok hB ha hax hp h]
      exact mkd rfl
    simp only [takeM, takeStep, ha.rankM, hk, bind_ok_iff, Except.ok.injEq, exists_eq_left'] at h
    cases a with
    | num t =>
      simp only [bind_ok_iff, pure_eq_ok] at h
      obtain ⟨v, hv, rfl⟩ := h
      rw [nTakeSel_ok hk hp hv]
      have := good (t := t) rfl
      exact ⟨⟨by show (takeAx k js t).rank ≠ 1; have := this.1; omega, this.2⟩, rfl⟩
    | zero bt r c =>
      rw [← Sel.picks_count hp] at h
      obtain ⟨c', r', bt', e, rfl⟩ := mkZero_ok.1 h
      have hf : Fits S bt' := by interval_cases k <;> (simp at e; obtain ⟨_, _, rfl⟩ := e; exact ha)
      refine ⟨hf, ?_⟩
      show fillT _ _ = takeAx k js (fillT _ _)
      rw [takeAx_fill (s := c :: r :: bt) (by simp; omega) hlt, e]
    | dense t => exact dense hk h
    | diag d => simp only [if_pos hk2] at h; exact dense hn h
    | const t r c =>
      have e0 : ∀ u : Tensor K, bcast (bsh u.sh []) u = u := by intro u; simp [bcast_self]
      interval_cases k
      · simp only [if_neg (by omega : ¬ (0:ℕ) = 1), if_pos] at h
        rw [← Sel.picks_count hp] at h
        obtain ⟨-, rfl⟩ := mkConst_ok h
        rw [e0]
        have hw : Mat.WF S (.const t r js.length) := ha
        exact ⟨hw, Rep.ext (a := den (.const t r js.length)) (Rep.constM (Fits.refl _) _ _) ((Rep.constM (Fits.refl _) _ _).takeCol js hlt) rfl fun _ _ _ _ _ _ => rfl⟩
      · simp only [if_true] at h
        rw [← Sel.picks_count hp] at h
        obtain ⟨-, rfl⟩ := mkConst_ok h
        rw [e0]
        have hw : Mat.WF S (.const t js.length c) := ha
        exact ⟨hw, Rep.ext (a := den (.const t js.length c)) (Rep.constM (Fits.refl _) _ _) ((Rep.constM (Fits.refl _) _ _).takeRow js hlt) rfl fun _ _ _ _ _ _ => rfl⟩
    | lt t =>
      simp only [bind_ok_iff, if_pos hk2, pure_eq_ok] at h
      obtain ⟨v, hv, rfl⟩ := h
      rw [nTakeSel_ok hn hp hv]
      exact mkd rfl
    | ut t =>
      simp only [bind_ok_iff, if_pos hk2, pure_eq_ok] at h
      obtain ⟨v, hv, rfl⟩ := h
      rw [nTakeSel_ok hn hp hv]
      exact mkd rfl
    | lr l r m =>
      obtain ⟨⟨hl, hr, hm⟩, ⟨kl, kr, km⟩, e1, e2⟩ := ha
      have gl := hl.good kl; have gr := hr.good kr; have gm := hm.good km
      have factor : ∀ {x y : Mat K}, x.WF S → 2 ≤ (den x).rank → x.rowsOk → sel.Picks (den x).rows js → takeFactor (takeM B n) x sel = .ok y →
          y.WF S ∧ den y = takeAx 1 js (den x) := by
        intro x y hx kx hox hpx h
        rw [← dim_rows kx] at hpx
        have hax : axPos (den x).rank (-2) = .ok 1 := axPos_negAxis (k := 1) (by omega)
        cases x with
        | num t =>
          simp only [takeFactor, bind_ok_iff, pure_eq_ok] at h
          obtain ⟨v, hv, rfl⟩ := h
          have ht : t.rank = 2 := hox
          rw [nTakeSel_ok (k := 1) (by show axPos t.rank 0 = _; rw [ht]; rfl) hpx hv]
          have e := takeAx_small_sh (t := t) (k := 1) (js := js) (by omega) (by omega)
          exact ⟨⟨by show (takeAx 1 js t).rank ≠ 1; simp [Tensor.rank, e], by show Fits _ (List.drop 2 (takeAx 1 js t).sh); rw [e]; exact hx.2⟩, rfl⟩
        | _ => exact ih (by omega) hx kx hax hox.takeOk hpx h
      interval_cases k
      · have hp' : sel.Picks (den r).rows js := hp
        have hlt' : ∀ j ∈ js, j < (den r).rows := hlt
        simp only [takeLR, if_neg (by omega : ¬ (0:ℕ) = 1), if_true, bind_ok_iff] at h
        obtain ⟨y, hy, h⟩ := h
        obtain ⟨wy, ey⟩ := factor hr kr ho hp' hy
        obtain ⟨rfl, w⟩ := mkLR_inv hl wy hm h
        refine ⟨w, ?_⟩
        show mm _ (tr (den y)) = takeAx 0 js (mm _ (tr (den r)))
        rw [takeCol_mm (S := S) (gl.mm gm) gr.tr e2.symm hlt', takeCol_tr kr hlt', ey]
      · have hp' : sel.Picks (den l).rows js := hp
        have hlt' : ∀ j ∈ js, j < (den l).rows := hlt
        simp only [takeLR, if_true, bind_ok_iff] at h
        obtain ⟨y, hy, h⟩ := h
        obtain ⟨wy, ey⟩ := factor hl kl ho hp' hy
        obtain ⟨rfl, w⟩ := mkLR_inv wy hr hm h
        refine ⟨w, ?_⟩
        show mm (mm (den y) _) _ = takeAx 1 js (mm (mm (den l) _) (tr (den r)))
        rw [takeRow_mm (S := S) (gl.mm gm) gr.tr e2.symm hlt', takeRow_mm (S := S) gl gm e1 hlt', ey]
    | wb d l r m =>
      simp only [if_pos hk2, bind_ok_iff] at h
      obtain ⟨x, hx, y, hy, h⟩ := h
      have wd := WF.diagPart ha; have wl := WF.lrPart ha
      have hr1 : (den (.diag d)).rows = (den (.lr l r m)).rows := ha.2.2.2.2.1.symm
      have hc1 : (den (.diag d)).cols = (den (.lr l r m)).cols := ha.2.2.2.2.2.symm
      have k1 : 2 ≤ (den (.diag d)).rank := wd.rank rfl
      have k2 : 2 ≤ (den (.lr l r m)).rank := wl.rank rfl
      have ed : den (.wb d l r m) = zipB (· + ·) (den (.diag d)) (den (.lr l r m)) := rfl
      have hz : (den (.wb d l r m)).rows = (den (.diag d)).rows ∧ (den (.wb d l r m)).cols = (den (.diag d)).cols := by
        have A := Rep.self k1 wd.fits
        have C := Rep.self' k2 hr1.symm hc1.symm wl.fits
        have := A.zipB (· + ·) C
        exact ⟨this.rows, this.cols⟩
      have ds : dim (den (.wb d l r m)).sh k = dim (den (.diag d)).sh k ∧ dim (den (.diag d)).sh k = dim (den (.lr l r m)).sh k := by
        interval_cases k
        · exact ⟨by rw [dim_cols h2, dim_cols k1, hz.2], by rw [dim_cols k1, dim_cols k2, hc1]⟩
        · exact ⟨by rw [dim_rows h2, dim_rows k1, hz.1], by rw [dim_rows k1, dim_rows k2, hr1]⟩
      rw [ds.1] at hp hlt
      obtain ⟨wx, ex⟩ := ih hk2 wd k1 (axPos_negAxis (by omega)) trivial hp hx
      rw [ds.2] at hp
      obtain ⟨wy, ey⟩ := ih hk2 wl k2 (axPos_negAxis (by omega)) (by interval_cases k <;> exact ho) hp hy
      have Z := hB.add wx wy (noStretch_of_eq (by rw [ex, ey, takeAx_rows k1 hk2, takeAx_rows k2 hk2, hr1]) (by rw [ex, ey, takeAx_cols k1 hk2, takeAx_cols k2 hk2, hc1])) h
      refine ⟨Z.wf, ?_⟩
      rw [Z.eq, ed, takeAx_zip k1 k2 (wd.fits.compat wl.fits) hr1 hc1 hk2 hlt, ex, ey]
    | kron l r => simp only [if_pos hk2] at h; exact dense hn h
    | tiled n blk reps ax => exact dense hk h

/-! ### Batch axes -/

section
variable {T : Shp} {js : List ℕ} {q : ℕ} (hq : q < T.length) (hjs : ∀ j ∈ js, j < dim T q)
include hq hjs

theorem takeB_bt {t : Tensor K} (h2 : 2 ≤ t.rank) (h : t.bt = T) : (takeAx (q+2) js t).bt = T.set q js.length := by
  rw [takeAx_mat_bt h2, h]

theorem takeB_mm {a b : Tensor K} (ka : 2 ≤ a.rank) (kb : 2 ≤ b.rank) (ha : a.bt = T) (hb : b.bt = T) (h : a.cols = b.rows) :
    takeAx (q+2) js (mm a b) = mm (takeAx (q+2) js a) (takeAx (q+2) js b) := by
  have A := Rep.self ka (S := T) (by rw [ha]; exact Fits.refl _)
  have C := Rep.self' kb h.symm rfl (S := T) (by rw [hb]; exact Fits.refl _)
  have hm : (mm a b).bt = T := by show bsh a.bt b.bt = T; rw [ha, hb, bsh_self]
  have e1 := takeB_bt hq hjs (t := mm a b) (by simp [Tensor.rank]) hm
  have e2 : (mm (takeAx (q+2) js a) (takeAx (q+2) js b)).bt = T.set q js.length := by
    show bsh (takeAx (q+2) js a).bt (takeAx (q+2) js b).bt = _
    rw [takeB_bt hq hjs ka ha, takeB_bt hq hjs kb hb, bsh_self]
  have P := (A.mm C).takeBatch hm hq hjs
  have Q := (A.takeBatch ha hq hjs).mm (C.takeBatch hb hq hjs)
  rw [← e1] at P Q
  exact Rep.ext P Q (e1.trans e2.symm) fun _ _ _ _ _ _ => rfl

theorem takeB_kron {a b : Tensor K} (ka : 2 ≤ a.rank) (kb : 2 ≤ b.rank) (ha : a.bt = T) (hb : b.bt = T) :
    takeAx (q+2) js (kronT a b) = kronT (takeAx (q+2) js a) (takeAx (q+2) js b) := by
  have A := Rep.self ka (S := T) (by rw [ha]; exact Fits.refl _)
  have C := Rep.self kb (S := T) (by rw [hb]; exact Fits.refl _)
  have hm : (kronT a b).bt = T := by rw [kronT_bt, ha, hb, bsh_self]
  have e1 := takeB_bt hq hjs (t := kronT a b) (by simp [Tensor.rank]) hm
  have e2 : (kronT (takeAx (q+2) js a) (takeAx (q+2) js b)).bt = T.set q js.length := by
    rw [kronT_bt, takeB_bt hq hjs ka ha, takeB_bt hq hjs kb hb, bsh_self]
  have P := (A.kronT C).takeBatch hm hq hjs
  have Q := (A.takeBatch ha hq hjs).kronT (C.takeBatch hb hq hjs)
  rw [← e1] at P Q
  exact Rep.ext P Q (e1.trans e2.symm) fun _ _ _ _ _ _ => rfl

theorem takeB_zip {a b : Tensor K} (op : K → K → K) (ka : 2 ≤ a.rank) (kb : 2 ≤ b.rank) (ha : a.bt = T) (hb : b.bt = T) (h1 : a.rows = b.rows) (h2 : a.cols = b.cols) :
    takeAx (q+2) js (zipB op a b) = zipB op (takeAx (q+2) js a) (takeAx (q+2) js b) := by
  have A := Rep.self ka (S := T) (by rw [ha]; exact Fits.refl _)
  have C := Rep.self' kb h1.symm h2.symm (S := T) (by rw [hb]; exact Fits.refl _)
  have hm : (zipB op a b).bt = T := by rw [zipB_bt, ha, hb, bsh_self]
  have e1 := takeB_bt hq hjs (t := zipB op a b) (A.zipB op C).rank hm
  have e2 : (zipB op (takeAx (q+2) js a) (takeAx (q+2) js b)).bt = T.set q js.length := by
    rw [zipB_bt, takeB_bt hq hjs ka ha, takeB_bt hq hjs kb hb, bsh_self]
  have P := (A.zipB op C).takeBatch hm hq hjs
  have Q := (A.takeBatch ha hq hjs).zipB op (C.takeBatch hb hq hjs)
  rw [← e1] at P Q
  exact Rep.ext P Q (e1.trans e2.symm) fun _ _ _ _ _ _ => rfl

theorem takeB_tr {a : Tensor K} (ka : 2 ≤ a.rank) (ha : a.bt = T) : takeAx (q+2) js (tr a) = tr (takeAx (q+2) js a) := by
  have A := Rep.self ka (S := T) (by rw [ha]; exact Fits.refl _)
  have e1 := takeB_bt hq hjs (t := tr a) (by simp [Tensor.rank]) ha
  have e2 : (tr (takeAx (q+2) js a)).bt = T.set q js.length := takeB_bt hq hjs ka ha
  have P := A.tr.takeBatch ha hq hjs
  have Q := (A.takeBatch ha hq hjs).tr
  rw [← e1] at P Q
  exact Rep.ext P Q (e1.trans e2.symm) fun _ _ _ _ _ _ => rfl

theorem takeB_diagC {d : Tensor K} (kd : 1 ≤ d.rank) (hd : d.sh.tail = T) : takeAx (q+2) js (diagC d) = diagC (takeAx (q+1) js d) := by
  have A := VRep.self kd (S := T) (by rw [hd]; exact Fits.refl _)
  have e1 := takeB_bt hq hjs (t := diagC d) (by simp [Tensor.rank]) hd
  have e2 : (diagC (takeAx (q+1) js d)).bt = T.set q js.length := by
    show (takeAx (q+1) js d).sh.tail = _
    rw [takeAx_vec_sh kd, hd]; rfl
  have P := (Rep.diagC A).takeBatch hd hq hjs
  have Q := Rep.diagC (A.takeBatch hd hq hjs)
  rw [← e1] at P Q
  exact Rep.ext P Q (e1.trans e2.symm) fun _ _ _ _ _ _ => rfl

end

theorem takeB_constM {t : Tensor K} {r c q : ℕ} {js : List ℕ} (hq : q < t.sh.length) (hjs : ∀ j ∈ js, j < dim t.sh q) :
    takeAx (q+2) js (constM t r c) = constM (takeAx q js t) r c := by
  have P := (Rep.constM (Fits.refl _) r c : Rep t.sh r c (constM t r c) _).takeBatch rfl hq hjs
  have Q : Rep (t.sh.set q js.length) r c (constM (takeAx q js t) r c) _ := Rep.constM (t := takeAx q js t) (Fits.refl _) r c
  exact Rep.ext (a := takeAx (q+2) js (constM t r c)) P Q rfl fun β i j hβ _ _ => (takeAx_get hβ).symm

theorem alignBatch3_ok {S : Shp} {a b c : Mat K} {p : Mat K × Mat K × Mat K} (ha : a.WF S) (hb : b.WF S) (hc : c.WF S) (h : alignBatch3 a b c = .ok p) :
    ∃ T, T = bsh (bsh (den a).bt (den b).bt) (den c).bt ∧ Good T (den a) ∧ Good T (den b) ∧ Good T (den c) ∧ p.1.WF T ∧ p.2.1.WF T ∧ p.2.2.WF T ∧
      den p.1 = bbT T (den a) ∧ den p.2.1 = bbT T (den b) ∧ den p.2.2 = bbT T (den c) := by
  simp only [alignBatch3, shapeBatchBroadcast, ha.shapeBatch, hb.shapeBatch, hc.shapeBatch, bind_ok_iff, Except.ok.injEq, exists_eq_left', bsE_ok, pure_eq_ok] at h
  obtain ⟨_, ⟨h1, rfl⟩, _, ⟨h2, rfl⟩, x, hx, y, hy, z, hz, rfl⟩ := h
  have fa : Fits (bsh (bsh (den a).bt (den b).bt) (den c).bt) (den a).bt := h2.fits_left.trans h1.fits_left
  have fb : Fits (bsh (bsh (den a).bt (den b).bt) (den c).bt) (den b).bt := h2.fits_left.trans h1.fits_right
  obtain ⟨w1, r1, e1, _⟩ := broadcastBatchTo_ok ha fa hx
  obtain ⟨w2, r2, e2, _⟩ := broadcastBatchTo_ok hb fb hy
  obtain ⟨w3, r3, e3, _⟩ := broadcastBatchTo_ok hc h2.fits_right hz
  exact ⟨_, rfl, ⟨r1, fa⟩, ⟨r2, fb⟩, ⟨r3, h2.fits_right⟩, w1, w2, w3, e1, e2, e3⟩

theorem takeM_batch_ok {B : Ops K} (hB : B.Ok) {sel : Sel} {js : List ℕ} {q : ℕ} (n : ℕ) : ∀ {T : Shp} {a r : Mat K} {axis : Int}, q < T.length → a.WF T →
    2 ≤ (den a).rank → (den a).bt = T → axPos (den a).rank axis = .ok (q+2) → sel.Picks (dim T q) js → takeM B n a sel axis = .ok r →
    r.WF (T.set q js.length) ∧ den r = takeAx (q+2) js (den a) := by
  induction n with
  | zero => intro T a r axis _ _ _ _ _ _ h; simp [takeM] at h
  | succ n ih =>
    intro T a r axis hq ha h2 hT hk hp h
    have hkr := axPos_lt hk
    have hn : axPos (den a).rank (negAxis (q+2)) = .ok (q+2) := axPos_negAxis hkr
    have hlt := Sel.picks_lt hp
    have hs := Tensor.sh_eq h2
    rw [hT] at hs
    have hrk : (den a).rank = T.length + 2 := by unfold Tensor.rank; rw [hs]; rfl
    have hds : dim (den a).sh (q+2) = dim T q := by rw [hs]; rfl
    have e0 := takeAx_mat_sh h2 q js
    rw [hT] at e0
    have good : ∀ {t : Tensor K}, t = den a → Good (T.set q js.length) (takeAx (q+2) js t) := by
      rintro t rfl
      exact ⟨by simp [Tensor.rank, e0], by show Fits _ (List.drop 2 _); rw [e0]; exact Fits.refl _⟩
    have dense : ∀ {ax : Int}, axPos (den a).rank ax = .ok (q+2) → takeDense B a sel ax = .ok r → r.WF (T.set q js.length) ∧ den r = takeAx (q+2) js (den a) := by
      intro ax hax h
      rw [takeDense_ok hB ha hax (by rw [hds]; exact hp) h]
      exact mkDense_wf (good rfl)
    have hp' : sel.Picks (dim (den a).sh (q+2)) js := by rw [hds]; exact hp
    have sub : ∀ {x : Tensor K} {y z : Mat K}, y.WF T → den y = bbT T x → takeM B n y sel (posAxis (den a).rank (q+2)) = .ok z →
        z.WF (T.set q js.length) ∧ den z = takeAx (q+2) js (bbT T x) := by
      intro x y z hy ey hz
      have ry : (den y).rank = T.length + 2 := by rw [ey]; rfl
      rw [← ey]
      exact ih hq hy (by omega) (by rw [ey]; rfl) (axPos_posAxis (q := 0) (by omega) (by omega) hkr) hp hz
    simp only [takeM, takeStep, ha.rankM, hk, bind_ok_iff, Except.ok.injEq, exists_eq_left'] at h
    cases a with
    | num t =>
      simp only [bind_ok_iff, pure_eq_ok] at h
      obtain ⟨v, hv, rfl⟩ := h
      rw [nTakeSel_ok hk hp' hv]
      have := good (t := t) rfl
      exact ⟨⟨by show (takeAx (q+2) js t).rank ≠ 1; have := this.rank; omega, this.fits⟩, rfl⟩
    | zero bt r c =>
      obtain rfl : bt = T := hT
      rw [← Sel.picks_count hp] at h
      obtain ⟨c', r', bt', e, rfl⟩ := mkZero_ok.1 h
      have e' : c :: r :: bt.set q js.length = c' :: r' :: bt' := e
      simp only [List.cons.injEq] at e'
      obtain ⟨rfl, rfl, rfl⟩ := e'
      refine ⟨Fits.refl _, ?_⟩
      show fillT _ _ = takeAx _ js (fillT _ _)
      rw [takeAx_fill (s := c :: r :: bt) (by simpa using hq) hlt]
      rfl
    | dense t => exact dense hk h
    | diag d =>
      simp only [if_neg (by omega : ¬ q + 2 < 2), bind_ok_iff, mkDiag_ok] at h
      obtain ⟨v, hv, h1, rfl⟩ := h
      have hd : d.sh.tail = T := hT
      have k1 : 1 ≤ d.rank := ha.1
      have rd : d.rank + 1 = (den (.diag d)).rank := by
        have : d.sh.tail.length = T.length := by rw [hd]
        simp [Tensor.rank] at k1 hrk this ⊢; omega
      have sd : dim d.sh (q+1) = dim T q := by rw [Tensor.sh_eq_vec k1, hd]; rfl
      obtain rfl := nTakeSel_ok (k := q+1) (axPos_posAxis (k := q+2) (q := 1) rd (by omega) hkr) (by rw [sd]; exact hp) hv
      have e1 := takeAx_vec_sh k1 q js
      refine ⟨⟨by simp [Tensor.rank, e1], by rw [e1, hd]; exact Fits.refl _⟩, (takeB_diagC hq hlt k1 hd).symm⟩
    | const t r c =>
      simp only [if_neg (by omega : ¬ q + 2 = 1), if_neg (by omega : ¬ q + 2 = 0), bind_ok_iff] at h
      obtain ⟨v, hv, h⟩ := h
      obtain rfl : t.sh = T := hT
      obtain rfl := nTakeSel_ok (k := q) (axPos_posAxis (k := q+2) (q := 2) rfl (by omega) hkr) hp hv
      obtain ⟨-, rfl⟩ := mkConst_ok h
      have e : bsh (takeAx q js t).sh [] = (takeAx q js t).sh := by simp
      rw [e, bcast_self]
      exact ⟨Fits.refl _, (takeB_constM hq hlt).symm⟩
    | lt t =>
      simp only [bind_ok_iff, if_neg (by omega : ¬ q + 2 < 2), mkLT_ok] at h
      obtain ⟨v, hv, _, rfl⟩ := h
      obtain rfl : v = takeAx (q+2) js t := nTakeSel_ok hn hp' hv
      have g := good (t := t) rfl
      have R := (Rep.self (S := T) ha.1 ha.2.1).takeBatch hT hq hlt
      refine ⟨⟨g.rank, g.fits, by rw [R.rows, R.cols]; exact ha.2.2.1, ?_⟩, rfl⟩
      intro β i j hβ hi hj hij
      rw [R.rows] at hi; rw [R.cols] at hj
      have hβ : InRange (T.set q js.length) β := by rw [takeB_bt hq hlt ha.1 hT] at hβ; exact hβ
      rw [R.at' β i j hβ hi hj]
      exact ha.2.2.2 _ i j (by rw [show t.bt = T from hT]; exact inRange_update hq hβ (getD_lt' hlt (inRange_set_lt hq hβ))) hi hj hij
    | ut t =>
      simp only [bind_ok_iff, if_neg (by omega : ¬ q + 2 < 2), mkUT_ok] at h
      obtain ⟨v, hv, _, rfl⟩ := h
      obtain rfl : v = takeAx (q+2) js t := nTakeSel_ok hn hp' hv
      have g := good (t := t) rfl
      have R := (Rep.self (S := T) ha.1 ha.2.1).takeBatch hT hq hlt
      refine ⟨⟨g.rank, g.fits, by rw [R.rows, R.cols]; exact ha.2.2.1, ?_⟩, rfl⟩
      intro β i j hβ hi hj hij
      rw [R.rows] at hi; rw [R.cols] at hj
      have hβ : InRange (T.set q js.length) β := by rw [takeB_bt hq hlt ha.1 hT] at hβ; exact hβ
      rw [R.at' β i j hβ hi hj]
      exact ha.2.2.2 _ i j (by rw [show t.bt = T from hT]; exact inRange_update hq hβ (getD_lt' hlt (inRange_set_lt hq hβ))) hi hj hij
    | lr l r m =>
      obtain ⟨⟨hl, hr, hm⟩, ⟨kl, kr, km⟩, e1, e2⟩ := ha
      simp only [takeLR, if_neg (by omega : ¬ q + 2 = 1), if_neg (by omega : ¬ q + 2 = 0), bind_ok_iff] at h
      obtain ⟨p, hpp, x, hx, y, hy, z, hz, h⟩ := h
      obtain ⟨T', eT, gl, gm, gr, wl, wm, wr, el, em, er⟩ := alignBatch3_ok hl hm hr hpp
      obtain rfl : T' = T := by rw [eT, ← hT]; rfl
      obtain ⟨wx, ex⟩ := sub wl el hx
      obtain ⟨wy, ey⟩ := sub wr er hy
      obtain ⟨wz, ez⟩ := sub wm em hz
      obtain ⟨rfl, w⟩ := mkLR_inv wx wy wz h
      refine ⟨w, ?_⟩
      have ed : den (.lr l r m) = mm (mm (bbT T' (den l)) (bbT T' (den m))) (tr (bbT T' (den r))) := by
        rw [← bbT_mm gl gm e1, ← bbT_tr gr, ← bbT_mm (gl.mm gm) gr.tr e2.symm]
        exact (bbT_self' h2 hT).symm
      have b1 : (mm (bbT T' (den l)) (bbT T' (den m))).bt = T' := by show bsh T' T' = T'; exact bsh_self _
      rw [ed, takeB_mm (a := mm (bbT T' (den l)) (bbT T' (den m))) (b := tr (bbT T' (den r))) hq hlt (by simp [Tensor.rank]) (by simp [Tensor.rank]) b1 rfl e2.symm, takeB_mm hq hlt (bbT_rank _ _) (bbT_rank _ _) rfl rfl e1,
        takeB_tr hq hlt (bbT_rank _ _) rfl, ← ex, ← ey, ← ez]
      rfl
    | wb d l r m =>
      simp only [if_neg (by omega : ¬ q + 2 < 2), bind_ok_iff] at h
      obtain ⟨⟨a', b'⟩, hpp, x, hx, y, hy, h⟩ := h
      obtain ⟨T', eT, gd, gl, wa, wb, ea, eb⟩ := alignBatch2_ok (WF.diagPart ha) (WF.lrPart ha) hpp
      obtain rfl : T' = T := by rw [eT, ← hT]; exact zipB_bt.symm
      obtain ⟨wx, ex⟩ := sub wa ea hx
      obtain ⟨wy, ey⟩ := sub wb eb hy
      have hr1 : (den (.diag d)).rows = (den (.lr l r m)).rows := ha.2.2.2.2.1.symm
      have hc1 : (den (.diag d)).cols = (den (.lr l r m)).cols := ha.2.2.2.2.2.symm
      have ed : den (.wb d l r m) = zipB (· + ·) (bbT T' (den (.diag d))) (bbT T' (den (.lr l r m))) := by
        rw [← bbT_zipB _ gd gl hr1 hc1]
        exact (bbT_self' h2 hT).symm
      have sh1 := takeAx_mat_sh (bbT_rank T' (den (.diag d))) q js
      have sh2 := takeAx_mat_sh (bbT_rank T' (den (.lr l r m))) q js
      have Z := hB.add wx wy (noStretch_of_eq (by rw [ex, ey]; exact (congrArg (fun s => dim s 1) sh1 :).trans (hr1.trans (congrArg (fun s => dim s 1) sh2 :).symm))
        (by rw [ex, ey]; exact (congrArg (fun s => dim s 0) sh1 :).trans (hc1.trans (congrArg (fun s => dim s 0) sh2 :).symm))) h
      refine ⟨Z.wf, ?_⟩
      rw [Z.eq, ed, takeB_zip (a := bbT T' (den (.diag d))) (b := bbT T' (den (.lr l r m))) hq hlt _ (bbT_rank _ _) (bbT_rank _ _) rfl rfl hr1 hc1, ex, ey]
    | kron l r =>
      obtain ⟨⟨hl, hr⟩, kl, kr⟩ := ha
      simp only [if_neg (by omega : ¬ q + 2 < 2), bind_ok_iff, pure_eq_ok] at h
      obtain ⟨⟨a', b'⟩, hpp, x, hx, y, hy, rfl⟩ := h
      obtain ⟨T', eT, gl, gr, wl, wr, el, er⟩ := alignBatch2_ok hl hr hpp
      obtain rfl : T' = T := by rw [eT, ← hT]; exact (kronT_bt _ _).symm
      obtain ⟨wx, ex⟩ := sub wl el hx
      obtain ⟨wy, ey⟩ := sub wr er hy
      have ed : den (.kron l r) = kronT (bbT T' (den l)) (bbT T' (den r)) := by
        rw [← bbT_kronT gl gr]; exact (bbT_self' h2 hT).symm
      have s1 := takeAx_mat_sh (bbT_rank T' (den l)) q js
      have s2 := takeAx_mat_sh (bbT_rank T' (den r)) q js
      refine ⟨⟨⟨wx, wy⟩, by rw [ex]; simp [Tensor.rank, s1], by rw [ey]; simp [Tensor.rank, s2]⟩, ?_⟩
      rw [ed, takeB_kron hq hlt (bbT_rank _ _) (bbT_rank _ _) rfl rfl, ← ex, ← ey]
      rfl
    | tiled n blk reps ax => exact dense hk h

theorem Calls.takeDense (a : Mat K) (sel : Sel) (axis : Int) : Calls fun B : Ops K => takeDense B a sel axis := by
  intro bad B C h
  exact (h.dense a).bind fun _ => .refl _

theorem Calls.take (m : ℕ) (a : Mat K) (sel : Sel) (axis : Int) : Calls fun B : Ops K => takeM B m a sel axis := by
  intro bad B C h
  induction m generalizing a sel axis with
  | zero => exact .refl _
  | succ m ih =>
    have hd : ∀ a sel axis, Below bad (Verif.takeDense B a sel axis) (Verif.takeDense C a sel axis) := fun a sel axis => Calls.takeDense a sel axis _ _ _ h
    have hf : ∀ x sel, Below bad (takeFactor (takeM B m) x sel) (takeFactor (takeM C m) x sel) := by
      intro x sel
      cases x <;> first | exact .refl _ | exact ih _ _ _
    simp only [takeM, takeStep]
    refine Below.bind (.refl _) fun n => Below.bind (.refl _) fun k => ?_
    cases a <;> simp only [takeLR] <;> below
    all_goals first | exact hd _ _ _ | exact hf _ _ | exact ih _ _ _ | exact h.add _ _

/-! ### C13 -/

/-- C13.  `B.take(a, sel, axis)` selects the rows, columns or batch elements `sel` names, in that order. -/
theorem C13_take (c : Cfg K) {a r : Mat K} {sel : Sel} {axis : Int} {k m : ℕ} {js : List ℕ} (ha : a.Valid) (h2 : 2 ≤ (den a).rank) (hk : AxisAt (den a).rank axis k)
    (ho : a.takeOk k) (hp : sel.Picks (dim (den a).sh k) js) (hr : Returns c (fun B => takeM B m a sel axis) r) (hx : Exact c fun B => takeM B m a sel axis) :
    r.Valid ∧ IsTake k js (den a) (den r) := by
  obtain ⟨n, h⟩ := hr.strict hx
  have hk' := axPos_iff.2 hk
  by_cases hlt : k < 2
  · obtain ⟨w, e⟩ := takeM_mat_ok (c.ok n) m hlt ha.own h2 hk' ho hp h
    exact ⟨⟨_, w⟩, IsTake.of_eq hk.1 e⟩
  · obtain ⟨q, rfl⟩ : ∃ q, k = q + 2 := ⟨k - 2, by omega⟩
    have hs := Tensor.sh_eq h2
    have hq : q < (den a).bt.length := by
      have := hk.1; unfold Tensor.rank at this; rw [hs] at this; simpa using this
    obtain ⟨w, e⟩ := takeM_batch_ok (c.ok n) (q := q) m hq ha.own h2 rfl hk' (by rw [hs] at hp; exact hp) h
    exact ⟨⟨_, w⟩, IsTake.of_eq hk.1 e⟩

/-- C13.  An axis out of range is rejected with a ValueError. -/
theorem C13_axis_rejected (c : Cfg K) {a : Mat K} {sel : Sel} {axis : Int} {m : ℕ} (ha : a.Valid) (h : ∀ k, ¬ AxisAt (den a).rank axis k) :
    Raises c (fun B => takeM B (m+1) a sel axis) .value := by
  refine ⟨by decide, 0, ?_⟩
  simp only [takeM, takeStep, ha.own.rankM]
  show (axPos _ _ >>= _) = _
  rw [axPos_error h]; rfl

/-- The hypotheses are met: rows of a Woodbury matrix, with a negative and a repeated index. -/
example : Ex.W.Valid ∧ AxisAt (den Ex.W).rank (-2) 1 ∧ Ex.W.takeOk 1 ∧ (Sel.idx [-1, 0, -1]).Picks (dim (den Ex.W).sh 1) [1, 0, 1] ∧
    ∃ r, Returns Ex.cfg (fun B => takeM B 3 Ex.W (.idx [-1, 0, -1]) (-2)) r ∧ Exact Ex.cfg fun B => takeM B 3 Ex.W (.idx [-1, 0, -1]) (-2) :=
  ⟨⟨[], Ex.W_wf _⟩, ⟨by decide, .inr rfl⟩, rfl, Sel.resolve_picks (by decide +kernel), Ex.meets (Calls.take _ _ _ _) (n := 8) (by decide +kernel)⟩
/-- Batch elements of a Kronecker product, with a mask. -/
example : (Mat.kron Ex.Db Ex.Mb).Valid ∧ AxisAt (den (Mat.kron Ex.Db Ex.Mb)).rank 0 2 ∧ (Mat.kron Ex.Db Ex.Mb).takeOk 2 ∧
    (Sel.mask [false, true]).Picks (dim (den (Mat.kron Ex.Db Ex.Mb)).sh 2) [1] ∧
    ∃ r, Returns Ex.cfg (fun B => takeM B 3 (.kron Ex.Db Ex.Mb) (.mask [false, true]) 0) r ∧ Exact Ex.cfg fun B => takeM B 3 (.kron Ex.Db Ex.Mb) (.mask [false, true]) 0 :=
  ⟨⟨[2], ⟨⟨by decide, Fits.refl _⟩, Ex.Mb_wf⟩, by decide, by decide⟩, ⟨by decide, .inl rfl⟩, trivial, Sel.resolve_picks (by decide +kernel),
    Ex.meets (Calls.take _ _ _ _) (n := 8) (by decide +kernel)⟩

/-- Without `takeOk` the claim is false: rows of a LowRank matrix with a batch of numeric left factors are taken along the batch. -/
theorem C13_lowrank_batched_refuted : ∃ a r : Mat ℚ, a.Valid ∧ (Sel.idx [0]).Picks (dim (den a).sh 1) [0] ∧ Exact Ex.cfg (fun B => takeM B 2 a (.idx [0]) (-2)) ∧
    Returns Ex.cfg (fun B => takeM B 2 a (.idx [0]) (-2)) r ∧ ¬ IsTake 1 [0] (den a) (den r) := by
  let a : Mat ℚ := .lr (.num (Ex.bm 2 2 1 [1, 2, 3, 4])) (.num (Ex.bm 2 2 1 [1, 2, 1, 2])) (.num (Ex.bm 2 1 1 [1, 1]))
  have wf : ∀ l : List ℚ, ∀ r c : ℕ, (Mat.num (Ex.bm 2 r c l)).WF [2] := fun l r c => ⟨by simp [Ex.bm, Tensor.rank], Fits.refl _⟩
  obtain ⟨r, hr, hP⟩ := Ex.of_holds (P := fun r : Mat ℚ => decide ((den r).sh ≠ [2, 1, 2])) (f := fun B => takeM B 2 a (.idx [0]) (-2)) (n := 6) (by decide +kernel)
  obtain ⟨_, _, hx⟩ := Ex.meets (Calls.take 2 a (.idx [0]) (-2)) (n := 6) (by decide +kernel)
  refine ⟨a, r, ⟨[2], ⟨wf _ _ _, wf _ _ _, wf _ _ _⟩, by decide, by decide, by decide⟩, Sel.resolve_picks (by decide +kernel), hx, hr, fun h => ?_⟩
  simp only [decide_eq_true_eq] at hP
  exact hP h.shape

/-- Indices out of range are not rejected by a Zero matrix. -/
theorem C13_zero_out_of_range : ∃ a r : Mat ℚ, a.Valid ∧ (∀ js, ¬ (Sel.idx [7]).Picks (dim (den a).sh 1) js) ∧ Returns Ex.cfg (fun B => takeM B 1 a (.idx [7]) (-2)) r := by
  obtain ⟨r, hr⟩ := Ex.exists_of_isOk (x := takeM (ops Ex.cfg.code 1) 1 (.zero [] 2 2 : Mat ℚ) (.idx [7]) (-2)) (by decide +kernel)
  refine ⟨.zero [] 2 2, r, ⟨[], Fits.nil _⟩, fun js h => ?_, ⟨1, hr⟩⟩
  cases h with
  | cons h _ => have : dim (den (.zero [] 2 2 : Mat ℚ)).sh 1 = 2 := rfl; omega

end Verif
