/-
More properties of the core: alignment of low-rank factors, exactness of low-rank sums, broadcasting, sums over a matrix axis,
triangular results, algebraic laws, independence of batch elements, rejection of incompatible operands.
-/
import Verif.Props01
import Verif.OpsNeg

set_option linter.unusedSectionVars false

namespace Verif

variable {K : Type} [Field K] [LinearOrder K]

/-! ### C32 -/

/-- C32.  The index lists returned by `align`; `-1` stands for the padding column of zeros. -/
structure IsAlignment (tol : K) (a b : Tensor K) (r : Align) : Prop where
  /-- The four lists are equally long. -/
  lengths : r.bPerm.length = r.aPerm.length ∧ r.aJoin.length = r.aPerm.length ∧ r.bJoin.length = r.aPerm.length
  /-- Without the padding, every column of `a` occurs exactly once. -/
  left : (r.aPerm.filter (· ≠ -1)).Perm ((List.range a.cols).map Int.ofNat)
  /-- Without the padding, every column of `b` occurs exactly once. -/
  right : (r.bPerm.filter (· ≠ -1)).Perm ((List.range b.cols).map Int.ofNat)
  /-- No slot is empty. -/
  filled : ∀ s ∈ r.aPerm.zip r.bPerm, s ≠ (-1, -1)
  /-- A slot of the joined factor takes the column of `a` if the slot has one, ... -/
  joinA : r.aJoin = r.aPerm
  /-- ... and otherwise the column of `b`: never both, never none. -/
  joinB : r.bJoin = List.zipWith (fun p q => if p = -1 then q else -1) r.aPerm r.bPerm
  /-- Columns of `a` and `b` that share a slot have, in the first batch element, a mean squared difference below the tolerance. -/
  shared : ∀ p q : ℕ, ((p : Int), (q : Int)) ∈ r.aPerm.zip r.bPerm → p < a.cols ∧ q < b.cols ∧
    (∑ x ∈ Finset.range (bd a.rows b.rows), (a.at' (fun _ => 0) x p - b.at' (fun _ => 0) x q)^2) / (bd a.rows b.rows : K) < tol

theorem enc_ne {o : Option ℕ} : enc o = -1 ↔ o = none := by
  cases o with
  | none => simp [enc]
  | some i => simp [enc]

theorem enc_natCast {o : Option ℕ} {p : ℕ} : enc o = (p : Int) ↔ o = some p := by
  cases o with
  | none => simp [enc]
  | some i => simp [enc]

theorem filter_enc (l : List Slot) (sel : Slot → Option ℕ) :
    (l.map fun s => enc (sel s)).filter (fun x => decide (x ≠ -1)) = (l.filterMap sel).map Int.ofNat := by
  induction l with
  | nil => rfl
  | cons s l ih =>
    cases h : sel s with
    | none => simpa [h, enc] using ih
    | some i =>
      have e : enc (some i) = (i : Int) := rfl
      simp only [List.map_cons, h, e, List.filterMap_cons]
      rw [List.filter_cons_of_pos (by simp), ih]
      rfl

theorem joinB_zip (L : List Slot) : L.map (fun s => enc (joinB s)) =
    List.zipWith (fun p q => if p = -1 then q else -1) (L.map fun s => enc s.1) (L.map fun s => enc s.2) := by
  induction L with
  | nil => rfl
  | cons s L ih =>
    rw [List.map_cons, List.map_cons, List.map_cons, List.zipWith_cons_cons, ih]
    congr 1
    rcases s with ⟨_ | p, q⟩ <;> simp [joinB, enc]

/-- C32.  What `align` returns, on all inputs. -/
theorem C32_align (c : Cfg K) {a b : Tensor K} {r : Align} (h : align c.code a b = .ok r) : IsAlignment c.tol a b r := by
  simp only [align, bind_ok_iff] at h
  obtain ⟨_, _, _, _, h⟩ := h
  obtain ⟨L, rfl, h1, h2, h3, h4⟩ := alignLoop_slots h
  have pa : (codeArgsort (colNorms a)).Perm (List.range (colNorms a).length) := List.perm_insertionSort _ _
  have pb : (codeArgsort (colNorms b)).Perm (List.range (colNorms b).length) := List.perm_insertionSort _ _
  simp only [colNorms, List.length_map, List.length_range] at pa pb
  have zp : (L.map fun s => enc s.1).zip (L.map fun s => enc s.2) = L.map fun s => (enc s.1, enc s.2) := by
    rw [List.zip_map']
  refine ⟨by simp, ?_, ?_, ?_, rfl, ?_, ?_⟩
  · rw [filter_enc, h1]; exact pa.map _
  · rw [filter_enc, h2]; exact pb.map _
  · simp only [zp]
    intro s hs
    obtain ⟨t, ht, rfl⟩ := List.mem_map.1 hs
    rintro hq
    simp only [Prod.mk.injEq, enc_ne] at hq
    apply h4
    have : t = (none, none) := Prod.ext hq.1 hq.2
    rwa [this] at ht
  · exact joinB_zip L
  · simp only [zp]
    intro p q hpq
    obtain ⟨t, ht, he⟩ := List.mem_map.1 hpq
    simp only [Prod.mk.injEq, enc_natCast] at he
    have : t = (some p, some q) := Prod.ext he.1 he.2
    rw [this] at ht
    have hp : p ∈ L.filterMap (·.1) := List.mem_filterMap.2 ⟨_, ht, rfl⟩
    have hq : q ∈ L.filterMap (·.2) := List.mem_filterMap.2 ⟨_, ht, rfl⟩
    rw [h1] at hp
    rw [h2] at hq
    refine ⟨by simpa using pa.mem_iff.1 hp, by simpa using pb.mem_iff.1 hq, ?_⟩
    have := h3 p q ht
    simp only [Cfg.code, codeEnv, codeColEq] at this
    split_ifs at this with hc
    simp only [Except.ok.injEq, decide_eq_true_eq] at this
    simp only [pow_two]
    exact this.2

/-- `align` always returns when the batches are not empty and the columns are equally long. -/
theorem C32_align_total (c : Cfg K) {a b : Tensor K} (ha : 0 ∉ a.bt) (hb : 0 ∉ b.bt) (hr : a.rows = b.rows) :
    ∃ r, align c.code a b = .ok r := by
  have hc : Compat [a.rows] [b.rows] := by rw [hr]; exact Compat.refl _
  have h1 : ∀ i j, ∃ t, c.code.colEq a b i j = .ok t := fun i j => by
    simp only [Cfg.code, codeEnv, codeColEq, if_pos hc, Except.ok.injEq, exists_eq']
  have h2 : ∀ (na nb : ℕ → K) as bs, ∃ r, alignLoop (c.code.colEq a b) na nb as bs = .ok r := by
    intro na nb as bs
    induction as, bs using alignLoop.induct with
    | case1 i as j bs ih1 ih2 ih3 =>
      rw [alignLoop]
      obtain ⟨t, ht⟩ := h1 i j
      obtain ⟨r1, e1⟩ := ih1
      obtain ⟨r2, e2⟩ := ih2
      obtain ⟨r3, e3⟩ := ih3
      rw [ht, e1, e2, e3]
      simp only [bind, Except.bind, pure, Except.pure]
      split_ifs <;> exact ⟨_, rfl⟩
    | case2 bs => rw [alignLoop]; exact ⟨_, rfl⟩
    | case3 as hne =>
      cases as with
      | nil => exact absurd rfl hne
      | cons x as => rw [alignLoop]; exact ⟨_, rfl⟩; exact hne
  unfold align guardE
  simp only [ha, hb, not_false_eq_true, if_true]
  exact h2 _ _ _ _

/-- Two columns shared, in a different order, one own column each. -/
example : align Ex.cfg.code (Ex.m 2 3 [1, 0, 5, 2, 1, 6]) (Ex.m 2 3 [0, 7, 1, 1, 8, 2]) =
    .ok ⟨[1, 0, 2, -1], [0, 2, -1, 1], [1, 0, 2, -1], [-1, -1, -1, 1]⟩ := by decide +kernel


/-! ### C28 -/

theorem length_drop_two {t : Tensor K} : t.bt.length = t.rank - 2 := by simp [Tensor.bt, Tensor.rank]

theorem broadcastBatchTo_total {a : Mat K} {s : Shp} (h : a.WF s) (h2 : 2 ≤ (den a).rank) (hf : a.noTiled = true)
    (hl : (den a).bt.length ≤ s.length) : ∃ r, broadcastBatchTo s a = .ok r := by
  induction a with
  | num t =>
    have hl' : t.rank ≤ s.length + 2 := by simp only [den, length_drop_two] at hl; omega
    have e := nBroadcastBatchTo_of (t := t) h2 h.fits hl'
    exact ⟨_, by simp only [broadcastBatchTo, e]; rfl⟩
  | zero bt r c => exact ⟨_, rfl⟩
  | dense t =>
    have hl' : t.rank ≤ s.length + 2 := by simp only [den, length_drop_two] at hl; omega
    have e := nBroadcastBatchTo_of (t := t) h2 h.fits hl'
    exact ⟨_, by simp only [broadcastBatchTo, e]; rfl⟩
  | diag t =>
    have hl' : t.rank ≤ s.length + 1 := by simp [den, Tensor.rank, Tensor.bt] at hl ⊢; omega
    have hfit : Fits (t.cols :: s) t.sh := (VRep.self h.1 h.2).fits
    refine ⟨.diag (bcast (t.cols :: s) t), ?_⟩
    simp only [broadcastBatchTo, bind_ok_iff, nBroadcastTo_ok, mkDiag_ok]
    exact ⟨_, ⟨⟨hfit, by simpa using hl'⟩, rfl⟩, by simp [Tensor.rank], rfl⟩
  | const t r c =>
    refine ⟨.const (bcast s t) r c, ?_⟩
    simp only [broadcastBatchTo, bind_ok_iff, nBroadcastTo_ok, pure_eq_ok]
    exact ⟨_, ⟨⟨h, by simpa [den, Tensor.rank, Tensor.bt] using hl⟩, rfl⟩, rfl⟩
  | lt t =>
    have hl' : t.rank ≤ s.length + 2 := by simp only [den, length_drop_two] at hl; omega
    refine ⟨.lt (bbT s t), ?_⟩
    have e := nBroadcastBatchTo_of (t := t) h2 h.fits hl'
    simp only [broadcastBatchTo, bind_ok_iff, mkLT_ok]
    exact ⟨_, e, bbT_rank _ _, rfl⟩
  | ut t =>
    have hl' : t.rank ≤ s.length + 2 := by simp only [den, length_drop_two] at hl; omega
    refine ⟨.ut (bbT s t), ?_⟩
    have e := nBroadcastBatchTo_of (t := t) h2 h.fits hl'
    simp only [broadcastBatchTo, bind_ok_iff, mkUT_ok]
    exact ⟨_, e, bbT_rank _ _, rfl⟩
  | lr l r m ihl ihr ihm =>
    obtain ⟨⟨wl, wr, wm⟩, ⟨rl, rr, rm⟩, h1, h3⟩ := h
    simp only [Mat.noTiled, Bool.and_eq_true] at hf
    simp only [den, mm_bt, tr_bt, length_bsh] at hl
    obtain ⟨l', el⟩ := ihl wl rl hf.1.1 (by omega)
    obtain ⟨r', er⟩ := ihr wr rr hf.1.2 (by omega)
    obtain ⟨m', em⟩ := ihm wm rm hf.2 (by omega)
    obtain ⟨wl', _, dl, _⟩ := broadcastBatchTo_ok wl wl.fits el
    obtain ⟨wr', _, dr, _⟩ := broadcastBatchTo_ok wr wr.fits er
    obtain ⟨wm', _, dm, _⟩ := broadcastBatchTo_ok wm wm.fits em
    refine ⟨.lr l' r' m', ?_⟩
    simp only [broadcastBatchTo, el, er, em, bind_ok_iff, Except.ok.injEq, exists_eq_left']
    refine mkLR_ok wl' wr' wm' ?_ ?_ ?_
    · rw [dl, dr, dm]; exact ⟨bbT_rank _ _, bbT_rank _ _, bbT_rank _ _⟩
    · rw [dl, dm]; exact h1
    · rw [dr, dm]; exact h3
  | wb d l r m ihl ihr ihm =>
    obtain ⟨⟨hd, fd⟩, ⟨wl, wr, wm⟩, ⟨rl, rr, rm⟩, ⟨h1, h3⟩, h4, h5⟩ := h
    simp only [Mat.noTiled, Bool.and_eq_true] at hf
    simp only [den, zipB_bt, diagC_bt, mm_bt, tr_bt, length_bsh] at hl
    obtain ⟨l', el⟩ := ihl wl rl hf.1.1 (by omega)
    obtain ⟨r', er⟩ := ihr wr rr hf.1.2 (by omega)
    obtain ⟨m', em⟩ := ihm wm rm hf.2 (by omega)
    obtain ⟨wl', _, dl, _⟩ := broadcastBatchTo_ok wl wl.fits el
    obtain ⟨wr', _, dr, _⟩ := broadcastBatchTo_ok wr wr.fits er
    obtain ⟨wm', _, dm, _⟩ := broadcastBatchTo_ok wm wm.fits em
    have hfit : Fits (d.cols :: s) d.sh := (VRep.self hd fd).fits
    have hlen : d.rank ≤ s.length + 1 := by
      have : d.sh.tail.length ≤ s.length := by omega
      simp [Tensor.rank] at this ⊢; omega
    have r2 : 2 ≤ (den l').rank ∧ 2 ≤ (den r').rank ∧ 2 ≤ (den m').rank := by
      rw [dl, dr, dm]; exact ⟨bbT_rank _ _, bbT_rank _ _, bbT_rank _ _⟩
    have e1 : (den l').cols = (den m').rows := by rw [dl, dm]; exact h1
    have e2 : (den r').cols = (den m').cols := by rw [dr, dm]; exact h3
    have hw' : Mat.WF s (.wb (bcast (d.cols :: s) d) l' r' m') := by
      refine ⟨⟨by simp [Tensor.rank], Fits.refl _⟩, ⟨wl', wr', wm'⟩, r2, ⟨e1, e2⟩, ?_, ?_⟩
      · rw [dl]; exact h4
      · rw [dr]; exact h5
    refine ⟨.wb (bcast (d.cols :: s) d) l' r' m', ?_⟩
    simp only [broadcastBatchTo, el, er, em, bind_ok_iff, Except.ok.injEq, exists_eq_left', nBroadcastTo_ok, mkDiag_ok]
    exact ⟨_, ⟨⟨hfit, by simpa using hlen⟩, rfl⟩, _, ⟨by simp [Tensor.rank], rfl⟩, _, mkLR_ok wl' wr' wm' r2 e1 e2, mkWB_ok hw'⟩
  | kron l r ihl ihr =>
    obtain ⟨⟨wl, wr⟩, rl, rr⟩ := h
    simp only [Mat.noTiled, Bool.and_eq_true] at hf
    simp only [den, kronT_bt, length_bsh] at hl
    obtain ⟨l', el⟩ := ihl wl rl hf.1 (by omega)
    obtain ⟨r', er⟩ := ihr wr rr hf.2 (by omega)
    exact ⟨.kron l' r', by simp only [broadcastBatchTo, el, er]; rfl⟩
  | tiled n blk reps axis => simp [Mat.noTiled] at hf

/-- C28.  `B.broadcast_batch_to(a, *batch)` returns for every legal target, keeps the class, and denotes the numpy broadcast. -/
theorem C28_broadcast_batch_to {a : Mat K} {s : Shp} (ha : a.Valid) (h2 : 2 ≤ (den a).rank) (hf : a.noTiled = true)
    (hs : Fits s (den a).bt) (hl : (den a).bt.length ≤ s.length) :
    ∃ r, broadcastBatchTo s a = .ok r ∧ r.Valid ∧ r.kind = a.kind ∧
      IsBroadcast ((den a).cols :: (den a).rows :: s) (den a) (den r) := by
  obtain ⟨S, h⟩ := ha
  have h' := h.mono hs
  obtain ⟨r, e⟩ := broadcastBatchTo_total h' h2 hf hl
  obtain ⟨w, _, d, k⟩ := broadcastBatchTo_ok h' hs e
  exact ⟨r, e, ⟨_, w⟩, k, IsBroadcast.of_eq (Fits.mat h2 rfl rfl hs) d⟩

/-- C28.  `B.broadcast_to(a, *shape)`, when it returns for a legal target, denotes the numpy broadcast. -/
theorem C28_broadcast_to (c : Cfg K) {a r : Mat K} {n k : ℕ} {s : Shp} (ha : a.Valid) (hm : a.isAM = true)
    (hs : Fits (n :: k :: s) (den a).sh) (hl : (den a).bt.length ≤ s.length)
    (hr : Returns c (fun B => broadcastTo B a (n :: k :: s)) r) (hx : Exact c fun B => broadcastTo B a (n :: k :: s)) :
    r.Valid ∧ IsBroadcast (n :: k :: s) (den a) (den r) := by
  obtain ⟨f, h⟩ := hr.strict hx
  have hb : Fits s (den a).bt := by simpa [Tensor.bt] using hs.drop 2
  obtain ⟨S, w⟩ := ha
  have w := w.mono hb
  obtain ⟨wr, e⟩ := broadcastTo_ok (c.ok f) w hm (Fits.refl _) hs (by simp only [length_drop_two] at hl; omega) h
  exact ⟨⟨_, wr⟩, IsBroadcast.of_eq hs e⟩

example : Ex.W.Valid ∧ 2 ≤ (den Ex.W).rank ∧ Ex.W.noTiled = true ∧ Fits [3, 4] (den Ex.W).bt ∧ (den Ex.W).bt.length ≤ 2 :=
  ⟨⟨[], Ex.W_wf _⟩, by decide, rfl, Fits.nil _, by decide⟩
example : ∃ r, Returns Ex.cfg (fun B => broadcastTo B Ex.Kr [4, 4, 3]) r ∧ Exact Ex.cfg fun B => broadcastTo B Ex.Kr [4, 4, 3] :=
  Ex.meets (fun _ _ _ h => broadcastTo_below h _ _) (n := 4) (by decide +kernel)

/-! ### C10 -/

/-- C10.  Whatever triangular matrix addition, multiplication, matrix multiplication or transposition returns, it holds a triangular matrix. -/
def TriangularOk (r : Mat K) : Prop :=
  (∀ t, r = .lt t → t.rows = t.cols ∧ LowerTri t) ∧ (∀ t, r = .ut t → t.rows = t.cols ∧ UpperTri t)

theorem Mat.Valid.triangular {r : Mat K} (h : r.Valid) : TriangularOk r := by
  obtain ⟨S, h⟩ := h
  constructor
  · rintro t rfl; exact h.2.2
  · rintro t rfl; exact h.2.2

theorem C10_add (c : Cfg K) {a b r : Mat K} (ha : a.Valid) (hb : b.Valid) (hc : BatchCompat a b) (hs : NoStretch a b)
    (hr : Returns c (fun B => B.add a b) r) (hx : Exact c fun B => B.add a b) : TriangularOk r :=
  (C01_add c ha hb hc hs hr hx).1.triangular

theorem C10_multiply (c : Cfg K) {a b r : Mat K} (ha : a.Valid) (hb : b.Valid) (hc : BatchCompat a b) (hs : MulSafe a b)
    (hr : Returns c (fun B => B.mul a b) r) (hx : Exact c fun B => B.mul a b) : TriangularOk r :=
  (C02_multiply c ha hb hc hs hr hx).1.triangular

theorem C10_matmul (c : Cfg K) {ta tb : Bool} {a b r : Mat K} (ha : a.Valid) (hb : b.Valid) (hc : BatchCompat a b)
    (h2a : 2 ≤ (den a).rank) (h2b : 2 ≤ (den b).rank)
    (hr : Returns c (fun B => B.matmul ta tb a b) r) (hx : Exact c fun B => B.matmul ta tb a b) : TriangularOk r :=
  (C03_matmul c ha hb hc h2a h2b hr hx).1.triangular

theorem C10_transpose {a r : Mat K} (ha : a.Valid) (h2 : 2 ≤ (den a).rank) (h : transposeM a = .ok r) : TriangularOk r := by
  obtain ⟨r', h', v, _⟩ := C06_transpose ha h2
  rw [h] at h'; cases h'; exact v.triangular

/-- Products and sums of triangular matrices do return triangular matrices. -/
example : ∃ r, Returns Ex.cfg (fun B => B.matmul false false Ex.L Ex.L) r ∧ r.kind = some .lt := Ex.kindIs (n := 6) (by decide +kernel)
example : ∃ r, Returns Ex.cfg (fun B => B.add Ex.D Ex.U) r ∧ r.kind = some .ut := Ex.kindIs (n := 6) (by decide +kernel)

/-! ### C12, matrix axes -/

/-- C12.  Sums over the last (`k = 0`) or the second to last axis (`k = 1`). -/
theorem C12_sum_matrix_axis (c : Cfg K) {k : ℕ} {a : Mat K} {t : Tensor K} (hk : k ≤ 1) (ha : a.Valid) (h2 : 2 ≤ (den a).rank)
    (hr : Returns c (fun B => B.sumM k a) t) (hx : Exact c fun B => B.sumM k a) : IsSumAxis k (den a) t := by
  obtain ⟨n, h⟩ := hr.strict hx
  exact IsSumAxis.of_eq (by omega) ((c.ok n).sumM hk ha.own h2 h)

example : ∃ r, Returns Ex.cfg (fun B => B.sumM 1 (.kron Ex.W Ex.R)) r ∧ Exact Ex.cfg fun B => B.sumM 1 (.kron Ex.W Ex.R) :=
  Ex.meets (Calls.sumM _ _) (n := 8) (by decide +kernel)

/-! ### C18, products -/

/-- C18.  The product of a Kronecker matrix with any matrix is the product with the dense Kronecker matrix, whichever order the cost estimate chooses. -/
theorem C18_matmul_kron (c : Cfg K) {ta tb : Bool} {l r b x : Mat K} {k : Tensor K} {S : Shp} (hl : l.WF S) (hr : r.WF S) (hb : b.WF S)
    (h2l : 2 ≤ (den l).rank) (h2r : 2 ≤ (den r).rank) (h2b : 2 ≤ (den b).rank)
    (hk : IsKron (den l) (den r) k)
    (hx : Returns c (fun B => B.matmul ta tb (.kron l r) b) x) (he : Exact c fun B => B.matmul ta tb (.kron l r) b) :
    IsMatProd (if ta then tr k else k) (if tb then tr (den b) else den b) (den x) := by
  have w : (Mat.kron l r).WF S := ⟨⟨hl, hr⟩, h2l, h2r⟩
  have e : k = den (.kron l r) := by
    have h' := IsKron.of_eq (hl.good h2l) (hr.good h2r) (r := den (.kron l r)) rfl
    refine Tensor.ext_mat hk.shape h'.shape ?_
    intro β i j hβ hi hj
    have e1 : (den r).rows ≠ 0 := by rintro h0; rw [h0] at hi; simp at hi
    have e2 : (den r).cols ≠ 0 := by rintro h0; rw [h0] at hj; simp at hj
    obtain ⟨i1, i2⟩ := kron_lt hi
    obtain ⟨j1, j2⟩ := kron_lt hj
    have a1 := hk.entries β _ _ _ _ (by rw [Tensor.bt, hk.shape]; exact hβ) i1 j1 i2 j2
    have a2 := h'.entries β _ _ _ _ (by rw [Tensor.bt, h'.shape]; exact hβ) i1 j1 i2 j2
    rw [Nat.div_add_mod', Nat.div_add_mod'] at a1 a2
    rw [a1, a2]
  rw [e]
  exact (C03_matmul c ⟨_, w⟩ ⟨_, hb⟩ (w.batchCompat hb) (w.rank rfl) h2b hx he).2

/-! ### C39 -/

/-- Two matrices agree in the batch element `β`. -/
def AgreeAt (β : Idx) (a b : Tensor K) : Prop := ∀ i j, a.at' β i j = b.at' β i j

/-- C39.  Changing other batch elements of the operands of an addition does not change batch element `β` of the result. -/
theorem C39_add (c : Cfg K) {β : Idx} {a b r a' b' r' : Mat K} (ha : a.Valid) (hb : b.Valid) (hc : BatchCompat a b) (hs : NoStretch a b)
    (ha' : a'.Valid) (hb' : b'.Valid) (hc' : BatchCompat a' b') (hs' : NoStretch a' b')
    (hr : Returns c (fun B => B.add a b) r) (hx : Exact c fun B => B.add a b)
    (hr' : Returns c (fun B => B.add a' b') r') (hx' : Exact c fun B => B.add a' b')
    (h1 : AgreeAt β (den a) (den a')) (h2 : AgreeAt β (den b) (den b')) (hsh : (den r').sh = (den r).sh) :
    ∀ i j, InRange (den r).sh (icons j (icons i β)) → (den r).at' β i j = (den r').at' β i j := by
  intro i j hij
  obtain ⟨_, e⟩ := C01_add c ha hb hc hs hr hx
  obtain ⟨_, e'⟩ := C01_add c ha' hb' hc' hs' hr' hx'
  have := e.entries _ hij
  have h3 := e'.entries _ (by rw [hsh]; exact hij)
  have q1 := h1 i j
  have q2 := h2 i j
  unfold Tensor.at' at *
  rw [this, h3, q1, q2]

theorem C39_multiply (c : Cfg K) {β : Idx} {a b r a' b' r' : Mat K} (ha : a.Valid) (hb : b.Valid) (hc : BatchCompat a b) (hs : MulSafe a b)
    (ha' : a'.Valid) (hb' : b'.Valid) (hc' : BatchCompat a' b') (hs' : MulSafe a' b')
    (hr : Returns c (fun B => B.mul a b) r) (hx : Exact c fun B => B.mul a b)
    (hr' : Returns c (fun B => B.mul a' b') r') (hx' : Exact c fun B => B.mul a' b')
    (h1 : AgreeAt β (den a) (den a')) (h2 : AgreeAt β (den b) (den b')) (hsh : (den r').sh = (den r).sh) :
    ∀ i j, InRange (den r).sh (icons j (icons i β)) → (den r).at' β i j = (den r').at' β i j := by
  intro i j hij
  obtain ⟨_, e⟩ := C02_multiply c ha hb hc hs hr hx
  obtain ⟨_, e'⟩ := C02_multiply c ha' hb' hc' hs' hr' hx'
  have := e.entries _ hij
  have h3 := e'.entries _ (by rw [hsh]; exact hij)
  have q1 := h1 i j
  have q2 := h2 i j
  unfold Tensor.at' at *
  rw [this, h3, q1, q2]

theorem C39_matmul (c : Cfg K) {β : Idx} {a b r a' b' r' : Mat K} (ha : a.Valid) (hb : b.Valid) (hc : BatchCompat a b)
    (ha' : a'.Valid) (hb' : b'.Valid) (hc' : BatchCompat a' b')
    (k1 : 2 ≤ (den a).rank) (k2 : 2 ≤ (den b).rank) (k1' : 2 ≤ (den a').rank) (k2' : 2 ≤ (den b').rank)
    (hr : Returns c (fun B => B.matmul false false a b) r) (hx : Exact c fun B => B.matmul false false a b)
    (hr' : Returns c (fun B => B.matmul false false a' b') r') (hx' : Exact c fun B => B.matmul false false a' b')
    (h1 : AgreeAt β (den a) (den a')) (h2 : AgreeAt β (den b) (den b')) (hk : (den a').cols = (den a).cols) (hsh : (den r').sh = (den r).sh) :
    ∀ i j, InRange (den r).bt β → i < (den r).rows → j < (den r).cols → (den r).at' β i j = (den r').at' β i j := by
  intro i j hβ hi hj
  obtain ⟨_, e⟩ := C03_matmul c ha hb hc k1 k2 hr hx
  obtain ⟨_, e'⟩ := C03_matmul c ha' hb' hc' k1' k2' hr' hx'
  have q1 := e.entries β i j hβ hi hj
  have q2 := e'.entries β i j (by rw [Tensor.bt, hsh]; exact hβ) (by rw [Tensor.rows, hsh]; exact hi) (by rw [Tensor.cols, hsh]; exact hj)
  simp only [Bool.false_eq_true, if_false] at q1 q2
  rw [q1, q2, hk]
  refine Finset.sum_congr rfl fun x _ => ?_
  rw [h1, h2]

/-- A batch of two matrices whose second elements differ. -/
example : AgreeAt (fun _ => 0) (den Ex.Mb) (den (.dense (Ex.bm 2 2 2 [1, 2, 3, 4, 0, 0, 0, 0]) : Mat ℚ)) := by
  intro i j
  have e : ∀ l : List ℚ, (Ex.bm 2 2 2 l).at' (fun _ => 0) i j = l.getD ((if i < 2 then i else 0) * 2 + (if j < 2 then j else 0)) 0 := by
    intro l
    simp only [Tensor.at', Ex.bm, ofFn]
    simp [clip, dim]
  simp only [den, Ex.Mb, e]
  split_ifs <;> first | interval_cases i <;> interval_cases j <;> rfl | interval_cases i <;> rfl | interval_cases j <;> rfl | rfl

end Verif
