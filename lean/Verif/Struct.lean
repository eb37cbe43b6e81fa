/-
Shapes, transposition and batch broadcasting are right: proofs by structural induction.
-/
import Verif.Spec
import Verif.TensorAlg

namespace Verif

variable {K : Type}

theorem dim_padS (n : ℕ) (s : Shp) (k : ℕ) : dim (padS n s) k = dim s k := by
  unfold padS dim
  rw [List.getD_eq_getElem?_getD, List.getD_eq_getElem?_getD]
  by_cases h : k < s.length
  · rw [List.getElem?_append_left h]
  · rw [List.getElem?_append_right (by omega), List.getElem?_eq_none (l := s) (by omega)]
    by_cases h' : k - s.length < n - s.length
    · simp [h']
    · rw [List.getElem?_eq_none (by simpa using h')]

theorem length_padS (n : ℕ) (s : Shp) (h : s.length ≤ n) : (padS n s).length = n := by
  simp [padS]; omega

theorem dim_set (s : Shp) (p d q : ℕ) (h : p < s.length) : dim (s.set p d) q = if q = p then d else dim s q := by
  unfold dim
  rw [List.getD_eq_getElem?_getD, List.getD_eq_getElem?_getD, List.getElem?_set]
  split_ifs with h1 h2 h2
  · simp
  · exact absurd h1.symm h2
  · exact absurd h2.symm h1
  · rfl

theorem dim_setDim (S : Shp) (p d q : ℕ) : dim (setDim S p d) q = if q = p then d else dim S q := by
  unfold setDim
  rw [dim_set _ _ _ _ (by simp [padS]; omega), dim_padS]

theorem mem_replicate_one {n d : ℕ} (h : d ∈ List.replicate n 1) : d = 1 := List.eq_of_mem_replicate h

theorem zero_mem_padS (n : ℕ) (s : Shp) : 0 ∈ padS n s ↔ 0 ∈ s := by
  simp [padS]

theorem padT_get [Zero K] (n : ℕ) (t : Tensor K) (i : Idx) : (padT n t).get i = t.get i := by
  unfold padT ofFn
  simp only [zero_mem_padS]
  rw [t.canon i]
  split_ifs
  · rfl
  · congr 1; funext k; simp [clip, dim_padS]

@[simp] theorem padT_sh [Zero K] (n : ℕ) (t : Tensor K) : (padT n t).sh = padS n t.sh := rfl

/-! ### Folding broadcasts -/

theorem foldl_bsh (l : List Shp) (s : Shp) : l.foldl bsh s = bsh s (l.foldr bsh []) := by
  induction l generalizing s with
  | nil => simp
  | cons a l ih => rw [List.foldl_cons, ih, List.foldr_cons, bsh_assoc]

theorem foldlM_bsE {U : Shp} (l : List Shp) (s : Shp) (hs : Fits U s) (h : ∀ t ∈ l, Fits U t) :
    l.foldlM bsE s = .ok (l.foldl bsh s) := by
  induction l generalizing s with
  | nil => rfl
  | cons a l ih =>
    have ha := h a (by simp)
    rw [List.foldlM_cons, show bsE s a = .ok (bsh s a) from bsE_ok.2 ⟨hs.compat ha, rfl⟩]
    exact ih _ (hs.bsh ha) fun t ht => h t (by simp [ht])

theorem eraseIdx_bsh (k : ℕ) (s t : Shp) : (bsh s t).eraseIdx k = bsh (s.eraseIdx k) (t.eraseIdx k) := by
  induction k generalizing s t with
  | zero => cases s <;> cases t <;> simp
  | succ k ih => cases s <;> cases t <;> simp [ih]

theorem eraseIdx_foldr_bsh (k : ℕ) (l : List Shp) :
    (l.foldr bsh []).eraseIdx k = (l.map fun s => s.eraseIdx k).foldr bsh [] := by
  induction l with
  | nil => simp
  | cons a l ih => simp [eraseIdx_bsh, ih]

theorem dim_eraseIdx (s : Shp) (k p : ℕ) : dim (s.eraseIdx k) p = if p < k then dim s p else dim s (p+1) := by
  unfold dim
  simp only [List.getD_eq_getElem?_getD, List.getElem?_eraseIdx]
  split_ifs <;> rfl

theorem length_foldr_bsh {n : ℕ} (l : List Shp) (hl : l ≠ []) (h : ∀ s ∈ l, s.length = n) :
    (l.foldr bsh []).length = n := by
  induction l with
  | nil => exact absurd rfl hl
  | cons a l ih =>
    rw [List.foldr_cons, length_bsh]
    have ha := h a (by simp)
    by_cases hl' : l = []
    · subst hl'; simp [ha]
    · rw [ih hl' fun s hs => h s (by simp [hs])]; omega

theorem dim_foldr_bsh_one (l : List Shp) (k : ℕ) (h : ∀ s ∈ l, dim s k = 1) : dim (l.foldr bsh []) k = 1 := by
  induction l with
  | nil => simp
  | cons a l ih => rw [List.foldr_cons, dim_bsh, h a (by simp), ih fun s hs => h s (by simp [hs])]; simp

theorem fits_foldr_bsh {U : Shp} (l : List Shp) (h : ∀ s ∈ l, Fits U s) : Fits U (l.foldr bsh []) := by
  induction l with
  | nil => exact Fits.nil _
  | cons a l ih => exact (h a (by simp)).bsh (ih fun s hs => h s (by simp [hs]))

theorem fits_foldr_bsh_mem {U : Shp} (l : List Shp) (h : ∀ s ∈ l, Fits U s) {s : Shp} (hs : s ∈ l) :
    Fits (l.foldr bsh []) s := by
  induction l with
  | nil => simp at hs
  | cons a l ih =>
    have ha := h a (by simp)
    have hl := fits_foldr_bsh l fun s hs => h s (by simp [hs])
    have hc := ha.compat hl
    rcases List.mem_cons.1 hs with rfl | hs
    · exact hc.fits_left
    · exact hc.fits_right.trans (ih (fun s hs => h s (by simp [hs])) hs)

theorem le_foldl_max (l : List ℕ) (m : ℕ) : m ≤ l.foldl max m ∧ ∀ x ∈ l, x ≤ l.foldl max m := by
  induction l generalizing m with
  | nil => simp
  | cons a l ih =>
    have := ih (max m a)
    refine ⟨by simp; omega, ?_⟩
    intro x hx
    rcases List.mem_cons.1 hx with rfl | hx
    · simp only [List.foldl_cons]; omega
    · exact this.2 x hx

/-! ### Tiled blocks: shape -/

section tiled
variable [CommRing K] {n : ℕ} (blk : Fin n → Tensor K) (reps : Fin n → ℕ)

/-- The common rank of the blocks. -/
def maxRank : ℕ := (List.ofFn fun i => (blk i).rank).foldl max 0

theorem le_maxRank (i : Fin n) : (blk i).rank ≤ maxRank blk :=
  (le_foldl_max _ 0).2 _ ((List.mem_ofFn' _ _).2 ⟨i, rfl⟩)

/-- One block with its repetitions. -/
def tileOf (k : ℕ) (i : Fin n) : Tensor K := tileAx k (reps i) (padT (maxRank blk) (blk i))

theorem tileOf_sh (k : ℕ) (i : Fin n) :
    (tileOf blk reps k i).sh = (padS (maxRank blk) (blk i).sh).set k (reps i * dim (blk i).sh k) := by
  simp [tileOf, tileAx, dim_padS]

theorem tileOf_length (k : ℕ) (i : Fin n) : (tileOf blk reps k i).sh.length = maxRank blk := by
  rw [tileOf_sh, List.length_set, length_padS _ _ (le_maxRank blk i)]

theorem dim_tileOf {k : ℕ} (hk : k < maxRank blk) (i : Fin n) (p : ℕ) :
    dim (tileOf blk reps k i).sh p = if p = k then reps i * dim (blk i).sh k else dim (blk i).sh p := by
  rw [tileOf_sh, dim_set _ _ _ _ (by rw [length_padS _ _ (le_maxRank blk i)]; exact hk), dim_padS]

theorem tiledT_eq (k : ℕ) : tiledT blk reps k =
    ofFn ((((List.ofFn (tileOf blk reps k)).map fun t => t.sh.set k 1).foldr bsh []).set k
      (concatDim k (List.ofFn (tileOf blk reps k)))) (concatGet k (List.ofFn (tileOf blk reps k))) := rfl

/-- The shape of tiled blocks before the size along the axis is set. -/
def tiledBase (k : ℕ) : Shp := ((List.ofFn (tileOf blk reps k)).map fun t => t.sh.set k 1).foldr bsh []

theorem tiledT_sh (k : ℕ) : (tiledT blk reps k).sh = (tiledBase blk reps k).set k (concatDim k (List.ofFn (tileOf blk reps k))) := rfl

theorem length_tiledBase (hn : n ≠ 0) (k : ℕ) : (tiledBase blk reps k).length = maxRank blk := by
  apply length_foldr_bsh
  · intro h
    have := congrArg List.length h
    simp at this; exact hn this
  · intro s hs
    simp only [List.mem_map, List.mem_ofFn] at hs
    obtain ⟨_, ⟨i, rfl⟩, rfl⟩ := hs
    rw [List.length_set, tileOf_length]

theorem concatDim_tileOf {k : ℕ} (hk : k < maxRank blk) :
    concatDim k (List.ofFn (tileOf blk reps k)) = (List.ofFn fun i => reps i * dim (blk i).sh k).sum := by
  unfold concatDim
  congr 1
  rw [List.map_ofFn]
  congr 1
  funext i
  simp [dim_tileOf blk reps hk]

theorem insertIdx_eraseIdx_set (s : Shp) (k d : ℕ) (hk : k < s.length) : (s.eraseIdx k).insertIdx k d = s.set k d := by
  induction s generalizing k with
  | nil => simp at hk
  | cons a s ih =>
    cases k with
    | zero => simp
    | succ k => simp at hk; simp [ih k hk]

theorem eraseIdx_set (s : Shp) (k d : ℕ) : (s.set k d).eraseIdx k = s.eraseIdx k := by
  induction s generalizing k with
  | nil => simp
  | cons a s ih => cases k <;> simp [ih]

/-- The shape the code computes for tiled blocks is that of their concatenation. -/
theorem tiledShape_ok {U : Shp} {k : ℕ} {axis : Int} (hn : n ≠ 0) (hk : axPos (maxRank blk) axis = .ok k)
    (hU : ∀ i p, p ≠ k → dim (blk i).sh p = 1 ∨ dim (blk i).sh p = dim U p) :
    tiledShape (fun i => (blk i).sh) reps axis = .ok (tiledT blk reps k).sh := by
  have hk' := axPos_lt hk
  unfold tiledShape
  rw [if_neg hn]
  simp only [show (List.ofFn fun i => (blk i).sh.length).foldl max 0 = maxRank blk from rfl, hk]
  set pad := fun i => (blk i).sh ++ List.replicate (maxRank blk - (blk i).sh.length) 1 with hpad
  have hpad' : ∀ i, pad i = padS (maxRank blk) (blk i).sh := fun _ => rfl
  have hl : List.ofFn (fun i => (pad i).eraseIdx k) = (List.ofFn (tileOf blk reps k)).map fun t => (t.sh.set k 1).eraseIdx k := by
    rw [List.map_ofFn]
    congr 1
    funext i
    simp [tileOf_sh, eraseIdx_set, hpad']
  have hbase : (List.ofFn fun i => (pad i).eraseIdx k).foldr bsh [] = (tiledBase blk reps k).eraseIdx k := by
    rw [tiledBase, eraseIdx_foldr_bsh, hl, List.map_map]; rfl
  have hfit : ∀ t ∈ (List.ofFn fun i => (pad i).eraseIdx k), Fits (U.eraseIdx k) t := by
    intro t ht
    rw [List.mem_ofFn] at ht
    obtain ⟨i, rfl⟩ := ht
    intro p
    rw [hpad', dim_eraseIdx, dim_eraseIdx, dim_padS, dim_padS]
    split_ifs with h
    · exact hU i p (by omega)
    · exact hU i (p+1) (by omega)
  obtain ⟨h0, l, hcons⟩ : ∃ h0 l, (List.ofFn fun i => (pad i).eraseIdx k) = h0 :: l := by
    cases hc : (List.ofFn fun i => (pad i).eraseIdx k) with
    | nil => have := congrArg List.length hc; simp at this; exact absurd this hn
    | cons a l => exact ⟨a, l, rfl⟩
  rw [hcons] at hfit hbase
  rw [hcons]
  simp only [List.tail_cons, List.headD_cons]
  rw [foldlM_bsE l h0 (hfit _ (by simp)) fun t ht => hfit t (by simp [ht]), foldl_bsh]
  rw [List.foldr_cons] at hbase
  rw [hbase]
  show Except.ok _ = _
  congr 1
  rw [tiledT_sh, concatDim_tileOf blk reps hk', insertIdx_eraseIdx_set]
  · congr 3
    funext i
    exact congrArg _ (dim_padS _ _ _)
  · rw [length_tiledBase blk reps hn]; exact hk'

theorem dim_tiledBase_k {k : ℕ} (hk : k < maxRank blk) : dim (tiledBase blk reps k) k = 1 := by
  apply dim_foldr_bsh_one
  intro s hs
  simp only [List.mem_map, List.mem_ofFn] at hs
  obtain ⟨_, ⟨i, rfl⟩, rfl⟩ := hs
  rw [dim_set _ _ _ _ (by rw [tileOf_length]; exact hk), if_pos rfl]

theorem fits_tiledBase {U : Shp} {k : ℕ} (hk : k < maxRank blk)
    (hU : ∀ i p, p ≠ k → dim (blk i).sh p = 1 ∨ dim (blk i).sh p = dim U p) :
    Fits U (tiledBase blk reps k) ∧ ∀ i, Fits (tiledBase blk reps k) ((tileOf blk reps k i).sh.set k 1) := by
  have h : ∀ s ∈ ((List.ofFn (tileOf blk reps k)).map fun t => t.sh.set k 1), Fits U s := by
    intro s hs
    simp only [List.mem_map, List.mem_ofFn] at hs
    obtain ⟨_, ⟨i, rfl⟩, rfl⟩ := hs
    intro p
    rw [dim_set _ _ _ _ (by rw [tileOf_length]; exact hk), dim_tileOf blk reps hk]
    split_ifs with h
    · simp
    · exact hU i p h
  refine ⟨fits_foldr_bsh _ h, fun i => fits_foldr_bsh_mem _ h ?_⟩
  simp only [List.mem_map, List.mem_ofFn]
  exact ⟨_, ⟨i, rfl⟩, rfl⟩

theorem dim_tiledT (hn : n ≠ 0) {k : ℕ} (hk : k < maxRank blk) (p : ℕ) :
    dim (tiledT blk reps k).sh p = if p = k then (List.ofFn fun i => reps i * dim (blk i).sh k).sum else dim (tiledBase blk reps k) p := by
  rw [tiledT_sh, concatDim_tileOf blk reps hk, dim_set _ _ _ _ (by rw [length_tiledBase blk reps hn]; exact hk)]

theorem tiledT_rank (hn : n ≠ 0) (k : ℕ) : (tiledT blk reps k).rank = maxRank blk := by
  rw [Tensor.rank, tiledT_sh, List.length_set, length_tiledBase blk reps hn]

end tiled

/-! ### Shapes of well-formed matrices -/

section
variable [CommRing K]

theorem maxRank_ge {n : ℕ} (blk : Fin n → Tensor K) (hn : n ≠ 0) (h : ∀ i, 2 ≤ (blk i).rank) : 2 ≤ maxRank blk :=
  (h ⟨0, Nat.pos_of_ne_zero hn⟩).trans (le_maxRank blk _)

theorem tiledPos_eq {n : ℕ} {blk : Fin n → Tensor K} {axis : Int} {k} (h : axPos (maxRank blk) axis = .ok k) :
    tiledPos blk axis = k := by
  unfold tiledPos
  rw [show (List.ofFn fun i => (blk i).rank).foldl max 0 = maxRank blk from rfl, h]

/-- The shape all blocks of a TiledBlocks broadcast to, except along the axis. -/
def tiledUniv (S : Shp) {n : ℕ} (blk : Fin n → Tensor K) : Shp :=
  if h : n = 0 then S else (blk ⟨0, Nat.pos_of_ne_zero h⟩).cols :: (blk ⟨0, Nat.pos_of_ne_zero h⟩).rows :: S

theorem tiled_univ {S : Shp} {n : ℕ} {blk : Fin n → Tensor K} {k : ℕ} (hn : n ≠ 0)
    (hf : ∀ i, Fits (if k < 2 then S else setDim S (k-2) (dim (blk i).sh k)) (blk i).bt)
    (hr : ∀ i j, k ≠ 1 → (blk i).rows = (blk j).rows) (hc : ∀ i j, k ≠ 0 → (blk i).cols = (blk j).cols) :
    ∀ i p, p ≠ k → dim (blk i).sh p = 1 ∨ dim (blk i).sh p = dim (tiledUniv S blk) p := by
  intro i p hp
  rw [tiledUniv, dif_neg hn]
  rcases p with _ | _ | p
  · right; simpa using hc i _ (Ne.symm hp)
  · right; simpa using hr i _ (Ne.symm hp)
  · have := hf i p
    rw [dim_drop, show 2 + p = p + 1 + 1 by omega] at this
    simp only [dim_cons_succ]
    split_ifs at this with h
    · exact this
    · rw [dim_setDim, if_neg (by omega)] at this
      exact this

/-- Everything the shape functions report about a well-formed matrix. -/
theorem Mat.WF.shapes {a : Mat K} {S : Shp} (h : a.WF S) :
    Fits S (den a).bt ∧ shapeBatch a = .ok (den a).bt ∧
      shapeMatrix a = .ok ((den a).rows, (den a).cols) ∧ (a.isAM = true → 2 ≤ (den a).rank) := by
  unfold shapeBatch shapeMatrix
  induction a generalizing S with
  | num t =>
    obtain ⟨h1, h2⟩ := h
    exact ⟨h2, rfl, by simp [shp, h1, den], by simp [Mat.isAM]⟩
  | zero bt r c => exact ⟨h, rfl, rfl, fun _ => by simp [den, Tensor.rank]⟩
  | dense t => exact ⟨h.2, rfl, rfl, fun _ => h.1⟩
  | diag t => exact ⟨h.2, rfl, rfl, fun _ => by simp [den, Tensor.rank]⟩
  | const t r c => exact ⟨h, rfl, rfl, fun _ => by simp [den, Tensor.rank]⟩
  | lt t => exact ⟨h.2.1, rfl, rfl, fun _ => h.1⟩
  | ut t => exact ⟨h.2.1, rfl, rfl, fun _ => h.1⟩
  | lr l r m ihl ihr ihm =>
    obtain ⟨⟨hl, hr, hm⟩, _, h1, h2⟩ := h
    obtain ⟨fl, bl, sl, _⟩ := ihl hl
    obtain ⟨fr, br, sr, _⟩ := ihr hr
    obtain ⟨fm, bm, sm, _⟩ := ihm hm
    refine ⟨?_, ?_, ?_, fun _ => by simp [den, Tensor.rank]⟩
    · simp only [den, mm_bt, tr_bt]; exact (fl.bsh fm).bsh fr
    · simp only [shp, bl, br, bm, bind_ok_iff, Except.ok.injEq, exists_eq_left', bsE_ok]
      refine ⟨bsh (den l).bt (den r).bt, ⟨fl.compat fr, rfl⟩, (fl.bsh fr).compat fm, ?_⟩
      simp only [den, mm_bt, tr_bt]; bsh_ac
    · simp only [shp, sl, sr, bind_ok_iff, Except.ok.injEq, exists_eq_left', pure_eq_ok]
      rfl
  | wb d l r m ihl ihr ihm =>
    obtain ⟨⟨hd, fd⟩, ⟨hl, hr, hm⟩, _, ⟨h1, h2⟩, h3, h4⟩ := h
    obtain ⟨fl, bl, sl, _⟩ := ihl hl
    obtain ⟨fr, br, sr, _⟩ := ihr hr
    obtain ⟨fm, bm, sm, _⟩ := ihm hm
    refine ⟨?_, ?_, ?_, fun _ => ?_⟩
    · simp only [den, zipB_bt, diagC_bt, mm_bt, tr_bt]; exact fd.bsh ((fl.bsh fm).bsh fr)
    · simp only [shp, bl, br, bm, bind_ok_iff, Except.ok.injEq, exists_eq_left', bsE_ok]
      refine ⟨_, ⟨fl.compat fr, rfl⟩, _, ⟨(fl.bsh fr).compat fm, rfl⟩, fd.compat ((fl.bsh fr).bsh fm), ?_⟩
      simp only [den, zipB_bt, diagC_bt, mm_bt, tr_bt]; bsh_ac
    · simp only [shp, sl, sr, bind_ok_iff, Except.ok.injEq, exists_eq_left', pure_eq_ok, bsE_ok]
      refine ⟨_, ⟨by simp [h3, h4, Compat.refl], rfl⟩, ?_⟩
      simp only [den, zipB_rows, zipB_cols, diagC_rows, diagC_cols, mm_rows, mm_cols, tr_cols]
      simp
    · simp [den, Tensor.rank, length_bsh]
  | kron l r ihl ihr =>
    obtain ⟨⟨hl, hr⟩, _⟩ := h
    obtain ⟨fl, bl, sl, _⟩ := ihl hl
    obtain ⟨fr, br, sr, _⟩ := ihr hr
    refine ⟨?_, ?_, ?_, fun _ => by simp [den, Tensor.rank]⟩
    · simp only [den, kronT_bt]; exact fl.bsh fr
    · simp only [shp, bl, br, bind_ok_iff, Except.ok.injEq, exists_eq_left', bsE_ok]
      exact ⟨fl.compat fr, rfl⟩
    · simp only [shp, sl, sr, bind_ok_iff, Except.ok.injEq, exists_eq_left', pure_eq_ok]
      rfl
  | tiled n blk reps axis ih =>
    obtain ⟨k, hk, hn, h2, hwf, hr, hc, hS⟩ := h
    have hU := tiled_univ hn (fun i => (ih i (hwf i)).1) hr hc
    have hk' : axPos (maxRank fun i => den (blk i)) axis = .ok k := hk
    have hsh := tiledShape_ok (fun i => den (blk i)) reps hn hk' hU
    have hden : den (.tiled n blk reps axis) = tiledT (fun i => den (blk i)) reps k := by
      rw [den, tiledPos_eq hk']
    have hrank := tiledT_rank (fun i => den (blk i)) reps hn k
    have hge := maxRank_ge (fun i => den (blk i)) hn h2
    have hfull : seqFin (fun i => do
        let bt ← (shp (blk i)).1
        let rc ← (shp (blk i)).2
        (pure (rc.2 :: rc.1 :: bt) : E Shp)) = .ok fun i => (den (blk i)).sh := by
      rw [seqFin_ok]
      intro i
      obtain ⟨_, b, s, _⟩ := ih i (hwf i)
      simp only [b, s, bind_ok_iff, Except.ok.injEq, exists_eq_left', pure_eq_ok]
      exact (Tensor.sh_eq (h2 i)).symm
    refine ⟨hS, ?_, ?_, fun _ => by rw [hden, hrank]; exact hge⟩
    · simp only [shp, hfull, bind_ok_iff, Except.ok.injEq, exists_eq_left', hsh, pure_eq_ok, hden]
    · simp only [shp, hfull, bind_ok_iff, Except.ok.injEq, exists_eq_left', hsh, pure_eq_ok, hden]

theorem Mat.WF.fits {a : Mat K} {S : Shp} (h : a.WF S) : Fits S (den a).bt := h.shapes.1
theorem Mat.WF.shapeBatch {a : Mat K} {S : Shp} (h : a.WF S) : shapeBatch a = .ok (den a).bt := h.shapes.2.1
theorem Mat.WF.shapeMatrix {a : Mat K} {S : Shp} (h : a.WF S) : shapeMatrix a = .ok ((den a).rows, (den a).cols) := h.shapes.2.2.1
theorem Mat.WF.rank {a : Mat K} {S : Shp} (h : a.WF S) (ha : a.isAM = true) : 2 ≤ (den a).rank := h.shapes.2.2.2 ha

theorem Mat.WF.shape {a : Mat K} {S : Shp} (h : a.WF S) : shape a = .ok (den a).sh := by
  by_cases ha : a.isAM = true
  · have h2 := Tensor.sh_eq (h.rank ha)
    unfold Verif.shape
    cases a <;> first | (simp [Mat.isAM] at ha; done) |
      (simp only [h.shapeBatch, h.shapeMatrix, bind_ok_iff, Except.ok.injEq, exists_eq_left', pure_eq_ok]; exact h2.symm)
  · cases a <;> first | rfl | (simp [Mat.isAM] at ha)

theorem Mat.WF.rankM {a : Mat K} {S : Shp} (h : a.WF S) : rankM a = .ok (den a).rank := by
  simp [Verif.rankM, h.shape]

end

end Verif
