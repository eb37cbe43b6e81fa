/-
Changing the batch universe, and transposition.
-/
import Verif.Struct

namespace Verif

variable {K : Type}

theorem fits_of_bsh_left {S S' x y : Shp} (h : Fits S' (bsh x y)) (hx : Fits S x) (hy : Fits S y) : Fits S' x :=
  h.trans (hx.compat hy).fits_left
theorem fits_of_bsh_right {S S' x y : Shp} (h : Fits S' (bsh x y)) (hx : Fits S x) (hy : Fits S y) : Fits S' y :=
  h.trans (hx.compat hy).fits_right

theorem shp_ext {s t : Shp} (hl : s.length = t.length) (h : ∀ k, dim s k = dim t k) : s = t := by
  induction s generalizing t with
  | nil => cases t <;> simp_all
  | cons a s ih =>
    cases t with
    | nil => simp at hl
    | cons b t =>
      have h0 := h 0
      simp at h0
      rw [h0, ih (by simpa using hl) fun k => by simpa using h (k+1)]

theorem dim_foldr_bsh (l : List Shp) (p : ℕ) : dim (l.foldr bsh []) p = (l.map fun s => dim s p).foldr bd 1 := by
  induction l with
  | nil => simp
  | cons a l ih => simp [ih]

section
variable [CommRing K]

/-- A well-formed matrix is well formed in every universe its batch shape broadcasts to. -/
theorem Mat.WF.mono {a : Mat K} {S S' : Shp} (h : a.WF S) (h' : Fits S' (den a).bt) : a.WF S' := by
  induction a generalizing S S' with
  | num t => exact ⟨h.1, h'⟩
  | zero bt r c => exact h'
  | dense t => exact ⟨h.1, h'⟩
  | diag t => exact ⟨h.1, h'⟩
  | const t r c => exact h'
  | lt t => exact ⟨h.1, h', h.2.2⟩
  | ut t => exact ⟨h.1, h', h.2.2⟩
  | lr l r m ihl ihr ihm =>
    obtain ⟨⟨hl, hr, hm⟩, h1⟩ := h
    simp only [den, mm_bt, tr_bt] at h'
    have hlm := hl.fits.bsh hm.fits
    have hx := fits_of_bsh_left h' hlm hr.fits
    exact ⟨⟨ihl hl (fits_of_bsh_left hx hl.fits hm.fits), ihr hr (fits_of_bsh_right h' hlm hr.fits),
      ihm hm (fits_of_bsh_right hx hl.fits hm.fits)⟩, h1⟩
  | wb d l r m ihl ihr ihm =>
    obtain ⟨⟨hd, fd⟩, ⟨hl, hr, hm⟩, h1⟩ := h
    simp only [den, zipB_bt, diagC_bt, mm_bt, tr_bt] at h'
    have hlm := hl.fits.bsh hm.fits
    have hlr := hlm.bsh hr.fits
    have hd' := fits_of_bsh_left h' fd hlr
    have h'' := fits_of_bsh_right h' fd hlr
    have hx := fits_of_bsh_left h'' hlm hr.fits
    exact ⟨⟨hd, hd'⟩, ⟨ihl hl (fits_of_bsh_left hx hl.fits hm.fits), ihr hr (fits_of_bsh_right h'' hlm hr.fits),
      ihm hm (fits_of_bsh_right hx hl.fits hm.fits)⟩, h1⟩
  | kron l r ihl ihr =>
    obtain ⟨⟨hl, hr⟩, h1⟩ := h
    simp only [den, kronT_bt] at h'
    exact ⟨⟨ihl hl (fits_of_bsh_left h' hl.fits hr.fits), ihr hr (fits_of_bsh_right h' hl.fits hr.fits)⟩, h1⟩
  | tiled n blk reps axis ih =>
    obtain ⟨k, hk, hn, h2, hwf, hr, hc, hS⟩ := h
    refine ⟨k, hk, hn, h2, fun i => ?_, hr, hc, h'⟩
    have hk' : axPos (maxRank fun i => den (blk i)) axis = .ok k := hk
    have hden : den (.tiled n blk reps axis) = tiledT (fun i => den (blk i)) reps k := by
      rw [den, tiledPos_eq hk']
    rw [hden] at h'
    have hU := tiled_univ hn (fun i => (hwf i).fits) hr hc
    have hb := (fits_tiledBase (fun i => den (blk i)) reps (axPos_lt hk') hU).2 i
    have hlt := axPos_lt hk'
    refine ih i (hwf i) ?_
    intro p
    have hbp := hb (p+2)
    have hSp := h' p
    rw [Tensor.bt, dim_drop, dim_tiledT _ _ hn hlt] at hSp
    rw [dim_set _ _ _ _ (by rw [tileOf_length]; exact hlt), dim_tileOf _ _ hlt] at hbp
    rw [Tensor.bt, dim_drop]
    by_cases hp : p + 2 = k
    · rw [if_neg (by omega), dim_setDim, if_pos (by omega), show 2 + p = k by omega]
      exact Or.inr rfl
    · rw [if_neg hp, if_neg hp] at hbp
      rw [if_neg (by omega)] at hSp
      rw [show 2 + p = p + 2 by omega] at hSp ⊢
      have e : dim (if k < 2 then S' else setDim S' (k-2) (dim (den (blk i)).sh k)) p = dim S' p := by
        split_ifs
        · rfl
        · rw [dim_setDim, if_neg (by omega)]
      rw [e]
      omega

/-! ### Transposition -/

/-- Swap the last two coordinates of an index. -/
def swapI (i : Idx) : Idx := icons (i 1) (icons (i 0) (itail (itail i)))
/-- Swap the positions of the last two axes. -/
def sw : ℕ → ℕ
  | 0 => 1
  | 1 => 0
  | k+2 => k+2

@[simp] theorem sw_sw (k) : sw (sw k) = k := by rcases k with _ | _ | k <;> rfl
theorem sw_inj {k p : ℕ} : sw p = k ↔ p = sw k := by
  constructor
  · rintro rfl; simp
  · rintro rfl; simp
theorem swapI_apply (i : Idx) (k) : swapI i k = i (sw k) := by rcases k with _ | _ | k <;> rfl
theorem swapI_update (i : Idx) (k x : ℕ) : swapI (Function.update i (sw k) x) = Function.update (swapI i) k x := by
  funext p
  simp only [swapI_apply, Function.update_apply, sw_inj, sw_sw]

theorem dim_tr {t : Tensor K} (k) : dim (tr t).sh k = dim t.sh (sw k) := by
  rw [tr_sh]
  rcases k with _ | _ | k
  · simp [sw]
  · simp [sw]
  · rw [sw, dim_cons_succ, dim_cons_succ, dim_drop, Nat.add_comm]

theorem zero_mem_iff (s : Shp) : 0 ∈ s ↔ ∃ k, dim s k = 0 := by
  have := zero_notMem_iff s
  constructor
  · intro h; by_contra hc; push Not at hc; exact (this.2 fun k => Nat.pos_of_ne_zero (hc k)) h
  · rintro ⟨k, hk⟩; by_contra hc; have := this.1 hc k; omega

theorem tr_get {t : Tensor K} (i : Idx) : (tr t).get i = t.get (swapI i) := by
  have h0 : 0 ∈ (tr t).sh ↔ 0 ∈ t.sh := by
    rw [zero_mem_iff, zero_mem_iff]
    constructor
    · rintro ⟨k, hk⟩; exact ⟨sw k, by rw [← dim_tr, hk]⟩
    · rintro ⟨k, hk⟩; exact ⟨sw k, by rw [dim_tr, sw_sw, hk]⟩
  rw [Tensor.canon, t.canon]
  by_cases h : 0 ∈ t.sh
  · rw [if_pos (h0.2 h), if_pos h]
  · rw [if_neg (by rw [h0]; exact h), if_neg h]
    have hr : InRange (tr t).sh (clip (tr t).sh i) := inRange_clip i (by rw [h0]; exact h)
    have e : ∀ j : Idx, InRange (tr t).sh j → (tr t).get j = t.get (swapI j) := by
      intro j hj
      rw [tr_sh] at hj
      rw [tr, mkMat, ofFn_get _ hj]
      rfl
    rw [e _ hr]
    congr 1
    funext k
    simp only [swapI_apply, clip, dim_tr, sw_sw]

theorem length_tr {t : Tensor K} (h : 2 ≤ t.rank) : (tr t).rank = t.rank := by
  rw [Tensor.rank, tr_sh, Tensor.rank, Tensor.sh_eq h]; rfl

theorem Tensor.ext_get {a b : Tensor K} (hs : a.sh = b.sh) (h : ∀ i, a.get i = b.get i) : a = b :=
  Tensor.ext_inRange hs fun i _ => h i

theorem tileAx_get (k rep : ℕ) (t : Tensor K) (hk : k < t.rank) (i : Idx) (h : i k < rep * dim t.sh k) :
    (tileAx k rep t).get i = t.get (Function.update i k (i k % dim t.sh k)) := by
  unfold tileAx ofFn
  simp only
  have hd : ∀ p, dim (t.sh.set k (rep * dim t.sh k)) p = if p = k then rep * dim t.sh k else dim t.sh p :=
    fun p => dim_set _ _ _ _ hk
  have hpos : 0 < dim t.sh k := by
    rcases Nat.eq_zero_or_pos (dim t.sh k) with h0 | h0
    · rw [h0] at h; simp at h
    · exact h0
  have h0 : 0 ∈ t.sh.set k (rep * dim t.sh k) ↔ 0 ∈ t.sh := by
    rw [zero_mem_iff, zero_mem_iff]
    constructor
    · rintro ⟨p, hp⟩
      rw [hd] at hp
      split_ifs at hp
      · omega
      · exact ⟨p, hp⟩
    · rintro ⟨p, hp⟩
      refine ⟨p, ?_⟩
      rw [hd]
      split_ifs with hpk
      · subst hpk; simp [hp]
      · exact hp
  by_cases hz : 0 ∈ t.sh
  · rw [if_pos (h0.2 hz), t.canon, if_pos hz]
  · rw [if_neg (by rw [h0]; exact hz)]
    apply t.get_congr
    intro p
    simp only [clip, Function.update_apply, hd]
    by_cases hp : p = k
    · subst hp; simp [h]
    · simp only [hp, if_false]
      split_ifs <;> simp_all

end

/-- `tr` commutes with padding, tiling and concatenation. -/
theorem tr_tileAx [CommRing K] {k rep : ℕ} {t : Tensor K} (h2 : 2 ≤ t.rank) (hk : k < t.rank) :
    tr (tileAx k rep t) = tileAx (sw k) rep (tr t) := by
  have hl : (tileAx k rep t).rank = t.rank := by simp [Tensor.rank, tileAx]
  have hsw : sw k < t.rank := by rcases k with _ | _ | k <;> simp [sw] <;> omega
  have hd : ∀ p, dim (tileAx k rep t).sh p = if p = k then rep * dim t.sh k else dim t.sh p :=
    fun p => dim_set _ _ _ _ hk
  have hd' : ∀ p, dim (tileAx (sw k) rep (tr t)).sh p = if p = sw k then rep * dim t.sh k else dim t.sh (sw p) := by
    intro p
    have := dim_set (tr t).sh (sw k) (rep * dim (tr t).sh (sw k)) p (by
      have := length_tr h2; rw [Tensor.rank] at this; omega)
    rw [show (tileAx (sw k) rep (tr t)).sh = (tr t).sh.set (sw k) (rep * dim (tr t).sh (sw k)) from rfl, this,
      dim_tr, dim_tr, sw_sw]
  have hs : (tr (tileAx k rep t)).sh = (tileAx (sw k) rep (tr t)).sh := by
    apply shp_ext
    · have := length_tr (t := tileAx k rep t) (by rw [hl]; exact h2)
      rw [Tensor.rank] at this
      rw [this, hl]
      have := length_tr h2
      simp only [tileAx, ofFn_sh, List.length_set]
      exact this.symm
    · intro p
      rw [dim_tr, hd, hd']
      simp only [sw_inj]
  refine Tensor.ext_inRange hs ?_
  intro i hi
  have hik : i (sw k) < rep * dim t.sh k := by
    have := hi (sw k)
    rwa [dim_tr, sw_sw, hd, if_pos rfl] at this
  rw [tr_get, tileAx_get k rep t hk (swapI i) (by rw [swapI_apply]; exact hik),
    tileAx_get (sw k) rep (tr t) (by rw [length_tr h2]; exact hsw) i (by rw [dim_tr, sw_sw]; exact hik), tr_get]
  congr 1
  rw [swapI_update, dim_tr, sw_sw, swapI_apply]

theorem tr_padT [CommRing K] {n : ℕ} {t : Tensor K} (h2 : 2 ≤ t.rank) (hn : t.rank ≤ n) :
    tr (padT n t) = padT n (tr t) := by
  have hl : (padT n t).rank = n := by rw [Tensor.rank, padT_sh, length_padS _ _ hn]
  refine Tensor.ext_get ?_ ?_
  · apply shp_ext
    · have := length_tr (t := padT n t) (by omega)
      rw [Tensor.rank] at this
      rw [this, hl, padT_sh, length_padS _ _ (by have := length_tr h2; rw [Tensor.rank] at this; omega)]
    · intro p
      rw [dim_tr, padT_sh, padT_sh, dim_padS, dim_padS, dim_tr]
  · intro i
    rw [tr_get, padT_get, padT_get, tr_get]

theorem concatGet_tr [CommRing K] (k : ℕ) (ts : List (Tensor K)) (i : Idx) :
    concatGet (sw k) (ts.map tr) i = concatGet k ts (swapI i) := by
  induction ts generalizing i with
  | nil => rfl
  | cons t ts ih =>
    simp only [List.map_cons, concatGet, dim_tr, sw_sw, swapI_apply, tr_get]
    rw [ih, swapI_update]

theorem maxRank_tr [CommRing K] {n : ℕ} {blk : Fin n → Tensor K} (h2 : ∀ i, 2 ≤ (blk i).rank) :
    maxRank (fun i => tr (blk i)) = maxRank blk := by
  unfold maxRank
  congr 2
  funext i
  exact length_tr (h2 i)

theorem tileOf_tr [CommRing K] {n : ℕ} {blk : Fin n → Tensor K} {reps : Fin n → ℕ} {k : ℕ}
    (h2 : ∀ i, 2 ≤ (blk i).rank) (hk : k < maxRank blk) (i : Fin n) :
    tileOf (fun i => tr (blk i)) reps (sw k) i = tr (tileOf blk reps k i) := by
  unfold tileOf
  have hl : (padT (maxRank blk) (blk i)).rank = maxRank blk := by
    rw [Tensor.rank, padT_sh, length_padS _ _ (le_maxRank blk i)]
  rw [tr_tileAx (by rw [hl]; exact (h2 i).trans (le_maxRank blk i)) (by rw [hl]; exact hk), maxRank_tr h2,
    tr_padT (h2 i) (le_maxRank blk i)]

theorem sw_lt {k n : ℕ} (h2 : 2 ≤ n) : sw k < n ↔ k < n := by
  rcases k with _ | _ | k <;> simp [sw] <;> omega

theorem tr_tiledT [CommRing K] {n : ℕ} {blk : Fin n → Tensor K} {reps : Fin n → ℕ} {k : ℕ}
    (hn : n ≠ 0) (h2 : ∀ i, 2 ≤ (blk i).rank) (hk : k < maxRank blk) :
    tr (tiledT blk reps k) = tiledT (fun i => tr (blk i)) reps (sw k) := by
  have hge := maxRank_ge blk hn h2
  have hmr := maxRank_tr h2
  have hk' : sw k < maxRank fun i => tr (blk i) := by rw [hmr, sw_lt hge]; exact hk
  have hrank := tiledT_rank blk reps hn k
  have htiles : (List.ofFn (tileOf (fun i => tr (blk i)) reps (sw k))) = (List.ofFn (tileOf blk reps k)).map tr := by
    rw [List.map_ofFn]; congr 1; funext i; exact tileOf_tr h2 hk i
  have hs : (tr (tiledT blk reps k)).sh = (tiledT (fun i => tr (blk i)) reps (sw k)).sh := by
    apply shp_ext
    · have h := length_tr (t := tiledT blk reps k) (by omega)
      have h' := tiledT_rank (fun i => tr (blk i)) reps hn (sw k)
      simp only [Tensor.rank] at h h' hrank
      omega
    · intro p
      rw [dim_tr, dim_tiledT _ _ hn hk, dim_tiledT _ _ hn hk']
      simp only [sw_inj, dim_tr, sw_sw]
      congr 1
      unfold tiledBase
      rw [dim_foldr_bsh, dim_foldr_bsh, htiles, List.map_map, List.map_map, List.map_map]
      congr 1
      apply List.map_congr_left
      intro t ht
      rw [List.mem_ofFn] at ht
      obtain ⟨i, rfl⟩ := ht
      have ht := tileOf_length blk reps k i
      simp only [Function.comp]
      rw [dim_set _ _ _ _ (by omega), dim_set _ _ _ _ (by
        have := length_tr (t := tileOf blk reps k i) (by rw [Tensor.rank]; omega)
        rw [Tensor.rank] at this; rw [this, Tensor.rank, ht, sw_lt hge]; exact hk), dim_tr]
      simp only [sw_inj]
  refine Tensor.ext_inRange hs ?_
  intro i hi
  have hi' : InRange (tiledT (fun i => tr (blk i)) reps (sw k)).sh i := by rw [← hs]; exact hi
  have hi'' : InRange (tiledT blk reps k).sh (swapI i) := by
    intro p
    have := hi (sw p)
    rw [dim_tr, sw_sw] at this
    rwa [swapI_apply]
  rw [tr_get]
  rw [show (tiledT blk reps k).get (swapI i) = concatGet k (List.ofFn (tileOf blk reps k)) (swapI i) from ofFn_get _ hi'',
    show (tiledT (fun i => tr (blk i)) reps (sw k)).get i = concatGet (sw k) (List.ofFn (tileOf (fun i => tr (blk i)) reps (sw k))) i from
      ofFn_get _ hi', htiles, concatGet_tr]

section
variable [CommRing K]

theorem at'_eq_zero_tr {t : Tensor K} : LowerTri t → UpperTri (tr t) := by
  intro h β i j hβ hi hj hij
  rw [at_tr (t := t) hβ (Fits.refl _) hi hj]
  exact h β j i hβ hj hi hij

theorem upper_tr_lower {t : Tensor K} : UpperTri t → LowerTri (tr t) := by
  intro h β i j hβ hi hj hij
  rw [at_tr (t := t) hβ (Fits.refl _) hi hj]
  exact h β j i hβ hj hi hij

theorem upT_of_rank {t : Tensor K} (h : 2 ≤ t.rank) : upT t = t := by
  unfold upT; rw [if_neg (by omega), if_neg (by omega)]

theorem nTranspose_of_rank {t : Tensor K} (h : 2 ≤ t.rank) : nTranspose t = tr t := by
  unfold nTranspose; rw [if_pos h]

theorem bcast_of_sh {t : Tensor K} {s : Shp} (h : t.sh = s) : bcast s t = t := by subst h; exact bcast_self t

theorem mkConst_self (t : Tensor K) (r c : ℕ) : mkConst t (c :: r :: t.sh) = .ok (.const t r c) := by
  unfold mkConst
  split
  · rename_i h; simp at h; obtain ⟨rfl, rfl, _⟩ := h; rfl
  · rename_i bt _ h
    simp at h; obtain ⟨rfl, rfl, rfl⟩ := h
    simp only [bind_ok_iff, bsE_ok, pure_eq_ok]
    refine ⟨t.sh, ⟨Compat.refl _, bsh_self _⟩, t, ?_, rfl⟩
    unfold nBroadcastTo
    rw [if_pos ⟨Fits.refl _, le_refl _⟩, bcast_self]
  · rename_i h1 h2; exact absurd rfl (h2 c r t.sh)

theorem mkLR_ok {l r m : Mat K} {S : Shp} (hl : l.WF S) (hr : r.WF S) (hm : m.WF S)
    (h2 : 2 ≤ (den l).rank ∧ 2 ≤ (den r).rank ∧ 2 ≤ (den m).rank)
    (h1 : (den l).cols = (den m).rows) (h3 : (den r).cols = (den m).cols) : mkLR l r m = .ok (.lr l r m) := by
  simp only [mkLR, assertMatrix, hl.rankM, hr.rankM, hm.rankM, hl.shapeMatrix, hr.shapeMatrix, hm.shapeMatrix, bind_ok_iff,
    Except.ok.injEq, exists_eq_left', guardE_ok, pure_eq_ok, exists_const]
  simp [h2, h1, h3]

/-- What `mkLR` checks. -/
theorem mkLR_inv {l r m x : Mat K} {S : Shp} (hl : l.WF S) (hr : r.WF S) (hm : m.WF S) (h : mkLR l r m = .ok x) :
    x = .lr l r m ∧ x.WF S := by
  simp only [mkLR, assertMatrix, hl.rankM, hr.rankM, hm.rankM, hl.shapeMatrix, hr.shapeMatrix, hm.shapeMatrix, bind_ok_iff,
    Except.ok.injEq, exists_eq_left', guardE_ok, pure_eq_ok, exists_const] at h
  obtain ⟨h1, h2, h3, h4, h5, rfl⟩ := h
  exact ⟨rfl, ⟨hl, hr, hm⟩, ⟨h1, h4, h2⟩, h3, h5⟩

theorem mkWB_ok {d : Tensor K} {l r m : Mat K} {S : Shp} (h : Mat.WF S (.wb d l r m)) : mkWB d l r m = .ok (.wb d l r m) := by
  obtain ⟨⟨hd, fd⟩, ⟨hl, hr, hm⟩, h2, ⟨h1, h3⟩, h4, h5⟩ := h
  have hD : Mat.WF S (.diag d) := ⟨hd, fd⟩
  have hL : Mat.WF S (.lr l r m) := ⟨⟨hl, hr, hm⟩, h2, h1, h3⟩
  simp only [mkWB, hD.shape, hL.shape, bind_ok_iff, Except.ok.injEq, exists_eq_left', pure_eq_ok, assertCompatible, guardE_ok,
    exists_const, and_true]
  have e1 := Tensor.sh_eq (hD.rank rfl)
  have e2 := Tensor.sh_eq (hL.rank rfl)
  rw [e1, e2]
  simp only [compat_cons]
  refine ⟨?_, ?_, hD.fits.compat hL.fits⟩
  · right; right; exact h5.symm
  · right; right; exact h4.symm

theorem axPos_tr {R k : ℕ} (h2 : 2 ≤ R) (hk : k < R) :
    axPos R (if k = 1 then -1 else if k = 0 then -2 else -(k+1)) = .ok (sw k) := by
  unfold axPos
  rcases k with _ | _ | k
  · simp [sw]; omega
  · simp [sw]; omega
  · simp only [sw]
    rw [if_neg (c := k + 1 + 1 = 1) (by omega), if_neg (c := k + 1 + 1 = 0) (by omega), if_neg (by omega), if_pos (by omega)]
    congr 1

theorem mkTiled_ok {n : ℕ} {blk : Fin n → Mat K} {reps : Fin n → ℕ} {axis : Int} {S : Fin n → Shp} (hn : n ≠ 0)
    (h : ∀ i, (blk i).WF (S i)) (h2 : ∀ i, 2 ≤ (den (blk i)).rank) : mkTiled blk reps axis = .ok (.tiled n blk reps axis) := by
  simp only [mkTiled, bind_ok_iff, guardE_ok, pure_eq_ok, exists_const, and_true]
  refine ⟨hn, fun _ => (), ?_⟩
  rw [seqFin_ok]
  intro i
  simp only [assertMatrix, (h i).rankM, bind_ok_iff, Except.ok.injEq, exists_eq_left', guardE_ok]
  exact h2 i

/-- Transposing a well-formed matrix returns, and denotes the transpose. -/
theorem transposeM_ok {a : Mat K} {S : Shp} (h : a.WF S) :
    ∃ r, transposeM a = .ok r ∧ r.WF S ∧ den r = nTranspose (den a) ∧ r.isAM = a.isAM := by
  induction a generalizing S with
  | num t =>
    refine ⟨_, rfl, ?_, rfl, rfl⟩
    show (nTranspose t).rank ≠ 1 ∧ Fits S (nTranspose t).bt
    unfold nTranspose
    split_ifs with hr
    · exact ⟨by rw [length_tr hr]; exact h.1, h.2⟩
    · exact h
  | zero bt r c =>
    refine ⟨_, rfl, h, ?_, rfl⟩
    rw [den, den, nTranspose_of_rank (by simp [Tensor.rank]), tr_fill]
  | dense t =>
    refine ⟨_, rfl, ?_, ?_, rfl⟩
    · rw [nTranspose_of_rank h.1, mkDense, upT_of_rank (by rw [length_tr h.1]; exact h.1)]
      exact ⟨by rw [length_tr h.1]; exact h.1, h.2⟩
    · rw [mkDense, den, nTranspose_of_rank h.1, upT_of_rank (by rw [length_tr h.1]; exact h.1)]
      rw [den, nTranspose_of_rank h.1]
  | diag t =>
    exact ⟨_, rfl, h, by rw [den, nTranspose_of_rank (by simp [Tensor.rank]), tr_diagC h.1], rfl⟩
  | const t r c =>
    refine ⟨.const t c r, mkConst_self t c r, h, ?_, rfl⟩
    rw [den, den, nTranspose_of_rank (by simp [Tensor.rank]), tr_constM]
  | lt t =>
    have h2 : 2 ≤ (tr t).rank := by rw [length_tr h.1]; exact h.1
    refine ⟨.ut (tr t), ?_, ?_, ?_, rfl⟩
    · simp [transposeM, mkUT, nTranspose_of_rank h.1, h2]
    · exact ⟨h2, h.2.1, h.2.2.1.symm, at'_eq_zero_tr h.2.2.2⟩
    · rw [den, den, nTranspose_of_rank h.1]
  | ut t =>
    have h2 : 2 ≤ (tr t).rank := by rw [length_tr h.1]; exact h.1
    refine ⟨.lt (tr t), ?_, ?_, ?_, rfl⟩
    · simp [transposeM, mkLT, nTranspose_of_rank h.1, h2]
    · exact ⟨h2, h.2.1, h.2.2.1.symm, upper_tr_lower h.2.2.2⟩
    · rw [den, den, nTranspose_of_rank h.1]
  | lr l r m ihl ihr ihm =>
    obtain ⟨⟨hl, hr, hm⟩, ⟨rl, rr, rm⟩, h1, h3⟩ := h
    obtain ⟨m', em, wm, dm, _⟩ := ihm hm
    rw [nTranspose_of_rank rm] at dm
    have hm1 : (den m').rows = (den m).cols := by rw [dm]; rfl
    have hm2 : (den m').cols = (den m).rows := by rw [dm]; rfl
    have hm3 : 2 ≤ (den m').rank := by rw [dm, length_tr rm]; exact rm
    refine ⟨.lr r l m', ?_, ⟨⟨hr, hl, wm⟩, ⟨rr, rl, hm3⟩, ?_, ?_⟩, ?_, rfl⟩
    · simp only [transposeM, em, bind_ok_iff, Except.ok.injEq, exists_eq_left']
      exact mkLR_ok hr hl wm ⟨rr, rl, hm3⟩ (by rw [hm1, h3]) (by rw [hm2, h1])
    · rw [hm1, h3]
    · rw [hm2, h1]
    · rw [nTranspose_of_rank (by simp [den, Tensor.rank]), den, den, dm]
      have gl : Good S (den l) := ⟨rl, hl.fits⟩
      have gr : Good S (den r) := ⟨rr, hr.fits⟩
      have gm : Good S (den m) := ⟨rm, hm.fits⟩
      rw [tr_mm (gl.mm gm) gr.tr (by simpa using h3.symm), tr_tr rr,
        tr_mm gl gm h1, mm_assoc gr gm.tr gl.tr (by simpa using h3) (by simpa using h1.symm)]
  | wb d l r m ihl ihr ihm =>
    obtain ⟨⟨hd, fd⟩, ⟨hl, hr, hm⟩, ⟨rl, rr, rm⟩, ⟨h1, h3⟩, h4, h5⟩ := h
    obtain ⟨m', em, wm, dm, _⟩ := ihm hm
    rw [nTranspose_of_rank rm] at dm
    have hm1 : (den m').rows = (den m).cols := by rw [dm]; rfl
    have hm2 : (den m').cols = (den m).rows := by rw [dm]; rfl
    have hm3 : 2 ≤ (den m').rank := by rw [dm, length_tr rm]; exact rm
    have hw : Mat.WF S (.wb d r l m') :=
      ⟨⟨hd, fd⟩, ⟨hr, hl, wm⟩, ⟨rr, rl, hm3⟩, ⟨by rw [hm1, h3], by rw [hm2, h1]⟩, h5, h4⟩
    refine ⟨.wb d r l m', ?_, hw, ?_, rfl⟩
    · simp only [transposeM, em, bind_ok_iff, Except.ok.injEq, exists_eq_left']
      exact ⟨_, mkLR_ok hr hl wm ⟨rr, rl, hm3⟩ (by rw [hm1, h3]) (by rw [hm2, h1]), mkWB_ok hw⟩
    · have hr2 : 2 ≤ (den (Mat.wb d l r m)).rank := by simp [den, Tensor.rank, length_bsh]
      rw [nTranspose_of_rank hr2, den, den, dm]
      have gl : Good S (den l) := ⟨rl, hl.fits⟩
      have gr : Good S (den r) := ⟨rr, hr.fits⟩
      have gm : Good S (den m) := ⟨rm, hm.fits⟩
      have gd : GoodV S d := ⟨hd, fd⟩
      rw [tr_zipB _ (Good.diagC gd) ((gl.mm gm).mm gr.tr) h4.symm h5.symm, tr_diagC hd,
        tr_mm (gl.mm gm) gr.tr (by simpa using h3.symm), tr_tr rr,
        tr_mm gl gm h1, mm_assoc gr gm.tr gl.tr (by simpa using h3) (by simpa using h1.symm)]
  | kron l r ihl ihr =>
    obtain ⟨⟨hl, hr⟩, rl, rr⟩ := h
    obtain ⟨l', el, wl, dl, _⟩ := ihl hl
    obtain ⟨r', er, wr, dr, _⟩ := ihr hr
    rw [nTranspose_of_rank rl] at dl
    rw [nTranspose_of_rank rr] at dr
    refine ⟨.kron l' r', ?_, ⟨⟨wl, wr⟩, by rw [dl, length_tr rl]; exact rl, by rw [dr, length_tr rr]; exact rr⟩, ?_, rfl⟩
    · simp [transposeM, el, er]
    · rw [nTranspose_of_rank (by simp [den, Tensor.rank]), den, den, dl, dr, tr_kronT ⟨rl, hl.fits⟩ ⟨rr, hr.fits⟩]
  | tiled n blk reps axis ih =>
    have hW := h
    obtain ⟨k, hk, hn, h2, hwf, hr, hc, hS⟩ := h
    have hk' : axPos (maxRank fun i => den (blk i)) axis = .ok k := hk
    have hlt := axPos_lt hk'
    have hge := maxRank_ge (fun i => den (blk i)) hn h2
    have hden : den (.tiled n blk reps axis) = tiledT (fun i => den (blk i)) reps k := by
      rw [den, tiledPos_eq hk']
    choose blk' eb wb' db _ using fun i => ih i (hwf i)
    have db' : ∀ i, den (blk' i) = tr (den (blk i)) := fun i => by rw [db, nTranspose_of_rank (h2 i)]
    have h2' : ∀ i, 2 ≤ (den (blk' i)).rank := fun i => by rw [db', length_tr (h2 i)]; exact h2 i
    have hrk : rankM (.tiled n blk reps axis) = .ok (maxRank fun i => den (blk i)) := by
      rw [hW.rankM, hden, tiledT_rank _ _ hn]
    set ax : Int := if k = 1 then -1 else if k = 0 then -2 else -(k+1) with hax
    have hmr : maxRank (fun i => den (blk' i)) = maxRank fun i => den (blk i) := by
      rw [funext db']; exact maxRank_tr h2
    have hkk : axPos (maxRank fun i => den (blk' i)) ax = .ok (sw k) := by
      rw [hmr]; exact axPos_tr hge hlt
    have hden' : den (.tiled n blk' reps ax) = tr (tiledT (fun i => den (blk i)) reps k) := by
      rw [den, tiledPos_eq hkk, tr_tiledT hn h2 hlt, funext db']
    refine ⟨.tiled n blk' reps ax, ?_, ?_, ?_, rfl⟩
    · simp only [transposeM, hrk, hk', bind_ok_iff, Except.ok.injEq, exists_eq_left']
      exact ⟨blk', by rw [seqFin_ok]; exact eb, mkTiled_ok hn wb' h2'⟩
    · refine ⟨sw k, hkk, hn, h2', ?_, ?_, ?_, ?_⟩
      · intro i
        have e : (if sw k < 2 then S else setDim S (sw k - 2) (dim (den (blk' i)).sh (sw k))) =
            (if k < 2 then S else setDim S (k - 2) (dim (den (blk i)).sh k)) := by
          rw [db', dim_tr, sw_sw]
          rcases k with _ | _ | k <;> simp [sw]
        rw [e]
        exact wb' i
      · intro i j hs
        rw [db', db', tr_rows, tr_rows]
        exact hc i j fun hh => hs (by rw [hh]; rfl)
      · intro i j hs
        rw [db', db', tr_cols, tr_cols]
        exact hr i j fun hh => hs (by rw [hh]; rfl)
      · rw [hden', tr_bt, ← hden]; exact hS
    · rw [hden', hden, nTranspose_of_rank (by rw [tiledT_rank _ _ hn]; exact hge)]

end

end Verif
