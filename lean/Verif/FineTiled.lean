/-
TiledBlocks of supported blocks: `B.dense` succeeds, whatever the tolerance, and so do the functions that work on the dense matrix (C45, C53).
-/
import Verif.Props13
import Verif.FineTake

set_option linter.unusedSectionVars false
set_option linter.unusedTactic false

namespace Verif

variable {K : Type} [Field K] [LinearOrder K] [IsStrictOrderedRing K]

theorem dim_getElem {s : Shp} {q : ℕ} (h : q < s.length) : dim s q = s[q] := by
  simp [dim, List.getD_eq_getElem?_getD, List.getElem?_eq_getElem h]

theorem dim_default {s : Shp} {q : ℕ} (h : s.length ≤ q) : dim s q = 1 := by
  simp [dim, List.getD_eq_getElem?_getD, List.getElem?_eq_none h]

theorem Calm.seqFin {α : Type} {n : ℕ} {f : Fin n → E α} (h : ∀ i, Calm (f i)) : Calm (seqFin f) := by
  induction n with
  | zero => exact Calm.ok
  | succ n ih => exact (h 0).bind fun x _ => (ih fun i => h i.succ).bind fun g _ => Calm.pure

theorem denseTiled_calm {B : Ops K} (hB : B.Ok) (hF : ∀ S, 0 ∉ S → B.Fine S) {S : Shp} {n : ℕ} {blk : Fin n → Mat K} {reps : Fin n → ℕ} {axis : Int}
    (hw : Mat.WF S (.tiled n blk reps axis)) (hs : ∀ i, (blk i).Supported) (h0 : 0 ∉ (den (.tiled n blk reps axis)).bt) : Calm (denseTiled B blk reps axis) := by
  have hw' := hw
  obtain ⟨k, hk, hn, h2, hwf, hr, hc, hS⟩ := hw
  have hU := tiled_univ hn (fun i => (hwf i).fits) hr hc
  have hk' : axPos (maxRank fun i => den (blk i)) axis = .ok k := hk
  have hkl := axPos_lt hk'
  have hden : den (.tiled n blk reps axis) = tiledT (fun i => den (blk i)) reps k := by
    rw [den, tiledPos_eq hk']
  have hrank := tiledT_rank (fun i => den (blk i)) reps hn k
  have hge := maxRank_ge (fun i => den (blk i)) hn h2
  obtain ⟨hb1, hb2⟩ := fits_tiledBase (fun i => den (blk i)) reps hkl hU
  have hbase : ∀ i p, p ≠ k → dim (den (blk i)).sh p = 1 ∨ dim (den (blk i)).sh p = dim (tiledBase (fun i => den (blk i)) reps k) p := by
    intro i p hp
    have := hb2 i p
    rw [dim_set _ _ _ _ (by rw [tileOf_length]; exact hkl), if_neg hp, dim_tileOf (fun i => den (blk i)) reps hkl, if_neg hp] at this
    exact this
  have hlen2 : (List.drop 2 (tiledT (fun i => den (blk i)) reps k).sh).length = (maxRank fun i => den (blk i)) - 2 := by
    rw [List.length_drop]; exact congrArg (· - 2) hrank
  have hdimT : ∀ q, dim (List.drop 2 (tiledT (fun i => den (blk i)) reps k).sh) q =
      if q + 2 = k then (List.ofFn fun i => reps i * dim (den (blk i)).sh k).sum else dim (tiledBase (fun i => den (blk i)) reps k) (q+2) := by
    intro q
    rw [dim_drop, dim_tiledT _ _ hn hkl, Nat.add_comm]
  rw [hden] at h0
  have hpos : ∀ q, q < (List.drop 2 (tiledT (fun i => den (blk i)) reps k).sh).length → dim (List.drop 2 (tiledT (fun i => den (blk i)) reps k).sh) q ≠ 0 := by
    intro q hq e
    refine h0 ?_
    rw [Tensor.bt, ← e, dim_getElem hq]
    exact List.getElem_mem hq
  simp only [denseTiled]
  refine Calm.step hw'.shape ?_
  rw [hden, show (tiledT (fun i => den (blk i)) reps k).sh.length = maxRank fun i => den (blk i) from hrank]
  refine Calm.step hk' ?_
  -- the target of every block
  have target : ∀ i, ∃ T : Shp, (if k < 2 then List.drop 2 (tiledT (fun i => den (blk i)) reps k).sh
      else (List.drop 2 (tiledT (fun i => den (blk i)) reps k).sh).set (k-2)
        (dim ((den (blk i)).bt ++ List.replicate ((List.drop 2 (tiledT (fun i => den (blk i)) reps k).sh).length - (den (blk i)).bt.length) 1) (k-2))) = T ∧
      T.length = (maxRank fun i => den (blk i)) - 2 ∧ 0 ∉ T ∧ Fits T (den (blk i)).bt ∧
      (∀ q, q + 2 ≠ k → dim T q = dim (tiledBase (fun i => den (blk i)) reps k) (q+2)) := by
    intro i
    refine ⟨_, rfl, ?_⟩
    set T : Shp := if k < 2 then List.drop 2 (tiledT (fun i => den (blk i)) reps k).sh
      else (List.drop 2 (tiledT (fun i => den (blk i)) reps k).sh).set (k-2)
        (dim ((den (blk i)).bt ++ List.replicate ((List.drop 2 (tiledT (fun i => den (blk i)) reps k).sh).length - (den (blk i)).bt.length) 1) (k-2)) with hT
    have hTl : T.length = (maxRank fun i => den (blk i)) - 2 := by
      rw [hT]; split_ifs
      · exact hlen2
      · rw [List.length_set]; exact hlen2
    have hTd : ∀ q, dim T q = if q + 2 = k then dim (den (blk i)).sh k else dim (tiledBase (fun i => den (blk i)) reps k) (q+2) := by
      intro q
      rw [hT]
      split_ifs with hk2 hq hq
      · omega
      · rw [hdimT, if_neg hq]
      · rw [dim_set _ _ _ _ (by rw [hlen2]; omega), if_pos (by omega)]
        have : dim ((den (blk i)).bt ++ List.replicate ((List.drop 2 (tiledT (fun i => den (blk i)) reps k).sh).length - (den (blk i)).bt.length) 1) (k-2)
          = dim (den (blk i)).bt (k-2) := dim_padS _ _ _
        rw [this, Tensor.bt, dim_drop, show 2 + (k - 2) = k by omega]
      · rw [dim_set _ _ _ _ (by rw [hlen2]; omega), if_neg (by omega), hdimT, if_neg hq]
    refine ⟨hTl, ?_, ?_, fun q hq => by rw [hTd, if_neg hq]⟩
    · intro hm
      obtain ⟨q, hq, e⟩ := List.getElem_of_mem hm
      have hd : dim T q = 0 := by rw [dim_getElem hq, e]
      rw [hTd] at hd
      split_ifs at hd with hqk
      · have hb := (hs i).batch
        have : dim (den (blk i)).bt q = 0 := by rw [Tensor.bt, dim_drop, show 2 + q = k by omega]; exact hd
        have hlt : q < (den (blk i)).bt.length := by
          by_contra hge
          rw [dim_default (by omega)] at this
          omega
        rw [dim_getElem hlt] at this
        exact hb (this ▸ List.getElem_mem hlt)
      · have := hpos q (by rw [hlen2, ← hTl]; exact hq)
        rw [hdimT, if_neg hqk] at this
        exact this hd
    · intro q
      rw [hTd, Tensor.bt, dim_drop, Nat.add_comm 2 q]
      split_ifs with hq
      · right; rw [hq]
      · exact hbase i _ hq
  have step : ∀ i, ∃ block T, broadcastBatchTo T (blk i) = .ok block ∧ block.WF T ∧ 0 ∉ T ∧ block.fit true ∧ den block = bbT T (den (blk i)) ∧
      T.length = (maxRank fun i => den (blk i)) - 2 ∧ (∀ q, q + 2 ≠ k → dim T q = dim (tiledBase (fun i => den (blk i)) reps k) (q+2)) ∧
      (if k < 2 then List.drop 2 (tiledT (fun i => den (blk i)) reps k).sh
      else (List.drop 2 (tiledT (fun i => den (blk i)) reps k).sh).set (k-2)
        (dim ((den (blk i)).bt ++ List.replicate ((List.drop 2 (tiledT (fun i => den (blk i)) reps k).sh).length - (den (blk i)).bt.length) 1) (k-2))) = T := by
    intro i
    obtain ⟨T, hT, hTl, hT0, hfit, hTd⟩ := target i
    have hle : (den (blk i)).bt.length ≤ T.length := by
      rw [hTl, length_drop_two]
      have := le_maxRank (fun i => den (blk i)) i
      omega
    obtain ⟨block, hb⟩ := broadcastBatchTo_total ((hs i).valid.own.mono hfit) (h2 i) (fit_noTiled (hs i).fit) hle
    obtain ⟨w, _, e, _⟩ := broadcastBatchTo_ok (hs i).valid.own hfit hb
    exact ⟨block, T, hb, w, hT0, fitp_broadcastBatchTo T (hs i).fit _ hb, e, hTl, hTd, hT⟩
  refine Calm.bind (Calm.seqFin fun i => ?_) fun parts hparts => ?_
  · obtain ⟨block, T, hb, w, hT0, hf, e, hTl, hTd, hT⟩ := step i
    refine Calm.step (hs i).valid.own.shapeBatch ?_
    simp only [hT]
    exact Calm.step hb (((hF T hT0).dense w hf).bind fun d _ => Calm.pure)
  · rw [seqFin_ok] at hparts
    have hsh : ∀ i, (parts i).rank = (maxRank fun i => den (blk i)) ∧
        ∀ p, p ≠ k → dim (parts i).sh p = if p = 0 then (den (blk i)).cols else if p = 1 then (den (blk i)).rows else dim (tiledBase (fun i => den (blk i)) reps k) p := by
      intro i
      obtain ⟨block, T, hb, w, hT0, hf, e, hTl, hTd, hT⟩ := step i
      have hp := hparts i
      rw [(hs i).valid.own.shapeBatch] at hp
      simp only [bind_ok_iff, Except.ok.injEq, exists_eq_left', pure_eq_ok] at hp
      rw [hT] at hp
      obtain ⟨b', hb', d, hd, hpi⟩ := hp
      rw [hb] at hb'
      cases hb'
      have := hB.dense w hd
      subst this
      have hbr : (bbT T (den (blk i))).rank = maxRank fun i => den (blk i) := by
        simp [Tensor.rank, bbT, hTl]; omega
      rw [← hpi, e]
      refine ⟨by rw [Tensor.rank, tileBlock, tileAx, ofFn_sh, List.length_set]; exact hbr, fun p hp => ?_⟩
      rw [tileBlock, tileAx, ofFn_sh, dim_set _ _ _ _ (by rw [← Tensor.rank, hbr]; exact hkl), if_neg hp]
      unfold bbT
      rcases p with _ | _ | p
      · simp
      · simp
      · simp only [bcast_sh, dim_cons_succ]
        rw [hTd p hp]
        simp
    refine nConcat_calm (k := k) ?_ ?_ ?_
    · intro h
      exact hn (by simpa using congrArg List.length h)
    · intro t ht
      obtain ⟨i, rfl⟩ := (List.mem_ofFn' _ _).1 ht
      rw [(hsh i).1]
      exact axPos_iff.1 (axPos_neg hkl)
    · intro t ht u hu
      obtain ⟨i, rfl⟩ := (List.mem_ofFn' _ _).1 ht
      obtain ⟨j, rfl⟩ := (List.mem_ofFn' _ _).1 hu
      refine ⟨by have h1 := (hsh i).1; have h2 := (hsh j).1; rw [Tensor.rank] at h1 h2; omega, fun p hp => ?_⟩
      rw [(hsh i).2 p hp, (hsh j).2 p hp]
      split_ifs with e0 e1
      · exact hc i j (by omega)
      · exact hr i j (by omega)
      · rfl

/-- C45.  `B.dense` of TiledBlocks with supported blocks returns, whatever the tolerance, and is the concatenation of the repeated blocks. -/
theorem C45_dense_tiled (c : Cfg K) {n : ℕ} {blk : Fin n → Mat K} {reps : Fin n → ℕ} {axis : Int} (hv : (Mat.tiled n blk reps axis).Valid)
    (hs : ∀ i, (blk i).Supported) (hw : ∀ i, (blk i).wo true) (h0 : 0 ∉ (den (.tiled n blk reps axis)).bt) :
    Returns c (fun B => B.dense (.tiled n blk reps axis)) (den (.tiled n blk reps axis)) := by
  have hx := (C46_dense c (a := .tiled n blk reps axis) hw).2
  obtain ⟨S, w⟩ := hv
  obtain ⟨t, h⟩ := (C35_dense c (.tiled n blk reps axis)).returns hx fun m => by
    cases m with
    | zero => exact Calm.fuel
    | succ m => exact denseTiled_calm (c.ok m) (c.fineAll m) w hs h0
  rwa [C04_dense c ⟨S, w⟩ h hx] at h

/-! ### The functions that work on the dense matrix -/

/-- TiledBlocks of supported blocks, not an empty batch. -/
structure Mat.TiledOk (a : Mat K) : Prop where
  valid : a.Valid
  tiled : ∃ (n : ℕ) (blk : Fin n → Mat K) (reps : Fin n → ℕ) (axis : Int), a = .tiled n blk reps axis ∧ (∀ i, (blk i).Supported) ∧ ∀ i, (blk i).wo true
  batch : 0 ∉ (den a).bt

/-- A supported matrix, or TiledBlocks of supported blocks. -/
def Mat.SupportedT (a : Mat K) : Prop := (a.Supported ∧ a.wo true) ∨ a.TiledOk

theorem Mat.TiledOk.wo {a : Mat K} (h : a.TiledOk) : a.wo true := by
  obtain ⟨n, blk, reps, axis, rfl, _, hw⟩ := h.tiled
  exact hw

theorem Mat.TiledOk.calm (c : Cfg K) {a : Mat K} (h : a.TiledOk) (m : ℕ) : Calm ((ops c.strict m).dense a) := by
  obtain ⟨⟨S, w⟩, ⟨n, blk, reps, axis, rfl, hs, _⟩, h0⟩ := h
  cases m with
  | zero => exact Calm.fuel
  | succ m => exact denseTiled_calm (c.ok m) (c.fineAll m) w hs h0

theorem Mat.SupportedT.valid {a : Mat K} (h : a.SupportedT) : a.Valid := h.elim (fun h => h.1.valid) (fun h => h.valid)
theorem Mat.SupportedT.wo {a : Mat K} (h : a.SupportedT) : a.wo true := h.elim (fun h => h.2) (fun h => h.wo)
theorem Mat.SupportedT.calm (c : Cfg K) {a : Mat K} (h : a.SupportedT) (m : ℕ) : Calm ((ops c.strict m).dense a) :=
  h.elim (fun h => (c.fine h.1.batch m).dense h.1.valid.own h.1.fit) (fun h => h.calm c m)

/-- Dense both, then an operation on arrays. -/
theorem calm_both (c : Cfg K) {a b : Mat K} {f : Tensor K → Tensor K → E (Tensor K)} (ha : a.SupportedT) (hb : b.SupportedT) (hf : Calm (f (den a) (den b))) (m : ℕ) :
    Calm (do return mkDense (← f (← (ops c.strict m).dense a) (← (ops c.strict m).dense b)) : E (Mat K)) := by
  refine (ha.calm c m).bind fun x hx => (hb.calm c m).bind fun y hy => ?_
  obtain rfl := (c.ok m).dense ha.valid.own hx
  obtain rfl := (c.ok m).dense hb.valid.own hy
  exact hf.bind fun _ _ => Calm.pure

/-- The class of `b` is none of those that take over additions with any matrix. -/
def Mat.notZeroConst (b : Mat K) : Prop := b.isAM = true ∧ b.kind ≠ some .zero ∧ b.kind ≠ some .const

section
variable (c : Cfg K) {a b : Mat K}

/-- C45.  The sum of TiledBlocks and another structured matrix, in either order, is returned, whatever the tolerance. -/
theorem C45_add_tiled (ha : a.TiledOk) (hb : b.SupportedT) (hk : b.notZeroConst) (hc : Compat (den a).sh (den b).sh) (hs : NoStretch a b) :
    (∃ r, Returns c (fun B => B.add a b) r ∧ r.Valid ∧ IsEltwise (· + ·) (den a) (den b) (den r)) ∧
      ∃ r, Returns c (fun B => B.add b a) r ∧ r.Valid ∧ IsEltwise (· + ·) (den b) (den a) (den r) := by
  have low (k : Kind) : lowSum .tiled k = false := by cases k <;> rfl
  have ea : classOf c a = .tiled := by
    obtain ⟨_, _, _, _, rfl, _⟩ := ha.tiled
    rfl
  have hx1 := (C46_add c ha.wo hb.wo (by rw [ea]; exact low _)).2
  have hx2 := (C46_add c hb.wo ha.wo (by rw [ea, lowSum_comm]; exact low _)).2
  obtain ⟨r, h⟩ := (C35_add c a b).returns hx1 fun m => by
    cases m with
    | zero => exact Calm.fuel
    | succ m =>
      have key := calm_both c (f := nAdd) (.inr ha) hb (Calm.of (nAdd_of hc)) m
      obtain ⟨_, _, _, _, rfl, _⟩ := ha.tiled
      obtain ⟨h1, h2, h3⟩ := hk
      cases b <;> first | exact key | exact absurd rfl h2 | exact absurd rfl h3 | cases h1
  obtain ⟨r', h'⟩ := (C35_add c b a).returns hx2 fun m => by
    cases m with
    | zero => exact Calm.fuel
    | succ m =>
      have key := calm_both c (f := nAdd) hb (.inr ha) (Calm.of (nAdd_of hc.symm)) m
      obtain ⟨_, _, _, _, rfl, _⟩ := ha.tiled
      obtain ⟨h1, h2, h3⟩ := hk
      cases b <;> first | exact key | exact absurd rfl h2 | exact absurd rfl h3 | cases h1
  exact ⟨⟨r, h, C01_add c ha.valid hb.valid (compat_bt hc) hs h hx1⟩, ⟨r', h', C01_add c hb.valid ha.valid (compat_bt hc.symm) ⟨hs.2, hs.1⟩ h' hx2⟩⟩

/-- C45.  So is the element-wise product with a Dense, LowRank, Kronecker or TiledBlocks matrix. -/
theorem C45_multiply_tiled (ha : a.TiledOk) (hb : b.SupportedT) (hk : b.kind = some .dense ∨ b.kind = some .lr ∨ b.kind = some .kron ∨ b.kind = some .tiled)
    (hc : Compat (den a).sh (den b).sh) (hs : MulSafe a b) :
    (∃ r, Returns c (fun B => B.mul a b) r ∧ r.Valid ∧ IsEltwise (· * ·) (den a) (den b) (den r)) ∧
      ∃ r, Returns c (fun B => B.mul b a) r ∧ r.Valid ∧ IsEltwise (· * ·) (den b) (den a) (den r) := by
  have hx1 := (C46_multiply c ha.wo hb.wo).2
  have hx2 := (C46_multiply c hb.wo ha.wo).2
  obtain ⟨r, h⟩ := (C35_multiply c a b).returns hx1 fun m => by
    cases m with
    | zero => exact Calm.fuel
    | succ m =>
      have key := calm_both c (f := nMul) (.inr ha) hb (Calm.of (nMul_of hc)) m
      obtain ⟨_, _, _, _, rfl, _⟩ := ha.tiled
      cases b <;> first | exact key | simp [Mat.kind] at hk
  obtain ⟨r', h'⟩ := (C35_multiply c b a).returns hx2 fun m => by
    cases m with
    | zero => exact Calm.fuel
    | succ m =>
      have key := calm_both c (f := nMul) hb (.inr ha) (Calm.of (nMul_of hc.symm)) m
      obtain ⟨_, _, _, _, rfl, _⟩ := ha.tiled
      cases b <;> first | exact key | simp [Mat.kind] at hk
  exact ⟨⟨r, h, C02_multiply c ha.valid hb.valid (compat_bt hc) hs h hx1⟩,
    ⟨r', h', C02_multiply c hb.valid ha.valid (compat_bt hc.symm) ⟨⟨hs.1.2, hs.1.1⟩, hs.2.2, hs.2.1⟩ h' hx2⟩⟩

/-- C45.  Products of TiledBlocks with a Diagonal matrix, on either side, are returned, if the TiledBlocks are not transposed. -/
theorem C45_matmul_tiled (ha : a.TiledOk) {d : Tensor K} (hd : (Mat.diag d).Supported) (hc : BatchCompat (.diag d) a) :
    (∀ ta : Bool, d.cols = (den a).rows →
      ∃ r, Returns c (fun B => B.matmul ta false (.diag d) a) r ∧ r.Valid ∧ IsMatProd (if ta then tr (den (.diag d)) else den (.diag d)) (den a) (den r)) ∧
    ∀ tb : Bool, (den a).cols = d.cols →
      ∃ r, Returns c (fun B => B.matmul false tb a (.diag d)) r ∧ r.Valid ∧ IsMatProd (den a) (if tb then tr (den (.diag d)) else den (.diag d)) (den r) := by
  have k2 : 2 ≤ (den (.diag d : Mat K)).rank := hd.valid.own.rank rfl
  have h2 : 2 ≤ (den a).rank := ha.valid.own.rank (by
    obtain ⟨_, _, _, _, rfl, _⟩ := ha.tiled
    rfl)
  have d1 : 1 ≤ d.rank := hd.valid.own.1
  have wa : a.woTop := by
    obtain ⟨_, _, _, _, rfl, _, hw⟩ := ha.tiled
    exact hw
  have low1 (k : Kind) : lowProd .diag k = false := by cases k <;> rfl
  have low2 (k : Kind) : lowProd k .diag = false := by cases k <;> rfl
  obtain ⟨va, vb⟩ := hd.valid.common ha.valid hc
  have dsh : d.sh = d.cols :: d.sh.tail := by
    obtain ⟨s, g⟩ := d
    cases s with
    | nil => simp [Tensor.rank] at d1
    | cons => rfl
  have ash := Tensor.sh_eq h2
  have cv : Compat d.sh.tail (den a).bt := hc
  have db : 0 ∉ d.sh.tail := hd.batch
  have dense1 (t : Tensor K) (h2 : 2 ≤ t.rank) (h0 : 0 ∉ t.bt) : (Mat.dense t).SupportedT := .inl ⟨⟨⟨_, h2, Fits.refl _⟩, trivial, h0⟩, trivial⟩
  refine ⟨fun ta he => ?_, fun tb he => ?_⟩
  · have hx := (C46_matmul c (ta := ta) (tb := false) hd.valid ha.valid (a := .diag d) trivial wa (low1 _)).2
    obtain ⟨r, h⟩ := (C35_matmul c ta false (.diag d) a).returns hx fun m => by
      cases m with
      | zero => exact Calm.fuel
      | succ m =>
        have hcomp : assertComposable ta false (.diag d) a = .ok () := assertComposable_of va vb (by cases ta <;> exact he)
        have key : Calm ((ops c.strict m).mul (mkDense (expandEnd 1 d)) a) := by
          cases m with
          | zero => exact Calm.fuel
          | succ m =>
            have hcp : Compat (expandEnd 1 d).sh (den a).sh := by
              rw [ash, show (expandEnd 1 d).sh = 1 :: d.sh from rfl, dsh, he]
              exact compat_cons.2 ⟨.inl rfl, compat_cons.2 ⟨.inr (.inr rfl), cv⟩⟩
            have k := calm_both c (f := nMul) (dense1 (expandEnd 1 d) (Nat.succ_le_succ d1) (by rw [show (expandEnd 1 d).bt = d.sh.tail from by rw [Tensor.bt, show (expandEnd 1 d).sh = 1 :: d.sh from rfl, dsh]; rfl]; exact db))
              (.inr ha) (Calm.of (nMul_of hcp)) m
            obtain ⟨n, blk, reps, axis, rfl, _⟩ := ha.tiled
            rw [mkDense, upT_of_rank (t := expandEnd 1 d) (Nat.succ_le_succ d1)]
            exact k
        have full : ∀ {x : E Unit} {y : E (Mat K)}, x = .ok () → Calm y → Calm (x >>= fun _ => y) := fun h h' => Calm.step h h'
        have k := full hcomp key
        obtain ⟨_, _, _, _, rfl, _⟩ := ha.tiled
        exact k
    exact ⟨r, h, C03_matmul c hd.valid ha.valid hc k2 h2 h hx⟩
  · have hx := (C46_matmul c (ta := false) (tb := tb) ha.valid hd.valid (b := .diag d) wa trivial (low2 _)).2
    obtain ⟨r, h⟩ := (C35_matmul c false tb a (.diag d)).returns hx fun m => by
      cases m with
      | zero => exact Calm.fuel
      | succ m =>
        have hcomp : assertComposable false tb a (.diag d) = .ok () := assertComposable_of vb va (by cases tb <;> exact he)
        have key : Calm ((ops c.strict m).mul a (mkDense (expandRow d))) := by
          cases m with
          | zero => exact Calm.fuel
          | succ m =>
            have hcp : Compat (den a).sh (expandRow d).sh := by
              rw [ash, expandRow_sh, he]
              exact compat_cons.2 ⟨.inr (.inr rfl), compat_cons.2 ⟨.inr (.inl rfl), cv.symm⟩⟩
            have k := calm_both c (f := nMul) (.inr ha) (dense1 (expandRow d) (by simp [Tensor.rank]) db) (Calm.of (nMul_of hcp)) m
            obtain ⟨n, blk, reps, axis, rfl, _⟩ := ha.tiled
            rw [mkDense, upT_of_rank (by simp [Tensor.rank])]
            exact k
        have full : ∀ {x : E Unit} {y : E (Mat K)}, x = .ok () → Calm y → Calm (x >>= fun _ => y) := fun h h' => Calm.step h h'
        have k := full hcomp key
        obtain ⟨_, _, _, _, rfl, _⟩ := ha.tiled
        exact k
    exact ⟨r, h, C03_matmul c ha.valid hd.valid hc.symm h2 k2 h hx⟩

/-- C53.  So are quotients of structured matrices one of which is TiledBlocks, if no divisor entry is zero and the divisor is not Constant. -/
theorem C53_divide_tiled (ha : a.SupportedT) (hb : b.SupportedT) (ma : a.isAM = true) (mb : b.isAM = true) (hk : b.kind ≠ some .const) (hc : Compat (den a).sh (den b).sh)
    (hs : NoStretch a b) (h0 : ∀ i, InRange (den b).sh i → (den b).get i ≠ 0) :
    ∃ r, Returns c (fun B => divideM c.code B a b) r ∧ r.Valid ∧ IsEltwise (· / ·) (den a) (den b) (den r) := by
  have hx := (C46_divide c ha.wo hb.wo).2
  obtain ⟨r, h⟩ := (C35_divide c a b).returns hx fun m => by
    have key := calm_both c (f := nDiv) ha hb (nDiv_calm hc h0) m
    cases a <;> cases b <;> first | exact key | exact absurd rfl hk | (cases ma; done) | (cases mb; done)
  obtain ⟨h1, h2, _⟩ := C07_divide c ha.valid hb.valid (compat_bt hc) hs h hx
  exact ⟨r, h, h1, h2⟩

/-- C53.  Element-wise functions, rows, columns and batch elements, submatrices, repetitions and reshapes of TiledBlocks are returned, whatever the tolerance. -/
theorem C53_tiled (ha : a.TiledOk) :
    (∃ r, Returns c (fun B => absM B a) r ∧ r.Valid ∧ IsMap (fun x => |x|) (den a) (den r)) ∧
    (∀ k : ℤ, 1 ≤ k → ∃ r, Returns c (fun B => powerM k B a) r ∧ r.Valid ∧ IsMap (fun x => x ^ k) (den a) (den r)) ∧
    (∀ sel axis k js, AxisAt (den a).rank axis k → sel.Picks (dim (den a).sh k) js →
      ∃ m r, Returns c (fun B => takeM B m a sel axis) r ∧ r.Valid ∧ IsTake k js (den a) (den r)) ∧
    (∀ sel js js', sel.Picks (den a).rows js → sel.Picks (den a).cols js' → ∃ m r, Returns c (fun B => submatrixM B m a sel) r ∧ r.Valid ∧ IsSubmatrix js js' (den a) (den r)) ∧
    (∀ reps : List ℕ, ∃ r, Returns c (fun B => tileM B a reps) r ∧ r.Valid ∧ IsTile reps (den a) (den r)) ∧
    ∀ s, size s = size (den a).sh → ∃ r, Returns c (fun B => reshapeM B a s) r ∧ IsReshape s (den a) r := by
  have h2 : 2 ≤ (den a).rank := ha.valid.own.rank (by
    obtain ⟨_, _, _, _, rfl, _⟩ := ha.tiled
    rfl)
  have dense (m : ℕ) {β : Type} (f : Tensor K → E β) (hf : Calm (f (den a))) : Calm (do f (← (ops c.strict m).dense a)) := by
    refine (ha.calm c m).bind fun x hx => ?_
    obtain rfl := (c.ok m).dense ha.valid.own hx
    exact hf
  refine ⟨?_, fun k hk => ?_, fun sel axis k js hk hp => ?_, fun sel js js' h1 h0 => ?_, fun reps => ?_, fun s hs => ?_⟩
  · have hx := (C46_abs c ha.wo).2
    obtain ⟨r, h⟩ := (C35_abs c a).returns hx fun m => by
      have key := dense m (fun t => do return mkDense (← nAbs t)) Calm.ok
      obtain ⟨_, _, _, _, rfl, _⟩ := ha.tiled
      exact key
    exact ⟨r, h, C34_abs c ha.valid h hx⟩
  · have hx := (C46_power c k ha.wo).2
    obtain ⟨r, h⟩ := (C35_power c k a).returns hx fun m => by
      have key := dense m (fun t => do return mkDense (← nPow k t)) (by unfold nPow; rw [if_neg (fun h => by omega)]; exact Calm.ok)
      obtain ⟨_, _, _, _, rfl, _⟩ := ha.tiled
      exact key
    exact ⟨r, h, C34_power c ha.valid (Or.inl hk) h hx⟩
  · obtain ⟨m, hm⟩ := C35_take c a sel axis
    have hx := (C46_take c m sel axis ha.wo).2
    have hk' := axPos_iff.2 hk
    have ho : a.takeOk k := by
      obtain ⟨_, _, _, _, rfl, _⟩ := ha.tiled
      trivial
    obtain ⟨r, h⟩ := hm.returns hx fun n => by
      cases m with
      | zero => exact Calm.fuel
      | succ m =>
        have key := dense n (fun t => do return mkDense (← nTakeSel t sel axis)) (Calm.step (nTakeSel_of hk' hp) Calm.pure)
        have hr := ha.valid.own.rankM
        obtain ⟨_, _, _, _, rfl, _⟩ := ha.tiled
        exact Calm.step hr (Calm.step hk' key)
    exact ⟨m, r, h, C13_take c ha.valid h2 hk ho hp h hx⟩
  · obtain ⟨m, hm⟩ := C35_submatrix c a sel
    have hx := (C46_submatrix c m sel ha.wo).2
    have ho : a.subOk js ∧ a.triOk js := by
      obtain ⟨_, _, _, _, rfl, _⟩ := ha.tiled
      exact ⟨trivial, trivial⟩
    obtain ⟨r, h⟩ := hm.returns hx fun n => by
      have key := dense n (fun t => do return mkDense (← nSubmatrix t sel)) (Calm.step (nSubmatrix_of h2 h1 h0) Calm.pure)
      obtain ⟨_, _, _, _, rfl, _⟩ := ha.tiled
      exact key
    obtain ⟨h3, h4⟩ := C14_submatrix c ha.valid h2 ho.1 h1 h0 h hx
    exact ⟨m, r, h, h4 ho.2, h3⟩
  · have hx := (C46_tile c reps ha.wo).2
    obtain ⟨r, h⟩ := (C35_tile c a reps).returns hx fun m => by
      have key := dense m (fun t => (.ok (mkDense (nTile t reps)) : E (Mat K))) Calm.ok
      obtain ⟨_, _, _, _, rfl, _⟩ := ha.tiled
      exact key
    exact ⟨r, h, C17_tile c ha.valid h2 h hx⟩
  · have hx := (C46_reshape c s ha.wo).2
    obtain ⟨r, h⟩ := (C35_reshape c a s).returns hx fun m => dense m (nReshape s) (by
      unfold nReshape
      rw [if_pos hs]
      exact Calm.ok)
    exact ⟨r, h, C17_reshape c ha.valid h hx⟩
end

/-! ### The hypotheses are met -/

theorem Ex.T_ok : Ex.T.TiledOk where
  valid := ⟨[], Ex.T_wf _⟩
  tiled := ⟨2, _, _, _, rfl, fun i => by
    by_cases h : i = 0
    · simpa [h] using Ex.supported (Ex.M_wf _) trivial rfl
    · simpa [h] using Ex.L_supported, fun i => by
    by_cases h : i = 0
    · simp [h, Ex.M]
    · simp [h, Ex.L]⟩
  batch := by decide +kernel

/- A block of 2 rows over a triangular matrix repeated twice, plus and times itself. -/
example : (∃ r, Returns Ex.cfg (fun B => B.dense Ex.T) r) ∧ (∃ r, Returns Ex.cfg (fun B => B.add Ex.T Ex.T) r) ∧ ∃ r, Returns Ex.cfg (fun B => B.mul Ex.T Ex.T) r := by
  obtain ⟨v, ⟨n, blk, reps, axis, e, hs, hw⟩, h0⟩ := Ex.T_ok
  have cc : Compat (den Ex.T).sh (den Ex.T).sh := (Fits.refl _).compat (Fits.refl _)
  refine ⟨⟨_, e ▸ C45_dense_tiled Ex.cfg (e ▸ v) hs hw (e ▸ h0)⟩, ?_, ?_⟩
  · obtain ⟨r, h, _⟩ := (C45_add_tiled Ex.cfg Ex.T_ok (.inr Ex.T_ok) ⟨rfl, by decide, by decide⟩ cc ⟨(fun h => nomatch h), fun h => nomatch h⟩).1
    exact ⟨r, h⟩
  · obtain ⟨r, h, _⟩ := (C45_multiply_tiled Ex.cfg Ex.T_ok (.inr Ex.T_ok) (.inr (.inr (.inr rfl))) cc
      ⟨⟨(fun h => nomatch h), fun h => nomatch h⟩, (fun h => nomatch h), fun h => nomatch h⟩).1
    exact ⟨r, h⟩
/- Its last row and first row. -/
example : ∃ m r, Returns Ex.cfg (fun B => takeM B m Ex.T (.idx [-1, 0]) (-2)) r ∧ r.Valid ∧ IsTake 1 [5, 0] (den Ex.T) (den r) :=
  (C53_tiled Ex.cfg Ex.T_ok).2.2.1 _ _ 1 [5, 0] ⟨by decide +kernel, by decide +kernel⟩ (Sel.resolve_picks (by decide +kernel))

/- A Diagonal matrix times the blocks. -/
example : ∃ r, Returns Ex.cfg (fun B => B.matmul true false (.diag (Ex.v [1, 2, 3, 4, 5, 6])) Ex.T) r := by
  obtain ⟨r, h, _⟩ := (C45_matmul_tiled Ex.cfg Ex.T_ok (d := Ex.v [1, 2, 3, 4, 5, 6]) (Ex.supported ⟨by decide, Fits.nil _⟩ trivial rfl)
    (show Compat _ _ from (Fits.refl _).compat (Fits.refl _))).1 true (by decide +kernel)
  exact ⟨r, h⟩

end Verif
