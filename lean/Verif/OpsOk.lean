/-
What it means for the functions of the core to be right, and helper facts for proving that one
unfolding preserves it.
-/
import Verif.StructBb
import Verif.OpsCore

set_option linter.unusedSectionVars false

namespace Verif

variable {K : Type} [Field K] [LinearOrder K]

/-- Result of an elementwise operation. -/
structure ZipOk (op : K → K → K) (S : Shp) (a b r : Mat K) : Prop where
  wf : r.WF S
  compat : Compat (den a).sh (den b).sh
  eq : den r = zipB op (den a) (den b)

/-- Result of a matrix product. -/
structure MmOk (ta tb : Bool) (S : Shp) (a b r : Mat K) : Prop where
  wf : r.WF S
  comp : (trIf ta (den a)).cols = (trIf tb (den b)).rows
  eq : den r = mm (trIf ta (den a)) (trIf tb (den b))

/-- The functions of the core agree with dense linear algebra on well-formed operands. -/
structure Ops.Ok (B : Ops K) : Prop where
  dense : ∀ {S a t}, Mat.WF S a → B.dense a = .ok t → t = den a
  add : ∀ {S a b r}, Mat.WF S a → Mat.WF S b → NoStretch a b → B.add a b = .ok r → ZipOk (· + ·) S a b r
  mul : ∀ {S a b r}, Mat.WF S a → Mat.WF S b → MulSafe a b → B.mul a b = .ok r → ZipOk (· * ·) S a b r
  matmul : ∀ {S ta tb a b r}, Mat.WF S a → Mat.WF S b → 2 ≤ (den a).rank → 2 ≤ (den b).rank →
    B.matmul ta tb a b = .ok r → MmOk ta tb S a b r
  diag : ∀ {S a v}, Mat.WF S a → 2 ≤ (den a).rank → a.DiagOk → B.diag a = .ok v → v = diagE (den a)
  sumM : ∀ {S k a v}, k ≤ 1 → Mat.WF S a → 2 ≤ (den a).rank → B.sumM k a = .ok v → v = sumAx k (den a)

/-! ### Inversion of numeric primitives -/

theorem nZip_ok {op : K → K → K} {a b r : Tensor K} : nZip op a b = .ok r ↔ Compat a.sh b.sh ∧ zipB op a b = r := by
  unfold nZip; split_ifs with h <;> simp [h]
theorem nAdd_ok {a b r : Tensor K} : nAdd a b = .ok r ↔ Compat a.sh b.sh ∧ zipB (· + ·) a b = r := nZip_ok
theorem nMul_ok {a b r : Tensor K} : nMul a b = .ok r ↔ Compat a.sh b.sh ∧ zipB (· * ·) a b = r := nZip_ok
theorem assertCompatible_ok {s t : Shp} {u : Unit} : assertCompatible s t = .ok u ↔ Compat s t := guardE_ok
theorem mkDiag_ok {t : Tensor K} {r : Mat K} : mkDiag t = .ok r ↔ 1 ≤ t.rank ∧ .diag t = r := by
  simp [mkDiag]
theorem mkLT_ok {t : Tensor K} {r : Mat K} : mkLT t = .ok r ↔ 2 ≤ t.rank ∧ .lt t = r := by simp [mkLT]
theorem mkUT_ok {t : Tensor K} {r : Mat K} : mkUT t = .ok r ↔ 2 ≤ t.rank ∧ .ut t = r := by simp [mkUT]
theorem mkZero_ok {s : Shp} {r : Mat K} : mkZero s = .ok r ↔ ∃ c r' bt, s = c :: r' :: bt ∧ r = .zero bt r' c := by
  unfold mkZero
  split
  · simp only [Except.ok.injEq]
    constructor
    · rintro rfl; exact ⟨_, _, _, rfl, rfl⟩
    · rintro ⟨_, _, _, h, rfl⟩; simp at h; obtain ⟨rfl, rfl, rfl⟩ := h; rfl
  · rename_i h
    simp only [reduceCtorEq, false_iff]
    rintro ⟨c, r', bt, rfl, _⟩
    exact h _ _ _ rfl

theorem mkConst_ok {t : Tensor K} {c r : ℕ} {bt : Shp} {x : Mat K} (h : mkConst t (c :: r :: bt) = .ok x) :
    Compat t.sh bt ∧ x = .const (bcast (bsh t.sh bt) t) r c := by
  unfold mkConst at h
  split at h
  · rename_i h'; simp at h'; obtain ⟨rfl, rfl, rfl⟩ := h'
    simp at h; subst h
    exact ⟨Compat.nil_right _, by simp [bcast_self]⟩
  · rename_i bt' _ h'; simp at h'; obtain ⟨rfl, rfl, rfl⟩ := h'
    simp only [bind_ok_iff, bsE_ok, nBroadcastTo_ok, pure_eq_ok] at h
    obtain ⟨_, ⟨hc, rfl⟩, _, ⟨_, rfl⟩, rfl⟩ := h
    exact ⟨hc, rfl⟩
  · simp at h

theorem Good.sh {S : Shp} {t : Tensor K} (g : Good S t) : t.sh = t.cols :: t.rows :: t.bt := Tensor.sh_eq g.rank

theorem mkDense_wf {S : Shp} {t : Tensor K} (g : Good S t) : (mkDense t).WF S ∧ den (mkDense t) = t := by
  unfold mkDense
  rw [upT_of_rank g.rank]
  exact ⟨⟨g.rank, g.fits⟩, rfl⟩

/-! ### Promotion of numeric operands -/

theorem zeroM_den (bt : Shp) (r c : ℕ) : den (.zero bt r c : Mat K) = fillT (c :: r :: bt) 0 := rfl

theorem expandEnd2_rep {S : Shp} {t : Tensor K} (h : Fits S t.sh) : Rep S 1 1 (expandEnd 2 t) fun β _ _ => t.get β :=
  ⟨by simp [Tensor.rank], rfl, rfl, by simpa [Tensor.bt] using h, fun _ i j hβ _ _ => at_expandEnd_two i j hβ h⟩

theorem constM_one (t : Tensor K) : constM t 1 1 = expandEnd 2 t :=
  Rep.ext (Rep.constM (Fits.refl _) 1 1) (expandEnd2_rep (Fits.refl _)) rfl fun _ _ _ _ _ _ => rfl

theorem den_convertAM {env : Env K} {a : Mat K} {S : Shp} (h : a.WF S) :
    (convertAM env a).WF S ∧ den (convertAM env a) = upT (den a) ∧ (convertAM env a).isAM = true ∧
      (a.isAM = true → convertAM env a = a) ∧ (convertAM env a).rigid = a.rigid := by
  cases a with
  | num t =>
    obtain ⟨h1, h2⟩ := h
    unfold convertAM
    by_cases h0 : t.rank = 0
    · have hs : t.sh = [] := List.length_eq_zero_iff.1 h0
      simp only [h0, if_true]
      split_ifs with hz
      · refine ⟨Fits.nil _, ?_, rfl, by simp [Mat.isAM], rfl⟩
        simp only [den, upT, h0, if_true]
        refine Rep.ext (Rep.fill (Fits.nil _) 1 1 0) (expandEnd2_rep (by rw [hs]; exact Fits.nil _)) (by simp [Tensor.bt, hs]) ?_
        intro β _ _ hβ _ _
        rw [t.get_congr (i' := fun _ => 0)]
        · exact hz.2.symm
        · intro k; simp [hs, clip]
      · refine ⟨by simp only [Mat.WF, hs]; exact Fits.nil _, ?_, rfl, by simp [Mat.isAM], rfl⟩
        simp only [den, upT, h0, if_true, constM_one]
    · simp only [h0, if_false]
      have hr : 2 ≤ t.rank := by omega
      exact ⟨(mkDense_wf ⟨hr, h2⟩).1, by rw [(mkDense_wf ⟨hr, h2⟩).2, den, upT_of_rank hr], rfl, by simp [Mat.isAM], rfl⟩
  | zero bt r c => exact ⟨h, by rw [upT_of_rank (h.rank rfl)]; rfl, rfl, fun _ => rfl, rfl⟩
  | dense t => exact ⟨h, by rw [upT_of_rank (h.rank rfl)]; rfl, rfl, fun _ => rfl, rfl⟩
  | diag t => exact ⟨h, by rw [upT_of_rank (h.rank rfl)]; rfl, rfl, fun _ => rfl, rfl⟩
  | const t r c => exact ⟨h, by rw [upT_of_rank (h.rank rfl)]; rfl, rfl, fun _ => rfl, rfl⟩
  | lt t => exact ⟨h, by rw [upT_of_rank (h.rank rfl)]; rfl, rfl, fun _ => rfl, rfl⟩
  | ut t => exact ⟨h, by rw [upT_of_rank (h.rank rfl)]; rfl, rfl, fun _ => rfl, rfl⟩
  | lr l r m => exact ⟨h, by rw [upT_of_rank (h.rank rfl)]; rfl, rfl, fun _ => rfl, rfl⟩
  | wb d l r m => exact ⟨h, by rw [upT_of_rank (h.rank rfl)]; rfl, rfl, fun _ => rfl, rfl⟩
  | kron l r => exact ⟨h, by rw [upT_of_rank (h.rank rfl)]; rfl, rfl, fun _ => rfl, rfl⟩
  | tiled n blk reps axis => exact ⟨h, by rw [upT_of_rank (h.rank rfl)]; rfl, rfl, fun _ => rfl, rfl⟩

/-- A numeric operand that is not a vector reads the same after it is made a matrix. -/
theorem upT_props {t : Tensor K} (h : t.rank ≠ 1) : (upT t).get = t.get ∧ ∀ k, dim (upT t).sh k = dim t.sh k := by
  by_cases h0 : t.rank = 0
  · have hs : t.sh = [] := List.length_eq_zero_iff.1 h0
    have hd : ∀ k, dim (upT t).sh k = dim t.sh k := by
      intro k
      simp only [upT, h0, if_true, expandEnd_two_sh, hs]
      rcases k with _ | _ | k <;> simp
    refine ⟨?_, hd⟩
    funext i
    simp only [upT, h0, if_true, expandEnd, ofFn, hs]
    simp
    apply t.get_congr
    intro k; simp [hs, clip]; split_ifs <;> simp_all
  · rw [upT_of_rank (by omega)]; exact ⟨rfl, fun _ => rfl⟩

theorem upT_rank (t : Tensor K) : 2 ≤ (upT t).rank := by
  unfold upT
  split_ifs
  · simp [Tensor.rank]
  · simp only [Tensor.rank, expandEnd_one_sh, List.length_cons] at *; omega
  · omega

theorem upT_length {t : Tensor K} (h : t.rank ≠ 1) : (upT t).rank = max 2 t.rank := by
  by_cases h0 : t.rank = 0
  · simp only [upT, h0, if_true, Tensor.rank, expandEnd_two_sh, List.length_cons] at *; omega
  · rw [upT_of_rank (by omega)]; omega

theorem zipB_upT {op : K → K → K} {a b : Tensor K} (ha : a.rank ≠ 1) (hb : b.rank ≠ 1) (h2 : 2 ≤ a.rank ∨ 2 ≤ b.rank) :
    zipB op (upT a) (upT b) = zipB op a b ∧ (Compat (upT a).sh (upT b).sh ↔ Compat a.sh b.sh) := by
  have hs : bsh (upT a).sh (upT b).sh = bsh a.sh b.sh := by
    apply shp_ext
    · have h1 := upT_length ha
      have h3 := upT_length hb
      simp only [length_bsh]
      simp only [Tensor.rank] at *
      omega
    · intro k; simp [(upT_props ha).2, (upT_props hb).2]
  constructor
  · unfold zipB
    rw [hs, (upT_props ha).1, (upT_props hb).1]
  · unfold Compat
    simp only [(upT_props ha).2, (upT_props hb).2]

theorem WF.rank_ne_one {a : Mat K} {S : Shp} (h : a.WF S) : (den a).rank ≠ 1 := by
  by_cases ha : a.isAM = true
  · have := h.rank ha; omega
  · cases a <;> first | exact h.1 | simp [Mat.isAM] at ha

theorem MulSafe.symm {a b : Mat K} (h : MulSafe a b) : MulSafe b a := ⟨⟨h.1.2, h.1.1⟩, h.2.2, h.2.1⟩

theorem MulSafe.of {a b : Mat K} (h : NoStretch a b) (h1 : a.readsDiag = false) (h2 : a.DiagOk) : MulSafe a b :=
  ⟨h, by simp [h1], fun _ => h2⟩

theorem diagOk_convert {env : Env K} {a : Mat K} : (convertAM env a).readsDiag = a.readsDiag ∧ ((convertAM env a).DiagOk ↔ a.DiagOk) := by
  cases a <;> simp [convertAM]
  split_ifs <;> simp [Mat.readsDiag, Mat.DiagOk, mkDense]

theorem NoStretch.symm {a b : Mat K} (h : NoStretch a b) : NoStretch b a := ⟨h.2, h.1⟩

theorem noStretch_of_eq {a b : Mat K} (h1 : (den a).rows = (den b).rows) (h2 : (den a).cols = (den b).cols) : NoStretch a b :=
  ⟨fun _ => ⟨Or.inr h1.symm, Or.inr h2.symm⟩, fun _ => ⟨Or.inr h1, Or.inr h2⟩⟩

theorem ZipOk.symm {op : K → K → K} (hop : ∀ x y, op x y = op y x) {S : Shp} {a b r : Mat K} (h : ZipOk op S b a r) : ZipOk op S a b r :=
  ⟨h.wf, h.compat.symm, by rw [h.eq, zipB_comm op hop]⟩

theorem trM_ok {a a' : Mat K} {S : Shp} {t : Bool} (h : a.WF S) (h2 : 2 ≤ (den a).rank) (ht : trM t a = .ok a') :
    a'.WF S ∧ den a' = trIf t (den a) ∧ 2 ≤ (den a').rank := by
  unfold trM at ht
  cases t with
  | false => simp at ht; subst ht; exact ⟨h, rfl, h2⟩
  | true =>
    simp only [if_true] at ht
    obtain ⟨r, hr, wr, dr, _⟩ := transposeM_ok h
    rw [hr] at ht
    simp at ht; subst ht
    rw [nTranspose_of_rank h2] at dr
    exact ⟨wr, dr, by rw [dr, length_tr h2]; exact h2⟩

theorem fits_of_WF {a : Mat K} {S : Shp} (h : a.WF S) {r c : ℕ} (hr : (den a).rows = 1 ∨ (den a).rows = r)
    (hc : (den a).cols = 1 ∨ (den a).cols = c) : Fits (c :: r :: S) (den a).sh := by
  intro k
  rcases k with _ | _ | k
  · simpa using hc
  · simpa using hr
  · have := h.fits k
    rw [dim_drop, Nat.add_comm] at this
    exact this

/-- Broadcasting a matrix, when it returns, denotes the broadcast. -/
theorem broadcastTo_ok {B : Ops K} (hB : B.Ok) {a r : Mat K} {S : Shp} {c n : ℕ} {s : Shp} (h : a.WF S) (ha : a.isAM = true)
    (hs : Fits S s) (hf : Fits (c :: n :: s) (den a).sh) (hl : (den a).rank ≤ s.length + 2)
    (hr : broadcastTo B a (c :: n :: s) = .ok r) :
    r.WF S ∧ den r = bcast (c :: n :: s) (den a) := by
  have h2 := h.rank ha
  have hsh := Tensor.sh_eq h2
  simp only [broadcastTo, h.shape, bind_ok_iff, Except.ok.injEq, exists_eq_left'] at hr
  by_cases he : (den a).sh = c :: n :: s
  · rw [if_pos he] at hr
    simp only [Except.ok.injEq] at hr; subst hr
    refine ⟨h, ?_⟩
    rw [← he, bcast_self]
  · rw [if_neg he] at hr
    have hb : bsh (den a).sh (c :: n :: s) = c :: n :: s := by
      rw [bsh_comm]; exact bsh_of_fits hf (by simpa using hl)
    have hc : Compat (den a).sh (c :: n :: s) := hf.compat (Fits.refl _)
    have key : ∀ r, (if (den a).sh.take 2 = (c :: n :: s).take 2 then broadcastBatchTo ((c :: n :: s).drop 2) a
      else do
        let d ← B.dense a
        return mkDense (← nBroadcastTo (c :: n :: s) d)) = .ok r → r.WF S ∧ den r = bcast (c :: n :: s) (den a) := by
      intro r hr
      split_ifs at hr with h3
      · rw [hsh] at h3
        simp at h3
        have hfs : Fits s (den a).bt := by rw [hsh] at hf; simpa using hf.drop 2
        obtain ⟨w, _, e, _⟩ := broadcastBatchTo_ok h hfs hr
        refine ⟨w.mono ?_, ?_⟩
        · rw [e]; exact hs
        · rw [e, bbT, h3.1, h3.2]
      · simp only [bind_ok_iff, nBroadcastTo_ok, pure_eq_ok] at hr
        obtain ⟨d, hd, _, ⟨_, rfl⟩, rfl⟩ := hr
        have := hB.dense h hd
        subst this
        have g : Good S (bcast (c :: n :: s) (den a)) := ⟨by simp [Tensor.rank], hs⟩
        exact ⟨(mkDense_wf g).1, (mkDense_wf g).2⟩
    cases a with
    | zero bt r' c' =>
      simp only [bind_ok_iff, bsE_ok, mkZero_ok] at hr
      obtain ⟨_, ⟨_, rfl⟩, c2, r2, bt2, hq, rfl⟩ := hr
      rw [hb] at hq
      simp at hq; obtain ⟨rfl, rfl, rfl⟩ := hq
      refine ⟨hs, ?_⟩
      refine Rep.ext (Rep.fill (Fits.refl _) _ _ 0) (Rep.bcast (Fits.refl _) hf (FRep.self hf)) rfl ?_
      intro β i j hβ hi hj
      exact (fillT_get (0:K) (S := c :: n :: s) (by simp; exact ⟨hj, hi, hβ⟩) hf).symm
    | const t r' c' =>
      simp only [bind_ok_iff, bsE_ok] at hr
      obtain ⟨_, ⟨_, rfl⟩, hq⟩ := hr
      rw [hb] at hq
      obtain ⟨hcm, rfl⟩ := mkConst_ok hq
      have hft : Fits s t.sh := by simpa [den] using hf.drop 2
      have hle : t.sh.length ≤ s.length := by simpa [den, Tensor.rank] using hl
      rw [show bsh t.sh s = s by rw [bsh_comm]; exact bsh_of_fits hft hle]
      refine ⟨hs, ?_⟩
      refine Rep.ext (Rep.constM (Fits.refl _) _ _) (Rep.bcast (Fits.refl _) hf (FRep.self hf)) rfl ?_
      intro β i j hβ hi hj
      have h1 : (bcast s t).get β = t.get β := bcast_get hβ (Fits.refl _) hft
      rw [h1]
      exact ((FRep.constM hf).at' β i j hβ hi hj).symm
    | num t => simp [Mat.isAM] at ha
    | dense t => exact key r hr
    | diag t => exact key r hr
    | lt t => exact key r hr
    | ut t => exact key r hr
    | lr l r' m => exact key r hr
    | wb d l r' m => exact key r hr
    | kron l r' => exact key r hr
    | tiled n' blk reps axis => exact key r hr

end Verif
