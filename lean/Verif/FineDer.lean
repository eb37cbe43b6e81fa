/-
Success of the derived functions (C53), part 1: subtraction, division, trace, element-wise functions, sums and means, reshaping, tiling.
-/
import Verif.Props09
import Verif.Props11
import Verif.Props06
import Verif.Concat
import Verif.Methods

set_option linter.unusedSectionVars false

namespace Verif

variable {K : Type} [Field K] [LinearOrder K] [IsStrictOrderedRing K]

/-! ### Specification: on which operands -/

/-- The entries of all the arrays an element-wise function is applied to satisfy `P`: all entries that are stored explicitly, and for LowRank and Woodbury matrices the entries
of the matrix. -/
def Mat.Stored (P : K → Prop) : Mat K → Prop
  | .num t | .dense t | .diag t | .const t _ _ | .lt t | .ut t => ∀ i, InRange t.sh i → P (t.get i)
  | .lr l r m => ∀ i, InRange (den (.lr l r m)).sh i → P ((den (.lr l r m)).get i)
  | .wb d l r m => ∀ i, InRange (den (.wb d l r m)).sh i → P ((den (.wb d l r m)).get i)
  | .kron l r => l.Stored P ∧ r.Stored P
  | _ => True

/-! ### Nothing is raised -/

theorem subtractM_calm {S : Shp} {env : Env K} {B : Ops K} (hF : B.Fine S) {a b : Mat K} (ha : a.WF S) (hb : b.WF S) (fa : a.fit true) (fb : b.fit true) (ns : NoStretch a b)
    (cm : Compat (den a).sh (den b).sh) : Calm (subtractM env B a b) := by
  unfold subtractM
  split
  · exact Calm.step (nZip_ok.2 ⟨cm, rfl⟩) Calm.pure
  · rename_i hne
    have h2 : a.isAM = true ∨ b.isAM = true := isAM_of_not_num hne
    obtain ⟨wa, ea, aa, _, _⟩ := den_convertAM (env := env) ha
    obtain ⟨wb, eb, ab, _, _⟩ := den_convertAM (env := env) hb
    obtain ⟨z, ez, fz, _⟩ := negativeM_keeps wb (fit_convertAM env fb)
    obtain ⟨wz, dz, kz⟩ := negativeM_ok wb ez
    have rig : z.rigid = (convertAM env b).rigid := by
      revert kz; cases z <;> cases convertAM env b <;> simp [Mat.kind, Mat.rigid]
    have ns' := noStretch_convert' (env := env) ha hb ns
    have hz := (zipB_upT (op := (· + ·)) (WF.rank_ne_one ha) (WF.rank_ne_one hb) (h2.imp (fun h => ha.rank h) (fun h => hb.rank h))).2
    refine Calm.step ez (hF.add wa wz (fit_convertAM env fa) fz ⟨fun h => by rw [dz]; exact ns'.1 h, fun h => by rw [dz]; exact ns'.2 (rig ▸ h)⟩ ?_)
    rw [dz, tneg_sh, ea, eb]
    exact hz.2 cm

theorem convert_const_pos {env : Env K} {b : Mat K} (hn : ∀ t r c, b = .const t r c → 0 < r ∧ 0 < c) {t : Tensor K} {n m : ℕ} (e : convertAM env b = .const t n m) : 0 < n ∧ 0 < m := by
  cases b with
  | num u =>
    simp only [convertAM] at e
    split_ifs at e <;> cases e
    decide
  | const u r c => cases e; exact hn _ _ _ rfl
  | _ => cases e

theorem divideM_calm {S : Shp} {env : Env K} {B : Ops K} (hB : B.Ok) (hF : B.Fine S) {a b : Mat K} (ha : a.WF S) (hb : b.WF S) (fa : a.fit true) (fb : b.fit true) (ns : NoStretch a b)
    (cm : Compat (den a).sh (den b).sh) (h0 : ∀ i, InRange (den b).sh i → (den b).get i ≠ 0) (hn : ∀ t r c, b = .const t r c → 0 < r ∧ 0 < c) : Calm (divideM env B a b) := by
  unfold divideM
  split
  · exact Calm.bind (nDiv_calm cm h0) fun _ _ => Calm.pure
  · rename_i hne
    have h2 : a.isAM = true ∨ b.isAM = true := isAM_of_not_num hne
    obtain ⟨wa, ea, aa, _, _⟩ := den_convertAM (env := env) ha
    obtain ⟨wb, eb, ab, _, _⟩ := den_convertAM (env := env) hb
    have ns' := noStretch_convert' (env := env) ha hb ns
    have hz := (zipB_upT (op := (· + ·)) (WF.rank_ne_one ha) (WF.rank_ne_one hb) (h2.imp (fun h => ha.rank h) (fun h => hb.rank h))).2
    have cm' : Compat (den (convertAM env a)).sh (den (convertAM env b)).sh := by rw [ea, eb]; exact hz.2 cm
    have h0' : ∀ i, InRange (den (convertAM env b)).sh i → (den (convertAM env b)).get i ≠ 0 := by
      rw [eb]
      obtain ⟨e1, e2⟩ := upT_props (WF.rank_ne_one hb)
      intro i hi
      rw [e1]
      exact h0 i fun k => by rw [← e2]; exact hi k
    have fa' := fit_convertAM env fa
    have fb' := fit_convertAM env fb
    dsimp only
    split
    · rename_i t n m e
      obtain ⟨pn, pm⟩ := convert_const_pos hn e
      rw [e] at wb ns' cm' h0'
      have ht : ∀ i, InRange t.sh i → t.get i ≠ 0 := by
        intro i hi
        have hi' : InRange (constM t n m).sh (icons 0 (icons 0 i)) := by
          rw [constM_sh, inRange_cons, inRange_cons]; exact ⟨pm, pn, hi⟩
        have := h0' _ hi'
        rw [show den (.const t n m) = constM t n m from rfl, constM_get hi'] at this
        exact this
      unfold divideConst
      refine Calm.bind (nDiv_calm (Compat.nil_left _) ht) fun inv h1 => ?_
      obtain ⟨_, _, rfl⟩ := nDiv_ok h1
      have e1 : (zipB (· / ·) (scalarT 1) t).sh = t.sh := by simp
      rw [← e1]
      refine Calm.step (mkConst_self _ _ _) ?_
      have wc : Mat.WF S (.const (zipB (· / ·) (scalarT 1) t) n m) := by show Fits S _; rw [e1]; exact wb
      exact hF.mul wa wc fa' trivial ⟨⟨ns'.1, fun h => by simp [Mat.rigid] at h⟩, fun _ => trivial, fun h => by simp [Mat.readsDiag] at h⟩
        (MulDef.of (fun _ h => by simp [Mat.isKron] at h) ⟨fun _ _ => trivial, by simp [Mat.readsDiag], by simp [Mat.lowRk]⟩)
        (by simp only [den, constM_sh, e1] at cm' ⊢; exact cm')
    · refine Calm.bind (hF.dense wa fa') fun x hx => Calm.bind (hF.dense wb fb') fun y hy => ?_
      obtain rfl := hB.dense wa hx
      obtain rfl := hB.dense wb hy
      exact Calm.bind (nDiv_calm cm' h0') fun _ _ => Calm.pure

theorem traceM_calm {S : Shp} {B : Ops K} (hB : B.Ok) (hF : B.Fine S) {a : Mat K} (ha : a.WF S) (fa : a.fit true) (h2 : 2 ≤ (den a).rank) (hd : a.DiagDef (den a).bt) (ho : a.DiagOk) :
    Calm (traceM B a) := by
  unfold traceM
  refine Calm.bind (hF.diag ha fa h2 hd) fun u hu => ?_
  obtain rfl := hB.diag ha h2 ho hu
  exact nSum_calm (n := (den a).bt.length) (by simp [Tensor.rank, diagE_sh])

theorem eltM_calm {S : Shp} {B : Ops K} (hB : B.Ok) (hF : B.Fine S) {g : Tensor K → E (Tensor K)} {P : K → Prop} (hg : ∀ t : Tensor K, (∀ i, InRange t.sh i → P (t.get i)) → Calm (g t))
    (hs : ∀ t u, g t = .ok u → u.sh = t.sh) {a : Mat K} (ha : a.WF S) (fa : a.fit true) (hp : a.Stored P) : Calm (eltM g B a) := by
  induction a with
  | num t => exact Calm.bind (hg _ hp) fun _ _ => Calm.pure
  | zero bt r c => exact Calm.ok
  | dense t =>
    refine Calm.bind (hF.dense ha fa) fun x hx => ?_
    obtain rfl := hB.dense ha hx
    exact Calm.bind (hg _ hp) fun _ _ => Calm.pure
  | diag t => exact Calm.bind (hg _ hp) fun u hu => Calm.of (mkDiag_of (by rw [Tensor.rank, hs _ _ hu]; exact ha.1))
  | const t r c => exact Calm.bind (hg _ hp) fun u hu => Calm.ok
  | lt t => exact Calm.bind (hg _ hp) fun u hu => Calm.of (mkLT_of (by rw [Tensor.rank, hs _ _ hu]; exact ha.1))
  | ut t => exact Calm.bind (hg _ hp) fun u hu => Calm.of (mkUT_of (by rw [Tensor.rank, hs _ _ hu]; exact ha.1))
  | lr l r m =>
    refine Calm.bind (hF.dense ha fa) fun x hx => ?_
    obtain rfl := hB.dense ha hx
    exact Calm.bind (hg _ hp) fun _ _ => Calm.pure
  | wb d l r m =>
    refine Calm.bind (hF.dense ha fa) fun x hx => ?_
    obtain rfl := hB.dense ha hx
    exact Calm.bind (hg _ hp) fun _ _ => Calm.pure
  | kron l r ihl ihr => exact Calm.bind (ihl ha.1.1 fa.2.1 hp.1) fun _ _ => Calm.bind (ihr ha.1.2 fa.2.2 hp.2) fun _ _ => Calm.pure
  | tiled => exact fa.elim

theorem nSum_posAxis_calm {t : Tensor K} {n k q : ℕ} (hr : t.rank + q = n) (hq : q ≤ k) (hk : k < n) : Calm (nSum t (some (posAxis n k))) := by
  unfold nSum
  exact Calm.step (axPos_posAxis hr hq hk) Calm.pure

theorem nSum_posAxis_of {t : Tensor K} {n k q : ℕ} (hr : t.rank + q = n) (hq : q ≤ k) (hk : k < n) : nSum t (some (posAxis n k)) = .ok (sumAx (k - q) t) := by
  unfold nSum
  simp only [axPos_posAxis hr hq hk]; rfl

theorem nSum_last_of {v : Tensor K} (h : 1 ≤ v.rank) : nSum v (some (-1)) = .ok (sumAx 0 v) := by
  simpa using nSum_of (t := v) (k := 0) h
theorem sumAx0_sh (v : Tensor K) : (sumAx 0 v).sh = v.sh.tail := by
  simp [sumAx]

section
variable {B : Ops K} (hB : B.Ok) (hK : B.Keeps) (hF : ∀ S, 0 ∉ S → B.Fine S)
include hB hK hF

theorem sumAllM_calm {S : Shp} (h0 : 0 ∉ S) {a : Mat K} (ha : a.WF S) (fa : a.fit true) : Calm (sumAllM B a) := by
  cases a with
  | num t => exact Calm.ok
  | zero bt r c => exact Calm.ok
  | dense t => exact Calm.ok
  | lt t => exact Calm.ok
  | ut t => exact Calm.ok
  | diag t => exact Calm.ok
  | const t r c => exact Calm.step rfl Calm.pure
  | lr l r m =>
    have fS := hF S h0
    obtain ⟨⟨hl, hr, hm⟩, ⟨kl, kr, km⟩, c1, c2⟩ := ha
    obtain ⟨fl, fr, fm⟩ := fa
    refine Calm.bind (fS.matmul hl hm fl.up fm.up kl km c1 (KDom.flat (fit_notKron fl) (fit_notKron fm))) fun lm hlm => ?_
    have z := hB.matmul hl hm kl km hlm
    have ze : den lm = mm (den l) (den m) := z.eq
    refine Calm.bind (fS.sumM le_rfl z.wf ((hK.matmul fl fm) _ hlm).up z.rank) fun x hx => Calm.bind (fS.sumM le_rfl hr fr.up kr) fun y hy => ?_
    obtain rfl := hB.sumM le_rfl z.wf z.rank hx
    obtain rfl := hB.sumM le_rfl hr kr hy
    have V1 := VRep.sumAx1 (z.wf.good z.rank).rep
    have V2 := VRep.sumAx1 (hr.good kr).rep
    refine Calm.step (nMul_of ?_) Calm.ok
    rw [V1.sh, V2.sh, compat_cons]
    exact ⟨Or.inr (Or.inr (by rw [ze]; exact c2.symm)), V1.bt.compat V2.bt⟩
  | wb d l r m =>
    have fS := hF S h0
    have w1 := ha.wbDiag
    have w2 := ha.wbLr
    refine Calm.bind (fS.sumM (Nat.zero_le _) w1 (fit_diag true _) (w1.rank rfl)) fun x hx => ?_
    obtain rfl := hB.sumM (Nat.zero_le _) w1 (w1.rank rfl) hx
    have V1 := VRep.sumAx (Nat.zero_le 1) (w1.good (w1.rank rfl)).rep
    refine Calm.step (nSum_last_of (VRep.rank V1)) ?_
    refine Calm.bind (fS.sumM (Nat.zero_le _) w2 fa.lr (w2.rank rfl)) fun y hy => ?_
    obtain rfl := hB.sumM (Nat.zero_le _) w2 (w2.rank rfl) hy
    have V2 := VRep.sumAx (Nat.zero_le 1) (w2.good (w2.rank rfl)).rep
    refine Calm.step (nSum_last_of (VRep.rank V2)) (Calm.step (nAdd_of ?_) Calm.ok)
    rw [sumAx0_sh (sumAx 0 (den (.lr l r m))), sumAx0_sh (sumAx 0 (den (.diag d)))]
    exact V2.bt.compat V1.bt
  | kron l r =>
    have fS := hF S h0
    obtain ⟨⟨hl, hr⟩, kl, kr⟩ := ha
    refine Calm.bind (fS.sumM (Nat.zero_le _) hl fa.2.1 kl) fun x hx => ?_
    obtain rfl := hB.sumM (Nat.zero_le _) hl kl hx
    have V1 := VRep.sumAx (Nat.zero_le 1) (hl.good kl).rep
    refine Calm.step (nSum_last_of (VRep.rank V1)) ?_
    refine Calm.bind (fS.sumM (Nat.zero_le _) hr fa.2.2 kr) fun y hy => ?_
    obtain rfl := hB.sumM (Nat.zero_le _) hr kr hy
    have V2 := VRep.sumAx (Nat.zero_le 1) (hr.good kr).rep
    refine Calm.step (nSum_last_of (VRep.rank V2)) (Calm.step (nMul_of ?_) Calm.ok)
    rw [sumAx0_sh (sumAx 0 (den l)), sumAx0_sh (sumAx 0 (den r))]
    exact V1.bt.compat V2.bt
  | tiled => exact fa.elim

theorem sumBatchM_calm {S : Shp} (h0 : 0 ∉ S) {a : Mat K} {k : ℕ} (ha : a.WF S) (fa : a.fit true) (h2 : 2 ≤ (den a).rank) (hk : k < (den a).bt.length) (hb : 0 ∉ (den a).bt) :
    Calm (sumBatchM B (den a).rank (k + 2) a) := by
  have hl : (den a).rank = (den a).bt.length + 2 := by
    unfold Tensor.rank; conv_lhs => rw [Tensor.sh_eq h2]
    rfl
  have num : ∀ {t : Tensor K}, t = den a → Calm (nSum t (some (posAxis (den a).rank (k + 2)))) := by
    intro t e
    subst e
    exact nSum_posAxis_calm (q := 0) rfl (by omega) (by omega)
  have dns : Calm (do return .num (← nSum (← B.dense a) (some (posAxis (den a).rank (k + 2)))) : E (Mat K)) := by
    refine Calm.bind ((hF S h0).dense ha fa) fun x hx => ?_
    obtain rfl := hB.dense ha hx
    exact Calm.bind (num rfl) fun _ _ => Calm.pure
  cases a with
  | num t => exact Calm.bind (num rfl) fun _ _ => Calm.pure
  | dense t => exact Calm.bind (num rfl) fun _ _ => Calm.pure
  | lt t => exact Calm.bind (num rfl) fun _ _ => Calm.pure
  | ut t => exact Calm.bind (num rfl) fun _ _ => Calm.pure
  | zero bt r c => exact Calm.ok
  | diag d =>
    have h1 := ha.1
    refine Calm.bind (nSum_posAxis_calm (q := 1) (by simp [Tensor.rank, den] at h1 ⊢; omega) (by omega) (by omega)) fun v hv => ?_
    obtain rfl : v = sumAx (k + 1) d := nSum_pos (q := 1) (by simp [Tensor.rank, den] at h1 ⊢; omega) (by omega) hv
    exact Calm.of (mkDiag_of (by simp [Tensor.rank, sumAx_vec_sh h1]))
  | const t r c => exact Calm.bind (nSum_posAxis_calm (n := (den (.const t r c)).rank) (k := k + 2) (q := 2) rfl (by omega) (by omega)) fun v hv => Calm.ok
  | lr l r m => exact dns
  | kron l r => exact dns
  | wb d l r m =>
    have w1 := ha.wbDiag
    have w2 := ha.wbLr
    refine Calm.bind (alignBatch2_calm w1 w2 (fit_diag true _) fa.lr (w1.rank rfl) (w2.rank rfl)) fun p hp => ?_
    obtain ⟨a', b'⟩ := p
    obtain ⟨T, eT, gd, gl, wa, wb, ea, eb⟩ := alignBatch2_ok (WF.diagPart ha) (WF.lrPart ha) hp
    have ff := (fitp_alignBatch2 (κ := true) (κ' := true) (fit_diag true _) fa.lr) _ hp
    have ka : a'.kind = some .diag := by
      unfold alignBatch2 at hp
      simp only [bind_ok_iff, pure_eq_ok, Prod.mk.injEq] at hp
      obtain ⟨_, _, _, h1, _, _, rfl, _⟩ := hp
      exact kind_broadcastBatchTo rfl _ h1
    obtain ⟨d', rfl⟩ : ∃ d', a' = .diag d' := by
      cases a' <;> simp [Mat.kind] at ka
      exact ⟨_, rfl⟩
    have eb' : (den (.wb d l r m)).bt = T := by rw [eT]; exact zipB_bt
    have hr1 : (den (.diag d)).rows = (den (.lr l r m)).rows := ha.2.2.2.2.1.symm
    have hc1 : (den (.diag d)).cols = (den (.lr l r m)).cols := ha.2.2.2.2.2.symm
    have d1 : 1 ≤ d'.rank := wa.1
    have ed' : d'.sh.tail = T := by
      have := congrArg Tensor.bt ea; exact this
    rw [eb'] at hk hl hb
    have sD := sumAx_vec_sh d1 k
    have rD : d'.rank + 1 = (den (.wb d l r m)).rank := by
      have : d'.sh.tail.length = T.length := by rw [ed']
      simp [Tensor.rank] at d1 this hl ⊢; omega
    refine Calm.step (nSum_posAxis_of (k := k + 2) (q := 1) rD (by omega) (by omega)) (Calm.step (mkDiag_of (by simp [Tensor.rank, sD])) ?_)
    show Calm (B.dense b' >>= fun x => nSum x _ >>= fun y => B.add (.diag (sumAx (k + 1) d')) (.num y))
    have gb := wb.good (by rw [eb]; exact bbT_rank _ _)
    have rB : (den b').rank + 0 = (den (.wb d l r m)).rank := by rw [hl, eb]; simp [Tensor.rank]
    refine Calm.bind ((hF T hb).dense wb ff.2) fun y hy => ?_
    obtain rfl := hB.dense wb hy
    refine Calm.bind (nSum_posAxis_calm (k := k + 2) (q := 0) rB (by omega) (by omega)) fun z hz => ?_
    obtain rfl : z = sumAx (k + 2) (den b') := nSum_pos (k := k + 2) (q := 0) rB (by omega) hz
    have sN := sumAx_mat_sh gb.rank k
    have e1 : (sumAx (k + 1) d').cols = (den (Mat.diag d)).cols := by
      rw [Tensor.cols, sD]; exact congrArg Tensor.cols (a₁ := den (.diag d')) (a₂ := bbT T (den (.diag d))) ea
    have e2 : (sumAx (k + 2) (den b')).rows = (den (.lr l r m)).rows := by rw [Tensor.rows, sN, eb]; rfl
    have e3 : (sumAx (k + 2) (den b')).cols = (den (.lr l r m)).cols := by rw [Tensor.cols, sN, eb]; rfl
    have w1' : Mat.WF (T.eraseIdx k) (.diag (sumAx (k + 1) d')) := ⟨by simp [Tensor.rank, sD], by rw [sD, ed']; exact Fits.refl _⟩
    have w2' : Mat.WF (T.eraseIdx k) (.num (sumAx (k + 2) (den b'))) := ⟨by simp [Tensor.rank, sN], by rw [Tensor.bt, sN, eb]; exact Fits.refl _⟩
    refine (hF (T.eraseIdx k) fun h => hb (List.mem_of_mem_eraseIdx h)).add w1' w2' trivial trivial
      (noStretch_of_eq (e1.trans (hr1.trans e2.symm)) (e1.trans (hc1.trans e3.symm))) ?_
    exact compat_sh (w1'.good (w1'.rank rfl)) (w2'.good (by simp [den, Tensor.rank, sN])) (e1.trans (hr1.trans e2.symm)) (e1.trans (hc1.trans e3.symm))
  | tiled => exact fa.elim

theorem sumFull_calm {S : Shp} (h0 : 0 ∉ S) {a : Mat K} {axis : Option Int} (ha : a.WF S) (fa : a.fit true) (h2 : 2 ≤ (den a).rank) (hb : 0 ∉ (den a).bt)
    (hx : ∀ ax, axis = some ax → ∃ k, AxisAt (den a).rank ax k) : Calm (sumFull B a axis) := by
  unfold sumFull
  split
  · exact Calm.bind (sumAllM_calm hB hK hF h0 ha fa) fun _ _ => Calm.pure
  · rename_i ax
    obtain ⟨k, hk⟩ := hx ax rfl
    refine Calm.step (by simp [rankM, ha.shape, Tensor.rank] : rankM a = .ok (den a).rank) (Calm.step (axPos_iff.2 hk) (Calm.ite (fun h => ?_) fun h => ?_))
    · exact Calm.bind ((hF S h0).sumM (by omega) ha fa h2) fun _ _ => Calm.pure
    · obtain ⟨k, rfl⟩ : ∃ q, k = q + 2 := ⟨k - 2, by omega⟩
      refine sumBatchM_calm hB hK hF h0 ha fa h2 ?_ hb
      have hl : (den a).rank = (den a).bt.length + 2 := by
        unfold Tensor.rank; conv_lhs => rw [Tensor.sh_eq h2]
        rfl
      have := hk.1
      omega

omit hB hF [IsStrictOrderedRing K] in
theorem fitp_sumBatchM {n k : ℕ} {a : Mat K} : Post (Mat.fit true) (sumBatchM B n k a) := by
  cases a with
  | num t => exact Post.skip fun _ => Post.pure trivial
  | zero bt r c => exact Post.ok trivial
  | dense t => exact Post.skip fun _ => Post.pure trivial
  | lt t => exact Post.skip fun _ => Post.pure trivial
  | ut t => exact Post.skip fun _ => Post.pure trivial
  | diag d => exact Post.skip fun _ => fitp_mkDiag _ _
  | const t r c => exact Post.skip fun _ => fitp_mkConst _ _ _
  | lr l r m => exact Post.skip fun _ => Post.skip fun _ => Post.pure trivial
  | kron l r => exact Post.skip fun _ => Post.skip fun _ => Post.pure trivial
  | wb d l r m =>
    refine Post.skip fun p => ?_
    split
    · exact Post.skip fun _ => (fitp_mkDiag true _).bind fun x hx => Post.skip fun _ => Post.skip fun _ => hK.add hx trivial
    · exact Post.error
  | tiled => exact Post.error

omit hB hF [IsStrictOrderedRing K] in
theorem fitp_sumFull {a : Mat K} {axis : Option Int} : Post (Mat.fit true) (sumFull B a axis) := by
  unfold sumFull
  split
  · exact Post.skip fun _ => Post.pure trivial
  · exact Post.skip fun _ => Post.skip fun _ => Post.ite (Post.skip fun _ => Post.pure trivial) (fitp_sumBatchM hK)

theorem meanM_calm {env : Env K} {S : Shp} (h0 : 0 ∉ S) {a : Mat K} {axis : Option Int} (ha : a.WF S) (fa : a.fit true) (h2 : 2 ≤ (den a).rank) (hb : 0 ∉ (den a).sh)
    (hx : ∀ ax, axis = some ax → ∃ k, AxisAt (den a).rank ax k) : Calm (meanM env B a axis) := by
  have hb' : 0 ∉ (den a).bt := fun h => hb (List.mem_of_mem_drop h)
  have key : ∀ n : ℕ, n ≠ 0 → Calm (sumFull B a axis >>= fun s => divideM env B s (.num (scalarT (n : K)))) := by
    intro n hn
    have nz : ∀ i, InRange (den (.num (scalarT (n : K)) : Mat K)).sh i → (den (.num (scalarT (n : K)) : Mat K)).get i ≠ 0 := fun i _ => by
      show (n : K) ≠ 0
      exact Nat.cast_ne_zero.2 hn
    refine Calm.bind (sumFull_calm hB hK hF h0 ha fa h2 hb' hx) fun s hs => ?_
    have num : ∀ t : Tensor K, Calm (divideM env B (.num t) (.num (scalarT (n : K)))) := fun t =>
      Calm.bind (nDiv_calm (Compat.nil_right _) nz) fun _ _ => Calm.pure
    cases axis with
    | none =>
      obtain rfl := sumFull_all_ok hB ha hs
      exact num _
    | some ax =>
      obtain ⟨k, hk, e, hv⟩ := sumFull_ax_ok hB ha h2 hs
      rcases hv with hv | hv
      · cases s <;> first | exact num _ | simp [Mat.isAM] at hv
      · have bs : 0 ∉ (den s).bt := by
          rw [e]
          intro h
          exact hb (List.mem_of_mem_eraseIdx (List.mem_of_mem_drop h))
        have ws : (Mat.num (scalarT (n : K))).WF (den s).bt := ⟨by simp [Tensor.rank], Fits.nil _⟩
        exact divideM_calm hB (hF _ bs) hv.own ws (fitp_sumFull hK _ hs) trivial
          ⟨fun _ => ⟨Or.inl rfl, Or.inl rfl⟩, fun h => by simp [Mat.rigid] at h⟩ (Compat.nil_right _) nz (fun _ _ _ h => nomatch h)
  unfold meanM
  refine Calm.step ha.shape ?_
  cases axis with
  | none => exact Calm.step rfl (key _ (fun h => hb (List.prod_eq_zero_iff.1 h)))
  | some ax =>
    obtain ⟨k, hk⟩ := hx ax rfl
    refine Calm.step (v := dim (den a).sh k) ?_ (key _ ?_)
    · have := axPos_iff.2 hk
      unfold Tensor.rank at this
      simp only [this]; rfl
    · intro h
      exact absurd ((zero_notMem_iff _).1 hb k) (by omega)

end

end Verif
