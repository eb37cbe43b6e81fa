/-
`B.matmul_diag` succeeds (C53), whatever the tolerance.
-/
import Verif.FineBlock
import Verif.Props06
import Verif.Props12

set_option linter.unusedSectionVars false

namespace Verif

variable {K : Type} [Field K] [LinearOrder K] [IsStrictOrderedRing K]

/-- The diagonal of the product of these can be taken: where the diagonal of an operand is read (by Diagonal and Woodbury matrices, and Kronecker products of those)
it is defined, the middle factors of a Woodbury matrix and of a LowRank or Woodbury matrix are not empty, and at most one operand is a Kronecker product. -/
structure MdDef (a b : Mat K) : Prop where
  kron : a.isKron = true → b.isKron = true → False
  left : a.readsDiag = true → b.isAM = true → b.DiagDef (den b).bt
  right : b.readsDiag = true → a.isAM = true → a.DiagDef (den a).bt
  inner : a.lowRk = true → b.lowRk = true → a.kind = some .wb ∨ b.kind = some .wb → a.innerPos ∧ b.innerPos

theorem mulDef_of {a b : Mat K} (h : MdDef a b) (hn : ¬ (a.kind = some .lr ∧ b.kind = some .lr)) : MulDef a b := by
  cases a <;> cases b <;> first
    | exact (h.kron rfl rfl).elim
    | exact absurd ⟨rfl, rfl⟩ hn
    | exact ⟨h.left, h.right, fun h1 h2 => h.inner h1 h2 (Or.inl rfl)⟩
    | exact ⟨h.left, h.right, fun h1 h2 => h.inner h1 h2 (Or.inr rfl)⟩
    | exact ⟨h.left, h.right, fun h1 _ => (Bool.false_ne_true h1).elim⟩
    | exact ⟨h.left, h.right, fun _ h2 => (Bool.false_ne_true h2).elim⟩

theorem kinds_transposeM {a r : Mat K} (h : transposeM a = .ok r) : r.isKron = a.isKron ∧ r.lowRk = a.lowRk ∧ r.isAM = a.isAM := by
  rcases kind_transposeM h with e | ⟨e, e'⟩ | ⟨e, e'⟩
  · cases a <;> cases r <;> first | exact ⟨rfl, rfl, rfl⟩ | simp [Mat.kind] at e
  · cases a <;> cases r <;> first | exact ⟨rfl, rfl, rfl⟩ | simp [Mat.kind] at e e'
  · cases a <;> cases r <;> first | exact ⟨rfl, rfl, rfl⟩ | simp [Mat.kind] at e e'

theorem diagDef_transposeM {T : Shp} {a r : Mat K} (h : transposeM a = .ok r) (hd : a.DiagDef T) : r.DiagDef T := by
  induction a generalizing r with
  | kron l r' ihl ihr =>
    simp only [transposeM, bind_ok_iff, pure_eq_ok] at h
    obtain ⟨x, hx, y, hy, rfl⟩ := h
    exact ⟨ihl hx hd.1, ihr hy hd.2⟩
  | num t => cases h; exact hd
  | _ =>
    obtain ⟨h1, _, h2⟩ := kinds_transposeM h
    cases r <;> trivial

theorem innerPos_transposeM {S : Shp} {a r : Mat K} (w : a.WF S) (h : transposeM a = .ok r) (hd : a.innerPos) : r.innerPos := by
  have hm : ∀ {m m' : Mat K}, m.WF S → 2 ≤ (den m).rank → transposeM m = .ok m' → (0 < (den m).rows ∧ 0 < (den m).cols) → 0 < (den m').rows ∧ 0 < (den m').cols := by
    intro m m' wm km hm hp
    obtain ⟨_, e, _⟩ := trM_ok (t := true) wm km (by simpa [trM] using hm)
    rw [e]; exact ⟨hp.2, hp.1⟩
  cases a with
  | lr l r' m =>
    obtain ⟨⟨_, _, wm⟩, ⟨_, _, km⟩, _⟩ := w
    simp only [transposeM, bind_ok_iff] at h
    obtain ⟨m', e, h⟩ := h
    obtain rfl := mkLR_inv' h
    exact hm wm km e hd
  | wb d l r' m =>
    obtain ⟨_, ⟨_, _, wm⟩, ⟨_, _, km⟩, _⟩ := w
    simp only [transposeM, bind_ok_iff] at h
    obtain ⟨m', e, _, _, h⟩ := h
    obtain rfl := mkWB_inv h
    exact hm wm km e hd
  | _ =>
    obtain ⟨_, h1, _⟩ := kinds_transposeM h
    cases r <;> trivial

theorem trM_facts {S : Shp} {t : Bool} {a r : Mat K} (w : a.WF S) (k : 2 ≤ (den a).rank) (h : trM t a = .ok r) :
    r.isKron = a.isKron ∧ r.lowRk = a.lowRk ∧ r.isAM = a.isAM ∧ r.readsDiag = a.readsDiag ∧ (a.DiagDef (den a).bt → r.DiagDef (den r).bt) ∧ (a.innerPos → r.innerPos) ∧
      (r.kind = some .lr ↔ a.kind = some .lr) ∧ (r.kind = some .wb ↔ a.kind = some .wb) := by
  cases t
  · simp only [trM, Bool.false_eq_true, if_false, Except.ok.injEq] at h
    subst h
    exact ⟨rfl, rfl, rfl, rfl, fun h => h, fun h => h, Iff.rfl, Iff.rfl⟩
  · have e := (trM_ok w k h).2.1
    simp only [trM, if_true] at h
    obtain ⟨h1, h2, h3⟩ := kinds_transposeM h
    have eb : (den r).bt = (den a).bt := by rw [e]; rfl
    refine ⟨h1, h2, h3, readsDiag_transposeM h, fun hd => by rw [eb]; exact diagDef_transposeM h hd, innerPos_transposeM w h, ?_, ?_⟩
    all_goals rcases kind_transposeM h with e | ⟨e, e'⟩ | ⟨e, e'⟩
    all_goals first | (rw [e]; done) | (rw [e, e']; decide)

theorem MdDef.tr {S : Shp} {t u : Bool} {a b a' b' : Mat K} (wa : a.WF S) (wb : b.WF S) (ka : 2 ≤ (den a).rank) (kb : 2 ≤ (den b).rank) (ha : trM t a = .ok a') (hb : trM u b = .ok b')
    (h : MdDef a b) : MdDef a' b' := by
  obtain ⟨a1, a2, a3, a4, a5, a6, _, a7⟩ := trM_facts wa ka ha
  obtain ⟨b1, b2, b3, b4, b5, b6, _, b7⟩ := trM_facts wb kb hb
  refine ⟨?_, ?_, ?_, ?_⟩
  · rw [a1, b1]; exact h.kron
  · rw [a4, b3]; exact fun x y => b5 (h.left x y)
  · rw [b4, a3]; exact fun x y => a5 (h.right x y)
  · rw [a2, b2, a7, b7]; exact fun x y z => ⟨a6 (h.inner x y z).1, b6 (h.inner x y z).2⟩

theorem matmulDiag_calm {env : Env K} {S : Shp} {B : Ops K} (hB : B.Ok) (hm : MmKinds env B) (hK : B.Keeps) (hF : B.Fine S) {ta tb : Bool} {a b : Mat K} (wa : a.WF S) (wb : b.WF S)
    (fa : a.fit true) (fb : b.fit true) (ka : 2 ≤ (den a).rank) (kb : 2 ≤ (den b).rank) (h1 : (trIf ta (den a)).cols = (trIf tb (den b)).rows)
    (h2 : (trIf ta (den a)).rows = (trIf tb (den b)).cols) (hd1 : a.readsDiag = true → b.DiagOk) (hd2 : b.readsDiag = true → a.DiagOk) (hd : MdDef a b) :
    Calm (matmulDiag B ta tb a b) := by
  have gen : ¬ (a.kind = some .lr ∧ b.kind = some .lr) → Calm (do let a ← trM (!ta) a; let b ← trM tb b; B.sumM 1 (← B.mul a b) : E (Tensor K)) := by
    intro hn
    refine Calm.bind (trM_calm _ wa) fun a' ha' => Calm.bind (trM_calm _ wb) fun b' hb' => ?_
    obtain ⟨wa', ea, ka'⟩ := trM_ok wa ka ha'
    obtain ⟨wb', eb, kb'⟩ := trM_ok wb kb hb'
    have et : den a' = tr (trIf ta (den a)) := by
      rw [ea]
      cases ta
      · rfl
      · simp only [Bool.not_true, trIf_false, trIf_true]
        exact (tr_tr ka).symm
    have er : (den a').rows = (den b').rows := by rw [et, eb]; exact h1
    have ec : (den a').cols = (den b').cols := by rw [et, eb]; exact h2
    have ms : MulSafe a' b' := ⟨noStretch_of_eq er ec, fun hh => diagOk_trM wb (hd1 (by rwa [readsDiag_trM ha'] at hh)) hb',
      fun hh => diagOk_trM wa (hd2 (by rwa [readsDiag_trM hb'] at hh)) ha'⟩
    have fa' := fitp_trM _ fa _ ha'
    have fb' := fitp_trM _ fb _ hb'
    refine Calm.bind (hF.mul wa' wb' fa' fb' ms (mulDef_of (hd.tr wa wb ka kb ha' hb') ?_) (compat_sh (wa'.good ka') (wb'.good kb') er ec)) fun x hx => ?_
    · rw [(trM_facts wa ka ha').2.2.2.2.2.2.1, (trM_facts wb kb hb').2.2.2.2.2.2.1]; exact hn
    · have o := hB.mul wa' wb' ms hx
      have k2 : 2 ≤ (den x).rank := by
        rw [o.eq]; exact ((wa'.good ka').zipB _ (wb'.good kb')).rank
      exact hF.sumM (by omega) o.wf (hK.mul fa' fb' _ hx) k2
  unfold matmulDiag
  split
  · rename_i al ar am bl br bm
    refine Calm.bind (hF.matmul wa wb fa fb ka kb h1 (fun h => by simp [Mat.isKron] at h)) fun x hx => ?_
    have o := hB.matmul wa wb ka kb hx
    obtain ⟨k', hk', e⟩ := hm ta tb _ _ (.inl rfl) (triRk_of_wf wa) (triRk_of_wf wb) x hx
    have ne := kind_matmul_ne hB hm (k := .lr) rfl (by simp) wa wb hx
    refine hF.diag o.wf (hK.matmul fa fb _ hx).up o.rank ?_
    cases x <;> trivial
  · rename_i hn
    refine gen fun h => ?_
    obtain ⟨p1, p2⟩ := h
    clear gen
    cases a <;> simp [Mat.kind] at p1
    cases b <;> simp [Mat.kind] at p2
    exact hn _ _ _ _ _ _ rfl rfl

theorem twin_matmulDiag {env : Env K} {B C : Ops K} (hT : B.Twin env C) {ta tb : Bool} {a b : Mat K} (ha : a.wo true) (hb : b.wo true) : matmulDiag B ta tb a b = matmulDiag C ta tb a b := by
  unfold matmulDiag
  split
  · rename_i al ar am bl br bm
    exact ((hT.matmul (a := .lr al ar am) (b := .lr bl br bm) ha hb).bind fun x hx => hT.diag hx.up).1
  · exact E.bind_congr fun a' ha' => E.bind_congr fun b' hb' => ((hT.mul (wop_trM _ ha _ ha') (wop_trM _ hb _ hb')).bind fun x hx => hT.sumM hx).1

/-- C46.  The tolerance does not influence `B.matmul_diag`. -/
theorem C46_matmul_diag (c : Cfg K) (ta tb : Bool) {a b : Mat K} (ha : a.wo true) (hb : b.wo true) : ToleranceFree c fun B => matmulDiag B ta tb a b :=
  .of fun _ hn n => twin_matmulDiag (ops_twin hn n) ha hb

/-- C53.  The diagonal of a square product can be computed. -/
theorem C53_matmul_diag (c : Cfg K) {ta tb : Bool} {a b : Mat K} (ha : a.Supported) (hb : b.Supported) (hwa : a.wo true) (hwb : b.wo true) (hc : BatchCompat a b)
    (h2a : 2 ≤ (den a).rank) (h2b : 2 ≤ (den b).rank)
    (h1 : (if ta then tr (den a) else den a).cols = (if tb then tr (den b) else den b).rows)
    (h2 : (if ta then tr (den a) else den a).rows = (if tb then tr (den b) else den b).cols)
    (hd1 : a.readsDiag = true → b.DiagOk) (hd2 : b.readsDiag = true → a.DiagOk) (hd : MdDef a b) :
    ∃ v, Returns c (fun B => matmulDiag B ta tb a b) v ∧
      ∃ p, IsMatProd (if ta then tr (den a) else den a) (if tb then tr (den b) else den b) p ∧ IsDiagonalOf p v := by
  have hx := (C46_matmul_diag c ta tb hwa hwb).2
  obtain ⟨wa, wb⟩ := ha.valid.common hb.valid hc
  obtain ⟨v, h⟩ := (C35_matmul_diag c ta tb a b).returns hx fun n =>
    matmulDiag_calm (c.ok n) (ops_mmKinds _ n) (ops_keeps _ n) (c.fine (zero_bsh ha.batch hb.batch) n) wa wb ha.fit hb.fit h2a h2b h1 h2 hd1 hd2 hd
  exact ⟨v, h, C23_matmul_diag c ha.valid hb.valid hc h2a h2b h1 h2 hd1 hd2 h hx⟩

/- The diagonals of the products of the transposes of a batch of Woodbury matrices with a LowerTriangular matrix. -/
example : ∃ v, Returns Ex.cfg (fun B => matmulDiag B true false Ex.Wb Ex.L) v ∧ ∃ p, IsMatProd (tr (den Ex.Wb)) (den Ex.L) p ∧ IsDiagonalOf p v :=
  C53_matmul_diag _ (ta := true) (tb := false) Ex.Wb_supported Ex.L_supported Ex.Wb_wo trivial (by decide +kernel) (by decide +kernel) (by decide +kernel) (by decide +kernel) (by decide +kernel)
    (fun _ => trivial) (fun _ => trivial) ⟨(fun h => nomatch h), fun _ _ => trivial, fun _ _ => trivial, (fun _ h => nomatch h)⟩

end Verif
