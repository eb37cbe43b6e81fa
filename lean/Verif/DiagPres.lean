/-
The results of add, multiply, matmul, negation and transposition of matrices whose Kronecker factors are square on the right (`DiagOk`)
are such matrices again, so that expressions can be nested.
-/
import Verif.Kinds
import Verif.OpsNeg

set_option linter.unusedSectionVars false

namespace Verif

variable {K : Type} [Field K] [LinearOrder K]

theorem diagOk_of_kind {a : Mat K} (h : a.kind ≠ some .kron) : a.DiagOk := by
  cases a <;> trivial

theorem diagOk_transposeM {a r : Mat K} {S : Shp} (ha : a.WF S) (hd : a.DiagOk) (h : transposeM a = .ok r) : r.DiagOk := by
  induction a generalizing S r with
  | kron l r' ihl ihr =>
    simp only [transposeM, bind_ok_iff, pure_eq_ok] at h
    obtain ⟨x, hx, y, hy, rfl⟩ := h
    obtain ⟨⟨wl, wr⟩, kl, kr⟩ := ha
    refine ⟨?_, ihl wl hd.2.1 hx, ihr wr hd.2.2 hy⟩
    obtain ⟨y', hy', _, e, _⟩ := transposeM_ok wr
    rw [hy] at hy'
    cases hy'
    rw [e, nTranspose_of_rank kr]
    exact hd.1.symm
  | _ =>
    refine diagOk_of_kind ?_
    rcases kind_transposeM h with e | ⟨_, e⟩ | ⟨_, e⟩ <;> rw [e] <;> simp [Mat.kind]

theorem diagOk_negativeM {a r : Mat K} {S : Shp} (ha : a.WF S) (hd : a.DiagOk) (h : negativeM a = .ok r) : r.DiagOk := by
  induction a generalizing S r with
  | kron l r' ihl ihr =>
    simp only [negativeM, bind_ok_iff, pure_eq_ok] at h
    obtain ⟨x, hx, rfl⟩ := h
    exact ⟨hd.1, ihl ha.1.1 hd.2.1 hx, hd.2.2⟩
  | _ =>
    refine diagOk_of_kind ?_
    rw [(negativeM_ok ha h).2.2]; simp [Mat.kind]

theorem diagOk_broadcastBatchTo {a r : Mat K} {S s : Shp} (ha : a.WF S) (hs : Fits s (den a).bt) (hd : a.DiagOk) (h : broadcastBatchTo s a = .ok r) : r.DiagOk := by
  induction a generalizing S r with
  | kron l r' ihl ihr =>
    have hw := Mat.WF.mono ha hs
    obtain ⟨⟨wl, wr⟩, kl, kr⟩ := hw
    simp only [broadcastBatchTo, bind_ok_iff, pure_eq_ok] at h
    obtain ⟨x, hx, y, hy, rfl⟩ := h
    refine ⟨?_, ihl wl wl.fits hd.2.1 hx, ihr wr wr.fits hd.2.2 hy⟩
    rw [(broadcastBatchTo_ok wr wr.fits hy).2.2.1]
    exact hd.1
  | _ =>
    refine diagOk_of_kind ?_
    rw [(broadcastBatchTo_ok ha hs h).2.2.2]; simp [Mat.kind]

theorem diagOk_broadcastTo {B : Ops K} {a r : Mat K} {S s : Shp} (ha : a.WF S) (hs : Fits s (den a).sh) (hd : a.DiagOk) (hk : a.isAM = true) (h : broadcastTo B a s = .ok r) : r.DiagOk := by
  by_cases hkr : a.kind = some .kron
  · cases a <;> simp only [Mat.kind, Option.some.injEq, reduceCtorEq] at hkr
    simp only [broadcastTo, ha.shape, bind_ok_iff, Except.ok.injEq, exists_eq_left'] at h
    split_ifs at h
    · cases h; exact hd
    · refine diagOk_broadcastBatchTo ha ?_ hd h
      exact hs.drop 2
    · simp only [bind_ok_iff, pure_eq_ok] at h
      obtain ⟨_, _, _, _, rfl⟩ := h
      trivial
  · obtain ⟨k, hk'⟩ := kind_of_isAM hk
    obtain ⟨k1, h1, h2⟩ := kind_broadcastTo hk' r h
    refine diagOk_of_kind ?_
    rw [h2]
    rintro ⟨⟩
    apply hkr
    rw [hk']
    split_ifs at h1 <;> simp at h1 <;> rw [← h1]

/-- The functions of the core keep right Kronecker factors square. -/
structure Ops.Dg (B : Ops K) : Prop where
  add : ∀ {S a b r}, Mat.WF S a → Mat.WF S b → a.DiagOk → b.DiagOk → B.add a b = .ok r → r.DiagOk
  mul : ∀ {S a b r}, Mat.WF S a → Mat.WF S b → NoStretch a b → a.DiagOk → b.DiagOk → B.mul a b = .ok r → r.DiagOk
  matmul : ∀ {S ta tb a b r}, Mat.WF S a → Mat.WF S b → a.DiagOk → b.DiagOk → 2 ≤ (den a).rank → 2 ≤ (den b).rank →
    B.matmul ta tb a b = .ok r → r.DiagOk

theorem mulSafe_of {a b : Mat K} (h : NoStretch a b) (ha : a.DiagOk) (hb : b.DiagOk) : MulSafe a b := ⟨h, fun _ => hb, fun _ => ha⟩

theorem addOut_kron {k k' : Kind} (h : Kind.kron ∈ addOut k k') : (k = .kron ∧ k' = .zero) ∨ (k = .zero ∧ k' = .kron) := by
  revert h; cases k <;> cases k' <;> decide
theorem mulOut_kron {k k' : Kind} (h : Kind.kron = mulOut k k') : (k = .kron ∧ k' = .const) ∨ (k = .const ∧ k' = .kron) ∨ (k = .kron ∧ k' = .kron) := by
  revert h; cases k <;> cases k' <;> decide
theorem mmOut_kron {ta tb : Bool} {k k' : Kind} (h : Kind.kron ∈ mmOut ta tb k k') : k = .kron ∧ k' = .kron := by
  revert h; cases ta <;> cases tb <;> cases k <;> cases k' <;> decide

theorem diagOk_num {t : Tensor K} : (Mat.num t).DiagOk := trivial

theorem kind_kron {a : Mat K} (h : a.kind = some .kron) : ∃ l r, a = .kron l r := by
  cases a <;> simp only [Mat.kind, Option.some.injEq, reduceCtorEq] at h
  exact ⟨_, _, rfl⟩
theorem kind_zero {a : Mat K} (h : a.kind = some .zero) : ∃ bt r c, a = .zero bt r c := by
  cases a <;> simp only [Mat.kind, Option.some.injEq, reduceCtorEq] at h
  exact ⟨_, _, _, rfl⟩
theorem kind_const {a : Mat K} (h : a.kind = some .const) : ∃ t r c, a = .const t r c := by
  cases a <;> simp only [Mat.kind, Option.some.injEq, reduceCtorEq] at h
  exact ⟨_, _, _, rfl⟩

theorem ops_dg {env : Env K} (he : env.Lawful) (n : ℕ) : (ops env n).Dg := by
  induction n with
  | zero => exact ⟨fun _ _ _ _ h => by simp [ops, Ops.bot] at h, fun _ _ _ _ _ h => by simp [ops, Ops.bot] at h, fun _ _ _ _ _ _ h => by simp [ops, Ops.bot] at h⟩
  | succ n ih =>
    have hB := ops_ok he n
    refine ⟨fun {S a b r} ha hb da db h => ?_, fun {S a b r} ha hb ns da db h => ?_, fun {S ta tb a b r} ha hb da db ra rb h => ?_⟩
    · change stepAdd env (ops env n) a b = .ok r at h
      unfold stepAdd at h
      split at h
      · simp only [bind_ok_iff, pure_eq_ok] at h
        obtain ⟨_, _, rfl⟩ := h
        trivial
      · obtain ⟨wa, ea, aa, _, _⟩ := den_convertAM (env := env) ha
        obtain ⟨wb, eb, ab, _, _⟩ := den_convertAM (env := env) hb
        simp only [kind_convertAM] at h
        obtain ⟨k, hk, hr⟩ := addRun_kinds (ops_addKinds env n) (kind_convertAM env a) (kind_convertAM env b) r h
        by_cases hkr : k = .kron
        · subst hkr
          rcases addOut_kron hk with ⟨e1, e2⟩ | ⟨e1, e2⟩
          · obtain ⟨l, r', ea⟩ := kind_kron ((kind_convertAM env a).trans (by rw [e1]))
            obtain ⟨bt, i, j, eb⟩ := kind_zero ((kind_convertAM env b).trans (by rw [e2]))
            have da' := (diagOk_convert (env := env)).2.2 da
            rw [ea] at h wa da'
            rw [eb] at h wb
            simp only [e1, e2, addId, addRun, wa.shape, wb.shape, shapeBroadcast, bind_ok_iff, Except.ok.injEq, exists_eq_left', assertCompatible_ok, exists_const, bsE_ok] at h
            obtain ⟨hc, _, ⟨_, rfl⟩, h⟩ := h
            exact diagOk_broadcastTo wa hc.fits_left da' rfl h
          · obtain ⟨l, r', eb⟩ := kind_kron ((kind_convertAM env b).trans (by rw [e2]))
            obtain ⟨bt, i, j, ea⟩ := kind_zero ((kind_convertAM env a).trans (by rw [e1]))
            have db' := (diagOk_convert (env := env)).2.2 db
            rw [ea] at h wa
            rw [eb] at h wb db'
            simp only [e1, e2, addId, addRun, wa.shape, wb.shape, shapeBroadcast, bind_ok_iff, Except.ok.injEq, exists_eq_left', assertCompatible_ok, exists_const, bsE_ok] at h
            obtain ⟨hc, _, ⟨_, rfl⟩, h⟩ := h
            exact diagOk_broadcastTo wb hc.fits_right db' rfl h
        · exact diagOk_of_kind (by rw [hr]; simpa using hkr)
    · change stepMul env (ops env n) a b = .ok r at h
      unfold stepMul at h
      split at h
      · simp only [bind_ok_iff, pure_eq_ok] at h
        obtain ⟨_, _, rfl⟩ := h
        trivial
      · obtain ⟨wa, ea, aa, _, _⟩ := den_convertAM (env := env) ha
        obtain ⟨wb, eb, ab, _, _⟩ := den_convertAM (env := env) hb
        have ns' := noStretch_convert (env := env) ha hb ns
        have da' := (diagOk_convert (env := env)).2.2 da
        have db' := (diagOk_convert (env := env)).2.2 db
        simp only [kind_convertAM] at h
        have hr := mulRun_kinds (ops_addKinds env n) (ops_mulKinds env n) (kind_convertAM env a) (kind_convertAM env b) r h
        by_cases hkr : Kind.kron = mulOut (kindC env a) (kindC env b)
        · rcases mulOut_kron hkr with ⟨e1, e2⟩ | ⟨e1, e2⟩ | ⟨e1, e2⟩
          · simp only [e1, e2, mulId, mulRun] at h
            exact ih.mul wb wa ns'.symm db' da' h
          · obtain ⟨t, i, j, ea⟩ := kind_const ((kind_convertAM env a).trans (by rw [e1]))
            obtain ⟨l, r', eb⟩ := kind_kron ((kind_convertAM env b).trans (by rw [e2]))
            rw [ea] at h wa
            rw [eb] at h wb db'
            simp only [e1, e2, mulId, mulRun, wa.shape, wb.shape, bind_ok_iff, Except.ok.injEq, exists_eq_left', assertCompatible_ok, exists_const, pure_eq_ok] at h
            obtain ⟨_, x, hx, rfl⟩ := h
            exact ⟨db'.1, ih.mul (wf_scal wa) wb.1.1 (noStretch_scal _) trivial db'.2.1 hx, db'.2.2⟩
          · obtain ⟨l, r1, ea⟩ := kind_kron ((kind_convertAM env a).trans (by rw [e1]))
            obtain ⟨l', r1', eb⟩ := kind_kron ((kind_convertAM env b).trans (by rw [e2]))
            rw [ea] at h wa da'
            rw [eb] at h wb db'
            obtain ⟨⟨wl, wr⟩, kl, kr⟩ := wa
            obtain ⟨⟨wl', wr'⟩, kl', kr'⟩ := wb
            simp only [e1, e2, mulId, mulRun, wl.shapeMatrix, wr.shapeMatrix, wl'.shapeMatrix, wr'.shapeMatrix, bind_ok_iff, Except.ok.injEq, exists_eq_left', guardE_ok, exists_const, pure_eq_ok, Prod.mk.injEq] at h
            obtain ⟨⟨⟨e1, e2⟩, e3, e4⟩, x, hx, y, hy, rfl⟩ := h
            refine ⟨?_, ih.mul wl wl' (noStretch_of_eq e1 e2) da'.2.1 db'.2.1 hx, ih.mul wr wr' (noStretch_of_eq e3 e4) da'.2.2 db'.2.2 hy⟩
            rw [(hB.mul wr wr' (mulSafe_of (noStretch_of_eq e3 e4) da'.2.2 db'.2.2) hy).eq, zipB_rows, zipB_cols, ← e3, ← e4, da'.1]
        · exact diagOk_of_kind (by rw [hr]; simpa using Ne.symm hkr)
    · change stepMatmul env (ops env n) ta tb a b = .ok r at h
      unfold stepMatmul at h
      split at h
      · simp only [bind_ok_iff, pure_eq_ok] at h
        obtain ⟨_, _, rfl⟩ := h
        trivial
      · obtain ⟨wa, ea, aa, _, _⟩ := den_convertAM (env := env) ha
        obtain ⟨wb, eb, ab, _, _⟩ := den_convertAM (env := env) hb
        have da' := (diagOk_convert (env := env)).2.2 da
        have db' := (diagOk_convert (env := env)).2.2 db
        simp only [kind_convertAM] at h
        split at h
        · rename_i m em
          obtain ⟨k, hk, hr⟩ := mmRun_kinds (ops_addKinds env n) (ops_mulKinds env n) (ops_mmKinds env n) (ops_kronRk env n) ta tb
            (triRk_of_valid wa.valid) (triRk_of_valid wb.valid) (kind_convertAM env a) (kind_convertAM env b) em r h
          by_cases hkr : k = .kron
          · subst hkr
            obtain ⟨e1, e2⟩ := mmOut_kron hk
            obtain ⟨l, r1, ea⟩ := kind_kron ((kind_convertAM env a).trans (by rw [e1]))
            obtain ⟨l', r1', eb⟩ := kind_kron ((kind_convertAM env b).trans (by rw [e2]))
            rw [e1, e2] at em
            cases em
            rw [ea] at h wa da'
            rw [eb] at h wb db'
            obtain ⟨⟨wl, wr⟩, kl, kr⟩ := wa
            obtain ⟨⟨wl', wr'⟩, kl', kr'⟩ := wb
            simp only [mmRun, assertComposable_ok wl wl', assertComposable_ok wr wr', bind_ok_iff, exists_const, pure_eq_ok] at h
            obtain ⟨h1, h2, x, hx, y, hy, rfl⟩ := h
            refine ⟨?_, ih.matmul wl wl' da'.2.1 db'.2.1 kl kl' hx, ih.matmul wr wr' da'.2.2 db'.2.2 kr kr' hy⟩
            have my := hB.matmul wr wr' kr kr' hy
            have q1 : (trIf ta (den r1)).rows = (trIf ta (den r1)).cols := by cases ta <;> simp [trIf, da'.1]
            have q2 : (trIf tb (den r1')).rows = (trIf tb (den r1')).cols := by cases tb <;> simp [trIf, db'.1]
            rw [my.eq, mm_rows, mm_cols, q1, h2, q2]
          · exact diagOk_of_kind (by rw [hr]; simpa using hkr)
        · simp at h

end Verif
