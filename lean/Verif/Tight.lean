import Verif.WarnDer
import Verif.Shape
/-!
Tightening: broadcasting of many shapes without expansion (C27), the warnings of sums of LowRank matrices and the absence of needless ones in products with a Kronecker product (C44).
-/
set_option linter.unusedSectionVars false

namespace Verif.Py

theorem running_broadcast (r : PShape) (L : List PShape) (u : PShape) :
    running broadcast2 r L = .ok u ↔ (∀ s ∈ r :: L, s.length = u.length) ∧ running expandAndBroadcast2 r L = .ok u := by
  induction L generalizing r with
  | nil =>
    simp only [running, Except.ok.injEq, List.mem_singleton, forall_eq]
    exact ⟨fun h => ⟨by rw [h], h⟩, fun h => h.2⟩
  | cons s L ih =>
    simp only [running, bind_ok_iff]
    constructor
    · rintro ⟨r', h, h'⟩
      obtain ⟨hl, hb⟩ := (C27_broadcast _ _ _).1 h
      obtain ⟨h1, h2⟩ := (ih _).1 h'
      have h3 := hb.1
      have h4 : r'.length = u.length := h1 r' (by simp)
      refine ⟨fun x hx => ?_, r', (C27_result _ _ _).2 hb, h2⟩
      rcases List.mem_cons.1 hx with rfl | hx
      · omega
      · rcases List.mem_cons.1 hx with rfl | hx
        · omega
        · exact h1 x (by simp [hx])
    · rintro ⟨hl, r', h, h'⟩
      have hr : r.length = u.length := hl r (by simp)
      have hs : s.length = u.length := hl s (by simp)
      have hb := (C27_result _ _ _).1 h
      have h3 := hb.1
      refine ⟨r', (C27_broadcast _ _ _).2 ⟨by omega, hb⟩, (ih _).2 ⟨fun x hx => ?_, h'⟩⟩
      rcases List.mem_cons.1 hx with rfl | hx
      · omega
      · exact hl x (by simp [hx])

/-- `broadcast` of any number of shapes: it succeeds exactly on shapes of one length, with the numpy broadcast of them all. -/
theorem C27_broadcast_many (L : List PShape) (u : PShape) :
    broadcast L = .ok u ↔ (∀ s ∈ L, s.length = u.length) ∧ IsBroadcastOfAll L u := by
  rw [← C27_many]
  match L with
  | [] => simp [expandAndBroadcast, broadcast]
  | [x] => simpa [expandAndBroadcast, broadcast] using fun h : x = u => congrArg List.length h
  | x :: y :: xs => exact running_broadcast x (y :: xs) u

example : broadcast [[2, 1], [1, 3], [2, 3]] = .ok [2, 3] ∧ broadcast [[2, 1], [1, 3], [3]] = .error .runtime := by decide +kernel

end Verif.Py

namespace Verif
variable {K : Type} [Field K] [LinearOrder K]

theorem wPadZeroCol_plain {B : Ops K} {a r : Mat K} (h : wPadZeroCol B a = .ok r) : a.structured = false := by
  simp only [wPadZeroCol, bind_ok_iff, warnIf_ok] at h
  obtain ⟨_, _, _, h, _⟩ := h
  exact h
theorem wPadZeroRow_plain {B : Ops K} {a r : Mat K} (h : wPadZeroRow B a = .ok r) : a.structured = false := by
  simp only [wPadZeroRow, bind_ok_iff, warnIf_ok] at h
  obtain ⟨_, _, _, h, _⟩ := h
  exact h

theorem wAddLRLR_plain {env : Env K} {B : Ops K} {al ar am bl br bm r : Mat K} (h : wAddLRLR env B al ar am bl br bm = .ok r) :
    al.structured = false ∧ ar.structured = false ∧ am.structured = false ∧ bl.structured = false ∧ br.structured = false ∧ bm.structured = false := by
  unfold wAddLRLR at h
  iterate 9 obtain ⟨_, _, h⟩ := bind_ok_iff.1 h
  obtain ⟨_, h1, h⟩ := bind_ok_iff.1 h
  obtain ⟨_, _, h⟩ := bind_ok_iff.1 h
  obtain ⟨_, h2, h⟩ := bind_ok_iff.1 h
  iterate 2 obtain ⟨_, _, h⟩ := bind_ok_iff.1 h
  obtain ⟨_, h3, h⟩ := bind_ok_iff.1 h
  obtain ⟨_, _, h⟩ := bind_ok_iff.1 h
  obtain ⟨_, h4, h⟩ := bind_ok_iff.1 h
  iterate 2 obtain ⟨_, _, h⟩ := bind_ok_iff.1 h
  obtain ⟨_, h5, h⟩ := bind_ok_iff.1 h
  iterate 3 obtain ⟨_, _, h⟩ := bind_ok_iff.1 h
  obtain ⟨_, h6, h⟩ := bind_ok_iff.1 h
  exact ⟨wPadZeroCol_plain h1, wPadZeroCol_plain h3, wPadZeroRow_plain h5, wPadZeroCol_plain h2, wPadZeroCol_plain h4, wPadZeroRow_plain h6⟩

/-- C44.  Adding LowRank matrices warns whenever one of the six factors has structure to lose: each is padded as a dense matrix. -/
theorem C44_add_lowrank (c : Cfg K) {al ar am bl br bm r : Mat K} (h : Returns c (fun B => B.add (.lr al ar am) (.lr bl br bm)) r)
    (hs : ∃ x ∈ [al, ar, am, bl, br, bm], x.structured = true) : Warns c (fun B => B.add (.lr al ar am) (.lr bl br bm)) := by
  rcases (C44_erase c (Calls.add _ _) h).1 with ⟨n, hq⟩ | hw
  · exfalso
    cases n with
    | zero => cases hq
    | succ n =>
      have hq' : (wops c.code (n+1)).add (.lr al ar am) (.lr bl br bm) = .ok r := hq
      rw [wAdd_am (k := .lr) (k' := .lr) rfl rfl] at hq'
      obtain ⟨h1, h2, h3, h4, h5, h6⟩ := wAddLRLR_plain (r := r) hq'
      obtain ⟨x, hx, hs⟩ := hs
      simp only [List.mem_cons, List.not_mem_nil, or_false] at hx
      rcases hx with rfl | rfl | rfl | rfl | rfl | rfl <;> simp_all
  · exact hw

/-! ### Products with a Kronecker product -/

/-- Dense, Diagonal or triangular: what, times an array, is a Dense matrix. -/
def Kind.plain : Kind → Prop
  | .dense | .diag | .lt | .ut => True
  | _ => False

theorem Kind.plain_tr {t : Bool} {k : Kind} (h : k.plain) : (if t then trKind k else k).plain := by
  cases t <;> cases k <;> first | exact h.elim | trivial

variable {env : Env K}

/-- A plain matrix times an array: no warning inside, and a Dense result. -/
theorem plain_mm (n : ℕ) {a y : Mat K} {k : Kind} {x : Tensor K} (ha : a.kind = some k) (hk : k.plain) (ra : TriRk a) (hx : x.rank ≠ 0)
    (h : (ops env n).matmul false false a (.num x) = .ok y) : (wops env n).matmul false false a (.num x) = .ok y ∧ y.kind = some .dense := by
  have hab : a.isAM = true := by cases a <;> first | rfl | simp [Mat.kind] at ha
  have kx : kindC env (.num x) = .dense := by simp [kindC, convertAM, hx, mkDense, Mat.kind]
  have e : convertAM env (.num x) = mkDense x := by simp [convertAM, hx]
  have ka := convertAM_of_kind (env := env) ha
  obtain ⟨k2, h2, h3⟩ := ops_mmKinds env n false false a (.num x) (Or.inl hab) ra trivial y h
  have kA : kindC env a = k := by simp [kindC, ka, ha]
  rw [kA, kx] at h2
  refine ⟨?_, ?_⟩
  · rw [ops_matmul_convert n (Or.inl hab), ka, e] at h
    rw [wops_matmul_convert n (Or.inl hab), ka, e, mm_eq n (b := mkDense x) (k := k) (k' := .dense) ha rfl ra trivial (by cases k <;> first | exact hk.elim | trivial) trivial
      (by rintro (⟨_, h⟩ | ⟨_, h⟩ | ⟨_, h, _⟩ | ⟨_, h, _⟩) <;> cases h)]
    exact h
  · rw [h3]
    cases k <;> first | exact hk.elim | simpa [mmOut] using h2

theorem rank_reshapeMat {r c : ℕ} {t x : Tensor K} (h : reshapeMat r c t = .ok x) : 2 ≤ x.rank := by
  unfold reshapeMat nReshape at h
  split_ifs at h
  cases h
  show 2 ≤ (c :: r :: t.bt).length
  simp

theorem rank_reshapeRows2 {r c : Option ℕ} {t x : Tensor K} (h : reshapeRows r c t = .ok x) : 2 ≤ x.rank := by
  unfold reshapeRows at h
  split at h
  · obtain ⟨d, _, h⟩ := bind_ok_iff.1 h
    exact rank_reshapeMat h
  · obtain ⟨d, _, h⟩ := bind_ok_iff.1 h
    exact rank_reshapeMat h
  · cases h

theorem rank_reshapeRows {r c : Option ℕ} {t x : Tensor K} (h : reshapeRows r c t = .ok x) : x.rank ≠ 0 := by
  have := rank_reshapeRows2 h
  omega

theorem rank_reshapeCols {r c : Option ℕ} {t x : Tensor K} (h : reshapeCols r c t = .ok x) : x.rank ≠ 0 := by
  obtain ⟨d, h1, h⟩ := bind_ok_iff.1 h
  have h2 := rank_reshapeRows2 h1
  cases h
  rw [nTranspose, if_pos h2]
  show (tr d).sh.length ≠ 0
  simp [tr]

theorem kronIdAB_quiet (n : ℕ) {a : Mat K} {k : Kind} {t y : Tensor K} (ha : a.kind = some k) (hk : k.plain) (ra : TriRk a)
    (h : kronIdAB (ops env n) a t = .ok y) : wKronIdAB (wops env n) a t = .ok y := by
  unfold kronIdAB at h
  obtain ⟨sa, h1, h⟩ := bind_ok_iff.1 h
  obtain ⟨x, h2, h⟩ := bind_ok_iff.1 h
  obtain ⟨p, h3, h⟩ := bind_ok_iff.1 h
  obtain ⟨h4, h5⟩ := plain_mm n ha hk ra (rank_reshapeCols h2) h3
  unfold wKronIdAB
  have : p.structured = false := by cases p <;> simp [Mat.kind] at h5 <;> rfl
  refine bind_ok_iff.2 ⟨sa, h1, bind_ok_iff.2 ⟨x, h2, bind_ok_iff.2 ⟨p, h4, bind_ok_iff.2 ⟨(), warnIf_ok.2 this, ?_⟩⟩⟩⟩
  rw [dense_eq n h5 trivial]
  exact h

theorem kronAIdB_quiet (n : ℕ) {a : Mat K} {k : Kind} {t y : Tensor K} (ha : a.kind = some k) (hk : k.plain) (ra : TriRk a)
    (h : kronAIdB (ops env n) a t = .ok y) : wKronAIdB (wops env n) a t = .ok y := by
  unfold kronAIdB at h
  obtain ⟨sa, h1, h⟩ := bind_ok_iff.1 h
  obtain ⟨x, h2, h⟩ := bind_ok_iff.1 h
  obtain ⟨p, h3, h⟩ := bind_ok_iff.1 h
  obtain ⟨h4, h5⟩ := plain_mm n ha hk ra (rank_reshapeRows h2) h3
  unfold wKronAIdB
  have : p.structured = false := by cases p <;> simp [Mat.kind] at h5 <;> rfl
  refine bind_ok_iff.2 ⟨sa, h1, bind_ok_iff.2 ⟨x, h2, bind_ok_iff.2 ⟨p, h4, bind_ok_iff.2 ⟨(), warnIf_ok.2 this, ?_⟩⟩⟩⟩
  rw [dense_eq n h5 trivial]
  exact h

/-- C44.  No needless warning: a Kronecker product of Dense, Diagonal or triangular matrices times a Dense matrix never warns. -/
theorem C44_matmul_kron (c : Cfg K) {ta tb : Bool} {l r res : Mat K} {t : Tensor K} {k k' : Kind} (hl : l.kind = some k) (hr : r.kind = some k') (pl : k.plain) (pr : k'.plain)
    (vl : l.Valid) (vr : r.Valid) (h : Returns c (fun B => B.matmul ta tb (.kron l r) (.dense t)) res) :
    Quiet c (fun B => B.matmul ta tb (.kron l r) (.dense t)) res := by
  obtain ⟨n, h⟩ := h
  refine ⟨n, ?_⟩
  cases n with
  | zero => cases h
  | succ n =>
    have h' : matmulKronAm (ops c.code n) ta tb l r (.dense t) = .ok res := by
      cases ta <;> cases tb <;> exact h
    show (wops c.code (n+1)).matmul ta tb (.kron l r) (.dense t) = .ok res
    rw [wMatmul_am (k := .kron) (k' := .dense) rfl rfl (m := .kronAm) rfl]
    unfold matmulKronAm at h'
    obtain ⟨s1, q1, h'⟩ := bind_ok_iff.1 h'
    obtain ⟨l', q2, h'⟩ := bind_ok_iff.1 h'
    obtain ⟨r', q3, h'⟩ := bind_ok_iff.1 h'
    obtain ⟨b, q4, h'⟩ := bind_ok_iff.1 h'
    have kl := kind_trM hl _ q2
    have kr := kind_trM hr _ q3
    have kb : b.kind = some .dense := by
      have := kind_trM (k := .dense) rfl _ q4
      cases tb <;> exact this
    have rl := triRk_trM (triRk_of_valid vl) _ q2
    have rr := triRk_trM (triRk_of_valid vr) _ q3
    have hb : b.structured = false := by cases b <;> simp [Mat.kind] at kb <;> rfl
    have hw : mmWarn .kronAm ta tb (.kron l r) (.dense t) = .ok () := by
      unfold mmWarn
      exact bind_ok_iff.2 ⟨_, q1, bind_ok_iff.2 ⟨_, q2, bind_ok_iff.2 ⟨_, q3, bind_ok_iff.2 ⟨_, q4, warnIf_ok.2 hb⟩⟩⟩⟩
    rw [hw]
    show wMatmulKronAm (wops c.code n) ta tb l r (.dense t) = .ok res
    unfold wMatmulKronAm
    refine bind_ok_iff.2 ⟨_, q1, bind_ok_iff.2 ⟨_, q2, bind_ok_iff.2 ⟨_, q3, bind_ok_iff.2 ⟨_, q4, ?_⟩⟩⟩⟩
    rw [dense_eq n kb trivial]
    obtain ⟨sl, q5, h'⟩ := bind_ok_iff.1 h'
    obtain ⟨sr, q6, h'⟩ := bind_ok_iff.1 h'
    obtain ⟨d, q7, h'⟩ := bind_ok_iff.1 h'
    refine bind_ok_iff.2 ⟨_, q5, bind_ok_iff.2 ⟨_, q6, bind_ok_iff.2 ⟨_, q7, ?_⟩⟩⟩
    revert h'
    dsimp only
    split
    · intro h'
      obtain ⟨u, h1, h'⟩ := bind_ok_iff.1 h'
      obtain ⟨v, h2, h'⟩ := bind_ok_iff.1 h'
      exact bind_ok_iff.2 ⟨u, kronAIdB_quiet n kl (Kind.plain_tr pl) rl h1, bind_ok_iff.2 ⟨v, kronIdAB_quiet n kr (Kind.plain_tr pr) rr h2, h'⟩⟩
    · intro h'
      obtain ⟨u, h1, h'⟩ := bind_ok_iff.1 h'
      obtain ⟨v, h2, h'⟩ := bind_ok_iff.1 h'
      exact bind_ok_iff.2 ⟨u, kronIdAB_quiet n kr (Kind.plain_tr pr) rr h1, bind_ok_iff.2 ⟨v, kronAIdB_quiet n kl (Kind.plain_tr pl) rl h2, h'⟩⟩

/-- Its hypotheses are met: a Kronecker product of Dense matrices times a Dense matrix. -/
example : ∃ (t : Tensor ℚ) (res : Mat ℚ), Returns Ex.cfg (fun B => B.matmul false false Ex.Kr (.dense t)) res ∧ res.kind = some .dense ∧
    Quiet Ex.cfg (fun B => B.matmul false false Ex.Kr (.dense t)) res := by
  obtain ⟨r, h1, h2⟩ := Ex.quiet (f := fun B => B.matmul false false Ex.Kr (.dense (fillT [1, 4] 1))) (k := .dense) (n := 4) (by decide +kernel)
  exact ⟨_, r, h1.returns (Calls.matmul _ _ _ _), h2, h1⟩

end Verif
