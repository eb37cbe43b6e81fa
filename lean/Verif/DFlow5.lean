/-
Data types in linear algebra (C59): every run of linear algebra is followed by the rules of `DFlow4`.
-/
import Verif.DFlow4

set_option linter.unusedSectionVars false
set_option linter.unusedVariables false

namespace Verif

variable {K D : Type} [Field K] [LinearOrder K] {p : D → D → D} {z c : Bool} {f : D} {B : Ops K} {L : LOps K} {env : Env K} {lin : LinEnv K}

/-- With `z = false`: no exact zero is a Python number. -/
def Env.Numbers (env : Env K) (z : Bool) : Prop := z = false → ∀ t, env.isNumber t = true → t.get (fun _ => 0) ≠ 0

theorem convertAM_lab' (hz : env.Numbers z) {a : Mat K} {s : DM D} (h : Lab a s) : ∃ s', Lab (convertAM env a) s' ∧ DConv z s s' := by
  have e : convertAM env a = convertAM { env with isZero := fun _ => .ok false } a := by cases a <;> rfl
  rw [e]
  exact convertAM_lab (env := { env with isZero := fun _ => .ok false }) (fun h => ⟨hz h, fun _ h => by cases h⟩) h

theorem DConv.of_kind {a b : DM D} {k : Kind} (hk : a.kind = some k) (h : DConv z a b) : b = a := by
  cases h with
  | am => rfl
  | _ => cases hk

theorem DConv.self {a b : DM D} (h : DConv z a b) : DConv z b b := by
  cases h with
  | zero _ => exact .am rfl
  | const => exact .am rfl
  | dense => exact .am rfl
  | am h => exact .am h

/-- Negation keeps class and data types, `ops/negative.py` 14-56. -/
theorem negativeM_lab {a x : Mat K} {s : DM D} (h : Lab a s) (hx : negativeM a = .ok x) : Lab x s := by
  induction h generalizing x with
  | num => cases hx; exact .num
  | zero => cases hx; exact .zero
  | dense => cases hx; exact .dense
  | diag => exact mkDiag_lab hx _
  | const => exact mkConst_lab hx _
  | lt => exact mkLT_lab hx _
  | ut => exact mkUT_lab hx _
  | lr h1 h2 h3 _ _ i3 =>
    simp only [negativeM, bind_ok_iff] at hx
    obtain ⟨y, hy, hx⟩ := hx
    exact mkLR_lab hx h1 h2 (i3 hy)
  | wb h1 h2 h3 _ _ i3 =>
    simp only [negativeM, bind_ok_iff] at hx
    obtain ⟨_, _, y, hy, _, _, hx⟩ := hx
    exact mkWB_lab hx h1 h2 (i3 hy) _
  | kron h1 h2 i1 _ =>
    simp only [negativeM, bind_ok_iff, pure_eq_ok] at hx
    obtain ⟨y, hy, rfl⟩ := hx
    exact .kron (i1 hy) h2
  | tiled => cases hx

/-- The data types of `B.subtract` are those of `B.add`. -/
theorem Cov.subtract (hz : env.Numbers z) (H : Cov p z B) {a b x : Mat K} {s s' : DM D} (ha : Lab a s) (hb : Lab b s') (oa : s.Ok) (ob : s'.Ok)
    (h : subtractM env B a b = .ok x) : ∃ y, Lab x y ∧ Runs p z (.add s s') y := by
  by_cases hn : (∃ t, a = .num t) ∧ ∃ u, b = .num u
  · obtain ⟨⟨t, rfl⟩, u, rfl⟩ := hn
    cases ha
    cases hb
    simp only [subtractM, bind_ok_iff, pure_eq_ok] at h
    obtain ⟨y, _, rfl⟩ := h
    exact ⟨_, .num, .add_num⟩
  · have e : subtractM env B a b = (do B.add (convertAM env a) (← negativeM (convertAM env b))) := by
      cases a <;> cases b <;> first | rfl | exact (hn ⟨⟨_, rfl⟩, _, rfl⟩).elim
    rw [e, bind_ok_iff] at h
    obtain ⟨y, hy, h⟩ := h
    obtain ⟨s1, l1, c1⟩ := convertAM_lab' hz ha
    obtain ⟨s2, l2, c2⟩ := convertAM_lab' hz hb
    obtain ⟨w, lw, rw'⟩ := H.add l1 (negativeM_lab l2 hy) (c1.ok oa) (c2.ok ob) h
    refine ⟨w, lw, ?_⟩
    have hk : ∃ k, s.kind = some k ∨ s'.kind = some k := by
      rw [ha.kind, hb.kind]
      cases a with
      | num t =>
        cases b with
        | num u => exact (hn ⟨⟨_, rfl⟩, _, rfl⟩).elim
        | _ => exact ⟨_, .inr rfl⟩
      | _ => exact ⟨_, .inl rfl⟩
    obtain ⟨k, hk⟩ := hk
    cases rw' with
    | add_num =>
      cases c1 with
      | am h => cases h
    | add_am _ d1 d2 h =>
      refine .add_am hk ?_ ?_ h
      · cases c1 with
        | zero h => rw [d1.of_kind rfl]; exact .zero h
        | const => rw [d1.of_kind rfl]; exact .const
        | dense => rw [d1.of_kind rfl]; exact .dense
        | am h => rw [d1.of_kind h]; exact .am h
      · cases c2 with
        | zero h => rw [d2.of_kind rfl]; exact .zero h
        | const => rw [d2.of_kind rfl]; exact .const
        | dense => rw [d2.of_kind rfl]; exact .dense
        | am h => rw [d2.of_kind h]; exact .am h

/-- Every run of linear algebra is followed by the rules. -/
structure LCov (p : D → D → D) (z : Bool) (f : D) (c : Bool) (L : LOps K) : Prop where
  inv {a r s} : Lab a s → s.Ok → L.inv a = .ok r → ∃ x, Lab r x ∧ LRuns p z f c (.inv s) x
  pdInv {a r s} : Lab a s → s.Ok → L.pdInv a = .ok r → ∃ x, Lab r x ∧ LRuns p z f c (.pdInv s) x
  chol {a r s} : Lab a s → s.Ok → L.chol a = .ok r → ∃ x, Lab r x ∧ LRuns p z f c (.chol s) x
  solve {a b r s s'} : Lab a s → Lab b s' → s.Ok → s'.Ok → L.solve a b = .ok r → ∃ x, Lab r x ∧ LRuns p z f c (.solve s s') x
  cholSolve {a b r s s'} : Lab a s → Lab b s' → s.Ok → s'.Ok → L.cholSolve a b = .ok r → ∃ x, Lab r x ∧ LRuns p z f c (.cholSolve s s') x
  logdet {a t s} : Lab a s → s.Ok → L.logdet a = .ok t → ∃ d, LRuns p z f c (.logdet s) (.num d)
  root {a r s} : Lab a s → s.Ok → L.root a = .ok r → ∃ x, Lab r x ∧ LRuns p z f c (.root s) x

theorem LRuns.inv_diag_eq {d : D} {x : DM D} (h : LRuns p z f c (.inv (.diag d)) x) : x = .diag d := by cases h; rfl

theorem LCov.schurM (H : Cov p z B) (G : LCov p z f c L) {d : Tensor K} {e : D} {l r m x : Mat K} {l' r' m' : DM D} (h1 : Lab l l') (h2 : Lab r r') (h3 : Lab m m')
    (o1 : l'.Ok) (o2 : r'.Ok) (o3 : m'.Ok) (h : schurM B L d l r m = .ok x) : ∃ y, Lab x y ∧ LRuns p z f c (.schur e l' r' m') y := by
  simp only [Verif.schurM, bind_ok_iff] at h
  obtain ⟨di, hdi, s, hs, mi, hmi, h⟩ := h
  obtain ⟨a1, la1, ra1⟩ := G.inv (.diag (d := e)) trivial hdi
  have oa := ra1.ok trivial
  obtain ⟨a2, la2, ra2⟩ := H.mm3 h2 la1 h1 o2 oa o1 hs
  obtain ⟨a3, la3, ra3⟩ := G.inv h3 o3 hmi
  obtain ⟨a4, la4, ra4⟩ := H.add la3 la2 (ra3.ok o3) (ra2.ok ⟨o2, oa, o1⟩) h
  exact ⟨a4, la4, .schur ra1 ra2 ra3 ra4⟩

theorem LCov.pdSchurM (H : Cov p z B) (G : LCov p z f c L) {d : Tensor K} {e : D} {l r m x : Mat K} {l' r' m' : DM D} (h1 : Lab l l') (h2 : Lab r r') (h3 : Lab m m')
    (o1 : l'.Ok) (o2 : r'.Ok) (o3 : m'.Ok) (h : pdSchurM B L d l r m = .ok x) : ∃ y, Lab x y ∧ LRuns p z f c (.pdSchur e l' r' m') y := by
  simp only [Verif.pdSchurM, bind_ok_iff] at h
  obtain ⟨di, hdi, s, hs, mi, hmi, h⟩ := h
  obtain ⟨a1, la1, ra1⟩ := G.inv (.diag (d := e)) trivial hdi
  have oa := ra1.ok trivial
  obtain ⟨a2, la2, ra2⟩ := H.mm3 h2 la1 h1 o2 oa o1 hs
  obtain ⟨a3, la3, ra3⟩ := G.pdInv h3 o3 hmi
  obtain ⟨a4, la4, ra4⟩ := H.add la3 la2 (ra3.ok o3) (ra2.ok ⟨o2, oa, o1⟩) h
  exact ⟨a4, la4, .pdSchur ra1 ra2 ra3 ra4⟩

theorem LCov.stepInv (hz : env.Numbers z) (H : Cov p z B) (G : LCov p z f c L) {a r : Mat K} {s : DM D} (h : Lab a s) (o : s.Ok) (hx : stepInv env lin B L a = .ok r) :
    ∃ x, Lab r x ∧ LRuns p z f c (.inv s) x := by
  cases h with
  | num =>
    simp only [Verif.stepInv, bind_ok_iff, pure_eq_ok] at hx
    obtain ⟨_, _, rfl⟩ := hx
    exact ⟨_, .num, .inv_num⟩
  | dense =>
    simp only [Verif.stepInv, bind_ok_iff, pure_eq_ok] at hx
    obtain ⟨_, _, rfl⟩ := hx
    exact ⟨_, .dense, .inv_dense⟩
  | diag =>
    simp only [Verif.stepInv, bind_ok_iff] at hx
    obtain ⟨_, _, hx⟩ := hx
    exact ⟨_, mkDiag_lab hx _, .inv_diag⟩
  | @wb _ _ _ _ e _ _ _ h1 h2 h3 =>
    simp only [Verif.stepInv, invWB, bind_ok_iff] at hx
    obtain ⟨di, hdi, dl, hdl, dr, hdr, s, hs, si, hsi, q, hq, hx⟩ := hx
    obtain ⟨a1, la1, ra1⟩ := G.inv (.diag (d := e)) trivial hdi
    have oa := ra1.ok trivial
    obtain ⟨a2, la2, ra2⟩ := H.matmul la1 h1 oa o.1 hdl
    obtain ⟨a3, la3, ra3⟩ := H.matmul la1 h2 oa o.2.1 hdr
    obtain ⟨a4, la4, ra4⟩ := G.schurM H (e := e) h1 h2 h3 o.1 o.2.1 o.2.2 hs
    have o4 := ra4.ok o
    obtain ⟨a5, la5, ra5⟩ := G.inv la4 o4 hsi
    obtain ⟨a6, la6, ra6⟩ := H.subtract hz la1 (mkLR_lab hq la2 la3 la5) oa ⟨ra2.ok ⟨oa, o.1⟩, ra3.ok ⟨oa, o.2.1⟩, ra5.ok o4⟩ hx
    exact ⟨a6, la6, .inv_wb ra1 ra2 ra3 ra4 ra5 ra6⟩
  | kron h1 h2 =>
    simp only [Verif.stepInv, bind_ok_iff, pure_eq_ok] at hx
    obtain ⟨x, hx, y, hy, rfl⟩ := hx
    obtain ⟨a1, la1, ra1⟩ := G.inv h1 o.1 hx
    obtain ⟨a2, la2, ra2⟩ := G.inv h2 o.2 hy
    exact ⟨_, .kron la1 la2, .inv_kron ra1 ra2⟩
  | _ => cases hx

theorem LCov.pdInvAny (hz : env.Numbers z) (H : Cov p z B) (G : LCov p z f c L) {a r : Mat K} {s : DM D} (h : Lab a s) (o : s.Ok)
    (k1 : s.kind ≠ some .diag) (k2 : s.kind ≠ some .wb) (k3 : s.kind ≠ some .kron) (hx : (do
      let a := convertAM env a
      let ch ← L.chol a
      let id ← B.dense (← eyeM a)
      L.cholSolve ch (.num id) : E (Mat K)) = .ok r) : ∃ x, Lab r x ∧ LRuns p z f c (.pdInv s) x := by
  simp only [bind_ok_iff] at hx
  obtain ⟨ch, hch, ey, hey, id, hid, hx⟩ := hx
  obtain ⟨s', l', c'⟩ := convertAM_lab' hz h
  have o' := c'.ok o
  obtain ⟨a1, la1, ra1⟩ := G.chol l' o' hch
  obtain ⟨e, he⟩ := o'.dt p
  obtain ⟨a2, la2, ra2⟩ := G.cholSolve la1 (.num (d := p e e)) (ra1.ok o') trivial hx
  exact ⟨a2, la2, .pdInv_any k1 k2 k3 c' ra1 he ra2⟩

theorem LCov.stepPdInv (hz : env.Numbers z) (H : Cov p z B) (G : LCov p z f c L) {a r : Mat K} {s : DM D} (h : Lab a s) (o : s.Ok) (hx : stepPdInv env B L a = .ok r) :
    ∃ x, Lab r x ∧ LRuns p z f c (.pdInv s) x := by
  have h0 := h
  cases h with
  | diag =>
    obtain ⟨a1, la1, ra1⟩ := G.inv h0 o hx
    exact ⟨a1, la1, .pdInv_diag ra1⟩
  | @wb _ _ _ _ e _ _ _ h1 h2 h3 =>
    simp only [Verif.stepPdInv, pdInvWB, bind_ok_iff] at hx
    obtain ⟨di, hdi, dl, hdl, dr, hdr, s, hs, si, hsi, q, hq, hx⟩ := hx
    obtain ⟨a1, la1, ra1⟩ := G.inv (.diag (d := e)) trivial hdi
    have oa := ra1.ok trivial
    obtain ⟨a2, la2, ra2⟩ := H.matmul la1 h1 oa o.1 hdl
    obtain ⟨a3, la3, ra3⟩ := H.matmul la1 h2 oa o.2.1 hdr
    obtain ⟨a4, la4, ra4⟩ := G.pdSchurM H (e := e) h1 h2 h3 o.1 o.2.1 o.2.2 hs
    have o4 := ra4.ok o
    obtain ⟨a5, la5, ra5⟩ := G.pdInv la4 o4 hsi
    obtain ⟨a6, la6, ra6⟩ := H.subtract hz la1 (mkLR_lab hq la2 la3 la5) oa ⟨ra2.ok ⟨oa, o.1⟩, ra3.ok ⟨oa, o.2.1⟩, ra5.ok o4⟩ hx
    exact ⟨a6, la6, .pdInv_wb ra1 ra2 ra3 ra4 ra5 ra6⟩
  | kron h1 h2 =>
    simp only [Verif.stepPdInv, bind_ok_iff, pure_eq_ok] at hx
    obtain ⟨x, hx, y, hy, rfl⟩ := hx
    obtain ⟨a1, la1, ra1⟩ := G.pdInv h1 o.1 hx
    obtain ⟨a2, la2, ra2⟩ := G.pdInv h2 o.2 hy
    exact ⟨_, .kron la1 la2, .pdInv_kron ra1 ra2⟩
  | _ => exact G.pdInvAny hz H h0 o (by simp [DM.kind]) (by simp [DM.kind]) (by simp [DM.kind]) hx

theorem LCov.stepChol (H : Cov p z B) (G : LCov p z f c L) {a r : Mat K} {s : DM D} (h : Lab a s) (o : s.Ok) (hc : c = true ∨ (a.kind ≠ some .const ∧ a.kind ≠ some .lr))
    (hx : stepChol lin B L a = .ok r) : ∃ x, Lab r x ∧ LRuns p z f c (.chol s) x := by
  cases h with
  | num =>
    simp only [Verif.stepChol, bind_ok_iff, pure_eq_ok] at hx
    obtain ⟨_, _, rfl⟩ := hx
    exact ⟨_, .num, .chol_num⟩
  | zero =>
    simp only [Verif.stepChol, bind_ok_iff, pure_eq_ok] at hx
    obtain ⟨_, _, rfl⟩ := hx
    exact ⟨_, .zero, .chol_zero⟩
  | dense =>
    simp only [Verif.stepChol, bind_ok_iff] at hx
    obtain ⟨_, _, _, _, hx⟩ := hx
    exact ⟨_, mkLT_lab hx _, .chol_dense⟩
  | diag =>
    simp only [Verif.stepChol, bind_ok_iff] at hx
    obtain ⟨_, _, _, _, hx⟩ := hx
    exact ⟨_, mkDiag_lab hx _, .chol_diag⟩
  | const =>
    simp only [Verif.stepChol, bind_ok_iff] at hx
    obtain ⟨_, _, _, _, _, _, _, _, hx⟩ := hx
    rcases hc with hc | hc
    · exact ⟨_, mkConst_lab hx _, .chol_const hc⟩
    · exact (hc.1 rfl).elim
  | lr h1 h2 h3 =>
    simp only [Verif.stepChol, bind_ok_iff] at hx
    obtain ⟨_, _, ch, hch, hx⟩ := hx
    rcases hc with hc | hc
    · obtain ⟨a1, la1, ra1⟩ := G.chol h3 o.2.2 hch
      obtain ⟨a2, la2, ra2⟩ := H.matmul h1 la1 o.1 (ra1.ok o.2.2) hx
      exact ⟨a2, la2, .chol_lr hc ra1 ra2⟩
    · exact (hc.2 rfl).elim
  | wb h1 h2 h3 =>
    simp only [Verif.stepChol, bind_ok_iff] at hx
    obtain ⟨_, hd, _, _, hx⟩ := hx
    obtain ⟨e, he⟩ := H.dense (.wb h1 h2 h3) o hd
    exact ⟨_, mkLT_lab hx _, .chol_wb he⟩
  | kron h1 h2 =>
    simp only [Verif.stepChol, bind_ok_iff, pure_eq_ok] at hx
    obtain ⟨x, hx, y, hy, rfl⟩ := hx
    obtain ⟨a1, la1, ra1⟩ := G.chol h1 o.1 hx
    obtain ⟨a2, la2, ra2⟩ := G.chol h2 o.2 hy
    exact ⟨_, .kron la1 la2, .chol_kron ra1 ra2⟩
  | _ => cases hx

/-- `B.solve` after the promotion of numeric operands. -/
def dSolveAM (env : Env K) (lin : LinEnv K) (B : Ops K) (L : LOps K) (a b : Mat K) : E (Mat K) :=
  match a, b with
  | _, .zero bt r c => .ok (.zero bt r c)
  | .diag d, b => do B.matmul false false (← L.inv (.diag d)) b
  | .lt t, b => solveTri lin B true t b
  | .ut t, b => solveTri lin B false t b
  | .wb d l r m, b => do B.matmul false false (← L.inv (.wb d l r m)) b
  | a, b => solveDense lin B a b

theorem dStepSolve_am {a b : Mat K} (h : ¬((∃ t, a = .num t) ∧ ∃ u, b = .num u)) : stepSolve env lin B L a b = dSolveAM env lin B L (convertAM env a) (convertAM env b) := by
  cases a <;> cases b <;> first | rfl | exact (h ⟨⟨_, rfl⟩, _, rfl⟩).elim

theorem LCov.stepSolve (hz : env.Numbers z) (H : Cov p z B) (G : LCov p z f c L) {a b r : Mat K} {s s' : DM D} (ha : Lab a s) (hb : Lab b s') (oa : s.Ok) (ob : s'.Ok)
    (hx : stepSolve env lin B L a b = .ok r) : ∃ x, Lab r x ∧ LRuns p z f c (.solve s s') x := by
  by_cases hn : (∃ t, a = .num t) ∧ ∃ u, b = .num u
  · obtain ⟨⟨t, rfl⟩, u, rfl⟩ := hn
    cases ha
    cases hb
    simp only [Verif.stepSolve, bind_ok_iff, pure_eq_ok] at hx
    obtain ⟨_, _, rfl⟩ := hx
    exact ⟨_, .num, .solve_num⟩
  rw [dStepSolve_am hn] at hx
  obtain ⟨s1, l1, c1⟩ := convertAM_lab' hz ha
  obtain ⟨s2, l2, c2⟩ := convertAM_lab' hz hb
  have o1 := c1.ok oa
  have o2 := c2.ok ob
  generalize convertAM env a = a' at hx l1
  generalize convertAM env b = b' at hx l2
  by_cases hb0 : ∃ bt r c, b' = .zero bt r c
  · obtain ⟨bt, i, j, rfl⟩ := hb0
    have hx : (.ok (.zero bt i j) : E (Mat K)) = .ok r := by cases a' <;> exact hx
    cases hx
    cases l2
    exact ⟨_, .zero, .solve_zero c2⟩
  have hz2 : s2.kind ≠ some .zero := by
    rw [l2.kind]
    cases b' <;> first | exact (hb0 ⟨_, _, _, rfl⟩).elim | (exact fun h => by cases h)
  have hd : solveDense lin B a' b' = .ok r → ∃ x, Lab r x ∧ LRuns p z f c (.solve s s') x := by
    intro hx
    simp only [solveDense, bind_ok_iff, pure_eq_ok] at hx
    obtain ⟨ab, hab, x, hx1, y, hy, w, hw, rfl⟩ := hx
    obtain ⟨m1, m2⟩ := alignBatch2_lab l1 l2 hab
    obtain ⟨d1, r1⟩ := H.dense m1 o1 hx1
    obtain ⟨d2, r2⟩ := H.dense m2 o2 hy
    exact ⟨_, .num, .solve_any c1 c2 hz2 r1 r2⟩
  have tri : ∀ (lower : Bool) (t : Tensor K) (d : D), solveTri lin B lower t b' = .ok r → ∃ e, Lab r (.dense (p d e)) ∧ Runs p z (.dense s2) (.num e) := by
    intro lower t d hx
    simp only [solveTri, bind_ok_iff, pure_eq_ok] at hx
    obtain ⟨ab, hab, x, hx, y, hy, w, hw, rfl⟩ := hx
    obtain ⟨m1, m2⟩ := alignBatch2_lab (.num (d := d)) l2 hab
    obtain ⟨d2, r2⟩ := H.dense m2 o2 hy
    exact ⟨d2, .dense, r2⟩
  have byInv : ∀ {u : Mat K} {v : DM D}, Lab u v → v.Ok → (do B.matmul false false (← L.inv u) b' : E (Mat K)) = .ok r →
      ∃ y x, Lab r x ∧ LRuns p z f c (.inv v) y ∧ Runs p z (.matmul false false y s2) x := by
    intro u v hu ov hx
    obtain ⟨y, hy, hx⟩ := bind_ok_iff.1 hx
    obtain ⟨a1, la1, ra1⟩ := G.inv hu ov hy
    obtain ⟨a2, la2, ra2⟩ := H.matmul la1 l2 (ra1.ok ov) o2 hx
    exact ⟨a1, a2, la2, ra1, ra2⟩
  have self : ∀ {k : Kind}, s1.kind = some k → k ≠ .zero → k ≠ .const → k ≠ .dense → s = s1 := by
    intro k hk h1 h2 h3
    cases c1 with
    | zero => exact (h1 (by injection hk with hk; exact hk.symm)).elim
    | const => exact (h2 (by injection hk with hk; exact hk.symm)).elim
    | dense => exact (h3 (by injection hk with hk; exact hk.symm)).elim
    | am => rfl
  have l1' := l1
  cases l1 with
  | @diag t _ =>
    cases self rfl (by decide) (by decide) (by decide)
    have hx : (do B.matmul false false (← L.inv (.diag t)) b' : E (Mat K)) = .ok r := by
      cases b' <;> first | exact hx | exact (hb0 ⟨_, _, _, rfl⟩).elim
    obtain ⟨y, x, lx, r1, r2⟩ := byInv l1' o1 hx
    exact ⟨x, lx, .solve_diag c2 hz2 r1 r2⟩
  | @wb e0 l0 r0 m0 _ _ _ _ h1 h2 h3 =>
    cases self rfl (by decide) (by decide) (by decide)
    have hx : (do B.matmul false false (← L.inv (.wb e0 l0 r0 m0)) b' : E (Mat K)) = .ok r := by
      cases b' <;> first | exact hx | exact (hb0 ⟨_, _, _, rfl⟩).elim
    obtain ⟨y, x, lx, r1, r2⟩ := byInv l1' o1 hx
    exact ⟨x, lx, .solve_wb c2 hz2 r1 r2⟩
  | @lt t _ =>
    cases self rfl (by decide) (by decide) (by decide)
    have hx : solveTri lin B true t b' = .ok r := by
      cases b' <;> first | exact hx | exact (hb0 ⟨_, _, _, rfl⟩).elim
    obtain ⟨e, le, re⟩ := tri true _ _ hx
    exact ⟨_, le, .solve_lt c2 hz2 re⟩
  | @ut t _ =>
    cases self rfl (by decide) (by decide) (by decide)
    have hx : solveTri lin B false t b' = .ok r := by
      cases b' <;> first | exact hx | exact (hb0 ⟨_, _, _, rfl⟩).elim
    obtain ⟨e, le, re⟩ := tri false _ _ hx
    exact ⟨_, le, .solve_ut c2 hz2 re⟩
  | _ =>
    exact hd (by cases b' <;> first | exact hx | exact (hb0 ⟨_, _, _, rfl⟩).elim)

/-- `B.cholesky_solve` after the promotion of numeric operands. -/
def dCholSolveAM (L : LOps K) (a b : Mat K) : E (Mat K) :=
  match a, b with
  | .diag d, b => cholSolveTri L (.diag d) b
  | .lt t, b => cholSolveTri L (.lt t) b
  | .ut t, b => cholSolveTri L (.ut t) b
  | .kron l r, .kron l' r' => do return .kron (← L.cholSolve l l') (← L.cholSolve r r')
  | _, _ => .error .notFound

theorem dStepCholSolve_am {a b : Mat K} (h : ¬((∃ t, a = .num t) ∧ ∃ u, b = .num u)) : stepCholSolve env lin L a b = dCholSolveAM L (convertAM env a) (convertAM env b) := by
  cases a <;> cases b <;> first | rfl | exact (h ⟨⟨_, rfl⟩, _, rfl⟩).elim

theorem LCov.stepCholSolve (hz : env.Numbers z) (G : LCov p z f c L) {a b r : Mat K} {s s' : DM D} (ha : Lab a s) (hb : Lab b s') (oa : s.Ok) (ob : s'.Ok)
    (hx : stepCholSolve env lin L a b = .ok r) : ∃ x, Lab r x ∧ LRuns p z f c (.cholSolve s s') x := by
  by_cases hn : (∃ t, a = .num t) ∧ ∃ u, b = .num u
  · obtain ⟨⟨t, rfl⟩, u, rfl⟩ := hn
    cases ha
    cases hb
    simp only [Verif.stepCholSolve, bind_ok_iff, pure_eq_ok] at hx
    obtain ⟨_, _, _, _, rfl⟩ := hx
    exact ⟨_, .num, .cs_num⟩
  rw [dStepCholSolve_am hn] at hx
  obtain ⟨s1, l1, c1⟩ := convertAM_lab' hz ha
  obtain ⟨s2, l2, c2⟩ := convertAM_lab' hz hb
  have o1 := c1.ok oa
  have o2 := c2.ok ob
  generalize convertAM env a = a' at hx l1
  generalize convertAM env b = b' at hx l2
  have self : ∀ {k : Kind}, s1.kind = some k → k ≠ .zero → k ≠ .const → k ≠ .dense → s = s1 := by
    intro k hk h1 h2 h3
    cases c1 with
    | zero => exact (h1 (by injection hk with hk; exact hk.symm)).elim
    | const => exact (h2 (by injection hk with hk; exact hk.symm)).elim
    | dense => exact (h3 (by injection hk with hk; exact hk.symm)).elim
    | am => rfl
  have tri : ∀ {k : Kind}, s1.Tri → s1.kind = some k → k ≠ .zero → k ≠ .const → k ≠ .dense → cholSolveTri L a' b' = .ok r → ∃ x, Lab r x ∧ LRuns p z f c (.cholSolve s s') x := by
    intro k ht hk h1 h2 h3 hx
    have e := self hk h1 h2 h3
    subst e
    simp only [cholSolveTri, bind_ok_iff] at hx
    obtain ⟨x, hx, y, hy, hw⟩ := hx
    obtain ⟨a1, la1, ra1⟩ := G.solve l1 l2 o1 o2 hx
    obtain ⟨a2, la2, ra2⟩ := G.solve (transposeM_lab l1 hy) la1 (DM.ok_tr o1) (ra1.ok ⟨o1, o2⟩) hw
    exact ⟨a2, la2, .cs_tri ht c2 ra1 ra2⟩
  cases l1 with
  | diag => exact tri (k := .diag) (.inl rfl) rfl (by decide) (by decide) (by decide) hx
  | lt => exact tri (k := .lt) (.inr (.inl rfl)) rfl (by decide) (by decide) (by decide) hx
  | ut => exact tri (k := .ut) (.inr (.inr rfl)) rfl (by decide) (by decide) (by decide) hx
  | kron h1 h2 =>
    cases self rfl (by decide) (by decide) (by decide)
    cases l2 with
    | kron h3 h4 =>
      cases c2
      simp only [dCholSolveAM, bind_ok_iff, pure_eq_ok] at hx
      obtain ⟨x, hx, y, hy, rfl⟩ := hx
      obtain ⟨a1, la1, ra1⟩ := G.cholSolve h1 h3 o1.1 o2.1 hx
      obtain ⟨a2, la2, ra2⟩ := G.cholSolve h2 h4 o1.2 o2.2 hy
      exact ⟨_, .kron la1 la2, .cs_kron ra1 ra2⟩
    | _ => cases hx
  | _ => cases b' <;> cases hx

theorem LCov.stepLogdet (H : Cov p z B) (G : LCov p z f c L) {a : Mat K} {t : Tensor K} {s : DM D} (h : Lab a s) (o : s.Ok) (hx : stepLogdet lin B L a = .ok t) :
    ∃ d, LRuns p z f c (.logdet s) (.num d) := by
  have h0 := h
  have tri : s.Tri → logdetTri lin B a = .ok t → ∃ d, LRuns p z f c (.logdet s) (.num d) := by
    intro ht hx
    simp only [logdetTri, bind_ok_iff] at hx
    obtain ⟨x, hx, _⟩ := hx
    obtain ⟨d, hd⟩ := H.diag h o hx
    exact ⟨d, .logdet_tri ht hd⟩
  have any : ¬s.Tri → s.kind ≠ some .wb → s.kind ≠ some .kron → (do nMul (scalarT 2) (← L.logdet (← L.chol a)) : E (Tensor K)) = .ok t → ∃ d, LRuns p z f c (.logdet s) (.num d) := by
    intro k1 k2 k3 hx
    simp only [bind_ok_iff] at hx
    obtain ⟨x, hx, y, hy, _⟩ := hx
    obtain ⟨a1, la1, ra1⟩ := G.chol h o hx
    obtain ⟨d, hd⟩ := G.logdet la1 (ra1.ok o) hy
    exact ⟨d, .logdet_any k1 k2 k3 ra1 hd⟩
  cases h with
  | num => exact ⟨_, .logdet_num⟩
  | diag => exact tri (.inl rfl) hx
  | lt => exact tri (.inr (.inl rfl)) hx
  | ut => exact tri (.inr (.inr rfl)) hx
  | @wb _ _ _ _ e _ _ _ h1 h2 h3 =>
    simp only [Verif.stepLogdet, bind_ok_iff] at hx
    obtain ⟨x, hx, y, hy, v, hv, w, hw, _⟩ := hx
    obtain ⟨d1, r1⟩ := G.logdet (.diag (d := e)) trivial hx
    obtain ⟨d2, r2⟩ := G.logdet h3 o.2.2 hy
    obtain ⟨a3, la3, ra3⟩ := G.pdSchurM H (e := e) h1 h2 h3 o.1 o.2.1 o.2.2 hv
    obtain ⟨d4, r4⟩ := G.logdet la3 (ra3.ok o) hw
    exact ⟨_, .logdet_wb r1 r2 ra3 r4⟩
  | kron h1 h2 =>
    simp only [Verif.stepLogdet, bind_ok_iff] at hx
    obtain ⟨_, _, _, _, n, _, m, _, x', hx, x, _, y', hy, y, _, _⟩ := hx
    obtain ⟨d1, r1⟩ := G.logdet h1 o.1 hx
    obtain ⟨d2, r2⟩ := G.logdet h2 o.2 hy
    exact ⟨_, .logdet_kron r1 r2⟩
  | _ => exact any (by simp [DM.Tri, DM.kind]) (by simp [DM.kind]) (by simp [DM.kind]) hx

theorem LCov.stepRoot (H : Cov p z B) (G : LCov p z f c L) {a r : Mat K} {s : DM D} (h : Lab a s) (o : s.Ok) (hx : stepRoot lin B L a = .ok r) :
    ∃ x, Lab r x ∧ LRuns p z f c (.root s) x := by
  have h0 := h
  have dense : ∀ {d : D} {t : Tensor K} {q : Tensor K}, (s.kind = some .dense ∨ s.kind = some .lr ∨ s.kind = some .wb) → Runs p z (.dense s) (.num d) → (do B.dense (← L.root (.num t)) : E (Tensor K)) = .ok q →
      ∃ e, LRuns p z f c (.root s) (.dense e) := by
    intro d t q hk hd hx
    obtain ⟨y, hy, hx⟩ := bind_ok_iff.1 hx
    obtain ⟨a1, la1, ra1⟩ := G.root (.num (d := d)) trivial hy
    obtain ⟨e, he⟩ := H.dense la1 (ra1.ok trivial) hx
    exact ⟨e, .root_dense hk hd ra1 he⟩
  cases h with
  | num =>
    simp only [Verif.stepRoot, rootNum, bind_ok_iff] at hx
    obtain ⟨_, _, us, _, sq, _, hx⟩ := hx
    obtain ⟨a1, la1, ra1⟩ := H.mm3 .num .num .num trivial trivial trivial hx
    exact ⟨a1, la1, .root_num ra1⟩
  | zero =>
    simp only [Verif.stepRoot, bind_ok_iff, pure_eq_ok] at hx
    obtain ⟨_, _, rfl⟩ := hx
    exact ⟨_, .zero, .root_zero⟩
  | dense =>
    simp only [Verif.stepRoot, bind_ok_iff, pure_eq_ok] at hx
    obtain ⟨y, hy, q, hq, rfl⟩ := hx
    obtain ⟨e, he⟩ := dense (.inl rfl) .dense_dense (bind_ok_iff.2 ⟨y, hy, hq⟩)
    exact ⟨_, .dense, he⟩
  | diag =>
    simp only [Verif.stepRoot, bind_ok_iff] at hx
    obtain ⟨_, _, hx⟩ := hx
    obtain ⟨a1, la1, ra1⟩ := G.chol h0 o hx
    exact ⟨a1, la1, .root_diag ra1⟩
  | const =>
    simp only [Verif.stepRoot, bind_ok_iff] at hx
    obtain ⟨_, _, hx⟩ := hx
    obtain ⟨a1, la1, ra1⟩ := G.chol h0 o hx
    exact ⟨a1, la1, .root_const ra1⟩
  | lr h1 h2 h3 =>
    simp only [Verif.stepRoot, bind_ok_iff, pure_eq_ok] at hx
    obtain ⟨x, hx, y, hy, q, hq, rfl⟩ := hx
    obtain ⟨d, hd⟩ := H.dense h0 o hx
    obtain ⟨e, he⟩ := dense (.inr (.inl rfl)) hd (bind_ok_iff.2 ⟨y, hy, hq⟩)
    exact ⟨_, .dense, he⟩
  | wb h1 h2 h3 =>
    simp only [Verif.stepRoot, bind_ok_iff, pure_eq_ok] at hx
    obtain ⟨x, hx, y, hy, q, hq, rfl⟩ := hx
    obtain ⟨d, hd⟩ := H.dense h0 o hx
    obtain ⟨e, he⟩ := dense (.inr (.inr rfl)) hd (bind_ok_iff.2 ⟨y, hy, hq⟩)
    exact ⟨_, .dense, he⟩
  | kron h1 h2 =>
    simp only [Verif.stepRoot, bind_ok_iff, pure_eq_ok] at hx
    obtain ⟨x, hx, y, hy, rfl⟩ := hx
    obtain ⟨a1, la1, ra1⟩ := G.root h1 o.1 hx
    obtain ⟨a2, la2, ra2⟩ := G.root h2 o.2 hy
    exact ⟨_, .kron la1 la2, .root_kron ra1 ra2⟩
  | _ => cases hx

theorem LCov.bot : LCov p z f c (LOps.bot : LOps K) := by
  constructor <;> intros <;> contradiction

/-- Every run of linear algebra is followed by the rules. -/
theorem lops_cov (hz : env.Numbers z) (H : Cov p z B) (n : ℕ) : LCov p z f true (lops env lin B n) := by
  induction n with
  | zero => exact .bot
  | succ n ih =>
    exact ⟨fun h o => ih.stepInv hz H h o, fun h o => ih.stepPdInv hz H h o, fun h o => ih.stepChol H h o (.inl rfl), fun h h' o o' => ih.stepSolve hz H h h' o o',
      fun h h' o o' => ih.stepCholSolve hz h h' o o', fun h o => ih.stepLogdet H h o, fun h o => ih.stepRoot H h o⟩

/-! ### Runs without Cholesky factors of Constant and LowRank matrices -/

/-- Linear algebra that stops when it would take the Cholesky factor of a Constant or LowRank matrix. -/
def lopsPlain (env : Env K) (lin : LinEnv K) (B : Ops K) : ℕ → LOps K
  | 0 => LOps.bot
  | n+1 => { lstep env lin B (lopsPlain env lin B n) with
      chol := fun a => if a.kind = some .const ∨ a.kind = some .lr then .error .inexact else stepChol lin B (lopsPlain env lin B n) a }

theorem lopsPlain_cov (hz : env.Numbers z) (H : Cov p z B) (n : ℕ) : LCov p z f false (lopsPlain env lin B n) := by
  induction n with
  | zero => exact .bot
  | succ n ih =>
    refine ⟨fun h o => ih.stepInv hz H h o, fun h o => ih.stepPdInv hz H h o, fun {a _ _} h o hx => ?_, fun h h' o o' => ih.stepSolve hz H h h' o o',
      fun h h' o o' => ih.stepCholSolve hz h h' o o', fun h o => ih.stepLogdet H h o, fun h o => ih.stepRoot H h o⟩
    by_cases hk : a.kind = some .const ∨ a.kind = some .lr
    · have : (.error .inexact : E (Mat K)) = .ok _ := (if_pos hk).symm.trans hx
      cases this
    · exact ih.stepChol H h o (.inr (not_or.1 hk)) ((if_neg hk).symm.trans hx)

theorem lopsPlain_below {bad : Err → Prop} {C : Ops K} (hb : bad .inexact) (h : Ops.Below bad B C) (n : ℕ) : LOps.Below bad (lopsPlain env lin B n) (lops env lin C n) := by
  induction n with
  | zero => exact .refl _
  | succ n ih =>
    have := lstep_below env lin h ih
    refine ⟨this.inv, this.pdInv, fun a => ?_, this.solve, this.cholSolve, this.logdet, this.root⟩
    show Below bad (if a.kind = some .const ∨ a.kind = some .lr then .error .inexact else _) _
    split_ifs
    · exact .of_bad hb _
    · exact this.chol a

end Verif
