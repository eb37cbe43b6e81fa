/-
Data types in the derived functions (C59): `B.matmul_diag`, `B.trace`, `B.iqf`, `B.iqf_diag`, `B.ratio`, `B.kron`.
-/
import Verif.DFlow7
import Verif.Kron

set_option linter.unusedSectionVars false
set_option linter.unusedVariables false

namespace Verif

variable {K D : Type} [Field K] [LinearOrder K]

/-- Calls of derived functions on matrices without values. -/
inductive QCall (D : Type) where
  | md (ta tb : Bool) (a b : DM D)
  | trace (a : DM D)
  | iqf (a b c : DM D)
  | iqfDiag (a b c : DM D)
  | ratio (a b : DM D)
  | kron (a b : DM D)

/-- The class and data types of the result of a derived function. -/
inductive QRuns (p : D → D → D) (z : Bool) (f : D) (c : Bool) : QCall D → DM D → Prop
  -- `ops/matmul_diag.py` 9-32
  | md_lr {ta tb al ar am bl br bm x d} : Runs p z (.matmul ta tb (.lr al ar am) (.lr bl br bm)) x → Runs p z (.diag x) (.num d) →
      QRuns p z f c (.md ta tb (.lr al ar am) (.lr bl br bm)) (.num d)
  | md {ta tb a b x d} : Runs p z (.mul (a.tr' (!ta)) (b.tr' tb)) x → Runs p z (.sum x) (.num d) → QRuns p z f c (.md ta tb a b) (.num d)
  -- `ops/trace.py` 8-11
  | trace {a d} : Runs p z (.diag a) (.num d) → QRuns p z f c (.trace a) (.num d)
  -- `ops/iqf.py` 8-40
  | iqf_wb {d l r m b b' x y} : LRuns p z f c (.pdInv (.wb d l r m)) x → Runs p z (.matmul3 true false false b x b') y → QRuns p z f c (.iqf (.wb d l r m) b b') y
  | iqf {a b b' ch x y r} : LRuns p z f c (.chol a) ch → LRuns p z f c (.solve ch b) x → LRuns p z f c (.solve ch b') y → Runs p z (.matmul true false x y) r →
      QRuns p z f c (.iqf a b b') r
  -- `ops/iqf_diag.py` 8-40
  | iqfd_wb {d l r m b b' x y w} : LRuns p z f c (.pdInv (.wb d l r m)) x → Runs p z (.matmul false false x b') y → QRuns p z f c (.md true false b y) w →
      QRuns p z f c (.iqfDiag (.wb d l r m) b b') w
  | iqfd {a b b' ch x y r} : LRuns p z f c (.chol a) ch → LRuns p z f c (.solve ch b) x → LRuns p z f c (.solve ch b') y → QRuns p z f c (.md true false x y) r →
      QRuns p z f c (.iqfDiag a b b') r
  -- `ops/ratio.py` 8-38
  | ratio_wbwb {ad al ar am bd bl br bm d l r m x y w u v t} : LRuns p z f c (.pdInv (.wb bd bl br bm)) (.wb d l r m) →
      Runs p z (.matmul false false (.diag ad) (.wb d l r m)) x → QRuns p z f c (.trace x) (.num u) →
      Runs p z (.matmul false false (.lr al ar am) (.diag d)) y → QRuns p z f c (.trace y) (.num v) →
      Runs p z (.matmul false false (.lr al ar am) (.lr l r m)) w → QRuns p z f c (.trace w) (.num t) →
      QRuns p z f c (.ratio (.wb ad al ar am) (.wb bd bl br bm)) (.num (p (p u v) t))
  | ratio_wb {a bd bl br bm d l r m x y u v} : LRuns p z f c (.pdInv (.wb bd bl br bm)) (.wb d l r m) →
      Runs p z (.matmul false false a (.diag d)) x → QRuns p z f c (.trace x) (.num u) →
      Runs p z (.matmul false false a (.lr l r m)) y → QRuns p z f c (.trace y) (.num v) →
      QRuns p z f c (.ratio a (.wb bd bl br bm)) (.num (p u v))
  | ratio {a b ch d} : LRuns p z f c (.chol a) ch → QRuns p z f c (.iqfDiag b ch ch) (.num d) → QRuns p z f c (.ratio a b) (.num d)
  -- `ops/kron.py` 20-43
  | kron_num {s t} : QRuns p z f c (.kron (.num s) (.num t)) (.num (p s t))
  | kron_amZero {a b d} : DConv z b (.zero d) → QRuns p z f c (.kron a b) (.zero d)  -- 20-22
  | kron_zeroAm {a b d} : DConv z a (.zero d) → QRuns p z f c (.kron a b) (.zero d)  -- 25-27
  | kron_const {a b s t} : DConv z a (.const s) → DConv z b (.const t) → QRuns p z f c (.kron a b) (.const (p s t))  -- 41-43
  | kron_am {a b a' b'} : DConv z a a' → DConv z b b' → a'.kind ≠ some .zero → b'.kind ≠ some .zero → QRuns p z f c (.kron a b) (.kron a' b')  -- 33-35

/-- All data types of the operands satisfy `S`. -/
def QCall.All (S : D → Prop) : QCall D → Prop
  | .md _ _ a b | .ratio a b | .kron a b => a.All S ∧ b.All S
  | .trace a => a.All S
  | .iqf a b c | .iqfDiag a b c => a.All S ∧ b.All S ∧ c.All S

/-- No operand is or contains a Zero. -/
def QCall.NoZero : QCall D → Prop
  | .md _ _ a b | .ratio a b | .kron a b => a.NoZero ∧ b.NoZero
  | .trace a => a.NoZero
  | .iqf a b c | .iqfDiag a b c => a.NoZero ∧ b.NoZero ∧ c.NoZero

/-- The block sizes are positive. -/
def QCall.Ok : QCall D → Prop
  | .md _ _ a b | .ratio a b | .kron a b => a.Ok ∧ b.Ok
  | .trace a => a.Ok
  | .iqf a b c | .iqfDiag a b c => a.Ok ∧ b.Ok ∧ c.Ok

variable {p : D → D → D} {z c : Bool} {f : D}

theorem QRuns.all {S : D → Prop} (hp : ∀ x y, S x → S y → S (p x y)) (hf : c = true → ∀ x, S x → S (p x f)) {k : QCall D} {r : DM D} (h : QRuns p z f c k r)
    (hk : k.All S) : r.All S := by
  induction h with
  | md_lr h1 h2 => exact h2.all hp (h1.all hp hk)
  | md h1 h2 => exact h2.all hp (h1.all hp ⟨(DM.all_tr' _ _).2 hk.1, (DM.all_tr' _ _).2 hk.2⟩)
  | trace h => exact h.all hp hk
  | iqf_wb h1 h2 => exact h2.all hp ⟨hk.2.1, h1.all hp hf hk.1, hk.2.2⟩
  | iqf h1 h2 h3 h4 =>
    have j := h1.all hp hf hk.1
    exact h4.all hp ⟨h2.all hp hf ⟨j, hk.2.1⟩, h3.all hp hf ⟨j, hk.2.2⟩⟩
  | iqfd_wb h1 h2 _ i => exact i ⟨hk.2.1, h2.all hp ⟨h1.all hp hf hk.1, hk.2.2⟩⟩
  | iqfd h1 h2 h3 _ i =>
    have j := h1.all hp hf hk.1
    exact i ⟨h2.all hp hf ⟨j, hk.2.1⟩, h3.all hp hf ⟨j, hk.2.2⟩⟩
  | ratio_wbwb h1 h2 _ h4 _ h6 _ i1 i2 i3 =>
    have j := h1.all hp hf hk.2
    exact hp _ _ (hp _ _ (i1 (h2.all hp ⟨hk.1.1, j⟩)) (i2 (h4.all hp ⟨hk.1.2, j.1⟩))) (i3 (h6.all hp ⟨hk.1.2, j.2⟩))
  | ratio_wb h1 h2 _ h4 _ i1 i2 =>
    have j := h1.all hp hf hk.2
    exact hp _ _ (i1 (h2.all hp ⟨hk.1, j.1⟩)) (i2 (h4.all hp ⟨hk.1, j.2⟩))
  | ratio h1 _ i =>
    have j := h1.all hp hf hk.1
    exact i ⟨hk.2, j, j⟩
  | kron_num => exact hp _ _ hk.1 hk.2
  | kron_amZero h => exact h.all.2 hk.2
  | kron_zeroAm h => exact h.all.2 hk.1
  | kron_const h1 h2 => exact hp _ _ (h1.all.2 hk.1) (h2.all.2 hk.2)
  | kron_am h1 h2 => exact ⟨h1.all.2 hk.1, h2.all.2 hk.2⟩

theorem QRuns.ok {k : QCall D} {r : DM D} (h : QRuns p z f c k r) (hk : k.Ok) : r.Ok := by
  induction h with
  | iqf_wb h1 h2 => exact h2.ok ⟨hk.2.1, h1.ok hk.1, hk.2.2⟩
  | iqf h1 h2 h3 h4 =>
    have j := h1.ok hk.1
    exact h4.ok ⟨h2.ok ⟨j, hk.2.1⟩, h3.ok ⟨j, hk.2.2⟩⟩
  | iqfd_wb h1 h2 _ i => exact i ⟨hk.2.1, h2.ok ⟨h1.ok hk.1, hk.2.2⟩⟩
  | iqfd h1 h2 h3 _ i =>
    have j := h1.ok hk.1
    exact i ⟨h2.ok ⟨j, hk.2.1⟩, h3.ok ⟨j, hk.2.2⟩⟩
  | kron_am h1 h2 => exact ⟨h1.ok hk.1, h2.ok hk.2⟩
  | _ => trivial

theorem QRuns.back [SemilatticeSup D] (u : D) {k : QCall D} {r : DM D} (h : QRuns (· ⊔ ·) false f false k r) (hk : k.NoZero) (hr : r.All (· ≤ u)) : k.All (· ≤ u) := by
  induction h with
  | md_lr h1 h2 => exact h1.back u hk (h2.back u (h1.noZero hk) hr)
  | @md ta tb a b x d h1 h2 =>
    have n : DCall.NoZero (.mul (a.tr' (!ta)) (b.tr' tb)) := ⟨(DM.noZero_tr' _ _).2 hk.1, (DM.noZero_tr' _ _).2 hk.2⟩
    have j := h1.back u n (h2.back u (h1.noZero n) hr)
    exact ⟨(DM.all_tr' _ _).1 j.1, (DM.all_tr' _ _).1 j.2⟩
  | trace h => exact h.back u hk hr
  | iqf_wb h1 h2 =>
    have n := h1.noZero hk.1
    have j := h2.back u ⟨hk.2.1, n, hk.2.2⟩ hr
    exact ⟨h1.back u hk.1 j.2.1, j.1, j.2.2⟩
  | iqf h1 h2 h3 h4 =>
    have n := h1.noZero hk.1
    have j := h4.back u ⟨h2.noZero ⟨n, hk.2.1⟩, h3.noZero ⟨n, hk.2.2⟩⟩ hr
    have j2 := h2.back u ⟨n, hk.2.1⟩ j.1
    have j3 := h3.back u ⟨n, hk.2.2⟩ j.2
    exact ⟨h1.back u hk.1 j2.1, j2.2, j3.2⟩
  | iqfd_wb h1 h2 _ i =>
    have n := h1.noZero hk.1
    have j := i ⟨hk.2.1, h2.noZero ⟨n, hk.2.2⟩⟩ hr
    have j2 := h2.back u ⟨n, hk.2.2⟩ j.2
    exact ⟨h1.back u hk.1 j2.1, j.1, j2.2⟩
  | iqfd h1 h2 h3 _ i =>
    have n := h1.noZero hk.1
    have j := i ⟨h2.noZero ⟨n, hk.2.1⟩, h3.noZero ⟨n, hk.2.2⟩⟩ hr
    have j2 := h2.back u ⟨n, hk.2.1⟩ j.1
    have j3 := h3.back u ⟨n, hk.2.2⟩ j.2
    exact ⟨h1.back u hk.1 j2.1, j2.2, j3.2⟩
  | @ratio_wbwb ad al ar am bd bl br bm d l r m x y w e v t h1 h2 _ h4 _ h6 _ i1 i2 i3 =>
    have n := h1.noZero hk.2
    have hr := sup_le_iff.1 hr
    have hr' := sup_le_iff.1 hr.1
    have n2 : DCall.NoZero (.matmul false false (.diag ad) (.wb d l r m)) := ⟨trivial, n⟩
    have n4 : DCall.NoZero (.matmul false false (.lr al ar am) (.diag d)) := ⟨hk.1, trivial⟩
    have j2 := h2.back u n2 (i1 (h2.noZero n2) hr'.1)
    have j4 := h4.back u n4 (i2 (h4.noZero n4) hr'.2)
    exact ⟨⟨j2.1, j4.1⟩, h1.back u hk.2 j2.2⟩
  | @ratio_wb a bd bl br bm d l r m x y e v h1 h2 _ h4 _ i1 i2 =>
    have n := h1.noZero hk.2
    have hr := sup_le_iff.1 hr
    have n2 : DCall.NoZero (.matmul false false a (.diag d)) := ⟨hk.1, trivial⟩
    have n4 : DCall.NoZero (.matmul false false a (.lr l r m)) := ⟨hk.1, n⟩
    have j2 := h2.back u n2 (i1 (h2.noZero n2) hr.1)
    have j4 := h4.back u n4 (i2 (h4.noZero n4) hr.2)
    exact ⟨j2.1, h1.back u hk.2 ⟨j2.2, j4.2⟩⟩
  | ratio h1 _ i =>
    have n := h1.noZero hk.1
    have j := i ⟨hk.2, n, n⟩ hr
    exact ⟨h1.back u hk.1 j.2.1, j.1⟩
  | kron_num => exact sup_le_iff.1 hr
  | kron_amZero h => exact (h.noZero hk.2).elim
  | kron_zeroAm h => exact (h.noZero hk.1).elim
  | kron_const h1 h2 =>
    have j := sup_le_iff.1 hr
    exact ⟨h1.all.1 j.1, h2.all.1 j.2⟩
  | kron_am h1 h2 => exact ⟨h1.all.1 hr.1, h2.all.1 hr.2⟩

/-! ### Every run is followed by the rules -/

section
variable {B : Ops K} {L : LOps K} (H : Cov p z B) (G : LCov p z f c L)
include H

theorem Cov.md {ta tb : Bool} {a b : Mat K} {t : Tensor K} {s s' : DM D} (ha : Lab a s) (hb : Lab b s') (oa : s.Ok) (ob : s'.Ok) (h : matmulDiag B ta tb a b = .ok t) :
    ∃ d, QRuns p z f c (.md ta tb s s') (.num d) := by
  have gen : (do
      let a ← trM (!ta) a
      let b ← trM tb b
      B.sumM 1 (← B.mul a b)) = Except.ok t → ∃ d, QRuns p z f c (.md ta tb s s') (.num d) := by
    intro h
    simp only [bind_ok_iff] at h
    obtain ⟨x, hx, y, hy, w, hw, h⟩ := h
    obtain ⟨v, lv, rv⟩ := H.mul (trM_lab ha hx) (trM_lab hb hy) (DM.ok_tr' _ oa) (DM.ok_tr' _ ob) hw
    obtain ⟨d, rd⟩ := H.sum lv (rv.ok ⟨DM.ok_tr' _ oa, DM.ok_tr' _ ob⟩) h
    exact ⟨d, .md rv rd⟩
  by_cases hk : (∃ l r m, a = .lr l r m) ∧ ∃ l r m, b = .lr l r m
  · obtain ⟨⟨_, _, _, rfl⟩, _, _, _, rfl⟩ := hk
    have ha' := ha
    have hb' := hb
    cases ha with
    | lr _ _ _ =>
      cases hb with
      | lr _ _ _ =>
        simp only [matmulDiag, bind_ok_iff] at h
        obtain ⟨x, hx, h⟩ := h
        obtain ⟨v, lv, rv⟩ := H.matmul ha' hb' oa ob hx
        obtain ⟨d, rd⟩ := H.diag lv (rv.ok ⟨oa, ob⟩) h
        exact ⟨d, .md_lr rv rd⟩
  · apply gen
    cases a <;> cases b <;> first | exact h | exact (hk ⟨⟨_, _, _, rfl⟩, _, _, _, rfl⟩).elim

theorem Cov.trace {a : Mat K} {t : Tensor K} {s : DM D} (ha : Lab a s) (oa : s.Ok) (h : traceM B a = .ok t) : ∃ d, QRuns p z f c (.trace s) (.num d) := by
  simp only [traceM, bind_ok_iff] at h
  obtain ⟨x, hx, _⟩ := h
  obtain ⟨d, hd⟩ := H.diag ha oa hx
  exact ⟨d, .trace hd⟩

include G

theorem LCov.iqf {same : Bool} {a b b' r : Mat K} {s t t' : DM D} (ha : Lab a s) (hb : Lab b t) (hb' : Lab b' t') (oa : s.Ok) (ob : t.Ok) (ob' : t'.Ok)
    (hs : same = true → t' = t) (h : iqfM B L same a b b' = .ok r) : ∃ x, Lab r x ∧ QRuns p z f c (.iqf s t t') x := by
  have gen : (do
      let ch ← L.chol a
      let cb ← L.solve ch b
      let cc ← if same then pure cb else L.solve ch b'
      B.matmul true false cb cc) = Except.ok r → ∃ x, Lab r x ∧ QRuns p z f c (.iqf s t t') x := by
    intro h
    simp only [bind_ok_iff] at h
    obtain ⟨ch, hc, x, hx, h⟩ := h
    obtain ⟨u, lu, ru⟩ := G.chol ha oa hc
    have ou := ru.ok oa
    obtain ⟨v, lv, rv⟩ := G.solve lu hb ou ob hx
    have ov := rv.ok ⟨ou, ob⟩
    split_ifs at h with hsame
    · obtain rfl := hs hsame
      obtain ⟨w, lw, rw'⟩ := H.matmul lv lv ov ov h
      exact ⟨w, lw, .iqf ru rv rv rw'⟩
    · simp only [bind_ok_iff] at h
      obtain ⟨y, hy, h⟩ := h
      obtain ⟨v', lv', rv'⟩ := G.solve lu hb' ou ob' hy
      obtain ⟨w, lw, rw'⟩ := H.matmul lv lv' ov (rv'.ok ⟨ou, ob'⟩) h
      exact ⟨w, lw, .iqf ru rv rv' rw'⟩
  have ha' := ha
  cases ha with
  | wb _ _ _ =>
    simp only [iqfM, bind_ok_iff] at h
    obtain ⟨x, hx, h⟩ := h
    obtain ⟨u, lu, ru⟩ := G.pdInv ha' oa hx
    obtain ⟨w, lw, rw'⟩ := H.mm3 hb lu hb' ob (ru.ok oa) ob' h
    exact ⟨w, lw, .iqf_wb ru rw'⟩
  | _ => exact gen h

theorem LCov.iqfDiag {same : Bool} {a b b' : Mat K} {r : Tensor K} {s t t' : DM D} (ha : Lab a s) (hb : Lab b t) (hb' : Lab b' t') (oa : s.Ok) (ob : t.Ok) (ob' : t'.Ok)
    (hs : same = true → t' = t) (h : iqfDiagM B L same a b b' = .ok r) : ∃ d, QRuns p z f c (.iqfDiag s t t') (.num d) := by
  have gen : (do
      let ch ← L.chol a
      let cb ← L.solve ch b
      let cc ← if same then pure cb else L.solve ch b'
      matmulDiag B true false cb cc) = Except.ok r → ∃ d, QRuns p z f c (.iqfDiag s t t') (.num d) := by
    intro h
    simp only [bind_ok_iff] at h
    obtain ⟨ch, hc, x, hx, h⟩ := h
    obtain ⟨u, lu, ru⟩ := G.chol ha oa hc
    have ou := ru.ok oa
    obtain ⟨v, lv, rv⟩ := G.solve lu hb ou ob hx
    have ov := rv.ok ⟨ou, ob⟩
    split_ifs at h with hsame
    · obtain rfl := hs hsame
      obtain ⟨d, hd⟩ := H.md (f := f) (c := c) lv lv ov ov h
      exact ⟨d, .iqfd ru rv rv hd⟩
    · simp only [bind_ok_iff] at h
      obtain ⟨y, hy, h⟩ := h
      obtain ⟨v', lv', rv'⟩ := G.solve lu hb' ou ob' hy
      obtain ⟨d, hd⟩ := H.md (f := f) (c := c) lv lv' ov (rv'.ok ⟨ou, ob'⟩) h
      exact ⟨d, .iqfd ru rv rv' hd⟩
  have ha' := ha
  cases ha with
  | wb _ _ _ =>
    simp only [iqfDiagM, bind_ok_iff] at h
    obtain ⟨x, hx, y, hy, h⟩ := h
    obtain ⟨u, lu, ru⟩ := G.pdInv ha' oa hx
    have ou := ru.ok oa
    obtain ⟨w, lw, rw'⟩ := H.matmul lu hb' ou ob' hy
    obtain ⟨d, hd⟩ := H.md (f := f) (c := c) hb lw ob (rw'.ok ⟨ou, ob'⟩) h
    exact ⟨d, .iqfd_wb ru rw' hd⟩
  | _ => exact gen h

theorem LCov.ratio {a b : Mat K} {r : Tensor K} {s t : DM D} (ha : Lab a s) (hb : Lab b t) (oa : s.Ok) (ob : t.Ok) (h : ratioM B L a b = .ok r) :
    ∃ d, QRuns p z f c (.ratio s t) (.num d) := by
  have parts {bi : Mat K} {q : Mat K × Mat K} {x : DM D} (l : Lab bi x) (hq : wbParts bi = .ok q) : ∃ d l r m, x = .wb d l r m ∧ Lab q.1 (.diag d) ∧ Lab q.2 (.lr l r m) := by
    cases l with
    | wb l1 l2 l3 => cases hq; exact ⟨_, _, _, _, rfl, .diag, .lr l1 l2 l3⟩
    | _ => cases hq
  have gen0 : (do
      let ch ← L.chol a
      nSum (← iqfDiagM B L true b ch ch) (some (-1))) = Except.ok r → ∃ d, QRuns p z f c (.ratio s t) (.num d) := by
    intro h
    simp only [bind_ok_iff] at h
    obtain ⟨ch, hc, x, hx, _⟩ := h
    obtain ⟨u, lu, ru⟩ := G.chol ha oa hc
    have ou := ru.ok oa
    obtain ⟨d, hd⟩ := LCov.iqfDiag H G hb lu lu ob ou ou (fun _ => rfl) hx
    exact ⟨d, .ratio ru hd⟩
  have hb0 := hb
  cases hb with
  | @wb bd bl br bm e bl' br' bm' b1 b2 b3 =>
    have gen : (do
        let bi ← L.pdInv (.wb bd bl br bm)
        let p ← wbParts bi
        let x ← traceM B (← B.matmul false false a p.1)
        let y ← traceM B (← B.matmul false false a p.2)
        nAdd x y) = Except.ok r → ∃ d, QRuns p z f c (.ratio s (.wb e bl' br' bm')) (.num d) := by
      intro h
      simp only [bind_ok_iff] at h
      obtain ⟨bi, hbi, q, hq, x, hx, y, hy, x', hx', y', hy', _⟩ := h
      obtain ⟨u, lu, ru⟩ := G.pdInv hb0 ob hbi
      have ou := ru.ok ob
      obtain ⟨d, l, r, m, rfl, q1, q2⟩ := parts lu hq
      obtain ⟨v, lv, rv⟩ := H.matmul ha q1 oa trivial hx
      obtain ⟨d1, hd1⟩ := H.trace (f := f) (c := c) lv (rv.ok ⟨oa, trivial⟩) hy
      obtain ⟨w, lw, rw'⟩ := H.matmul ha q2 oa ou hx'
      obtain ⟨d2, hd2⟩ := H.trace (f := f) (c := c) lw (rw'.ok ⟨oa, ou⟩) hy'
      exact ⟨_, .ratio_wb ru rv hd1 rw' hd2⟩
    have ha0 := ha
    cases ha with
    | wb a1 a2 a3 =>
      simp only [ratioM, bind_ok_iff] at h
      obtain ⟨bi, hbi, q, hq, x, hx, y, hy, x', hx', y', hy', x'', hx'', y'', hy'', _⟩ := h
      obtain ⟨u, lu, ru⟩ := G.pdInv hb0 ob hbi
      have ou := ru.ok ob
      obtain ⟨d, l, r, m, rfl, q1, q2⟩ := parts lu hq
      obtain ⟨v, lv, rv⟩ := H.matmul .diag lu trivial ou hx
      obtain ⟨d1, hd1⟩ := H.trace (f := f) (c := c) lv (rv.ok ⟨trivial, ou⟩) hy
      obtain ⟨w, lw, rw'⟩ := H.matmul (.lr a1 a2 a3) q1 oa trivial hx'
      obtain ⟨d2, hd2⟩ := H.trace (f := f) (c := c) lw (rw'.ok ⟨oa, trivial⟩) hy'
      obtain ⟨w2, lw2, rw2⟩ := H.matmul (.lr a1 a2 a3) q2 oa ou hx''
      obtain ⟨d3, hd3⟩ := H.trace (f := f) (c := c) lw2 (rw2.ok ⟨oa, ou⟩) hy''
      exact ⟨_, .ratio_wbwb ru rv hd1 rw' hd2 rw2 hd3⟩
    | _ => exact gen h
  | _ => exact gen0 (by cases a <;> exact h)

end

theorem kronM_lab {env : Env K} (hz : env.Numbers z) {a b r : Mat K} {s t : DM D} (ha : Lab a s) (hb : Lab b t) (h : kronM env a b = .ok r) :
    ∃ x, Lab r x ∧ QRuns p z f c (.kron s t) x := by
  have zero {a b r : Mat K} (d : D) (h : kronZero a b = .ok r) : Lab r (.zero d) := by
    simp only [kronZero, bind_ok_iff, mkZero] at h
    obtain ⟨_, _, _, _, _, _, h⟩ := h
    cases h
    exact .zero
  by_cases hn : (∃ t, a = .num t) ∧ ∃ u, b = .num u
  · obtain ⟨⟨t, rfl⟩, u, rfl⟩ := hn
    cases ha
    cases hb
    simp only [kronM, bind_ok_iff, pure_eq_ok] at h
    obtain ⟨_, _, rfl⟩ := h
    exact ⟨_, .num, .kron_num⟩
  have e : kronM env a b = (match convertAM env b with
    | .zero bt r c => kronZero (convertAM env a) (.zero bt r c)
    | b =>
      match convertAM env a with
      | .zero bt r c => kronZero b (.zero bt r c)
      | .const s r c =>
        match b with
        | .const t r' c' => do mkConst (← nMul s t) [c * c', r * r']
        | b => .ok (.kron (.const s r c) b)
      | a => .ok (.kron a b)) := by
    cases a <;> cases b <;> first | rfl | exact (hn ⟨⟨_, rfl⟩, _, rfl⟩).elim
  rw [e] at h
  obtain ⟨s1, l1, c1⟩ := convertAM_lab' hz ha
  obtain ⟨s2, l2, c2⟩ := convertAM_lab' hz hb
  generalize convertAM env a = a' at h l1
  generalize convertAM env b = b' at h l2
  have l2' := l2
  have l1' := l1
  cases l2 with
  | zero => exact ⟨_, zero _ h, .kron_amZero c2⟩
  | const =>
    cases l1 with
    | zero => exact ⟨_, zero _ h, .kron_zeroAm c1⟩
    | const =>
      simp only [bind_ok_iff] at h
      obtain ⟨w, _, h⟩ := h
      exact ⟨_, mkConst_lab h _, .kron_const c1 c2⟩
    | _ => cases h; exact ⟨_, .kron l1' l2', .kron_am c1 c2 (by simp [DM.kind]) (by simp [DM.kind])⟩
  | _ =>
    cases l1 with
    | zero => exact ⟨_, zero _ h, .kron_zeroAm c1⟩
    | _ => cases h; exact ⟨_, .kron l1' l2', .kron_am c1 c2 (by simp [DM.kind]) (by simp [DM.kind])⟩

/-! ### The property -/

/-- A call of a derived function on typed matrices: `B.matmul_diag(a, b, tr_a, tr_b)`, `B.trace(a)`, `B.iqf(a, b)`, `B.iqf(a, b, c)`, `B.iqf_diag(a, b)`, `B.iqf_diag(a, b, c)`,
`B.ratio(a, b)`, `B.kron(a, b)`. -/
inductive QDOp (K D : Type) [Zero K] where
  | matmulDiag (ta tb : Bool) (a b : TMat K D)
  | trace (a : TMat K D)
  | iqf (a b : TMat K D)
  | iqf3 (a b c : TMat K D)
  | iqfDiag (a b : TMat K D)
  | iqfDiag3 (a b c : TMat K D)
  | ratio (a b : TMat K D)
  | kron (a b : TMat K D)

/-- Call the function; an array is written as a numeric matrix. -/
def QDOp.run (env : Env K) (B : Ops K) (L : LOps K) : QDOp K D → E (Mat K)
  | .matmulDiag ta tb a b => do return .num (← Verif.matmulDiag B ta tb a.mat b.mat)
  | .trace a => do return .num (← traceM B a.mat)
  | .iqf a b => iqfM B L true a.mat b.mat b.mat
  | .iqf3 a b c => iqfM B L false a.mat b.mat c.mat
  | .iqfDiag a b => do return .num (← iqfDiagM B L true a.mat b.mat b.mat)
  | .iqfDiag3 a b c => do return .num (← iqfDiagM B L false a.mat b.mat c.mat)
  | .ratio a b => do return .num (← ratioM B L a.mat b.mat)
  | .kron a b => kronM env a.mat b.mat

/-- The same call without values. -/
def QDOp.call : QDOp K D → QCall D
  | .matmulDiag ta tb a b => .md ta tb a.skel b.skel
  | .trace a => .trace a.skel
  | .iqf a b => .iqf a.skel b.skel b.skel
  | .iqf3 a b c => .iqf a.skel b.skel c.skel
  | .iqfDiag a b => .iqfDiag a.skel b.skel b.skel
  | .iqfDiag3 a b c => .iqfDiag a.skel b.skel c.skel
  | .ratio a b => .ratio a.skel b.skel
  | .kron a b => .kron a.skel b.skel

/-- The operands satisfy `P`. -/
def QDOp.Args (P : TMat K D → Prop) : QDOp K D → Prop
  | .trace a => P a
  | .matmulDiag _ _ a b | .iqf a b | .iqfDiag a b | .ratio a b | .kron a b => P a ∧ P b
  | .iqf3 a b c | .iqfDiag3 a b c => P a ∧ P b ∧ P c

/-- An array of an operand has data type `d`. -/
def QDOp.HasD (d : D) : QDOp K D → Prop
  | .trace a => a.HasD d
  | .matmulDiag _ _ a b | .iqf a b | .iqfDiag a b | .ratio a b | .kron a b => a.HasD d ∨ b.HasD d
  | .iqf3 a b c | .iqfDiag3 a b c => a.HasD d ∨ b.HasD d ∨ c.HasD d

theorem QDOp.call_all {S : D → Prop} (op : QDOp K D) : op.call.All S ↔ ∀ d, op.HasD d → S d := by
  cases op <;> simp only [QDOp.call, QCall.All, QDOp.HasD, TMat.all_iff, or_imp, forall_and, and_self]

theorem QDOp.call_ok (op : QDOp K D) (h : op.Args fun a => a.mat.Valid) : op.call.Ok := by
  have o {a : TMat K D} (h : a.mat.Valid) : a.skel.Ok := TMat.ok_of_wf h.choose_spec
  cases op with
  | trace a => exact o h
  | matmulDiag ta tb a b => exact ⟨o h.1, o h.2⟩
  | iqf a b => exact ⟨o h.1, o h.2, o h.2⟩
  | iqfDiag a b => exact ⟨o h.1, o h.2, o h.2⟩
  | ratio a b => exact ⟨o h.1, o h.2⟩
  | kron a b => exact ⟨o h.1, o h.2⟩
  | iqf3 a b c => exact ⟨o h.1, o h.2.1, o h.2.2⟩
  | iqfDiag3 a b c => exact ⟨o h.1, o h.2.1, o h.2.2⟩

theorem QDOp.call_noZero (op : QDOp K D) (h : op.Args fun a => a.skel.NoZero) : op.call.NoZero := by
  cases op with
  | iqf a b => exact ⟨h.1, h.2, h.2⟩
  | iqfDiag a b => exact ⟨h.1, h.2, h.2⟩
  | _ => exact h

theorem QDOp.calls (env : Env K) (op : QDOp K D) : LCalls (op.run env) := by
  cases op with
  | matmulDiag ta tb a b => exact fun _ _ _ _ _ h _ => Below.bind (matmulDiag_below h _ _ _ _) fun _ => .refl _
  | trace a => exact fun _ _ _ _ _ h _ => Below.bind (traceM_below h _) fun _ => .refl _
  | iqf a b => exact LCalls.iqf _ _ _ _
  | iqf3 a b c => exact LCalls.iqf _ _ _ _
  | iqfDiag a b => exact fun _ _ _ _ _ h h' => Below.bind (LCalls.iqfDiag _ _ _ _ _ _ _ _ _ h h') fun _ => .refl _
  | iqfDiag3 a b c => exact fun _ _ _ _ _ h h' => Below.bind (LCalls.iqfDiag _ _ _ _ _ _ _ _ _ h h') fun _ => .refl _
  | ratio a b => exact fun _ _ _ _ _ h h' => Below.bind (LCalls.ratio _ _ _ _ _ _ _ h h') fun _ => .refl _
  | kron a b => exact fun _ _ _ _ _ _ _ => .refl _

theorem QDOp.cov {env : Env K} (hz : env.Numbers z) {B : Ops K} {L : LOps K} (H : Cov p z B) (G : LCov p z f c L) (op : QDOp K D) (ho : op.call.Ok) {r : Mat K}
    (h : op.run env B L = .ok r) : ∃ x, Lab r x ∧ QRuns p z f c op.call x := by
  cases op with
  | matmulDiag ta tb a b =>
    simp only [QDOp.run, bind_ok_iff, pure_eq_ok] at h
    obtain ⟨t, h, rfl⟩ := h
    obtain ⟨d, hd⟩ := H.md (f := f) (c := c) a.lab b.lab ho.1 ho.2 h
    exact ⟨_, .num, hd⟩
  | trace a =>
    simp only [QDOp.run, bind_ok_iff, pure_eq_ok] at h
    obtain ⟨t, h, rfl⟩ := h
    obtain ⟨d, hd⟩ := H.trace (f := f) (c := c) a.lab ho h
    exact ⟨_, .num, hd⟩
  | iqf a b => exact LCov.iqf H G a.lab b.lab b.lab ho.1 ho.2.1 ho.2.1 (fun _ => rfl) h
  | iqf3 a b b' => exact LCov.iqf H G a.lab b.lab b'.lab ho.1 ho.2.1 ho.2.2 (fun h => by cases h) h
  | iqfDiag a b =>
    simp only [QDOp.run, bind_ok_iff, pure_eq_ok] at h
    obtain ⟨t, h, rfl⟩ := h
    obtain ⟨d, hd⟩ := LCov.iqfDiag H G a.lab b.lab b.lab ho.1 ho.2.1 ho.2.1 (fun _ => rfl) h
    exact ⟨_, .num, hd⟩
  | iqfDiag3 a b b' =>
    simp only [QDOp.run, bind_ok_iff, pure_eq_ok] at h
    obtain ⟨t, h, rfl⟩ := h
    obtain ⟨d, hd⟩ := LCov.iqfDiag H G a.lab b.lab b'.lab ho.1 ho.2.1 ho.2.2 (fun h => by cases h) h
    exact ⟨_, .num, hd⟩
  | ratio a b =>
    simp only [QDOp.run, bind_ok_iff, pure_eq_ok] at h
    obtain ⟨t, h, rfl⟩ := h
    obtain ⟨d, hd⟩ := LCov.ratio H G a.lab b.lab ho.1 ho.2 h
    exact ⟨_, .num, hd⟩
  | kron a b => exact kronM_lab hz a.lab b.lab h

/-- The typed matrix `r` is a result of the call (for `plain = true` in a run without zeros and without Cholesky factors of Constant and LowRank matrices). -/
def TQReturns (c : Cfg K) (lin : LinEnv K) (p : D → D → D) (f : D) (plain : Bool) (op : QDOp K D) (r : TMat K D) : Prop :=
  LReturns c lin (op.run c.code) r.mat ∧ QRuns p (!plain) f (!plain) op.call r.skel

/-- **C59.** Every result of a derived function on typed matrices is a typed matrix or array. -/
theorem C59_derived_covered {c : Cfg K} {lin : LinEnv K} (p : D → D → D) (f : D) {op : QDOp K D} {r : Mat K} (ho : op.Args fun a => a.mat.Valid)
    (h : LReturns c lin (op.run c.code) r) : ∃ r' : TMat K D, r'.mat = r ∧ TQReturns c lin p f false op r' := by
  obtain ⟨m, n, hr⟩ := h
  obtain ⟨x, l, run⟩ := op.cov (p := p) (z := true) (f := f) (c := true) (env := c.code) (fun h => by cases h) (ops_cov p (z := true) (fun h => by cases h) n)
    (lops_cov (env := c.code) (z := true) (lin := lin) (fun h => by cases h) (ops_cov p (z := true) (fun h => by cases h) n) m) (op.call_ok ho) hr
  obtain ⟨t, rfl, rfl⟩ := l.typed
  exact ⟨t, rfl, ⟨m, n, hr⟩, run⟩

/-- **C59.** The same for plain runs. -/
theorem C59_derived_covered_plain {c : Cfg K} {lin : LinEnv K} (p : D → D → D) (f : D) {op : QDOp K D} {r : Mat K} (ho : op.Args fun a => a.mat.Valid)
    (hn : ∀ t, c.isNumber t = true → t.get (fun _ => 0) ≠ 0) (h : LReturnsPlain c lin (op.run c.code) r) : ∃ r' : TMat K D, r'.mat = r ∧ TQReturns c lin p f true op r' := by
  have h' := h.returns (op.calls _)
  obtain ⟨m, n, hr⟩ := h
  obtain ⟨x, l, run⟩ := op.cov (p := p) (z := false) (f := f) (c := false) (env := c.code) (fun _ => hn) (ops_cov p (Cfg.noCancel_zeros hn) n)
    (lopsPlain_cov (env := c.code) (lin := lin) (fun _ => hn) (ops_cov p (Cfg.noCancel_zeros hn) n) m) (op.call_ok ho) hr
  obtain ⟨t, rfl, rfl⟩ := l.typed
  exact ⟨t, rfl, h', run⟩

/-- **C59.** No data type appears out of nowhere in the derived functions. -/
theorem C59_derived_closed {c : Cfg K} {lin : LinEnv K} {p : D → D → D} {f : D} {b : Bool} {op : QDOp K D} {r : TMat K D} (h : TQReturns c lin p f b op r) {S : D → Prop}
    (hS : ∀ x y, S x → S y → S (p x y)) (hf : ∀ x, S x → S (p x f)) (ho : ∀ d, op.HasD d → S d) (d : D) (hd : r.HasD d) : S d :=
  r.all_iff.1 (h.2.all hS (fun _ => hf) (op.call_all.2 ho)) d hd

/-- **C59.** The derived functions in double precision are in double precision. -/
theorem C59_derived_uniform {c : Cfg K} {lin : LinEnv K} {δ : DEnv K D} {d f : D} {b : Bool} (hδ : δ.promote d d = d) (hf : δ.promote d f = d) {op : QDOp K D} {r : TMat K D}
    (ho : op.Args fun a => a.mat.Valid) (h : TQReturns c lin δ.promote f b op r) (h1 : ∀ e, op.HasD e → e = d) : (∀ e, r.HasD e → e = d) ∧ dtypeM δ r = .ok d := by
  have hc : ∀ e, r.HasD e → e = d := C59_derived_closed h (S := (· = d)) (by rintro x y rfl rfl; exact hδ) (by rintro x rfl; exact hf) h1
  refine ⟨hc, ?_⟩
  obtain ⟨e, he⟩ := (h.2.ok (op.call_ok ho)).dt δ.promote
  have := he.all (S := (· = d)) (by rintro x y rfl rfl; exact hδ) (r.all_iff.2 hc)
  subst this
  exact (dtypeM_iff r).2 he

/-- **C59.** In plain runs the result of a derived function has the promotion of the data types of all arrays of the operands. -/
theorem C59_derived_promoted [SemilatticeSup D] {c : Cfg K} {lin : LinEnv K} {δ : DEnv K D} (hδ : δ.promote = (· ⊔ ·)) {f : D} {op : QDOp K D} {r : TMat K D}
    (ho : op.Args fun a => a.mat.Valid) (hn : op.Args fun a => a.skel.NoZero) (h : TQReturns c lin δ.promote f true op r) :
    ∃ d, dtypeM δ r = .ok d ∧ IsLUB {e | op.HasD e} d := by
  obtain ⟨d, he⟩ := (h.2.ok (op.call_ok ho)).dt δ.promote
  refine ⟨d, (dtypeM_iff r).2 he, ?_⟩
  rw [hδ] at he
  have hr := h.2
  rw [hδ] at hr
  have key : ∀ u, d ≤ u ↔ ∀ e, op.HasD e → e ≤ u := fun u => by
    rw [he.le, ← op.call_all]
    exact ⟨hr.back u (op.call_noZero hn), hr.all (fun _ _ => sup_le) fun h => by cases h⟩
  exact ⟨fun e hd => (key d).1 (le_refl d) e hd, fun u hu => (key u).2 fun e hd => hu hd⟩

/-! ### Cases meeting the hypotheses -/

/-- A derived function with a result in a plain run. -/
theorem Ex.qpromotes (f : Bool) {op : QDOp ℚ Bool} (ho : op.Args fun a => a.mat.Valid) {n k : ℕ}
    (h : isOk (op.run cfgA.code (ops cfgA.noCancel n) (lopsPlain cfgA.code lin (ops cfgA.noCancel n) k)) = true) : ∃ r, TQReturns cfgA lin denv.promote f true op r := by
  obtain ⟨r, hr⟩ := exists_of_isOk h
  obtain ⟨r', -, h'⟩ := C59_derived_covered_plain denv.promote f ho (fun _ h => by cases h) ⟨k, n, hr⟩
  exact ⟨r', h'⟩

example : ∃ r, TQReturns Ex.cfgA Ex.lin Ex.denv.promote true true (.ratio Ex.tP Ex.tP) r ∧ dtypeM Ex.denv r = .ok true := by
  obtain ⟨r, h⟩ := Ex.qpromotes true (op := .ratio Ex.tP Ex.tP) ⟨Ex.tP_valid, Ex.tP_valid⟩ (n := 12) (k := 9) (by decide +kernel)
  obtain ⟨d, hd, hu⟩ := C59_derived_promoted (op := .ratio Ex.tP Ex.tP) rfl ⟨Ex.tP_valid, Ex.tP_valid⟩ ⟨⟨⟨⟩, ⟨⟩, ⟨⟩⟩, ⟨⟨⟩, ⟨⟩, ⟨⟩⟩⟩ h
  have : d = true := top_le_iff.1 <| hu.1 (show true ∈ _ from Or.inl (.inl rfl))
  exact ⟨r, h, this ▸ hd⟩
example : ∃ r, TQReturns Ex.cfgA Ex.lin Ex.denv.promote true true (.iqf3 Ex.tA Ex.tD Ex.tR) r ∧ dtypeM Ex.denv r = .ok true := by
  obtain ⟨r, h⟩ := Ex.qpromotes true (op := .iqf3 Ex.tA Ex.tD Ex.tR) ⟨Ex.tA_valid, Ex.tD_valid, Ex.tR_valid⟩ (n := 12) (k := 9) (by decide +kernel)
  obtain ⟨d, hd, hu⟩ := C59_derived_promoted (op := .iqf3 Ex.tA Ex.tD Ex.tR) rfl ⟨Ex.tA_valid, Ex.tD_valid, Ex.tR_valid⟩ ⟨⟨⟩, ⟨⟩, ⟨⟨⟩, ⟨⟩, ⟨⟩⟩⟩ h
  have : d = true := top_le_iff.1 <| hu.1 (show true ∈ _ from Or.inl rfl)
  exact ⟨r, h, this ▸ hd⟩
example : ∃ r, TQReturns Ex.cfgA Ex.lin Ex.denv.promote true true (.kron Ex.tD Ex.tW) r ∧ dtypeM Ex.denv r = .ok true := by
  obtain ⟨r, h⟩ := Ex.qpromotes true (op := .kron Ex.tD Ex.tW) ⟨Ex.tD_valid, Ex.tW_valid⟩ (n := 3) (k := 3) (by decide +kernel)
  obtain ⟨d, hd, hu⟩ := C59_derived_promoted (op := .kron Ex.tD Ex.tW) rfl ⟨Ex.tD_valid, Ex.tW_valid⟩ ⟨⟨⟩, ⟨⟨⟩, ⟨⟩, ⟨⟩⟩⟩ h
  have : d = true := top_le_iff.1 <| hu.1 (show true ∈ _ from Or.inr (.inr (.inr (.inl rfl))))
  exact ⟨r, h, this ▸ hd⟩

end Verif
